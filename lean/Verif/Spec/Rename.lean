import Verif.Spec.Scope
import Verif.Spec.Parents
import Verif.Model.Server
/-
The variable at the cursor, and the edits that rename a variable.
-/
namespace Verif.Nixf
open Scoping Server

/-- The node `n` found at the cursor belongs to the variable `v`: it is `v` or its identifier, or it is part of a name `x` of
`inherit x;` where `v` is what the attribute `x` stands for. -/
inductive CursorOn (root : Node) : Node → Node → Prop
  | var (n v) : Reach root v → isVar v = true → (n = v ∨ n ∈ v.children) → CursorOn root n v
  | inherit (n h hb bs r st dy hi ns an x a) : Reach root (.exprAttrs h (.binds hb bs) r st dy) → .inherit hi ns .null ∈ bs →
      an ∈ ns → an.isNode = true → an.staticName? = some x → Reach an n →
      st.find? (fun a => attrName a == x) = some a → isVar (attrValue a) = true → CursorOn root n (attrValue a)

/-- The edits that put `new` in place of these uses and this definition. -/
def editsOf (src new : Bytes) (uses : List Node) (def_ : Node) : List (LRange × Bytes) :=
  uses.map (fun u => (toLSPRange src u.range, new)) ++ [(toLSPRange src def_.range, new)]

end Verif.Nixf
