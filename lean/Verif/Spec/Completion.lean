import Verif.Spec.Scope
import Verif.Spec.AttrPath
import Verif.Model.Completion
/-
What may be completed: the names in scope, what variables denote in nixpkgs, and the text of snippets.
-/
namespace Verif.Nixf.Scoping

/-- The name is defined by a binder around this place, or by Nix. -/
def InScope (P : PrimOps) (Δ : List Frame) (x : Bytes) : Prop := Global P x ∨ ∃ f ∈ Δ, f.binds x ≠ none

/-- The name does not come from a `with`, and is not one of the internal functions of Nix. -/
def Plain (P : PrimOps) (Δ : List Frame) (x : Bytes) : Prop :=
  InScope P Δ x ∨ (withsOf Δ = [] ∧ ∀ b, (x, b) ∉ P)

/-- The texts of the names of a path; a missing path has no names. -/
def pathTexts : Node → Option (List Bytes)
  | .attrPath _ names _ => names.mapM AttrPaths.textOf
  | _ => some []

/-- `Denotes root Δ v l`: the variable `v` is taken for the attribute at the path `l` of nixpkgs. By convention `pkgs` is
all of nixpkgs, and `lib` is its attribute `lib`. A name that may come from a `with` is taken from the outermost one. -/
inductive Denotes (P : PrimOps) (root : Node) : List Frame → Node → List Bytes → Prop
  | lib (Δ v) : Plain P Δ (varName v) → varName v = b!"lib" → Denotes P root Δ v [b!"lib"]
  | pkgs (Δ v) : Plain P Δ (varName v) → varName v = b!"pkgs" → Denotes P root Δ v []
  | withVar (Δ v h k s w e Γ l) : ¬ InScope P Δ (varName v) → (withsOf Δ).getLast? = some (.exprWith h k s w e) →
      Occurs root Γ w → Denotes P root Γ w l → Denotes P root Δ v (l ++ [varName v])
  | withSelect (Δ v h k s hs b d p f x e Γ l ts) : ¬ InScope P Δ (varName v) →
      (withsOf Δ).getLast? = some (.exprWith h k s (.exprSelect hs b d p f x) e) →
      Occurs root Γ b → Denotes P root Γ b l → pathTexts p = some ts → Denotes P root Δ v (l ++ ts ++ [varName v])

end Verif.Nixf.Scoping

namespace Verif.Nixf.Complete
open Scoping

/-- The name begins with what is typed, and is not an internal one. -/
def Matching (pfx x : Bytes) : Prop := pfx <+: x ∧ ¬ b!"__" <+: x

/-- The items are those of the names in scope: a variable for every name with a binder, a keyword for every name of Nix. -/
structure NamesOffered (P : PrimOps) (Δ : List Frame) (pfx : Bytes) (L : List Item) : Prop where
  variables : ∀ x, ({ label := x, kind := .variable_ } : Item) ∈ L ↔ (∃ f ∈ Δ, f.binds x ≠ none) ∧ Matching pfx x
  globals : ∀ x, ({ label := x, kind := .keyword } : Item) ∈ L ↔ Global P x ∧ Matching pfx x
  only : ∀ i ∈ L, ∃ x, i = { label := x, kind := .variable_ } ∨ i = { label := x, kind := .keyword }

/-- An item for every attribute at the path that begins with the prefix, replacing the text at `edit`. -/
def attrsOffered (worker : List Bytes → Option (List Bytes)) (edit : Server.LRange) (path : List Bytes) (pfx : Bytes) : List Item :=
  (((worker path).getD []).filter fun x => decide (pfx <+: x)).map fun x =>
    { label := x, kind := .field, textEdit := some (edit, x), data := some ⟨path, pfx⟩ }

/-- The items of nixpkgs for a variable: the attributes next to the one it denotes. -/
inductive PackagesOffered (P : PrimOps) (root : Node) (Δ : List Frame) (v : Node) (worker : List Bytes → Option (List Bytes))
    (edit : Server.LRange) : List Item → Prop
  | attrs (path pfx) : Denotes P root Δ v (path ++ [pfx]) → PackagesOffered P root Δ v worker edit (attrsOffered worker edit path pfx)
  | nothing : (∀ path pfx, ¬ Denotes P root Δ v (path ++ [pfx])) → PackagesOffered P root Δ v worker edit []

/-- At most 30 of the candidates are sent, marked as incomplete if there are more. -/
def sent (candidates : List Item) : Outcome := .list (candidates.take 30) (decide (30 < candidates.length))

end Verif.Nixf.Complete

namespace Verif.Nixf.Complete

/-- The text of a placeholder of a snippet up to its end, and what follows: a backslash makes the next character `$`, `}`
or `\` an ordinary one. A nested placeholder is not read. -/
def placeholder : Bytes → Option (Bytes × Bytes)
  | [] => none
  | 92 :: c :: s =>
    if c = 36 ∨ c = 125 ∨ c = 92 then (placeholder s).map fun r => (c :: r.1, r.2)
    else (placeholder (c :: s)).map fun r => (92 :: r.1, r.2)
  | c :: s =>
    if c = 125 then some ([], s) else if c = 36 then none else (placeholder s).map fun r => (c :: r.1, r.2)

/-- The text that an editor inserts for a snippet of the Language Server Protocol, with the cursor in the placeholders.
Only the placeholder number one is read. -/
def expand : Nat → Bytes → Option Bytes
  | 0, _ => none
  | _ + 1, [] => some []
  | k + 1, 36 :: 123 :: 49 :: 58 :: s => (placeholder s).bind fun r => (expand k r.2).map (r.1 ++ ·)
  | k + 1, c :: s =>
    if c = 36 then none
    else if c = 92 then
      match s with
      | d :: s' => if d = 36 ∨ d = 125 ∨ d = 92 then (expand k s').map (d :: ·) else (expand k s).map (c :: ·)
      | [] => some [c]
    else (expand k s).map (c :: ·)

end Verif.Nixf.Complete
