import Verif.Spec.Parents
/-
Where a node is nested in attribute sets, in terms of the syntax only.
-/
namespace Verif.Nixf.AttrPaths

/-- `n` is the value of a binding `p = n;` of the set `S`. -/
def ValueOf (root S p n : Node) : Prop :=
  Reach root S ∧ n.isNode = true ∧ ∃ h hb bs r st dy hn eq, S = .exprAttrs h (.binds hb bs) r st dy ∧ .binding hn p eq n ∈ bs

/-- `n` is the expression of a name `${n}` in the path of a binding of the set `S`. -/
def InName (root S n : Node) : Prop :=
  Reach root S ∧ n.isNode = true ∧ ∃ h hb bs r st dy hn hp names ds eq v ha hi, S = .exprAttrs h (.binds hb bs) r st dy ∧
    .binding hn (.attrPath hp names ds) eq v ∈ bs ∧ .attrNameInterp ha (.interpolation hi n) ∈ names

/-- The names of a path. -/
def namesOf : Node → List Node
  | .attrPath _ names _ => names
  | _ => []

/-- The names on the way from the outermost set to the value `n`: every set is itself the value of a binding of the next
one. -/
inductive Nested (root : Node) : Node → List Node → Prop
  | top (n) : (∀ S p, ¬ ValueOf root S p n) → (∀ S, ¬ InName root S n) → Nested root n []
  | value (n S p l) : ValueOf root S p n → Nested root S l → Nested root n (l ++ namesOf p)

/-- The path `p` belongs to the expression `e`. -/
inductive Owns : Node → Node → Prop
  | set (h hb bs r st dy hn p eq v) : .binding hn p eq v ∈ bs → Owns (.exprAttrs h (.binds hb bs) r st dy) p
  | select (h e d p f x) : Owns (.exprSelect h e d p f x) p
  | hasAttr (h o e p) : Owns (.exprOpHasAttr h o e p) p

/-- The text of a name that is known without evaluation: of an identifier, or of a string without interpolations. -/
def textOf : Node → Option Bytes
  | .attrNameID _ (.identifier _ x) => some x
  | .attrNameString _ (.exprString _ (.parts _ [.text t])) => some t
  | _ => none

end Verif.Nixf.AttrPaths
