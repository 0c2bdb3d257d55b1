import Verif.Model.Ast
/-
Which paths of a program are looked at for links.
-/
namespace Verif.Nixf.Links

def IsPath : Node → Prop
  | .exprPath .. => True
  | _ => False

/-- `m` is in the tree of `n`, and not inside a path. -/
inductive Outer : Node → Node → Prop
  | here (n) : Outer n n
  | down (n c m) : ¬ IsPath n → c ∈ n.children → Outer c m → Outer n m

/-- A path without interpolations, with its text. -/
def Literal (n : Node) (t : Bytes) : Prop := ∃ h hp, n = .exprPath h (.parts hp [.text t])

end Verif.Nixf.Links
