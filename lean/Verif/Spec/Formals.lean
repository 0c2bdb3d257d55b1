import Verif.Model.Sema
/-
Formal parameters: which one a name stands for, and what is to be reported.
-/
namespace Verif.Nixf

/-- The formal has the name `x`. -/
def HasName (f : Node) (x : Bytes) : Prop := (formalID f).isNull = false ∧ (formalID f).name = x

/-- `f` is the first formal of the name `x`. -/
def FirstOf (fv : List Node) (x : Bytes) (f : Node) : Prop :=
  ∃ pre post, fv = pre ++ f :: post ∧ HasName f x ∧ ∀ g ∈ pre, ¬ HasName g x

/-- What a rule reports for the members of a list, one after the other; the rule sees the member and those before and after it. -/
def reports {α : Type} (rule : List Node → Node → List Node → α → Prop) : List Node → List Node → List α → Prop
  | _, [], out => out = []
  | pre, f :: post, out =>
    (∃ d rest, rule pre f post d ∧ out = d :: rest ∧ reports rule (pre ++ [f]) post rest) ∨
      ((∀ d, ¬ rule pre f post d) ∧ reports rule (pre ++ [f]) post out)

/-- A later formal of a name: reported at its identifier, with the first one in the note. -/
def DuplicateRule (pre : List Node) (f : Node) (_ : List Node) (d : Diagnostic) : Prop :=
  ∃ x first, HasName f x ∧ FirstOf pre x first ∧ 
    d = { kind := .duplicatedFormal, range := (formalID f).range, notes := [{ kind := .duplicateFormal, range := (formalID first).range }] }

/-- An ellipsis that is not the last member: needless if the last member is one as well, misplaced otherwise. -/
def EllipsisRule (_ : List Node) (f : Node) (post : List Node) (k : DK × CRange) : Prop :=
  formalIsEllipsis f = true ∧ ∃ last, post.getLast? = some last ∧
    k = (if formalIsEllipsis last then DK.formalExtraEllipsis else .formalMisplacedEllipsis, f.range)

/-- A member without comma that is not the first one. -/
def SeparatorRule (pre : List Node) (f : Node) (_ : List Node) (k : DK × CRange) : Prop :=
  pre ≠ [] ∧ (formalComma f).isNull = true ∧ k = (.formalMissingComma, f.range)

/-- A comma with nothing behind it, other than at the end. -/
def EmptyRule (_ : List Node) (f : Node) (post : List Node) (k : DK × CRange) : Prop :=
  post ≠ [] ∧ (formalComma f).isNull = false ∧ (formalID f).isNull = true ∧ formalIsEllipsis f = false ∧ k = (.emptyFormal, f.range)

end Verif.Nixf
