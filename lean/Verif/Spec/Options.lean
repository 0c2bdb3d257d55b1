import Verif.Model.Options
/-
What an option path denotes in a tree of options that does not change.
-/
namespace Verif.Nixt

/-- The attribute `x` of `v` is at `l`. -/
def Fld (v : Val) (x : Bytes) (l : Loc) : Prop := ∃ as, v = .attrs as ∧ as.lookup x = some l

/-- `v` has the name `x`, as types have. -/
def Named (H : Heap) (v : Val) (x : Bytes) : Prop := ∃ n, Fld v b!"name" n ∧ H n = .str x

/-- The options of a submodule type. -/
def SubOptions (H : Heap) (t w : Val) : Prop := ∃ g r, Fld t b!"getSubOptions" g ∧ H g = .fn r ∧ H r = w

/-- `v` is an option whose type, at `t`, is a submodule. -/
def Submodule (H : Heap) (v : Val) (t : Loc) : Prop := Fld v b!"type" t ∧ Named H (H t) b!"submodule"

/-- `w` is what there is to select from in `v`: the options of the submodule, if `v` is one. -/
inductive Entered (H : Heap) : Val → Val → Prop
  | submodule (v t w) : Submodule H v t → SubOptions H (H t) w → Entered H v w
  | plain (v) : (∀ t, ¬ Submodule H v t) → Entered H v v

def IsOption (H : Heap) (v : Val) : Prop := ∃ n, Fld v b!"_type" n ∧ H n = .str b!"option"

/-- `v` is an option for an attribute set whose elements have the type at `et`. -/
def AttrsOf (H : Heap) (v : Val) (et : Loc) : Prop :=
  ∃ t nt, Fld v b!"type" t ∧ Named H (H t) b!"attrsOf" ∧ Fld (H t) b!"nestedTypes" nt ∧ Fld (H nt) b!"elemType" et

/-- Attributes are selected from `v`: it is no option, or an option of another type. -/
def Plain (H : Heap) (v : Val) : Prop :=
  IsOption H v → ∃ t, Fld v b!"type" t ∧ (Named H (H t) b!"attrsOf" → ∃ et, AttrsOf H v et ∧ ¬ Named H (H et) b!"submodule")

/-- The value a path leads to. At an option for an attribute set of submodules, one name is skipped. -/
inductive Leads (H : Heap) : Val → List Bytes → Val → Prop
  | here (v w) : Entered H v w → Leads H v [] w
  | elem (v w et w' p ps r) : Entered H v w → IsOption H w → AttrsOf H w et → Named H (H et) b!"submodule" →
      SubOptions H (H et) w' → Leads H w' ps r → Leads H v (p :: ps) r
  | attr (v w l p ps r) : Entered H v w → Plain H w → Fld w p l → Leads H (H l) ps r → Leads H v (p :: ps) r

/-- Types are not options of submodules: the options of a submodule are a set that is not itself a submodule nor named as
types are, an option of a submodule is not named as types are, and neither are the nested types of a type. -/
structure Sane (H : Heap) : Prop where
  sub : ∀ t w, Named H (H t) b!"submodule" → SubOptions H (H t) w → (∃ as, w = .attrs as) ∧ (∀ t', ¬ Submodule H w t') ∧ ∀ x, ¬ Named H w x
  opt : ∀ l t, Submodule H (H l) t → ∀ x, ¬ Named H (H l) x
  nested : ∀ t x nt, Named H (H t) x → Fld (H t) b!"nestedTypes" nt → ∀ t', ¬ Submodule H (H nt) t'

end Verif.Nixt
