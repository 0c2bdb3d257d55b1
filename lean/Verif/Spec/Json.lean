import Verif.Spec.Syntax
import Verif.Model.JsonToNix
/-
JSON values as Nix expressions.
-/
namespace Verif.Nixf.Syntax
open Lexical

/-- A character of a string. -/
def chs (t : Bytes) : List Syn := t.map .ch

/-- The name of an attribute: an identifier or a string without interpolations. -/
inductive NameIs : Syn → Bytes → Prop
  | id (k : Bytes) : NameIs (.name k) k
  | str (k : Bytes) : NameIs (.strName (chs k)) k

mutual
/-- The Nix expression evaluates to the JSON value (that is, `builtins.toJSON` gives this value): literals, lists and sets of
them. `true`, `false` and `null` are taken to be those of `builtins`. -/
inductive Denotes : Syn → Json → Prop
  | null : Denotes (.var b!"null") .null
  | true_ : Denotes (.var b!"true") (.bool true)
  | false_ : Denotes (.var b!"false") (.bool false)
  | int (n : Int) : Denotes (.int n) (.int n)
  | neg (n : Int) : Denotes (.un .op_negate (.int n)) (.int (-n))
  | float (t : Bytes) : Denotes (.float t) (.dbl t)
  | negFloat (t : Bytes) : Denotes (.un .op_negate (.float t)) (.dbl (45 :: t))
  | str (t : Bytes) : Denotes (.str (chs t)) (.str t)
  | list (l vs) : DenotesL l vs → Denotes (.list l) (.arr vs)
  | set (l ms) : DenotesM l ms → (ms.map fun | .mk k _ => k).Nodup → Denotes (.set false l) (.obj ms)
/-- The elements of a list. -/
inductive DenotesL : List Syn → List Json → Prop
  | nil : DenotesL [] []
  | cons (e v l vs) : Denotes e v → DenotesL l vs → DenotesL (e :: l) (v :: vs)
/-- The bindings of a set. -/
inductive DenotesM : List Syn → List Member → Prop
  | nil : DenotesM [] []
  | cons (n k e v l ms) : NameIs n k → Denotes e v → DenotesM l ms → DenotesM (.binding [n] e :: l) (.mk k v :: ms)
end

mutual
/-- What `llvm::json::parse` guarantees: integers fit into 64 bits, other numbers are not printed as nothing, and the keys
of an object are distinct. -/
def WF : Json → Prop
  | .int n => -2 ^ 63 ≤ n ∧ n < 2 ^ 63
  | .dbl t => t ≠ []
  | .arr es => WFL es
  | .obj ms => WFM ms ∧ (ms.map fun | .mk k _ => k).Nodup
  | _ => True
def WFL : List Json → Prop
  | [] => True
  | e :: es => WF e ∧ WFL es
def WF1 : Member → Prop
  | .mk _ v => WF v
def WFM : List Member → Prop
  | [] => True
  | m :: ms => WF1 m ∧ WFM ms
end

mutual
/-- Nesting of arrays and objects. Empty ones do not count. -/
def level : Json → Nat
  | .arr es => levelL es
  | .obj ms => levelM ms
  | _ => 0
def levelL : List Json → Nat
  | [] => 0
  | e :: es => max (level e + 1) (levelL es)
def level1 : Member → Nat
  | .mk _ v => level v + 1
def levelM : List Member → Nat
  | [] => 0
  | m :: ms => max (level1 m) (levelM ms)
end

mutual
/-- No array or object has more than 10000 elements. -/
def Narrow : Json → Prop
  | .arr es => es.length ≤ 10000 ∧ NarrowL es
  | .obj ms => ms.length ≤ 10000 ∧ NarrowM ms
  | _ => True
def NarrowL : List Json → Prop
  | [] => True
  | e :: es => Narrow e ∧ NarrowL es
def Narrow1 : Member → Prop
  | .mk _ v => Narrow v
def NarrowM : List Member → Prop
  | [] => True
  | m :: ms => Narrow1 m ∧ NarrowM ms
end

/-- The text of a number is a float of Nix: digits (no superfluous zero), a dot, digits, and possibly an exponent. -/
def FloatText (t : Bytes) : Prop :=
  ∃ d ds fs e, t = d :: ds ++ 46 :: (fs ++ e) ∧ (∀ x ∈ d :: ds, x ∈ digits) ∧ (∀ x ∈ fs, x ∈ digits) ∧
    (e = [] ∨ IsExponent e) ∧ (d = 48 → ds = [])

/-- A number that is written with a minus sign. -/
def negative : Json → Prop
  | .int n => n < 0
  | .dbl t => t.head? = some 45
  | _ => False

mutual
/-- What the conversion can express: not the smallest integer, numbers with a fraction only, and no negative number as an
element of an array. -/
def Plain : Json → Prop
  | .int n => n ≠ -2 ^ 63
  | .dbl t => FloatText t ∨ ∃ t', t = 45 :: t' ∧ FloatText t'
  | .arr es => PlainL es
  | .obj ms => PlainM ms
  | _ => True
def PlainL : List Json → Prop
  | [] => True
  | e :: es => Plain e ∧ ¬ negative e ∧ PlainL es
def Plain1 : Member → Prop
  | .mk _ v => Plain v
def PlainM : List Member → Prop
  | [] => True
  | m :: ms => Plain1 m ∧ PlainM ms
end

end Verif.Nixf.Syntax
