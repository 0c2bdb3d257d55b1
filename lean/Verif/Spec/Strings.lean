import Verif.Spec.Tree
/-
What literals of the Nix language denote: strings, paths, integers, search paths. Written after the Nix manual and the
lexer of Nix (src/libexpr/lexer.l); indentation is not removed from indented strings.
-/
namespace Verif.Strings
open Nixf Lexical

/-- A piece of a string or path: an interpolation or a character. -/
abbrev Piece := Node ⊕ UInt8

/-- The characters of a text. -/
def chars (t : Bytes) : List Piece := t.map .inr

/-- The pieces of a list of fragments, however the text is divided into fragments. -/
def pieces : List Node → List Piece
  | [] => []
  | .text t :: fs => chars t ++ pieces fs
  | n :: fs => .inl n :: pieces fs

/-- Lexical rules of strings. -/
structure Rules where
  /-- length and text of the escape sequence at the start of the source -/
  esc : Bytes → Option (Nat × Bytes)
  /-- the closing quote -/
  quote : Bytes
  /-- number of ordinary characters to be read at a dollar sign; zero: an interpolation starts here -/
  dollar : Bytes → Nat

/-- The character denoted by a backslash and `c`. -/
def escaped (c : UInt8) : UInt8 := if c = 110 then 10 else if c = 114 then 13 else if c = 116 then 9 else c

/-- Escape sequences of double-quoted strings. A backslash at the end of the source denotes nothing. -/
def dqEsc : Bytes → Option (Nat × Bytes)
  | 92 :: c :: _ => some (2, [escaped c])
  | [92] => some (1, [])
  | _ => none

/-- Escape sequences of indented strings: `''$`, `'''`, and `''\` in front of a character. -/
def indEsc : Bytes → Option (Nat × Bytes)
  | 39 :: 39 :: 36 :: _ => some (3, b!"$")
  | 39 :: 39 :: 39 :: _ => some (3, b!"''")
  | 39 :: 39 :: 92 :: c :: _ => some (4, [escaped c])
  | [39, 39, 92] => some (3, [])
  | _ => none

/-- A dollar sign in front of a brace starts an interpolation, if it is not itself the second one of a pair of dollar
signs. -/
def dollars : Bytes → Nat
  | 36 :: 36 :: _ => 2
  | 36 :: 123 :: _ => 0
  | _ => 1

/-- Double-quoted strings. -/
def dq : Rules := ⟨dqEsc, b!"\"", dollars⟩
/-- Indented strings. -/
def ind : Rules := ⟨indEsc, b!"''", dollars⟩

/-- What the code takes as a text at a dollar sign: two dollar signs and a brace are read as text, wherever they are. -/
def codeDollars : Bytes → Nat
  | 36 :: 36 :: 123 :: _ => 3
  | 36 :: 123 :: _ => 0
  | _ => 1

/-- What the code records for escape sequences in indented strings: always a single quote. -/
def codeIndEsc : Bytes → Option (Nat × Bytes)
  | 39 :: 39 :: 36 :: _ => some (3, b!"'")
  | 39 :: 39 :: 39 :: _ => some (3, b!"'")
  | 39 :: 39 :: 92 :: _ :: _ => some (4, b!"'")
  | [39, 39, 92] => some (3, b!"'")
  | _ => none

/-- The rules the code follows. -/
def dqCode : Rules := ⟨dqEsc, b!"\"", codeDollars⟩
def indCode : Rules := ⟨codeIndEsc, b!"''", codeDollars⟩

/-- `n` is an interpolation that starts at offset `o`; the text continues at `e`. If the closing brace is missing,
white space and comments in between have been skipped. -/
def InterpAt (src : Bytes) (n : Node) (o e : Nat) : Prop :=
  (∃ h x, n = .interpolation h x) ∧ n.lCur.offset = o ∧ o < n.rCur.offset ∧ n.rCur.offset ≤ e ∧
    Trivia ((src.drop n.rCur.offset).take (e - n.rCur.offset)) (src.drop e)

/-- `Body R src o l e`: the string whose body starts at offset `o` has the pieces `l`, its body ends at `e`, in front of
the closing quote or at the end of the source. -/
inductive Body (R : Rules) (src : Bytes) : Nat → List Piece → Nat → Prop
  | close (o) : R.quote <+: src.drop o → R.esc (src.drop o) = none → Body R src o [] o
  | eof (o) : src.drop o = [] → Body R src o [] o
  | esc (o n t l e) : R.esc (src.drop o) = some (n, t) → Body R src (o + n) l e → Body R src o (chars t ++ l) e
  | char (o c r l e) : src.drop o = c :: r → c ≠ 36 → ¬ R.quote <+: src.drop o → R.esc (src.drop o) = none →
      Body R src (o + 1) l e → Body R src o (.inr c :: l) e
  | dollar (o r l e) : src.drop o = 36 :: r → R.dollar (src.drop o) ≠ 0 →
      Body R src (o + R.dollar (src.drop o)) l e →
      Body R src o (chars ((src.drop o).take (R.dollar (src.drop o))) ++ l) e
  | interp (o r n x l e) : src.drop o = 36 :: r → R.dollar (src.drop o) = 0 → InterpAt src n o x → Body R src x l e →
      Body R src o (.inl n :: l) e

/-- The text between two quotes: the string that starts at `o` has the pieces `l`; `r` is the end of its range. Without a
closing quote the body extends to the end of the source. -/
def Quoted (R : Rules) (src : Bytes) (o : Nat) (l : List Piece) (r : Nat) : Prop :=
  R.quote <+: src.drop o ∧ ∃ e, Body R src (o + R.quote.length) l e ∧
    (R.quote <+: src.drop e ∧ r = e + R.quote.length ∨ src.length ≤ e ∧ r ≤ e)

/-- `Verbatim src o l e`: the pieces `l` are the characters of the source between the offsets `o` and `e`, and
interpolations. -/
inductive Verbatim (src : Bytes) : Nat → List Piece → Nat → Prop
  | nil (o) : Verbatim src o [] o
  | char (o c r l e) : src.drop o = c :: r → Verbatim src (o + 1) l e → Verbatim src o (.inr c :: l) e
  | interp (o r n x l e) : src.drop o = 36 :: 123 :: r → InterpAt src n o x → Verbatim src x l e →
      Verbatim src o (.inl n :: l) e

/-- The decimal digits `ds` denote the number `n`. -/
inductive Decimal : Bytes → Nat → Prop
  | nil : Decimal [] 0
  | snoc (ds n d) : Decimal ds n → 48 ≤ d → d ≤ 57 → Decimal (ds ++ [d]) (10 * n + (d.toNat - 48))

end Verif.Strings
