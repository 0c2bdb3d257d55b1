import Verif.Model.Lexer
import Verif.Spec.Lexical
/-
Specification of what a parser consumes: tokens in the order of the source, with nothing but white space and comments in
between.
-/
namespace Verif.Nixf
open Lexical

/-- `ts` are tokens of `src` between the offsets `a` and `b`, in order and without overlap. Each one carries the text of
its range, and the text outside of them is white space and comments. -/
inductive Consumed (src : Bytes) : Nat → List Token → Nat → Prop
  | nil (a : Nat) : a ≤ src.length → Consumed src a [] a
  | snoc (a b : Nat) (ts : List Token) (t : Token) (h : Consumed src a ts b) (hb : b ≤ t.range.l.offset)
      (hl : At src t.range.l) (hr : At src t.range.r) (hle : t.range.l.offset ≤ t.range.r.offset)
      (ht : t.view = slice src t.range)
      (hgap : Trivia ((src.drop b).take (t.range.l.offset - b)) (src.drop t.range.l.offset)) :
      Consumed src a (ts ++ [t]) t.range.r.offset

end Verif.Nixf
