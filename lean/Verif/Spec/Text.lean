import Verif.Base
import Verif.Model.SourceCode
/-
Specification of text positions, written on lists of Unicode scalar values (`Char`).
Independent of the byte-level model (only the record `Position` is shared).
-/
namespace Verif.Spec

/-- UTF-8 encoding of a text (Lean core's encoder of one character). -/
def encode (cs : List Char) : Bytes := cs.flatMap String.utf8EncodeChar

/-- Number of UTF-16 code units of a character. -/
def units (c : Char) : Nat := if c.toNat < 0x10000 then 1 else 2

/-- Number of UTF-16 code units of a text. -/
def utf16Len (cs : List Char) : Nat := (cs.map units).sum

/-- The text after the last newline. -/
def lastLine (cs : List Char) : List Char := (cs.reverse.takeWhile (· ≠ '\n')).reverse

/-- The LSP position at the end of the text `pre` (line = newlines before, character = UTF-16 units
since the last newline). -/
def posAfter (pre : List Char) : SourceCode.Position :=
  { line := pre.count '\n', character := utf16Len (lastLine pre) }

end Verif.Spec

namespace Verif.Spec
open SourceCode (Position)

/-- The edit of the protocol: `doc` with the text between positions `start` and `stop` replaced by `text`
is `res`; `removed` is the replaced text. -/
def IsSplice (doc : List Char) (start stop : Position) (text : List Char) (removed res : List Char) : Prop :=
  ∃ a c, doc = a ++ removed ++ c ∧ posAfter a = start ∧ posAfter (a ++ removed) = stop ∧
    res = a ++ text ++ c

end Verif.Spec
