import Verif.Base
/-
Model of nixd/lspserver/src/SourceCode.cpp.

`lspEncoding()` (SourceCode.cpp:9) is the constant UTF16, so only the UTF16 branches of the
`switch`es are modelled.
-/
namespace Verif.SourceCode

/-- `llvm::countl_one` on an `unsigned char` (number of leading one bits), used at
SourceCode.cpp:25. -/
def countlOne (c : UInt8) : Nat :=
  if c < 0x80 then 0
  else if c < 0xC0 then 1
  else if c < 0xE0 then 2
  else if c < 0xF0 then 3
  else if c < 0xF8 then 4
  else if c < 0xFC then 5
  else if c < 0xFE then 6
  else if c < 0xFF then 7
  else 8

/-- The sequence of callback arguments `(U8Len, U16Len)` of `iterateCodepoints`
(SourceCode.cpp:11-48), without early exit. The callers' early exit is modelled by
consuming only a prefix of this list. `elog` is not modelled. -/
def codepoints : Bytes → List (Nat × Nat)
  | [] => []
  | c :: rest =>
    if c &&& 0x80 = 0 then (1, 1) :: codepoints rest
    else
      let n := countlOne c
      if n < 2 ∨ n > 4 then (1, 1) :: codepoints rest
      else (n, if n = 4 then 2 else 1) :: codepoints (rest.drop (n - 1))
termination_by l => l.length
decreasing_by all_goals (simp; try omega)

/-- `lspLength` (SourceCode.cpp:51-73). -/
def lspLength (code : Bytes) : Nat := ((codepoints code).map (·.2)).sum

/-- The loop of `measureUnits` (SourceCode.cpp:90-94): returns
`(Result, Units, value returned by iterateCodepoints)`. -/
def measureLoop : List (Nat × Nat) → Nat → Int → Nat × Int × Bool
  | [], result, units => (result, units, false)
  | (u8, u16) :: rest, result, units =>
    let result := result + u8
    let units := units - u16
    if units ≤ 0 then (result, units, true) else measureLoop rest result units

/-- `measureUnits` (SourceCode.cpp:79-114), UTF16 branch. Returns the result and `Valid`.
`units` is a C++ `int`. -/
def measureUnits (u8 : Bytes) (units : Int) : Nat × Bool :=
  if units ≤ 0 then (0, decide (units ≥ 0))
  else
    let (result, units', valid) := measureLoop (codepoints u8) 0 units
    let valid := if units' < 0 then false else valid
    if result > u8.length then (u8.length, false) else (result, valid)

/-- `lspserver::Position` (Protocol.h:129-136); both fields are `int64_t`. -/
structure Position where
  line : Int
  character : Int
deriving DecidableEq, Repr

/-- The error cases of `positionToOffset` (SourceCode.cpp:118-141). -/
inductive PosError
  | lineNegative | charNegative | lineOutOfRange | charInvalid
deriving DecidableEq, Repr

/-- `Code.find('\n', From)` relative to `From`: index of the first newline. -/
def findNL (s : Bytes) : Option Nat := s.findIdx? (· == NL)

/-- The loop of `positionToOffset` (SourceCode.cpp:124-131): start of line `n`, counted from the line
starting at `start`. -/
def lineStart (code : Bytes) : Nat → Nat → Option Nat
  | 0, start => some start
  | n + 1, start =>
    match findNL (code.drop start) with
    | none => none
    | some k => lineStart code n (start + k + 1)

/-- Conversion of an `int64_t` argument to the `int` parameter of `measureUnits` at
SourceCode.cpp:137 (modulo 2^32, as all supported compilers do). -/
def toInt32 (x : Int) : Int := x.bmod (2 ^ 32)

/-- `positionToOffset` (SourceCode.cpp:116-143). The loop counter `int I` is compared with the
`int64_t` `P.line`; it would overflow only for documents of more than 2^31 lines, which is not modelled. -/
def positionToOffset (code : Bytes) (p : Position) (allowBeyond : Bool) : Except PosError Nat :=
  if p.line < 0 then .error .lineNegative
  else if p.character < 0 then .error .charNegative
  else
    match lineStart code p.line.toNat 0 with
    | none => .error .lineOutOfRange
    | some start =>
      let line := (code.drop start).takeWhile (· != NL)
      let (byteInLine, valid) := measureUnits line (toInt32 p.character)
      if !valid && !allowBeyond then .error .charInvalid
      else .ok (start + byteInLine)

/-- Start of the last line of `before`: `rfind('\n') + 1`, or 0 if there is no newline
(SourceCode.cpp:149-150). -/
def startOfLastLine (before : Bytes) : Nat :=
  match before.reverse.findIdx? (· == NL) with
  | none => 0
  | some k => before.length - k

/-- `offsetToPosition` (SourceCode.cpp:145-155). `int Lines` and the `size_t` length are converted to
the `int64_t` fields; documents with more than 2^31 lines are not modelled. -/
def offsetToPosition (code : Bytes) (offset : Nat) : Position :=
  let offset := min code.length offset
  let before := code.take offset
  { line := before.count NL
    character := lspLength (before.drop (startOfLastLine before)) }

/-- `TextDocumentContentChangeEvent` (Protocol.h:820-829). -/
structure Change where
  range : Option (Position × Position)
  rangeLength : Option Int
  text : Bytes
deriving DecidableEq, Repr

/-- The error cases of `applyChange`. -/
inductive ChangeError
  | position (e : PosError) | endBeforeStart | lengthMismatch
deriving DecidableEq, Repr

/-- `inferFinalNewline` (SourceCode.cpp:175-189): takes and returns the `Expected<size_t>` and the
contents, both passed by reference in C++. -/
def inferFinalNewline (r : Except PosError Nat) (contents : Bytes) (pos : Position) :
    Except PosError Nat × Bytes :=
  match r with
  | .ok _ => (r, contents)
  | .error _ =>
    if contents.getLast? = some NL then (r, contents)
    else if pos.character ≠ 0 then (r, contents)
    else if pos.line ≠ (contents.count NL : Int) + 1 then (r, contents)
    else (.ok (contents.length + 1), contents ++ [NL])

/-- `applyChange` (SourceCode.cpp:191-234). Returns the result and the new value of `Contents`
(which may have been changed even when an error is returned). -/
def applyChange (contents : Bytes) (c : Change) : Except ChangeError Unit × Bytes :=
  match c.range with
  | none => (.ok (), c.text)
  | some (start, stop) =>
    let (si, contents) := inferFinalNewline (positionToOffset contents start false) contents start
    match si with
    | .error e => (.error (.position e), contents)
    | .ok si =>
      let (ei, contents) := inferFinalNewline (positionToOffset contents stop false) contents stop
      match ei with
      | .error e => (.error (.position e), contents)
      | .ok ei =>
        if ei < si then (.error .endBeforeStart, contents)
        else
          let computed := lspLength ((contents.drop si).take (ei - si))
          if c.rangeLength.any (fun l => (computed : Int) ≠ l) then (.error .lengthMismatch, contents)
          else (.ok (), contents.take si ++ c.text ++ contents.drop ei)

end Verif.SourceCode
