import Verif.Model.Draft
/-
Model of the message framing in nixd/lspserver/src/Connection.cpp. The pipe is the list of bytes not read yet plus a
flag saying whether the writer has closed its end. `JSON` bodies are byte strings. `kill(ClientProcessID, 0)` and the
`Close` flag are not modelled (they only end the session), nor are `read` errors.
-/
namespace Verif.Framing
open Draft

/-- `OutboundPort::sendMessage` (Connection.cpp:113-124), the bytes written for one message. -/
def frame (body : Bytes) : Bytes := b!"Content-Length: " ++ natDigits body.length ++ b!"\r\n\r\n" ++ body

/-- Result of a read: something, the end of the stream, or waiting for more input. -/
inductive Read (α : Type)
  | got (a : α) (rest : Bytes)
  | eof
  | blocked
deriving DecidableEq

/-- State of the pipe as seen by `poll`: `hup n` says whether the writer is known to have hung up when `n` bytes are
left unread. -/
abbrev Hup := Nat → Bool

/-- `readLine` (Connection.cpp:163-206). -/
def readLine (hup : Hup) (line : Bytes) : Bytes → Read Bytes
  | [] => if hup 0 then .eof else .blocked
  | c :: rest =>
    if hup (rest.length + 1) then .eof
    else if c = 10 then .got line rest
    else readLine hup (line ++ [c]) rest

/-- Whitespace of `StringRef::trim`. -/
def isSpace (c : UInt8) : Bool := c == 32 || c == 9 || c == 10 || c == 11 || c == 12 || c == 13

/-- `StringRef::trim`. -/
def trim (s : Bytes) : Bytes := ((s.dropWhile isSpace).reverse.dropWhile isSpace).reverse

/-- Lower case of an ASCII letter. -/
def lower (c : UInt8) : UInt8 := if 65 ≤ c && c ≤ 90 then c + 32 else c

/-- LLVM's `GetAutoSenseRadix`: the radix and the remaining digits. -/
def autoRadix (s : Bytes) : Nat × Bytes :=
  match s with
  | 48 :: c :: rest =>
    if lower c = 120 then (16, rest)
    else if lower c = 98 then (2, rest)
    else if c = 111 then (8, rest)
    else if isDigit c then (8, c :: rest)
    else (10, s)
  | _ => (10, s)

/-- Value of a digit character, 36 or more if it is none. -/
def digitValue (c : UInt8) : Nat :=
  if isDigit c then c.toNat - 48
  else if 97 ≤ c && c ≤ 122 then c.toNat - 87
  else if 65 ≤ c && c ≤ 90 then c.toNat - 55
  else 36

/-- LLVM's `consumeUnsignedInteger` loop for `unsigned long long`: `none` on overflow. Stops at the first non-digit. -/
def consumeDigits (radix : Nat) : Bytes → Nat → Option (Nat × Bytes)
  | [], acc => some (acc, [])
  | c :: rest, acc =>
    if digitValue c ≥ radix then some (acc, c :: rest)
    else if acc * radix + digitValue c < 2 ^ 64 then consumeDigits radix rest (acc * radix + digitValue c)
    else none

/-- `llvm::getAsUnsignedInteger(s, 0, Result)`: `none` is failure (the result is then left unchanged). -/
def getAsUnsigned (s : Bytes) : Option Nat :=
  let (radix, digits) := autoRadix s
  if digits = [] then none
  else
    match consumeDigits radix digits 0 with
    | some (n, rest) => if rest = [] ∧ digitValue (digits.headD 0) < radix then some n else none
    | none => none

/-- The `Content-Length: ` prefix (Connection.cpp:220). -/
def lengthPrefix : Bytes := b!"Content-Length: "

theorem readLine_length (hup : Hup) (line s a r : Bytes) (h : readLine hup line s = .got a r) : r.length < s.length := by
  induction s generalizing line with
  | nil => simp only [readLine] at h; split at h <;> cases h
  | cons c s ih =>
    simp only [readLine] at h
    split at h
    · cases h
    · split at h
      · cases h; simp
      · have := ih _ h; simp; omega

/-- The header loop of `readStandardMessage` (Connection.cpp:211-231): the content length. -/
def readHeaders (hup : Hup) (len : Nat) (s : Bytes) : Read Nat :=
  match _h : readLine hup [] s with
  | .eof => .eof
  | .blocked => .blocked
  | .got line rest =>
    if lengthPrefix.isPrefixOf line then
      readHeaders hup ((getAsUnsigned (trim (line.drop lengthPrefix.length))).getD len) rest
    else if trim line = [] then .got len rest
    else readHeaders hup len rest
termination_by s.length
decreasing_by all_goals exact readLine_length _ _ _ _ _ _h

/-- The body loop of `readStandardMessage` (Connection.cpp:233-244). `read` returns between 1 and `need` bytes, as
the oracle `chunk` says; it returns 0 only at the end of a closed pipe with nothing left. -/
def readBody (chunk : Nat → Nat) (hup : Hup) (acc : Bytes) (need : Nat) (s : Bytes) : Read Bytes :=
  if _hneed : need = 0 then .got acc s
  else
    if _hs : s = [] then (if hup 0 then .eof else .blocked)
    else
      let n := min (max 1 (chunk need)) (min need s.length)
      readBody chunk hup (acc ++ s.take n) (need - n) (s.drop n)
termination_by need
decreasing_by
  have : 0 < s.length := List.length_pos_iff.mpr _hs
  omega

/-- `readStandardMessage` (Connection.cpp:209-246) up to the JSON parser: the body. -/
def readMessage (chunk : Nat → Nat) (hup : Hup) (s : Bytes) : Read Bytes :=
  match readHeaders hup 0 s with
  | .eof => .eof
  | .blocked => .blocked
  | .got len rest => readBody chunk hup [] len rest

end Verif.Framing
