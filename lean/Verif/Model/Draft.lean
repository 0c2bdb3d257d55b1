import Verif.Base
/-
Model of nixd/lspserver/src/DraftStore.cpp.
Not modelled: the mutex (each method is one atomic step), `MTime`, `asVFS`, logging.
-/
namespace Verif.Draft

/-- `llvm::isDigit`. -/
def isDigit (c : UInt8) : Bool := 48 ≤ c && c ≤ 57

/-- The loop of `increment` (DraftStore.cpp:45-58) on the character `*I`. `I` starts at the last
character and is never advanced (`*I = '0'` at line 57 is followed by the next iteration on the same `I`),
so the loop only touches the last character. The branch of lines 47-51 is not reachable: `*I` is a digit
in the first iteration (checked at line 40) and `'0'` in a later one. -/
def incrementLast (c : UInt8) : UInt8 :=
  if c ≠ 57 then c + 1 else incrementLast 48
termination_by if c = 57 then 1 else 0
decreasing_by simp_all

/-- `increment` (DraftStore.cpp:38-59). -/
def increment (s : Bytes) : Bytes :=
  match s.getLast? with
  | none => s ++ [48]
  | some c => if !isDigit c then s ++ [48] else s.dropLast ++ [incrementLast c]

/-- The digits of a natural number (`std::to_string`). -/
def natDigits (n : Nat) : Bytes :=
  if n < 10 then [UInt8.ofNat (48 + n)] else natDigits (n / 10) ++ [UInt8.ofNat (48 + n % 10)]

/-- `std::to_string(int64_t)`. -/
def intDigits (n : Int) : Bytes :=
  if n < 0 then 45 :: natDigits n.natAbs else natDigits n.natAbs

/-- `DraftStore::encodeVersion` (DraftStore.cpp:84-86). -/
def encodeVersion (v : Option Int) : Bytes :=
  match v with
  | none => []
  | some n => intDigits n

/-- Value of a non-empty all-digit string, `none` otherwise (library part of `llvm::to_integer`, base 10). -/
def parseNat (s : Bytes) : Option Nat :=
  if s = [] then none
  else if s.all isDigit then some (s.foldl (fun a c => a * 10 + (c.toNat - 48)) 0) else none

/-- `llvm::to_integer` for `int64_t`, base 10: optional `-`, digits, must be in range. -/
def parseInt (s : Bytes) : Option Int :=
  match s with
  | 45 :: rest => (parseNat rest).bind fun n => if n ≤ 2 ^ 63 then some (-(n : Int)) else none
  | _ => (parseNat s).bind fun n => if n < 2 ^ 63 then some (n : Int) else none

/-- `DraftStore::decodeVersion` (DraftStore.cpp:61-68). -/
def decodeVersion (s : Bytes) : Option Int := parseInt s

/-- `updateVersion` (DraftStore.cpp:70-82). -/
def updateVersion (old specified : Bytes) : Bytes :=
  if specified ≠ [] then specified else increment old

/-- `DraftStore::Draft` (DraftStore.h:27-30). -/
structure Draft where
  contents : Bytes
  version : Bytes
deriving DecidableEq, Repr

/-- `DraftStore::Drafts` (DraftStore.h:62), a map from paths. -/
abbrev Store := Bytes → Option Draft

/-- `DraftStore::getDraft` (DraftStore.cpp:18-26). -/
def getDraft (s : Store) (file : Bytes) : Option Draft := s file

/-- `DraftStore::addDraft` (DraftStore.cpp:88-97); a new entry has an empty version. -/
def addDraft (s : Store) (file version contents : Bytes) : Store :=
  let old := match s file with
    | some d => d.version
    | none => []
  fun f => if f = file then some ⟨contents, updateVersion old version⟩ else s f

/-- `DraftStore::removeDraft` (DraftStore.cpp:99-103). -/
def removeDraft (s : Store) (file : Bytes) : Store :=
  fun f => if f = file then none else s f

end Verif.Draft
