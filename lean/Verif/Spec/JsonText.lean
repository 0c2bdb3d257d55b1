import Verif.Model.Tidy
/-
A reader of JSON texts (RFC 8259): white space between tokens, strings with escapes, natural numbers, arrays and objects.
Left out are `true`, `false`, `null`, other numbers and pairs of surrogates.
-/
namespace Verif.JsonText
open Verif.Tidy (J)

/-- White space. -/
def isWs (c : UInt8) : Bool := c = 32 || c = 9 || c = 10 || c = 13

/-- Without leading white space. -/
def skip (t : Bytes) : Bytes := t.dropWhile isWs

def isDigit (c : UInt8) : Bool := 48 ≤ c && c ≤ 57

/-- The value of a hexadecimal digit. -/
def hex (c : UInt8) : Option Nat :=
  if 48 ≤ c ∧ c ≤ 57 then some (c.toNat - 48)
  else if 97 ≤ c ∧ c ≤ 102 then some (c.toNat - 87)
  else if 65 ≤ c ∧ c ≤ 70 then some (c.toNat - 55)
  else none

/-- The escape of one letter. -/
def escape (c : UInt8) : Option UInt8 :=
  [(34, 34), (92, 92), (47, 47), (98, 8), (102, 12), (110, 10), (114, 13), (116, 9)].lookup c

/-- The character with this number. -/
def scalar (n : Nat) : Option Bytes :=
  if n.isValidChar then some (String.utf8EncodeChar (Char.ofNat n)) else none

/-- The rest of a string: its contents and what follows. -/
def chars : Bytes → Option (Bytes × Bytes)
  | [] => none
  | c :: r =>
    if c = 34 then some ([], r)
    else if c = 92 then
      match r with
      | [] => none
      | x :: r =>
        if x = 117 then
          match r with
          | h1 :: h2 :: h3 :: h4 :: r => do
            let n := 4096 * (← hex h1) + 256 * (← hex h2) + 16 * (← hex h3) + (← hex h4)
            let u ← scalar n
            let p ← chars r
            some (u ++ p.1, p.2)
          | _ => none
        else do
          let y ← escape x
          let p ← chars r
          some (y :: p.1, p.2)
    else if c < 32 then none
    else do
      let p ← chars r
      some (c :: p.1, p.2)

/-- A natural number without leading zeros. -/
def number (t : Bytes) : Option (J × Bytes) :=
  let ds := t.takeWhile isDigit
  if ds = [] ∨ (ds.head? = some 48 ∧ ds.length ≠ 1) then none
  else some (.num (ds.foldl (fun (n : Nat) (c : UInt8) => n * 10 + (c.toNat - 48)) 0), t.dropWhile isDigit)

mutual
/-- A value and what follows. The number bounds the recursion. -/
def value : Nat → Bytes → Option (J × Bytes)
  | 0, _ => none
  | k + 1, t =>
    match skip t with
    | [] => none
    | c :: r =>
      if c = 34 then (chars r).map fun p => (.str p.1, p.2)
      else if c = 91 then
        if (skip r).head? = some 93 then some (.arr [], (skip r).tail)
        else (items k r).map fun p => (.arr p.1, p.2)
      else if c = 123 then
        if (skip r).head? = some 125 then some (.obj [], (skip r).tail)
        else (members k r).map fun p => (.obj p.1, p.2)
      else number (c :: r)
/-- The elements of an array, up to the bracket. -/
def items : Nat → Bytes → Option (List J × Bytes)
  | 0, _ => none
  | k + 1, t => do
    let p ← value k t
    match skip p.2 with
    | [] => none
    | c :: r =>
      if c = 44 then (items k r).map fun q => (p.1 :: q.1, q.2)
      else if c = 93 then some ([p.1], r)
      else none
/-- The members of an object, up to the brace. -/
def members : Nat → Bytes → Option (List (Bytes × J) × Bytes)
  | 0, _ => none
  | k + 1, t => do
    if (skip t).head? ≠ some 34 then none
    else
      let key ← chars (skip t).tail
      if (skip key.2).head? ≠ some 58 then none
      else
        let p ← value k (skip key.2).tail
        match skip p.2 with
        | [] => none
        | c :: r =>
          if c = 44 then (members k r).map fun q => ((key.1, p.1) :: q.1, q.2)
          else if c = 125 then some ([(key.1, p.1)], r)
          else none
end

/-- The value of a JSON text. -/
def read (t : Bytes) : Option J :=
  match value (t.length + 1) t with
  | some (v, r) => if skip r = [] then some v else none
  | none => none

/-! The diagnostics in a JSON value, by the names of the members. -/
open Verif.Nixf

def get : J → Bytes → Option J
  | .obj fs, k => fs.lookup k
  | _, _ => none

def num (j : J) (k : Bytes) : Option Nat :=
  match get j k with
  | some (.num n) => some n
  | _ => none

def str (j : J) (k : Bytes) : Option Bytes :=
  match get j k with
  | some (.str s) => some s
  | _ => none

/-- The elements of a member. -/
def list {α : Type} (f : J → Option α) (j : J) (k : Bytes) : Option (List α) :=
  match get j k with
  | some (.arr l) => l.mapM f
  | _ => none

def cursor (j : J) : Option Cursor := do some ⟨← num j b!"line", ← num j b!"column", ← num j b!"offset"⟩

def range (j : J) : Option CRange := do
  let r ← get j b!"range"
  some ⟨← cursor (← get r b!"lCur"), ← cursor (← get r b!"rCur")⟩

def text : J → Option Bytes
  | .str s => some s
  | _ => none

def tag : J → Option Tag
  | .num 0 => some .faded
  | .num 1 => some .striked
  | _ => none

/-- The kind of a note by its name. -/
def noteKind (s : Bytes) : Option NK :=
  [NK.prevDeclared, .duplicateFormal, .thisRecursive, .recConsider, .bCommentBegin, .toMachThis].find? fun k => k.sname == s

def note (j : J) : Option Note := do
  some { kind := ← noteKind (← str j b!"sname"), range := ← range j, args := ← list text j b!"args", tags := ← list tag j b!"tag" }

def edit (j : J) : Option TextEdit := do some ⟨← range j, ← str j b!"newText"⟩

def fix (j : J) : Option Fix := do some ⟨← str j b!"message", ← list edit j b!"edits"⟩

def diagnostic (j : J) : Option Diagnostic := do
  some { kind := ← parseKind (← str j b!"sname"), range := ← range j, args := ← list text j b!"args",
         notes := ← list note j b!"notes", fixes := ← list fix j b!"fixes", tags := ← list tag j b!"tag" }

/-- The diagnostics of an array. -/
def diagnostics : J → Option (List Diagnostic)
  | .arr l => l.mapM diagnostic
  | _ => none

end Verif.JsonText
