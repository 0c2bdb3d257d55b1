import Verif.Base
/-
Selecting options. Models libnixt/lib/Value.cpp.

Values are cells of a heap, as `nix::Value` objects are shared by reference and `selectOptions` assigns to the one it is
given. All values are in weak head normal form, and forcing them does nothing: evaluation is taken to succeed and to be
finished. Calling a function with the empty list gives the value of a cell. Strings have no context.
-/
namespace Verif.Nixt

abbrev Loc := Nat

/-- `nix::Value`, as far as `Value.cpp` tells values apart. -/
inductive Val
  | attrs (as : List (Bytes × Loc))
  | str (s : Bytes)
  /-- A function; the result of calling it with `[]`. -/
  | fn (ret : Loc)
  | other
deriving DecidableEq, Repr

abbrev Heap := Loc → Val

/-- `nix::TypeError` and `nix::AttrPathNotFound`. -/
inductive Err
  | type
  | missing
deriving DecidableEq, Repr

/-- `nixt::getField` (Value.cpp:10-21). -/
def getField (H : Heap) (v : Val) (x : Bytes) : Option Val :=
  match v with
  | .attrs as => (as.lookup x).map H
  | _ => none

/-- `nixt::getFieldString` (Value.cpp:23-34). -/
def getFieldString (H : Heap) (v : Val) (x : Bytes) : Option Bytes :=
  match getField H v x with
  | some (.str s) => some s
  | _ => none

/-- `nixt::checkField` (Value.cpp:36-39). -/
def checkField (H : Heap) (v : Val) (x p : Bytes) : Bool := getFieldString H v x == some p

/-- `nixt::isOption` with `checkType` (Value.cpp:41-48). -/
def isOption (H : Heap) (v : Val) : Bool := checkField H v b!"_type" b!"option"

/-- `nixt::selectAttr` (Value.cpp:84-99). -/
def selectAttr (v : Val) (x : Bytes) : Except Err Loc :=
  match v with
  | .attrs as =>
    match as.lookup x with
    | some l => .ok l
    | none => .error .missing
  | _ => .error .type

/-- `isTypeSubmodule` (Value.cpp:118-120). -/
def isTypeSubmodule (H : Heap) (t : Val) : Bool := checkField H t b!"name" b!"submodule"

/-- `trySelectAttr` (Value.cpp:122-134). The name given is not used. -/
def trySelectAttr (v : Val) (_ : Bytes) : Option Loc :=
  match selectAttr v b!"type" with
  | .ok l => some l
  | .error _ => none

/-- `tryGetSubmoduleType` (Value.cpp:137-141). -/
def tryGetSubmoduleType (H : Heap) (v : Val) : Option Loc :=
  match trySelectAttr v b!"type" with
  | some t => if isTypeSubmodule H (H t) then some t else none
  | none => none

/-- `getSubOptions` (Value.cpp:144-157). -/
def getSubOptions (H : Heap) (t : Val) : Except Err Val :=
  match selectAttr t b!"getSubOptions" with
  | .error e => .error e
  | .ok g =>
    match H g with
    | .fn r => .ok (H r)
    | _ => .error .type

/-- What the parameter `V` refers to: a cell, or a local variable. -/
inductive Ref
  | cell (l : Loc)
  | temp (v : Val)

def Ref.get (H : Heap) : Ref → Val
  | .cell l => H l
  | .temp v => v

/-- Assignment to `V`. -/
def Ref.set (w : Val) (H : Heap) : Ref → Ref × Heap
  | .cell l => (.cell l, fun m => if m = l then w else H m)
  | .temp _ => (.temp w, H)

/-- Entering a submodule (Value.cpp:164-167). -/
def enter (H : Heap) (r : Ref) : Except Err Ref × Heap :=
  match tryGetSubmoduleType H (r.get H) with
  | none => (.ok r, H)
  | some t =>
    match getSubOptions H (H t) with
    | .error e => (.error e, H)
    | .ok w => let (r, H) := r.set w H; (.ok r, H)

/-- The options of the elements of an option for an attribute set of submodules (Value.cpp:172-192). -/
def elemOptions (H : Heap) (v : Val) : Except Err (Option Val) :=
  if isOption H v then
    match selectAttr v b!"type" with
    | .error e => .error e
    | .ok t =>
      if checkField H (H t) b!"name" b!"attrsOf" then
        match selectAttr (H t) b!"nestedTypes" with
        | .error e => .error e
        | .ok nt =>
          match selectAttr (H nt) b!"elemType" with
          | .error e => .error e
          | .ok et =>
            if isTypeSubmodule H (H et) then
              match getSubOptions H (H et) with
              | .error e => .error e
              | .ok w => .ok (some w)
            else .ok none
      else .ok none
  else .ok none

/-- `nixt::selectOptions` (Value.cpp:161-198), with the heap it leaves behind. -/
def selectOptions : List Bytes → Heap → Ref → Except Err Val × Heap
  | [], H, r =>
    match enter H r with
    | (.error e, H) => (.error e, H)
    | (.ok r, H) => (.ok (r.get H), H)
  | p :: ps, H, r =>
    match enter H r with
    | (.error e, H) => (.error e, H)
    | (.ok r, H) =>
      match elemOptions H (r.get H) with
      | .error e => (.error e, H)
      | .ok (some w) => selectOptions ps H (.temp w)
      | .ok none =>
        match selectAttr (r.get H) p with
        | .error e => (.error e, H)
        | .ok l => selectOptions ps H (.cell l)

/-- A run of the provider: queries to the same value (AttrSetProvider.cpp, `onOptionInfo` and `onOptionComplete`). -/
def queries (root : Loc) : List (List Bytes) → Heap → List (Except Err Val) × Heap
  | [], H => ([], H)
  | p :: ps, H =>
    let (a, H) := selectOptions p H (.cell root)
    let (as, H) := queries root ps H
    (a :: as, H)

end Verif.Nixt
