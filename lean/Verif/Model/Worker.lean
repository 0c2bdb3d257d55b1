import Verif.Base
/-
The worker process that evaluates nixpkgs or options: nixd/lib/Eval/AttrSetProvider.cpp.

Nix values are cells of a heap. A cell has a value in weak head normal form, or its evaluation throws, or it was never
initialised. Forcing a cell that was never initialised does nothing, and asking for its type ends the process: in nix
`Value::type()` has no case for it (`unreachable()`). Evaluation is taken to end. Selecting through submodules is in
Model/Options.lean and a parameter here; so are printing of values and positions of values.
-/
namespace Verif.Worker

/-- `nix::Value` after it is forced, as far as the worker tells values apart. Attributes are in the order of their
names. -/
inductive Val
  | attrs (as : List (Bytes × Nat))
  | list (xs : List Nat)
  /-- a string and whether it has a context -/
  | str (s : Bytes) (ctx : Bool)
  | int (n : Int)
  /-- a floating point number, Boolean, null or path -/
  | scalar
  /-- a function with its documentation comment -/
  | lambda (doc : Option Bytes)
  | primop (doc : Option Bytes) (arity : Nat) (args : List Bytes)
deriving DecidableEq, Repr

/-- A cell. -/
inductive Cell
  | val (v : Val)
  /-- evaluating it throws -/
  | throws
  /-- never initialised -/
  | uninit
deriving DecidableEq, Repr

abbrev Heap := Nat → Cell

/-- The exceptions, and the end of the process. -/
inductive Fail
  /-- `nix::TypeError` of `selectAttr` (Value.cpp:89) -/
  | type
  /-- `nix::AttrPathNotFound` (Value.cpp:94) -/
  | missing
  /-- an error of the evaluation -/
  | thrown
  /-- not an exception: the process ends -/
  | crash
deriving DecidableEq, Repr

/-- `forceValue` followed by `type()`. -/
def force (H : Heap) (l : Nat) : Except Fail Val :=
  match H l with
  | .val v => .ok v
  | .throws => .error .thrown
  | .uninit => .error .crash

/-- `nixt::selectAttr` (Value.cpp:84-99). -/
def selectAttr (H : Heap) (l : Nat) (x : Bytes) : Except Fail Nat := do
  match ← force H l with
  | .attrs as =>
    match as.lookup x with
    | some c => .ok c
    | none => .error .missing
  | _ => .error .type

/-- `nixt::selectAttrPath` (Value.cpp:102-112). -/
def selectPath (H : Heap) : Nat → List Bytes → Except Fail Nat
  | l, [] => .ok l
  | l, x :: xs => do selectPath H (← selectAttr H l x) xs

/-- `catch (std::exception &)` with nothing as the result. -/
def caught (r : Except Fail (Option Bytes)) : Except Fail (Option Bytes) :=
  match r with
  | .ok a => .ok a
  | .error .crash => .error .crash
  | .error _ => .ok none

/-- The string in a cell, if it is one (AttrSetProvider.cpp:24-26). -/
def stringIn (H : Heap) (l : Nat) : Except Fail (Option Bytes) := do
  match ← force H l with
  | .str s _ => .ok (some s)
  | _ => .ok none

/-- `fillString` (AttrSetProvider.cpp:19-30). -/
def fillString (H : Heap) (l : Nat) (path : List Bytes) : Except Fail (Option Bytes) :=
  caught (do stringIn H (← selectPath H l path))

/-- `PackageDescription` (AttrSet.h). -/
structure Package where
  name : Option Bytes
  pname : Option Bytes
  version : Option Bytes
  description : Option Bytes
  longDescription : Option Bytes
  position : Option Bytes
  homepage : Option Bytes
deriving DecidableEq, Repr

/-- `describePackage` (AttrSetProvider.cpp:33-43). -/
def describePackage (H : Heap) (l : Nat) : Except Fail Package := do
  let name ← fillString H l [b!"name"]
  let pname ← fillString H l [b!"pname"]
  let version ← fillString H l [b!"version"]
  let description ← fillString H l [b!"meta", b!"description"]
  let longDescription ← fillString H l [b!"meta", b!"longDescription"]
  let position ← fillString H l [b!"meta", b!"position"]
  let homepage ← fillString H l [b!"meta", b!"homepage"]
  .ok ⟨name, pname, version, description, longDescription, position, homepage⟩

/-- `ValueDescription` (AttrSet.h). -/
structure ValueDesc where
  doc : Bytes
  arity : Nat
  args : List Bytes
deriving DecidableEq, Repr

/-- `describeValue` (AttrSetProvider.cpp:229-259). -/
def describeValue : Val → Option ValueDesc
  | .primop doc arity args => some ⟨doc.getD [], arity, args⟩
  | .lambda (some doc) => some ⟨doc, 0, []⟩
  | _ => none

/-- `AttrPathInfoResponse` (AttrSet.h) without the metadata. -/
structure Info where
  package : Package
  value : Option ValueDesc
deriving DecidableEq, Repr

/-- `onAttrPathInfo` (AttrSetProvider.cpp:300-317), where an empty path is an error as others. -/
def attrPathInfo (H : Heap) (root : Nat) (path : List Bytes) : Except Fail Info := do
  if path.isEmpty then .error .thrown
  else
    let l ← selectPath H root path
    let v ← force H l
    let p ← describePackage H l
    .ok ⟨p, describeValue v⟩

/-- `constexpr int MaxItems` (AttrSetProvider.cpp:17). -/
def maxItems : Nat := 30

/-- The loop of `completeNames` (AttrSetProvider.cpp:215-225). -/
def completeNames (pfx : Bytes) : Nat → List Bytes → List Bytes
  | _, [] => []
  | num, x :: xs =>
    if pfx.isPrefixOf x then
      if num + 1 > maxItems then [x] else x :: completeNames pfx (num + 1) xs
    else completeNames pfx num xs

/-- `onAttrPathComplete` (AttrSetProvider.cpp:323-338). -/
def attrPathComplete (H : Heap) (root : Nat) (scope : List Bytes) (pfx : Bytes) : Except Fail (List Bytes) := do
  match ← force H (← selectPath H root scope) with
  | .attrs as => .ok (completeNames pfx 0 (as.map (·.1)))
  | _ => .error .type

/-- `Location` (Protocol.h) with a range at one point. -/
structure Loc where
  file : Bytes
  line : Int
  character : Int
deriving DecidableEq, Repr

/-- `fillUnsafeGetAttrPosLocation` (AttrSetProvider.cpp:74-97) for a default location. -/
def declPos (H : Heap) (l : Nat) : Except Fail Loc := do
  let file ← selectAttr H l b!"file"
  let line ← selectAttr H l b!"line"
  let column ← selectAttr H l b!"column"
  let file ← force H file
  let line ← force H line
  let column ← force H column
  let f := match file with
    | .str s _ => s
    | _ => []
  match line, column with
  | .int i, .int j => .ok ⟨f, i - 1, j - 1⟩
  | _, _ => .ok ⟨f, 0, 0⟩

/-- The loop of `fillOptionDeclarationPositions` (AttrSetProvider.cpp:104-109), with the exception that ended it. -/
def declLoop (H : Heap) : List Loc → List Nat → List Loc × Option Fail
  | acc, [] => (acc, none)
  | acc, x :: xs =>
    match declPos H x with
    | .ok p => declLoop H (acc ++ [p]) xs
    | .error e => (acc, some e)

/-- `fillOptionDeclarations` (AttrSetProvider.cpp:99-126): only `AttrPathNotFound` is caught. -/
def fillDeclarations (H : Heap) (l : Nat) : Except Fail (List Loc) :=
  match selectAttr H l b!"declarationPositions" with
  | .error .missing => .ok []
  | .error e => .error e
  | .ok c =>
    match force H c with
    | .error e => .error e
    | .ok (.list xs) =>
      match declLoop H [] xs with
      | (ds, none) => .ok ds
      | (ds, some .missing) => .ok ds
      | (_, some e) => .error e
    | .ok _ => .ok []

/-- `nixt::getFieldString` (Value.cpp:23-34). -/
def getFieldString (H : Heap) (l : Nat) (x : Bytes) : Except Fail (Option Bytes) := do
  match ← force H l with
  | .attrs as =>
    match as.lookup x with
    | none => .ok none
    | some c =>
      match ← force H c with
      | .str s false => .ok (some s)
      | .str _ true => .error .thrown
      | _ => .ok none
  | _ => .ok none

/-- `nixt::checkField` (Value.cpp:36-39). -/
def checkField (H : Heap) (l : Nat) (x p : Bytes) : Except Fail Bool := do
  .ok ((← getFieldString H l x) == some p)

/-- What `renderOptionValue` prints if complex values are not allowed (AttrSetProvider.cpp:152-162). -/
def Val.simple : Val → Bool
  | .str .. | .int _ | .scalar => true
  | _ => false

/-- `renderOptionValue` (AttrSetProvider.cpp:138-171). `print` is `Value::print`. -/
def render (print : Nat → Except Fail Bytes) (H : Heap) (l : Nat) (complex : Bool) : Except Fail (Option Bytes) :=
  caught do
    let v ← force H l
    if ← checkField H l b!"_type" b!"literalExpression" then getFieldString H l b!"text"
    else if !complex && !v.simple then .ok none
    else .ok (some (← print l))

/-- `OptionDescription` (AttrSet.h). -/
structure OptDesc where
  description : Option Bytes
  declarations : List Loc
  /-- description and name -/
  type : Option (Option Bytes × Option Bytes)
  example_ : Option Bytes
  default_ : Option Bytes
deriving DecidableEq, Repr

/-- A part of a description that is there if the attribute is there (AttrSetProvider.cpp:180-188). -/
def withAttr {α : Type} (as : List (Bytes × Nat)) (x : Bytes) (f : Nat → Except Fail (Option α)) : Except Fail (Option α) :=
  match as.lookup x with
  | some c => f c
  | none => .ok none

/-- `fillOptionType` (AttrSetProvider.cpp:128-131). -/
def fillType (H : Heap) (c : Nat) : Except Fail (Option (Option Bytes × Option Bytes)) := do
  let d ← fillString H c [b!"description"]
  let n ← fillString H c [b!"name"]
  .ok (some (d, n))

/-- The default (AttrSetProvider.cpp:197-201). -/
def fillDefault (print : Nat → Except Fail Bytes) (H : Heap) (as : List (Bytes × Nat)) : Except Fail (Option Bytes) :=
  match as.lookup b!"defaultText" with
  | some c => render print H c false
  | none => withAttr as b!"default" fun c => render print H c false

/-- `fillOptionDescription` (AttrSetProvider.cpp:173-203). -/
def describeOption (print : Nat → Except Fail Bytes) (H : Heap) (l : Nat) : Except Fail OptDesc := do
  let description ← fillString H l [b!"description"]
  let declarations ← fillDeclarations H l
  match ← force H l with
  | .attrs as =>
    let type ← withAttr as b!"type" (fillType H)
    let example_ ← withAttr as b!"example" fun c => render print H c true
    let default_ ← fillDefault print H as
    .ok ⟨description, declarations, type, example_, default_⟩
  | _ => .ok ⟨description, declarations, none, none, none⟩

/-- The loop of `onOptionComplete` (AttrSetProvider.cpp:393-412). -/
def optionLoop (print : Nat → Except Fail Bytes) (H : Heap) (pfx : Bytes) :
    List (Bytes × Option OptDesc) → List (Bytes × Nat) → Except Fail (List (Bytes × Option OptDesc))
  | acc, [] => .ok acc
  | acc, (name, c) :: as =>
    if pfx.isPrefixOf name then do
      let d ← if ← checkField H c b!"_type" b!"option" then (do .ok (some (← describeOption print H c))) else .ok none
      if (acc ++ [(name, d)]).length ≥ maxItems then .ok (acc ++ [(name, d)])
      else optionLoop print H pfx (acc ++ [(name, d)]) as
    else optionLoop print H pfx acc as

/-- `onOptionComplete` (AttrSetProvider.cpp:371-413) after the scope is selected. -/
def optionComplete (print : Nat → Except Fail Bytes) (H : Heap) (scope : Nat) (pfx : Bytes) :
    Except Fail (List (Bytes × Option OptDesc)) := do
  match ← force H scope with
  | .attrs as =>
    if ← checkField H scope b!"_type" b!"option" then .error .type
    else optionLoop print H pfx [] as
  | _ => .error .type

/-! ### The process -/

/-- What the worker works with. -/
structure World where
  heap : Heap
  print : Nat → Except Fail Bytes
  /-- `nixt::selectOptions` -/
  select : Nat → List Bytes → Except Fail Nat

/-- The requests. -/
inductive Req
  /-- `attrset/evalExpr`, with the result of the evaluation -/
  | eval (r : Except Fail Nat)
  | attrPathInfo (path : List Bytes)
  | attrPathComplete (scope : List Bytes) (pfx : Bytes)
  | optionInfo (path : List Bytes)
  | optionComplete (scope : List Bytes) (pfx : Bytes)

/-- The replies. -/
inductive Reply
  | error
  | evaluated
  | info (i : Info)
  | names (ns : List Bytes)
  | option (d : OptDesc)
  | options (fs : List (Bytes × Option OptDesc))
deriving DecidableEq, Repr

/-- The handlers catch all exceptions and make an error of them (AttrSetProvider.cpp:312-316, ...); `none`: the process
ends. -/
def reply {α : Type} (f : α → Reply) : Except Fail α → Option Reply
  | .ok a => some (f a)
  | .error .crash => none
  | .error _ => some .error

/-- A cell that is never initialised: the member `Nixpkgs` before the first expression is evaluated. -/
def World.with (w : World) (root : Option Nat) : Heap × Nat :=
  match root with
  | some l => (w.heap, l)
  | none => (fun _ => .uninit, 0)

/-- One request (AttrSetProvider.cpp:279-422). The state is the member `Nixpkgs`. -/
def handle (w : World) (root : Option Nat) (r : Req) : Option (Option Nat × Reply) :=
  let (H, l) := w.with root
  match r with
  | .eval (.ok l) => some (some l, .evaluated)
  | .eval (.error e) => (reply (fun _ : Unit => .evaluated) (.error e)).map (root, ·)
  | .attrPathInfo path => (reply .info (attrPathInfo H l path)).map (root, ·)
  | .attrPathComplete scope pfx => (reply .names (attrPathComplete H l scope pfx)).map (root, ·)
  | .optionInfo path =>
    if path.isEmpty then some (root, .error)
    else (reply .option (do
      let o ← if root.isNone then .error .crash else w.select l path
      describeOption w.print H o)).map (root, ·)
  | .optionComplete scope pfx =>
    (reply .options (do
      let s ← if root.isNone then .error .crash else w.select l scope
      optionComplete w.print H s pfx)).map (root, ·)

/-- The replies to the requests; it ends when the process ends. -/
def serve (w : World) : Option Nat → List Req → List Reply
  | _, [] => []
  | root, r :: rs =>
    match handle w root r with
    | none => []
    | some (root, a) => a :: serve w root rs

end Verif.Worker
