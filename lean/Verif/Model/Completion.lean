import Verif.Model.Idioms
import Verif.Model.AttrPath
import Verif.Model.Server
/-
Completion. Models nixd/lib/Controller/Completion.cpp and the completion of names by the worker
(nixd/lib/Eval/AttrSetProvider.cpp).

* A nixpkgs worker is a function from attribute paths to the names of the attributes found there, in lexicographic order,
  or `none` if the evaluation fails. An option worker gives names with their descriptions.
* A worker which is not there is a missing function: `nixpkgsClient()` is a null pointer.
* `CompletionItem::data` has the parameters instead of their JSON text.
* A list of items and a flag stand for the vector of items and the exception `ExceedSizeError`.
-/
namespace Verif.Nixf.Complete
open SourceCode Server Idioms

/-- `AttrPathCompleteParams` (AttrSet.h:107-111). -/
structure Params where
  scope : List Bytes
  pfx : Bytes
deriving DecidableEq, Repr

/-- The kinds of items in use. -/
inductive ItemKind
  | keyword
  | variable_
  | field
  | constructor_
  | class_
deriving DecidableEq, Repr

/-- `CompletionItem` (Protocol.h:1353-1415). `snippet` is the format of the inserted text, if it is set. -/
structure Item where
  label : Bytes
  kind : ItemKind
  detail : Bytes := []
  documentation : Option Bytes := none
  sortText : Bytes := []
  filterText : Bytes := []
  insertText : Bytes := []
  snippet : Option Bool := none
  textEdit : Option (LRange × Bytes) := none
  data : Option Params := none
deriving DecidableEq, Repr

/-- `MaxCompletionSize` (Completion.cpp:33) and `MaxItems` (AttrSetProvider.cpp:16). -/
def maxSize : Nat := 30

/-- `addItem` (Completion.cpp:44-49). -/
def addItem (items : List Item) (i : Item) : List Item × Bool :=
  if items.length ≥ maxSize then (items, true) else (items ++ [i], false)

/-- `addItem` in a loop, which ends with the exception. -/
def addItems : List Item → List Item → List Item × Bool
  | items, [] => (items, false)
  | items, i :: is =>
    match addItem items i with
    | (items, true) => (items, true)
    | (items, false) => addItems items is

/-- `canCompleteAt` (Completion.cpp:59-63) with `hasConcreteChild` (lines 51-57). -/
def canCompleteAt (n : Node) : Bool :=
  n.children.isEmpty || (match n with
    | .binds .. => true
    | .exprAttrs .. => true
    | _ => false)

/-- The body of the loop in `collectDef` (Completion.cpp:81-92) with `getCompletionItemKind` (lines 68-73). -/
def defItem (vl : VL) (pfx : Bytes) (p : Bytes × Nat) : Option Item :=
  if b!"__".isPrefixOf p.1 then none
  else if pfx.isPrefixOf p.1 then
    some { label := p.1, kind := if (vl.get p.2).source = .builtin then .keyword else .variable_ }
  else none

/-- `collectDef` (Completion.cpp:76-93). -/
def collectDef (vl : VL) (pfx : Bytes) : Env → List Item → List Item × Bool
  | [], items => (items, false)
  | sc :: env, items =>
    match collectDef vl pfx env items with
    | (items, true) => (items, true)
    | (items, false) => addItems items (sc.defs.filterMap (defItem vl pfx))

/-- `completeNames` (AttrSetProvider.cpp:208-232), with the number of names found. -/
def completeNames (pfx : Bytes) : Nat → List Bytes → List Bytes
  | _, [] => []
  | num, x :: xs =>
    if pfx.isPrefixOf x then
      if num + 1 > maxSize then [x] else x :: completeNames pfx (num + 1) xs
    else completeNames pfx num xs

/-- `onAttrPathComplete` (AttrSetProvider.cpp:310-331); an error makes an empty list (Completion.cpp:151-155). -/
def packages (worker : List Bytes → Option (List Bytes)) (p : Params) : List Bytes :=
  match worker p.scope with
  | some names => completeNames p.pfx 0 names
  | none => []

/-- `completePackages` (Completion.cpp:144-174). -/
def completePackages (worker : List Bytes → Option (List Bytes)) (edit : LRange) (p : Params) (items : List Item) : List Item × Bool :=
  addItems items (((packages worker p).filter (p.pfx.isPrefixOf ·)).map fun name =>
    { label := name, kind := .field, textEdit := some (edit, name), data := some p })

/-- `OptionDescription` (AttrSet.h:128-135) without the locations; the type is its description and its name. -/
structure OptDesc where
  description : Option Bytes
  example_ : Option Bytes
  default_ : Option Bytes
  type : Option (Option Bytes × Option Bytes)
deriving DecidableEq, Repr

/-- An option worker: the attributes at a path. An attribute is an option with a description, or not an option; `none` is
an error when the attribute is evaluated. -/
abbrev OptWorker := List Bytes → Option (List (Bytes × Option (Option OptDesc)))

/-- The loop of `onOptionComplete` (AttrSetProvider.cpp:393-412). -/
def optionNames (pfx : Bytes) : List (Bytes × Option OptDesc) → List (Bytes × Option (Option OptDesc)) → Option (List (Bytes × Option OptDesc))
  | acc, [] => some acc
  | acc, (name, d) :: xs =>
    if pfx.isPrefixOf name then
      match d with
      | none => none
      | some d => if (acc ++ [(name, d)]).length ≥ maxSize then some (acc ++ [(name, d)]) else optionNames pfx (acc ++ [(name, d)]) xs
    else optionNames pfx acc xs

/-- `onOptionComplete` (AttrSetProvider.cpp:366-421); an error makes an empty list (Completion.cpp:229-233). -/
def optionFields (worker : OptWorker) (p : Params) : List (Bytes × Option OptDesc) :=
  match worker p.scope with
  | some names => (optionNames p.pfx [] names).getD []
  | none => []

/-- `escapeCharacters({'\\', '$', '}'}, ..)` (Completion.cpp:187-201). -/
def escapeCharacters : Bytes → Bytes
  | [] => []
  | c :: s => if c == 92 || c == 36 || c == 125 then 92 :: c :: escapeCharacters s else c :: escapeCharacters s

/-- `fillInsertText` (Completion.cpp:203-214). -/
def fillInsertText (snippets : Bool) (name value : Bytes) (i : Item) : Item :=
  if snippets then
    { i with snippet := some true, insertText := name ++ b!" = " ++ (b!"${1:" ++ escapeCharacters value ++ b!"}") ++ b!";" }
  else { i with snippet := some false, insertText := name ++ b!" = " ++ value ++ b!";" }

/-- `MkTextEdit` (Completion.cpp:247-252). -/
def mkTextEdit (edit : LRange) (pfx text : Bytes) : Option (LRange × Bytes) := if pfx.isEmpty then none else some (edit, text)

/-- `TypeDetail` (Completion.cpp:271-278). -/
def typeDetail (origin : Bytes) (d : OptDesc) : Bytes :=
  origin ++ b!" | " ++ (match d.type with
    | some (desc, name) => name.getD [] ++ b!" (" ++ desc.getD [] ++ b!")"
    | none => b!"? (missing type)")

/-- The items of an option (Completion.cpp:253-336). -/
def fieldItems (origin : Bytes) (snippets : Bool) (edit : LRange) (pfx : Bytes) (f : Bytes × Option OptDesc) : List Item :=
  match f.2 with
  | none => [{ label := f.1, kind := .class_, detail := origin, textEdit := mkTextEdit edit pfx f.1 }]
  | some d =>
    let hasDefault := d.default_.isSome && d.default_ != d.example_
    let hasBoth := d.example_.isSome && hasDefault
    let emit (value source sortPrefix : Bytes) : Item :=
      let i := fillInsertText snippets f.1 value
        { label := if hasBoth then f.1 ++ b!" (" ++ source ++ b!")" else f.1, kind := .constructor_, detail := typeDetail origin d,
          documentation := some (d.description.getD []), sortText := sortPrefix ++ f.1, filterText := f.1 }
      { i with textEdit := mkTextEdit edit pfx i.insertText }
    let ex := match d.example_ with
      | some v => [emit v b!"example" b!"0"]
      | none => []
    let de := match d.default_ with
      | some v => if hasDefault then [emit v b!"default" b!"1"] else []
      | none => []
    if d.example_.isSome || hasDefault then ex ++ de
    else
      let i := fillInsertText snippets f.1 []
        { label := f.1, kind := .constructor_, detail := typeDetail origin d, documentation := some (d.description.getD []) }
      [{ i with textEdit := mkTextEdit edit pfx i.insertText }]

/-- `completeAttrName` (Completion.cpp:340-354) with `completeOptions` (lines 222-337). Dead workers are skipped. -/
def completeAttrName (edit : LRange) (p : Params) (snippets : Bool) : List (Bytes × Option OptWorker) → List Item → List Item × Bool
  | [], items => (items, false)
  | (_, none) :: os, items => completeAttrName edit p snippets os items
  | (name, some w) :: os, items =>
    match addItems items ((optionFields w p).flatMap (fieldItems name snippets edit p.pfx)) with
    | (items, true) => (items, true)
    | (items, false) => completeAttrName edit p snippets os items

/-- `mkParams` (Completion.cpp:374-387). -/
def mkParams (sel : List Bytes) (isComplete : Bool) : Params :=
  if isComplete || sel.isEmpty then ⟨sel, []⟩ else ⟨sel.dropLast, sel.getLastD []⟩

/-- The outcome of a request: a list of items, marked incomplete or not; undefined behaviour (a null pointer is
dereferenced, or the last element of an empty vector is taken); a failed `assert`; or no fuel. -/
inductive Outcome
  | list (items : List Item) (incomplete : Bool)
  | undefined
  | assert_
  | fuel
deriving DecidableEq, Repr

def Outcome.of : List Item × Bool → Outcome
  | (items, b) => .list items b

/-- What the server has besides the documents: the workers (`nixpkgsClient()`, `Options`) and
`ClientCaps.CompletionSnippets`. -/
structure World where
  nixpkgs : Option (List Bytes → Option (List Bytes))
  options : List (Bytes × Option OptWorker)
  snippets : Bool

/-- Exceptions of the idioms are caught (Completion.cpp:415-417, 455-457), other than failed asserts. -/
def withSelector (r : Except Err (List Bytes)) (items : List Item) (f : List Bytes → List Item × Bool) : Outcome :=
  match r with
  | .ok sel => .of (f sel)
  | .error .assert_ => .assert_
  | .error .fuel => .fuel
  | .error _ => .list items false

/-- `completeVarName` (Completion.cpp:391-420) and the caller's handler (lines 517-520). -/
def completeVarName (vl : VL) (m : PMap) (fuel : Nat) (edit : LRange) (v : Node) (worker : List Bytes → Option (List Bytes)) : Outcome :=
  match upEnv vl m fuel v with
  | none => .fuel
  | some env =>
    match collectDef vl (idName v) (env.getD []) [] with
    | (items, true) => .list items true
    | (items, false) =>
      withSelector (mkVarSelector vl m fuel v) items fun sel =>
        if sel.isEmpty then (items, false) else completePackages worker edit (mkParams sel false) items

/-- `completeSelect` (Completion.cpp:428-460). -/
def completeSelect (vl : VL) (m : PMap) (fuel : Nat) (edit : LRange) (base path : Node) (isComplete : Bool)
    (worker : List Bytes → Option (List Bytes)) : Outcome :=
  match base with
  | .exprVar h i =>
    withSelector (do selectSelector path (← mkVarSelector vl m fuel (.exprVar h i))) [] fun sel =>
      completePackages worker edit (mkParams sel isComplete) []
  | _ => .list [] false

/-- `completeAttrPath` (Completion.cpp:356-372). `Scope.back()` is undefined for an empty path. -/
def completeAttrPath (m : PMap) (fuel : Nat) (edit : LRange) (n : Node) (w : World) : Outcome :=
  match AttrPaths.forOptions m fuel n with
  | .ok (.ok, path) =>
    match path.getLast? with
    | none => .undefined
    | some pfx => .of (completeAttrName edit ⟨path.dropLast, pfx⟩ w.snippets w.options [])
  | .ok _ => .list [] false
  | .error .fuel => .fuel
  | .error _ => .assert_

/-- The range to be replaced (Completion.cpp:481-485). -/
def editRange (src : Bytes) (n : Node) : LRange :=
  let r := toLSPRange src n.range
  if AttrPaths.isDot n then ⟨r.stop, r.stop⟩ else r

/-- The completion at a node (Completion.cpp:475-521). -/
def completeNode (src : Bytes) (vl : VL) (m : PMap) (fuel : Nat) (w : World) (n : Node) : Outcome :=
  if canCompleteAt n then
    match m.upExpr fuel n with
    | none => .fuel
    | some none => .list [] false
    | some (some (.exprVar h i)) =>
      match w.nixpkgs with
      | none => .undefined
      | some worker => completeVarName vl m fuel (editRange src n) (.exprVar h i) worker
    | some (some (.exprSelect _ base _ path _ _)) =>
      match w.nixpkgs with
      | none => .undefined
      | some worker => completeSelect vl m fuel (editRange src n) base path (AttrPaths.isDot n) worker
    | some (some (.exprAttrs ..)) => completeAttrPath m fuel (editRange src n) n w
    | some (some _) => .list [] false
  else .list [] false

/-- `onCompletion` (Completion.cpp:464-525) on a tree. -/
noncomputable def onCompletion (P : PrimOps) (src : Bytes) (root : Node) (w : World) (pos : Pos) : Outcome :=
  match root.descend ⟨pos, pos⟩ with
  | none => .list [] false
  | some n => completeNode src (runVL P (sizeOf root) root) (runPM root) (sizeOf root) w n

end Verif.Nixf.Complete
