import Verif.Model.Rename
import Verif.Model.Completion
import Verif.Model.DocumentLink
/-
Definitions, hover and inlay hints with the workers. Models nixd/lib/Controller/{Definition,Hover,InlayHints}.cpp, and
`havePackageScope` of nixd/lib/Controller/AST.cpp.

* A nixpkgs worker is a function from attribute paths to what `attrpathInfo` answers, `none` if it answers with an error;
  an option worker likewise for `optionInfo`. A worker which is not there is a missing function.
* `URIForFile::canonicalize` is not applied to the names of files: locations have the name as it is.
* An exception that is not caught ends the server, as it leaves a function that is run by the thread pool.
-/
namespace Verif.Nixf.Inspect
open SourceCode Server Idioms

/-- `lspserver::Location` (Protocol.h:193-196), with the name of the file. -/
structure Loc where
  file : Bytes
  range : LRange
deriving DecidableEq, Repr

/-- `PackageDescription` (AttrSet.h:50-58). -/
structure Package where
  name : Option Bytes := none
  version : Option Bytes := none
  description : Option Bytes := none
  longDescription : Option Bytes := none
  position : Option Bytes := none
  homepage : Option Bytes := none
deriving DecidableEq, Repr

/-- `ValueDescription` (AttrSet.h:83-87); the arity is printed as a number. -/
structure ValueDesc where
  doc : Bytes
  arity : Nat
  args : List Bytes
deriving DecidableEq, Repr

/-- `AttrPathInfoResponse` (AttrSet.h:93-101). -/
structure Info where
  package : Package := {}
  value : Option ValueDesc := none
  location : Option Loc := none
deriving DecidableEq, Repr

/-- `OptionDescription` (AttrSet.h:128-135), as far as it is used; the type is its description and its name. -/
structure OptInfo where
  description : Option Bytes
  declarations : List Loc
  type : Option (Option Bytes × Option Bytes)
deriving DecidableEq, Repr

/-- The workers (`nixpkgsClient()`, `Options`). -/
structure Workers where
  nixpkgs : Option (List Bytes → Option Info)
  options : List (Bytes × Option (List Bytes → Option OptInfo))

/-- How a request ends: with a result, or undefined behaviour (a null pointer is dereferenced), an exception that is not
caught, a failed `assert`, an error reply, or no fuel. -/
inductive Outcome (α : Type)
  | ok (a : α)
  | undefined
  | crash
  | assert_
  | error
  | fuel
deriving DecidableEq, Repr

/-! ### Positions of packages -/

/-- The digits at the front, as a number; `none` if there is none. -/
def digits : Bytes → Option Nat → Option Nat
  | c :: s, acc => if isDigit c then digits s (some (acc.getD 0 * 10 + (c.toNat - 48))) else acc
  | [], acc => acc

/-- `std::stoi`: white space, a sign, digits; `none` if it throws (no digits, or the number is not an `int`). -/
def stoi (s : Bytes) : Option Int :=
  match s.dropWhile isSpace with
  | 45 :: s => (digits s none).bind fun n => if n ≤ 2147483648 then some (-(n : Int)) else none
  | 43 :: s => (digits s none).bind fun n => if n ≤ 2147483647 then some (n : Int) else none
  | s => (digits s none).bind fun n => if n ≤ 2147483647 then some (n : Int) else none

/-- `parseLocation` (Definition.cpp:154-170). `none` if `std::stoi` throws. -/
def parseLocation (p : Bytes) : Option Loc :=
  match p.dropWhile (· != 58) with
  | [] => some ⟨p, ⟨⟨0, 0⟩, ⟨0, 0⟩⟩⟩
  | _ :: rest => (stoi rest).map fun l => ⟨p.takeWhile (· != 58), ⟨⟨l, 0⟩, ⟨l, 0⟩⟩⟩

/-! ### Definitions -/

/-- What `defineNixpkgsSelector` makes (Definition.cpp:277-289 with `resolveSelector`, lines 176-201): no locations if the
worker reports an error or knows none; `none` if `std::stoi` throws, which is not caught here. -/
def defineSelector (worker : List Bytes → Option Info) (sel : List Bytes) : Option (List Loc) :=
  match worker sel with
  | none => some []
  | some i =>
    match i.package.position with
    | some p => (parseLocation p).map fun l => [l]
    | none => some i.location.toList

/-- `mkSelector` for a select expression (AST.cpp:261-272). -/
def mkSelector (vl : VL) (m : PMap) (fuel : Nat) (base path : Node) : Except Err (List Bytes) :=
  match base with
  | .exprVar h i => do selectSelector path (← mkVarSelector vl m fuel (.exprVar h i))
  | _ => .error .notVariableSelect

/-- `defineSelect` (Definition.cpp:292-303). Only exceptions of the idioms are caught. -/
def defineSelect (vl : VL) (m : PMap) (fuel : Nat) (base path : Node) (worker : List Bytes → Option Info) : Outcome (List Loc) :=
  match mkSelector vl m fuel base path with
  | .error .fuel => .fuel
  | .error .assert_ => .assert_
  | .error _ => .ok []
  | .ok sel =>
    match defineSelector worker sel with
    | some ls => .ok ls
    | none => .crash

/-- `defineVar` (Definition.cpp:317-339) with `defineVarStatic` (lines 305-309) and `convertToLocation` (lines 119-128). -/
def defineVar (vl : VL) (m : PMap) (fuel : Nat) (file src : Bytes) (v : Node) (worker : List Bytes → Option Info) : Outcome (List Loc) :=
  match findVarDefinition vl v with
  | .error .badCast => .assert_
  | .error _ => .ok []
  | .ok d =>
    if d.syntax_.isNull then .ok []
    else
      let static := [⟨file, toLSPRange src d.syntax_.range⟩]
      match mkVarSelector vl m fuel v with
      | .error .fuel => .fuel
      | .error .assert_ => .assert_
      | .error _ => .ok static
      | .ok sel =>
        match defineSelector worker sel with
        | some ls => .ok (static ++ ls)
        | none => .ok static

/-- `definePath` (Definition.cpp:237-252). -/
def definePath (fs : Links.FS) (file : Bytes) (path : Node) : List Loc :=
  match path with
  | .exprPath _ p =>
    match p.literal? with
    | none => []
    | some t => ((Links.resolveExprPath fs file t).map fun target => ⟨target, ⟨⟨0, 0⟩, ⟨0, 0⟩⟩⟩).toList
  | _ => []

/-- `resolveLocations` for all option workers (Definition.cpp:210-232, 263-272). -/
def optionLocations (sel : List Bytes) (options : List (Bytes × Option (List Bytes → Option OptInfo))) : List Loc :=
  options.flatMap fun o =>
    match o.2 with
    | none => []
    | some w =>
      match w sel with
      | none => []
      | some d => d.declarations

/-- `defineAttrPath` (Definition.cpp:257-274). -/
def defineAttrPath (m : PMap) (fuel : Nat) (n : Node) (w : Workers) : Outcome (List Loc) :=
  match AttrPaths.forOptions m fuel n with
  | .ok (.ok, sel) => .ok (optionLocations sel w.options)
  | .ok _ => .ok []
  | .error .fuel => .fuel
  | .error _ => .assert_

/-- The definitions at a node (Definition.cpp:393-416). The fuel of `findAttrPathForOptions` is larger. -/
def defineNode (fs : Links.FS) (file src : Bytes) (vl : VL) (m : PMap) (fuel : Nat) (w : Workers) (n : Node) : Outcome (List Loc) :=
  match m.upExpr fuel n with
  | none => .fuel
  | some none => .ok []
  | some (some up) =>
    match findInheritVar m fuel n with
    | .error .noFuel => .fuel
    | .error .outOfRange => .crash
    | .error _ => .assert_
    | .ok (some v) =>
      match w.nixpkgs with
      | none => .undefined
      | some worker => defineVar vl m fuel file src v worker
    | .ok none =>
      match up with
      | .exprVar h i =>
        match w.nixpkgs with
        | none => .undefined
        | some worker => defineVar vl m fuel file src (.exprVar h i) worker
      | .exprSelect _ base _ path _ _ =>
        match w.nixpkgs with
        | none => .undefined
        | some worker => defineSelect vl m fuel base path worker
      | .exprAttrs .. => defineAttrPath m (2 * fuel + 1) n w
      | .exprPath h p => .ok (definePath fs file (.exprPath h p))
      | _ => .error

/-- `onDefinition` (Definition.cpp:381-421) on a tree, before `squash` (lines 342-361). -/
noncomputable def onDefinition (P : PrimOps) (fs : Links.FS) (file src : Bytes) (root : Node) (w : Workers) (pos : Pos) : Outcome (List Loc) :=
  match root.descend ⟨pos, pos⟩ with
  | none => .ok []
  | some n => defineNode fs file src (runVL P (sizeOf root) root) (runPM root) (sizeOf root) w n

/-- The reply: `null`, a location, or several (`squash`, Definition.cpp:342-354). -/
inductive Reply
  | null
  | one (l : Loc)
  | many (ls : List Loc)
deriving DecidableEq, Repr

def squash : List Loc → Reply
  | [] => .null
  | [l] => .one l
  | ls => .many ls

/-! ### Hover -/

/-- `mkMarkdown` for a package (Hover.cpp:60-86). -/
def packageText (p : Package) : Bytes :=
  (match p.name with
    | some n => b!"`" ++ n ++ b!"`\n"
    | none => []) ++
  (match p.homepage with
    | some h => b!"[homepage](" ++ h ++ b!")\n"
    | none => []) ++
  (match p.description with
    | some d => b!"## Description\n\n" ++ d ++ b!"\n\n" ++
      (match p.longDescription with
        | some l => b!"\n\n" ++ l ++ b!"\n\n"
        | none => [])
    | none => [])

/-- The names of the arguments (Hover.cpp:104-111). -/
def argsText : List Bytes → Bytes
  | [] => []
  | [a] => b!"`" ++ a ++ b!"`"
  | a :: as => b!"`" ++ a ++ b!"`, " ++ argsText as

/-- The decimal digits of a number. -/
def decimal (n : Nat) : Bytes := (Nat.toDigits 10 n).map fun c => UInt8.ofNat c.toNat

/-- The description of a value (Hover.cpp:96-113). -/
def valueText (v : ValueDesc) : Bytes :=
  (if v.doc.isEmpty then [] else v.doc ++ b!"\n\n") ++
  (if v.arity = 0 then [] else b!"**Arity:** " ++ decimal v.arity ++ b!"\n") ++
  (if v.args.isEmpty then [] else b!"**Args:** " ++ argsText v.args ++ b!"\n")

/-- `mkMarkdown` (Hover.cpp:89-117). -/
def infoText (i : Info) : Bytes :=
  packageText i.package ++
  (match i.value with
    | none => []
    | some v => (if (packageText i.package).isEmpty then [] else b!"\n") ++ valueText v)

/-- `hoverNixpkgsSelector` with `resolveSelector` (Hover.cpp:123-171): the text. -/
def hoverSelector (worker : List Bytes → Option Info) (sel : List Bytes) : Option Bytes :=
  match worker sel with
  | none => none
  | some i => if (infoText i).isEmpty then none else some (infoText i)

/-- `hoverVar` and `hoverSelect` (Hover.cpp:174-201), given the selector. -/
def hoverIdiom (sel : Except Err (List Bytes)) (worker : List Bytes → Option Info) : Outcome (Option Bytes) :=
  match sel with
  | .error .fuel => .fuel
  | .error .assert_ => .assert_
  | .error _ => .ok none
  | .ok sel => .ok (hoverSelector worker sel)

/-- The text for an option (Hover.cpp:246-256). -/
def optionText (d : OptInfo) : Bytes :=
  (match d.type with
    | some (desc, name) => name.getD [] ++ b!" (" ++ desc.getD [] ++ b!")"
    | none => b!"? (missing type)") ++
  (match d.description with
    | some t => b!"\n\n" ++ t
    | none => [])

/-- The loop over the option workers (Hover.cpp:240-267): the first answer. -/
def hoverOptions (sel : List Bytes) (options : List (Bytes × Option (List Bytes → Option OptInfo))) : Option Bytes :=
  options.findSome? fun o =>
    match o.2 with
    | none => none
    | some w => (w sel).map optionText

/-- Hover at a node (Hover.cpp:213-279): the text and the range. -/
def hoverNode (src : Bytes) (vl : VL) (m : PMap) (fuel : Nat) (w : Workers) (n : Node) : Outcome (Option (Bytes × LRange)) :=
  let shown (at_ : Node) : Outcome (Option Bytes) → Outcome (Option (Bytes × LRange))
    | .ok t => .ok (t.map fun t => (t, toLSPRange src at_.range))
    | .undefined => .undefined
    | .crash => .crash
    | .assert_ => .assert_
    | .error => .error
    | .fuel => .fuel
  match m.upExpr fuel n with
  | none => .fuel
  | some none => .ok none
  | some (some up) =>
    match w.nixpkgs with
    | none => .ok none
    | some worker =>
      match up with
      | .exprVar .. => shown up (hoverIdiom (mkVarSelector vl m fuel up) worker)
      | .exprSelect _ base _ path _ _ => shown up (hoverIdiom (mkSelector vl m fuel base path) worker)
      | .exprAttrs .. =>
        match AttrPaths.forOptions m (2 * fuel + 1) n with
        | .ok (.ok, sel) => shown n (.ok (hoverOptions sel w.options))
        | .ok _ => .ok none
        | .error .fuel => .fuel
        | .error _ => .assert_
      | _ => .ok none

/-- `onHover` (Hover.cpp:205-285) on a tree. -/
noncomputable def onHover (P : PrimOps) (src : Bytes) (root : Node) (w : Workers) (pos : Pos) : Outcome (Option (Bytes × LRange)) :=
  match root.descend ⟨pos, pos⟩ with
  | none => .ok none
  | some n => hoverNode src (runVL P (sizeOf root) root) (runPM root) (sizeOf root) w n

/-! ### Inlay hints -/

/-- `InlayHint` (Protocol.h:1733-1771), without the kind. -/
structure Hint where
  position : Position
  label : Bytes
  range : LRange
deriving DecidableEq, Repr

/-- The loop of `havePackageScope` (AST.cpp:116-134). A scope is that of a `with` if its node is one
(VariableLookup.h:103-105). -/
def packageEnv (env : Env) : Bool :=
  env.any fun sc =>
    match sc.syntax_ with
    | .exprWith _ _ _ w _ =>
      match w with
      | .exprVar _ i => i.name == b!"pkgs"
      | _ => false
    | _ => false

/-- `havePackageScope` (AST.cpp:108-135). -/
def havePackageScope (vl : VL) (m : PMap) (fuel : Nat) (n : Node) : Bool :=
  match upEnv vl m fuel n with
  | some (some env) => packageEnv env
  | _ => false

/-- The hint of a variable (InlayHints.cpp:70-101). An error of the worker leaves an empty description. -/
def hintOf (src : Bytes) (worker : List Bytes → Option Info) (n : Node) : List Hint :=
  match ((worker [idName n]).bind (·.package.version)) with
  | some v => [⟨toLSPPosition src n.rCur, b!": " ++ v, toLSPRange src n.range⟩]
  | none => []

/-- `dfs` (InlayHints.cpp:67-107). The recursion follows the tree, so its size is enough fuel. A variable outside of the
range ends the recursion, but has only its identifier below. -/
def hintsF (src : Bytes) (vl : VL) (m : PMap) (fuel : Nat) (range : Option PosRange) (worker : List Bytes → Option Info) : Nat → Node → List Hint
  | 0, _ => []
  | k + 1, n =>
    match n with
    | .exprVar h i =>
      if havePackageScope vl m fuel (.exprVar h i) then
        if (match range with
          | some r => r.contains (Node.exprVar h i).positionRange
          | none => true) then
          hintOf src worker (.exprVar h i) ++ (Node.exprVar h i).children.flatMap (hintsF src vl m fuel range worker k)
        else []
      else (Node.exprVar h i).children.flatMap (hintsF src vl m fuel range worker k)
    | n => n.children.flatMap (hintsF src vl m fuel range worker k)

/-- `onInlayHint` (InlayHints.cpp:112-139) on a tree. -/
noncomputable def inlayHints (P : PrimOps) (src : Bytes) (root : Node) (w : Workers) (range : Option PosRange) : Outcome (List Hint) :=
  match w.nixpkgs with
  | none => .undefined
  | some worker => .ok (hintsF src (runVL P (sizeOf root) root) (runPM root) (sizeOf root) range worker (sizeOf root) root)

end Verif.Nixf.Inspect
