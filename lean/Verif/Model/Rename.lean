import Verif.Model.ParentMap
import Verif.Model.Server
/-
Definitions, references, highlights and rename. Models the static part of nixd/lib/Controller/Definition.cpp, and
nixd/lib/Controller/{Rename,FindReferences,DocumentHighlight}.cpp.

Exceptions are errors of `Except`. Two of them stand for failures that are not exceptions of this code: `outOfRange` is
thrown by `std::map::at`, and `badCast` is the failed assertion (or, in release builds, the invalid `static_cast`) of
`findInheritVar`. The climbing functions of the map of parents get the fuel `fuel`; `noFuel` if it runs out.
-/
namespace Verif.Nixf
open Server SourceCode

/-- Failures of `findDefinition`. -/
inductive DefErr
  | cannotFindVar
  | undefinedVar
  | noSuchVar
  | outOfRange
  | badCast
  | noFuel
  | renameWith
  | renameBuiltin
deriving DecidableEq, Repr

def isInherit (n : Node) : Bool := n.kind? == some .Inherit
def isAttrName (n : Node) : Bool := n.kind? == some .AttrName
def isExprAttrs (n : Node) : Bool := n.kind? == some .ExprAttrs
def isExprVar (n : Node) : Bool := n.kind? == some .ExprVar

/-- `PMA.upTo` with the missing fuel as an error. -/
def upToE (pm : PMap) (fuel : Nat) (kind : Node → Bool) (n : Node) : Except DefErr (Option Node) :=
  match pm.upTo kind fuel n with
  | none => .error .noFuel
  | some o => .ok o

/-- `SA.staticAttrs().at(Name).value()` (Definition.cpp:88). -/
def staticAttrAt (attrs : Node) (name : Bytes) : Except DefErr Node :=
  match attrs with
  | .exprAttrs _ _ _ st _ =>
    match st.find? (fun a => attrName a == name) with
    | some a => .ok (attrValue a)
    | none => .error .outOfRange
  | _ => .error .badCast

/-- `findSelfDefinition` (Definition.cpp:44-57). -/
def findSelfDefinition (pm : PMap) (vl : VL) (n : Node) : Option Def :=
  match vl.toDefOf n with
  | some d => some d
  | none =>
    match pm.query n with
    | some p => if isAttrName p then vl.toDefOf p else none
    | none => none

/-- `findInheritVar` (Definition.cpp:62-93). -/
def findInheritVar (pm : PMap) (fuel : Nat) (n : Node) : Except DefErr (Option Node) :=
  match upToE pm fuel isInherit n with
  | .error e => .error e
  | .ok none => .ok none
  | .ok (some inh) =>
    match upToE pm fuel isAttrName n with
    | .error e => .error e
    | .ok none => .ok none
    | .ok (some an) =>
      match inh with
      | .inherit _ _ e =>
        if !e.isNull then .ok none
        else
          match an.staticName? with
          | none => .ok none
          | some name =>
            match upToE pm fuel isExprAttrs inh with
            | .error e => .error e
            | .ok none => .ok none
            | .ok (some up) =>
              match staticAttrAt up name with
              | .error e => .error e
              | .ok v => if isExprVar v then .ok (some v) else .error .badCast
      | _ => .error .badCast

/-- `findVar` (Definition.cpp:95-101). -/
def findVar (pm : PMap) (fuel : Nat) (n : Node) : Except DefErr (Option Node) :=
  match findInheritVar pm fuel n with
  | .error e => .error e
  | .ok (some v) => .ok (some v)
  | .ok none => upToE pm fuel isExprVar n

/-- `findVarDefinition` (Definition.cpp:103-116). A missing `Result.Def` would be a null pointer, so it counts as
`badCast`. -/
def findVarDefinition (vl : VL) (v : Node) : Except DefErr Def :=
  match vl.query v with
  | none => .error .noSuchVar
  | some ⟨.undefined, _⟩ => .error .undefinedVar
  | some ⟨_, some d⟩ => .ok (vl.get d)
  | some ⟨_, none⟩ => .error .badCast

/-- `findDefinition` (Definition.cpp:368-379). -/
def findDefinition (pm : PMap) (vl : VL) (fuel : Nat) (n : Node) : Except DefErr Def :=
  match findVar pm fuel n with
  | .error e => .error e
  | .ok (some v) => findVarDefinition vl v
  | .ok none =>
    match findSelfDefinition pm vl n with
    | some d => .ok d
    | none => .error .cannotFindVar

/-- `rename` (Rename.cpp:39-70): ranges with the new text. -/
def rename (pm : PMap) (vl : VL) (fuel : Nat) (n : Node) (new src : Bytes) : Except DefErr (List (LRange × Bytes)) :=
  match findDefinition pm vl fuel n with
  | .error e => .error e
  | .ok d =>
    if d.source = .with_ then .error .renameWith
    else if d.source = .builtin then .error .renameBuiltin
    else .ok (d.uses.map (fun u => (toLSPRange src u.range, new)) ++ [(toLSPRange src d.syntax_.range, new)])

/-- `findReferences` (FindReferences.cpp:23-46). -/
def findReferences (pm : PMap) (vl : VL) (fuel : Nat) (n : Node) (src : Bytes) : Except DefErr (List LRange) :=
  match findDefinition pm vl fuel n with
  | .error e => .error e
  | .ok d => .ok (d.uses.map fun u => toLSPRange src u.range)

/-- `DocumentHighlightKind` (Protocol.h:1494). -/
inductive HighlightKind
  | read
  | write
deriving DecidableEq, Repr

/-- `highlight` (DocumentHighlight.cpp:26-53). -/
def highlight (pm : PMap) (vl : VL) (fuel : Nat) (n : Node) (src : Bytes) : Except DefErr (List (LRange × HighlightKind)) :=
  match findDefinition pm vl fuel n with
  | .error e => .error e
  | .ok d => .ok (d.uses.map (fun u => (toLSPRange src u.range, .read)) ++
      (if d.syntax_.isNull then [] else [(toLSPRange src d.syntax_.range, .write)]))

/-- `toNixfPosition` (Convert.cpp:32-34). -/
def toNixfPosition (p : Position) : Pos := ⟨p.line, p.character⟩

end Verif.Nixf
