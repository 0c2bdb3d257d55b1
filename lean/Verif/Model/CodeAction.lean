import Verif.Model.CodeActionUtils
import Verif.Model.Rename
/-
Code actions. Models nixd/lib/Controller/CodeAction.cpp and nixd/lib/Controller/CodeActions/{AttrName,ConvertToInherit,
FlattenAttrs,PackAttrs,InheritToBinding,NoogleDoc,WithToLet,AddToFormals,ExtractToFile}.cpp.

The actions with a single edit are values of `Action` (range and new text); the title is kept, the kind of the refactoring
(always `refactor.rewrite`) and the URI of the file are not. Climbing to a parent of a given kind has its own fuel as in
`ParentMap.lean`: a function has no result (`none`) if the fuel runs out, and an empty list if the action is not offered.
`std::set<std::string>` is a list sorted by `bytesLt`. Reserving memory has no effect.
-/
namespace Verif.Nixf
open SourceCode Server Draft

/-! ### Quick fixes (CodeAction.cpp) -/

/-- `operator<=` on positions (Protocol.h:147-150). -/
def posLe (a b : Position) : Bool := decide (a.line < b.line) || (decide (a.line = b.line) && decide (a.character ≤ b.character))

/-- `Range::overlap` (Protocol.h:185-187). -/
def overlap (a b : LRange) : Bool := posLe a.start b.stop && posLe b.start a.stop

/-- `lspserver::CodeAction` of kind `quickfix`, the fields nixd fills; `changes` are the edits of the only file. -/
structure QuickFix where
  title : Bytes
  preferred : Bool
  changes : List (LRange × Bytes)
deriving DecidableEq, Repr

/-- `IsPreferred` (CodeAction.cpp:52-59). -/
def isPreferred (k : DK) : Bool := k = .unusedDefLet

/-- The action of one fix (CodeAction.cpp:62-81). -/
def fixAction (src : Bytes) (k : DK) (f : Fix) : QuickFix :=
  ⟨f.message, isPreferred k, f.edits.map fun e => (toLSPRange src e.oldRange, e.newText)⟩

/-- The loop over the diagnostics of the translation unit (CodeAction.cpp:46-83). -/
def quickFixes (src : Bytes) (range : LRange) : List Diagnostic → List QuickFix
  | [] => []
  | d :: ds =>
    if overlap range (toLSPRange src d.range) then d.fixes.map (fixAction src d.kind) ++ quickFixes src range ds
    else quickFixes src range ds

/-! ### Helpers -/

def isKind (k : NodeKind) (n : Node) : Bool := n.kind? == some k

/-- `PM.upTo(N, Kind)` followed by `if (!Result) return;`. -/
def atNode {α : Type} (pm : PMap) (fuel : Nat) (k : NodeKind) (n : Node) (f : Node → Option (List α)) : Option (List α) :=
  match pm.upTo (isKind k) fuel n with
  | none => none
  | some none => some []
  | some (some m) => f m

/-- `AttrPath::names`. -/
def pathNames : Node → List Node
  | .attrPath _ ns _ => ns
  | _ => []

/-- Insertion into a `std::set<std::string>`. -/
def setInsert (x : Bytes) : List Bytes → List Bytes
  | [] => [x]
  | y :: ys => if bytesLt x y then x :: y :: ys else if x = y then y :: ys else y :: setInsert x ys

/-! ### AttrName.cpp -/

/-- `addAttrNameActions` (AttrName.cpp:12-41). -/
def addAttrNameActions (pm : PMap) (fuel : Nat) (n : Node) : Option (List Action) :=
  atNode pm fuel .AttrName n fun an =>
    match an with
    | .attrNameID h i => some [⟨b!"Quote attribute name", h.range, b!"\"" ++ i.name ++ b!"\""⟩]
    | .attrNameString h _ =>
      match an.staticName? with
      | some name => some (if isValidNixIdentifier name then [⟨b!"Unquote attribute name", h.range, name⟩] else [])
      | none => some []
    | _ => some []

/-! ### ConvertToInherit.cpp -/

/-- The source text of the segments before the last one (ConvertToInherit.cpp:88-94); `none` if one is not static. -/
def segmentsText : List Node → Option Bytes
  | [] => some []
  | s :: ss =>
    match s.staticName?, segmentsText ss with
    | some t, some r => some (b!"." ++ quoteNixAttrKey t ++ r)
    | _, _ => none

/-- The action for a binding (ConvertToInherit.cpp:24-104). -/
def convertBinding (src : Bytes) : Node → List Action
  | .binding h p _ v =>
    match pathNames p with
    | [a] =>
      match a.staticName? with
      | none => []
      | some name =>
        match v with
        | .exprVar _ i =>
          if i.name = name then [⟨b!"Convert to `inherit`", h.range, b!"inherit " ++ quoteNixAttrKey name ++ b!";"⟩] else []
        | .exprSelect _ e _ sp d _ =>
          if d.isNull = false then []
          else
            match (pathNames sp).getLast? with
            | none => []
            | some l =>
              if l.staticName? = some name then
                match segmentsText (pathNames sp).dropLast with
                | none => []
                | some t =>
                  [⟨b!"Convert to `inherit (" ++ (e.src src ++ t) ++ b!")`", h.range,
                    b!"inherit (" ++ (e.src src ++ t) ++ b!") " ++ quoteNixAttrKey name ++ b!";"⟩]
              else []
        | _ => []
    | _ => []
  | _ => []

/-- `addConvertToInheritAction` (ConvertToInherit.cpp:14-105). -/
def addConvertToInheritAction (src : Bytes) (pm : PMap) (fuel : Nat) (n : Node) : Option (List Action) :=
  atNode pm fuel .Binding n fun b => some (convertBinding src b)

/-! ### InheritToBinding.cpp -/

/-- The action for an `inherit` (InheritToBinding.cpp:25-62). -/
def inheritBinding (src : Bytes) : Node → List Action
  | .inherit h [a] e =>
    match a.staticName? with
    | none => []
    | some name =>
      [⟨b!"Convert to explicit binding", h.range,
        name ++ b!" = " ++ (if e.isNull then name else e.src src ++ b!"." ++ name) ++ b!";"⟩]
  | _ => []

/-- `addInheritToBindingAction` (InheritToBinding.cpp:14-63). -/
def addInheritToBindingAction (src : Bytes) (pm : PMap) (fuel : Nat) (n : Node) : Option (List Action) :=
  atNode pm fuel .Inherit n fun b => some (inheritBinding src b)

/-! ### FlattenAttrs.cpp -/

/-- All names of a path are static. -/
def allStatic (p : Node) : Bool := (pathNames p).all fun a => a.staticName?.isSome

/-- The test of one binding (FlattenAttrs.cpp:28-36). -/
def plainStatic : Node → Bool
  | .binding _ p _ _ => allStatic p
  | _ => false

/-- `getFlattenableBinds` (FlattenAttrs.cpp:17-40): the bindings, `[]` if the set cannot be flattened. -/
def flattenable : Node → List Node
  | .exprAttrs _ (.binds _ bs) rec _ _ => if rec.isNull && bs.all plainStatic then bs else []
  | _ => []

/-- `if (Bind.value()) NewText += Bind.value()->src(Src)`. -/
def valueSrc (src : Bytes) (v : Node) : Bytes := if v.isNull then [] else v.src src

/-- One flattened binding (FlattenAttrs.cpp:84-98). -/
def flattenOne (src outer : Bytes) : Node → Bytes
  | .binding _ p _ v => outer ++ b!"." ++ p.src src ++ b!" = " ++ valueSrc src v ++ b!";"
  | _ => []

/-- Texts with a space between two of them (FlattenAttrs.cpp:100-101). -/
def spaced : List Bytes → Bytes
  | [] => []
  | [t] => t
  | t :: ts => t ++ b!" " ++ spaced ts

/-- The action for a binding (FlattenAttrs.cpp:52-107). -/
def flattenBinding (src : Bytes) : Node → List Action
  | .binding h p _ v =>
    match flattenable v with
    | [] => []
    | bs =>
      if allStatic p then
        [⟨b!"Flatten nested attribute set", h.range, spaced (bs.map (flattenOne src (p.src src)))⟩]
      else []
  | _ => []

/-- `addFlattenAttrsAction` (FlattenAttrs.cpp:44-108). -/
def addFlattenAttrsAction (src : Bytes) (pm : PMap) (fuel : Nat) (n : Node) : Option (List Action) :=
  atNode pm fuel .Binding n fun b => some (flattenBinding src b)

/-! ### PackAttrs.cpp -/

/-- The `SemaAttrs` of a set. -/
def semaStatic : Node → List Node
  | .exprAttrs _ _ _ st _ => st
  | _ => []
def semaDynamic : Node → List Node
  | .exprAttrs _ _ _ _ dy => dy
  | _ => []

/-- The nested set of the first segment in the enclosing set (PackAttrs.cpp:31-41, 262-271). -/
def nestedOf (first : Bytes) (parent : Node) : Option Node :=
  match findStatic first (semaStatic parent) with
  | none => none
  | some a => if isKind .ExprAttrs (attrValue a) then some (attrValue a) else none

/-- `getSiblingCount` (PackAttrs.cpp:22-50), for a path with a static first name. -/
def siblingCount (first : Bytes) (parent : Node) : Nat :=
  match nestedOf first parent with
  | none => 0
  | some a => if (semaDynamic a).isEmpty then (semaStatic a).length else 0

/-- The value of an attribute in `generateNestedText` (PackAttrs.cpp:77-95). -/
def nestedValue (rec : List Node → Bytes) (src : Bytes) (a : Node) : Bytes :=
  if isKind .ExprAttrs (attrValue a) then
    if (semaDynamic (attrValue a)).isEmpty && !attrFromInherit a then rec (semaStatic (attrValue a))
    else (attrValue a).src src
  else valueSrc src (attrValue a)

/-- `generateNestedText` (PackAttrs.cpp:55-99). The argument is `MaxNestedDepth + 1 - Depth`. -/
def nestedText (src : Bytes) : Nat → List Node → Bytes
  | 0, _ => b!"{ /* max depth exceeded */ }"
  | k + 1, st =>
    b!"{ " ++ spaced (st.map fun a => quoteNixAttrKey (attrName a) ++ b!" = " ++ nestedValue (nestedText src k) src a ++ b!";")
      ++ b!" }"

/-- The text from the second name on (PackAttrs.cpp:141-145, 233-243). -/
def restPath (src : Bytes) (p second : Node) : Bytes := (src.drop second.lCur.offset).take (p.rCur.offset - second.lCur.offset)

/-- A binding whose path starts with the given name. -/
def startsWith (first : Bytes) : Node → Bool
  | .binding _ p _ _ =>
    match pathNames p with
    | a :: _ => a.staticName? == some first
    | [] => false
  | _ => false

/-- One binding of `generateShallowNestedText` (PackAttrs.cpp:129-157). -/
def shallowOne (src first : Bytes) : Node → Bytes
  | .binding _ p _ v =>
    match pathNames p with
    | [_] => quoteNixAttrKey first ++ b!" = " ++ valueSrc src v ++ b!";"
    | _ :: s :: _ =>
      (if p.rCur.offset ≥ s.lCur.offset then restPath src p s ++ b!" = " ++ valueSrc src v else []) ++ b!";"
    | [] => []
  | _ => []

/-- `generateShallowNestedText` (PackAttrs.cpp:108-159). -/
def shallowText (src first : Bytes) (bs : List Node) : Bytes :=
  b!"{ " ++ spaced ((bs.filter (startsWith first)).map (shallowOne src first)) ++ b!" }"

/-- `findSiblingBindingsRange` (PackAttrs.cpp:163-194). -/
def siblingsRange (first : Bytes) (r : CRange) : List Node → CRange
  | [] => r
  | b :: bs =>
    siblingsRange first
      (if startsWith first b then
        ⟨if b.range.l.offset < r.l.offset then b.range.l else r.l,
          if b.range.r.offset > r.r.offset then b.range.r else r.r⟩
       else r) bs

/-- `GeneratePackOneText` (PackAttrs.cpp:240-270). -/
def packOneText (src : Bytes) (p v : Node) : Bytes :=
  match pathNames p with
  | a :: s :: _ =>
    if p.rCur.offset < s.lCur.offset then []
    else a.src src ++ b!" = { " ++ restPath src p s ++ b!" = " ++ valueSrc src v ++ b!"; };"
  | _ => []

/-- The action that packs one binding. -/
def packOne (src : Bytes) (h : Hd) (p v : Node) : List Action :=
  let t := packOneText src p v
  if t.isEmpty then [] else [⟨b!"Pack dotted path to nested set", h.range, t⟩]

/-- The actions for a binding in a set (PackAttrs.cpp:203-321). -/
def packBinding (src : Bytes) (b binds parent : Node) : List Action :=
  match b, binds, parent with
  | .binding h p _ v, .binds _ bs, .exprAttrs _ _ rec _ _ =>
    match pathNames p with
    | a :: _ :: _ =>
      match a.staticName? with
      | none => []
      | some first =>
        if allStatic p = false ∨ rec.isNull = false then []
        else if siblingCount first parent = 0 then []
        else if siblingCount first parent = 1 then packOne src h p v
        else
          match nestedOf first parent with
          | none => []
          | some nested =>
            packOne src h p v ++
              [⟨b!"Pack all '" ++ first ++ b!"' bindings to nested set", siblingsRange first h.range bs,
                quoteNixAttrKey first ++ b!" = " ++ shallowText src first bs ++ b!";"⟩,
               ⟨b!"Recursively pack all '" ++ first ++ b!"' bindings to nested set", siblingsRange first h.range bs,
                quoteNixAttrKey first ++ b!" = " ++ nestedText src 101 (semaStatic nested) ++ b!";"⟩]
    | _ => []
  | _, _, _ => []

/-- `addPackAttrsAction` (PackAttrs.cpp:198-322). -/
def addPackAttrsAction (src : Bytes) (pm : PMap) (fuel : Nat) (n : Node) : Option (List Action) :=
  atNode pm fuel .Binding n fun b =>
    match pm.query b with
    | none => some []
    | some bs =>
      if isKind .Binds bs then
        match pm.query bs with
        | none => some []
        | some parent => if isKind .ExprAttrs parent then some (packBinding src b bs parent) else some []
      else some []

/-! ### NoogleDoc.cpp -/

/-- The static names of a path; `none` if one is not static (NoogleDoc.cpp:60-64). -/
def staticNames : List Node → Option (List Bytes)
  | [] => some []
  | a :: as =>
    match a.staticName?, staticNames as with
    | some t, some r => some (t :: r)
    | _, _ => none

/-- `buildNoogleUrl` (NoogleDoc.cpp:18-25). -/
def noogleUrl (path : List Bytes) : Bytes := b!"https://noogle.dev/f" ++ path.flatMap fun s => b!"/" ++ s

/-- The URL opened by the action for a select expression (NoogleDoc.cpp:38-66). -/
def noogleSelect : Node → List Bytes
  | .exprSelect _ (.exprVar _ i) _ p _ _ =>
    if i.name = b!"lib" then
      match pathNames p with
      | [] => []
      | ns =>
        match staticNames ns with
        | some ts => [noogleUrl (b!"lib" :: ts)]
        | none => []
    else []
  | _ => []

/-- `addNoogleDocAction` (NoogleDoc.cpp:29-76). -/
def addNoogleDocAction (pm : PMap) (fuel : Nat) (n : Node) : Option (List Bytes) :=
  atNode pm fuel .ExprSelect n fun s => some (noogleSelect s)

/-! ### WithToLet.cpp -/

/-- `hasNestedWithScope` (WithToLet.cpp:30-55). -/
def hasNestedWithScope (vl : VL) (w kw : Node) : Bool :=
  match vl.toDefOf kw with
  | none => false
  | some d => d.uses.any fun v => decide (1 < (vl.withScopesOf v).length) && (vl.withScopesOf v).head? != some w.id

/-- `isCursorOnWithKeyword` (WithToLet.cpp:58-67). -/
def onKeyword (kw n : Node) : Bool :=
  decide (n.lCur.offset ≤ kw.rCur.offset) && decide (kw.lCur.offset ≤ n.rCur.offset)

/-- `Var->id().name()`. -/
def useName : Node → Bytes
  | .exprVar _ i => i.name
  | _ => []

/-- `collectWithVariables` (WithToLet.cpp:71-88). -/
def withVariables (vl : VL) (kw : Node) : List Bytes :=
  match vl.toDefOf kw with
  | none => []
  | some d => d.uses.foldl (fun m v => setInsert (useName v) m) []

/-- `generateLetInherit` (WithToLet.cpp:92-127). -/
def letInherit (src : Bytes) (w e : Node) (names : List Bytes) : Bytes :=
  b!"let inherit (" ++ w.src src ++ b!")" ++ (names.flatMap fun x => b!" " ++ x) ++ b!"; in " ++ e.src src

/-- The action for a `with` at a node (WithToLet.cpp:138-175). -/
def withToLet (src : Bytes) (vl : VL) (n : Node) : Node → List Action
  | .exprWith h kw semi w e =>
    if onKeyword kw n = false then []
    else if hasNestedWithScope vl (.exprWith h kw semi w e) kw then []
    else if (withVariables vl kw).isEmpty then []
    else if w.isNull ∨ e.isNull then []
    else [⟨b!"Convert `with` to `let/inherit`", h.range, letInherit src w e (withVariables vl kw)⟩]
  | _ => []

/-- `addWithToLetAction` (WithToLet.cpp:131-176). -/
def addWithToLetAction (src : Bytes) (pm : PMap) (vl : VL) (fuel : Nat) (n : Node) : Option (List Action) :=
  atNode pm fuel .ExprWith n fun w => some (withToLet src vl n w)

/-! ### AddToFormals.cpp -/

/-- The offset of the insertion and the inserted text (AddToFormals.cpp:60-112). -/
def formalInsertion (fs : Node) (name : Bytes) : Option (Nat × Bytes) :=
  let key := quoteNixAttrKey name
  let ms := formalMembers fs
  match ms.getLast? with
  | none => some (fs.lCur.offset + 1, b!" " ++ key ++ b!" ")
  | some last =>
    if formalIsEllipsis last then
      if ms.length = 1 then some (last.lCur.offset, key ++ b!", ")
      else
        match ms.reverse.find? (fun f => !formalIsEllipsis f) with
        | none => none
        | some f => some (f.rCur.offset, b!", " ++ key)
    else some (last.rCur.offset, b!", " ++ key)

/-- The action of adding a name to formals: an insertion at an offset. -/
structure Insertion where
  title : Bytes
  offset : Nat
  text : Bytes
deriving DecidableEq, Repr

/-- The formals of a function (AddToFormals.cpp:42-46). -/
def lambdaFormals : Node → Node
  | .exprLambda _ (.lambdaArg _ _ f) _ => f
  | _ => .null

/-- `addToFormalsAction` (AddToFormals.cpp:20-132). -/
def addToFormalsAction (pm : PMap) (vl : VL) (fuel : Nat) (n : Node) : Option (List Insertion) :=
  atNode pm fuel .ExprVar n fun v =>
    match vl.query v with
    | some ⟨.undefined, _⟩ =>
      atNode pm fuel .ExprLambda n fun l =>
        let fs := lambdaFormals l
        if fs.isNull then some []
        else if (keyFind (useName v) (dedup (formalMembers fs))).isSome then some []
        else
          match formalInsertion fs (useName v) with
          | none => some []
          | some (o, t) => some [⟨b!"add `" ++ useName v ++ b!"` to formals", o, t⟩]
    | _ => some []

/-! ### ExtractToFile.cpp -/

/-- `isInsideNode` (ExtractToFile.cpp:72-80). -/
def insideNode (n root : Node) : Bool :=
  decide (root.lCur.offset ≤ n.lCur.offset) && decide (n.rCur.offset ≤ root.rCur.offset)

/-- The part of `collect` for a variable (ExtractToFile.cpp:41-66). `Def->isBuiltin()` is the source of the definition. -/
def collectVar (vl : VL) (root n : Node) (acc : List Bytes × Bool) : List Bytes × Bool :=
  match n with
  | .exprVar .. =>
    match vl.query n with
    | some ⟨.defined, some d⟩ =>
      let d := vl.get d
      if d.source = .builtin then acc
      else if !d.syntax_.isNull && !insideNode d.syntax_ root then (setInsert (useName n) acc.1, acc.2) else acc
    | some ⟨.fromWith, _⟩ => (setInsert (useName n) acc.1, true)
    | _ => acc
  | _ => acc

/-- `FreeVariableCollector::collect` (ExtractToFile.cpp:39-70). The recursion goes down the tree. -/
def collectFree (vl : VL) (root : Node) : Nat → Node → List Bytes × Bool → List Bytes × Bool
  | 0, _, acc => acc
  | k + 1, n, acc => n.children.foldl (fun a c => collectFree vl root k c a) (collectVar vl root n acc)

/-- `FreeVariableCollector::collect()` (ExtractToFile.cpp:87-92). -/
noncomputable def freeVariables (vl : VL) (root : Node) : List Bytes × Bool := collectFree vl root (sizeOf root) root ([], false)

/-- `std::isalnum` in the "C" locale. -/
def isAlnum (c : UInt8) : Bool := (48 ≤ c && c ≤ 57) || (65 ≤ c && c ≤ 90) || (97 ≤ c && c ≤ 122)

/-- Sanitizing a file name (ExtractToFile.cpp:110-115). -/
def sanitize (name : Bytes) : Bytes := name.map fun c => if isAlnum c || c == 45 || c == 95 then c else 95

/-- The name by the kind of expression (ExtractToFile.cpp:121-134). -/
def kindFilename (n : Node) : Bytes :=
  match n.kind? with
  | some .ExprLambda => b!"extracted-lambda.nix"
  | some .ExprAttrs => b!"extracted-attrs.nix"
  | some .ExprList => b!"extracted-list.nix"
  | some .ExprLet => b!"extracted-let.nix"
  | some .ExprIf => b!"extracted-if.nix"
  | _ => b!"extracted.nix"

/-- `generateFilename` (ExtractToFile.cpp:100-135). -/
def generateFilename (pm : PMap) (fuel : Nat) (n : Node) : Option Bytes :=
  match pm.upTo (isKind .Binding) fuel n with
  | none => none
  | some (some (.binding _ p _ _)) =>
    match (pathNames p).getLast?.bind Node.staticName? with
    | some t => some (sanitize t ++ b!".nix")
    | none => some (kindFilename n)
  | some _ => some (kindFilename n)

/-- Texts with a separator between two of them. -/
def joined (sep : Bytes) : List Bytes → Bytes
  | [] => []
  | [t] => t
  | t :: ts => t ++ sep ++ joined sep ts

/-- `generateExtractedContent` (ExtractToFile.cpp:141-161). -/
def extractedContent (e : Bytes) (free : List Bytes) : Bytes :=
  (if free.isEmpty then [] else b!"{ " ++ joined b!", " free ++ b!" }:\n") ++ e ++ b!"\n"

/-- `generateImportStatement` (ExtractToFile.cpp:169-184). -/
def importStatement (file : Bytes) (free : List Bytes) : Bytes :=
  b!"import ./" ++ file ++
    (if free.isEmpty then [] else b!" { inherit" ++ (free.flatMap fun x => b!" " ++ x) ++ b!"; }")

/-- `isExtractable` (ExtractToFile.cpp:233-285). -/
def isExtractable : Node → Bool
  | .exprAttrs _ (.binds _ bs) _ _ _ => !bs.isEmpty
  | .exprAttrs .. => false
  | .exprList _ es => !es.isEmpty
  | .exprLambda .. | .exprLet .. | .exprIf .. | .exprWith .. | .exprCall .. | .exprBinOp .. | .exprUnaryOp ..
  | .exprOpHasAttr .. | .exprAssert .. | .exprParen .. => true
  | _ => false

/-- `findExtractableExpr` (ExtractToFile.cpp:292-323). -/
def findExtractable (pm : PMap) (n : Node) : Option Node :=
  if isExtractable n then some n
  else if isKind .Identifier n || isKind .AttrName n then
    match pm.query n with
    | some (.attrPath h ns ds) =>
      match pm.query (.attrPath h ns ds) with
      | some (.binding _ _ _ v) => if isExtractable v then some v else none
      | _ => none
    | _ => none
  else none

/-- The numbered names (ExtractToFile.cpp:213-224): the remaining attempts and the next number. -/
def numbered (exists_ : Bytes → Bool) (stem ext base : Bytes) : Nat → Nat → Bytes
  | 0, _ => base
  | k + 1, i =>
    let c := stem ++ b!"-" ++ natDigits i ++ ext
    if exists_ c then numbered exists_ stem ext base k (i + 1) else c

/-- `makeUniqueFilename` (ExtractToFile.cpp:200-228); `exists_` is the test in the directory of the source file. All names
end in `.nix` and have no other dot, so stem and extension are known. -/
def uniqueFilename (exists_ : Bytes → Bool) (base : Bytes) : Bytes :=
  if exists_ base = false then base else numbered exists_ (base.take (base.length - 4)) b!".nix" base 99 1

/-- The result of the action: the name and the text of the new file, the replaced range and its new text. -/
structure Extraction where
  file : Bytes
  content : Bytes
  range : CRange
  newText : Bytes
deriving DecidableEq, Repr

/-- `addExtractToFileAction` (ExtractToFile.cpp:327-421). -/
noncomputable def addExtractToFileAction (exists_ : Bytes → Bool) (src : Bytes) (pm : PMap) (vl : VL) (fuel : Nat) (n : Node) :
    Option (List Extraction) :=
  match findExtractable pm n with
  | none => some []
  | some e =>
    if (e.src src).isEmpty then some []
    else
      let free := (freeVariables vl e).1
      match generateFilename pm fuel e with
      | none => none
      | some base =>
        let file := uniqueFilename exists_ base
        some [⟨file, extractedContent (e.src src) free, e.range, importStatement file free⟩]

end Verif.Nixf
