import Verif.Model.DocumentMessages
import Verif.Model.Replies
/-
What the server learns from `initialize`: `fromJSON` of `InitializeParams` and `ClientCapabilities`
(nixd/lspserver/src/Protocol.cpp, nixd/lspserver/include/lspserver/Protocol.h) and what is done with it
(nixd/lib/Controller/LifeTime.cpp, Support.cpp, Configuration.cpp, nixd/include/nixd/Controller/Controller.h).

* `offsetEncoding` and `initializationOptions` are decoded last and never used; they are left out. `rawCapabilities` is a copy.
* The messages of errors are left out.
-/
namespace Verif.Initialize
open Rpc (Json)
open Config (Decoder decodeString isObject)
open Protocol (decodeFile decodeInt32 decodeOption mapMaybe)

/-- `Object::getObject`. -/
def getObject (j : Json) (k : Bytes) : Option Json :=
  match j.get k with
  | some (.obj fs) => some (.obj fs)
  | _ => none

/-- Nested conditions `if (auto *O = Object->getObject(key))`. -/
def inner (j : Json) : List Bytes → Option Json
  | [] => some j
  | k :: ks => (getObject j k).bind (inner · ks)

/-- `if (auto B = Object->getBoolean(key)) R = *B` inside nested conditions. -/
def setBool (j : Json) (objects : List Bytes) (k : Bytes) (r : Bool) : Bool :=
  match (inner j objects).bind (·.get k) with
  | some (.bool b) => b
  | _ => r

/-- `R = true` inside nested conditions. -/
def setTrue (j : Json) (objects : List Bytes) (r : Bool) : Bool := (inner j objects).isSome || r

/-- `ClientCapabilities` (Protocol.h:500-616). Formats: is it `MarkupKind::Markdown`? -/
structure Caps where
  workspaceSymbolKinds : Option (List Int) := none
  diagnosticFixes : Bool := false
  diagnosticRelatedInformation : Bool := false
  diagnosticCategory : Bool := false
  completionSnippets : Bool := false
  completionFixes : Bool := false
  referenceContainer : Bool := false
  hierarchicalDocumentSymbol : Bool := false
  hasSignatureHelp : Bool := false
  lineFoldingOnly : Bool := false
  offsetsInSignatureHelp : Bool := false
  signatureHelpMarkdown : Bool := false
  completionItemKinds : Option (List Int) := none
  completionMarkdown : Bool := false
  codeActionStructure : Bool := false
  semanticTokens : Bool := false
  theiaSemanticHighlighting : Bool := false
  hoverMarkdown : Bool := false
  renamePrepareSupport : Bool := false
  workDoneProgress : Bool := false
  implicitProgressCreation : Bool := false
  cancelsStaleRequests : Bool := false
  semanticTokenRefreshSupport : Bool := false
  documentChanges : Bool := false
  changeAnnotation : Bool := false
  inactiveRegions : Bool := false
  workspaceConfiguration : Bool := false
deriving DecidableEq, Repr

/-- `fromJSON` of `MarkupKind` (Protocol.cpp:1085-1100). -/
def decodeFormat : Json → Option Bool
  | .str s => if s = b!"plaintext" then some false else if s = b!"markdown" then some true else none
  | _ => none

/-- The loops over formats (Protocol.cpp:484-487, 516-519, 532-535), which end with the first known one. -/
def firstFormat (r : Bool) : List Json → Bool
  | [] => r
  | j :: l =>
    match decodeFormat j with
    | some b => b
    | none => firstFormat r l

/-- A loop over formats inside nested conditions and `if (auto *A = Object->getArray(key))`. -/
def setFormat (j : Json) (objects : List Bytes) (k : Bytes) (r : Bool) : Bool :=
  match (inner j objects).bind (·.get k) with
  | some (.arr l) => firstFormat r l
  | _ => r

/-- `fromJSON` of `SymbolKind` (Protocol.cpp:405-414) and of `CompletionItemKind` (lines 1134-1144), which differ in the
greatest number. -/
def decodeKind (max : Int) (j : Json) : Option Int :=
  match j.asInteger with
  | some n => if n < 1 ∨ n > max then none else some n
  | none => none

/-- `fromJSON` of `SymbolKindBitset` (Protocol.cpp:416-427) and of `CompletionItemKindBitset` (lines 1168-1179): the known
kinds of an array. -/
def decodeKinds (max : Int) : Json → Option (List Int)
  | .arr l => some (l.filterMap (decodeKind max))
  | _ => none

/-- The members of `textDocument` before `completion` (Protocol.cpp:455-477). -/
def decodeFirst (t : Json) (r : Caps) : Caps :=
  { r with
    theiaSemanticHighlighting :=
      setBool t [b!"semanticHighlightingCapabilities"] b!"semanticHighlighting" r.theiaSemanticHighlighting
    inactiveRegions := setBool t [b!"inactiveRegionsCapabilities"] b!"inactiveRegions" r.inactiveRegions
    semanticTokens := setTrue t [b!"semanticTokens"] r.semanticTokens
    diagnosticCategory := setBool t [b!"publishDiagnostics"] b!"categorySupport" r.diagnosticCategory
    diagnosticFixes := setBool t [b!"publishDiagnostics"] b!"codeActionsInline" r.diagnosticFixes
    diagnosticRelatedInformation := setBool t [b!"publishDiagnostics"] b!"relatedInformation" r.diagnosticRelatedInformation
    referenceContainer := setBool t [b!"references"] b!"container" r.referenceContainer }

/-- `completion` (Protocol.cpp:478-503); the second component is `false` if the function returns `false`. -/
def decodeCompletion (t : Json) (r : Caps) : Caps × Bool :=
  let r := { r with
    completionSnippets := setBool t [b!"completion", b!"completionItem"] b!"snippetSupport" r.completionSnippets
    completionMarkdown := setFormat t [b!"completion", b!"completionItem"] b!"documentationFormat" r.completionMarkdown }
  let rest (r : Caps) := { r with completionFixes := setBool t [b!"completion"] b!"editsNearCursor" r.completionFixes }
  match (inner t [b!"completion", b!"completionItemKind"]).bind (·.get b!"valueSet") with
  | none => (rest r, true)
  | some v =>
    match decodeKinds 25 v with
    | some l => (rest { r with completionItemKinds := some l }, true)
    | none => ({ r with completionItemKinds := some [] }, false)

/-- The members of `textDocument` after `completion` (Protocol.cpp:504-548). -/
def decodeLast (t : Json) (r : Caps) : Caps :=
  { r with
    codeActionStructure := setTrue t [b!"codeAction", b!"codeActionLiteralSupport"] r.codeActionStructure
    hierarchicalDocumentSymbol :=
      setBool t [b!"documentSymbol"] b!"hierarchicalDocumentSymbolSupport" r.hierarchicalDocumentSymbol
    hoverMarkdown := setFormat t [b!"hover"] b!"contentFormat" r.hoverMarkdown
    hasSignatureHelp := setTrue t [b!"signatureHelp"] r.hasSignatureHelp
    offsetsInSignatureHelp :=
      setBool t [b!"signatureHelp", b!"signatureInformation", b!"parameterInformation"] b!"labelOffsetSupport"
        r.offsetsInSignatureHelp
    signatureHelpMarkdown :=
      setFormat t [b!"signatureHelp", b!"signatureInformation"] b!"documentationFormat" r.signatureHelpMarkdown
    lineFoldingOnly := setBool t [b!"foldingRange"] b!"lineFoldingOnly" r.lineFoldingOnly
    renamePrepareSupport := setBool t [b!"rename"] b!"prepareSupport" r.renamePrepareSupport }

/-- `textDocument` (Protocol.cpp:454-549). -/
def decodeTextDocument (j : Json) (r : Caps) : Caps × Bool :=
  match getObject j b!"textDocument" with
  | none => (r, true)
  | some t =>
    match decodeCompletion t (decodeFirst t r) with
    | (r, true) => (decodeLast t r, true)
    | (r, false) => (r, false)

/-- `workspace` after `symbol` (Protocol.cpp:565-579). -/
def decodeWorkspaceRest (w : Json) (r : Caps) : Caps :=
  { r with
    workspaceConfiguration := setBool w [] b!"configuration" r.workspaceConfiguration
    semanticTokenRefreshSupport := setBool w [b!"semanticTokens"] b!"refreshSupport" r.semanticTokenRefreshSupport
    documentChanges := setBool w [b!"workspaceEdit"] b!"documentChanges" r.documentChanges
    changeAnnotation := setTrue w [b!"workspaceEdit", b!"changeAnnotationSupport"] r.changeAnnotation }

/-- `workspace` (Protocol.cpp:550-580). -/
def decodeWorkspace (j : Json) (r : Caps) : Caps × Bool :=
  match getObject j b!"workspace" with
  | none => (r, true)
  | some w =>
    match (inner w [b!"symbol", b!"symbolKind"]).bind (·.get b!"valueSet") with
    | none => (decodeWorkspaceRest w r, true)
    | some v =>
      match decodeKinds 26 v with
      | some l => (decodeWorkspaceRest w { r with workspaceSymbolKinds := some l }, true)
      | none => ({ r with workspaceSymbolKinds := some [] }, false)

/-- `window` and `general` (Protocol.cpp:581-592). -/
def decodeWindow (j : Json) (r : Caps) : Caps :=
  { r with
    workDoneProgress := setBool j [b!"window"] b!"workDoneProgress" r.workDoneProgress
    implicitProgressCreation := setBool j [b!"window"] b!"implicitWorkDoneProgressCreate" r.implicitProgressCreation
    cancelsStaleRequests := setBool j [b!"general", b!"staleRequestSupport"] b!"cancel" r.cancelsStaleRequests }

/-- `fromJSON` of `ClientCapabilities` (Protocol.cpp:447-600): what has been stored when it returns, also if it returns
`false`. -/
def decodeCaps (j : Json) (r : Caps) : Caps :=
  if isObject j then
    match decodeTextDocument j r with
    | (r, false) => r
    | (r, true) =>
      match decodeWorkspace j r with
      | (r, false) => r
      | (r, true) => decodeWindow j r
  else r

/-- `TraceLevel` (Protocol.h). -/
inductive Trace
  | off
  | messages
  | verbose
deriving DecidableEq, Repr

/-- `fromJSON` of `TraceLevel` (Protocol.cpp:387-403). -/
def decodeTrace : Decoder Trace
  | .str s, _ =>
    if s = b!"off" then some .off else if s = b!"messages" then some .messages else if s = b!"verbose" then some .verbose
    else none
  | _, _ => none

/-- `InitializeParams` (Protocol.h:660-691). -/
structure Params where
  processId : Option Int := none
  rootUri : Option Bytes := none
  rootPath : Option Bytes := none
  caps : Caps := {}
  trace : Option Trace := none
deriving DecidableEq, Repr

/-- `O.map(key, r)` for `std::optional`, where it does not matter whether it succeeds: `none` is left in both cases. -/
def tryMap {α : Type} (key : Bytes) (dec : Decoder α) (d : α) (j : Json) : Option α :=
  (mapMaybe key (decodeOption dec d) j none).getD none

/-- `fromJSON` of `InitializeParams` (Protocol.cpp:602-619), into a fresh structure (LSPBinder.h:57-69); `none`: an error is
replied. -/
def decodeInit (j : Json) : Option Params :=
  if isObject j then
    some {
      processId := tryMap b!"processId" decodeInt32 0 j
      rootUri := tryMap b!"rootUri" decodeFile [] j
      rootPath := tryMap b!"rootPath" decodeString [] j
      caps := match j.get b!"capabilities" with
        | some c => decodeCaps c {}
        | none => {}
      trace := tryMap b!"trace" decodeTrace .off j }
  else none

/-- `ClientCaps` after requests for `initialize` (LifeTime.cpp:172); before the first, it has its defaults. -/
def clientCaps (js : List Json) : Caps := js.foldl (fun c j => match decodeInit j with | some p => p.caps | none => c) {}

/-- `workspaceConfiguration` (Configuration.cpp:126-134): what becomes of the replies of the client. -/
def asked (c : Caps) (replies : List (Option Json)) : List (Option Json) :=
  if c.workspaceConfiguration then replies else replies.map fun _ => none

end Verif.Initialize
