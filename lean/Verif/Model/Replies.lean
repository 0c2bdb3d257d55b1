import Verif.Model.ActionMessages
import Verif.Model.Definition
import Verif.Model.DocumentSymbol
import Verif.Model.FoldingRange
/-
Requests about documents, their replies and published diagnostics in messages: the parts of
nixd/lspserver/src/Protocol.cpp for them.

* JSON values are sent, not their text.
* A message of a diagnostic that is not defined (`Fmt.ub`) is sent as the empty string; no theorem is about it.
* `data` of a diagnostic and `only` of a context are left out: the server does not use them, and no value of them is an
  error (Protocol.cpp:793-794, 817).
* `category`, `codeActions`, `codeDescription` and `data` of diagnostics are never set (Diagnostics.cpp:71-113).
-/
namespace Verif.Replies
open Rpc (Json)
open Server (LRange LDiag Publish)
open Config (Decoder decodeString isObject)
open Protocol (encodeString encodeInt encodeList encodeFile decodeInt32 decodeOption decodeList mapRequired)
open DocumentMessages (decodePosition decodeRange decodeIdentifier mapOptOrNull)
open CompletionMessages (members unlessEmpty encodePos encodeRng encodeMarkup)
open Nixf (Tag Fmt HighlightKind)
open Nixf.Outline (Symbol SymbolKind)

/-! ### Diagnostics -/

/-- `toJSON` of `Range` (Protocol.cpp:140-145). -/
def encodeLRange (r : LRange) : Json := encodeRng r.start r.stop

/-- `toJSON` of `Location` (Protocol.cpp:151-156). -/
def encodeLoc (fix : Bytes → Bytes) (file : Bytes) (r : LRange) : Json :=
  .obj [(b!"uri", encodeFile fix file), (b!"range", encodeLRange r)]

/-- The text of a message. -/
def fmtText : Fmt → Bytes
  | .ok s => s
  | .ub => []

/-- `toJSON` of `DiagnosticRelatedInformation` (Protocol.cpp:749-754). -/
def encodeRelated (fix : Bytes → Bytes) (file : Bytes) (r : LRange × Fmt) : Json :=
  .obj [(b!"location", encodeLoc fix file r.1), (b!"message", encodeString fix (fmtText r.2))]

/-- `toLSPTags` (Convert.cpp:46-61) with `toJSON` of `DiagnosticTag` (Protocol.cpp:756, Protocol.h:945-956). -/
def encodeTag : Tag → Json
  | .faded => encodeInt 1
  | .striked => encodeInt 2

/-- `toJSON` of `Diagnostic` (Protocol.cpp:762-786). -/
def encodeDiag (fix : Bytes → Bytes) (file : Bytes) (d : LDiag) : Json :=
  .obj (members [(b!"range", some (encodeLRange d.range)), (b!"severity", some (encodeInt d.severity)),
    (b!"message", some (encodeString fix (fmtText d.message))), (b!"code", unlessEmpty fix d.code),
    (b!"source", unlessEmpty fix b!"nixf"), (b!"relatedInformation", some (encodeList (encodeRelated fix file) d.related)),
    (b!"tags", if d.tags = [] then none else some (encodeList encodeTag d.tags))])

/-- `toJSON` of `PublishDiagnosticsParams` (Protocol.cpp:802-810). -/
def encodePublish (fix : Bytes → Bytes) (p : Publish) : Json :=
  .obj (members [(b!"uri", some (encodeFile fix p.file)), (b!"diagnostics", some (encodeList (encodeDiag fix p.file) p.diags)),
    (b!"version", p.version.map encodeInt)])

/-- What `fromJSON` reads of a diagnostic (Protocol.h:966-1011). -/
structure Diag where
  range : SourceCode.Position × SourceCode.Position := (⟨0, 0⟩, ⟨0, 0⟩)
  message : Bytes := []
  severity : Int := 0
  category : Option Bytes := none
  code : Bytes := []
  source : Bytes := []
deriving DecidableEq, Repr

/-- `fromJSON` of `Diagnostic` (Protocol.cpp:788-800). -/
def decodeDiag : Decoder Diag := fun j r =>
  if isObject j then do
    let range ← mapRequired b!"range" decodeRange j r.range
    let message ← mapRequired b!"message" decodeString j r.message
    let severity ← mapOptOrNull b!"severity" decodeInt32 j r.severity
    let category ← mapOptOrNull b!"category" (decodeOption decodeString []) j r.category
    let code ← mapOptOrNull b!"code" decodeString j r.code
    let source ← mapOptOrNull b!"source" decodeString j r.source
    some ⟨range, message, severity, category, code, source⟩
  else none

/-! ### Requests -/

/-- The parameters of requests. -/
inductive Query
  /-- `TextDocumentPositionParams` -/
  | place (file : Bytes) (position : SourceCode.Position)
  /-- `DocumentSymbolParams`, `FoldingRangeParams`, `SemanticTokensParams`, `DocumentLinkParams`,
  `DocumentFormattingParams` -/
  | document (file : Bytes)
  /-- `InlayHintsParams` -/
  | part (file : Bytes) (range : SourceCode.Position × SourceCode.Position)
  /-- `RenameParams` -/
  | rename (file : Bytes) (position : SourceCode.Position) (newName : Bytes)
  /-- `CodeActionParams` -/
  | action (file : Bytes) (range : SourceCode.Position × SourceCode.Position) (known : List Diag)
deriving DecidableEq, Repr

/-- `fromJSON` of `TextDocumentPositionParams` (Protocol.cpp:1039-1044). -/
def decodePlace (j : Json) : Option (Bytes × SourceCode.Position) :=
  if isObject j then do
    let file ← mapRequired b!"textDocument" decodeIdentifier j []
    let position ← mapRequired b!"position" decodePosition j ⟨0, 0⟩
    some (file, position)
  else none

/-- `fromJSON` of `CompletionContext` (Protocol.cpp:1046-1055): does it succeed? -/
def contextOk (j : Json) : Bool :=
  isObject j && (mapRequired b!"triggerKind" decodeInt32 j 0).isSome &&
    (mapOptOrNull b!"triggerCharacter" decodeString j []).isSome

/-- `fromJSON` of `CompletionParams` (Protocol.cpp:1057-1066). -/
def decodeCompletion (j : Json) : Option (Bytes × SourceCode.Position) := do
  let place ← decodePlace j
  let _ ← mapOptOrNull b!"limit" decodeInt32 j 0
  match j.get b!"context" with
  | some c => if contextOk c then some place else none
  | none => some place

/-- `fromJSON` of `RenameParams` (Protocol.cpp:1293-1298). -/
def decodeRename (j : Json) : Option (Bytes × SourceCode.Position × Bytes) :=
  if isObject j then do
    let file ← mapRequired b!"textDocument" decodeIdentifier j []
    let position ← mapRequired b!"position" decodePosition j ⟨0, 0⟩
    let newName ← mapRequired b!"newName" decodeString j []
    some (file, position, newName)
  else none

/-- `fromJSON` of `DocumentSymbolParams` (Protocol.cpp:743-747) and of the other parameters with a document only (lines
737-741, 1357-1361, 1655-1659, 1668-1672). -/
def decodeDocument (j : Json) : Option Bytes := if isObject j then mapRequired b!"textDocument" decodeIdentifier j [] else none

/-- `fromJSON` of `InlayHintsParams` (Protocol.cpp:1558-1562). -/
def decodePart (j : Json) : Option (Bytes × SourceCode.Position × SourceCode.Position) :=
  if isObject j then do
    let file ← mapRequired b!"textDocument" decodeIdentifier j []
    let range ← mapRequired b!"range" decodeRange j (⟨0, 0⟩, ⟨0, 0⟩)
    some (file, range)
  else none

/-- `fromJSON` of `CodeActionContext` (Protocol.cpp:812-819). -/
def decodeContext : Decoder (List Diag) := fun j r =>
  if isObject j then mapRequired b!"diagnostics" (decodeList decodeDiag {}) j r else none

/-- `fromJSON` of `CodeActionParams` (Protocol.cpp:843-848). -/
def decodeAction (j : Json) : Option (Bytes × (SourceCode.Position × SourceCode.Position) × List Diag) :=
  if isObject j then do
    let file ← mapRequired b!"textDocument" decodeIdentifier j []
    let range ← mapRequired b!"range" decodeRange j (⟨0, 0⟩, ⟨0, 0⟩)
    let known ← mapRequired b!"context" decodeContext j []
    some (file, range, known)
  else none

/-- The requests about a position, without completion (Support.cpp:89-116). -/
def placeMethods : List Bytes :=
  [b!"textDocument/definition", b!"textDocument/references", b!"textDocument/documentHighlight", b!"textDocument/hover",
    b!"textDocument/prepareRename"]

/-- The requests about a document (Support.cpp:89-116). -/
def documentMethods : List Bytes :=
  [b!"textDocument/documentSymbol", b!"textDocument/foldingRange", b!"textDocument/semanticTokens/full",
    b!"textDocument/documentLink", b!"textDocument/formatting"]

/-- The parameters that the handler of a request is called with (Support.cpp:89-116, LSPBinder.h:57-69); `none` if an error
is replied, or if the request is another one. -/
def query (method : Bytes) (params : Json) : Option Query :=
  if method ∈ placeMethods then (decodePlace params).map fun p => .place p.1 p.2
  else if method = b!"textDocument/completion" then (decodeCompletion params).map fun p => .place p.1 p.2
  else if method ∈ documentMethods then (decodeDocument params).map .document
  else if method = b!"textDocument/inlayHint" then (decodePart params).map fun p => .part p.1 p.2
  else if method = b!"textDocument/rename" then (decodeRename params).map fun p => .rename p.1 p.2.1 p.2.2
  else if method = b!"textDocument/codeAction" then (decodeAction params).map fun p => .action p.1 p.2.1 p.2.2
  else none

/-! ### Replies -/

/-- `toJSON` of `Hover` (Protocol.cpp:1125-1132), with the text and the range (Hover.cpp:157-165, 257-264). -/
def encodeHover (fix : Bytes → Bytes) (h : Bytes × LRange) : Json :=
  .obj [(b!"contents", encodeMarkup fix ⟨true, h.1⟩), (b!"range", encodeLRange h.2)]

/-- `toJSON` of `DocumentHighlight` (Protocol.cpp:1300-1305) with `DocumentHighlightKind` (Protocol.h:1498). -/
def encodeHighlight (h : LRange × HighlightKind) : Json :=
  .obj [(b!"range", encodeLRange h.1), (b!"kind", encodeInt (match h.2 with | .read => 2 | .write => 3))]

/-- `toJSON` of `DocumentLink` (Protocol.cpp:1661-1666). -/
def encodeLink (fix : Bytes → Bytes) (l : Nixf.Links.Link) : Json :=
  .obj [(b!"range", encodeLRange l.range), (b!"target", encodeFile fix l.target)]

/-- `toJSON` of `InlayHint` (Protocol.cpp:1576-1585); the kind is always `Designator` (InlayHints.cpp:95), which is not sent
(Protocol.cpp:1564-1574). -/
def encodeHint (fix : Bytes → Bytes) (h : Nixf.Inspect.Hint) : Json :=
  .obj [(b!"position", encodePos h.position), (b!"label", encodeString fix h.label), (b!"paddingLeft", .bool false),
    (b!"paddingRight", .bool false)]

/-- `toJSON` of `SemanticTokens` (Protocol.cpp:1336-1339); there is never an identifier. -/
def encodeTokens (fix : Bytes → Bytes) (ts : List Nixf.SemanticTokens.Rel) : Json :=
  .obj [(b!"resultId", encodeString fix []), (b!"data", encodeList (fun n => encodeInt (Int.ofNat n)) (Nixf.SemanticTokens.flat ts))]

/-- `enum class SymbolKind` (Protocol.h:437-464). -/
def symbolNumber : SymbolKind → Int
  | .string => 15
  | .number => 16
  | .property => 7
  | .variable => 13
  | .function => 12
  | .array => 18
  | .field => 8
  | .boolean => 17
  | .null => 21
  | .constant => 14
  | .event => 24

mutual
/-- `toJSON` of `DocumentSymbol` (Protocol.cpp:959-973). -/
def encodeSymbol (fix : Bytes → Bytes) : Symbol → Json
  | .mk name detail kind deprecated range selection children =>
    .obj (members [(b!"name", some (encodeString fix name)), (b!"kind", some (encodeInt (symbolNumber kind))),
      (b!"range", some (encodeLRange range)), (b!"selectionRange", some (encodeLRange selection)),
      (b!"detail", unlessEmpty fix detail),
      (b!"children", if children.isEmpty then none else some (.arr (encodeSymbols fix children))),
      (b!"deprecated", if deprecated then some (.bool true) else none)])

/-- The children of a symbol. -/
def encodeSymbols (fix : Bytes → Bytes) : List Symbol → List Json
  | [] => []
  | s :: l => encodeSymbol fix s :: encodeSymbols fix l
end

/-- `toJSON` of `FoldingRange` (Protocol.cpp:1678-1690), after `Verif.Nixf.Folding.toJSON`. -/
def encodeFold (fix : Bytes → Bytes) (s : Nixf.Folding.Sent) : Json :=
  .obj (members [(b!"startLine", some (encodeInt s.startLine)), (b!"endLine", some (encodeInt s.endLine)),
    (b!"startCharacter", s.startCharacter.map fun n => encodeInt (Int.ofNat n)), (b!"endCharacter", s.endCharacter.map fun n => encodeInt (Int.ofNat n)),
    (b!"kind", s.kind.map (encodeString fix))])

/-- The reply to a request for definitions (Definition.cpp:342-361). -/
def encodeDefinition (fix : Bytes → Bytes) : Nixf.Inspect.Reply → Json
  | .null => .null
  | .one l => encodeLoc fix l.file l.range
  | .many ls => encodeList (fun l => encodeLoc fix l.file l.range) ls

/-- The reply to a request for a rename (Rename.cpp:66-69): the edits of the document. -/
def encodeRenamed (fix : Bytes → Bytes) (file : Bytes) (edits : List (LRange × Bytes)) : Json :=
  ActionMessages.encodeWEdit fix { changes := some [((URI.uriOfFile file).getD [], edits.map ActionMessages.plain)] }

end Verif.Replies
