import Verif.Model.CompletionMessages
import Verif.Model.CodeAction
/-
The code actions in messages: the parts of nixd/lspserver/src/Protocol.cpp for them, the making of the messages
(nixd/lib/Controller/CodeAction.cpp, nixd/lib/Controller/CodeActions), and the request `codeAction/resolve`.

* JSON values are sent, not their text.
* The members `diagnostics` and `command` of actions and `changeAnnotations` of edits are left out; the server does not set them.
* Of the operations on files there is only `create`; the server does not use others, and they are read in the same way.
-/
namespace Verif.ActionMessages
open Rpc (Json)
open Config (Decoder decodeString isObject)
open Protocol (encodeString encodeInt encodeList encodeOption encodeFile decodeFile decodeInt64 decodeList decodeOption mapRequired mapMaybe)
open DocumentMessages (decodeBool decodeVersioned)
open CompletionMessages (Edit members encodeEdit decodeEdit noEdit)
open Nixf (QuickFix Action Extraction)

/-- `DocumentChange` (Protocol.h:343-344). -/
inductive DocChange
  /-- `TextDocumentEdit` (Protocol.h:263-270) -/
  | edit (file : Bytes) (version : Option Int) (edits : List Edit)
  /-- `CreateFile` (Protocol.h:288-295); the options are `overwrite` and `ignoreIfExists` -/
  | create (file : Bytes) (options : Option (Option Bool × Option Bool)) (annotation : Option Bytes)
deriving DecidableEq, Repr

/-- `WorkspaceEdit` (Protocol.h:1069-1082). -/
structure WEdit where
  changes : Option (List (Bytes × List Edit)) := none
  documentChanges : Option (List DocChange) := none
deriving DecidableEq, Repr

/-- `CodeAction` (Protocol.h:1122-1155). -/
structure Act where
  title : Bytes
  kind : Option Bytes := none
  preferred : Bool := false
  edit : Option WEdit := none
  data : Option Json := none

/-- `toJSON` of `CreateFileOptions` (Protocol.cpp:239-246). -/
def encodeOptions (o : Option Bool × Option Bool) : Json :=
  .obj (members [(b!"overwrite", o.1.map .bool), (b!"ignoreIfExists", o.2.map .bool)])

/-- `toJSON` of `DocumentChange` (Protocol.cpp:303-307), `TextDocumentEdit` (lines 228-232),
`VersionedTextDocumentIdentifier` (lines 105-109) and `CreateFile` (lines 248-258). -/
def encodeChange (fix : Bytes → Bytes) : DocChange → Json
  | .edit file version edits =>
    .obj [(b!"textDocument", .obj [(b!"uri", encodeFile fix file), (b!"version", encodeOption encodeInt version)]),
      (b!"edits", encodeList (encodeEdit fix) edits)]
  | .create file options annotation =>
    .obj (members [(b!"kind", some (.str b!"create")), (b!"uri", some (encodeFile fix file)),
      (b!"options", options.map encodeOptions), (b!"annotationId", annotation.map (encodeString fix))])

/-- `Object::getString`. -/
def getString (j : Json) (key : Bytes) : Option Bytes :=
  match j.get key with
  | some (.str s) => some s
  | _ => none

/-- `Object::getBoolean`. -/
def getBoolean (j : Json) (key : Bytes) : Option Bool :=
  match j.get key with
  | some (.bool b) => some b
  | _ => none

/-- `fromJSON` of `DocumentChange` (Protocol.cpp:309-381) and `TextDocumentEdit` (lines 223-227). The URI of a new file is
read from the whole object (line 322). -/
def decodeChange : Decoder DocChange := fun j _ =>
  if isObject j then
    match getString j b!"kind" with
    | some kind =>
      if kind = b!"create" then do
        let file ← decodeFile j []
        let options := match j.get b!"options" with
          | some (.obj o) => some (getBoolean (.obj o) b!"overwrite", getBoolean (.obj o) b!"ignoreIfExists")
          | _ => none
        some (.create file options (getString j b!"annotationId"))
      else none
    | none => do
      let document ← mapRequired b!"textDocument" decodeVersioned j ([], none)
      let edits ← mapRequired b!"edits" (decodeList decodeEdit noEdit) j []
      some (.edit document.1 document.2 edits)
  else none

/-- `toJSON` of `WorkspaceEdit` (Protocol.cpp:975-992). -/
def encodeWEdit (fix : Bytes → Bytes) (w : WEdit) : Json :=
  .obj (members [(b!"changes", w.changes.map fun l => .obj (l.map fun c => (fix c.1, encodeList (encodeEdit fix) c.2))),
    (b!"documentChanges", w.documentChanges.map (encodeList (encodeChange fix)))])

/-- `fromJSON` of `std::map<std::string, std::vector<TextEdit>>`. -/
def decodeChanges : Decoder (List (Bytes × List Edit))
  | .obj fs, _ => fs.mapM fun f => (decodeList decodeEdit noEdit f.2 []).map (f.1, ·)
  | _, _ => none

/-- A document change without contents. -/
def noChange : DocChange := .edit [] none []

/-- `fromJSON` of `WorkspaceEdit` (Protocol.cpp:850-856). -/
def decodeWEdit : Decoder WEdit := fun j r =>
  if isObject j then do
    let changes ← mapMaybe b!"changes" (decodeOption decodeChanges []) j r.changes
    let documentChanges ← mapMaybe b!"documentChanges" (decodeOption (decodeList decodeChange noChange) []) j r.documentChanges
    some ⟨changes, documentChanges⟩
  else none

/-- `toJSON` of `CodeAction` (Protocol.cpp:920-935). -/
def encodeAct (fix : Bytes → Bytes) (a : Act) : Json :=
  .obj (members [(b!"title", some (encodeString fix a.title)), (b!"kind", a.kind.map (encodeString fix)),
    (b!"isPreferred", if a.preferred then some (.bool true) else none), (b!"edit", a.edit.map (encodeWEdit fix)),
    (b!"data", a.data)])

/-- `fromJSON` of `CodeAction` (Protocol.cpp:937-953): only the title is needed; other members are left as they are if they
cannot be read. -/
def decodeAct (j : Json) : Option Act :=
  if isObject j then do
    let title ← mapRequired b!"title" decodeString j []
    some {
      title
      kind := (mapMaybe b!"kind" (decodeOption decodeString []) j none).getD none
      preferred := (mapRequired b!"isPreferred" decodeBool j false).getD false
      edit := (mapMaybe b!"edit" (decodeOption decodeWEdit {}) j none).getD none
      data := j.get b!"data" }
  else none

/-- The edits of the translation unit as they are sent. -/
def plain (e : Server.LRange × Bytes) : Edit := ⟨e.1.start, e.1.stop, e.2, []⟩

/-- The action of a fix (CodeAction.cpp:62-81). -/
def fixAct (uri : Bytes) (q : QuickFix) : Act where
  title := q.title
  kind := some b!"quickfix"
  preferred := q.preferred
  edit := some { changes := some [(uri, q.changes.map plain)] }

/-- `createSingleEditAction` (CodeActions/Utils.cpp:10-25). -/
def editAct (src uri kind : Bytes) (a : Action) : Act where
  title := a.title
  kind := some kind
  edit := some { changes := some [(uri, [plain (Server.toLSPRange src a.range, a.newText)])] }

/-- The action of NoogleDoc.cpp:72-76 for a URL. -/
def noogleAct (fix : Bytes → Bytes) (name url : Bytes) : Act where
  title := b!"Open Noogle documentation for " ++ name
  kind := some b!"refactor"
  data := some (.obj [(b!"noogleUrl", encodeString fix url)])

/-- The action of ExtractToFile.cpp:366-421 for the file `dir/e.file`. -/
def extractAct (src file dir title : Bytes) (e : Extraction) : Act where
  title := title
  kind := some b!"refactor"
  edit := some { documentChanges := some [.create (dir ++ b!"/" ++ e.file) (some (some false, some false)) none,
    .edit (dir ++ b!"/" ++ e.file) (some 0) [⟨⟨0, 0⟩, ⟨0, 0⟩, e.content, []⟩],
    .edit file none [plain (Server.toLSPRange src e.range, e.newText)]] }

/-- The URL in the data of an action (CodeAction.cpp:130-134). -/
def urlOf (a : Act) : Option Bytes :=
  match a.data with
  | some (.obj fs) => getString (.obj fs) b!"noogleUrl"
  | _ => none

/-- `toJSON` of `ShowDocumentParams` (Protocol.cpp:1017-1031) for an external URI. -/
def encodeShow (fix : Bytes → Bytes) (url : Bytes) : Json :=
  .obj [(b!"uri", encodeString fix url), (b!"external", .bool true)]

/-- The request `codeAction/resolve` (CodeAction.cpp:124-156, LSPBinder.h:57-66): the reply and the parameters of the requests
`window/showDocument`. Without value if the parameters cannot be read. -/
def onResolve (fix : Bytes → Bytes) (params : Json) : Option (Json × List Json) :=
  (decodeAct params).map fun a => (encodeAct fix a, (urlOf a).toList.map (encodeShow fix))

end Verif.ActionMessages
