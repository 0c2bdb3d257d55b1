import Verif.Model.Protocol
import Verif.Model.Server
import Verif.Model.Session
/-
The messages of the client about its documents: the parts of nixd/lspserver/src/Protocol.cpp that decode them, their
handlers (nixd/lspserver/include/lspserver/LSPBinder.h, nixd/lib/Controller/TextDocumentSync.cpp), and the message loop
with these handlers.

`llvm::json::ObjectMapper` and the decoders of numbers and strings are those of `Verif.Protocol`. Messages are JSON values;
the logging of errors is left out.
-/
namespace Verif.DocumentMessages
open Rpc (Json)
open Config (Decoder decodeString isObject)
open Protocol (decodeFile decodeInt64 decodeInt32 decodeOption decodeList mapRequired mapMaybe)

/-- `fromJSON` of `bool`. -/
def decodeBool : Decoder Bool
  | .bool b, _ => some b
  | _, _ => none

/-- `fromJSON` of `Position` (Protocol.cpp:118-122) into the positions of `Verif.SourceCode`. -/
def decodePosition : Decoder SourceCode.Position := fun j r =>
  if isObject j then do
    let line ← mapRequired b!"line" decodeInt64 j r.line
    let character ← mapRequired b!"character" decodeInt64 j r.character
    some ⟨line, character⟩
  else none

/-- `fromJSON` of `Range` (Protocol.cpp:135-138). -/
def decodeRange : Decoder (SourceCode.Position × SourceCode.Position) := fun j r =>
  if isObject j then do
    let start ← mapRequired b!"start" decodePosition j r.1
    let stop ← mapRequired b!"end" decodePosition j r.2
    some (start, stop)
  else none

/-- `TextDocumentItem` (Protocol.h:348-363). -/
structure Item where
  file : Bytes := []
  language : Bytes := []
  version : Option Int := none
  text : Bytes := []
deriving DecidableEq

/-- `fromJSON` of `TextDocumentItem` (Protocol.cpp:184-189). -/
def decodeItem : Decoder Item := fun j r =>
  if isObject j then do
    let file ← mapRequired b!"uri" decodeFile j r.file
    let language ← mapRequired b!"languageId" decodeString j r.language
    let version ← mapMaybe b!"version" (decodeOption decodeInt64 0) j r.version
    let text ← mapRequired b!"text" decodeString j r.text
    some ⟨file, language, version, text⟩
  else none

/-- `fromJSON` of `TextDocumentIdentifier` (Protocol.cpp:99-103). -/
def decodeIdentifier : Decoder Bytes := fun j r =>
  if isObject j then mapRequired b!"uri" decodeFile j r else none

/-- `fromJSON` of `VersionedTextDocumentIdentifier` (Protocol.cpp:111-116). -/
def decodeVersioned : Decoder (Bytes × Option Int) := fun j r => do
  let file ← decodeIdentifier j r.1
  if isObject j then
    let version ← mapMaybe b!"version" (decodeOption decodeInt64 0) j r.2
    some (file, version)
  else none

/-- `fromJSON` of `TextDocumentContentChangeEvent` (Protocol.cpp:717-722). -/
def decodeChange : Decoder SourceCode.Change := fun j r =>
  if isObject j then do
    let range ← mapMaybe b!"range" (decodeOption decodeRange (⟨0, 0⟩, ⟨0, 0⟩)) j r.range
    let rangeLength ← mapMaybe b!"rangeLength" (decodeOption decodeInt32 0) j r.rangeLength
    let text ← mapRequired b!"text" decodeString j r.text
    some ⟨range, rangeLength, text⟩
  else none

/-- `mapOptOrNull` (Protocol.cpp:27-38). -/
def mapOptOrNull {α : Type} (key : Bytes) (dec : Decoder α) (j : Json) (r : α) : Option α :=
  match j.get key with
  | none => some r
  | some .null => some r
  | some v => dec v r

/-- `DidChangeTextDocumentParams` (Protocol.h:832-851). -/
structure ChangeParams where
  document : Bytes × Option Int := ([], none)
  changes : List SourceCode.Change := []
  wantDiagnostics : Option Bool := none
  forceRebuild : Bool := false
deriving DecidableEq

/-- `fromJSON` of `DidOpenTextDocumentParams` (Protocol.cpp:666-670). -/
def decodeOpen : Decoder Item := fun j r => if isObject j then mapRequired b!"textDocument" decodeItem j r else none

/-- `fromJSON` of `DidCloseTextDocumentParams` (Protocol.cpp:672-676). -/
def decodeClose : Decoder Bytes := fun j r => if isObject j then mapRequired b!"textDocument" decodeIdentifier j r else none

/-- `fromJSON` of `DidChangeTextDocumentParams` (Protocol.cpp:684-691). -/
def decodeDidChange : Decoder ChangeParams := fun j r =>
  if isObject j then do
    let document ← mapRequired b!"textDocument" decodeVersioned j r.document
    let changes ← mapRequired b!"contentChanges" (decodeList decodeChange ⟨none, none, []⟩) j r.changes
    let want ← mapMaybe b!"wantDiagnostics" (decodeOption decodeBool false) j r.wantDiagnostics
    let force ← mapOptOrNull b!"forceRebuild" decodeBool j r.forceRebuild
    some ⟨document, changes, want, force⟩
  else none

/-- The event of a notification (LSPBinder.h:72-81, Support.cpp:80-87, TextDocumentSync.cpp:13-49): the parameters are
decoded into a fresh structure; nothing happens if this fails. -/
def event (method : Bytes) (params : Json) : Option Server.Event :=
  if method = b!"textDocument/didOpen" then
    (decodeOpen params {}).map fun i => .didOpen i.file i.version i.text
  else if method = b!"textDocument/didChange" then
    (decodeDidChange params {}).map fun p => .didChange p.document.1 p.document.2 p.changes
  else if method = b!"textDocument/didClose" then
    (decodeClose params []).map .didClose
  else none

/-- What an effect of the message loop does to the documents. -/
def effect (analyse : Bytes → List Nixf.Diagnostic) (s : Server.State) : Rpc.Effect → Server.State
  | .notified method params =>
    match event method params with
    | some e => Server.step analyse s e
    | none => s
  | _ => s

/-- The message loop with the documents. -/
structure State where
  rpc : Rpc.State
  server : Server.State

/-- The initial state. -/
def init : State := ⟨Rpc.init, Server.init⟩

/-- One event of the message loop: a message arrives, the server sends a request, or a handler replies. -/
def step (analyse : Bytes → List Nixf.Diagnostic) (s : State) (e : Rpc.Event) : State :=
  let r := Rpc.step Session.registry s.rpc e
  ⟨r, (r.log.drop s.rpc.log.length).foldl (effect analyse) s.server⟩

/-- A history. -/
def run (analyse : Bytes → List Nixf.Diagnostic) (s : State) (es : List Rpc.Event) : State := es.foldl (step analyse) s

end Verif.DocumentMessages
