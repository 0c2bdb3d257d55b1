import Verif.Model.Server
/-
The document part of the server (Model/Server.lean) with its threads: nixd/lib/Controller/Support.cpp:14-58,
Diagnostics.cpp:19-120, Configuration.cpp:56-124, TextDocumentSync.cpp.

The input thread handles one message after the other; `actOnDocumentAdd` and `removeDocument` run on it
(Support.cpp:20, 57). A configuration is applied by a job posted to the thread pool (Configuration.cpp:120); the
jobs exclude each other by `ConfigLock`, which a job holds from its first to its last statement
(Configuration.cpp:57), so at most one is running and any of the waiting ones may be next.
`TUsLock` is held by the input thread in the states `addLocked`, `insertLocked` and by a configuration job in the
state `loop`; an acquisition is enabled when the other thread does not hold it. `updateSuppressed` and each call of
`isSuppressed` hold `SuppressedDiagnosticsLock` for their whole body and are one step each; sending a notification
is one step (`OutboundPort` has a mutex).

Not modelled: the evaluation of expressions by the workers in `updateConfig` (it does not change this part of the
state). As in Model/Server.lean the parser is a parameter: `analyse` gives the diagnostics of a text, `hasAst` whether
`parse` returns a tree (Support.cpp:34).
-/
namespace Verif.Threads
open Nixf SourceCode Draft Server

/-- The parser and the variable analysis. -/
structure Analysis where
  analyse : Bytes → List Diagnostic
  hasAst : Bytes → Bool

/-- A running call of `publishDiagnostics` (Diagnostics.cpp:42-120): the diagnostics not yet looked at and
`LSPDiags`. -/
structure Pub where
  file : Bytes
  version : Option Int
  src : Bytes
  todo : List Diagnostic
  out : List LDiag
deriving DecidableEq, Repr

/-- The start of `publishDiagnostics` (Diagnostics.cpp:42-46). -/
def Pub.start (file : Bytes) (version : Option Int) (src : Bytes) (ds : List Diagnostic) : Pub :=
  ⟨file, version, src, ds, []⟩

/-- One iteration of the loop of `publishDiagnostics` (Diagnostics.cpp:47-114); `none` at the end of the loop. -/
def Pub.next (sup : List DK) (p : Pub) : Option Pub :=
  match p.todo with
  | [] => none
  | d :: ds =>
    if isSuppressed sup d.kind then some { p with todo := ds }
    else some { p with todo := ds, out := p.out ++ mainDiag p.src d :: d.notes.map (noteDiag p.src d) }

/-- The notification sent at the end of `publishDiagnostics` (Diagnostics.cpp:115-119). -/
def Pub.message (p : Pub) : Publish := ⟨p.file, p.version, p.out⟩

/-- What the input thread is doing. -/
inductive Input
  /-- waiting for a message -/
  | idle
  /-- `actOnDocumentAdd` without a tree, before it has `TUsLock` (Support.cpp:35) -/
  | wantAdd (p : Pub) (tu : TU)
  /-- the same, publishing with the lock (Support.cpp:36) -/
  | addLocked (p : Pub) (tu : TU)
  /-- the same, inserting with the lock (Support.cpp:37-41) -/
  | insertLocked (file : Bytes) (tu : TU)
  /-- `actOnDocumentAdd` with a tree, publishing without a lock (Support.cpp:47) -/
  | addOpen (p : Pub) (tu : TU)
  /-- the same, before it has `TUsLock` (Support.cpp:50) -/
  | wantInsert (file : Bytes) (tu : TU)
  /-- `removeDocument` before it has `TUsLock` (Support.cpp:17) -/
  | wantErase (file : Bytes)
  /-- `removeDocument`, publishing (Support.cpp:20) -/
  | clearing (p : Pub)
deriving DecidableEq, Repr

/-- What the configuration job that has `ConfigLock` is doing. -/
inductive Config
  /-- no job has the lock -/
  | none
  /-- before `updateSuppressed` (Configuration.cpp:58-81) -/
  | start (names : List Bytes)
  /-- before it has `TUsLock` (Configuration.cpp:85) -/
  | wantTUs
  /-- in the loop over the translation units, with `TUsLock` (Configuration.cpp:86-88); `rest` are the files
  still to visit, `cur` a running call of `publishDiagnostics` -/
  | loop (rest : List Bytes) (cur : Option Pub)
deriving DecidableEq, Repr

/-- The state: data, the two program counters and the posted configuration jobs. -/
structure State where
  srv : Server.State
  input : Input
  config : Config
  pending : List (List Bytes)

/-- The initial state. -/
def init : State := ⟨Server.init, .idle, .none, []⟩

/-- What can happen. -/
inductive Act
  /-- the input thread receives a message; for `Event.config` this is the response to
  `workspace/configuration` -/
  | recv (e : Event)
  /-- the input thread goes on -/
  | input
  /-- the job at this index gets `ConfigLock` -/
  | begin (i : Nat)
  /-- the running job goes on -/
  | config

/-- `TUsLock` is held by the input thread. -/
def Input.holds : Input → Bool
  | .addLocked .. | .insertLocked .. => true
  | _ => false

/-- `TUsLock` is held by the configuration job. -/
def Config.holds : Config → Bool
  | .loop .. => true
  | _ => false

/-- `Server.State` after a message is sent. -/
def send (s : Server.State) (p : Pub) : Server.State := { s with log := s.log ++ [p.message] }

/-- `TUs.insert_or_assign` (Support.cpp:37, 51). -/
def insertTU (s : Server.State) (file : Bytes) (tu : TU) : Server.State :=
  { s with
    tus := fun f => if f = file then some tu else s.tus f
    order := if file ∈ s.order then s.order else s.order ++ [file] }

/-- `TUs.erase` (Support.cpp:18). -/
def eraseTU (s : Server.State) (file : Bytes) : Server.State :=
  { s with tus := fun f => if f = file then none else s.tus f, order := s.order.filter (· ≠ file) }

/-- The beginning of `actOnDocumentAdd` after the draft is added (Support.cpp:26-47). -/
def beginAdd (A : Analysis) (s : State) (file : Bytes) (version : Option Int) (text : Bytes) : State :=
  let ds := A.analyse text
  let p := Pub.start file version text ds
  { s with
    srv := { s.srv with drafts := addDraft s.srv.drafts file (encodeVersion version) text }
    input := if A.hasAst text then .addOpen p ⟨ds, text⟩ else .wantAdd p ⟨ds, text⟩ }

/-- The beginning of `removeDocument` (Support.cpp:15). -/
def beginRemove (s : State) (file : Bytes) : State :=
  { s with
    srv := { s.srv with drafts := removeDraft s.srv.drafts file }
    input := .wantErase file }

/-- The input thread takes a message (TextDocumentSync.cpp:13-49, Configuration.cpp:92-121). -/
def receive (A : Analysis) (s : State) : Event → State
  | .didOpen file version text => beginAdd A s file version text
  | .didChange file version changes =>
    match getDraft s.srv.drafts file with
    | none => s
    | some d =>
      match applyChanges d.contents changes with
      | none => beginRemove s file
      | some code => beginAdd A s file version code
  | .didClose file => beginRemove s file
  | .config names => { s with pending := s.pending ++ [names] }

/-- One step of the input thread inside of a handler (Support.cpp:14-58). -/
def inputStep (s : State) : Option State :=
  match s.input with
  | .idle => none
  | .wantAdd p tu => if s.config.holds then none else some { s with input := .addLocked p tu }
  | .addLocked p tu =>
    match p.next s.srv.suppressed with
    | some p => some { s with input := .addLocked p tu }
    | none => some { s with srv := send s.srv p, input := .insertLocked p.file tu }
  | .insertLocked file tu => some { s with srv := insertTU s.srv file tu, input := .idle }
  | .addOpen p tu =>
    match p.next s.srv.suppressed with
    | some p => some { s with input := .addOpen p tu }
    | none => some { s with srv := send s.srv p, input := .wantInsert p.file tu }
  | .wantInsert file tu =>
    if s.config.holds then none else some { s with srv := insertTU s.srv file tu, input := .idle }
  | .wantErase file =>
    if s.config.holds then none
    else some { s with srv := eraseTU s.srv file, input := .clearing (Pub.start file none [] []) }
  | .clearing p =>
    match p.next s.srv.suppressed with
    | some p => some { s with input := .clearing p }
    | none => some { s with srv := send s.srv p, input := .idle }

/-- One step of the running configuration job (Configuration.cpp:56-89). -/
def configStep (s : State) : Option State :=
  match s.config with
  | .none => none
  | .start names =>
    some { s with srv := { s.srv with suppressed := updateSuppressed names }, config := .wantTUs }
  | .wantTUs => if s.input.holds then none else some { s with config := .loop s.srv.order none }
  | .loop rest (some p) =>
    match p.next s.srv.suppressed with
    | some p => some { s with config := .loop rest (some p) }
    | none => some { s with srv := send s.srv p, config := .loop rest none }
  | .loop (file :: rest) none =>
    match s.srv.tus file with
    | none => some { s with config := .loop rest none }
    | some tu => some { s with config := .loop rest (some (Pub.start file none tu.src tu.diags)) }
  | .loop [] none => some { s with config := .none }

/-- One step of the system; `none` if it is not possible. -/
def step (A : Analysis) (s : State) : Act → Option State
  | .recv e => if s.input = .idle then some (receive A s e) else none
  | .input => inputStep s
  | .begin i =>
    match s.config, s.pending[i]? with
    | .none, some names => some { s with config := .start names, pending := s.pending.eraseIdx i }
    | _, _ => none
  | .config => configStep s

/-- The state after a schedule. -/
def exec (A : Analysis) (s : State) : List Act → Option State
  | [] => some s
  | a :: as => (step A s a).bind fun s' => exec A s' as

/-- Nothing is going on and nothing is waiting. -/
def Quiet (s : State) : Prop := s.input = .idle ∧ s.config = .none ∧ s.pending = []
end Verif.Threads
