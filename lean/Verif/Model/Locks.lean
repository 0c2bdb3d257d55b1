import Verif.Base
/-
The mutexes and semaphores of nixd, and the order in which the handlers use them.

A thread is a list of operations on mutexes (`std::lock_guard`, so released in the reverse order) and on the
`std::binary_semaphore`s on which a request waits for the reply of a worker. The handlers are given by the operations
they do, in their order, with the numbers of iterations of their loops as parameters; what they compute is in the other
models.

Simplifications: every posted job has its thread (the pool has a fixed number of threads), the logger logs everything, a
connection is known by a number (0 is the client, the others are workers), a worker may answer its requests in any order.
-/
namespace Verif.Locks

/-- The mutexes. -/
inductive Lock
  /-- `ConfigLock` (Controller.h) -/
  | config
  /-- `OptionsLock` -/
  | options
  /-- `TUsLock` -/
  | tus
  /-- `SuppressedDiagnosticsLock` -/
  | suppressed
  /-- `DraftStore::Mutex` -/
  | drafts
  /-- `LSPServer::PendingCallsLock` of a connection -/
  | pending (peer : Nat)
  /-- `OutboundPort::Mutex` of a connection -/
  | out (peer : Nat)
  /-- `StreamLogger::LogsLock` -/
  | log
  /-- no mutex of the code: the thread that reads a worker (AttrSetClient.cpp:32-34) handles one reply at a time -/
  | reader (peer : Nat)
deriving DecidableEq, Repr

/-- What a thread waits for. -/
inductive Event
  /-- the request with this name has been sent, so that its reply may come -/
  | request (j : Nat)
  /-- the semaphore of this request has been released -/
  | reply (j : Nat)
deriving DecidableEq, Repr

/-- What a thread does. -/
inductive Op
  | acq (l : Lock)
  | rel (l : Lock)
  | await (e : Event)
  | signal (e : Event)
deriving DecidableEq, Repr

/-- A thread: the mutexes it holds, the latest first, and what it has still to do. -/
structure Thread where
  held : List Lock
  todo : List Op
deriving DecidableEq, Repr

/-- All threads, and what has happened. -/
structure Sys where
  threads : List Thread
  signalled : List Event
deriving DecidableEq, Repr

/-- One step of a thread; `none` if it is blocked or done. -/
def Sys.step (s : Sys) (i : Nat) : Option Sys :=
  match s.threads[i]? with
  | none => none
  | some t =>
    match t.todo with
    | [] => none
    | .acq l :: ops =>
      if s.threads.any (·.held.contains l) then none
      else some { s with threads := s.threads.set i ⟨l :: t.held, ops⟩ }
    | .rel l :: ops => some { s with threads := s.threads.set i ⟨t.held.erase l, ops⟩ }
    | .await j :: ops =>
      if s.signalled.contains j then some { s with threads := s.threads.set i ⟨t.held, ops⟩ } else none
    | .signal j :: ops => some ⟨s.threads.set i ⟨t.held, ops⟩, j :: s.signalled⟩

/-- A schedule. -/
def Sys.exec (s : Sys) : List Nat → Option Sys
  | [] => some s
  | i :: is => (s.step i).bind fun s' => s'.exec is

/-! ### The operations of nixd -/

/-- A scope with a `lock_guard`. -/
def guarded (l : Lock) (ops : List Op) : List Op := .acq l :: (ops ++ [.rel l])

/-- A message of the logger (Logger.cpp:56-67). -/
def logged : List Op := guarded .log []

/-- `OutboundPort::sendMessage` (Connection.cpp:113-124). -/
def send (peer : Nat) (sent : List Op) : List Op := logged ++ guarded (.out peer) sent

/-- A notification of the client (LSPServer.h:61-64). -/
def notify : List Op := logged ++ send 0 []

/-- A reply to the client (LSPServer.cpp:36-47). -/
def reply : List Op := logged ++ send 0 []

/-- The callback of an outgoing call, invoked with a reply or when the call is forgotten. -/
inductive Callback
  /-- it logs an error and releases a semaphore (Hover.cpp:36-42, Completion.cpp:149-158, Definition.cpp:182-188, ...) -/
  | wake (j : Nat)
  /-- the end of an evaluation (LifeTime.cpp:64-75) -/
  | evaluated
  /-- it logs, and may post a job (Support.cpp:63-66, Configuration.cpp:91-121) -/
  | logs
deriving DecidableEq, Repr

/-- The operations of a callback. -/
def Callback.ops : Callback → List Op
  | .wake j => logged ++ [.signal (.reply j)]
  | .evaluated => notify ++ logged
  | .logs => logged

/-- `LSPServer::bindReply` (LSPServer.cpp:81-98): the callback of a forgotten call runs under the lock. -/
def bindReply (peer : Nat) (forgotten : Option Callback) : List Op :=
  guarded (.pending peer) (match forgotten with
    | none => []
    | some c => c.ops ++ logged)

/-- `LSPServer::callMethod` (LSPServer.h:47-52). The request gets the name `j`. -/
def call (peer : Nat) (forgotten : Option Callback) (j : Nat) : List Op :=
  bindReply peer forgotten ++ logged ++ send peer [.signal (.request j)]

/-- `LSPServer::onReply` (LSPServer.cpp:53-79). -/
def onReply (peer : Nat) (c : Callback) : List Op := logged ++ guarded (.pending peer) [] ++ c.ops

/-- `publishDiagnostics` for `n` diagnostics (Diagnostics.cpp:37-120). -/
def publish (n : Nat) : List Op := (List.replicate n (guarded .suppressed [])).flatten ++ notify

/-- A call to a worker: its connection, the callback that is forgotten for it if there are too many pending calls, and
its name. -/
structure Ask where
  peer : Nat
  forgotten : Option Callback
  name : Nat
deriving DecidableEq, Repr

/-- `evalExprWithProgress` (LifeTime.cpp:60-84): a call and a notification of the client, and a call of the worker. -/
def evalExpr (progress : Ask) (eval : Ask) : List Op :=
  call 0 progress.forgotten progress.name ++ notify ++ call eval.peer eval.forgotten eval.name

/-- `getTU` (Controller.h:119-127). -/
def getTU : List Op := guarded .tus logged

/-- A request to a worker and the wait for its reply (Hover.cpp:44-45, Completion.cpp:131-132, ...). -/
def ask (a : Ask) : List Op := call a.peer a.forgotten a.name ++ [.await (.reply a.name)]

/-- What a thread does for one message or job. -/
inductive Handler
  /-- the draft is stored and `actOnDocumentAdd` makes a tree (Support.cpp:23-58, DraftStore.cpp:29, 19) -/
  | add (diags : Nat)
  /-- the same without a tree (Support.cpp:34-42) -/
  | addLocked (diags : Nat)
  /-- `removeDocument` (Support.cpp:14-21) -/
  | remove
  /-- `updateConfig` (Configuration.cpp:56-89): workers to evaluate, unknown names, numbers of diagnostics of the files -/
  | updateConfig (nixpkgs : Option (Ask × Ask)) (opts : List (Ask × Ask)) (unknown : Nat) (files : List Nat)
  /-- a request that needs the translation unit only -/
  | plain
  /-- a request that asks the worker of nixpkgs (Hover.cpp:130-140, Definition.cpp:179-205, InlayHints.cpp:71-110,
  Completion.cpp:121-180), or none -/
  | askNixpkgs (asks : List Ask)
  /-- a request that asks the option workers, under `OptionsLock` (Hover.cpp:245-273, Definition.cpp:267-275,
  Completion.cpp:368-370) -/
  | askOptions (asks : List Ask)
  /-- `onFormat` (Format.cpp:18-85) -/
  | format
  /-- `onInitialize` (LifeTime.cpp:170-198) -/
  | start (nixpkgs nixos : Ask × Ask) (fetch : Ask)
  /-- a reply of the client to the server, read by the input thread -/
  | clientReply (c : Callback)
deriving DecidableEq, Repr

/-- The operations of a handler. -/
def Handler.ops : Handler → List Op
  | .add n => guarded .drafts [] ++ guarded .drafts [] ++ publish n ++ guarded .tus []
  | .addLocked n => guarded .drafts [] ++ guarded .drafts [] ++ guarded .tus (publish n)
  | .remove => guarded .drafts [] ++ guarded .tus [] ++ publish 0
  | .updateConfig nixpkgs opts unknown files =>
    guarded .config (
      (nixpkgs.toList.flatMap fun a => evalExpr a.1 a.2) ++
      (if opts.isEmpty then [] else guarded .options (opts.flatMap fun a => evalExpr a.1 a.2)) ++
      guarded .suppressed (List.replicate unknown logged).flatten ++
      guarded .tus (files.flatMap publish))
  | .plain => getTU ++ reply
  | .askNixpkgs asks => getTU ++ asks.flatMap ask ++ reply
  | .askOptions asks => getTU ++ guarded .options (asks.flatMap ask) ++ reply
  | .format => guarded .drafts [] ++ guarded .config [] ++ reply
  | .start nixpkgs nixos fetch =>
    reply ++ evalExpr nixpkgs.1 nixpkgs.2 ++ guarded .options (evalExpr nixos.1 nixos.2) ++
      call 0 fetch.forgotten fetch.name
  | .clientReply c => onReply 0 c

/-- A reply of a worker, read by the thread of this worker after the request was sent. -/
structure Reply where
  peer : Nat
  name : Nat
  callback : Callback
deriving DecidableEq, Repr

/-- The operations of reading the reply. -/
def Reply.ops (r : Reply) : List Op :=
  .await (.request r.name) :: guarded (.reader r.peer) (onReply r.peer r.callback)

/-- The server: threads that work on messages and jobs, one after the other, and the replies of the workers. -/
def server (work : List (List Handler)) (replies : List Reply) : Sys :=
  ⟨work.map (fun hs => ⟨[], hs.flatMap Handler.ops⟩) ++ replies.map (fun r => ⟨[], r.ops⟩), []⟩

/-! ### Workers that exit -/

/-- A worker process. -/
inductive Worker
  | running
  /-- it has exited and nobody has waited for it -/
  | zombie
deriving DecidableEq, Repr

/-- `client()` is not null: `kill(PID, 0) == 0` (AttrSetClient.cpp:36-40), which holds for zombies too. Nothing in nixd
waits for a worker (`waitpid` is only called for formatters, Format.cpp:71), so a worker that has exited is a zombie. -/
def Worker.client : Worker → Bool
  | .running => true
  | .zombie => true

/-- What sending a request to a worker does. -/
inductive Sent
  /-- `client()` is null and the worker is skipped (Completion.cpp:346-350) -/
  | skipped
  | delivered
  /-- the pipe has no reader: `SIGPIPE`, which nixd does not handle -/
  | killed
deriving DecidableEq, Repr

/-- A request to a worker (Completion.cpp:345-353, Hover.cpp:247, Connection.cpp:121-123). -/
def Worker.request (w : Worker) : Sent :=
  if w.client then (match w with | .running => .delivered | .zombie => .killed) else .skipped

end Verif.Locks
