import Verif.Model.Rpc

/-
Sessions: what the server announces and serves, how it ends, and the progress it reports. Models the constructor of
`Controller` (nixd/lib/Controller/Support.cpp), nixd/lib/Controller/LifeTime.cpp and `main` of nixd/tools/nixd.cpp.

The message loop is that of `Verif.Rpc`. `rand()` is a parameter of the events. A notification to the client and the call
of the worker in one function are one step.
-/
namespace Verif.Session

open Verif.Rpc

/-- The notifications and methods registered (Support.cpp:73-119). -/
def registry : Registry where
  notifications := [b!"initialized", b!"textDocument/didOpen", b!"textDocument/didChange", b!"textDocument/didClose",
    b!"workspace/didChangeConfiguration"]
  methods := [b!"initialize", b!"shutdown", b!"textDocument/definition", b!"textDocument/documentSymbol",
    b!"textDocument/foldingRange", b!"textDocument/semanticTokens/full", b!"textDocument/inlayHint",
    b!"textDocument/completion", b!"completionItem/resolve", b!"textDocument/references", b!"textDocument/documentHighlight",
    b!"textDocument/documentLink", b!"textDocument/codeAction", b!"codeAction/resolve", b!"textDocument/hover",
    b!"textDocument/formatting", b!"textDocument/rename", b!"textDocument/prepareRename"]

/-- A member of `ServerCapabilities`. -/
inductive Cap
  | textDocumentSync (openClose change save : Bool)
  | codeAction (resolve : Bool)
  | definition
  | documentLink (resolve : Bool)
  | documentSymbol
  | foldingRange
  | inlayHint (resolve : Bool)
  | completion (resolve : Bool)
  | references
  | documentHighlight
  | hover
  | formatting
  | rename (prepare : Bool)
  | semanticTokens (range full : Bool)
deriving DecidableEq, Repr

/-- `ServerCaps` of `onInitialize` (LifeTime.cpp:91-159); the argument is `EnableSemanticTokens`. -/
def capabilities (semantic : Bool) : List Cap :=
  [.textDocumentSync true true true, .codeAction true, .definition, .documentLink false, .documentSymbol, .foldingRange,
    .inlayHint false, .completion true, .references, .documentHighlight, .hover, .formatting, .rename true] ++
  (if semantic then [.semanticTokens false true] else [])

/-- How the process ends: `main` returns 0 after the loop (nixd.cpp:80-82); `none` while it is running, and after a crash. -/
def exitCode (s : State) : Option Nat :=
  match s.status with
  | .stopped => some 0
  | _ => none

/-! ### Progress -/

/-- A message to the client about evaluation number `n`, with its token. -/
inductive Msg
  /-- `window/workDoneProgress/create` -/
  | create (n tok : Nat)
  | begin (n tok : Nat)
  | end_ (n tok : Nat)
deriving DecidableEq, Repr

/-- The connection with a worker, the tokens of the evaluations so far, and the messages sent to the client about them. -/
structure Progress where
  worker : State
  tokens : List Nat
  sent : List Msg

/-- No evaluation yet. -/
def Progress.init : Progress := ⟨Rpc.init, [], []⟩

/-- An evaluation is requested, where `rand()` gives the token; or a message of the worker arrives. -/
inductive Happens
  | eval (tok : Nat)
  | recv (m : Json)

/-- The callbacks that run (LifeTime.cpp:64-75): each ends the progress, whether the evaluation has succeeded or not. -/
def ended (tokens : List Nat) : List Effect → List Msg
  | [] => []
  | .complete n _ :: l => .end_ n (tokens.getD n 0) :: ended tokens l
  | _ :: l => ended tokens l

/-- `evalExprWithProgress` (LifeTime.cpp:60-84) and the thread of the worker (AttrSetClient.cpp:33-34). Nothing is sent to
a client without the capability (Support.cpp:62, Controller.h:91, 112). -/
def Progress.step (caps : Bool) (s : Progress) (h : Happens) : Progress :=
  match h with
  | .eval tok =>
    let n := s.tokens.length
    let tokens := s.tokens ++ [tok]
    let w := Rpc.step ⟨[], []⟩ s.worker (.call n)
    ⟨w, tokens, s.sent ++ if caps then [.create n tok, .begin n tok] ++ ended tokens (w.log.drop s.worker.log.length) else []⟩
  | .recv m =>
    let w := Rpc.step ⟨[], []⟩ s.worker (.recv m)
    ⟨w, s.tokens, s.sent ++ if caps then ended s.tokens (w.log.drop s.worker.log.length) else []⟩

/-- A history. -/
def Progress.run (caps : Bool) (s : Progress) (hs : List Happens) : Progress := hs.foldl (·.step caps) s

end Verif.Session
