import Verif.Base
/-
Model of the JSON-RPC layer: nixd/lspserver/src/LSPServer.cpp, LSPServer.h and `InboundPort::dispatch`,
`InboundPort::loop` of Connection.cpp.

Simplifications: each function is one atomic step (locks are not modelled); handlers and callbacks are opaque, their
invocations are recorded in a log, and whatever they do later (issue a request, answer a request) is a separate event;
logging is dropped.
-/
namespace Verif.Rpc

/-- `llvm::json::Value`. A number keeps its text and what `getAsInteger` returns for it (an `int64_t` or nothing). -/
inductive Json
  | null
  | bool (b : Bool)
  | num (text : Bytes) (asInt : Option Int)
  | str (s : Bytes)
  | arr (l : List Json)
  | obj (fields : List (Bytes × Json))

/-- `Value::getAsObject` followed by `Object::get`. -/
def Json.get : Json → Bytes → Option Json
  | .obj fs, k => fs.lookup k
  | _, _ => none

/-- `Object::getString`. -/
def Json.getString (j : Json) (k : Bytes) : Option Bytes :=
  match j.get k with
  | some (.str s) => some s
  | _ => none

/-- `Value::getAsInteger`. -/
def Json.asInteger : Json → Option Int
  | .num _ i => i
  | _ => none

/-- A decoded JSON-RPC error: `LSPError` if there is a code, `StringError` otherwise. -/
structure RpcError where
  message : Bytes
  code : Option Int
deriving DecidableEq

/-- `llvm::Expected<llvm::json::Value>`. -/
abbrev Result := Except RpcError Json

/-- `decodeError` (Connection.cpp:71-78). -/
def decodeError (e : Json) : RpcError :=
  { message := (e.getString b!"message").getD b!"Unspecified error"
    code := (e.get b!"code").bind Json.asInteger }

/-- What a completion callback receives: the client's reply, or the error made at LSPServer.cpp:91-92. -/
inductive Completion
  | reply (r : Result)
  | evicted (id : Int)

/-- Observable effects, oldest first in the log. Requests issued by the server are identified by a token chosen
by the issuer, requests received are numbered. -/
inductive Effect
  /-- `O->call(Method, Params, ID)` (LSPServer.h:53) -/
  | sendCall (id : Int) (tok : Nat)
  /-- the completion callback of a request runs -/
  | complete (tok : Nat) (c : Completion)
  /-- a notification handler runs (LSPServer.cpp:23) -/
  | notified (method : Bytes) (params : Json)
  /-- a method handler runs (LSPServer.cpp:35) with the reply closure number `n` -/
  | invoked (n : Nat) (method : Bytes) (params : Json)
  /-- the reply closure number `n` sends a reply (LSPServer.cpp:40,45) -/
  | sendReply (n : Nat) (id : Json) (r : Result)

/-- State of the message loop. `stopped`: `loop` has returned. `crashed`: an exception left `loop`, or undefined
behaviour. -/
inductive Status
  | running | stopped | crashed
deriving DecidableEq

/-- `LSPServer` state: `PendingCalls` (a `std::map`, ordered by id) and `TopID` (LSPServer.h:36-43), and the ids
captured by the reply closures handed out so far (LSPServer.cpp:36). -/
structure State where
  topID : Int
  pending : List (Int × Nat)
  closures : List Json
  status : Status
  log : List Effect

/-- The initial state. -/
def init : State := ⟨1, [], [], .running, []⟩

/-- The names registered in `HandlerRegistry`. -/
structure Registry where
  notifications : List Bytes
  methods : List Bytes

/-- `std::map::operator[]` assignment, on an ordered association list. -/
def mapInsert (k : Int) (v : Nat) : List (Int × Nat) → List (Int × Nat)
  | [] => [(k, v)]
  | (k', v') :: rest =>
    if k < k' then (k, v) :: (k', v') :: rest
    else if k = k' then (k, v) :: rest
    else (k', v') :: mapInsert k v rest

/-- `MaxPendingCalls` (LSPServer.h:41). -/
def maxPendingCalls : Nat := 100

/-- `INT_MAX`. -/
def intMax : Int := 2 ^ 31 - 1

/-- `callMethod` (LSPServer.h:48-54) with `bindReply` (LSPServer.cpp:81-99). The overflow of `TopID++` after 2^31 - 1
requests is undefined behaviour. -/
def callMethod (s : State) (tok : Nat) : State :=
  if s.topID = intMax then { s with status := .crashed }
  else
    let ret := s.topID
    let pending := mapInsert ret tok s.pending
    let s := { s with topID := s.topID + 1, pending := pending }
    let s :=
      if pending.length > maxPendingCalls then
        match pending with
        | [] => s
        | (id, cb) :: rest => { s with pending := rest, log := s.log ++ [.complete cb (.evicted id)] }
      else s
    { s with log := s.log ++ [.sendCall ret tok] }

/-- `static_cast<int>` of an `int64_t`. -/
def toInt32 (x : Int) : Int := x.bmod (2 ^ 32)

/-- `LSPServer::onReply` (LSPServer.cpp:53-79). -/
def onReply (s : State) (id : Json) (r : Result) : State :=
  match id.asInteger with
  | none => { s with status := .crashed }
  | some i =>
    if i > intMax then { s with status := .crashed }
    else
      let i := toInt32 i
      match s.pending.lookup i with
      | none => s
      | some cb =>
        { s with pending := s.pending.filter (fun p => p.1 ≠ i), log := s.log ++ [.complete cb (.reply r)] }

/-- `LSPServer::onNotify` (LSPServer.cpp:17-28). -/
def onNotify (reg : Registry) (s : State) (method : Bytes) (params : Json) : State :=
  if method = b!"exit" then { s with status := .stopped }
  else if method ∈ reg.notifications then { s with log := s.log ++ [.notified method params] }
  else s

/-- `LSPServer::onCall` (LSPServer.cpp:30-51). -/
def onCall (reg : Registry) (s : State) (method : Bytes) (params id : Json) : State :=
  if method ∈ reg.methods then
    { s with closures := s.closures ++ [id], log := s.log ++ [.invoked s.closures.length method params] }
  else { s with status := .stopped }

/-- `InboundPort::dispatch` (Connection.cpp:126-161) as called from `loop` (Connection.cpp:318-326). -/
def dispatch (reg : Registry) (s : State) (m : Json) : State :=
  if m.getString b!"jsonrpc" ≠ some b!"2.0" then { s with status := .stopped }
  else
    let id := m.get b!"id"
    match m.getString b!"method" with
    | none =>
      match id with
      | none => { s with status := .stopped }
      | some id =>
        match m.get b!"error" with
        | some (.obj fs) => onReply s id (.error (decodeError (.obj fs)))
        | _ => onReply s id (.ok ((m.get b!"result").getD .null))
    | some method =>
      let params := (m.get b!"params").getD .null
      match id with
      | some id => onCall reg s method params id
      | none => onNotify reg s method params

/-- What a `json::Value` is after it has been moved from (strings, arrays and objects become null, the other
values are copied). -/
def moved : Json → Json
  | .null => .null
  | .bool b => .bool b
  | .num t i => .num t i
  | _ => .null

/-- The reply closure (LSPServer.cpp:36-47) number `n` is called with `r`. -/
def respond (s : State) (n : Nat) (r : Result) : State :=
  match s.closures[n]? with
  | none => s
  | some id => { s with closures := s.closures.set n (moved id), log := s.log ++ [.sendReply n id r] }

/-- Events: a message arrives, the server's code issues a request, a handler answers. -/
inductive Event
  | recv (m : Json)
  | call (tok : Nat)
  | respond (n : Nat) (r : Result)

/-- One event. After `loop` has returned no message is read; after a crash nothing happens. -/
def step (reg : Registry) (s : State) (e : Event) : State :=
  match s.status with
  | .crashed => s
  | .stopped =>
    match e with
    | .recv _ => s
    | .call tok => callMethod s tok
    | .respond n r => respond s n r
  | .running =>
    match e with
    | .recv m => dispatch reg s m
    | .call tok => callMethod s tok
    | .respond n r => respond s n r

/-- A history. -/
def run (reg : Registry) (s : State) (es : List Event) : State := es.foldl (step reg) s

end Verif.Rpc
