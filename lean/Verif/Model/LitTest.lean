import Verif.Model.Framing
import Verif.Model.Protocol
/-
Model of the input of the server's own tests (`--lit-test`), which are Markdown files: `InboundPort::readLitTestMessage` and
the loop around it (nixd/lspserver/src/Connection.cpp). The pipe and `readLine` are those of `Verif.Framing`; the parser of
JSON and `fixUTF8` are parameters. Logging is left out.
-/
namespace Verif.LitTest
open Framing
open Rpc (Json)

/-- `State` with `NixDocURI` (Connection.cpp:250-254). -/
inductive State
  | prose
  | json
  | nix (uri : Bytes)
deriving DecidableEq

/-- What is returned: a text for the parser of JSON (Connection.cpp:271) or a message about a document
(Connection.cpp:281-297). -/
inductive Msg
  | json (text : Bytes)
  | nix (uri text : Bytes)
deriving DecidableEq

/-- `StringRef::rtrim`. -/
def rtrim (s : Bytes) : Bytes := (s.reverse.dropWhile isSpace).reverse

/-- `readLitTestMessage` (Connection.cpp:248-303). -/
def readLit (hup : Hup) (st : State) (buffer : Bytes) (s : Bytes) : Read Msg :=
  match _h : readLine hup [] s with
  | .eof => .eof
  | .blocked => .blocked
  | .got line rest =>
    let lineRef := trim line
    match st with
    | .prose =>
      if b!"```json".isPrefixOf lineRef then readLit hup .json buffer rest
      else if b!"```nix ".isPrefixOf lineRef then readLit hup (.nix (lineRef.drop 7)) buffer rest
      else readLit hup .prose buffer rest
    | .json =>
      if b!"#".isPrefixOf lineRef then readLit hup .json buffer rest
      else if b!"```".isPrefixOf lineRef then .got (.json buffer) rest
      else readLit hup .json (buffer ++ line) rest
    | .nix uri =>
      if b!"```".isPrefixOf lineRef then .got (.nix uri (rtrim buffer)) rest
      else readLit hup (.nix uri) (buffer ++ line ++ b!"\n") rest
termination_by s.length
decreasing_by all_goals exact readLine_length _ _ _ _ _ _h

/-- The message about a document (Connection.cpp:281-297). -/
def openMessage (fix : Bytes → Bytes) (uri text : Bytes) : Json :=
  .obj [(b!"jsonrpc", .str b!"2.0"), (b!"method", .str b!"textDocument/didOpen"),
    (b!"params", .obj [(b!"textDocument", .obj [(b!"uri", Protocol.encodeString fix uri), (b!"languageId", .str b!"nix"),
      (b!"version", Protocol.encodeInt 1), (b!"text", Protocol.encodeString fix text)])])]

/-- The value returned, if it is no error. -/
def value (parse : Bytes → Option Json) (fix : Bytes → Bytes) : Msg → Option Json
  | .json text => parse text
  | .nix uri text => some (openMessage fix uri text)

theorem readLit_length (hup : Hup) (st : State) (buffer s : Bytes) (m : Msg) (r : Bytes)
    (h : readLit hup st buffer s = .got m r) : r.length < s.length := by
  fun_induction readLit hup st buffer s <;> simp_all only [reduceCtorEq, Read.got.injEq]
  all_goals
    have := readLine_length _ _ _ _ _ (by assumption)
    first | omega | (simp_all; done) | (simp_all; omega)

/-- Why the loop ended. -/
inductive End
  | eof
  | blocked
  | parseError
deriving DecidableEq

/-- `InboundPort::loop` (Connection.cpp:318-337) for tests: the messages handed to `dispatch`, and why it stops. The result of
`dispatch`, which is false for `exit`, is not modelled here. -/
def loop (parse : Bytes → Option Json) (fix : Bytes → Bytes) (hup : Hup) (s : Bytes) : List Json × End :=
  match _h : readLit hup .prose [] s with
  | .eof => ([], .eof)
  | .blocked => ([], .blocked)
  | .got m rest =>
    match value parse fix m with
    | none => ([], .parseError)
    | some j => (j :: (loop parse fix hup rest).1, (loop parse fix hup rest).2)
termination_by s.length
decreasing_by all_goals exact readLit_length _ _ _ _ _ _ _h

theorem readHeaders_length (hup : Hup) (len : Nat) (s : Bytes) (n : Nat) (r : Bytes) (h : readHeaders hup len s = .got n r) :
    r.length < s.length := by
  fun_induction readHeaders hup len s <;> simp_all only [reduceCtorEq, Read.got.injEq]
  all_goals
    have := readLine_length _ _ _ _ _ (by assumption)
    first | omega | (simp_all; done) | (simp_all; omega)

theorem readBody_length (chunk : Nat → Nat) (hup : Hup) (acc : Bytes) (need : Nat) (s b r : Bytes)
    (h : readBody chunk hup acc need s = .got b r) : r.length ≤ s.length := by
  fun_induction readBody chunk hup acc need s with
  | case1 => simp_all
  | case2 => simp_all
  | case3 => simp_all
  | case4 acc need s hneed hs n ih => have := ih h; simp only [List.length_drop] at this; omega

theorem readMessage_length (chunk : Nat → Nat) (hup : Hup) (s b r : Bytes) (h : readMessage chunk hup s = .got b r) :
    r.length < s.length := by
  unfold readMessage at h
  split at h
  · cases h
  · cases h
  · rename_i hh
    have h1 := readHeaders_length _ _ _ _ _ hh
    have h2 := readBody_length _ _ _ _ _ _ _ h
    omega

/-- `InboundPort::loop` (Connection.cpp:318-337) for an editor, with `chunk` as in `Framing.readMessage`. -/
def loopStandard (parse : Bytes → Option Json) (chunk : Nat → Nat) (hup : Hup) (s : Bytes) : List Json × End :=
  match _h : readMessage chunk hup s with
  | .eof => ([], .eof)
  | .blocked => ([], .blocked)
  | .got body rest =>
    match parse body with
    | none => ([], .parseError)
    | some j => (j :: (loopStandard parse chunk hup rest).1, (loopStandard parse chunk hup rest).2)
termination_by s.length
decreasing_by all_goals exact readMessage_length _ _ _ _ _ _h

end Verif.LitTest
