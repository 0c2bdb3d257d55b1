import Verif.Base
/-
Model of nixd/lib/Controller/Format.cpp:18-102 and nixd/lib/Support/ForkPiped.cpp: formatting a document with an
external command.

The server and the formatter are two processes connected by three pipes of a given capacity. The formatter is any
deterministic program that reads its standard input, writes to its standard output and standard error and exits. The
two processes run in any order, one byte at a time: a `write(2)` or `read(2)` of several bytes is several steps, so
that every split into partial reads and writes is covered. A process that can not write since the pipe is full, or can
not read since it is empty, is blocked. Writing to a pipe whose read end is closed kills the server: nothing in nixd
handles `SIGPIPE`.

Not modelled: errors of `pipe`, `fork`, `read` and `write` other than a closed pipe (but see `formatOnce` for running out
of descriptors), other processes that inherit the ends of the pipes, death of the formatter by a signal. A command that
can not be executed is a program that exits at once (Format.cpp:53-54). -/
namespace Verif.Format

/-- What a program does next. -/
inductive Cmd (σ : Type)
  /-- read a byte; `none` at the end of the input -/
  | read (k : Option UInt8 → σ)
  /-- write a byte to the standard output -/
  | out (b : UInt8) (s : σ)
  /-- write a byte to the standard error -/
  | err (b : UInt8) (s : σ)
  /-- exit with a wait status -/
  | exit (status : Nat)

/-- The formatter: a program by its states. -/
structure Prog where
  σ : Type
  next : σ → Cmd σ

/-- A `TextEdit` (Protocol.h), the range as two pairs of line and character. -/
structure TextEdit where
  start : Int × Int
  stop : Int × Int
  newText : Bytes
deriving DecidableEq, Repr

/-- What the client gets. -/
inductive Reply
  /-- the command is empty (Format.cpp:31-34) -/
  | noCommand
  /-- the command exited with a non-zero status (Format.cpp:73-77) -/
  | failed (status : Nat)
  /-- Format.cpp:92-98 -/
  | edits (es : List TextEdit)
deriving DecidableEq, Repr

/-- `INT_MAX`. -/
def intMax : Int := 2147483647

/-- The reply for the output of the formatter (Format.cpp:92-98). -/
def replyFor (code response : Bytes) : Reply :=
  if response = code then .edits [] else .edits [⟨(0, 0), (intMax, intMax), response⟩]

/-- What the server is doing. -/
inductive Server
  /-- sending the document; the bytes from `Start` to `End` (Format.cpp:58-67) -/
  | write (rest : Bytes)
  /-- in `waitpid` (Format.cpp:71) -/
  | wait
  /-- reading; the bytes of `Response` (Format.cpp:80-90) -/
  | read (acc : Bytes)
  /-- the reply is sent -/
  | replied (r : Reply)
  /-- killed by `SIGPIPE` in `write` (Format.cpp:61) -/
  | killed
deriving DecidableEq, Repr

/-- The formatter process. -/
inductive Child (σ : Type)
  | running (s : σ)
  | exited (status : Nat)

/-- Both processes and the bytes in the pipes. -/
structure State (P : Prog) where
  server : Server
  child : Child P.σ
  /-- standard input of the formatter -/
  inp : Bytes
  /-- its standard output -/
  out : Bytes
  /-- its standard error; nobody reads it (ForkPiped.cpp:43 gives the caller the standard output in `Err`, and
  Format.cpp does not use it) -/
  err : Bytes

/-- The state after `forkPiped` (Format.cpp:51). -/
def start (P : Prog) (s : P.σ) (code : Bytes) : State P := ⟨.write code, .running s, [], [], []⟩

/-- The server has closed the write end of the formatter's standard input (Format.cpp:67). -/
def Server.closed : Server → Bool
  | .write _ => false
  | _ => true

/-- One step of the server; `none` when it is blocked or done (Format.cpp:58-98). -/
def serverStep {P : Prog} (cap : Nat) (code : Bytes) (t : State P) : Option (State P) :=
  match t.server with
  | .write [] => some { t with server := .wait }
  | .write (b :: rest) =>
    match t.child with
    | .exited _ => some { t with server := .killed }
    | .running _ =>
      if t.inp.length < cap then some { t with server := .write rest, inp := t.inp ++ [b] } else none
  | .wait =>
    match t.child with
    | .running _ => none
    | .exited status => if status ≠ 0 then some { t with server := .replied (.failed status) }
      else some { t with server := .read [] }
  | .read acc =>
    match t.out with
    | b :: out => some { t with server := .read (acc ++ [b]), out := out }
    | [] =>
      match t.child with
      | .running _ => none
      | .exited _ => some { t with server := .replied (replyFor code acc) }
  | .replied _ => none
  | .killed => none

/-- One step of the formatter; `none` when it is blocked or done. -/
def childStep {P : Prog} (cap : Nat) (t : State P) : Option (State P) :=
  match t.child with
  | .exited _ => none
  | .running s =>
    match P.next s with
    | .read k =>
      match t.inp with
      | b :: inp => some { t with child := .running (k (some b)), inp := inp }
      | [] => if t.server.closed then some { t with child := .running (k none) } else none
    | .out b s => if t.out.length < cap then some { t with child := .running s, out := t.out ++ [b] } else none
    | .err b s => if t.err.length < cap then some { t with child := .running s, err := t.err ++ [b] } else none
    | .exit status => some { t with child := .exited status }

/-- One step of either process. -/
def step {P : Prog} (cap : Nat) (code : Bytes) (t : State P) (who : Bool) : Option (State P) :=
  if who then serverStep cap code t else childStep cap t

/-- A schedule: `true` is a step of the server. -/
def exec {P : Prog} (cap : Nat) (code : Bytes) (t : State P) : List Bool → Option (State P)
  | [] => some t
  | w :: ws => (step cap code t w).bind fun t' => exec cap code t' ws

/-- The beginning of `onFormat` (Format.cpp:21-51). -/
inductive Begin (P : Prog)
  /-- `*Store.getDraft(File)->Contents` without a draft: undefined behaviour (Format.cpp:22) -/
  | undefined
  | reply (r : Reply)
  | run (t : State P) (code : Bytes)

/-- The beginning of `onFormat` (Format.cpp:21-51) for a document that may have no draft and a command. -/
def onFormat (P : Prog) (s : P.σ) (draft : Option Bytes) (command : List Bytes) : Begin P :=
  match draft with
  | none => .undefined
  | some code => if command = [] then .reply .noCommand else .run (start P s code) code

/-- The number of open descriptors of the server after one request, if `limit` is the highest number allowed and `used`
are open before. `forkPiped` makes three pipes (ForkPiped.cpp:14; `none`: it throws) and closes three ends in the parent
(ForkPiped.cpp:34-36); `onFormat` closes the standard input (Format.cpp:67) and nothing else. -/
def formatOnce (limit used : Nat) : Option Nat :=
  if used + 6 ≤ limit then some (used + 6 - 3 - 1) else none

/-- Several requests, one after the other. -/
def formatMany (limit : Nat) : Nat → Nat → Option Nat
  | 0, used => some used
  | n + 1, used => (formatOnce limit used).bind (formatMany limit n)

end Verif.Format
