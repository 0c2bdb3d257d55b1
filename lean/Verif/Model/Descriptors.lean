import Verif.Base

/-
File descriptors of worker processes. Models nixd/lib/Support/{ForkPiped,StreamProc,AutoCloseFD}.cpp,
nixd/include/nixd/Support/PipedProc.h and the destructor of `AttrSetClientProc` (nixd/include/nixd/Eval/AttrSetClient.h).

The kernel keeps for every process a table from numbers to open files. The numbers that `pipe` gives are a parameter: the
theorems hold for every choice of free numbers, POSIX gives the lowest. Pipes are numbered.
-/
namespace Verif.Descriptors

/-- An open file: an end of a pipe, or anything else. -/
inductive File
  | read (pipe : Nat)
  | write (pipe : Nat)
  | other (n : Nat)
deriving DecidableEq, Repr

/-- The descriptors of a process. -/
abbrev Table := Nat → Option File

/-- The table with one entry changed. -/
def Table.put (t : Table) (fd : Nat) (f : Option File) : Table := fun i => if i = fd then f else t i

/-- `close(2)`. Of a number that is not open it fails, which nixd ignores, and changes nothing. -/
def close (t : Table) (fd : Nat) : Table := t.put fd none

/-- `dup2(2)`. -/
def dup2 (t : Table) (a b : Nat) : Table :=
  match t a with
  | none => t
  | some f => t.put b (some f)

/-- `pipe(2)` with the numbers it gives. -/
def pipe (t : Table) (p r w : Nat) : Table := (t.put r (some (.read p))).put w (some (.write p))

/-- `PipeIn`, `PipeOut` and `PipeErr` (ForkPiped.cpp:11-13): the numbers given by the kernel. -/
structure Pipes where
  inRead : Nat
  inWrite : Nat
  outRead : Nat
  outWrite : Nat
  errRead : Nat
  errWrite : Nat
deriving DecidableEq, Repr

/-- The numbers of the pipes. -/
def Pipes.all (p : Pipes) : List Nat := [p.inRead, p.inWrite, p.outRead, p.outWrite, p.errRead, p.errWrite]

/-- The three calls of `pipe` (ForkPiped.cpp:14), which make the pipes `n`, `n + 1` and `n + 2`. -/
def pipes (t : Table) (n : Nat) (p : Pipes) : Table :=
  pipe (pipe (pipe t n p.inRead p.inWrite) (n + 1) p.outRead p.outWrite) (n + 2) p.errRead p.errWrite

/-- What the child does (ForkPiped.cpp:21-29), starting with a copy of the table. -/
def childSide (t : Table) (p : Pipes) : Table :=
  let t := close (close (close t p.inWrite) p.outRead) p.errRead
  let t := dup2 (dup2 (dup2 t p.inRead 0) p.outWrite 1) p.errWrite 2
  close (close (close t p.inRead) p.outWrite) p.errWrite

/-- What the parent does (ForkPiped.cpp:34-36), also if `fork` has failed. -/
def parentSide (t : Table) (p : Pipes) : Table := close (close (close t p.inRead) p.outWrite) p.errWrite

/-- The descriptors of the child after `forkPiped`. -/
def child (t : Table) (n : Nat) (p : Pipes) : Table := childSide (pipes t n p) p

/-- The descriptors of the parent after `forkPiped`. -/
def parent (t : Table) (n : Nat) (p : Pipes) : Table := parentSide (pipes t n p) p

/-- `In`, `Out` and `Err` (ForkPiped.cpp:41-43). -/
structure Ends where
  in_ : Nat
  out : Nat
  err : Nat
deriving DecidableEq, Repr

/-- What `forkPiped` gives to the parent (ForkPiped.cpp:41-43). -/
def ends (p : Pipes) : Ends := ⟨p.inWrite, p.outRead, p.outRead⟩

/-- The descriptors if `forkPiped` throws since the second call of `pipe` fails (ForkPiped.cpp:14-15). -/
def pipeFailed (t : Table) (n : Nat) (p : Pipes) : Table := pipe t n p.inRead p.inWrite

/-! ### Objects of `AutoCloseFD` -/

/-- `ReleasedFD` (AutoCloseFD.h:13): `-EBADF`. -/
def released : Int := -9

/-- What a program does with objects of `AutoCloseFD`, which are numbered in the order of their construction. -/
inductive Op
  /-- from a number (AutoCloseFD.cpp:24) -/
  | construct (fd : Int)
  /-- from another object that is not needed any more (AutoCloseFD.cpp:12-14) -/
  | move (i : Nat)
  /-- `release` (AutoCloseFD.cpp:18) -/
  | release (i : Nat)
  /-- the destructor (AutoCloseFD.cpp:7-10) -/
  | destroy (i : Nat)
deriving DecidableEq, Repr

/-- The objects (`none`: destroyed), the calls of `close` so far, and the numbers that were given up by `release`. -/
structure State where
  objects : List (Option Int)
  closed : List Int
  givenUp : List Int
deriving DecidableEq, Repr

/-- `none`: the object does not exist. -/
def State.step (s : State) : Op → Option State
  | .construct fd => some { s with objects := s.objects ++ [some fd] }
  | .move i =>
    match s.objects[i]? with
    | some (some fd) => some { s with objects := s.objects.set i (some released) ++ [some fd] }
    | _ => none
  | .release i =>
    match s.objects[i]? with
    | some (some fd) =>
      some { s with objects := s.objects.set i (some released), givenUp := s.givenUp ++ (if fd = released then [] else [fd]) }
    | _ => none
  | .destroy i =>
    match s.objects[i]? with
    | some (some fd) => some { s with objects := s.objects.set i none, closed := s.closed ++ (if fd = released then [] else [fd]) }
    | _ => none

/-- A program. -/
def State.run (s : State) : List Op → Option State
  | [] => some s
  | op :: ops => (s.step op).bind (·.run ops)

/-! ### Workers -/

/-- The constructors of `PipedProc` (StreamProc.cpp:27, PipedProc.h:13-15): three objects. -/
def pipedProc (e : Ends) : List Op := [.construct e.in_, .construct e.out, .construct e.err]

/-- The destructor of `PipedProc`: the members in reverse order. -/
def endProc : List Op := [.destroy 2, .destroy 1, .destroy 0]

/-- The descriptors of the server after a worker is gone (AttrSetClient.h:84-88, StreamProc.h:12-13, PipedProc.h:13-15):
`Stream` does not close its descriptor (StreamProc.cpp:28), the objects of `PipedProc` do. Between the calls of `close`
another thread may have changed the table. -/
def stop (g h : Table → Table) (t : Table) (p : Pipes) : Table :=
  close (h (close (g (close t (ends p).err)) (ends p).out)) (ends p).in_

/-- Workers that are started and stopped, one after the other; the numbers are free and below the limit (`RLIMIT_NOFILE`). -/
inductive Lives (limit : Nat) : Table → List Pipes → Table → Prop
  | none {t : Table} : Lives limit t [] t
  | worker {t t' : Table} {n : Nat} {p : Pipes} {ps : List Pipes} :
      (∀ fd ∈ p.all, t fd = .none ∧ fd < limit) → p.all.Nodup → Lives limit (stop id id (parent t n p) p) ps t' →
      Lives limit t (p :: ps) t'

end Verif.Descriptors
