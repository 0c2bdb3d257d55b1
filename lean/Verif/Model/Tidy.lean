import Verif.Model.Parser
import Verif.Model.VariableLookup
import Verif.Model.JsonToNix
/-
Model of nixf-tidy: libnixf/tools/nixf-tidy.cpp and libnixf/src/Basic/JSONDiagnostic.cpp.

nlohmann::json is a library and not part of the repository. Modelled are the values used here and `operator<<`, that is
`dump` with or without indentation: the members of an object are ordered by their keys (`std::map`), control characters,
quotes and backslashes are escaped, and a string that is not UTF-8 throws `type_error.316`, which nobody catches. What was
printed before the exception is not modelled.
-/
namespace Verif.Tidy
open Verif.Nixf

/-- `nlohmann::json`, the values used. -/
inductive J
  | num (n : Nat)
  | str (s : Bytes)
  | arr (l : List J)
  | obj (fields : List (Bytes × J))

/-- `R[key] = value` for a key that is not there (`std::map`). -/
def J.put (j : J) (k : Bytes) (v : J) : J :=
  match j with
  | .obj fs => .obj (insertKey (k, v) fs)
  | j => j

/-- `json{{key, value}, …}`. -/
def object (fs : List (Bytes × J)) : J := .obj (fs.foldl (fun m p => insertKey p m) [])

/-- `to_json` of `LexerCursor` (JSONDiagnostic.cpp:8-14). -/
def ofCursor (c : Cursor) : J := object [(b!"line", .num c.line), (b!"column", .num c.column), (b!"offset", .num c.offset)]

/-- `to_json` of `LexerCursorRange` (JSONDiagnostic.cpp:16-21). -/
def ofRange (r : CRange) : J := object [(b!"lCur", ofCursor r.l), (b!"rCur", ofCursor r.r)]

/-- The number of a `DiagnosticTag` (Diagnostic.h:74-77). -/
def tagNum : Tag → Nat
  | .faded => 0
  | .striked => 1

/-- `to_json` of `PartialDiagnostic` (JSONDiagnostic.cpp:23-29). -/
def ofPartial (args : List Bytes) (tags : List Tag) (range : CRange) : J :=
  object [(b!"args", .arr (args.map .str)), (b!"tag", .arr (tags.map fun t => .num (tagNum t))), (b!"range", ofRange range)]

/-- The number of a `NoteKind` (NoteKinds.inc). -/
def noteNum : NK → Nat
  | .prevDeclared => 0
  | .duplicateFormal => 1
  | .thisRecursive => 2
  | .recConsider => 3
  | .bCommentBegin => 4
  | .toMachThis => 5

/-- `to_json` of `Note` (JSONDiagnostic.cpp:41-46). -/
def ofNote (n : Note) : J :=
  (((ofPartial n.args n.tags n.range).put b!"kind" (.num (noteNum n.kind))).put b!"sname" (.str n.kind.sname)).put
    b!"message" (.str n.kind.message)

/-- `to_json` of `TextEdit` (JSONDiagnostic.cpp:55-60). -/
def ofEdit (e : TextEdit) : J := object [(b!"range", ofRange e.oldRange), (b!"newText", .str e.newText)]

/-- `to_json` of `Fix` (JSONDiagnostic.cpp:48-53). -/
def ofFix (f : Fix) : J := object [(b!"edits", .arr (f.edits.map ofEdit)), (b!"message", .str f.message)]

/-- The number of a `Severity` (Diagnostic.h:154-168). -/
def severityNum : Severity → Nat
  | .fatal => 0
  | .error => 1
  | .warning => 2
  | .info => 3
  | .hint => 4

/-- `to_json` of `Diagnostic` (JSONDiagnostic.cpp:31-39). The kinds are numbered in the order of diagnostic.py. -/
def ofDiagnostic (d : Diagnostic) : J :=
  ((((((ofPartial d.args d.tags d.range).put b!"kind" (.num (DK.all.idxOf d.kind))).put
    b!"severity" (.num (severityNum d.kind.severity))).put b!"message" (.str d.kind.message)).put
    b!"sname" (.str d.kind.sname)).put b!"notes" (.arr (d.notes.map ofNote))).put b!"fixes" (.arr (d.fixes.map ofFix))

/-- A hexadecimal digit in lower case. -/
def hexDigit (n : UInt8) : UInt8 := if n < 10 then 48 + n else 87 + n

/-- `serializer::dump_escaped` on one byte. -/
def escByte (c : UInt8) : Bytes :=
  if c = 8 then b!"\\b"
  else if c = 9 then b!"\\t"
  else if c = 10 then b!"\\n"
  else if c = 12 then b!"\\f"
  else if c = 13 then b!"\\r"
  else if c = 34 then [92, 34]
  else if c = 92 then [92, 92]
  else if c < 32 then b!"\\u00" ++ [hexDigit (c / 16), hexDigit (c % 16)]
  else [c]

/-- A printed string. -/
def quoted (s : Bytes) : Bytes := 34 :: s.flatMap escByte ++ [34]

/-- The line break and indentation, if pretty printing. -/
def nl (step : Option Nat) (cur : Nat) : Bytes :=
  match step with
  | none => []
  | some _ => 10 :: List.replicate cur 32

/-- The colon of a member. -/
def colon : Option Nat → Bytes
  | none => [58]
  | some _ => [58, 32]

mutual
/-- `serializer::dump` (of text that is UTF-8). -/
def dump (step : Option Nat) (cur : Nat) : J → Bytes
  | .num n => natText n
  | .str s => quoted s
  | .arr [] => b!"[]"
  | .arr (v :: l) =>
    let new := cur + step.getD 0
    91 :: nl step new ++ dump step new v ++ dumpL step new l ++ nl step cur ++ [93]
  | .obj [] => b!"{}"
  | .obj (m :: l) =>
    let new := cur + step.getD 0
    123 :: nl step new ++ dump1 step new m ++ dumpM step new l ++ nl step cur ++ [125]
/-- The elements after the first. -/
def dumpL (step : Option Nat) (cur : Nat) : List J → Bytes
  | [] => []
  | v :: l => 44 :: nl step cur ++ dump step cur v ++ dumpL step cur l
/-- A member. -/
def dump1 (step : Option Nat) (cur : Nat) : Bytes × J → Bytes
  | (k, v) => quoted k ++ colon step ++ dump step cur v
/-- The members after the first. -/
def dumpM (step : Option Nat) (cur : Nat) : List (Bytes × J) → Bytes
  | [] => []
  | m :: l => 44 :: nl step cur ++ dump1 step cur m ++ dumpM step cur l
end

/-- Is it UTF-8? (Lean's check, the same language as the automaton of the library.) -/
def isUTF8 (s : Bytes) : Bool := (ByteArray.mk s.toArray).validateUTF8

mutual
/-- No string of the value throws. -/
def allUTF8 : J → Bool
  | .num _ => true
  | .str s => isUTF8 s
  | .arr l => allUTF8L l
  | .obj l => allUTF8M l
def allUTF8L : List J → Bool
  | [] => true
  | v :: l => allUTF8 v && allUTF8L l
def allUTF81 : Bytes × J → Bool
  | (k, v) => isUTF8 k && allUTF8 v
def allUTF8M : List (Bytes × J) → Bool
  | [] => true
  | m :: l => allUTF81 m && allUTF8M l
end

/-- `operator<<`; `none` if it throws. -/
def print (step : Option Nat) (j : J) : Option Bytes := if allUTF8 j then some (dump step 0 j) else none

/-- The flags (nixf-tidy.cpp:16-20). -/
structure Flags where
  prettyPrint : Bool := false
  vla : Bool := false

/-- `parseArgs` (nixf-tidy.cpp:22-29), the name of the program included. -/
def parseArgs (args : List Bytes) : Flags :=
  args.foldl (fun f a =>
    if a = b!"--pretty-print" then { f with prettyPrint := true }
    else if a = b!"--variable-lookup" then { f with vla := true }
    else f) {}

/-- The diagnostics printed (nixf-tidy.cpp:39-46). -/
noncomputable def diagnostics (P : PrimOps) (f : Flags) (root : Node) (s : PState) : List Diagnostic :=
  s.lex.diags ++ (if f.vla && !root.isNull then (runVL P (sizeOf root) root).diags else [])

/-- `main` (nixf-tidy.cpp:33-55): the standard output; `none` if the process is aborted. -/
noncomputable def tidy (P : PrimOps) (args : List Bytes) (src : Bytes) : Option Bytes :=
  (parse src).bind fun (root, s) =>
    let f := parseArgs args
    (print (if f.prettyPrint then some 4 else none) (.arr ((diagnostics P f root s).map ofDiagnostic))).map (· ++ [10])

end Verif.Tidy
