import Verif.Model.SourceCode
import Verif.Model.Draft
import Verif.Model.Diagnostic
/-
Model of the document part of the server: nixd/lib/Controller/TextDocumentSync.cpp, Support.cpp:14-58,
Diagnostics.cpp, Configuration.cpp:50-89 (the diagnostic part of `updateConfig`).

The parser and the variable analysis are a parameter `analyse` (their diagnostics); the tokens of the
translation unit are not needed here. Locks are not modelled: each notification and each configuration update is
one atomic step. `URIForFile::canonicalize(File, File)` is the file itself. -/
namespace Verif.Server
open Nixf SourceCode Draft

/-- An LSP range (Protocol.h:158-163). -/
structure LRange where
  start : Position
  stop : Position
deriving DecidableEq, Repr

/-- `toLSPPosition` (Convert.cpp:27-30). -/
def toLSPPosition (src : Bytes) (c : Cursor) : Position := offsetToPosition src c.offset
/-- `toLSPRange` (Convert.cpp:40-44). -/
def toLSPRange (src : Bytes) (r : CRange) : LRange := ⟨toLSPPosition src r.l, toLSPPosition src r.r⟩

/-- `getLSPSeverity` (Convert.cpp:11-25). -/
def getLSPSeverity (k : DK) : Nat :=
  match k.severity with
  | .fatal | .error => 1
  | .warning => 2
  | .info => 3
  | .hint => 4

/-- `lspserver::Diagnostic` (Protocol.h:966-1011), the fields nixd fills; `related` lists the
ranges and messages of `relatedInformation` (their URI is always the file itself). Tags are kept as nixf tags. -/
structure LDiag where
  range : LRange
  severity : Nat
  code : Bytes
  message : Fmt
  tags : List Tag
  related : List (LRange × Fmt)
deriving DecidableEq, Repr

/-- Concatenation with possible undefined behaviour in the left part. -/
def Fmt.append : Fmt → Bytes → Fmt
  | .ok s, t => .ok (s ++ t)
  | .ub, _ => .ub

/-- The main LSP diagnostic built for one nixf diagnostic (Diagnostics.cpp:54-90). -/
def mainDiag (src : Bytes) (d : Diagnostic) : LDiag :=
  let message := d.format
  let message :=
    if d.fixes.length = 0 then message
    else if d.fixes.length = 1 then Fmt.append message b!" (fix available)"
    else Fmt.append message (b!" (" ++ natDigits d.fixes.length ++ b!" fixes available)")
  { range := toLSPRange src d.range
    severity := getLSPSeverity d.kind
    code := d.kind.sname
    message := message
    tags := d.tags
    related := d.notes.map fun n => (toLSPRange src n.range, n.format) }

/-- The LSP diagnostic built for a note (Diagnostics.cpp:94-113). -/
def noteDiag (src : Bytes) (d : Diagnostic) (n : Note) : LDiag :=
  { range := toLSPRange src n.range
    severity := 4
    code := n.kind.sname
    message := n.format
    tags := n.tags
    related := [(toLSPRange src d.range, .ok b!"original diagnostic")] }

/-- One iteration of the loop of `updateSuppressed` (Diagnostics.cpp:27-34). -/
def suppressName (acc : List DK) (name : Bytes) : List DK :=
  match parseKind name with
  | some k => if k ∈ acc then acc else acc ++ [k]
  | none => acc

/-- `updateSuppressed` (Diagnostics.cpp:19-35): the new set of suppressed kinds. -/
def updateSuppressed (names : List Bytes) : List DK := names.foldl suppressName []

/-- `isSuppressed` (Diagnostics.cpp:37-40). -/
def isSuppressed (sup : List DK) (k : DK) : Bool := sup.contains k

/-- The list built by `publishDiagnostics` (Diagnostics.cpp:45-114). -/
def buildDiags (sup : List DK) (src : Bytes) : List Diagnostic → List LDiag
  | [] => []
  | d :: ds =>
    if isSuppressed sup d.kind then buildDiags sup src ds
    else mainDiag src d :: d.notes.map (noteDiag src d) ++ buildDiags sup src ds

/-- A `textDocument/publishDiagnostics` notification. -/
structure Publish where
  file : Bytes
  version : Option Int
  diags : List LDiag
deriving DecidableEq, Repr

/-- A translation unit (`NixTU`): its diagnostics and source. -/
structure TU where
  diags : List Diagnostic
  src : Bytes
deriving DecidableEq, Repr

/-- The part of `Controller`'s state modelled here. `order` is the iteration order of the `TUs` map (no
property depends on it); `log` is the list of sent notifications, oldest first. -/
structure State where
  drafts : Store
  tus : Bytes → Option TU
  order : List Bytes
  suppressed : List DK
  log : List Publish

/-- The initial state. -/
def init : State := ⟨fun _ => none, fun _ => none, [], [], []⟩

/-- Incoming events. -/
inductive Event
  /-- textDocument/didOpen -/
  | didOpen (file : Bytes) (version : Option Int) (text : Bytes)
  /-- textDocument/didChange -/
  | didChange (file : Bytes) (version : Option Int) (changes : List Change)
  /-- textDocument/didClose -/
  | didClose (file : Bytes)
  /-- a new configuration: its list `diagnostic.suppress` -/
  | config (suppress : List Bytes)

/-- `publishDiagnostics` (Diagnostics.cpp:42-120). -/
def publishDiagnostics (s : State) (file : Bytes) (version : Option Int) (src : Bytes) (ds : List Diagnostic) :
    State :=
  { s with log := s.log ++ [⟨file, version, buildDiags s.suppressed src ds⟩] }

/-- `Controller::removeDocument` (Support.cpp:14-21). -/
def removeDocument (s : State) (file : Bytes) : State :=
  let s := { s with
    drafts := removeDraft s.drafts file
    tus := fun f => if f = file then none else s.tus f
    order := s.order.filter (· ≠ file) }
  publishDiagnostics s file none [] []

/-- `Controller::actOnDocumentAdd` (Support.cpp:23-58). Both branches (AST or not) publish the diagnostics
and insert a TU with the draft's contents as source; the null check of the draft (an assert after a
dereference, lines 26-28) cannot fail since the caller has just added it: when the draft is absent the model
does nothing, see `actOnDocumentAdd_draft`. -/
def actOnDocumentAdd (analyse : Bytes → List Diagnostic) (s : State) (file : Bytes) (version : Option Int) : State :=
  match getDraft s.drafts file with
  | none => s
  | some d =>
    let ds := analyse d.contents
    let s := publishDiagnostics s file version d.contents ds
    { s with
      tus := fun f => if f = file then some ⟨ds, d.contents⟩ else s.tus f
      order := if file ∈ s.order then s.order else s.order ++ [file] }

/-- The loop over `contentChanges` (TextDocumentSync.cpp:31-40); `none` if a change fails. -/
def applyChanges : Bytes → List Change → Option Bytes
  | code, [] => some code
  | code, c :: cs =>
    match applyChange code c with
    | (.ok (), code') => applyChanges code' cs
    | (.error _, _) => none

/-- One event (TextDocumentSync.cpp:13-49, Configuration.cpp:81-88). -/
def step (analyse : Bytes → List Diagnostic) (s : State) : Event → State
  | .didOpen file version text =>
    let s := { s with drafts := addDraft s.drafts file (encodeVersion version) text }
    actOnDocumentAdd analyse s file version
  | .didChange file version changes =>
    match getDraft s.drafts file with
    | none => s
    | some d =>
      match applyChanges d.contents changes with
      | none => removeDocument s file
      | some code =>
        let s := { s with drafts := addDraft s.drafts file (encodeVersion version) code }
        actOnDocumentAdd analyse s file version
  | .didClose file => removeDocument s file
  | .config names =>
    let s := { s with suppressed := updateSuppressed names }
    s.order.foldl (fun s file => match s.tus file with
      | none => s
      | some tu => publishDiagnostics s file none tu.src tu.diags) s

/-- A history of events. -/
def run (analyse : Bytes → List Diagnostic) (s : State) (es : List Event) : State :=
  es.foldl (step analyse) s

end Verif.Server
