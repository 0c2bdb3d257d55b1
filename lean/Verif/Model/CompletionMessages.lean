import Verif.Model.Completion
import Verif.Model.DocumentMessages
/-
The completion items in messages: the parts of nixd/lspserver/src/Protocol.cpp for them, and the request
`completionItem/resolve` (nixd/lib/Controller/Completion.cpp).

* JSON values are sent, not their text; `data` of an item is a text, made by `print` and read by `parse`.
* The uninitialised variable `Kind` (Protocol.cpp:1212) has an arbitrary value `junk`.
* Undefined behaviour is an error: an `ObjectMapper` used on a value that is not an object (its pointer is null), the
  end of `fromTextKind`, and a null pointer `nixpkgsClient()`.
* `score` is always 0 and `deprecated` is always false.
-/
namespace Verif.CompletionMessages
open Rpc (Json)
open Config (Decoder decodeString mapOptional isObject)
open Protocol (encodeString encodeInt encodeList decodeInt32 decodeList mapRequired PackageDescription)
open DocumentMessages (decodeRange)
open Nixf.Complete (Item ItemKind Params)

/-- Why there is no value. -/
inductive Fail
  | bad
  | undefined
deriving DecidableEq, Repr

abbrev Run := Except Fail

/-- The result of a decoder that is defined. -/
def lift {α : Type} : Option α → Run α
  | some a => .ok a
  | none => .error .bad

/-- `TextEdit` (Protocol.h). -/
structure Edit where
  start : SourceCode.Position
  stop : SourceCode.Position
  newText : Bytes
  annotation : Bytes := []
deriving DecidableEq, Repr

/-- `MarkupContent` (Protocol.h). -/
structure Markup where
  markdown : Bool
  value : Bytes
deriving DecidableEq, Repr

/-- `CompletionItem` (Protocol.h:1353-1415). -/
structure Wire where
  label : Bytes
  kind : Int := 0
  detail : Bytes := []
  documentation : Option Markup := none
  sortText : Bytes := []
  filterText : Bytes := []
  insertText : Bytes := []
  format : Int := 0
  textEdit : Option Edit := none
  additional : List Edit := []
  data : Bytes := []
deriving DecidableEq, Repr

/-- Objects whose members are set under conditions. -/
def members (l : List (Bytes × Option Json)) : List (Bytes × Json) := l.filterMap fun m => m.2.map (m.1, ·)

/-- A member that is set if the string is not empty. -/
def unlessEmpty (fix : Bytes → Bytes) (s : Bytes) : Option Json := if s = [] then none else some (encodeString fix s)

/-- A member that is set if the enumerator is not `Missing`. -/
def unlessMissing (n : Int) : Option Json := if n = 0 then none else some (encodeInt n)

/-- `toJSON` of `Position` (Protocol.cpp:124-129). -/
def encodePos (p : SourceCode.Position) : Json := .obj [(b!"line", encodeInt p.line), (b!"character", encodeInt p.character)]

/-- `toJSON` of `Range` (Protocol.cpp:140-145). -/
def encodeRng (a b : SourceCode.Position) : Json := .obj [(b!"start", encodePos a), (b!"end", encodePos b)]

/-- `toJSON` of `TextEdit` (Protocol.cpp:198-206). -/
def encodeEdit (fix : Bytes → Bytes) (e : Edit) : Json :=
  .obj (members [(b!"range", some (encodeRng e.start e.stop)), (b!"newText", some (encodeString fix e.newText)),
    (b!"annotationId", unlessEmpty fix e.annotation)])

/-- `fromJSON` of `TextEdit` (Protocol.cpp:191-196). -/
def decodeEdit : Decoder Edit := fun j r =>
  if isObject j then do
    let range ← mapRequired b!"range" decodeRange j (r.start, r.stop)
    let newText ← mapRequired b!"newText" decodeString j r.newText
    let annotation ← mapOptional b!"annotationId" decodeString j r.annotation
    some ⟨range.1, range.2, newText, annotation⟩
  else none

/-- `toJSON` of `MarkupContent` (Protocol.cpp:1106-1114) with `toTextKind` (lines 1068-1076). -/
def encodeMarkup (fix : Bytes → Bytes) (m : Markup) : Json :=
  if m.value = [] then .null
  else .obj [(b!"kind", .str (if m.markdown then b!"markdown" else b!"plaintext")), (b!"value", encodeString fix m.value)]

/-- `fromJSON` of `MarkupContent` (Protocol.cpp:1116-1123) with `fromTextKind` (lines 1078-1084). -/
def decodeMarkup (j : Json) : Run Markup :=
  if isObject j then
    match mapRequired b!"kind" decodeString j [] with
    | some k =>
      if k = b!"plaintext" then (lift (mapOptional b!"value" decodeString j [])).map (⟨false, ·⟩)
      else if k = b!"markdown" then (lift (mapOptional b!"value" decodeString j [])).map (⟨true, ·⟩)
      else .error .undefined
    | none => .error .undefined
  else .error .undefined

/-- `toJSON` of `CompletionItem` (Protocol.cpp:1181-1207). -/
def encodeItem (fix : Bytes → Bytes) (w : Wire) : Json :=
  .obj (members [(b!"label", some (encodeString fix w.label)), (b!"kind", unlessMissing w.kind),
    (b!"detail", unlessEmpty fix w.detail), (b!"documentation", w.documentation.map (encodeMarkup fix)),
    (b!"sortText", unlessEmpty fix w.sortText), (b!"filterText", unlessEmpty fix w.filterText),
    (b!"insertText", unlessEmpty fix w.insertText), (b!"insertTextFormat", unlessMissing w.format),
    (b!"textEdit", w.textEdit.map (encodeEdit fix)),
    (b!"additionalTextEdits", if w.additional = [] then none else some (encodeList (encodeEdit fix) w.additional)),
    (b!"score", some (encodeInt 0)), (b!"data", some (encodeString fix w.data))])

/-- An `Edit` of no length. -/
def noEdit : Edit := ⟨⟨0, 0⟩, ⟨0, 0⟩, [], []⟩

/-- `O.mapOptional("documentation", R.documentation)` (Protocol.cpp:1223). -/
def decodeDocumentation (j : Json) : Run (Option Markup) :=
  match j.get b!"documentation" with
  | none => .ok none
  | some .null => .ok none
  | some v => (decodeMarkup v).map some

/-- `fromJSON` of `CompletionItem` (Protocol.cpp:1209-1231). -/
def decodeItem (junk : Int) (j : Json) : Run Wire :=
  if isObject j then do
    let kind ← lift (mapOptional b!"kind" decodeInt32 j junk)
    let format ← lift (mapOptional b!"insertTextFormat" decodeInt32 j kind)
    let label ← lift (mapRequired b!"label" decodeString j [])
    let detail ← lift (mapOptional b!"detail" decodeString j [])
    let documentation ← decodeDocumentation j
    let sortText ← lift (mapOptional b!"sortText" decodeString j [])
    let filterText ← lift (mapOptional b!"filterText" decodeString j [])
    let insertText ← lift (mapOptional b!"insertText" decodeString j [])
    let textEdit ← lift (mapOptional b!"textEdit" (Protocol.decodeOption decodeEdit noEdit) j none)
    let additional ← lift (mapOptional b!"additionalTextEdits" (decodeList decodeEdit noEdit) j [])
    let data ← lift (mapOptional b!"data" decodeString j [])
    .ok ⟨label, kind, detail, documentation, sortText, filterText, insertText, format, textEdit, additional, data⟩
  else .error .undefined

/-- `enum class CompletionItemKind` (Protocol.h:395-422) for the kinds in use. -/
def kindNumber : ItemKind → Int
  | .keyword => 14
  | .variable_ => 6
  | .field => 5
  | .constructor_ => 4
  | .class_ => 7

/-- `data` of an item (Completion.cpp:171). -/
def dataText (fix : Bytes → Bytes) (print : Json → Bytes) : Option Params → Bytes
  | none => []
  | some p => print (Protocol.encodeParams fix ⟨p.scope, p.pfx⟩)

/-- The items of `Verif.Nixf.Complete` as they are in the server; the documentation is always Markdown
(Completion.cpp:273-276). -/
def toWire (fix : Bytes → Bytes) (print : Json → Bytes) (i : Item) : Wire where
  label := i.label
  kind := kindNumber i.kind
  detail := i.detail
  documentation := i.documentation.map (⟨true, ·⟩)
  sortText := i.sortText
  filterText := i.filterText
  insertText := i.insertText
  format := match i.snippet with
    | none => 0
    | some false => 1
    | some true => 2
  textEdit := i.textEdit.map fun e => ⟨e.1.start, e.1.stop, e.2, []⟩
  data := dataText fix print i.data

/-- `toJSON` of `CompletionList` (Protocol.cpp:1243-1248). -/
def encodeItems (fix : Bytes → Bytes) (print : Json → Bytes) (incomplete : Bool) (l : List Item) : Json :=
  .obj [(b!"isIncomplete", .bool incomplete), (b!"items", encodeList (fun i => encodeItem fix (toWire fix print i)) l)]

/-- `resolvePackage` (Completion.cpp:120-142): the worker says what is known about an attribute path, `none` if it answers
with an error. -/
def resolvePackage (info : List Bytes → Option PackageDescription) (scope : List Bytes) (name : Bytes) (w : Wire) : Wire :=
  let d := (info (scope ++ [name])).getD {}
  { w with
    documentation := some ⟨true, d.description.getD [] ++ b!"\n\n" ++ d.longDescription.getD []⟩
    detail := d.version.getD b!"?" }

/-- `onCompletionItemResolve` (Completion.cpp:527-554). What `fromJSON` has read of the parameters before it fails is used;
a list of names with an error in it counts as empty. -/
def resolve (parse : Bytes → Option Json) (info : Option (List Bytes → Option PackageDescription)) (w : Wire) : Run Wire :=
  if w.data = [] then .ok w
  else do
    let j ← lift (parse w.data)
    match info with
    | none => .error .undefined
    | some info =>
      .ok (resolvePackage info ((mapRequired b!"Scope" (decodeList decodeString []) j []).getD []) w.label w)

/-- The reply to the request `completionItem/resolve` (LSPBinder.h:60-71): a result or an error. -/
def onResolve (fix : Bytes → Bytes) (parse : Bytes → Option Json) (info : Option (List Bytes → Option PackageDescription))
    (junk : Int) (params : Json) : Run Json := do
  let w ← decodeItem junk params
  let w ← resolve parse info w
  .ok (encodeItem fix w)

end Verif.CompletionMessages
