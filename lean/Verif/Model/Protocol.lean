import Verif.Model.Config
import Verif.Model.URI
import Verif.Model.JsonToNix
/-
The messages between the server and the workers: nixd/lib/Protocol/AttrSet.cpp, nixd/include/nixd/Protocol/AttrSet.h, and
the parts of nixd/lspserver/src/Protocol.cpp for locations.

JSON values are sent, not their text. `fix` is `llvm::json::fixUTF8`, which is applied to strings that are not UTF-8 when
they become a JSON value (in builds without assertions).
-/
namespace Verif.Protocol
open Rpc (Json)
open Config (Decoder decodeString mapOptional isObject)

/-- A string becomes a JSON value. -/
def encodeString (fix : Bytes → Bytes) (s : Bytes) : Json := .str (fix s)

/-- `std::int64_t` and `int` become JSON values. -/
def encodeInt (n : Int) : Json := .num (Nixf.intText n) (some n)

/-- `fromJSON` of `std::int64_t`. -/
def decodeInt64 : Decoder Int := fun j _ => j.asInteger

/-- `fromJSON` of `int`: the integer is truncated. -/
def decodeInt32 : Decoder Int := fun j _ => j.asInteger.map Rpc.toInt32

/-- `std::optional<T>` becomes a JSON value. -/
def encodeOption {α : Type} (enc : α → Json) : Option α → Json
  | some a => enc a
  | none => .null

/-- `fromJSON` of `std::optional<T>`, with the default value of `T`. -/
def decodeOption {α : Type} (dec : Decoder α) (d : α) : Decoder (Option α)
  | .null, _ => some none
  | j, _ => (dec j d).map some

/-- `std::vector<T>` becomes a JSON value. -/
def encodeList {α : Type} (enc : α → Json) (l : List α) : Json := .arr (l.map enc)

/-- `fromJSON` of `std::vector<T>`, with the default value of `T`. -/
def decodeList {α : Type} (dec : Decoder α) (d : α) : Decoder (List α)
  | .arr l, _ => l.mapM (dec · d)
  | _, _ => none

/-- `O.map(key, r)` for a type that is not `std::optional`. -/
def mapRequired {α : Type} (key : Bytes) (dec : Decoder α) (j : Json) (r : α) : Option α :=
  match j.get key with
  | some v => dec v r
  | none => none

/-- `O.map(key, r)` for `std::optional`. -/
def mapMaybe {α : Type} (key : Bytes) (dec : Decoder (Option α)) (j : Json) (r : Option α) : Option (Option α) :=
  match j.get key with
  | some v => dec v r
  | none => some none

/-- `Position` (Protocol.h:129-136). -/
structure Position where
  line : Int := 0
  character : Int := 0
deriving DecidableEq, Repr

/-- `toJSON` of `Position` (Protocol.cpp:124-129). -/
def encodePosition (p : Position) : Json := .obj [(b!"line", encodeInt p.line), (b!"character", encodeInt p.character)]

/-- `fromJSON` of `Position` (Protocol.cpp:118-122). -/
def decodePosition : Decoder Position := fun j r =>
  if isObject j then do
    let line ← mapRequired b!"line" decodeInt64 j r.line
    let character ← mapRequired b!"character" decodeInt64 j r.character
    some ⟨line, character⟩
  else none

/-- `Location` (Protocol.h): a file and a range. -/
structure Location where
  file : Bytes := []
  start : Position := {}
  stop : Position := {}
deriving DecidableEq, Repr

/-- `toJSON` of `Range` (Protocol.cpp:140-145). -/
def encodeRange (a b : Position) : Json := .obj [(b!"start", encodePosition a), (b!"end", encodePosition b)]

/-- `fromJSON` of `Range` (Protocol.cpp:135-138). -/
def decodeRange : Decoder (Position × Position) := fun j r =>
  if isObject j then do
    let start ← mapRequired b!"start" decodePosition j r.1
    let stop ← mapRequired b!"end" decodePosition j r.2
    some (start, stop)
  else none

/-- `toJSON` of `URIForFile` (Protocol.cpp:89); the URI is empty when an assertion of its constructor fails. -/
def encodeFile (fix : Bytes → Bytes) (p : Bytes) : Json := encodeString fix ((URI.uriOfFile p).getD [])

/-- `fromJSON` of `URIForFile` (Protocol.cpp:64-87). -/
def decodeFile : Decoder Bytes
  | .str s, _ => URI.fileOfURI s
  | _, _ => none

/-- `toJSON` of `Location` (Protocol.cpp:151-156). -/
def encodeLocation (fix : Bytes → Bytes) (l : Location) : Json :=
  .obj [(b!"uri", encodeFile fix l.file), (b!"range", encodeRange l.start l.stop)]

/-- `fromJSON` of `Location` (Protocol.cpp:158-162). -/
def decodeLocation : Decoder Location := fun j r =>
  if isObject j then do
    let file ← mapRequired b!"uri" decodeFile j r.file
    let range ← mapRequired b!"range" decodeRange j (r.start, r.stop)
    some ⟨file, range.1, range.2⟩
  else none

/-- `std::optional<std::string>`. -/
def encodeText (fix : Bytes → Bytes) : Option Bytes → Json := encodeOption (encodeString fix)

/-- `std::optional<std::string>`. -/
def decodeText : Decoder (Option Bytes) := decodeOption decodeString []

/-- `OptionType` (AttrSet.h). -/
structure OptionType where
  description : Option Bytes := none
  name : Option Bytes := none
deriving DecidableEq, Repr

/-- `toJSON` of `OptionType` (AttrSet.cpp:6-11). -/
def encodeType (fix : Bytes → Bytes) (t : OptionType) : Json :=
  .obj [(b!"Description", encodeText fix t.description), (b!"Name", encodeText fix t.name)]

/-- `fromJSON` of `OptionType` (AttrSet.cpp:13-18). -/
def decodeType : Decoder OptionType := fun j r =>
  if isObject j then do
    let description ← mapOptional b!"Description" decodeText j r.description
    let name ← mapOptional b!"Name" decodeText j r.name
    some ⟨description, name⟩
  else none

/-- `OptionDescription` (AttrSet.h). -/
structure OptionDescription where
  description : Option Bytes := none
  declarations : List Location := []
  definitions : List Location := []
  exampleText : Option Bytes := none
  defaultText : Option Bytes := none
  type : Option OptionType := none
deriving DecidableEq, Repr

/-- `toJSON` of `OptionDescription` (AttrSet.cpp:20-29). -/
def encodeOptionDescription (fix : Bytes → Bytes) (o : OptionDescription) : Json :=
  .obj [(b!"Description", encodeText fix o.description), (b!"Declarations", encodeList (encodeLocation fix) o.declarations),
    (b!"Definitions", encodeList (encodeLocation fix) o.definitions), (b!"Example", encodeText fix o.exampleText),
    (b!"Default", encodeText fix o.defaultText), (b!"Type", encodeOption (encodeType fix) o.type)]

/-- `fromJSON` of `OptionDescription` (AttrSet.cpp:30-40). -/
def decodeOptionDescription : Decoder OptionDescription := fun j r =>
  if isObject j then do
    let description ← mapOptional b!"Description" decodeText j r.description
    let declarations ← mapOptional b!"Declarations" (decodeList decodeLocation {}) j r.declarations
    let definitions ← mapOptional b!"Definitions" (decodeList decodeLocation {}) j r.definitions
    let exampleText ← mapOptional b!"Example" decodeText j r.exampleText
    let defaultText ← mapOptional b!"Default" decodeText j r.defaultText
    let type ← mapOptional b!"Type" (decodeOption decodeType {}) j r.type
    some ⟨description, declarations, definitions, exampleText, defaultText, type⟩
  else none

/-- `OptionField` (AttrSet.h). -/
structure OptionField where
  name : Bytes := []
  description : Option OptionDescription := none
deriving DecidableEq, Repr

/-- `toJSON` of `OptionField` (AttrSet.cpp:42-47). -/
def encodeField (fix : Bytes → Bytes) (f : OptionField) : Json :=
  .obj [(b!"Name", encodeString fix f.name), (b!"Description", encodeOption (encodeOptionDescription fix) f.description)]

/-- `fromJSON` of `OptionField` (AttrSet.cpp:48-54). -/
def decodeField : Decoder OptionField := fun j r =>
  if isObject j then do
    let description ← mapOptional b!"Description" (decodeOption decodeOptionDescription {}) j r.description
    let name ← mapOptional b!"Name" decodeString j r.name
    some ⟨name, description⟩
  else none

/-- `PackageDescription` (AttrSet.h). -/
structure PackageDescription where
  name : Option Bytes := none
  pname : Option Bytes := none
  version : Option Bytes := none
  description : Option Bytes := none
  longDescription : Option Bytes := none
  position : Option Bytes := none
  homepage : Option Bytes := none
deriving DecidableEq, Repr

/-- `toJSON` of `PackageDescription` (AttrSet.cpp:56-66). -/
def encodePackage (fix : Bytes → Bytes) (p : PackageDescription) : Json :=
  .obj [(b!"Name", encodeText fix p.name), (b!"PName", encodeText fix p.pname), (b!"Version", encodeText fix p.version),
    (b!"Description", encodeText fix p.description), (b!"LongDescription", encodeText fix p.longDescription),
    (b!"Position", encodeText fix p.position), (b!"Homepage", encodeText fix p.homepage)]

/-- `fromJSON` of `PackageDescription` (AttrSet.cpp:68-80). -/
def decodePackage : Decoder PackageDescription := fun j r =>
  if isObject j then do
    let name ← mapMaybe b!"Name" decodeText j r.name
    let pname ← mapMaybe b!"PName" decodeText j r.pname
    let version ← mapMaybe b!"Version" decodeText j r.version
    let description ← mapMaybe b!"Description" decodeText j r.description
    let longDescription ← mapMaybe b!"LongDescription" decodeText j r.longDescription
    let position ← mapMaybe b!"Position" decodeText j r.position
    let homepage ← mapMaybe b!"Homepage" decodeText j r.homepage
    some ⟨name, pname, version, description, longDescription, position, homepage⟩
  else none

/-- `ValueMeta` (AttrSet.h). -/
structure ValueMeta where
  type : Int := 0
  location : Option Location := none
deriving DecidableEq, Repr

/-- `toJSON` of `ValueMeta` (AttrSet.cpp:82-87). -/
def encodeMeta (fix : Bytes → Bytes) (m : ValueMeta) : Json :=
  .obj [(b!"Type", encodeInt m.type), (b!"Location", encodeOption (encodeLocation fix) m.location)]

/-- `fromJSON` of `ValueMeta` (AttrSet.cpp:89-96). -/
def decodeMeta : Decoder ValueMeta := fun j r =>
  if isObject j then do
    let type ← mapRequired b!"Type" decodeInt32 j r.type
    let location ← mapOptional b!"Location" (decodeOption decodeLocation {}) j r.location
    some ⟨type, location⟩
  else none

/-- `ValueDescription` (AttrSet.h). -/
structure ValueDescription where
  doc : Bytes := []
  arity : Int := 0
  args : List Bytes := []
deriving DecidableEq, Repr

/-- `toJSON` of `ValueDescription` (AttrSet.cpp:127-133). -/
def encodeValue (fix : Bytes → Bytes) (v : ValueDescription) : Json :=
  .obj [(b!"arity", encodeInt v.arity), (b!"doc", encodeString fix v.doc), (b!"args", encodeList (encodeString fix) v.args)]

/-- `fromJSON` of `ValueDescription` (AttrSet.cpp:134-143). -/
def decodeValue : Decoder ValueDescription := fun j r =>
  if isObject j then do
    let arity ← mapRequired b!"arity" decodeInt64 j r.arity
    let doc ← mapRequired b!"doc" decodeString j r.doc
    let args ← mapRequired b!"args" (decodeList decodeString []) j r.args
    some ⟨doc, arity, args⟩
  else none

/-- `AttrPathInfoResponse` (AttrSet.h). -/
structure InfoResponse where
  valueMeta : ValueMeta := {}
  package : PackageDescription := {}
  value : Option ValueDescription := none
deriving DecidableEq, Repr

/-- `toJSON` of `AttrPathInfoResponse` (AttrSet.cpp:98-104). -/
def encodeInfo (fix : Bytes → Bytes) (i : InfoResponse) : Json :=
  .obj [(b!"Meta", encodeMeta fix i.valueMeta), (b!"PackageDesc", encodePackage fix i.package),
    (b!"ValueDesc", encodeOption (encodeValue fix) i.value)]

/-- `fromJSON` of `AttrPathInfoResponse` (AttrSet.cpp:106-114). -/
def decodeInfo : Decoder InfoResponse := fun j r =>
  if isObject j then do
    let valueMeta ← mapRequired b!"Meta" decodeMeta j r.valueMeta
    let package ← mapOptional b!"PackageDesc" decodePackage j r.package
    let value ← mapOptional b!"ValueDesc" (decodeOption decodeValue {}) j r.value
    some ⟨valueMeta, package, value⟩
  else none

/-- `AttrPathCompleteParams` (AttrSet.h). -/
structure CompleteParams where
  scope : List Bytes := []
  pfx : Bytes := []
deriving DecidableEq, Repr

/-- `toJSON` of `AttrPathCompleteParams` (AttrSet.cpp:116-118). -/
def encodeParams (fix : Bytes → Bytes) (p : CompleteParams) : Json :=
  .obj [(b!"Scope", encodeList (encodeString fix) p.scope), (b!"Prefix", encodeString fix p.pfx)]

/-- `fromJSON` of `AttrPathCompleteParams` (AttrSet.cpp:119-125). -/
def decodeParams : Decoder CompleteParams := fun j r =>
  if isObject j then do
    let scope ← mapRequired b!"Scope" (decodeList decodeString []) j r.scope
    let pfx ← mapRequired b!"Prefix" decodeString j r.pfx
    some ⟨scope, pfx⟩
  else none

end Verif.Protocol
