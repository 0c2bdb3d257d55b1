import Verif.Model.Rpc
import Verif.Model.Server
/-
The configuration of the server: nixd/lib/Controller/Configuration.cpp, nixd/lib/CommandLine/Configuration.cpp,
nixd/include/nixd/Controller/Configuration.h and the end of `Controller::onInitialize` (LifeTime.cpp:175-199).

Of the workers only the expression they were asked to evaluate last is kept; they are taken to be alive. Configurations
are applied in the order they are received (C74 is about this order).
-/
namespace Verif.Config
open Rpc (Json)

/-- `fromJSON` of llvm/Support/JSON.h: it updates a value in place, or fails. -/
abbrev Decoder (α : Type) := Json → α → Option α

/-- `fromJSON` of `std::string`. -/
def decodeString : Decoder Bytes
  | .str s, _ => some s
  | _, _ => none

/-- `fromJSON` of `std::vector<std::string>`: the vector is cleared first. -/
def decodeStrings : Decoder (List Bytes)
  | .arr l, _ => l.mapM (decodeString · [])
  | _, _ => none

/-- `ObjectMapper O(Params, P)` and `O.mapOptional(key, r)`. -/
def mapOptional {α : Type} (key : Bytes) (dec : Decoder α) (j : Json) (r : α) : Option α :=
  match j.get key with
  | some v => dec v r
  | none => some r

/-- Whether `O` is true: the value is an object. -/
def isObject : Json → Bool
  | .obj _ => true
  | _ => false

/-- `Configuration` (Configuration.h:14-37) with its defaults. -/
structure Configuration where
  /-- `formatting.command` -/
  command : List Bytes := [b!"nixfmt"]
  /-- `options`: names and expressions -/
  options : List (Bytes × Bytes) := []
  /-- `nixpkgs.expr` -/
  nixpkgs : Bytes := []
  /-- `diagnostic.suppress` -/
  suppress : List Bytes := []
deriving DecidableEq, Repr

/-- `fromJSON` of `Configuration::Diagnostic` (Configuration.cpp:11-15). -/
def decodeDiagnostic : Decoder (List Bytes) := fun j r =>
  if isObject j then mapOptional b!"suppress" decodeStrings j r else none

/-- `fromJSON` of `Configuration::Formatting` (Configuration.cpp:17-26). -/
def decodeFormatting : Decoder (List Bytes)
  | .str s, _ => some [s]
  | j, r => if isObject j then mapOptional b!"command" decodeStrings j r else none

/-- `fromJSON` of `Configuration::OptionProvider` and `Configuration::NixpkgsProvider` (Configuration.cpp:28-38). -/
def decodeProvider : Decoder Bytes := fun j r =>
  if isObject j then mapOptional b!"expr" decodeString j r else none

/-- `fromJSON` of `std::map<std::string, OptionProvider>`: the map is cleared first. -/
def decodeOptions : Decoder (List (Bytes × Bytes))
  | .obj fs, _ => fs.mapM fun f => (decodeProvider f.2 []).map (f.1, ·)
  | _, _ => none

/-- `fromJSON` of `Configuration` (Configuration.cpp:40-48). -/
def decodeConfiguration : Decoder Configuration := fun j c =>
  if isObject j then do
    let command ← mapOptional b!"formatting" decodeFormatting j c.command
    let options ← mapOptional b!"options" decodeOptions j c.options
    let nixpkgs ← mapOptional b!"nixpkgs" decodeProvider j c.nixpkgs
    let suppress ← mapOptional b!"diagnostic" decodeDiagnostic j c.suppress
    some ⟨command, options, nixpkgs, suppress⟩
  else none

/-- What the configuration acts on. -/
structure Srv where
  /-- `Config` -/
  config : Configuration
  /-- the expression sent to the worker for packages last -/
  nixpkgs : Bytes
  /-- `Options`: the workers for options, with the expressions sent last -/
  options : List (Bytes × Bytes)
  /-- `SuppressedDiagnostics` -/
  suppressed : List Nixf.DK
deriving DecidableEq, Repr

/-- The default expressions (LifeTime.cpp:26-38, 43-56). -/
structure Defaults where
  nixpkgs : Bytes
  nixos : Bytes

/-- The end of `onInitialize` (LifeTime.cpp:175-199): default expressions are evaluated, `Config` is the configuration given
on the command line. -/
def start (d : Defaults) (cli : Configuration) : Srv := ⟨cli, d.nixpkgs, [(b!"nixos", d.nixos)], []⟩

/-- `Options[Name]` is started if need be and evaluates the expression (Configuration.cpp:71-78). -/
def setOption (name expr : Bytes) : List (Bytes × Bytes) → List (Bytes × Bytes)
  | [] => [(name, expr)]
  | (n, e) :: os => if n = name then (n, expr) :: os else (n, e) :: setOption name expr os

/-- `updateConfig` (Configuration.cpp:56-89). -/
def updateConfig (s : Srv) (c : Configuration) : Srv where
  config := c
  nixpkgs := if c.nixpkgs.isEmpty then s.nixpkgs else c.nixpkgs
  options := c.options.foldl (fun os o => setOption o.1 o.2 os) s.options
  suppressed := Verif.Server.updateSuppressed c.suppress

/-- The reply to `workspace/configuration` (Configuration.cpp:92-121); `none` in the argument: an error, also if the client
does not support the request. The result is `none` when the behaviour is undefined. -/
def receive (s : Srv) : Option Json → Option Srv
  | none => some s
  | some (.arr []) => none
  | some (.arr (j :: _)) =>
    match decodeConfiguration j {} with
    | some c => some (updateConfig s c)
    | none => some s
  | some _ => some s

/-- All replies during a run. -/
def receiveAll (s : Srv) : List (Option Json) → Option Srv
  | [] => some s
  | r :: rs => (receive s r).bind (receiveAll · rs)

end Verif.Config
