import Verif.Spec.Completion
import Verif.Spec.Rename
import Verif.Model.Definition
/-
What a definition, a hover text and an inlay hint are to be.
-/
namespace Verif.Nixf.Inspect
open Scoping Server

/-- The number written with these digits. -/
def value (ds : Bytes) : Nat := ds.foldl (fun n c => n * 10 + (c.toNat - 48)) 0

/-- The place at the beginning of a line, counted as the Language Server Protocol does. -/
def lineStart (f : Bytes) (z : Int) : Loc := ⟨f, ⟨⟨z, 0⟩, ⟨z, 0⟩⟩⟩

/-- The text of a position of nixpkgs: `file` or `file:line`. A number may be after white space and a sign, and anything may
follow it. The number is taken for the one of the protocol as it is. -/
inductive PositionOf : Bytes → Loc → Prop
  | file (f) : (58 : UInt8) ∉ f → PositionOf f (lineStart f 0)
  | line (f sp sign ds rest) (z : Int) : (58 : UInt8) ∉ f → (∀ c ∈ sp, isSpace c = true) → ds ≠ [] → (∀ c ∈ ds, isDigit c = true) →
      (∀ c, rest.head? = some c → isDigit c = false) →
      ((sign = [] ∧ z = value ds) ∨ (sign = [43] ∧ z = value ds) ∨ (sign = [45] ∧ z = -(value ds : Int))) →
      -2147483648 ≤ z → z ≤ 2147483647 → PositionOf (f ++ 58 :: (sp ++ sign ++ ds ++ rest)) (lineStart f z)

/-- Where nixpkgs has the attribute at this path: where its package is said to be, otherwise where its value is. -/
inductive Located (worker : List Bytes → Option Info) (path : List Bytes) : List Loc → Prop
  | unknown : worker path = none → Located worker path []
  | package (i p l) : worker path = some i → i.package.position = some p → PositionOf p l → Located worker path [l]
  | value (i) : worker path = some i → i.package.position = none → Located worker path i.location.toList

/-- The package at this path has a position that cannot be read. -/
def Unreadable (worker : List Bytes → Option Info) (path : List Bytes) : Prop :=
  ∃ i p, worker path = some i ∧ i.package.position = some p ∧ ∀ l, ¬ PositionOf p l

/-- The locations in nixpkgs of a variable. -/
inductive InNixpkgs (P : PrimOps) (root : Node) (Δ : List Frame) (v : Node) (worker : List Bytes → Option Info) : List Loc → Prop
  | located (l L) : Denotes P root Δ v l → Located worker l L → InNixpkgs P root Δ v worker L
  | unreadable (l) : Denotes P root Δ v l → Unreadable worker l → InNixpkgs P root Δ v worker []
  | other : (∀ l, ¬ Denotes P root Δ v l) → InNixpkgs P root Δ v worker []

/-- A section of a text, if there is something to say. -/
def section_ (before after : Bytes) : Option Bytes → Bytes
  | some t => before ++ t ++ after
  | none => []

/-- The text for a package: its name, homepage and description. -/
def packageSections (p : Package) : Bytes :=
  section_ b!"`" b!"`\n" p.name ++ section_ b!"[homepage](" b!")\n" p.homepage ++
    if p.description = none then []
    else section_ b!"## Description\n\n" b!"\n\n" p.description ++ section_ b!"\n\n" b!"\n\n" p.longDescription

/-- The text for a function: its documentation, the number and the names of its arguments. -/
def valueSections (v : ValueDesc) : Bytes :=
  section_ [] b!"\n\n" (if v.doc = [] then none else some v.doc) ++
    section_ b!"**Arity:** " b!"\n" (if v.arity = 0 then none else some (decimal v.arity)) ++
    section_ b!"**Args:** " b!"\n" (if v.args = [] then none else some (b!", ".intercalate (v.args.map fun a => b!"`" ++ a ++ b!"`")))

/-- The text for an attribute of nixpkgs. -/
inductive TextOf (i : Info) : Bytes → Prop
  | package : i.value = none → TextOf i (packageSections i.package)
  | value (v) : i.value = some v → packageSections i.package = [] → TextOf i (valueSections v)
  | both (v) : i.value = some v → packageSections i.package ≠ [] → TextOf i (packageSections i.package ++ b!"\n" ++ valueSections v)

/-- What is shown for an attribute of nixpkgs: its text, if it is not empty. -/
inductive ShownFor (worker : List Bytes → Option Info) (path : List Bytes) : Option Bytes → Prop
  | unknown : worker path = none → ShownFor worker path none
  | empty (i) : worker path = some i → TextOf i [] → ShownFor worker path none
  | text (i t) : worker path = some i → TextOf i t → t ≠ [] → ShownFor worker path (some t)

/-- What is said of an option: the name and the description of its type, then its description. -/
def aboutOption (d : OptInfo) : Bytes :=
  (match d.type with
    | none => b!"? (missing type)"
    | some (description, name) => name.getD [] ++ b!" (" ++ description.getD [] ++ b!")") ++ section_ b!"\n\n" [] d.description

/-- What the option workers that are there answer for a path, in order; those that report an error are left out. -/
def answers (options : List (Bytes × Option (List Bytes → Option OptInfo))) (path : List Bytes) : List OptInfo :=
  options.filterMap fun o => o.2.bind fun w => w path

/-- The path of an option: one leading `config` is left out. -/
def optionPath : List Bytes → List Bytes
  | x :: xs => if x = b!"config" then xs else x :: xs
  | [] => []

/-- The nodes of a tree up to this depth, in the order of the document. -/
def nodesTo : Nat → Node → List Node
  | 0, _ => []
  | k + 1, n => n :: n.children.flatMap (nodesTo k)

/-- All nodes of a tree. -/
noncomputable def nodes (n : Node) : List Node := nodesTo (sizeOf n) n

/-- The `with` has the value `pkgs`. -/
def IsPkgs : Node → Prop
  | .exprWith _ _ _ w _ => isVar w = true ∧ varName w = b!"pkgs"
  | _ => False

end Verif.Nixf.Inspect
