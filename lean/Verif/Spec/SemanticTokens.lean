import Verif.Spec.Scope
import Verif.Spec.Text
import Verif.Spec.Formals
/-
What a client makes of the numbers it gets for `textDocument/semanticTokens`, and what kind of token a variable is.
-/
namespace Verif.Nixf.SemanticTokens

/-- A token as the client sees it: line, start, length, type, modifiers. -/
abbrev AbsToken := Nat × Nat × Nat × Nat × Nat

/-- The decoding of the protocol: five numbers per token, the line relative to the line of the previous token, and the
start relative to the start of the previous token if both are on the same line. -/
def decode (line start : Nat) : List Nat → List AbsToken
  | dl :: ds :: len :: type :: mods :: rest =>
    let line' := line + dl
    let start' := if dl = 0 then start + ds else ds
    (line', start', len, type, mods) :: decode line' start' rest
  | _ => []

/-- What can be said of a variable. -/
inductive VarClass
  | bool | null | bound | global | fromWith | unknown
deriving DecidableEq, Repr

open Scoping in
/-- The variable named `x`, below the binders `Δ`, is of this class. -/
def IsClass (P : PrimOps) (Δ : List Frame) (x : Bytes) : VarClass → Prop
  | .bool => x = b!"true" ∨ x = b!"false"
  | .null => x = b!"null"
  | .bound => x ≠ b!"true" ∧ x ≠ b!"false" ∧ x ≠ b!"null" ∧ ¬ Free Δ x
  | .global => x ≠ b!"true" ∧ x ≠ b!"false" ∧ x ≠ b!"null" ∧ Free Δ x ∧ Global P x
  | .fromWith => x ≠ b!"true" ∧ x ≠ b!"false" ∧ x ≠ b!"null" ∧ Free Δ x ∧ ¬ Global P x ∧ withsOf Δ ≠ []
  | .unknown => x ≠ b!"true" ∧ x ≠ b!"false" ∧ x ≠ b!"null" ∧ Free Δ x ∧ ¬ Global P x ∧ withsOf Δ = []

/-- Index into the legend sent at initialisation (LifeTime.cpp:132-147), and bits of the modifiers (LifeTime.cpp:148-153):
`macro static`, `regexp`, `variable`, `keyword static`, `interface async`, `variable abstract`. -/
def VarClass.token : VarClass → Nat × Nat
  | .bool => (9, 1)
  | .null => (8, 0)
  | .bound => (5, 0)
  | .global => (4, 1)
  | .fromWith => (6, 4)
  | .unknown => (5, 2)

open Scoping

/-- The values of a set that are looked at: those of `name = value`, not those of `inherit`. -/
def shownAttrs (rec : Bool) (st dy : List Node) : List (Bool × Node) :=
  (st.filter fun a => attrKind a == .plain && !(attrValue a).isNull).map (fun a => (rec, attrValue a)) ++
    (dy.filter fun a => !(attrValue a).isNull).map fun a => (rec, attrValue a)

/-- The parts of a node that get tokens, a subset of `Scoping.parts`: no interpolations in strings, no attribute paths, no
`inherit`, no defaults of formals. -/
def shownParts (n : Node) : List (Bool × Node) :=
  match n with
  | .exprVar .. | .exprString .. => []
  | .exprLambda _ _ e => inScope e
  | .exprSelect _ e _ _ d _ => ([e, d].filter Node.isNode).map fun c => (false, c)
  | .exprAttrs _ _ r st dy => shownAttrs (!r.isNull) st dy
  | .exprLet _ _ _ e (.exprAttrs _ _ _ st dy) => shownAttrs true st dy ++ inScope e
  | .exprLet _ _ _ e _ => inScope e
  | .exprLegacyLet _ _ a => if a.isNull then [] else [(false, a)]
  | .exprWith _ _ _ w e => (if w.isNull then [] else [(false, w)]) ++ inScope e
  | n => n.children.map fun c => (false, c)

/-- `Shown n Δ m`: the node `m` is reached from `n` through these parts, below the binders `Δ`. -/
inductive Shown : Node → List Frame → Node → Prop
  | here (n) : Shown n [] n
  | outer (n c Δ m) : (false, c) ∈ shownParts n → Shown c Δ m → Shown n Δ m
  | inner (n c Δ m) : (true, c) ∈ shownParts n → Shown c Δ m → Shown n (Δ ++ [frameOf n]) m

/-- The static attributes of a set or of a `let`. -/
def staticOf : Node → List Node
  | .exprAttrs _ _ _ st _ => st
  | .exprLet _ _ _ _ (.exprAttrs _ _ _ st _) => st
  | _ => []

/-- The node `n` of the tree gets a token with this type (index into the legend) and these modifiers. -/
inductive Marks (P : PrimOps) (root : Node) : Node → Nat → Nat → Prop
  /-- strings without interpolation: `string` -/
  | string (Δ h hp t) : Shown root Δ (.exprString h (.parts hp [.text t])) → Marks P root (.exprString h (.parts hp [.text t])) 1 0
  /-- variables -/
  | var (Δ v c) : Shown root Δ v → isVar v = true → IsClass P Δ (varName v) c → Marks P root v c.token.1 c.token.2
  /-- names that are selected: `type` -/
  | select (Δ h e o hp ns ds d b hn i) : Shown root Δ (.exprSelect h e o (.attrPath hp ns ds) d b) → .attrNameID hn i ∈ ns →
      Marks P root (.attrNameID hn i) 3 0
  /-- names of attributes: `method` -/
  | attr (Δ m x k v) : Shown root Δ m → .attr x k v .plain ∈ staticOf m → v.isNull = false → Marks P root k 10 0
  /-- arguments of lambdas: `regexp` -/
  | arg (Δ h ha i f e) : Shown root Δ (.exprLambda h (.lambdaArg ha i f) e) → i.isNull = false → Marks P root i 11 0
  /-- formals, the first one of each name: `regexp` -/
  | formal (Δ h ha i f e x m) : Shown root Δ (.exprLambda h (.lambdaArg ha i f) e) → FirstOf (formalMembers f) x m →
      Marks P root (formalID m) 12 0

end Verif.Nixf.SemanticTokens
