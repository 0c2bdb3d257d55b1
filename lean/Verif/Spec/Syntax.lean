import Verif.Model.Parser
import Verif.Spec.Strings
/-
Abstract syntax of Nix expressions, and the grammar: which text is an expression, and which one. The grammar is given on the
rest of the source, before and after a phrase, so that it does not depend on where the phrase stands. Tokens are those of the
lexer (see C13 and C15 for what they are), strings are read by the rules of Spec/Strings.lean.

This is the language of nixd. Where it differs from that of Nix, the rule says so.
-/
namespace Verif.Nixf.Syntax
open Strings

/-- Abstract syntax. -/
inductive Syn
  /-- something is missing -/
  | hole
  /-- a character of a string or path -/
  | ch (c : UInt8)
  | interp (e : Syn)
  | var (x : Bytes)
  | int (n : Int)
  | float (t : Bytes)
  | spath (t : Bytes)
  | str (ps : List Syn)
  | path (ps : List Syn)
  | paren (e : Syn)
  | list (es : List Syn)
  | set (recursive : Bool) (bs : List Syn)
  | select (e : Syn) (names : List Syn)
  | selectOr (e : Syn) (names : List Syn) (d : Syn)
  | call (f : Syn) (as : List Syn)
  | un (k : TK) (e : Syn)
  | bin (k : TK) (l r : Syn)
  | has (e : Syn) (names : List Syn)
  | lambda (arg body : Syn)
  | ite (c t e : Syn)
  | assert (c e : Syn)
  | let_ (bs : List Syn) (e : Syn)
  | legacyLet (bs : List Syn)
  | with_ (w e : Syn)
  /-- attribute names -/
  | name (x : Bytes)
  | strName (ps : List Syn)
  | interpName (e : Syn)
  /-- bindings -/
  | binding (names : List Syn) (e : Syn)
  | inherit (names : List Syn)
  | inheritFrom (e : Syn) (names : List Syn)
  /-- formal parameters, with or without a comma in front of them -/
  | formal (comma : Bool) (x : Bytes)
  | formalOr (comma : Bool) (x : Bytes) (d : Syn)
  | ellipsis (comma : Bool)
  | comma
  /-- arguments of functions -/
  | argName (x : Bytes)
  | argSet (fs : List Syn)
  | argBoth (x : Bytes) (fs : List Syn)
deriving Inhabited

/-! ### The syntax of a tree -/

def isPart : Node → Bool
  | .null => false
  | _ => true

mutual
/-- The abstract syntax of a node. -/
def syn : Node → Syn
  | .interpolation _ e => .interp (syn e)
  | .exprVar _ (.identifier _ x) => .var x
  | .exprInt _ n => .int n
  | .exprFloat _ t => .float t
  | .exprSPath _ t => .spath t
  | .exprString _ (.parts _ fs) => .str (synParts fs)
  | .exprPath _ (.parts _ fs) => .path (synParts fs)
  | .exprParen _ e _ _ => .paren (syn e)
  | .exprList _ es => .list (synL es)
  | .exprAttrs _ (.binds _ bs) r _ _ => .set (isPart r) (synL bs)
  | .exprAttrs _ .null r _ _ => .set (isPart r) []
  | .exprSelect _ e _ (.attrPath _ ns _) .null _ => .select (syn e) (synL ns)
  | .exprSelect _ e _ (.attrPath _ ns _) d _ => .selectOr (syn e) (synL ns) (syn d)
  | .exprCall _ f as => .call (syn f) (synL as)
  | .exprUnaryOp _ (.op _ k) e => .un k (syn e)
  | .exprBinOp _ (.op _ k) l r => .bin k (syn l) (syn r)
  | .exprOpHasAttr _ _ e (.attrPath _ ns _) => .has (syn e) (synL ns)
  | .exprOpHasAttr _ _ e .null => .has (syn e) []
  | .exprLambda _ a b => .lambda (syn a) (syn b)
  | .exprIf _ c t e => .ite (syn c) (syn t) (syn e)
  | .exprAssert _ c e => .assert (syn c) (syn e)
  | .exprLet _ _ _ e (.exprAttrs _ (.binds _ bs) _ _ _) => .let_ (synL bs) (syn e)
  | .exprLet _ _ _ e .null => .let_ [] (syn e)
  | .exprLegacyLet _ _ (.exprAttrs _ (.binds _ bs) _ _ _) => .legacyLet (synL bs)
  | .exprLegacyLet _ _ (.exprAttrs _ .null _ _ _) => .legacyLet []
  | .exprWith _ _ _ w e => .with_ (syn w) (syn e)
  | .attrNameID _ (.identifier _ x) => .name x
  | .attrNameString _ (.exprString _ (.parts _ fs)) => .strName (synParts fs)
  | .attrNameInterp _ (.interpolation _ e) => .interpName (syn e)
  | .binding _ (.attrPath _ ns _) _ e => .binding (synL ns) (syn e)
  | .inherit _ ns .null => .inherit (synL ns)
  | .inherit _ ns e => .inheritFrom (syn e) (synL ns)
  | .formal _ c (.identifier _ x) .null _ => .formal (isPart c) x
  | .formal _ c (.identifier _ x) d _ => .formalOr (isPart c) x (syn d)
  | .formal _ _ .null _ .null => .comma
  | .formal _ c .null _ _ => .ellipsis (isPart c)
  | .lambdaArg _ (.identifier _ x) .null => .argName x
  | .lambdaArg _ (.identifier _ x) (.formals _ fs) => .argBoth x (synL fs)
  | .lambdaArg _ .null (.formals _ fs) => .argSet (synL fs)
  | _ => .hole
/-- The abstract syntax of a list of nodes. -/
def synL : List Node → List Syn
  | [] => []
  | n :: ns => syn n :: synL ns
/-- The pieces of a string, however the text is divided into fragments. -/
def synParts : List Node → List Syn
  | [] => []
  | .text t :: fs => t.map .ch ++ synParts fs
  | n :: fs => syn n :: synParts fs
end

/-! ### Tokens -/

/-- The rest `r` of the source begins, after white space and comments, with a token of kind `k` and text `v`; `r'` is what
comes after it. -/
def Tok (r : Bytes) (k : TK) (v r' : Bytes) : Prop :=
  ∃ t s, lex (.init r) = (t, s) ∧ t.kind = k ∧ t.view = v ∧ s.rem = r' ∧ s.diags = []

/-- The same inside of a path. -/
def TokP (r : Bytes) (k : TK) (v r' : Bytes) : Prop :=
  ∃ t s, lexPath (.init r) = (t, s) ∧ t.kind = k ∧ t.view = v ∧ s.rem = r'

/-- What is left after white space and comments. -/
def skip (r : Bytes) : Bytes := (consumeTrivia (.init r)).rem

/-! ### Operators -/

/-- Left and right binding powers of binary operators. Of two operators that compete for an operand, the one with the larger
power on the side of the operand gets it. Those of `/` and of pipes are not those of Nix, see C16. -/
def powers : TK → Option (Nat × Nat)
  | .op_pipe_from => some (1, 2)
  | .op_pipe_into => some (2, 1)
  | .op_impl => some (4, 3)
  | .op_or => some (5, 6)
  | .op_and => some (7, 8)
  | .op_eq | .op_neq => some (9, 9)
  | .op_lt | .op_le | .op_ge | .op_gt => some (10, 10)
  | .op_update => some (12, 11)
  | .op_add | .op_negate => some (14, 15)
  | .op_mul => some (16, 17)
  | .op_div | .op_concat => some (19, 18)
  | _ => none

/-- Binding powers of unary operators. -/
def unPower : TK → Option Nat
  | .op_not => some 11
  | .op_negate => some 100
  | _ => none

/-- The right binding powers of the operators whose right operand ends the expression. -/
def rightPowers : Syn → List Nat
  | .bin k _ r => (powers k).elim 0 (·.2) :: rightPowers r
  | .un k e => (unPower k).elim 0 id :: rightPowers e
  | _ => []

/-- Nix allows everything to be called; nixd does not allow literals, sets and paths. -/
def callable : Syn → Bool
  | .int _ | .float _ | .str _ | .path _ | .set .. => false
  | _ => true

/-- The formal has a comma in front of it. -/
def hasComma : Syn → Bool
  | .formal c _ | .formalOr c _ _ | .ellipsis c => c
  | _ => true

/-- Nothing may come after it. -/
def isLast : Syn → Bool
  | .comma | .ellipsis _ => true
  | _ => false

/-- A list of formals: each one but the first after a comma, and an ellipsis at the end only. A trailing comma is allowed. nixd
also allows a comma in front of the first one if the set has a name in front of it. -/
def FormalsOk (fs : List Syn) : Prop := (∀ f ∈ fs.tail, hasComma f = true) ∧ ∀ f ∈ fs.dropLast, isLast f = false

/-! ### The grammar -/

/-- What a phrase is read as. -/
inductive NT
  | expr
  /-- an operand of an operator of right binding power `p` -/
  | op (p : Nat)
  | atom
  /-- operators and operands that follow a left operand -/
  | tail (p : Nat) (l : Syn)
  | app
  | args
  | select
  | simple
  | elems
  | name
  | names
  | path
  | dots
  | binds
  | arg
  | formals
  | members
  | member
  | afterComma (comma : Bool)
  /-- the inside of strings and paths -/
  | body (R : Rules)
  | pbody

/-- `G nt r l r'`: from the rest `r` of the source, a phrase of the kind `nt` can be read as `l`; what is left is `r'`. -/
inductive G : NT → Bytes → List Syn → Bytes → Prop
  -- expressions
  | op {r t r'} : G (.op 0) r [t] r' → G .expr r [t] r'
  | lambda {r a r1 v r2 b r'} : G .arg r [a] r1 → Tok r1 .colon v r2 → G .expr r2 [b] r' → G .expr r [.lambda a b] r'
  | ite {r v1 r1 c r2 v2 r3 t r4 v3 r5 e r'} : Tok r .kw_if v1 r1 → G .expr r1 [c] r2 → Tok r2 .kw_then v2 r3 →
      G .expr r3 [t] r4 → Tok r4 .kw_else v3 r5 → G .expr r5 [e] r' → G .expr r [.ite c t e] r'
  | assert {r v1 r1 c r2 v2 r3 e r'} : Tok r .kw_assert v1 r1 → G .expr r1 [c] r2 → Tok r2 .semi_colon v2 r3 →
      G .expr r3 [e] r' → G .expr r [.assert c e] r'
  | with_ {r v1 r1 w r2 v2 r3 e r'} : Tok r .kw_with v1 r1 → G .expr r1 [w] r2 → Tok r2 .semi_colon v2 r3 →
      G .expr r3 [e] r' → G .expr r [.with_ w e] r'
  | let_ {r v1 r1 bs r2 v2 r3 e r'} : Tok r .kw_let v1 r1 → G .binds r1 bs r2 → Tok r2 .kw_in v2 r3 →
      G .expr r3 [e] r' → G .expr r [.let_ bs e] r'
  | legacyLet {r v1 r1 v2 r2 bs r3 v3 r'} : Tok r .kw_let v1 r1 → Tok r1 .l_curly v2 r2 → G .binds r2 bs r3 →
      Tok r3 .r_curly v3 r' → G .expr r [.legacyLet bs] r'
  -- operators
  | opr {p r a r1 t r'} : G .atom r [a] r1 → G (.tail p a) r1 [t] r' → G (.op p) r [t] r'
  | app {r e r'} : G .app r [e] r' → G .atom r [e] r'
  | un {k p r v r1 e r'} : Tok r k v r1 → unPower k = some p → G (.op p) r1 [e] r' → G .atom r [.un k e] r'
  | stop {p l r} : G (.tail p l) r [l] r
  | bin {p l k pl pr r v r1 e r2 t r'} : Tok r k v r1 → powers k = some (pl, pr) → p < pl → (∀ q ∈ rightPowers l, pl < q) →
      G (.op pr) r1 [e] r2 → G (.tail p (.bin k l e)) r2 [t] r' → G (.tail p l) r [t] r'
  | has {p l r v r1 ns r2 t r'} : Tok r .question v r1 → rightPowers l = [] → G .path r1 ns r2 →
      G (.tail p (.has l ns)) r2 [t] r' → G (.tail p l) r [t] r'
  /-- nixd does not report a missing path -/
  | hasNone {p l r v r1 t r'} : Tok r .question v r1 → rightPowers l = [] →
      (∀ k v r2, Tok r1 k v r2 → k ≠ .id_ ∧ k ≠ .kw_or ∧ k ≠ .dquote ∧ k ≠ .dollar_curly) →
      G (.tail p (.has l [])) r1 [t] r' → G (.tail p l) r [t] r'
  -- function calls
  | one {r e r'} : G .select r [e] r' → G .app r [e] r'
  | call {r f r1 as r'} : G .select r [f] r1 → callable f = true → G .args r1 as r' → G .app r [.call f as] r'
  | lastArg {r e r'} : G .select r [e] r' → G .args r [e] r'
  | moreArgs {r e r1 es r'} : G .select r [e] r1 → G .args r1 es r' → G .args r (e :: es) r'
  -- selections
  | simple {r e r'} : G .simple r [e] r' → G .select r [e] r'
  | select {r e r1 v r2 ns r'} : G .simple r [e] r1 → Tok r1 .dot v r2 → G .path r2 ns r' → G .select r [.select e ns] r'
  | selectOr {r e r1 v r2 ns r3 v' r4 d r'} : G .simple r [e] r1 → Tok r1 .dot v r2 → G .path r2 ns r3 →
      Tok r3 .kw_or v' r4 → G .select r4 [d] r' → G .select r [.selectOr e ns d] r'
  -- simple expressions
  | var {r v r'} : Tok r .id_ v r' → G .simple r [.var v] r'
  | int {r v r' n} : Tok r .int v r' → decodeInt v = some n → G .simple r [.int n] r'
  | float {r v r'} : Tok r .float v r' → G .simple r [.float v] r'
  | spath {r v r'} : Tok r .spath v r' → G .simple r [.spath ((v.drop 1).take (v.length - 2))] r'
  | uri {r v r'} : Tok r .uri v r' → G .simple r [.str (v.map .ch)] r'
  | str {r v r1 ps r'} : Tok r .dquote v r1 → G (.body dqCode) r1 ps (34 :: r') → G .simple r [.str ps] r'
  | ind {r v r1 ps r'} : Tok r .quote2 v r1 → G (.body indCode) r1 ps (39 :: 39 :: r') → G .simple r [.str ps] r'
  | pathLit {r v r1 ps r'} : Tok r .path_fragment v r1 → G .pbody (skip r) ps r' → G .simple r [.path ps] r'
  | paren {r v1 r1 e r2 v2 r'} : Tok r .l_paren v1 r1 → G .expr r1 [e] r2 → Tok r2 .r_paren v2 r' → G .simple r [.paren e] r'
  | list {r v1 r1 es r2 v2 r'} : Tok r .l_bracket v1 r1 → G .elems r1 es r2 → Tok r2 .r_bracket v2 r' → G .simple r [.list es] r'
  | set {r v1 r1 bs r2 v2 r'} : Tok r .l_curly v1 r1 → G .binds r1 bs r2 → Tok r2 .r_curly v2 r' →
      G .simple r [.set false bs] r'
  | recSet {r v0 r0 v1 r1 bs r2 v2 r'} : Tok r .kw_rec v0 r0 → Tok r0 .l_curly v1 r1 → G .binds r1 bs r2 →
      Tok r2 .r_curly v2 r' → G .simple r [.set true bs] r'
  | noElem {r} : G .elems r [] r
  | elem {r e r1 es r'} : G .select r [e] r1 → G .elems r1 es r' → G .elems r (e :: es) r'
  -- attribute names and paths
  | name {r v r'} : Tok r .id_ v r' → G .name r [.name v] r'
  | orName {r v r'} : Tok r .kw_or v r' → G .name r [.name v] r'
  | strName {r v r1 ps r'} : Tok r .dquote v r1 → G (.body dqCode) r1 ps (34 :: r') → G .name r [.strName ps] r'
  | interpName {r v1 r1 e r2 v2 r'} : Tok r .dollar_curly v1 r1 → G .expr r1 [e] r2 → Tok r2 .r_curly v2 r' →
      G .name r [.interpName e] r'
  | path {r n r1 ns r'} : G .name r [n] r1 → G .dots r1 ns r' → G .path r (n :: ns) r'
  | noDot {r} : G .dots r [] r
  | dot {r v r1 n r2 ns r'} : Tok r .dot v r1 → G .name r1 [n] r2 → G .dots r2 ns r' → G .dots r (n :: ns) r'
  | noName {r} : G .names r [] r
  | names {r n r1 ns r'} : G .name r [n] r1 → G .names r1 ns r' → G .names r (n :: ns) r'
  -- bindings
  | noBind {r} : G .binds r [] r
  | binding {r ns r1 v1 r2 e r3 v2 r4 bs r'} : G .path r ns r1 → Tok r1 .eq v1 r2 → G .expr r2 [e] r3 →
      Tok r3 .semi_colon v2 r4 → G .binds r4 bs r' → G .binds r (.binding ns e :: bs) r'
  | inherit {r v1 r1 ns r2 v2 r3 bs r'} : Tok r .kw_inherit v1 r1 → G .names r1 ns r2 → Tok r2 .semi_colon v2 r3 →
      G .binds r3 bs r' → G .binds r (.inherit ns :: bs) r'
  | inheritFrom {r v1 r1 v2 r2 e r3 v3 r4 ns r5 v4 r6 bs r'} : Tok r .kw_inherit v1 r1 → Tok r1 .l_paren v2 r2 →
      G .expr r2 [e] r3 → Tok r3 .r_paren v3 r4 → G .names r4 ns r5 → Tok r5 .semi_colon v4 r6 → G .binds r6 bs r' →
      G .binds r (.inheritFrom e ns :: bs) r'
  -- functions
  | argName {r v r'} : Tok r .id_ v r' → G .arg r [.argName v] r'
  | argAt {r v r1 v1 r2 fs r'} : Tok r .id_ v r1 → Tok r1 .at_ v1 r2 → G .formals r2 fs r' → G .arg r [.argBoth v fs] r'
  | argSet {r fs r'} : G .formals r fs r' → (∀ f ∈ fs.head?, hasComma f = false) → G .arg r [.argSet fs] r'
  | atArg {r fs r1 v1 r2 v r'} : G .formals r fs r1 → (∀ f ∈ fs.head?, hasComma f = false) → Tok r1 .at_ v1 r2 → Tok r2 .id_ v r' → G .arg r [.argBoth v fs] r'
  | formals {r v1 r1 fs r2 v2 r'} : Tok r .l_curly v1 r1 → G .members r1 fs r2 → Tok r2 .r_curly v2 r' → FormalsOk fs →
      G .formals r fs r'
  | noMember {r} : G .members r [] r
  | members {r f r1 fs r'} : G .member r [f] r1 → G .members r1 fs r' → G .members r (f :: fs) r'
  | plain {r f r'} : G (.afterComma false) r [f] r' → f ≠ .comma → G .member r [f] r'
  | comma {r v r1 f r'} : Tok r .comma v r1 → G (.afterComma true) r1 [f] r' → G .member r [f] r'
  | formal {c r v r'} : Tok r .id_ v r' → G (.afterComma c) r [.formal c v] r'
  | formalOr {c r v r1 v1 r2 e r'} : Tok r .id_ v r1 → Tok r1 .question v1 r2 → G .expr r2 [e] r' →
      G (.afterComma c) r [.formalOr c v e] r'
  | ellipsis {c r v r'} : Tok r .ellipsis v r' → G (.afterComma c) r [.ellipsis c] r'
  | lone {c r} : G (.afterComma c) r [.comma] r
  -- strings: up to the closing quote
  | close {R r} : R.quote <+: r → R.esc r = none → G (.body R) r [] r
  | esc {R r n t l r'} : R.esc r = some (n, t) → n ≤ r.length → G (.body R) (r.drop n) l r' → G (.body R) r (t.map .ch ++ l) r'
  | char {R c r l r'} : c ≠ 36 → ¬ R.quote <+: c :: r → R.esc (c :: r) = none → G (.body R) r l r' →
      G (.body R) (c :: r) (.ch c :: l) r'
  | dollar {R r l r'} : R.dollar (36 :: r) ≠ 0 → G (.body R) ((36 :: r).drop (R.dollar (36 :: r))) l r' →
      G (.body R) (36 :: r) (((36 :: r).take (R.dollar (36 :: r))).map .ch ++ l) r'
  | interp {R r e r1 v r2 l r'} : R.dollar (36 :: 123 :: r) = 0 → G .expr r [e] r1 → Tok r1 .r_curly v r2 → G (.body R) r2 l r' →
      G (.body R) (36 :: 123 :: r) (.interp e :: l) r'
  -- paths: pieces of text and interpolations, one after the other
  | pend {r k v r1} : TokP r k v r1 → TokP r1 .path_end [] r1 → G .pbody r (v.map .ch) r1
  | pinterp {r k v r1 v1 r2 e r3 v2 r4 l r'} : TokP r k v r1 → TokP r1 .dollar_curly v1 r2 → G .expr r2 [e] r3 →
      Tok r3 .r_curly v2 r4 → G .pbody r4 l r' → G .pbody r (v.map .ch ++ .interp e :: l) r'
  /-- in debug builds an assertion fails here: an interpolation directly after another one -/
  | ptext {r k v r1 k1 v1 r2 l r'} : TokP r k v r1 → TokP r1 k1 v1 r2 → k1 ≠ .path_end → k1 ≠ .dollar_curly →
      G .pbody r1 l r' → G .pbody r (v.map .ch ++ l) r'

/-- The whole source is an expression. -/
def Accepts (src : Bytes) (t : Syn) : Prop := ∃ r v, G .expr src [t] r ∧ Tok r .eof v []

/-- The diagnostics that say that the source is not an expression. All others are about expressions. -/
def isSyntaxError : DK → Bool
  | .unterminatedBComment | .floatNoExp | .floatLeadingZero | .expected | .intTooBig | .attrPathExtraDot | .selectExtraDot
  | .unexpectedText | .lambdaArgExtraAt | .operatorNotAssociative | .keywordOrIsNotBinaryOp | .emptyFormal
  | .formalMissingComma | .formalExtraEllipsis | .formalMisplacedEllipsis => true
  | _ => false

end Verif.Nixf.Syntax
