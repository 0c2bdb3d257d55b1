import Verif.Lemmas.SynStr
/-
The grammar once more, with the nodes of the tree instead of their abstract syntax, and with the places of the nodes: a phrase
is read as a list of nodes, and the range of each node is that of the phrase it is made of.
-/
namespace Verif.Nixf.Syntax
open Lexical Strings

/-- The characters of a text, as nodes. -/
def chars (t : Bytes) : List Node := t.map fun c => .text [c]

/-- The pieces of a string with its text divided into characters. -/
def explode : List Node → List Node
  | [] => []
  | .text t :: fs => chars t ++ explode fs
  | n :: fs => n :: explode fs

/-- The bindings of a node. -/
def BindsOf (a : Node) (bs : List Node) : Prop := a = .null ∧ bs = [] ∨ ∃ h, a = .binds h bs

/-- The bindings of a let expression. -/
def LetOf (a : Node) (bs : List Node) : Prop := a = .null ∧ bs = [] ∨ ∃ h h' rc st dy, a = .exprAttrs h (.binds h' bs) rc st dy

/-- What a phrase is read as. -/
inductive NK
  | expr
  | op (p : Nat)
  | atom
  /-- the left operand, and where it begins -/
  | tail (p : Nat) (l : Node) (r : Bytes)
  | app
  | args
  | select
  | simple
  | elems
  | name
  | names
  | path
  | dots
  | binds
  | arg
  | formals
  | members
  | member
  | afterComma (comma : Bool)
  | body (R : Rules)
  | pbody

/-- The grammar with nodes. -/
inductive GN (src : Option Bytes) : NK → Bytes → List Node → Bytes → Prop
  -- expressions
  | op {r t r'} : GN src (.op 0) r [t] r' → GN src .expr r [t] r'
  | lambda {r a r1 v r2 b r' h} : GN src .arg r [a] r1 → Tok r1 .colon v r2 → GN src .expr r2 [b] r' → Spans src h.range r r' →
      GN src .expr r [.exprLambda h a b] r'
  | ite {r v1 r1 c r2 v2 r3 t r4 v3 r5 e r' h} : Tok r .kw_if v1 r1 → GN src .expr r1 [c] r2 → Tok r2 .kw_then v2 r3 →
      GN src .expr r3 [t] r4 → Tok r4 .kw_else v3 r5 → GN src .expr r5 [e] r' → Spans src h.range r r' → GN src .expr r [.exprIf h c t e] r'
  | assert {r v1 r1 c r2 v2 r3 e r' h} : Tok r .kw_assert v1 r1 → GN src .expr r1 [c] r2 → Tok r2 .semi_colon v2 r3 →
      GN src .expr r3 [e] r' → Spans src h.range r r' → GN src .expr r [.exprAssert h c e] r'
  | with_ {r v1 r1 w r2 v2 r3 e r' h k1 k2} : Tok r .kw_with v1 r1 → GN src .expr r1 [w] r2 → Tok r2 .semi_colon v2 r3 →
      GN src .expr r3 [e] r' → Spans src h.range r r' → Spans src k1.range r r1 → Spans src k2.range r2 r3 →
      GN src .expr r [.exprWith h k1 k2 w e] r'
  | let_ {r v1 r1 bs r2 v2 r3 e r' h k1 k2 a} : Tok r .kw_let v1 r1 → GN src .binds r1 bs r2 → Tok r2 .kw_in v2 r3 →
      GN src .expr r3 [e] r' → LetOf a bs → Spans src h.range r r' → GN src .expr r [.exprLet h k1 k2 e a] r'
  | legacyLet {r v1 r1 v2 r2 bs r3 v3 r' h k1 h' a rc st dy} : Tok r .kw_let v1 r1 → Tok r1 .l_curly v2 r2 → GN src .binds r2 bs r3 →
      Tok r3 .r_curly v3 r' → BindsOf a bs → Spans src h.range r r' → GN src .expr r [.exprLegacyLet h k1 (.exprAttrs h' a rc st dy)] r'
  -- operators
  | opr {p r a r1 t r'} : GN src .atom r [a] r1 → GN src (.tail p a r) r1 [t] r' → GN src (.op p) r [t] r'
  | app {r e r'} : GN src .app r [e] r' → GN src .atom r [e] r'
  | un {k p r v r1 e r' h ho} : Tok r k v r1 → unPower k = some p → GN src (.op p) r1 [e] r' → Spans src h.range r r' →
      GN src .atom r [.exprUnaryOp h (.op ho k) e] r'
  | stop {p l q r} : GN src (.tail p l q) r [l] r
  | bin {p l q k pl pr r v r1 e r2 t r' h ho} : Tok r k v r1 → powers k = some (pl, pr) → p < pl → (∀ q ∈ rightPowers (syn l), pl < q) →
      GN src (.op pr) r1 [e] r2 → Spans src h.range q r2 → GN src (.tail p (.exprBinOp h (.op ho k) l e) q) r2 [t] r' →
      GN src (.tail p l q) r [t] r'
  | has {p l q r v r1 ns r2 t r' h ho hp ds} : Tok r .question v r1 → rightPowers (syn l) = [] → GN src .path r1 ns r2 →
      Spans src hp.range r1 r2 → Spans src h.range q r2 →
      GN src (.tail p (.exprOpHasAttr h ho l (.attrPath hp ns ds)) q) r2 [t] r' → GN src (.tail p l q) r [t] r'
  | hasNone {p l q r v r1 t r' h ho} : Tok r .question v r1 → rightPowers (syn l) = [] →
      (∀ k v r2, Tok r1 k v r2 → k ≠ .id_ ∧ k ≠ .kw_or ∧ k ≠ .dquote ∧ k ≠ .dollar_curly) → Spans src h.range q r1 →
      GN src (.tail p (.exprOpHasAttr h ho l .null) q) r1 [t] r' → GN src (.tail p l q) r [t] r'
  -- function calls
  | one {r e r'} : GN src .select r [e] r' → GN src .app r [e] r'
  | call {r f r1 as r' h} : GN src .select r [f] r1 → callable (syn f) = true → GN src .args r1 as r' → Spans src h.range r r' →
      GN src .app r [.exprCall h f as] r'
  | lastArg {r e r'} : GN src .select r [e] r' → GN src .args r [e] r'
  | moreArgs {r e r1 es r'} : GN src .select r [e] r1 → GN src .args r1 es r' → GN src .args r (e :: es) r'
  -- selections
  | simple {r e r'} : GN src .simple r [e] r' → GN src .select r [e] r'
  | select {r e r1 v r2 ns r' h d hp ds b} : GN src .simple r [e] r1 → Tok r1 .dot v r2 → GN src .path r2 ns r' →
      Spans src hp.range r2 r' → Spans src h.range r r' → Spans src d.range r1 r2 →
      GN src .select r [.exprSelect h e d (.attrPath hp ns ds) .null b] r'
  | selectOr {r e r1 v r2 ns r3 v' r4 d r' h dt hp ds b} : GN src .simple r [e] r1 → Tok r1 .dot v r2 → GN src .path r2 ns r3 →
      Tok r3 .kw_or v' r4 → GN src .select r4 [d] r' → d.isNull = false → Spans src hp.range r2 r3 → Spans src h.range r r' →
      GN src .select r [.exprSelect h e dt (.attrPath hp ns ds) d b] r'
  -- simple expressions
  | var {r v r' h h'} : Tok r .id_ v r' → Spans src h.range r r' → GN src .simple r [.exprVar h (.identifier h' v)] r'
  | int {r v r' n h} : Tok r .int v r' → decodeInt v = some n → Spans src h.range r r' → GN src .simple r [.exprInt h n] r'
  | float {r v r' h} : Tok r .float v r' → Spans src h.range r r' → GN src .simple r [.exprFloat h v] r'
  | spath {r v r' h} : Tok r .spath v r' → Spans src h.range r r' →
      GN src .simple r [.exprSPath h ((v.drop 1).take (v.length - 2))] r'
  | uri {r v r' h h' fs} : Tok r .uri v r' → explode fs = chars v → Spans src h.range r r' → GN src .simple r [.exprString h (.parts h' fs)] r'
  | str {r v r1 fs r' h h'} : Tok r .dquote v r1 → GN src (.body dqCode) r1 (explode fs) (34 :: r') → Spans src h.range r r' →
      GN src .simple r [.exprString h (.parts h' fs)] r'
  | ind {r v r1 fs r' h h'} : Tok r .quote2 v r1 → GN src (.body indCode) r1 (explode fs) (39 :: 39 :: r') → Spans src h.range r r' →
      GN src .simple r [.exprString h (.parts h' fs)] r'
  | pathLit {r v r1 fs r' h h'} : Tok r .path_fragment v r1 → GN src .pbody (skip r) (explode fs) r' → Spans src h.range r r' →
      GN src .simple r [.exprPath h (.parts h' fs)] r'
  | paren {r v1 r1 e r2 v2 r' h m1 m2} : Tok r .l_paren v1 r1 → GN src .expr r1 [e] r2 → Tok r2 .r_paren v2 r' → Spans src h.range r r' →
      Spans src m1.range r r1 → Spans src m2.range r2 r' → GN src .simple r [.exprParen h e m1 m2] r'
  | list {r v1 r1 es r2 v2 r' h} : Tok r .l_bracket v1 r1 → GN src .elems r1 es r2 → Tok r2 .r_bracket v2 r' → Spans src h.range r r' →
      GN src .simple r [.exprList h es] r'
  | set {r v1 r1 bs r2 v2 r' h a st dy} : Tok r .l_curly v1 r1 → GN src .binds r1 bs r2 → Tok r2 .r_curly v2 r' → BindsOf a bs →
      Spans src h.range r r' → GN src .simple r [.exprAttrs h a .null st dy] r'
  | recSet {r v0 r0 v1 r1 bs r2 v2 r' h a rc st dy} : Tok r .kw_rec v0 r0 → Tok r0 .l_curly v1 r1 → GN src .binds r1 bs r2 →
      Tok r2 .r_curly v2 r' → BindsOf a bs → isPart rc = true → Spans src h.range r r' → Spans src rc.range r r0 →
      GN src .simple r [.exprAttrs h a rc st dy] r'
  | noElem {r} : GN src .elems r [] r
  | elem {r e r1 es r'} : GN src .select r [e] r1 → GN src .elems r1 es r' → GN src .elems r (e :: es) r'
  -- attribute names and paths
  | name {r v r' h h'} : Tok r .id_ v r' → Spans src h.range r r' → GN src .name r [.attrNameID h (.identifier h' v)] r'
  | orName {r v r' h h'} : Tok r .kw_or v r' → Spans src h.range r r' → GN src .name r [.attrNameID h (.identifier h' v)] r'
  | strName {r v r1 fs r' h h' h2} : Tok r .dquote v r1 → GN src (.body dqCode) r1 (explode fs) (34 :: r') → Spans src h.range r r' →
      GN src .name r [.attrNameString h (.exprString h' (.parts h2 fs))] r'
  | interpName {r v1 r1 e r2 v2 r' h h'} : Tok r .dollar_curly v1 r1 → GN src .expr r1 [e] r2 → Tok r2 .r_curly v2 r' →
      Spans src h.range r r' → GN src .name r [.attrNameInterp h (.interpolation h' e)] r'
  | path {r n r1 ns r'} : GN src .name r [n] r1 → GN src .dots r1 ns r' → GN src .path r (n :: ns) r'
  | noDot {r} : GN src .dots r [] r
  | dot {r v r1 n r2 ns r'} : Tok r .dot v r1 → GN src .name r1 [n] r2 → GN src .dots r2 ns r' → GN src .dots r (n :: ns) r'
  | noName {r} : GN src .names r [] r
  | names {r n r1 ns r'} : GN src .name r [n] r1 → GN src .names r1 ns r' → GN src .names r (n :: ns) r'
  -- bindings
  | noBind {r} : GN src .binds r [] r
  | binding {r ns r1 v1 r2 e r3 v2 r4 bs r' h hp ds q} : GN src .path r ns r1 → Tok r1 .eq v1 r2 → GN src .expr r2 [e] r3 →
      Tok r3 .semi_colon v2 r4 → Spans src hp.range r r1 → Spans src h.range r r4 → GN src .binds r4 bs r' →
      GN src .binds r (.binding h (.attrPath hp ns ds) q e :: bs) r'
  | inherit {r v1 r1 ns r2 v2 r3 bs r' h} : Tok r .kw_inherit v1 r1 → GN src .names r1 ns r2 → Tok r2 .semi_colon v2 r3 →
      Spans src h.range r r3 → GN src .binds r3 bs r' → GN src .binds r (.inherit h ns .null :: bs) r'
  | inheritFrom {r v1 r1 v2 r2 e r3 v3 r4 ns r5 v4 r6 bs r' h} : Tok r .kw_inherit v1 r1 → Tok r1 .l_paren v2 r2 →
      GN src .expr r2 [e] r3 → Tok r3 .r_paren v3 r4 → GN src .names r4 ns r5 → Tok r5 .semi_colon v4 r6 → e.isNull = false →
      Spans src h.range r r6 → GN src .binds r6 bs r' → GN src .binds r (.inherit h ns e :: bs) r'
  -- functions
  | argName {r v r' h h'} : Tok r .id_ v r' → Spans src h'.range r r' → GN src .arg r [.lambdaArg h (.identifier h' v) .null] r'
  | argAt {r v r1 v1 r2 fs r' h h' hf} : Tok r .id_ v r1 → Tok r1 .at_ v1 r2 → GN src .formals r2 fs r' → Spans src h'.range r r1 →
      Spans src hf.range r2 r' → GN src .arg r [.lambdaArg h (.identifier h' v) (.formals hf fs)] r'
  | argSet {r fs r' h hf} : GN src .formals r fs r' → (∀ f ∈ fs.head?, hasComma (syn f) = false) → Spans src hf.range r r' →
      GN src .arg r [.lambdaArg h .null (.formals hf fs)] r'
  | atArg {r fs r1 v1 r2 v r' h h' hf} : GN src .formals r fs r1 → (∀ f ∈ fs.head?, hasComma (syn f) = false) → Tok r1 .at_ v1 r2 → Tok r2 .id_ v r' →
      Spans src h'.range r2 r' → Spans src hf.range r r1 → GN src .arg r [.lambdaArg h (.identifier h' v) (.formals hf fs)] r'
  | formals {r v1 r1 fs r2 v2 r'} : Tok r .l_curly v1 r1 → GN src .members r1 fs r2 → Tok r2 .r_curly v2 r' → FormalsOk (synL fs) →
      GN src .formals r fs r'
  | noMember {r} : GN src .members r [] r
  | members {r f r1 fs r'} : GN src .member r [f] r1 → Spans src f.range r r1 → GN src .members r1 fs r' → GN src .members r (f :: fs) r'
  | plain {r f r'} : GN src (.afterComma false) r [f] r' → syn f ≠ .comma → GN src .member r [f] r'
  | comma {r v r1 f r'} : Tok r .comma v r1 → GN src (.afterComma true) r1 [f] r' → GN src .member r [f] r'
  | formal {c r v r' h cm h'} : Tok r .id_ v r' → isPart cm = c → Spans src h'.range r r' →
      GN src (.afterComma c) r [.formal h cm (.identifier h' v) .null .null] r'
  | formalOr {c r v r1 v1 r2 d r' h cm h'} : Tok r .id_ v r1 → Tok r1 .question v1 r2 → GN src .expr r2 [d] r' → d.isNull = false →
      isPart cm = c → Spans src h'.range r r1 → GN src (.afterComma c) r [.formal h cm (.identifier h' v) d .null] r'
  | ellipsis {c r v r' h cm e} : Tok r .ellipsis v r' → e.isNull = false → isPart cm = c → GN src (.afterComma c) r [.formal h cm .null .null e] r'
  | lone {c r h cm} : GN src (.afterComma c) r [.formal h cm .null .null .null] r
  -- strings: up to the closing quote
  | close {R r} : R.quote <+: r → R.esc r = none → GN src (.body R) r [] r
  | esc {R r n t l r'} : R.esc r = some (n, t) → n ≤ r.length → GN src (.body R) (r.drop n) l r' → GN src (.body R) r (chars t ++ l) r'
  | char {R c r l r'} : c ≠ 36 → ¬ R.quote <+: c :: r → R.esc (c :: r) = none → GN src (.body R) r l r' →
      GN src (.body R) (c :: r) (.text [c] :: l) r'
  | dollar {R r l r'} : R.dollar (36 :: r) ≠ 0 → GN src (.body R) ((36 :: r).drop (R.dollar (36 :: r))) l r' →
      GN src (.body R) (36 :: r) (chars ((36 :: r).take (R.dollar (36 :: r))) ++ l) r'
  | interp {R r e r1 v r2 l r' h} : R.dollar (36 :: 123 :: r) = 0 → GN src .expr r [e] r1 → Tok r1 .r_curly v r2 → GN src (.body R) r2 l r' →
      Pt src h.range.l (36 :: 123 :: r) → Pt src h.range.r r2 → GN src (.body R) (36 :: 123 :: r) (.interpolation h e :: l) r'
  -- paths: pieces of text and interpolations, one after the other
  | pend {r k v r1} : TokP r k v r1 → TokP r1 .path_end [] r1 → GN src .pbody r (chars v) r1
  | pinterp {r k v r1 v1 r2 e r3 v2 r4 l r' h} : TokP r k v r1 → TokP r1 .dollar_curly v1 r2 → GN src .expr r2 [e] r3 →
      Tok r3 .r_curly v2 r4 → GN src .pbody r4 l r' → GN src .pbody r (chars v ++ .interpolation h e :: l) r'
  | ptext {r k v r1 k1 v1 r2 l r'} : TokP r k v r1 → TokP r1 k1 v1 r2 → k1 ≠ .path_end → k1 ≠ .dollar_curly →
      GN src .pbody r1 l r' → GN src .pbody r (chars v ++ l) r'

/-! ### The abstract syntax -/

theorem synL_eq (l : List Node) : synL l = l.map syn := by
  induction l with
  | nil => rfl
  | cons n l ih => show syn n :: synL l = _; rw [ih]; rfl

def NK.nt : NK → NT
  | .expr => .expr
  | .op p => .op p
  | .atom => .atom
  | .tail p l _ => .tail p (syn l)
  | .app => .app
  | .args => .args
  | .select => .select
  | .simple => .simple
  | .elems => .elems
  | .name => .name
  | .names => .names
  | .path => .path
  | .dots => .dots
  | .binds => .binds
  | .arg => .arg
  | .formals => .formals
  | .members => .members
  | .member => .member
  | .afterComma c => .afterComma c
  | .body R => .body R
  | .pbody => .pbody

/-- The syntax of a piece of a string. -/
def synP : Node → Syn
  | .text [c] => .ch c
  | n => syn n

/-- The syntax of the nodes of a phrase. -/
def NK.syns : NK → List Node → List Syn
  | .body _, l | .pbody, l => l.map synP
  | _, l => synL l

theorem synP_chars (t : Bytes) : (chars t).map synP = t.map .ch := by
  unfold chars; rw [List.map_map]; rfl

theorem synParts_explode (fs : List Node) : synParts fs = (explode fs).map synP := by
  induction fs with
  | nil => rfl
  | cons f fs ih =>
    cases f with
    | text t =>
      show t.map Syn.ch ++ synParts fs = (chars t ++ explode fs).map synP
      rw [List.map_append, synP_chars, ih]
    | _ => exact congrArg (_ :: ·) ih

theorem syn_selectOr {h : Hd} {e : Node} {dt : Node} {hp : Hd} {ns ds : List Node} {d : Node} {b : Bool} (hd : d.isNull = false) :
    syn (.exprSelect h e dt (.attrPath hp ns ds) d b) = .selectOr (syn e) (synL ns) (syn d) := by
  cases d <;> first | rfl | cases hd

theorem syn_inherit {h : Hd} {ns : List Node} {e : Node} (he : e.isNull = false) : syn (.inherit h ns e) = .inheritFrom (syn e) (synL ns) := by
  cases e <;> first | rfl | cases he

theorem syn_formalOr {h : Hd} {c : Node} {hi : Hd} {x : Bytes} {d e : Node} (hd : d.isNull = false) :
    syn (.formal h c (.identifier hi x) d e) = .formalOr (isPart c) x (syn d) := by
  cases d <;> first | rfl | cases hd

theorem syn_ellipsis {h : Hd} {c d e : Node} (he : e.isNull = false) : syn (.formal h c .null d e) = .ellipsis (isPart c) := by
  cases e <;> first | rfl | cases he

theorem LetOf.syn {a : Node} {bs : List Node} (h : LetOf a bs) (hd : Hd) (kl ki e : Node) :
    Syntax.syn (.exprLet hd kl ki e a) = .let_ (synL bs) (Syntax.syn e) := by
  rcases h with ⟨rfl, rfl⟩ | ⟨_, _, _, _, _, rfl⟩ <;> rfl

theorem BindsOf.legacy {a : Node} {bs : List Node} (h : BindsOf a bs) (hd h' : Hd) (k rc : Node) (st dy : List Node) :
    Syntax.syn (.exprLegacyLet hd k (.exprAttrs h' a rc st dy)) = .legacyLet (synL bs) := by
  rcases h with ⟨rfl, rfl⟩ | ⟨_, rfl⟩ <;> rfl

theorem BindsOf.set {a : Node} {bs : List Node} (h : BindsOf a bs) (hd : Hd) (rc : Node) (st dy : List Node) :
    Syntax.syn (.exprAttrs hd a rc st dy) = .set (isPart rc) (synL bs) := by
  rcases h with ⟨rfl, rfl⟩ | ⟨_, rfl⟩ <;> rfl

theorem head_synL {l : List Node} {P : Syn → Prop} (h : ∀ f ∈ l.head?, P (syn f)) : ∀ f ∈ (synL l).head?, P f := by
  cases l with
  | nil => intro f hf; cases hf
  | cons a l =>
    intro f hf
    have : f = syn a := by
      change f ∈ (syn a :: synL l).head? at hf
      simpa using hf.symm
    rw [this]; exact h a rfl

set_option maxHeartbeats 1000000 in
/-- Phrases with nodes are phrases. -/
theorem GN.toG {src : Option Bytes} {nt : NK} {r : Bytes} {l : List Node} {r' : Bytes} (h : GN src nt r l r') : G nt.nt r (nt.syns l) r' := by
  induction h with
  | op _ ih => exact .op ih
  | lambda _ h2 _ _ i1 i2 => exact .lambda i1 h2 i2
  | ite h1 _ h2 _ h3 _ _ i1 i2 i3 => exact .ite h1 i1 h2 i2 h3 i3
  | assert h1 _ h2 _ _ i1 i2 => exact .assert h1 i1 h2 i2
  | with_ h1 _ h2 _ _ _ _ i1 i2 => exact .with_ h1 i1 h2 i2
  | let_ h1 _ h2 _ hl _ i1 i2 =>
    show G .expr _ [syn _] _
    rw [hl.syn]; exact .let_ h1 i1 h2 i2
  | legacyLet h1 h2 _ h3 hl _ i1 =>
    show G .expr _ [syn _] _
    rw [hl.legacy]; exact .legacyLet h1 h2 i1 h3
  | opr _ _ i1 i2 => exact .opr i1 i2
  | app _ i => exact .app i
  | un h1 h2 _ _ i => exact .un h1 h2 i
  | stop => exact .stop
  | bin h1 h2 h3 h4 _ _ _ i1 i2 => exact .bin h1 h2 h3 h4 i1 i2
  | has h1 h2 _ _ _ _ i1 i2 => exact .has h1 h2 i1 i2
  | hasNone h1 h2 h3 _ _ i => exact .hasNone h1 h2 h3 i
  | one _ i => exact .one i
  | call _ h _ _ i1 i2 => exact .call i1 h i2
  | lastArg _ i => exact .lastArg i
  | moreArgs _ _ i1 i2 => exact .moreArgs i1 i2
  | simple _ i => exact .simple i
  | select _ h _ _ _ _ i1 i2 => exact .select i1 h i2
  | selectOr _ h1 _ h2 _ hd _ _ i1 i2 i3 =>
    show G .select _ [syn _] _
    rw [syn_selectOr hd]; exact .selectOr i1 h1 i2 h2 i3
  | var h => exact .var h
  | int h h' => exact .int h h'
  | float h => exact .float h
  | spath h => exact .spath h
  | uri h h' =>
    show G .simple _ [.str (synParts _)] _
    rw [synParts_explode, h', synP_chars]; exact .uri h
  | str h _ _ i =>
    show G .simple _ [.str (synParts _)] _
    rw [synParts_explode]; exact .str h i
  | ind h _ _ i =>
    show G .simple _ [.str (synParts _)] _
    rw [synParts_explode]; exact .ind h i
  | pathLit h _ _ i =>
    show G .simple _ [.path (synParts _)] _
    rw [synParts_explode]; exact .pathLit h i
  | paren h1 _ h2 _ _ _ i => exact .paren h1 i h2
  | list h1 _ h2 _ i => exact .list h1 i h2
  | set h1 _ h2 hb _ i =>
    show G .simple _ [syn _] _
    rw [hb.set]; exact .set h1 i h2
  | recSet h0 h1 _ h2 hb hr _ _ i =>
    show G .simple _ [syn _] _
    rw [hb.set, hr]; exact .recSet h0 h1 i h2
  | noElem => exact .noElem
  | elem _ _ i1 i2 => exact .elem i1 i2
  | name h => exact .name h
  | orName h => exact .orName h
  | strName h _ _ i =>
    show G .name _ [.strName (synParts _)] _
    rw [synParts_explode]; exact .strName h i
  | interpName h1 _ h2 _ i => exact .interpName h1 i h2
  | path _ _ i1 i2 => exact .path i1 i2
  | noDot => exact .noDot
  | dot h _ _ i1 i2 => exact .dot h i1 i2
  | noName => exact .noName
  | names _ _ i1 i2 => exact .names i1 i2
  | noBind => exact .noBind
  | binding _ h1 _ h2 _ _ _ i1 i2 i3 => exact .binding i1 h1 i2 h2 i3
  | inherit h1 _ h2 _ _ i1 i2 => exact .inherit h1 i1 h2 i2
  | inheritFrom h1 h2 _ h3 _ h4 he _ _ i1 i2 i3 =>
    show G .binds _ (syn _ :: synL _) _
    rw [syn_inherit he]; exact .inheritFrom h1 h2 i1 h3 i2 h4 i3
  | argName h => exact .argName h
  | argAt h1 h2 _ _ _ i => exact .argAt h1 h2 i
  | argSet _ h _ i => exact .argSet i (head_synL (P := fun f => hasComma f = false) h)
  | atArg _ h h1 h2 _ _ i => exact .atArg i (head_synL (P := fun f => hasComma f = false) h) h1 h2
  | formals h1 _ h2 h3 i => exact .formals h1 i h2 h3
  | noMember => exact .noMember
  | members _ _ _ i1 i2 => exact .members i1 i2
  | plain _ h i => exact .plain i h
  | comma h _ i => exact .comma h i
  | formal h hc => subst hc; exact .formal h
  | formalOr h1 h2 _ hd hc _ i =>
    subst hc
    show G _ _ [syn _] _
    rw [syn_formalOr hd]; exact .formalOr h1 h2 i
  | ellipsis h he hc =>
    subst hc
    show G _ _ [syn _] _
    rw [syn_ellipsis he]; exact .ellipsis h
  | lone => exact .lone
  | close h1 h2 => exact .close h1 h2
  | esc h1 h2 _ i =>
    show G _ _ ((chars _ ++ _).map synP) _
    rw [List.map_append, synP_chars]; exact .esc h1 h2 i
  | char h1 h2 h3 _ i => exact .char h1 h2 h3 i
  | dollar h1 _ i =>
    show G _ _ ((chars _ ++ _).map synP) _
    rw [List.map_append, synP_chars]; exact .dollar h1 i
  | interp h1 _ h2 _ _ _ i1 i2 => exact .interp h1 i1 h2 i2
  | pend h1 h2 =>
    show G _ _ ((chars _).map synP) _
    rw [synP_chars]; exact .pend h1 h2
  | pinterp h1 h2 _ h3 _ i1 i2 =>
    show G _ _ ((chars _ ++ _).map synP) _
    rw [List.map_append, synP_chars]; exact .pinterp h1 h2 i1 h3 i2
  | ptext h1 h2 h3 h4 _ i =>
    show G _ _ ((chars _ ++ _).map synP) _
    rw [List.map_append, synP_chars]; exact .ptext h1 h2 h3 h4 i

/-! ### Places -/

/-- The kinds of phrases that are one expression. -/
def NK.isExpr : NK → Bool
  | .expr | .op _ | .atom | .app | .select | .simple => true
  | _ => false

/-- The range of an expression is that of its phrase. -/
theorem GN.spans {src : Option Bytes} {nt : NK} {r : Bytes} {l : List Node} {r' : Bytes} (h : GN src nt r l r') :
    (nt.isExpr = true ∨ nt = .name → ∀ a, l = [a] → Spans src a.range r r') ∧
      ∀ p a q, nt = .tail p a q → Spans src a.range q r → ∀ t, l = [t] → Spans src t.range q r' := by
  induction h with
  | op _ ih => exact ⟨fun _ => ih.1 (.inl rfl), fun _ _ _ h => (nomatch h)⟩
  | opr _ _ i1 i2 => exact ⟨fun _ => i2.2 _ _ _ rfl (i1.1 (.inl rfl) _ rfl), fun _ _ _ h => (nomatch h)⟩
  | app _ ih => exact ⟨fun _ => ih.1 (.inl rfl), fun _ _ _ h => (nomatch h)⟩
  | one _ ih => exact ⟨fun _ => ih.1 (.inl rfl), fun _ _ _ h => (nomatch h)⟩
  | simple _ ih => exact ⟨fun _ => ih.1 (.inl rfl), fun _ _ _ h => (nomatch h)⟩
  | stop => exact ⟨fun h => by (rcases h with h | h <;> cases h), fun _ _ _ h hs t ht => by cases h; cases ht; exact hs⟩
  | bin _ _ _ _ _ hs _ _ ih =>
    exact ⟨fun h => by (rcases h with h | h <;> cases h), fun _ _ _ h _ => by cases h; exact ih.2 _ _ _ rfl hs⟩
  | has _ _ _ _ hs _ _ ih =>
    exact ⟨fun h => by (rcases h with h | h <;> cases h), fun _ _ _ h _ => by cases h; exact ih.2 _ _ _ rfl hs⟩
  | hasNone _ _ _ hs _ ih =>
    exact ⟨fun h => by (rcases h with h | h <;> cases h), fun _ _ _ h _ => by cases h; exact ih.2 _ _ _ rfl hs⟩
  | _ =>
    refine ⟨fun h a ha => ?_, fun _ _ _ h => (nomatch h)⟩
    first
    | (rcases h with h | h <;> cases h; done)
    | (cases ha; assumption)

/-- The range of the expression. -/
theorem GN.place {src : Option Bytes} {nt : NK} {r : Bytes} {a : Node} {r' : Bytes} (h : GN src nt r [a] r') (hn : nt.isExpr = true) :
    Spans src a.range r r' := h.spans.1 (.inl hn) a rfl

theorem GN.placeName {src : Option Bytes} {r : Bytes} {a : Node} {r' : Bytes} (h : GN src .name r [a] r') : Spans src a.range r r' :=
  h.spans.1 (.inr rfl) a rfl

end Verif.Nixf.Syntax
