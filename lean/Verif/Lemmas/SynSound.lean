import Verif.Lemmas.Located
/-
What the parser reads without reporting a syntax error is an expression of the grammar, and the tree says which one.
-/
namespace Verif.Nixf.Syntax
open Lexical Strings

theorem synParts_text (t : Bytes) (fs : List Node) : synParts (.text t :: fs) = t.map .ch ++ synParts fs := rfl

theorem synParts_merge (fs : List Node) : synParts (mergeFragments fs) = synParts fs := by
  unfold mergeFragments
  split
  · rfl
  · split
    · rfl
    · rename_i h
      rw [synParts_text]
      have h : ∀ f ∈ fs, ∃ t, f = .text t := by
        intro f hf
        have h := List.any_eq_false.mp (Bool.eq_false_iff.mpr h) f hf
        cases f <;> simp_all
      clear * - h
      rw [show synParts [] = [] from rfl, List.append_nil]
      induction fs with
      | nil => rfl
      | cons f fs ih =>
        obtain ⟨t, rfl⟩ := h f (by simp)
        rw [synParts_text, ← ih fun f hf => h f (by simp [hf])]
        simp

theorem explode_merge (fs : List Node) : explode (mergeFragments fs) = explode fs := by
  unfold mergeFragments
  split
  · rfl
  · split
    · rfl
    · rename_i h
      have h : ∀ f ∈ fs, ∃ t, f = .text t := by
        intro f hf
        have h := List.any_eq_false.mp (Bool.eq_false_iff.mpr h) f hf
        cases f <;> simp_all
      clear * - h
      show chars _ ++ [] = _
      rw [List.append_nil]
      induction fs with
      | nil => rfl
      | cons f fs ih =>
        obtain ⟨t, rfl⟩ := h f (by simp)
        show _ = chars t ++ explode fs
        rw [← ih fun f hf => h f (by simp [hf])]
        simp [chars]

/-- Steps over statements that do not read anything. -/
macro "quiet" : tactic => `(tactic| with_reducible repeat' first
  | refine Snd.fresh (by assumption) fun _ _ _ => ?_
  | refine Snd.lastR (by assumption) fun _ _ _ _ => ?_
  | refine Snd.quiet (by assumption) (Mute.quiet mkMisc_mute) fun _ _ _ => ?_
  | refine Snd.quiet (by assumption) (Mute.quiet assertLast_mute) fun _ _ _ => ?_
  | refine Snd.quiet (by assumption) (Mute.quiet assertFail_mute) fun _ _ _ => ?_
  | fail)

theorem Snd.miscAt {β : Type} {src : Option Bytes} {s : PState} {r : Bytes} {B : List Token} {P : β → Bytes → List Token → Prop} {x : CRange}
    {f : Node → PM β} (hs : Hr src s r B) (h : ∀ i s1, Hr src s1 r B → Snd src (f (.misc ⟨i, x⟩)) s1 P) :
    Snd src (mkMisc x >>= f) s P := by
  intro b s' e hc
  obtain ⟨a, s1, e1, e2⟩ := run_bind e
  obtain ⟨hd, s2, e3, e4⟩ := run_bind e1
  obtain ⟨rfl, rfl⟩ := run_pure e4
  have h1 := hs.same (fresh_mute _ _ _ e3).1
  have ha : hd = ⟨s.next, x⟩ := by unfold Nixf.fresh at e3; cases e3; rfl
  subst ha
  exact h _ _ h1 b s' e2 hc

/-- What is known of `parseExpr` and of the calls of `parseExprSelect` that go through `Rec`. -/
def PE (src : Option Bytes) (nt : NK) (r : Bytes) (B : List Token) (a : Node) (r' : Bytes) (B' : List Token) : Prop :=
  BufN 0 B B' ∧ (a = .null ∧ r' = r ∨ a.isNull = false ∧ GN src nt r [a] r')

structure Snd2 (R : Rec) : Prop where
  fr : Fr2 R
  expr : ∀ {src} s r B, Hr src s r B → Snd src R.expr s (PE src .expr r B)
  select : ∀ {src} s r B, Hr src s r B → Snd src R.select s (PE src .select r B)

theorem withState_run {α : Type} {st : PS} {m : PM α} {s s' : PState} {a : α} (h : withState st m s = some (a, s')) :
    ∃ s1, m { resetBuf s with states := st :: (resetBuf s).states } = some (a, s1) ∧
      s' = { resetBuf s1 with states := (resetBuf s1).states.tail } := by
  unfold withState at h
  obtain ⟨_, s1, e1, e⟩ := run_bind h
  obtain ⟨b, s2, e2, e⟩ := run_bind e
  obtain ⟨_, s3, e3, e⟩ := run_bind e
  obtain ⟨rfl, rfl⟩ := run_pure e
  have e1 := run_modify e1
  have e3 := run_modify e3
  subst e1
  exact ⟨s2, e2, e3⟩

/-- Entering an interpolation. -/
theorem push_here {s : PState} {r : Bytes} {B : List Token} (h : Here s r B) :
    Here { resetBuf s with states := .expr :: (resetBuf s).states } r [] := by
  unfold resetBuf
  have hl := h.lexed
  have hf := h.fit
  cases hB : B with
  | nil =>
    rw [h.buf, hB]
    rw [hB] at hl
    exact ⟨rfl, hf, by rw [h.buf, hB], hl⟩
  | cons t ts =>
    rw [h.buf, hB]
    rw [hB] at hl
    obtain ⟨r', h1, h2, -⟩ := hl
    exact ⟨rfl, rfl, rfl, .inr ⟨h2.1, h1.clean⟩⟩

theorem resetBuf_src (s : PState) : (resetBuf s).lex.src = s.lex.src := by
  unfold resetBuf; split <;> rfl

theorem resetBuf_eaten (s : PState) : (resetBuf s).eaten = s.eaten := by
  unfold resetBuf; split <;> rfl

theorem push_hr {src : Option Bytes} {s : PState} {r : Bytes} {B : List Token} (h : Hr src s r B) :
    Hr src { resetBuf s with states := .expr :: (resetBuf s).states } r [] :=
  ⟨push_here h.toHere, fun b hb => (resetBuf_src s).trans (h.text b hb), by
    have := h.ends
    unfold lastCur at this ⊢
    simp only [resetBuf_eaten]; exact this⟩

theorem clean_sync {s : PState} {x : List TK} : Clean { s with sync := x } ↔ Clean s := Iff.rfl

theorem resetBuf_diags (s : PState) : (resetBuf s).lex.diags = s.lex.diags := by
  unfold resetBuf; split <;> rfl

theorem Clean.of {s s' : PState} (hc : Clean s') (h : s'.lex.diags = s.lex.diags) : Clean s := by
  unfold Clean at *; rw [← h]; exact hc

theorem reset_sync (s : PState) (x : List TK) (st : PS) :
    ({ resetBuf { s with sync := x } with states := st :: (resetBuf { s with sync := x }).states } : PState) =
      { ({ resetBuf s with states := st :: (resetBuf s).states } : PState) with sync := x } := by
  obtain ⟨a, b, c, d, e, f, g⟩ := s
  cases b <;> rfl

/-- A property of all runs without syntax errors. -/
def Tri {α : Type} (m : PM α) (s : PState) (Q : α → PState → Prop) : Prop := ∀ a s', m s = some (a, s') → Clean s' → Q a s'

theorem tri {α : Type} {m : PM α} {s s' : PState} {a : α} {Q : α → PState → Prop} (h : Tri m s Q) (e : m s = some (a, s')) (hc : Clean s') :
    Q a s' := h a s' e hc

section
variable {R : Rec} (hR : Snd2 R) (k : Nat)
include hR

/-- The part of `parseInterpolation` after `${`. -/
theorem interp_run {src : Option Bytes} {s1 s' : PState} {a : Node} {r1 : Bytes} {x : CRange} {y : Bytes} {z : Cursor}
    (h : withSync .r_curly (withState .expr (do
      let e ← R.expr
      needExpr e b!"interpolation"
      let _ ← expectOr k .r_curly x y
      let c ← lastR
      let h ← fresh ⟨z, c⟩
      pure (.interpolation h e))) s1 = some (a, s')) (hc : Clean s')
    (hp : Hr src { resetBuf s1 with states := .expr :: (resetBuf s1).states } r1 []) :
    ∃ hd e r2 v r', a = .interpolation hd e ∧ e.isNull = false ∧ GN src .expr r1 [e] r2 ∧ Tok r2 .r_curly v r' ∧
      s'.buf = [] ∧ s'.lex.rem = r' ∧ Fit s' ∧ s'.states = s1.states ∧ s'.lex.src = s1.lex.src ∧ Pt src (lastCur s') r' ∧ hd.range.l = z ∧
      Pt src hd.range.r r' := by
  have hfr := hR.fr
  have fr : Frame s1 s' := by
    refine Fr.sync (Fr.state ?_) _ _ _ h
    frame
  obtain ⟨s2, h2, rfl⟩ := withSync_run h
  clear h
  obtain ⟨s3, h3, rfl⟩ := withState_run h2
  clear h2
  have hc : Clean s3 := hc.of (resetBuf_diags _)
  have hp' := hp.sync (TK.r_curly :: s1.sync)
  have e0 := reset_sync s1 (TK.r_curly :: s1.sync) PS.expr
  rw [e0] at h3
  generalize ({ ({ resetBuf s1 with states := .expr :: (resetBuf s1).states } : PState) with sync := TK.r_curly :: s1.sync } : PState) = u at h3 hp'
  obtain ⟨e, s4, e4, h3⟩ := run_bind h3
  obtain ⟨_, s5, e5, h3⟩ := run_bind h3
  obtain ⟨_, s6, e6, h3⟩ := run_bind h3
  obtain ⟨c, s7, e7, h3⟩ := run_bind h3
  obtain ⟨hd, s8, e8, h3⟩ := run_bind h3
  obtain ⟨rfl, rfl⟩ := run_pure h3
  have q7 := (lastR_mute _ _ _ e7).1
  have q8 := (fresh_mute _ _ _ e8).1
  have hc7 := (fresh_fr _ _ _ e8).clean hc
  have hc6 := (lastR_fr _ _ _ e7).clean hc7
  have hc5 := (expectOr_fr _ _ _ e6).clean hc6
  have hc4 := (needExpr_fr _ _ _ e5).clean hc5
  obtain ⟨r2, B2, h4, hb, hg⟩ := hR.expr _ _ _ hp' _ _ e4 hc4
  cases hx : e.isNull with
  | true =>
    exfalso
    unfold needExpr whenP at e5
    rw [if_pos hx] at e5
    obtain ⟨c, s9, e9, e10⟩ := run_bind e5
    exact emit_dirty rfl e10 hc5
  | false =>
    have h5 := h4.same (needExpr_mute hx _ _ _ e5).1
    obtain ⟨t, s9, -, hk, hp9, hq9⟩ := expectOr_run e6 hc6
    obtain ⟨r3, ts, g1, g2, g3⟩ := peek0_here h5.toHere hp9 ((pconsume_fr _ _ _ hq9).clean hc6)
    obtain ⟨r4, i1, i2, i3, i4, i5, -, i6⟩ := pconsume_here g2 hq9
    obtain ⟨-, -, rfl⟩ := g1.eq i1
    have hh := (h5.peeked hp9 g2).consumed g1 i2 i5 i6
    have hts : ts = [] := by
      have h1 := hb.of_nil
      rcases g3 with g3 | g3
      · simpa using g3
      · have := g3.length_le
        simp only [List.drop_zero, List.length_cons] at this
        exact List.eq_nil_of_length_eq_zero (by omega)
    subst hts
    have hbuf : s3.buf = [] := by rw [q8.buf, q7.buf, i2.buf]
    have hrem : s3.lex.rem = r3 := by rw [q8.rem, q7.rem, i4 rfl]
    have hres : resetBuf s3 = s3 := by unfold resetBuf; rw [hbuf]
    have hgx : GN src .expr r1 [e] r2 := by
      rcases hg with ⟨rfl, -⟩ | ⟨-, hg⟩
      · cases hx
      · exact hg
    have hrange := fresh_run e8
    have hcur := lastR_run e7
    refine ⟨hd, e, r2, t.view, r3, rfl, hx, hgx, by rw [← hk]; exact g1, ?_, ?_, ?_, fr.states, fr.src, ?_, by rw [hrange], ?_⟩
    · show (resetBuf s3).buf = []; rw [hres, hbuf]
    · show (resetBuf s3).lex.rem = r3; rw [hres, hrem]
    · show Fit (resetBuf s3); rw [hres]; exact q8.fit (q7.fit i2.fit)
    · have := hh.ends
      unfold lastCur at this ⊢
      simp only [resetBuf_eaten, q8.eaten, q7.eaten]
      exact this
    · rw [hrange, hcur]; exact hh.ends

/-- An interpolation outside of strings. -/
theorem interpolation_sound {src : Option Bytes} {s : PState} {r r1 : Bytes} {t : Token} {ts : List Token} (hs : Hr src s r (t :: ts))
    (ht : Tok r t.kind t.view r1) :
    Snd src (parseInterpolation R k) s fun a r' B' => B' = [] ∧ ∃ hd e r2 v, a = .interpolation hd e ∧ e.isNull = false ∧
      GN src .expr r1 [e] r2 ∧ Tok r2 .r_curly v r' ∧ Spans src hd.range r r' := by
  unfold parseInterpolation
  intro a s' h hc
  obtain ⟨t', s1, e1, h⟩ := run_bind h
  obtain ⟨_, s2, e2, h⟩ := run_bind h
  have hfr := hR.fr
  have hc2 : Clean s2 := by
    refine Frame.clean (s' := s') (Fr.sync (Fr.state ?_) _ _ _ h) hc
    frame
  obtain ⟨r1', ts', g1, g2, -⟩ := peek0_here hs.toHere e1 ((pconsume_fr _ _ _ e2).clean hc2)
  obtain ⟨r2, i1, i2, -, -, i3, -, i4⟩ := pconsume_here g2 e2
  obtain ⟨-, -, rfl⟩ := g1.eq i1
  obtain ⟨-, -, rfl⟩ := ht.eq i1
  have g2' := hs.peeked e1 g2
  have hh := g2'.consumed g1 i2 i3 i4
  obtain ⟨hd, e, r2, v, r', rfl, j1, j2, j3, j4, j5, j6, j7, j8, j9, j10, j11⟩ := interp_run hR k h hc (push_hr hh)
  refine ⟨r', [], ⟨⟨by rw [j7]; exact i2.top, j6, j4, .inl j5⟩, fun b hb => by rw [j8]; exact hh.text b hb, j9⟩, rfl, hd, e, r2, v, rfl, j1, j2, j3,
    ?_, j11⟩
  rw [j10]
  exact (g2'.front g1).1

/-- An interpolation inside of a string. -/
theorem interpolationS_sound {src : Option Bytes} {st : PS} (hst : st ≠ .expr) {s s' : PState} {r r1 : Bytes} {t : Token} {a : Node}
    (hs : FrontS st s r t) (hsrc : ∀ b ∈ src, s.lex.src = b)
    (ht : TokS st r t.kind t.view r1)
    (h : parseInterpolation R k s = some (a, s')) (hc : Clean s') :
    ∃ hd e r2 v r', InS st s' r' ∧ a = .interpolation hd e ∧ e.isNull = false ∧ GN src .expr r1 [e] r2 ∧ Tok r2 .r_curly v r' ∧
      Pt src hd.range.l r ∧ Pt src hd.range.r r' := by
  unfold parseInterpolation at h
  obtain ⟨t', s1, e1, h⟩ := run_bind h
  obtain ⟨_, s2, e2, h⟩ := run_bind h
  have g := (peekS hst hs.inS e1).1
  obtain ⟨i1, i2, i3, i4, i5, i6⟩ := pconsumeS g e2
  obtain ⟨-, -, e⟩ := ht.eq hs.tok
  obtain ⟨-, -, e'⟩ := i4.eq hs.tok
  have hs2 : ∀ b ∈ src, s2.lex.src = b := fun b hb => by rw [(pconsume_fr _ _ _ e2).src, (peek_fr _ _ _ e1).src]; exact hsrc b hb
  have hp : Hr src { resetBuf s2 with states := .expr :: (resetBuf s2).states } r1 [] := by
    have : resetBuf s2 = s2 := by unfold resetBuf; rw [i3]
    rw [this]
    refine ⟨⟨rfl, i2, i3, .inl (by rw [e, ← e'])⟩, hs2, fun b hb => ?_⟩
    unfold lastCur
    simp only [i6]
    have := g.right
    rw [← i5, hs2 b hb, e', ← e] at this
    exact this
  obtain ⟨hd, e, r2, v, r', rfl, j1, j2, j3, j4, j5, j6, j7, -, -, j10, j11⟩ := interp_run hR k h hc hp
  refine ⟨hd, e, r2, v, r', ⟨by rw [j7]; exact i1, j6, .inl ⟨j4, j5⟩⟩, rfl, j1, j2, j3, fun b hb => ?_, j11⟩
  rw [j10, ← g.left, (peek_fr _ _ _ e1).src, hsrc b hb]

omit hR in
theorem Steps.gn {src : Option Bytes} {Q : Rules} {r t r' : Bytes} (h : Steps Q r t r') {l : List Node} {e : Bytes} (hg : GN src (.body Q) r' l e) :
    GN src (.body Q) r (chars t ++ l) e := by
  have hc : ∀ a b, chars (a ++ b) ++ l = chars a ++ (chars b ++ l) := fun a b => by simp [chars]
  induction h with
  | nil r => exact hg
  | esc h1 h2 _ ih => rw [hc]; exact .esc h1 h2 (ih hg)
  | char h1 h2 h3 _ ih => exact .char h1 h2 h3 (ih hg)
  | dollar h1 _ ih => rw [hc]; exact .dollar h1 (ih hg)

theorem partsLoop_sound {src : Option Bytes} {st : PS} (hst : st ≠ .expr) {Q : Rules} {close : TK} (hq : isQuote close = true)
    (hQ : ∀ r k v r', TokS st r k v r' → ReadS Q close r k v r') (j : Nat) :
    ∀ {s s' : PState} {r : Bytes} {fs : List Node}, InS st s r → (∀ b ∈ src, s.lex.src = b) → partsLoop R k j s = some (fs, s') → Clean s' →
      ∃ r', InS st s' r' ∧ (∀ l e, GN src (.body Q) r' l e → GN src (.body Q) r (explode fs ++ l) e) := by
  induction j with
  | zero => intro s s' r fs _ _ h; cases h
  | succ j ih =>
    intro s s' r fs hs hsrc h hc
    unfold partsLoop at h
    obtain ⟨t, s1, e1, h⟩ := run_bind h
    have hf := (peekS hst hs e1).1
    have hsrc1 : ∀ b ∈ src, s1.lex.src = b := fun b hb => by rw [(peek_fr _ _ _ e1).src]; exact hsrc b hb
    have hrd := hQ _ _ _ _ hf.tok
    have hfr := hR.fr
    have hpl := partsLoop_fr hfr k j
    have hpi := parseInterpolation_fr hfr k
    refine tri (Q := fun fs s' => ∃ r', InS st s' r' ∧ (∀ l e, GN src (.body Q) r' l e → GN src (.body Q) r (explode fs ++ l) e)) ?_ h hc
    clear h hc
    split <;> intro fs s' h hc
    · rename_i hk
      obtain ⟨i, s2, e2, h⟩ := run_bind h
      obtain ⟨fs', s3, e3, h⟩ := run_bind h
      obtain ⟨rfl, rfl⟩ := run_pure h
      obtain ⟨hd, e, r2, v, r', g1, rfl, g2, g3, g4, p1, p2⟩ := interpolationS_sound hR k hst hf hsrc1 hf.tok e2 ((hpl _ _ _ e3).clean hc)
      obtain ⟨r3, i1, i2⟩ := ih g1 (fun b hb => by rw [(hpi _ _ _ e2).src]; exact hsrc1 b hb) e3 hc
      refine ⟨r3, i1, fun l x hx => ?_⟩
      show GN src _ _ (.interpolation hd e :: (explode fs' ++ l)) _
      cases hrd with
      | eof hk' => rw [hk] at hk'; cases hk'
      | close hk' => rw [← hk', hk] at hq; cases hq
      | interp _ h1 h2 =>
        rw [h1] at h2 p1 ⊢
        exact .interp h2 g3 g4 (i2 _ _ hx) p1 p2
      | esc hk' => rw [hk] at hk'; cases hk'
      | part hk' => rw [hk] at hk'; cases hk'
    · rename_i hk
      obtain ⟨_, s2, e2, h⟩ := run_bind h
      obtain ⟨fs', s3, e3, h⟩ := run_bind h
      obtain ⟨rfl, rfl⟩ := run_pure h
      obtain ⟨i1, i2, i3, i4, -⟩ := pconsumeS hf e2
      obtain ⟨-, -, e⟩ := i4.eq hf.tok
      obtain ⟨r3, i1, i2⟩ := ih ⟨i1, i2, .inl ⟨i3, rfl⟩⟩ (fun b hb => by rw [(pconsume_fr _ _ _ e2).src]; exact hsrc1 b hb) e3 hc
      refine ⟨r3, i1, fun l x hx => ?_⟩
      show GN src _ _ (chars t.view ++ explode fs' ++ l) _
      cases hrd with
      | eof hk' => rw [hk] at hk'; cases hk'
      | close hk' => rw [← hk', hk] at hq; cases hq
      | interp hk' => rw [hk] at hk'; cases hk'
      | esc hk' => rw [hk] at hk'; cases hk'
      | part hk' h =>
        rw [List.append_assoc]
        have h := h.2
        rw [← e] at h
        exact h.gn (i2 _ _ hx)
    · rename_i hk
      obtain ⟨_, s2, e2, h⟩ := run_bind h
      obtain ⟨fs', s3, e3, h⟩ := run_bind h
      obtain ⟨rfl, rfl⟩ := run_pure h
      obtain ⟨i1, i2, i3, i4, -⟩ := pconsumeS hf e2
      obtain ⟨-, -, e⟩ := i4.eq hf.tok
      obtain ⟨r3, i1, i2⟩ := ih ⟨i1, i2, .inl ⟨i3, rfl⟩⟩ (fun b hb => by rw [(pconsume_fr _ _ _ e2).src]; exact hsrc1 b hb) e3 hc
      refine ⟨r3, i1, fun l x hx => ?_⟩
      have : explode (if unescape t.view = [] then fs' else .text (unescape t.view) :: fs') = chars (unescape t.view) ++ explode fs' := by
        split
        · rename_i h; rw [h]; rfl
        · rfl
      rw [this]
      cases hrd with
      | eof hk' => rw [hk] at hk'; cases hk'
      | close hk' => rw [← hk', hk] at hq; cases hq
      | interp hk' => rw [hk] at hk'; cases hk'
      | part hk' => rw [hk] at hk'; cases hk'
      | esc hk' h =>
        rw [List.append_assoc]
        have h := h.2
        rw [← e] at h
        exact h.gn (i2 _ _ hx)
    · obtain ⟨rfl, rfl⟩ := run_pure h
      exact ⟨r, hf.inS, fun l e h => h⟩

/-- The rules of the two kinds of strings. -/
def stringRules : Bool → Rules
  | true => indCode
  | false => dqCode

omit hR in
theorem string_read {b : Bool} {r v r' : Bytes} {kind : TK} (h : TokS (if b then .indString else .string) r kind v r') :
    ReadS (stringRules b) (if b then .quote2 else .dquote) r kind v r' := by
  cases b
  · exact readDq h
  · exact readInd h

omit hR in
theorem pop_here {s : PState} {st : PS} {ss : List PS} (hst : s.states = st :: .expr :: ss) (hf : Fit s) (hb : s.buf = []) :
    Here { resetBuf s with states := (resetBuf s).states.tail } s.lex.rem [] := by
  have : resetBuf s = s := by unfold resetBuf; rw [hb]
  rw [this]
  exact ⟨by rw [hst]; rfl, hf, hb, .inl rfl⟩

theorem parseString_sound (b : Bool) {src : Option Bytes} {s : PState} {r r1 : Bytes} {t : Token} {ts : List Token} (hs : Hr src s r (t :: ts))
    (ht : Tok r t.kind t.view r1) (hk : t.kind = if b then .quote2 else .dquote) :
    Snd src (parseString R k b) s fun a r' B' => B' = [] ∧ ∃ h h' fs, a = .exprString h (.parts h' fs) ∧
      GN src (.body (stringRules b)) r1 (explode fs) ((stringRules b).quote ++ r') ∧ Spans src h.range r r' := by
  unfold parseString
  intro a s' h hc
  obtain ⟨t', s1, e1, h⟩ := run_bind h
  obtain ⟨_, s2, e2, h⟩ := run_bind h
  have hfr := hR.fr
  have hps := parseStringParts_fr hfr k
  have fr2 : Frame s2 s' := by
    refine (Fr.sync (Fr.state ?_) _ _ _ h)
    unfold noteMatch
    frame
  have hc2 : Clean s2 := fr2.clean hc
  obtain ⟨r1', ts', g1, g2, -⟩ := peek0_here hs.toHere e1 ((pconsume_fr _ _ _ e2).clean hc2)
  have g2' := hs.peeked e1 g2
  have hfront := (g2'.front g1).1
  obtain ⟨r2, i1, i2, i3, i4, i5, -⟩ := pconsume_here g2 e2
  obtain ⟨-, -, rfl⟩ := g1.eq i1
  obtain ⟨hk', -, rfl⟩ := ht.eq i1
  have hts : ts' = [] := i3 (by rw [← hk', hk]; cases b <;> rfl)
  subst hts
  have i4 := i4 rfl
  obtain ⟨s3, h3, rfl⟩ := withSync_run h
  clear h
  obtain ⟨s4, h4, rfl⟩ := withState_run h3
  clear h3
  have hres : resetBuf { s2 with sync := (if b = true then TK.quote2 else TK.dquote) :: s2.sync } =
      { s2 with sync := (if b = true then TK.quote2 else TK.dquote) :: s2.sync } := by
    unfold resetBuf; simp only [i2.buf]
  rw [hres] at h4
  have hc4 : Clean s4 := hc.of (resetBuf_diags _)
  obtain ⟨p, s5, e5, h4⟩ := run_bind h4
  obtain ⟨o, s6, e6, h4⟩ := run_bind h4
  have hc6 : Clean s6 := by
    cases o with
    | none =>
      obtain ⟨_, s7, e7, h4⟩ := run_bind h4
      obtain ⟨_, s8, e8, h4⟩ := run_bind h4
      obtain ⟨-, rfl⟩ := run_pure h4
      exact (noteLast_fr _ _ _ e7).clean ((fresh_fr _ _ _ e8).clean hc4)
    | some t =>
      obtain ⟨_, s7, e7, h4⟩ := run_bind h4
      obtain ⟨_, s8, e8, h4⟩ := run_bind h4
      obtain ⟨-, rfl⟩ := run_pure h4
      exact (pconsume_fr _ _ _ e7).clean ((fresh_fr _ _ _ e8).clean hc4)
  obtain ⟨q, rfl, hq, hp⟩ := expect_run e6 hc6
  obtain ⟨_, s7, e7, h4⟩ := run_bind h4
  obtain ⟨h0, s8, e8, h4⟩ := run_bind h4
  obtain ⟨rfl, rfl⟩ := run_pure h4
  have hst : (if b = true then PS.indString else PS.string) ≠ .expr := by cases b <;> decide
  -- the parts
  unfold parseStringParts at e5
  obtain ⟨_, s9, e9, e5⟩ := run_bind e5
  obtain ⟨fs, s10, e10, e5⟩ := run_bind e5
  obtain ⟨_, s11, e11, e5⟩ := run_bind e5
  unfold mkParts at e5
  obtain ⟨h1, s12, e12, e5⟩ := run_bind e5
  obtain ⟨rfl, rfl⟩ := run_pure e5
  have hsrc2 : ∀ b ∈ src, s2.lex.src = b := fun b hb => by rw [i5]; exact g2'.text b hb
  have hsrc9 : ∀ b ∈ src, s9.lex.src = b := fun b hb => by rw [(peek_fr _ _ _ e9).src]; exact hsrc2 b hb
  have f9 := (peekS hst (r := r1) (by exact ⟨rfl, i2.fit, .inl ⟨i2.buf, i4⟩⟩) e9).1
  have q12 := (lastR_mute _ _ _ e11).1.trans (fresh_mute _ _ _ e12).1
  have hc5 : Clean s5 := (peek_fr _ _ _ hp).clean hc6
  have hc10 : Clean s10 := (lastR_fr _ _ _ e11).clean ((fresh_fr _ _ _ e12).clean hc5)
  obtain ⟨r3, j1, j2⟩ := partsLoop_sound (src := src) hR k hst (Q := stringRules b) (close := if b = true then .quote2 else .dquote)
    (by cases b <;> rfl) (fun _ _ _ _ h => string_read h) k f9.inS hsrc9 e10 hc10
  have f6 := (peekS hst (j1.same q12) hp).1
  obtain ⟨l1, l2, l3, l4, l5, l6⟩ := pconsumeS f6 e7
  have q8 := (fresh_mute _ _ _ e8).1
  have fr7 : s7.states = (if b = true then PS.indString else PS.string) :: s2.states := by
    rw [(pconsume_fr _ _ _ e7).states, (peek_fr _ _ _ hp).states, q12.states, (partsLoop_fr hfr k k _ _ _ e10).states,
      (peek_fr _ _ _ e9).states]
  have htop := i2.top
  obtain ⟨ss, hss⟩ : ∃ ss, s2.states = .expr :: ss := by
    cases h : s2.states with
    | nil => rw [h] at htop; cases htop
    | cons a l => rw [h] at htop; simp at htop; exact ⟨l, by rw [htop]⟩
  have hh := pop_here (s := s4) (by rw [q8.states, fr7, hss]) (q8.fit l2) (by rw [q8.buf]; exact l3)
  have hrange := fresh_run e8
  have hsrc7 : ∀ b ∈ src, s7.lex.src = b := fun b hb => by
    rw [(pconsume_fr _ _ _ e7).src, (peek_fr _ _ _ hp).src, q12.src, (partsLoop_fr hfr k k _ _ _ e10).src]; exact hsrc9 b hb
  have hend : Pt src q.range.r s7.lex.rem := fun b hb => by
    have := f6.right
    rw [← l5, hsrc7 b hb] at this; exact this
  refine ⟨_, [], Hr.sync ⟨hh, fun b hb => ?_, ?_⟩ _, rfl, h0, h1, mergeFragments fs, rfl, ?_, ?_⟩
  · show (resetBuf s4).lex.src = b
    rw [resetBuf_src, q8.src]; exact hsrc7 b hb
  · unfold lastCur
    simp only [resetBuf_eaten, q8.eaten, l6]
    rw [q8.rem]; exact hend
  · rw [explode_merge, q8.rem]
    have hrd := string_read f6.tok
    obtain ⟨-, -, e⟩ := l4.eq f6.tok
    have := j2 [] (((stringRules b).quote) ++ s7.lex.rem) (by
      cases hrd with
      | eof hk' => rw [hq] at hk'; cases b <;> cases hk'
      | close _ h h' =>
        rw [e, ← h]
        exact .close (by rw [h]; exact List.prefix_append _ _) h'
      | interp hk' => rw [hq] at hk'; cases b <;> cases hk'
      | esc hk' => rw [hq] at hk'; cases b <;> cases hk'
      | part hk' => rw [hq] at hk'; cases b <;> cases hk')
    rwa [List.append_nil] at this
  · rw [hrange]
    refine ⟨hfront, ?_⟩
    rw [q8.rem]; exact hend

end

end Verif.Nixf.Syntax
