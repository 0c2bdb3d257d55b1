import Verif.Lemmas.CplRules
/-
Completeness of the parser: interpolations, strings and paths.
-/
namespace Verif.Nixf.Syntax
open Lexical Strings

theorem Clean.to {s s' : PState} (hc : Clean s) (h : s'.lex.diags = s.lex.diags) : Clean s' := by
  unfold Clean at *; rw [h]; exact hc

section
variable {R : Rec} (hR : Cpl2 R) (k : Nat)
include hR

/-- The part of `parseInterpolation` after `${`. -/
theorem interp_cpl {s1 s' : PState} {a : Node} {r1 : Bytes} {x : CRange} {y : Bytes} {z : Cursor} {t : Syn} {r2 v r' : Bytes}
    (h : withSync .r_curly (withState .expr (do
      let e ← R.expr
      needExpr e b!"interpolation"
      let _ ← expectOr k .r_curly x y
      let c ← lastR
      let h ← fresh ⟨z, c⟩
      pure (.interpolation h e))) s1 = some (a, s'))
    (hc : Clean s1) (hp : Here { resetBuf s1 with states := .expr :: (resetBuf s1).states } r1 [])
    (hg : G .expr r1 [t] r2) (ht : Tok r2 .r_curly v r') :
    Clean s' ∧ s'.sync = s1.sync ∧ (∃ hd e, a = .interpolation hd e ∧ Is t e) ∧
      s'.buf = [] ∧ s'.lex.rem = r' ∧ Fit s' ∧ s'.states = s1.states ∧ s'.lex.src = s1.lex.src := by
  have hfr := hR.snd.fr
  have fr : Frame s1 s' := by
    refine Fr.sync (Fr.state ?_) _ _ _ h
    frame
  obtain ⟨s2, h2, rfl⟩ := withSync_run h
  clear h
  obtain ⟨s3, h3, rfl⟩ := withState_run h2
  clear h2
  have hp' := hp.sync (TK.r_curly :: s1.sync)
  have e0 := reset_sync s1 (TK.r_curly :: s1.sync) PS.expr
  rw [e0] at h3
  have hu : At (TK.r_curly :: s1.sync) { ({ resetBuf s1 with states := .expr :: (resetBuf s1).states } : PState) with sync := TK.r_curly :: s1.sync } r1 :=
    ⟨hc.to (resetBuf_diags _), rfl, _, hp'⟩
  generalize ({ ({ resetBuf s1 with states := .expr :: (resetBuf s1).states } : PState) with sync := TK.r_curly :: s1.sync } : PState) = u at h3 hp' hu
  obtain ⟨e, s4, e4, h3⟩ := run_bind h3
  obtain ⟨_, s5, e5, h3⟩ := run_bind h3
  obtain ⟨_, s6, e6, h3⟩ := run_bind h3
  obtain ⟨_, s7, e7, h3⟩ := run_bind h3
  obtain ⟨hd, s8, e8, h3⟩ := run_bind h3
  obtain ⟨rfl, rfl⟩ := run_pure h3
  obtain ⟨h4, he⟩ := hR.expr hu hg ht rfl _ _ e4
  obtain ⟨_, B4, hB4, hb4, -⟩ := hR.snd.expr (src := none) _ _ _ (.of_none hp') _ _ e4 h4.clean
  have hl4 : s4.buf.length ≤ 1 := by rw [hB4.buf]; exact hb4.of_nil
  have q5 := (needExpr_mute he.1 _ _ _ e5).1
  have h5 := h4.mute (needExpr_mute he.1) e5
  unfold expectOr at e6
  obtain ⟨o, s9, e9, e6⟩ := run_bind e6
  obtain ⟨t9, rfl, -, -, h9, hp9⟩ := h5.expect ht e9
  obtain ⟨_, s10, e10, e6⟩ := run_bind e6
  obtain ⟨rfl, rfl⟩ := run_pure e6
  obtain ⟨h10, h11⟩ := h9.consume ht e10
  have hl9 : s9.buf.length ≤ 1 := by
    unfold Nixf.peek at hp9
    simp only [Option.some.injEq, Prod.mk.injEq] at hp9
    rw [← hp9.2, pull_length, q5.buf]; omega
  obtain ⟨i1, i2⟩ := h11 (.inr hl9)
  have q7 := (lastR_mute _ _ _ e7).1
  have q8 := (fresh_mute _ _ _ e8).1
  have h12 := (h10.mute lastR_mute e7).mute fresh_mute e8
  have hbuf : s3.buf = [] := by rw [q8.buf, q7.buf, i1]
  have hrem : s3.lex.rem = r' := by rw [q8.rem, q7.rem, i2]
  have hres : resetBuf s3 = s3 := by unfold resetBuf; rw [hbuf]
  obtain ⟨B12, hB12⟩ := h12.here
  refine ⟨h12.clean.to (resetBuf_diags _), ?_, ⟨hd, e, rfl, he⟩, ?_, ?_, ?_, fr.states, fr.src⟩
  · show ((resetBuf s3).sync).erase _ = _
    rw [hres, h12.sync]; simp
  · show (resetBuf s3).buf = []; rw [hres, hbuf]
  · show (resetBuf s3).lex.rem = r'; rw [hres, hrem]
  · show Fit (resetBuf s3); rw [hres]; exact hB12.fit

/-- An interpolation outside of strings. -/
theorem interpolation_cpl {S : List TK} {s : PState} {r r1 r2 r' v v' : Bytes} {kd : TK} {t : Syn} (hs : At S s r) (h1 : Tok r kd v r1)
    (hg : G .expr r1 [t] r2) (ht : Tok r2 .r_curly v' r') :
    Cpl S (parseInterpolation R k) s r' fun a => ∃ hd e, a = .interpolation hd e ∧ Is t e := by
  unfold parseInterpolation
  refine .peek hs h1 fun t0 s1 _ _ g1 => .consume g1 h1 fun s2 g2 => ?_
  intro a s' h
  obtain ⟨B, hB⟩ := g2.here
  obtain ⟨i1, i2, i3, i4, i5, i6, i7, i8⟩ := interp_cpl hR k h g2.clean (push_here hB) hg ht
  exact ⟨⟨i1, i2.trans g2.sync, [], by rw [i7]; exact hB.top, i6, i4, .inl i5⟩, i3⟩

/-- An interpolation inside of a string. -/
theorem interpolationS_cpl {st : PS} (hst : st ≠ .expr) {s s' : PState} {r r1 r2 r' v : Bytes} {t : Syn} {t0 : Token} {a : Node} (hs : FrontS st s r t0)
    (h1 : TokS st r t0.kind t0.view r1) (hc : Clean s) (hg : G .expr r1 [t] r2) (ht : Tok r2 .r_curly v r')
    (h : parseInterpolation R k s = some (a, s')) :
    InS st s' r' ∧ Clean s' ∧ s'.sync = s.sync ∧ ∃ hd e, a = .interpolation hd e ∧ Is t e := by
  unfold parseInterpolation at h
  obtain ⟨t', s1, e1, h⟩ := run_bind h
  obtain ⟨_, s2, e2, h⟩ := run_bind h
  obtain ⟨g, gd⟩ := peekS hst hs.inS e1
  obtain ⟨i1, i2, i3, i4, i5, -⟩ := pconsumeS g e2
  obtain ⟨-, -, e⟩ := h1.eq hs.tok
  obtain ⟨-, -, e'⟩ := i4.eq hs.tok
  have hp : Here { resetBuf s2 with states := .expr :: (resetBuf s2).states } r1 [] := by
    have : resetBuf s2 = s2 := by unfold resetBuf; rw [i3]
    rw [this]
    exact ⟨rfl, i2, i3, .inl (by rw [e, ← e'])⟩
  obtain ⟨j1, j2, j3, j4, j5, j6, j7, j8⟩ := interp_cpl hR k h (hc.to (by rw [i5, gd])) hp hg ht
  refine ⟨⟨by rw [j7]; exact i1, j6, .inl ⟨j4, j5⟩⟩, j1, ?_, j3⟩
  rw [j2, (pconsume_fr _ _ _ e2).sync, (peek_fr _ _ _ e1).sync]

/-- A property of all runs. -/
def All {α : Type} (m : PM α) (s : PState) (Q : α → PState → Prop) : Prop := ∀ a s', m s = some (a, s') → Q a s'

omit hR in
theorem all {α : Type} {m : PM α} {s s' : PState} {a : α} {Q : α → PState → Prop} (h : All m s Q) (e : m s = some (a, s')) :
    Q a s' := h a s' e

theorem partsLoop_cpl {st : PS} (hst : st ≠ .expr) {Q : Rules} {close : TK} (hq : isQuote close = true) (hS : Sane Q) (hE : Q.esc [] = none)
    (hQ : ∀ r k v r', TokS st r k v r' → ReadS Q close r k v r') (j : Nat) :
    ∀ {s s' : PState} {r e : Bytes} {l : List Syn} {fs : List Node}, InS st s r → Clean s → G (.body Q) r l e → partsLoop R k j s = some (fs, s') →
      InS st s' e ∧ Clean s' ∧ s'.sync = s.sync ∧ synParts fs = l ∧ Q.quote <+: e ∧ Q.esc e = none := by
  induction j with
  | zero => intro s s' r e l fs _ _ _ h; cases h
  | succ j ih =>
    intro s s' r e l fs hs hc hg h
    unfold partsLoop at h
    obtain ⟨t, s1, e1, h⟩ := run_bind h
    obtain ⟨hf, hd⟩ := peekS hst hs e1
    have hc1 : Clean s1 := hc.to hd
    have hy1 := (peek_fr _ _ _ e1).sync
    have hrd := hQ _ _ _ _ hf.tok
    refine all (Q := fun fs s' => InS st s' e ∧ Clean s' ∧ s'.sync = s.sync ∧ synParts fs = l ∧ Q.quote <+: e ∧ Q.esc e = none) ?_ h
    clear h
    cases hrd with
    | eof hk hr =>
      subst hr
      exfalso
      cases hg with
      | close h => exact hS.pos (by simpa using h)
      | esc h => rw [hE] at h; cases h
    | close hk hr hn =>
      have hgg : l = [] ∧ r = e := by
        cases hg with
        | close => exact ⟨rfl, rfl⟩
        | esc h => rw [hn] at h; cases h
        | char _ h => exact absurd (by rw [hr]; exact List.prefix_append _ _) h
        | dollar => exact absurd (by rw [hr]; exact List.prefix_append _ _) (hS.quote _)
        | interp => exact absurd (by rw [hr]; exact List.prefix_append _ _) (hS.quote _)
      obtain ⟨rfl, rfl⟩ := hgg
      split <;> intro fs s' h
      · rename_i hk'; rw [← hk, hk'] at hq; cases hq
      · rename_i hk'; rw [← hk, hk'] at hq; cases hq
      · rename_i hk'; rw [← hk, hk'] at hq; cases hq
      · obtain ⟨rfl, rfl⟩ := run_pure h
        exact ⟨hf.inS, hc1, hy1, rfl, by rw [hr]; exact List.prefix_append _ _, hn⟩
    | interp hk hr hn =>
      have hgg : ∃ x l' r2 v r3, l = .interp x :: l' ∧ G .expr s1.lex.rem [x] r2 ∧ Tok r2 .r_curly v r3 ∧ G (.body Q) r3 l' e := by
        rw [hr] at hg hn
        generalize hz : (36 :: 123 :: s1.lex.rem : Bytes) = z at hg
        cases hg with
        | close h => rw [← hz] at h; exact absurd h (hS.quote _)
        | esc h => rw [← hz, hS.esc] at h; cases h
        | char h => cases hz; exact absurd rfl h
        | dollar h => cases hz; exact absurd hn h
        | interp _ h1 h2 h3 => cases hz; exact ⟨_, _, _, _, _, rfl, h1, h2, h3⟩
      obtain ⟨x, l', r2, v, r3, rfl, g1, g2, g3⟩ := hgg
      split <;> intro fs s' h
      · obtain ⟨i, s2, e2, h⟩ := run_bind h
        obtain ⟨fs', s3, e3, h⟩ := run_bind h
        obtain ⟨rfl, rfl⟩ := run_pure h
        obtain ⟨j1, j2, j3, hd, y, rfl, j4⟩ := interpolationS_cpl hR k hst hf hf.tok hc1 g1 g2 e2
        obtain ⟨k1, k2, k3, k4, k5⟩ := ih j1 j2 g3 e3
        refine ⟨k1, k2, k3.trans (j3.trans hy1), ?_, k5⟩
        show Syn.interp (syn y) :: synParts fs' = _
        rw [j4.2, k4]
      · rename_i hk'; rw [hk] at hk'; cases hk'
      · rename_i hk'; rw [hk] at hk'; cases hk'
      · rename_i hk' _ _; exact absurd hk hk'
    | esc hk hi =>
      obtain ⟨l', rfl, hg'⟩ := (hi.1 _ _).mp hg
      split <;> intro fs s' h
      · rename_i hk'; rw [hk] at hk'; cases hk'
      · rename_i hk'; rw [hk] at hk'; cases hk'
      · obtain ⟨_, s2, e2, h⟩ := run_bind h
        obtain ⟨fs', s3, e3, h⟩ := run_bind h
        obtain ⟨rfl, rfl⟩ := run_pure h
        obtain ⟨i1, i2, i3, i4, i5, -⟩ := pconsumeS hf e2
        obtain ⟨-, -, e⟩ := i4.eq hf.tok
        obtain ⟨k1, k2, k3, k4, k5⟩ := ih ⟨i1, i2, .inl ⟨i3, e⟩⟩ (hc1.to (by rw [i5])) hg' e3
        refine ⟨k1, k2, k3.trans ((pconsume_fr _ _ _ e2).sync.trans hy1), ?_, k5⟩
        rw [← k4]
        split
        · rename_i h; rw [h]; rfl
        · rw [synParts_text]
      · rename_i _ _ hk'; exact absurd hk hk'
    | part hk hi =>
      obtain ⟨l', rfl, hg'⟩ := (hi.1 _ _).mp hg
      split <;> intro fs s' h
      · rename_i hk'; rw [hk] at hk'; cases hk'
      · obtain ⟨_, s2, e2, h⟩ := run_bind h
        obtain ⟨fs', s3, e3, h⟩ := run_bind h
        obtain ⟨rfl, rfl⟩ := run_pure h
        obtain ⟨i1, i2, i3, i4, i5, -⟩ := pconsumeS hf e2
        obtain ⟨-, -, e⟩ := i4.eq hf.tok
        obtain ⟨k1, k2, k3, k4, k5⟩ := ih ⟨i1, i2, .inl ⟨i3, e⟩⟩ (hc1.to (by rw [i5])) hg' e3
        refine ⟨k1, k2, k3.trans ((pconsume_fr _ _ _ e2).sync.trans hy1), ?_, k5⟩
        rw [synParts_text, k4]
      · rename_i hk'; rw [hk] at hk'; cases hk'
      · rename_i _ hk' _; exact absurd hk hk'

omit hR in
theorem stringRules_sane (b : Bool) : Sane (stringRules b) := by
  cases b
  · exact sane_dq
  · exact sane_ind

omit hR in
theorem stringRules_esc (b : Bool) : (stringRules b).esc [] = none := by cases b <;> rfl

omit hR in
theorem indQuote_kind {r' : Bytes} (hn : codeIndEsc (39 :: 39 :: r') = none) : (lexIndString (.init (39 :: 39 :: r'))).1.kind = .quote2 := by
  have e1 : (consume 2 (St.init (39 :: 39 :: r'))).rem = r' := by rw [consume_rem]; rfl
  have hi : (St.init (39 :: 39 :: r')).rem = 39 :: 39 :: r' := rfl
  unfold lexIndString
  rw [hi]
  simp only
  split
  · unfold peekPrefix
    rw [e1]
    split
    · rename_i h4
      rcases r' with _ | ⟨d, q⟩
      · simp at h4
      · simp at h4
        rcases h4 with rfl | rfl <;> simp [codeIndEsc] at hn
    · split
      · rename_i h5
        rcases r' with _ | ⟨d, q⟩
        · simp at h5
        · simp at h5
          subst h5
          rcases q with _ | ⟨d, q⟩ <;> simp [codeIndEsc] at hn
      · rfl
  · rename_i hp
    exact absurd (by rfl) hp

omit hR in
/-- The token at a quote. -/
theorem quote_tok (b : Bool) {r' v e : Bytes} {kind : TK} (h : TokS (if b then .indString else .string) ((stringRules b).quote ++ r') kind v e)
    (hn : (stringRules b).esc ((stringRules b).quote ++ r') = none) : kind = (if b then .quote2 else .dquote) ∧ e = r' := by
  have hS := stringRules_sane b
  have hg : G (.body (stringRules b)) ((stringRules b).quote ++ r') [] ((stringRules b).quote ++ r') := .close (List.prefix_append _ _) hn
  cases string_read h with
  | eof hk hr => exact absurd hr (by simp [hS.pos])
  | close hk hr => exact ⟨hk, (List.append_cancel_left hr).symm⟩
  | interp hk hr => exact absurd (by rw [← hr]; exact List.prefix_append _ _) (hS.quote (123 :: e))
  | esc hk hi =>
    exfalso
    obtain ⟨h1, h2, h3⟩ := h
    cases b
    · change (lexString _).1.kind = _ at h1
      subst h1
      simp [stringRules, dqCode, lexString, St.init, finishToken] at hk
    · exact absurd (indQuote_kind (r' := r') hn) (by change (lexIndString _).1.kind = _ at h1; rw [← h1] at hk; intro h; change (lexIndString (.init (39 :: 39 :: r'))).1.kind = _ at hk; rw [hk] at h; cases h)
  | part hk hi =>
    exfalso
    obtain ⟨h1, h2, h3⟩ := h
    cases b
    · change (lexString _).1.kind = _ at h1
      subst h1
      simp [stringRules, dqCode, lexString, St.init, finishToken] at hk
    · exact absurd (indQuote_kind (r' := r') hn) (by change (lexIndString _).1.kind = _ at h1; rw [← h1] at hk; intro h; change (lexIndString (.init (39 :: 39 :: r'))).1.kind = _ at hk; rw [hk] at h; cases h)

theorem parseString_cpl (b : Bool) {S : List TK} {s : PState} {r r1 r' v : Bytes} {l : List Syn} (hs : At S s r)
    (ht : Tok r (if b then .quote2 else .dquote) v r1) (hg : G (.body (stringRules b)) r1 l ((stringRules b).quote ++ r')) :
    Cpl S (parseString R k b) s r' fun a => ∃ h h' fs, a = .exprString h (.parts h' fs) ∧ synParts fs = l := by
  unfold parseString
  refine .peek hs ht fun t s1 hk1 _ g1 => ?_
  intro a s' h
  obtain ⟨_, s2, e2, h⟩ := run_bind h
  obtain ⟨g2, g2'⟩ := g1.consume ht e2
  obtain ⟨hb2, hr2⟩ := g2' (.inl (by cases b <;> rfl))
  obtain ⟨B2, hB2⟩ := g2.here
  obtain ⟨s3, h3, rfl⟩ := withSync_run h
  clear h
  obtain ⟨s4, h4, rfl⟩ := withState_run h3
  clear h3
  have hres : resetBuf { s2 with sync := (if b = true then TK.quote2 else TK.dquote) :: s2.sync } =
      { s2 with sync := (if b = true then TK.quote2 else TK.dquote) :: s2.sync } := by
    unfold resetBuf; simp only [hb2]
  rw [hres] at h4
  obtain ⟨p, s5, e5, h4⟩ := run_bind h4
  have hst : (if b = true then PS.indString else PS.string) ≠ .expr := by cases b <;> decide
  have hfr := hR.snd.fr
  -- the parts
  unfold parseStringParts at e5
  obtain ⟨_, s9, e9, e5⟩ := run_bind e5
  obtain ⟨fs, s10, e10, e5⟩ := run_bind e5
  obtain ⟨_, s11, e11, e5⟩ := run_bind e5
  unfold mkParts at e5
  obtain ⟨h1, s12, e12, e5⟩ := run_bind e5
  obtain ⟨rfl, rfl⟩ := run_pure e5
  obtain ⟨f9, d9⟩ := peekS hst (r := r1) (by exact ⟨rfl, hB2.fit, .inl ⟨hb2, hr2⟩⟩) e9
  have hc9 : Clean s9 := Clean.to (s := s2) g2.clean d9
  obtain ⟨j1, j2, j3, j4, j5, j6⟩ := partsLoop_cpl hR k hst (Q := stringRules b) (close := if b = true then .quote2 else .dquote)
    (by cases b <;> rfl) (stringRules_sane b) (stringRules_esc b) (fun _ _ _ _ h => string_read h) k f9.inS hc9 hg e10
  have q12 := (lastR_mute _ _ _ e11).1.trans (fresh_mute _ _ _ e12).1
  have hc5 : Clean s5 := (fresh_mute _ _ _ e12).2 ((lastR_mute _ _ _ e11).2 j2)
  obtain ⟨o, s6, e6, h4⟩ := run_bind h4
  cases hp : Nixf.peek 0 s5 with
  | none => unfold Nixf.peek at hp; cases hp
  | some pr =>
    obtain ⟨q, s13⟩ := pr
    obtain ⟨f6, d6⟩ := peekS hst (j1.same q12) hp
    obtain ⟨hq, hr⟩ := quote_tok b f6.tok j6
    rw [expect_ok hp hq] at e6
    cases e6
    obtain ⟨_, s7, e7, h4⟩ := run_bind h4
    obtain ⟨h0, s8, e8, h4⟩ := run_bind h4
    obtain ⟨rfl, rfl⟩ := run_pure h4
    obtain ⟨l1, l2, l3, l4, l5, -⟩ := pconsumeS f6 e7
    have q8 := (fresh_mute _ _ _ e8).1
    have hc4 : Clean s4 := (fresh_mute _ _ _ e8).2 (hc5.to (by rw [l5, d6]))
    have fr7 : s7.states = (if b = true then PS.indString else PS.string) :: s2.states := by
      rw [(pconsume_fr _ _ _ e7).states, (peek_fr _ _ _ hp).states, q12.states, (partsLoop_fr hfr k k _ _ _ e10).states,
        (peek_fr _ _ _ e9).states]
    have sy7 : s7.sync = (if b = true then TK.quote2 else TK.dquote) :: s2.sync := by
      rw [(pconsume_fr _ _ _ e7).sync, (peek_fr _ _ _ hp).sync, q12.sync, (partsLoop_fr hfr k k _ _ _ e10).sync,
        (peek_fr _ _ _ e9).sync]
    have htop := hB2.top
    obtain ⟨ss, hss⟩ : ∃ ss, s2.states = .expr :: ss := by
      cases h : s2.states with
      | nil => rw [h] at htop; cases htop
      | cons a l => rw [h] at htop; simp at htop; exact ⟨l, by rw [htop]⟩
    have hh := pop_here (s := s4) (by rw [q8.states, fr7, hss]) (q8.fit l2) (by rw [q8.buf]; exact l3)
    have hrem : s4.lex.rem = r' := by rw [q8.rem, l5, hr]
    rw [hrem] at hh
    have hres4 : resetBuf s4 = s4 := by unfold resetBuf; rw [show s4.buf = [] by rw [q8.buf]; exact l3]
    refine ⟨⟨hc4.to (resetBuf_diags _), ?_, [], hh.sync _⟩, h0, h1, mergeFragments fs, rfl, by rw [synParts_merge, j4]⟩
    show (resetBuf s4).sync.erase _ = _
    rw [hres4, q8.sync, sy7, List.erase_cons_head, g2.sync]

/-! ### Paths -/

theorem pathLoop_cpl (j : Nat) : ∀ {s s' : PState} {r e : Bytes} {l : List Syn} {p : List Node × Cursor}, InS .path s r → Clean s →
    G .pbody r l e → pathLoop R k j s = some (p, s') → (∃ t, FrontS .path s' e t) ∧ Clean s' ∧ s'.sync = s.sync ∧ synParts p.1 = l := by
  have hst : PS.path ≠ .expr := by decide
  induction j with
  | zero => intro s s' r e l p _ _ _ h; cases h
  | succ j ih =>
    intro s s' r e l p hs hc hg h
    unfold pathLoop at h
    obtain ⟨t, s1, e1, h⟩ := run_bind h
    obtain ⟨_, s2, e2, h⟩ := run_bind h
    obtain ⟨n, s3, e3, h⟩ := run_bind h
    obtain ⟨f1, d1⟩ := peekS hst hs e1
    obtain ⟨i1, i2, i3, i4, i5, -⟩ := pconsumeS f1 e2
    obtain ⟨f3, d3⟩ := peekS hst ⟨i1, i2, .inl ⟨i3, rfl⟩⟩ e3
    have hc3 : Clean s3 := hc.to (by rw [d3, i5, d1])
    have hy3 : s3.sync = s.sync := by rw [(peek_fr _ _ _ e3).sync, (pconsume_fr _ _ _ e2).sync, (peek_fr _ _ _ e1).sync]
    refine all (Q := fun p s' => (∃ t, FrontS .path s' e t) ∧ Clean s' ∧ s'.sync = s.sync ∧ synParts p.1 = l) ?_ h
    clear h
    cases hg with
    | pend h1 h2 =>
      obtain ⟨-, hv, rfl⟩ := (tokP_iff.mp h1).eq i4
      obtain ⟨hk, -, -⟩ := (tokP_iff.mp h2).eq f3.tok
      rw [if_pos hk.symm]
      intro p s' h
      obtain ⟨rfl, rfl⟩ := run_pure h
      refine ⟨⟨n, f3⟩, hc3, hy3, ?_⟩
      show synParts [.text t.view] = _
      rw [synParts_text, show synParts [] = [] from rfl, List.append_nil, hv]
    | pinterp h1 h2 h3 h4 h5 =>
      obtain ⟨-, hv, rfl⟩ := (tokP_iff.mp h1).eq i4
      obtain ⟨hk, -, hr⟩ := (tokP_iff.mp h2).eq f3.tok
      rw [if_neg (by rw [← hk]; decide), if_pos hk.symm]
      intro p s' h
      obtain ⟨i, s4, e4, h⟩ := run_bind h
      obtain ⟨⟨fs, e⟩, s5, e5, h⟩ := run_bind h
      obtain ⟨rfl, rfl⟩ := run_pure h
      rw [hr] at h3
      obtain ⟨g1, g2, g3, hd, x, rfl, g4⟩ := interpolationS_cpl hR k hst f3 f3.tok hc3 h3 h4 e4
      obtain ⟨k1, k2, k3, k4⟩ := ih g1 g2 h5 e5
      refine ⟨k1, k2, k3.trans (g3.trans hy3), ?_⟩
      show synParts (.text t.view :: .interpolation hd x :: fs) = _
      rw [synParts_text]
      show _ ++ Syn.interp (syn x) :: synParts fs = _
      rw [g4.2, k4, hv]
    | ptext h1 h2 h3 h4 h5 =>
      obtain ⟨-, hv, rfl⟩ := (tokP_iff.mp h1).eq i4
      obtain ⟨hk, -, hr⟩ := (tokP_iff.mp h2).eq f3.tok
      rw [if_neg (by rw [← hk]; exact h3), if_neg (by rw [← hk]; exact h4)]
      intro p s' h
      obtain ⟨_, s4, e4, h⟩ := run_bind h
      obtain ⟨⟨fs, e⟩, s5, e5, h⟩ := run_bind h
      obtain ⟨rfl, rfl⟩ := run_pure h
      have q := assertFail_mute _ _ _ e4
      obtain ⟨k1, k2, k3, k4⟩ := ih (f3.same q.1).inS (q.2 hc3) h5 e5
      refine ⟨k1, k2, k3.trans (q.1.sync.trans hy3), ?_⟩
      show synParts (.text t.view :: fs) = _
      rw [synParts_text, k4, hv]

theorem parseExprPath_cpl {S : List TK} {s : PState} {r r1 r' v : Bytes} {kd : TK} {ps : List Syn} (hs : At S s r) (ht : Tok r kd v r1)
    (hg : G .pbody (skip r) ps r') :
    Cpl S (parseExprPath R k) s r' (Is (.path ps)) := by
  unfold parseExprPath
  intro a s' h
  obtain ⟨b, s1, e1, h⟩ := run_bind h
  obtain ⟨⟨fs, e⟩, s2, e2, h⟩ := run_bind h
  obtain ⟨g1, -, -, ts, g2⟩ := hs.peek ht e1
  have hfr := hR.snd.fr
  have hpl := pathLoop_fr hfr k k
  obtain ⟨s6, e6, rfl⟩ := withState_run e2
  have hres : resetBuf s1 = { s1 with lex := setCur b.range.l s1.lex, buf := [] } := by
    unfold resetBuf; rw [g2.buf]
  obtain ⟨_, g3, ⟨g4, -⟩, -⟩ := g2.lexed
  have hin : InS .path { resetBuf s1 with states := .path :: (resetBuf s1).states } (skip r) := by
    rw [hres]
    exact ⟨rfl, rfl, .inl ⟨rfl, g4⟩⟩
  have fr6 := hpl _ _ _ e6
  obtain ⟨⟨t2, g5⟩, g6, g7, g8⟩ := pathLoop_cpl hR k k hin (g1.clean.to (resetBuf_diags _)) hg e6
  have hres' : resetBuf s6 = { s6 with lex := setCur t2.range.l s6.lex, buf := [] } := by
    unfold resetBuf; rw [g5.buf]
  have hA : At S { resetBuf s6 with states := (resetBuf s6).states.tail } r' := by
    have htop := g2.top
    refine ⟨g6.to (resetBuf_diags _), ?_, [], ?_⟩
    · show (resetBuf s6).sync = _
      rw [hres']
      show s6.sync = _
      rw [g7, hres]
      exact g1.sync
    · rw [hres'] at *
      refine ⟨?_, rfl, rfl, .inl g5.left⟩
      show s6.states.tail.head? = _
      rw [fr6.states]
      show (resetBuf s1).states.head? = _
      rw [hres]; exact htop
  refine Cpl.parts (P := Is (.path ps)) (f := fun parts => do
      let h ← fresh ⟨b.range.l, e⟩
      pure (.exprPath h parts)) hA (fun hd s7 h7 => ?_) _ _ h
  quietc
  refine .pure (by assumption) ⟨rfl, ?_⟩
  show Syn.path (synParts (mergeFragments fs)) = _
  rw [synParts_merge, g8]

end
end Verif.Nixf.Syntax
