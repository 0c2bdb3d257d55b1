import Verif.Lemmas.CplSimple
/-
Completeness of the parser: simple expressions, selections, function calls and operators.
-/
namespace Verif.Nixf.Syntax
open Lexical Strings

section
variable {R : Rec} (hR : Cpl2 R) (k : Nat)
include hR

theorem parseExprParen_cpl {S : List TK} {s : PState} {r r1 r2 r' v1 v2 : Bytes} {e : Syn} (hs : At S s r) (h1 : Tok r .l_paren v1 r1)
    (hg : G .expr r1 [e] r2) (h2 : Tok r2 .r_paren v2 r') : Cpl S (parseExprParen R k) s r' (Is (.paren e)) := by
  unfold parseExprParen
  refine .peek hs h1 fun t s1 hk hv i1 => ?_
  quietc
  rename_i i2
  refine .consume i2 h1 fun s3 i3 => .sync i3 fun s4 i4 => .call (hR.expr i4 hg h2 rfl) fun x s5 i5 hx => ?_
  refine .need i5 hx.1 fun s6 i6 => .expect i6 h2 fun t2 s7 hk2 _ i7 => .consume i7 h2 fun s8 i8 => ?_
  quietc
  rename_i i9
  refine .mute i9 (.when fun _ => emitD_mute rfl) fun _ s10 i10 => ?_
  quietc
  refine .pure (by assumption) ⟨rfl, ?_⟩
  show Syn.paren (syn x) = _
  rw [hx.2]

omit hR in
/-- The first token of a list of elements. -/
theorem first_elems {r r' : Bytes} {l : List Syn} (h : G .elems r l r') {v q : Bytes} {kd : TK} (hf : Tok r' kd v q) (hk : endsSelect kd) :
    ∃ k v r1, Tok r k v r1 ∧ endsSelect k := by
  cases h with
  | noElem => exact ⟨_, _, _, hf, hk⟩
  | elem h =>
    obtain ⟨k, v, r1, h1, h2⟩ := first_select h
    exact ⟨k, v, r1, h1, startsSimple_ends h2⟩

theorem listLoop_cpl (j : Nat) : ∀ {S : List TK} {s : PState} {r r' v : Bytes} {q : Bytes} {es : List Syn}, At S s r → G .elems r es r' →
    Tok r' .r_bracket v q → Cpl S (listLoop R j) s r' fun a => synL a = es := by
  induction j with
  | zero => intro S s r r' v q es _ _ _ a s' h; cases h
  | succ j ih =>
    intro S s r r' v q es hs hg hf
    unfold listLoop
    cases hg with
    | noElem =>
      refine .peek hs hf fun t s1 hk hv i1 => ?_
      rw [if_pos hk]
      exact .pure i1 rfl
    | elem g1 g2 =>
      obtain ⟨k1, v1, r1, h1, h2⟩ := first_select g1
      obtain ⟨k2, v2, r2, h3, h4⟩ := first_elems g2 hf ⟨by decide, by decide⟩
      refine .peek hs h1 fun t s1 hk hv i1 => ?_
      rw [if_neg (by rw [hk]; rintro rfl; cases h2)]
      refine .call (hR.select i1 g1 h3 h4) fun x s2 i2 hx => ?_
      rw [if_neg (by rw [hx.1]; simp)]
      refine .call (ih i2 g2 hf) fun a s3 i3 ha => .pure i3 ?_
      show syn x :: synL a = _
      rw [hx.2, ha]

theorem parseExprList_cpl {S : List TK} {s : PState} {r r1 r2 r' v1 v2 : Bytes} {es : List Syn} (hs : At S s r) (h1 : Tok r .l_bracket v1 r1)
    (hg : G .elems r1 es r2) (h2 : Tok r2 .r_bracket v2 r') : Cpl S (parseExprList R k) s r' (Is (.list es)) := by
  unfold parseExprList
  refine .peek hs h1 fun t s1 hk hv i1 => ?_
  rw [if_neg (by simp [hk])]
  refine .consume i1 h1 fun s3 i3 => .sync i3 fun s4 i4 => .call (listLoop_cpl hR k i4 hg h2) fun x s5 i5 hx => ?_
  refine .expectOr i5 h2 fun t s6 i6 _ => ?_
  quietc
  refine .pure (by assumption) ⟨rfl, ?_⟩
  show Syn.list (synL x) = _
  rw [hx]

theorem parseExprSimple_cpl {S : List TK} {s : PState} {r r' : Bytes} {t : Syn} (hs : At S s r) (hg : G .simple r [t] r') :
    Cpl S (parseExprSimple R k) s r' (Is t) := by
  unfold parseExprSimple
  cases hg with
  | var ht =>
    refine .peek hs ht fun t s1 hk hv i1 => ?_
    simp only [hk]
    refine .consume i1 ht fun s2 i2 => ?_
    quietc
    exact .pure (by assumption) ⟨rfl, by rw [← hv]; rfl⟩
  | int ht hd =>
    refine .peek hs ht fun t s1 hk hv i1 => ?_
    simp only [hk]
    refine .consume i1 ht fun s2 i2 => .whenNot i2 (by rw [hv, hd]; simp) fun s3 i3 => ?_
    quietc
    refine .pure (by assumption) ⟨rfl, ?_⟩
    rw [hv, hd]; rfl
  | float ht =>
    refine .peek hs ht fun t s1 hk hv i1 => ?_
    simp only [hk]
    refine .consume i1 ht fun s2 i2 => ?_
    quietc
    exact .pure (by assumption) ⟨rfl, by rw [← hv]; rfl⟩
  | spath ht =>
    refine .peek hs ht fun t s1 hk hv i1 => ?_
    simp only [hk]
    refine .consume i1 ht fun s2 i2 => ?_
    quietc
    exact .pure (by assumption) ⟨rfl, by rw [← hv]; rfl⟩
  | uri ht =>
    refine .peek hs ht fun t s1 hk hv i1 => ?_
    simp only [hk]
    refine .consume i1 ht fun s2 i2 => .parts i2 fun hd s3 i3 => ?_
    quietc
    rename_i i4
    refine .mute i4 (emitD_mute rfl) fun _ s5 i5 => .pure i5 ⟨rfl, ?_⟩
    show Syn.str (synParts (mergeFragments [.text t.view])) = _
    rw [synParts_merge, synParts_text, show synParts [] = [] from rfl, List.append_nil, hv]
  | str ht hb =>
    refine .peek hs ht fun t s1 hk hv i1 => ?_
    simp only [hk]
    refine (parseString_cpl hR k false i1 ht hb).imp fun a ⟨h, h', fs, ha, hl⟩ => ?_
    subst ha
    exact ⟨rfl, by rw [← hl]; rfl⟩
  | ind ht hb =>
    refine .peek hs ht fun t s1 hk hv i1 => ?_
    simp only [hk]
    refine (parseString_cpl hR k true i1 ht hb).imp fun a ⟨h, h', fs, ha, hl⟩ => ?_
    subst ha
    exact ⟨rfl, by rw [← hl]; rfl⟩
  | pathLit ht hb =>
    refine .peek hs ht fun t s1 hk hv i1 => ?_
    simp only [hk]
    exact parseExprPath_cpl hR k i1 ht hb
  | paren ht he hc =>
    refine .peek hs ht fun t s1 hk hv i1 => ?_
    simp only [hk]
    exact parseExprParen_cpl hR k i1 ht he hc
  | list ht he hc =>
    refine .peek hs ht fun t s1 hk hv i1 => ?_
    simp only [hk]
    exact parseExprList_cpl hR k i1 ht he hc
  | set ht he hc =>
    refine .peek hs ht fun t s1 hk hv i1 => ?_
    simp only [hk]
    refine (parseExprAttrs_cpl hR k i1 ht he hc).imp fun a ⟨h, b, st, dy, ha, hb⟩ => ?_
    subst ha
    refine ⟨rfl, ?_⟩
    rcases hb with ⟨rfl, rfl⟩ | ⟨_, _, rfl, rfl⟩ <;> rfl
  | recSet ht h1 he hc =>
    refine .peek hs ht fun t s1 hk hv i1 => ?_
    simp only [hk]
    exact parseExprAttrsRec_cpl hR k i1 ht h1 he hc

omit hR in
theorem parseExprSimple_none {S : List TK} {s : PState} {r r1 v : Bytes} {kd : TK} (hs : At S s r) (ht : Tok r kd v r1) (hk : startsSimple kd = false) :
    Cpl S (parseExprSimple R k) s r (· = .null) := by
  unfold parseExprSimple
  refine .peek hs ht fun t s1 hk1 hv i1 => ?_
  split
  all_goals first
    | (rename_i h; rw [hk1] at h; subst h; cases hk; done)
    | exact .pure i1 rfl

theorem parseExprSelect_cpl {S : List TK} {s : PState} {r r' q v : Bytes} {t : Syn} {kd : TK} (hs : At S s r) (hg : G .select r [t] r')
    (hf : Tok r' kd v q) (hkd : endsSelect kd) : Cpl S (parseExprSelect R k) s r' (Is t) := by
  unfold parseExprSelect
  cases hg with
  | simple g =>
    refine .call (parseExprSimple_cpl hR k hs g) fun e s1 i1 he => ?_
    rw [if_neg (by rw [he.1]; simp)]
    refine .peek i1 hf fun t s2 hk hv i2 => ?_
    rw [if_pos (by rw [hk]; exact hkd.1)]
    exact .pure i2 he
  | select g hd gp =>
    refine .call (parseExprSimple_cpl hR k hs g) fun e s1 i1 he => ?_
    rw [if_neg (by rw [he.1]; simp)]
    refine .peek i1 hd fun t s2 hk hv i2 => ?_
    rw [if_neg (by simp [hk])]
    quietc
    rename_i i3
    refine .consume i3 hd fun s4 i4 => .call (parseAttrPath_cpl hR k i4 gp hf hkd.1) fun p s5 i5 ⟨hp, ms, ds, hpe, hms⟩ => ?_
    subst hpe
    refine .whenNot i5 (by simp [Node.isNull]) fun s6 i6 => .peek i6 hf fun t2 s7 hk2 hv2 i7 => ?_
    rw [if_pos (by rw [hk2]; exact hkd.2)]
    quietc
    refine .pure (by assumption) ⟨rfl, ?_⟩
    show Syn.select (syn e) (synL ms) = _
    rw [he.2, hms]
  | selectOr g hd gp ho gd =>
    refine .call (parseExprSimple_cpl hR k hs g) fun e s1 i1 he => ?_
    rw [if_neg (by rw [he.1]; simp)]
    refine .peek i1 hd fun t s2 hk hv i2 => ?_
    rw [if_neg (by simp [hk])]
    quietc
    rename_i i3
    refine .consume i3 hd fun s4 i4 => .call (parseAttrPath_cpl hR k i4 gp ho (by decide)) fun p s5 i5 ⟨hp, ms, ds, hpe, hms⟩ => ?_
    subst hpe
    refine .whenNot i5 (by simp [Node.isNull]) fun s6 i6 => .peek i6 ho fun t2 s7 hk2 hv2 i7 => ?_
    rw [if_neg (by simp [hk2])]
    refine .consume i7 ho fun s8 i8 => .call (hR.select i8 gd hf hkd) fun d s9 i9 hdd => .whenNot i9 (by simp [hdd.1]) fun s10 i10 => ?_
    quietc
    refine .pure (by assumption) ⟨rfl, ?_⟩
    rw [syn_selectOr hdd.1, he.2, hms, hdd.2]

omit hR in
theorem parseExprSelect_none {S : List TK} {s : PState} {r r1 v : Bytes} {kd : TK} (hs : At S s r) (ht : Tok r kd v r1) (hk : startsSimple kd = false) :
    Cpl S (parseExprSelect R k) s r (· = .null) := by
  unfold parseExprSelect
  refine .call (parseExprSimple_none k hs ht hk) fun n s1 h1 hn => ?_
  subst hn
  exact .pure h1 rfl

/-! ### Function calls -/

/-- The token does not continue a function call. -/
def endsApp (k : TK) : Prop := endsSelect k ∧ startsSimple k = false

omit hR in
theorem first_args {r r' : Bytes} {l : List Syn} (h : G .args r l r') : ∃ k v r1, Tok r k v r1 ∧ startsSimple k = true := by
  cases h with
  | lastArg h => exact first_select h
  | moreArgs h => exact first_select h

theorem appLoop_cpl (j : Nat) : ∀ {S : List TK} {s : PState} {r r' v q : Bytes} {as : List Syn} {kd : TK}, At S s r →
    (as = [] ∧ r' = r ∨ G .args r as r') →
    Tok r' kd v q → endsApp kd → Cpl S (appLoop R k j) s r' fun a => synL a = as := by
  induction j with
  | zero => intro S s r r' v q es kd _ _ _ _ a s' h; cases h
  | succ j ih =>
    intro S s r r' v q es kd hs hg hf hkd
    unfold appLoop
    rcases hg with ⟨rfl, rfl⟩ | hg
    · refine .call (parseExprSelect_none k hs hf hkd.2) fun n s1 h1 hn => ?_
      subst hn
      exact .pure h1 rfl
    · cases hg with
      | lastArg g1 =>
        refine .call (parseExprSelect_cpl hR k hs g1 hf hkd.1) fun x s1 i1 hx => ?_
        rw [if_neg (by rw [hx.1]; simp)]
        refine .call (ih i1 (.inl ⟨rfl, rfl⟩) hf hkd) fun a s3 i3 ha => .pure i3 ?_
        show syn x :: synL a = _
        rw [hx.2, ha]
      | moreArgs g1 g2 =>
        obtain ⟨k1, v1, r1, h1, h2⟩ := first_args g2
        refine .call (parseExprSelect_cpl hR k hs g1 h1 (startsSimple_ends h2)) fun x s1 i1 hx => ?_
        rw [if_neg (by rw [hx.1]; simp)]
        refine .call (ih i1 (.inr g2) hf hkd) fun a s3 i3 ha => .pure i3 ?_
        show syn x :: synL a = _
        rw [hx.2, ha]

omit hR in
/-- What `parseExprSelect` returns. -/
def isSel : Syn → Bool
  | .var _ | .int _ | .float _ | .spath _ | .str _ | .path _ | .paren _ | .list _ | .set .. | .select .. | .selectOr .. => true
  | _ => false

omit hR in
theorem isSel_select {r r' : Bytes} {t : Syn} (h : G .select r [t] r') : isSel t = true := by
  cases h with
  | select => rfl
  | selectOr => rfl
  | simple h => cases h <;> rfl

omit hR in
theorem maybeLambda_syn {n : Node} (h1 : isSel (syn n) = true) (h2 : callable (syn n) = true) : n.maybeLambda = true := by
  revert h1 h2
  unfold syn
  split <;> intro h1 h2 <;> first | rfl | (cases h1; done) | (cases h2; done)

theorem parseExprApp_cpl {S : List TK} {s : PState} {r r' q v : Bytes} {t : Syn} {kd : TK} (hs : At S s r) (hg : G .app r [t] r')
    (hf : Tok r' kd v q) (hkd : endsApp kd) : Cpl S (parseExprApp R k) s r' (Is t) := by
  unfold parseExprApp
  cases hg with
  | one g =>
    refine .call (parseExprSelect_cpl hR k hs g hf hkd.1) fun e s1 i1 he => ?_
    split
    · exact .pure i1 he
    · refine .call (appLoop_cpl hR k k i1 (.inl ⟨rfl, rfl⟩) hf hkd) fun as s2 i2 has => ?_
      cases as with
      | nil => exact .pure i2 he
      | cons => cases has
  | call g hc ga =>
    obtain ⟨k1, v1, r1, h1, h2⟩ := first_args ga
    refine .call (parseExprSelect_cpl hR k hs g h1 (startsSimple_ends h2)) fun e s1 i1 he => ?_
    have hl : e.maybeLambda = true := maybeLambda_syn (by rw [he.2]; exact isSel_select g) (by rw [he.2]; exact hc)
    rw [if_neg (by rw [he.1, hl]; simp)]
    refine .call (appLoop_cpl hR k k i1 (.inr ga) hf hkd) fun as s2 i2 has => ?_
    split
    · rename_i ha
      rw [List.getLast?_eq_none_iff.mp ha] at has
      cases ga <;> cases has
    · quietc
      refine .pure (by assumption) ⟨rfl, ?_⟩
      show Syn.call (syn e) (synL as) = _
      rw [he.2, has]

/-! ### Operators -/

/-- The token does not continue an operand `t` of an operator with right power `p`. -/
def endsOp (p : Nat) (t : Syn) (k : TK) : Prop :=
  endsApp k ∧ k ≠ .question ∧ ∀ pl pr, powers k = some (pl, pr) → pl < p ∧ ∀ q ∈ rightPowers t, pl < q

/-- The token may follow a left operand `l`. -/
def afterOp (l : Syn) (k : TK) : Prop :=
  endsApp k ∧ (k = .question → rightPowers l = []) ∧ ∀ pl pr, powers k = some (pl, pr) → ∀ q ∈ rightPowers l, pl < q

omit hR in
theorem powers_ends {k : TK} {p : Nat × Nat} (h : powers k = some p) : endsApp k := by
  refine ⟨⟨?_, ?_⟩, ?_⟩
  · rintro rfl; cases h
  · rintro rfl; cases h
  · cases k <;> first | rfl | cases h

omit hR in
theorem first_tail {p : Nat} {l t : Syn} {r r' v q : Bytes} {kd : TK} (hg : G (.tail p l) r [t] r') (hf : Tok r' kd v q) (hkd : endsOp p t kd) :
    ∃ k v r1, Tok r k v r1 ∧ afterOp l k := by
  cases hg with
  | stop => exact ⟨_, _, _, hf, hkd.1, fun h => absurd h hkd.2.1, fun pl pr h => (hkd.2.2 pl pr h).2⟩
  | bin h1 h2 h3 h4 =>
    refine ⟨_, _, _, h1, powers_ends h2, fun h => (by rw [h] at h2; cases h2), fun pl pr h => ?_⟩
    rw [h2] at h; cases h
    exact h4
  | has h1 h2 => exact ⟨_, _, _, h1, ⟨⟨by decide, by decide⟩, rfl⟩, fun _ => h2, fun _ _ h => nomatch h⟩
  | hasNone h1 h2 => exact ⟨_, _, _, h1, ⟨⟨by decide, by decide⟩, rfl⟩, fun _ => h2, fun _ _ h => nomatch h⟩

omit hR in
/-- The operand of an operator ends where the expression does. -/
theorem afterOp.ends {l t : Syn} {p : Nat} {k : TK} (h : afterOp l k) (hl : rightPowers l = p :: rightPowers t) : endsOp p t k := by
  obtain ⟨h1, h2, h3⟩ := h
  refine ⟨h1, ?_, fun pl pr hp => ?_⟩
  · intro hk
    have := h2 hk
    rw [hl] at this; cases this
  · have := h3 pl pr hp
    rw [hl] at this
    exact ⟨this p (by simp), fun q hq => this q (by simp [hq])⟩

omit hR in
theorem unPower_kind {k : TK} {p : Nat} (h : unPower k = some p) : (k = .op_not ∨ k = .op_negate) ∧ p = getUnaryBP k := by
  cases k <;> first | (cases h; done) | (cases h; exact ⟨by decide, rfl⟩)

omit hR in
theorem first_app {r r' : Bytes} {l : List Syn} (h : G .app r l r') : ∃ k v r1, Tok r k v r1 ∧ startsSimple k = true := by
  cases h with
  | one h => exact first_select h
  | call h => exact first_select h

theorem op_cpl (j : Nat) :
    (∀ {p : Nat} {S : List TK} {s : PState} {r r' v q : Bytes} {t : Syn} {kd : TK}, At S s r → G (.op p) r [t] r' → Tok r' kd v q → endsOp p t kd →
      Cpl S (parseExprOpBP R k j p) s r' (Is t)) ∧
    (∀ {p : Nat} {pre : Node} {l : Syn} {S : List TK} {s : PState} {r r' v q : Bytes} {t : Syn} {kd : TK}, At S s r → Is l pre → G (.tail p l) r [t] r' →
      Tok r' kd v q → endsOp p t kd → Cpl S (opLoop R k j p pre) s r' (Is t)) := by
  induction j with
  | zero => exact ⟨fun _ _ _ _ a s' h => (nomatch h), fun _ _ _ _ _ a s' h => (nomatch h)⟩
  | succ j ih =>
    obtain ⟨ih1, ih2⟩ := ih
    constructor
    · intro p S s r r' v q t kd hs hg hf hkd
      unfold parseExprOpBP
      cases hg with
      | opr ga gt =>
        obtain ⟨k1, v1, r1, h1, h2⟩ := first_tail gt hf hkd
        cases ga with
        | app g =>
          obtain ⟨k0, v0, r0, h3, h4⟩ := first_app g
          refine .peek hs h3 fun t0 s1 hk hv i1 => ?_
          rw [if_neg (by rw [hk]; rintro (rfl | rfl) <;> cases h4)]
          refine .call (parseExprApp_cpl hR k i1 g h1 h2.1) fun e s2 i2 he => ?_
          rw [if_neg (by rw [he.1]; simp)]
          exact ih2 i2 he gt hf hkd
        | un ht hu g =>
          obtain ⟨hk0, rfl⟩ := unPower_kind hu
          refine .peek hs ht fun t0 s1 hk hv i1 => ?_
          rw [if_pos (by rw [hk]; exact hk0)]
          refine .consume i1 ht fun s2 i2 => ?_
          quietc
          rename_i i3
          rw [hk]
          refine .call (ih1 i3 g h1 (h2.ends ?_)) fun e s4 i4 he => .need i4 he.1 fun s5 i5 => ?_
          · show (unPower _).elim 0 id :: _ = _
            rw [hu]; rfl
          quietc
          rename_i i6
          refine ih2 i6 ⟨rfl, ?_⟩ gt hf hkd
          show Syn.un _ (syn e) = _
          rw [he.2]
    · intro p pre l S s r r' v q t kd hs hpre hg hf hkd
      unfold opLoop
      cases hg with
      | stop =>
        refine .peek hs hf fun t0 s1 hk hv i1 => ?_
        split
        · rename_i lbp rbp hbp
          rw [getBP_powers, hk] at hbp
          rw [if_pos (hkd.2.2 _ _ hbp).1]
          exact .pure i1 hpre
        · rw [if_neg (by rw [hk]; exact hkd.2.1), if_neg (by rw [hk]; exact hkd.1.1.2)]
          exact .pure i1 hpre
      | bin ht hp hlt hq ge gt =>
        obtain ⟨k1, v1, r1, h1, h2⟩ := first_tail gt hf hkd
        refine .peek hs ht fun t0 s1 hk hv i1 => ?_
        rw [show getBP t0.kind = _ by rw [getBP_powers, hk, hp]]
        dsimp only
        rw [if_neg (by omega)]
        refine .whenNot i1 (by omega) fun s2 i2 => .consume i2 ht fun s3 i3 => ?_
        quietc
        rename_i i4
        refine .call (ih1 i4 ge h1 (h2.ends ?_)) fun e s5 i5 he => ?_
        · show (powers _).elim 0 (·.2) :: _ = _
          rw [hp]; rfl
        rw [if_neg (by rw [he.1]; simp)]
        quietc
        rename_i i6
        refine ih2 i6 ⟨rfl, ?_⟩ gt hf hkd
        show Syn.bin t0.kind (syn pre) (syn e) = _
        rw [hk, hpre.2, he.2]
      | has ht hq gp gt =>
        obtain ⟨k1, v1, r1, h1, h2⟩ := first_tail gt hf hkd
        refine .peek hs ht fun t0 s1 hk hv i1 => ?_
        rw [show getBP t0.kind = none by rw [hk]; rfl]
        dsimp only
        rw [if_pos hk]
        refine .consume i1 ht fun s3 i3 => ?_
        quietc
        rename_i i4
        refine .call (parseAttrPath_cpl hR k i4 gp h1 h2.1.1.1) fun e s5 i5 ⟨hd, ms, ds, he, hms⟩ => ?_
        subst he
        quietc
        rename_i i6
        refine ih2 i6 ⟨rfl, ?_⟩ gt hf hkd
        show Syn.has (syn pre) (synL ms) = _
        rw [hpre.2, hms]
      | hasNone ht hq hn gt =>
        obtain ⟨k1, v1, r1, h1, h2⟩ := first_tail gt hf hkd
        refine .peek hs ht fun t0 s1 hk hv i1 => ?_
        rw [show getBP t0.kind = none by rw [hk]; rfl]
        dsimp only
        rw [if_pos hk]
        refine .consume i1 ht fun s3 i3 => ?_
        quietc
        rename_i i4
        have hk1 : startsName k1 = false := by
          obtain ⟨n1, n2, n3, n4⟩ := hn _ _ _ h1
          unfold startsName; split <;> simp_all
        refine .call (parseAttrPath_none k i4 h1 hk1) fun e s5 i5 he => ?_
        subst he
        quietc
        rename_i i6
        refine ih2 i6 ⟨rfl, ?_⟩ gt hf hkd
        show Syn.has (syn pre) [] = _
        rw [hpre.2]

omit hR in
theorem endsExpr_op {k : TK} (h : endsExpr k = true) (t : Syn) : endsOp 0 t k := by
  cases k <;> first | (cases h; done) | exact ⟨⟨⟨by decide, by decide⟩, rfl⟩, by decide, fun _ _ h => nomatch h⟩

end
end Verif.Nixf.Syntax
