import Verif.Lemmas.CplLambda
/-
Completeness of the parser: keywords, the look-ahead of `parseExpr`, and the whole source.
-/
namespace Verif.Nixf.Syntax
open Lexical Strings

section
variable {R : Rec} (hR : Cpl2 R) (k : Nat) {S : List TK} {s : PState} {v q : Bytes} {kd : TK}
include hR

theorem parseElse_cpl {r r1 r' v1 : Bytes} {e : Syn} {t : Token} {c th : Node} (hs : At S s r) (h1 : Tok r .kw_else v1 r1) (hg : G .expr r1 [e] r')
    (hf : Tok r' kd v q) (hkd : endsExpr kd = true) : Cpl S (parseElse R k t c th) s r' fun a => ∃ h x, a = .exprIf h c th x ∧ Is e x := by
  unfold parseElse mkIf
  refine .expect hs h1 fun t s1 hk hv i1 => .consume i1 h1 fun s2 i2 => .call (hR.expr i2 hg hf hkd) fun x s3 i3 hx => ?_
  refine .whenNot i3 (by rw [hx.1]; simp) fun s4 i4 => ?_
  quietc
  exact .pure (by assumption) ⟨_, _, rfl, hx⟩

theorem parseThen_cpl {r r1 r2 r3 r' v1 v2 : Bytes} {th e : Syn} {t : Token} {c : Node} (hs : At S s r) (h1 : Tok r .kw_then v1 r1) (hg1 : G .expr r1 [th] r2)
    (h2 : Tok r2 .kw_else v2 r3) (hg2 : G .expr r3 [e] r') (hf : Tok r' kd v q) (hkd : endsExpr kd = true) :
    Cpl S (parseThen R k t c) s r' fun a => ∃ h x y, a = .exprIf h c x y ∧ Is th x ∧ Is e y := by
  unfold parseThen
  refine .expect hs h1 fun t s1 hk hv i1 => .consume i1 h1 fun s2 i2 => .call (hR.expr i2 hg1 h2 rfl) fun x s3 i3 hx => ?_
  rw [if_neg (by rw [hx.1]; simp)]
  exact (parseElse_cpl hR k i3 h2 hg2 hf hkd).imp fun a ⟨h, y, ha, hy⟩ => ⟨h, x, y, ha, hx, hy⟩

theorem parseExprIf_cpl {r r0 r1 r2 r3 r4 r' v0 v1 v2 : Bytes} {c th e : Syn} (hs : At S s r) (h0 : Tok r .kw_if v0 r0) (hg0 : G .expr r0 [c] r1)
    (h1 : Tok r1 .kw_then v1 r2) (hg1 : G .expr r2 [th] r3)
    (h2 : Tok r3 .kw_else v2 r4) (hg2 : G .expr r4 [e] r') (hf : Tok r' kd v q) (hkd : endsExpr kd = true) :
    Cpl S (parseExprIf R k) s r' (Is (.ite c th e)) := by
  unfold parseExprIf
  refine .peek hs h0 fun t s1 hk hv i1 => .consume i1 h0 fun s2 i2 => .sync i2 fun s3 i3 => .sync i3 fun s4 i4 => ?_
  refine .call (hR.expr i4 hg0 h1 rfl) fun x s5 i5 hx => ?_
  rw [if_neg (by rw [hx.1]; simp)]
  refine (parseThen_cpl hR k i5 h1 hg1 h2 hg2 hf hkd).imp fun a ⟨h, y, z, ha, hy, hz⟩ => ?_
  subst ha
  refine ⟨rfl, ?_⟩
  show Syn.ite (syn x) (syn y) (syn z) = _
  rw [hx.2, hy.2, hz.2]

theorem parseExprAssert_cpl {r r1 r2 r3 r' v1 v2 : Bytes} {c e : Syn} (hs : At S s r) (h1 : Tok r .kw_assert v1 r1) (hg1 : G .expr r1 [c] r2)
    (h2 : Tok r2 .semi_colon v2 r3) (hg2 : G .expr r3 [e] r') (hf : Tok r' kd v q) (hkd : endsExpr kd = true) :
    Cpl S (parseExprAssert R k) s r' (Is (.assert c e)) := by
  unfold parseExprAssert parseAssertValue mkAssert
  refine .peek hs h1 fun t s1 hk hv i1 => .consume i1 h1 fun s2 i2 => .sync i2 fun s3 i3 => ?_
  refine .call (hR.expr i3 hg1 h2 rfl) fun x s5 i5 hx => ?_
  rw [if_neg (by rw [hx.1]; simp)]
  refine .expect i5 h2 fun t s6 hk hv i6 => .consume i6 h2 fun s7 i7 => .call (hR.expr i7 hg2 hf hkd) fun y s8 i8 hy => .need i8 hy.1 fun s9 i9 => ?_
  quietc
  refine .pure (by assumption) ⟨rfl, ?_⟩
  show Syn.assert (syn x) (syn y) = _
  rw [hx.2, hy.2]

theorem parseExprWith_cpl {r r1 r2 r3 r' v1 v2 : Bytes} {c e : Syn} (hs : At S s r) (h1 : Tok r .kw_with v1 r1) (hg1 : G .expr r1 [c] r2)
    (h2 : Tok r2 .semi_colon v2 r3) (hg2 : G .expr r3 [e] r') (hf : Tok r' kd v q) (hkd : endsExpr kd = true) :
    Cpl S (parseExprWith R k) s r' (Is (.with_ c e)) := by
  unfold parseExprWith
  refine .peek hs h1 fun t s1 hk hv i1 => .consume i1 h1 fun s2 i2 => .misc i2 fun hd s2 i2 => .sync i2 fun s3 i3 => ?_
  refine .call (hR.expr i3 hg1 h2 rfl) fun x s5 i5 hx => .need i5 hx.1 fun s5 i5 => ?_
  refine .expect i5 h2 fun t s6 hk hv i6 => .misc i6 fun hd s6 i6 => .consume i6 h2 fun s7 i7 => .call (hR.expr i7 hg2 hf hkd) fun y s8 i8 hy => .need i8 hy.1 fun s9 i9 => ?_
  quietc
  refine .pure (by assumption) ⟨rfl, ?_⟩
  show Syn.with_ (syn x) (syn y) = _
  rw [hx.2, hy.2]

omit hR in
theorem letAttrs_cpl {r : Bytes} {b kw : Node} {bs : List Syn} (hs : At S s r) (hb : BindsAre b bs) :
    Cpl S (letAttrs b kw) s r fun a => ∀ h kl ki e, syn (.exprLet h kl ki e a) = .let_ bs (syn e) := by
  unfold letAttrs
  rcases hb with ⟨rfl, rfl⟩ | ⟨hd, ns, rfl, rfl⟩
  · rw [if_pos (by rfl)]
    exact .pure hs fun _ _ _ _ => rfl
  · rw [if_neg (by simp [Node.isNull])]
    intro a s' e
    have := hs.mute (sema_mute (fun _ _ => onExprAttrs_mild)) e
    obtain ⟨h, st, dy, rfl, -⟩ := onExprAttrs_shape e
    exact ⟨this, fun _ _ _ _ => rfl⟩

theorem parseExprLet_cpl {r r1 r2 r3 r' v1 v2 : Bytes} {bs : List Syn} {e : Syn} (hs : At S s r) (h1 : Tok r .kw_let v1 r1) (hg1 : G .binds r1 bs r2)
    (h2 : Tok r2 .kw_in v2 r3) (hg2 : G .expr r3 [e] r') (hf : Tok r' kd v q) (hkd : endsExpr kd = true) :
    Cpl S (parseExprLet R k) s r' (Is (.let_ bs e)) := by
  unfold parseExprLet
  refine .peek hs h1 fun t s1 hk hv i1 => .misc i1 fun hd s1 i1 => .consume i1 h1 fun s2 i2 => .sync i2 fun s3 i3 => ?_
  refine .call (parseBinds_cpl hR k i3 hg1 h2 (.inr rfl) (by simp)) fun b s4 i4 hb => .call (letAttrs_cpl i4 hb) fun x s5 i5 hx => ?_
  refine .expect i5 h2 fun t s6 hk hv i6 => .misc i6 fun hd s6 i6 => .consume i6 h2 fun s7 i7 => .call (hR.expr i7 hg2 hf hkd) fun y s8 i8 hy => .need i8 hy.1 fun s9 i9 => ?_
  quietc
  refine .pure (by assumption) ⟨rfl, ?_⟩
  rw [hx, hy.2]

omit hR in
theorem legacyClose_cpl {r r' v1 : Bytes} {t : Token} {c : Cursor} (hs : At S s r) (h1 : Tok r .r_curly v1 r') :
    Cpl S (legacyClose k t c) s r' fun _ => True := by
  unfold legacyClose
  exact .expect hs h1 fun t s1 hk hv i1 => .consume i1 h1 fun s2 i2 => .pure i2 trivial

theorem parseExprLegacyLet_cpl {r r1 r2 r3 r' v1 v2 v3 : Bytes} {bs : List Syn} (hs : At S s r) (h1 : Tok r .kw_let v1 r1) (h2 : Tok r1 .l_curly v2 r2)
    (hg1 : G .binds r2 bs r3) (h3 : Tok r3 .r_curly v3 r') : Cpl S (parseExprLegacyLet R k) s r' (Is (.legacyLet bs)) := by
  unfold parseExprLegacyLet
  refine .peek hs h1 fun t s1 hk hv i1 => .misc i1 fun hd s1 i1 => .consume i1 h1 fun s2 i2 => .sync i2 fun s3 i3 => ?_
  refine .peek i3 h2 fun tl s4 hk hv i4 => .expectMay i4 h2 fun s5 i5 => ?_
  refine .call (parseBinds_cpl hR k i5 hg1 h3 (.inl rfl) (by simp)) fun b s6 i6 hb => ?_
  quietc
  rename_i i7
  refine .call (legacyClose_cpl k i7 h3) fun x s8 i8 _ => ?_
  quietc
  rename_i i9
  have hattrs : ∀ {S' : List TK} {x kw s}, At S' s r' → Cpl S' (sema fun _ => onExprAttrs x b kw) s r' fun a => ∀ h kl, syn (.exprLegacyLet h kl a) = .legacyLet bs := by
    intro S' x kw s hs a s' e
    have := hs.mute (sema_mute (fun _ _ => onExprAttrs_mild)) e
    obtain ⟨h, st, dy, rfl, -⟩ := onExprAttrs_shape e
    refine ⟨this, fun _ _ => ?_⟩
    rcases hb with ⟨rfl, rfl⟩ | ⟨_, _, rfl, rfl⟩ <;> rfl
  refine .call (hattrs i9) fun a s10 i10 ha => .mute i10 get_mute fun _ s11 i11 => .mute i11 (emitD_mute rfl) fun _ s12 i12 => ?_
  refine .mute i12 (.when fun _ => emitD_mute rfl) fun _ s13 i13 => ?_
  quietc
  exact .pure (by assumption) ⟨rfl, ha _ _⟩

end

/-! ### Look-ahead -/

/-- The parser has looked at the tokens `ks`; the text `r1` comes after them. -/
structure LAt (S : List TK) (s : PState) (r : Bytes) (B : List Token) (ks : List TK) (r1 : Bytes) : Prop where
  clean : Clean s
  sync : s.sync = S
  looked : Looked none s r B ks r1

theorem LAt.at {S : List TK} {s : PState} {r r1 : Bytes} {B : List Token} {ks : List TK} (h : LAt S s r B ks r1) : At S s r := by
  obtain ⟨B', h1, -⟩ := h.looked.ex
  exact ⟨h.clean, h.sync, B', h1.toHere⟩

theorem LAt.peek {β : Type} {S : List TK} {s : PState} {r r1 r2 r' v : Bytes} {B : List Token} {ks : List TK} {k : TK} {f : TK → PM β} {P : β → Prop} {n : Nat}
    (h : LAt S s r B ks r1) (hn : ks.length = n) (hq : ∀ k ∈ ks.getLast?, isQuote k = false) (ht : Tok r1 k v r2)
    (hk : ∀ s1, LAt S s1 r B (ks ++ [k]) r2 → Cpl S (f k) s1 r' P) : Cpl S (peekKind n >>= f) s r' P := by
  subst hn
  intro a s' e
  obtain ⟨k', s1, e1, e2⟩ := run_bind e
  have hc : Clean s1 := by
    obtain ⟨B', h1, -, h3⟩ := h.looked.ex
    unfold peekKind at e1
    obtain ⟨t, s2, e3, e4⟩ := run_bind e1
    obtain ⟨-, rfl⟩ := run_pure e4
    exact peek_clean h1.toHere h3 h.clean h.looked.toks rfl ht e3
  obtain ⟨v', r2', h2, h3⟩ := h.looked.step hq e1 hc
  obtain ⟨rfl, rfl, rfl⟩ := h2.eq ht
  exact hk s1 ⟨hc, (peekKind_fr _ _ _ e1).sync.trans h.sync, h3⟩ a s' e2

theorem lookAhead_cpl {S : List TK} {s : PState} {r r' : Bytes} {ks : List TK} {l : Look} (hs : At S s r) (hk : Toks r ks r') (hl : LookOk l ks) :
    Cpl S lookAhead s r (· = l) := by
  obtain ⟨hc, hy, B, hB⟩ := hs
  have i0 : LAt S s r B [] r := ⟨hc, hy, ⟨⟨B, .of_none hB, .inl rfl, Nat.zero_le _⟩, .nil _⟩⟩
  unfold lookAhead
  cases hk with
  | nil => cases hl
  | cons t0 hk =>
    refine i0.peek rfl (by simp) t0 fun s1 i1 => ?_
    cases hk with
    | nil =>
      cases hl with
      | if_ => exact .pure i1.at rfl
      | assert_ => exact .pure i1.at rfl
      | with_ => exact .pure i1.at rfl
      | op5 h =>
        split
        all_goals first
          | (exfalso; simp at h; done)
          | exact .pure i1.at rfl
    | cons t1 hk =>
      cases hk with
      | nil =>
        cases hl with
        | lam1 h =>
          refine i1.peek rfl (by simp [isQuote]) t1 fun s2 i2 => .pure i2.at ?_
          rw [if_pos h]
        | op1 h =>
          refine i1.peek rfl (by simp [isQuote]) t1 fun s2 i2 => .pure i2.at ?_
          rw [if_neg h]
        | lam5 => exact i1.peek rfl (by simp [isQuote]) t1 fun s2 i2 => .pure i2.at rfl
        | op4 h =>
          refine i1.peek rfl (by simp [isQuote]) t1 fun s2 i2 => ?_
          split
          all_goals first
            | (exfalso; simp at h; done)
            | exact .pure i2.at rfl
        | let_ h =>
          refine i1.peek rfl (by simp [isQuote]) t1 fun s2 i2 => .pure i2.at ?_
          rw [if_pos h]
        | legacyLet => exact i1.peek rfl (by simp [isQuote]) t1 fun s2 i2 => .pure i2.at rfl
      | cons t2 hk =>
        cases hk with
        | nil =>
          cases hl with
          | lam2 h =>
            refine i1.peek rfl (by simp [isQuote]) t1 fun s2 i2 => i2.peek rfl (by simp [isQuote]) t2 fun s3 i3 => ?_
            simp only [List.mem_cons, List.not_mem_nil, or_false] at h
            rcases h with rfl | rfl | rfl | rfl | rfl | rfl <;> exact .pure i3.at rfl
          | op2 h =>
            refine i1.peek rfl (by simp [isQuote]) t1 fun s2 i2 => i2.peek rfl (by simp [isQuote]) t2 fun s3 i3 => ?_
            split
            all_goals first
              | (exfalso; simp at h; done)
              | exact .pure i3.at rfl
          | lam4 h =>
            refine i1.peek rfl (by simp [isQuote]) t1 fun s2 i2 => i2.peek rfl (by simp [isQuote]) t2 fun s3 i3 => .pure i3.at ?_
            rw [if_pos h]
          | op3 h =>
            refine i1.peek rfl (by simp [isQuote]) t1 fun s2 i2 => i2.peek rfl (by simp [isQuote]) t2 fun s3 i3 => .pure i3.at ?_
            rw [if_neg h]
        | cons t3 hk =>
          cases hl with
          | lam3 h =>
            refine i1.peek rfl (by simp [isQuote]) t1 fun s2 i2 => i2.peek rfl (by simp [isQuote]) t2 fun s3 i3 => i3.peek rfl (by simp [isQuote]) t3 fun s4 i4 => .pure i4.at ?_
            rw [if_pos h]
          | attrs h =>
            refine i1.peek rfl (by simp [isQuote]) t1 fun s2 i2 => i2.peek rfl (by simp [isQuote]) t2 fun s3 i3 => i3.peek rfl (by simp [isQuote]) t3 fun s4 i4 => .pure i4.at ?_
            rw [if_neg h]

/-! ### The first tokens of expressions -/

/-- The token that ends the set is not that of a function. -/
def noLam (k : TK) : Prop := ¬ (k = .at_ ∨ k = .colon)

theorem noLam_simple {k : TK} (h : startsSimple k = true) : noLam k := by rintro (rfl | rfl) <;> cases h
theorem noLam_powers {k : TK} {p : Nat × Nat} (h : powers k = some p) : noLam k := by rintro (rfl | rfl) <;> cases h
theorem noLam_ends {k : TK} (h : endsExpr k = true) : noLam k := by rintro (rfl | rfl) <;> cases h

/-- The phrase begins with a simple expression that is not followed by the token of a function. -/
def Begins (r : Bytes) : Prop := ∃ t r1 k v q, G .simple r [t] r1 ∧ Tok r1 k v q ∧ noLam k

theorem begins_select {r r' v q : Bytes} {t : Syn} {kd : TK} (h : G .select r [t] r') (hf : Tok r' kd v q) (hk : noLam kd) : Begins r := by
  cases h with
  | simple h => exact ⟨_, _, _, _, _, h, hf, hk⟩
  | select h hd => exact ⟨_, _, _, _, _, h, hd, by rintro (h | h) <;> cases h⟩
  | selectOr h hd => exact ⟨_, _, _, _, _, h, hd, by rintro (h | h) <;> cases h⟩

theorem begins_app {r r' v q : Bytes} {t : Syn} {kd : TK} (h : G .app r [t] r') (hf : Tok r' kd v q) (hk : noLam kd) : Begins r := by
  cases h with
  | one h => exact begins_select h hf hk
  | call h _ ha =>
    obtain ⟨k, v, r1, h1, h2⟩ := first_args ha
    exact begins_select h h1 (noLam_simple h2)

theorem begins_op {p : Nat} {r r' v q : Bytes} {t : Syn} {kd : TK} (h : G (.op p) r [t] r') (hf : Tok r' kd v q) (hk : noLam kd) :
    Begins r ∨ ∃ k v r1, Tok r k v r1 ∧ (k = .op_not ∨ k = .op_negate) := by
  cases h with
  | opr ha ht =>
    cases ha with
    | un h1 h2 _ => exact .inr ⟨_, _, _, h1, (unPower_kind h2).1⟩
    | app h =>
      refine .inl ?_
      cases ht with
      | stop => exact begins_app h hf hk
      | bin h1 h2 => exact begins_app h h1 (noLam_powers h2)
      | has h1 => exact begins_app h h1 (by rintro (h | h) <;> cases h)
      | hasNone h1 => exact begins_app h h1 (by rintro (h | h) <;> cases h)

theorem look_simple {r : Bytes} (h : Begins r) : ∃ ks r1, Toks r ks r1 ∧ LookOk .op ks := by
  obtain ⟨t, r1, k, v, q, h, hf, hk⟩ := h
  have simple : ∀ {k v q}, Tok r k v q → k ∉ [TK.id_, .l_curly, .kw_if, .kw_assert, .kw_let, .kw_with] → ∃ ks r1, Toks r ks r1 ∧ LookOk .op ks :=
    fun h1 h2 => ⟨_, _, .cons h1 (.nil _), .op5 h2⟩
  cases h with
  | var h => exact ⟨_, _, .cons h (.cons hf (.nil _)), .op1 hk⟩
  | int h _ => exact simple h (by decide)
  | float h => exact simple h (by decide)
  | spath h => exact simple h (by decide)
  | uri h => exact simple h (by decide)
  | str h _ => exact simple h (by decide)
  | ind h _ => exact simple h (by decide)
  | pathLit h _ => exact simple h (by decide)
  | paren h _ _ => exact simple h (by decide)
  | list h _ _ => exact simple h (by decide)
  | recSet h _ _ _ => exact simple h (by decide)
  | set h hb hc =>
    cases hb with
    | noBind => exact ⟨_, _, .cons h (.cons hc (.cons hf (.nil _))), .op3 hk⟩
    | inherit h1 => exact ⟨_, _, .cons h (.cons h1 (.nil _)), .op4 (by decide)⟩
    | inheritFrom h1 => exact ⟨_, _, .cons h (.cons h1 (.nil _)), .op4 (by decide)⟩
    | binding hp he =>
      cases hp with
      | path hn hd =>
        cases hn with
        | name hn =>
          cases hd with
          | noDot => exact ⟨_, _, .cons h (.cons hn (.cons he (.nil _))), .op2 (by decide)⟩
          | dot hd => exact ⟨_, _, .cons h (.cons hn (.cons hd (.nil _))), .op2 (by decide)⟩
        | orName hn => exact ⟨_, _, .cons h (.cons hn (.nil _)), .op4 (by decide)⟩
        | strName hn => exact ⟨_, _, .cons h (.cons hn (.nil _)), .op4 (by decide)⟩
        | interpName hn => exact ⟨_, _, .cons h (.cons hn (.nil _)), .op4 (by decide)⟩

theorem look_op {p : Nat} {r r' v q : Bytes} {t : Syn} {kd : TK} (h : G (.op p) r [t] r') (hf : Tok r' kd v q) (hk : noLam kd) :
    ∃ ks r1, Toks r ks r1 ∧ LookOk .op ks := by
  rcases begins_op h hf hk with h | ⟨k, v, r1, h1, h2⟩
  · exact look_simple h
  · exact ⟨_, _, .cons h1 (.nil _), .op5 (by rcases h2 with rfl | rfl <;> decide)⟩

/-- A set of formals whose first one has no comma, and the token after it. -/
theorem look_formals {r r' v q : Bytes} {fs : List Syn} {kd : TK} (h : G .formals r fs r') (hc : ∀ f ∈ fs.head?, hasComma f = false)
    (hf : Tok r' kd v q) (hk : kd = .at_ ∨ kd = .colon) : ∃ ks r1, Toks r ks r1 ∧ LookOk .lambda ks := by
  cases h with
  | formals h1 hm h2 hok =>
    cases hm with
    | noMember => exact ⟨_, _, .cons h1 (.cons h2 (.cons hf (.nil _))), .lam4 hk⟩
    | members hg hm =>
      obtain ⟨k3, v3, r3, h3, h4⟩ := first_members hm h2 hok.1
      have hx := hc _ rfl
      cases hg with
      | comma hv ha =>
        cases ha <;> cases hx
      | plain ha hne =>
        cases ha with
        | formal ha =>
          rcases h4 with rfl | rfl
          · exact ⟨_, _, .cons h1 (.cons ha (.cons h3 (.nil _))), .lam2 (by decide)⟩
          · cases hm with
            | noMember => exact ⟨_, _, .cons h1 (.cons ha (.cons h2 (.cons hf (.nil _)))), .lam3 hk.symm⟩
            | members hg =>
              obtain ⟨k, v, r1, h5, -, h6⟩ := first_member hg
              cases h6 (hok.1 _ (by simp))
              cases (h5.eq h3).1
        | formalOr ha hq => exact ⟨_, _, .cons h1 (.cons ha (.cons hq (.nil _))), .lam2 (by decide)⟩
        | ellipsis ha => exact ⟨_, _, .cons h1 (.cons ha (.nil _)), .lam5⟩
        | lone => exact absurd rfl hne

theorem look_arg {r r' v q : Bytes} {a : Syn} (h : G .arg r [a] r') (hf : Tok r' .colon v q) : ∃ ks r1, Toks r ks r1 ∧ LookOk .lambda ks := by
  cases h with
  | argName h => exact ⟨_, _, .cons h (.cons hf (.nil _)), .lam1 (.inr rfl)⟩
  | argAt h h1 => exact ⟨_, _, .cons h (.cons h1 (.nil _)), .lam1 (.inl rfl)⟩
  | argSet h hc => exact look_formals h hc hf (.inr rfl)
  | atArg h hc h1 h2 => exact look_formals h hc h1 (.inl rfl)

/-! ### Expressions -/

theorem parseExpr_cpl {R : Rec} (hR : Cpl2 R) (k : Nat) {S : List TK} {s : PState} {r r' v q : Bytes} {t : Syn} {kd : TK} (hs : At S s r)
    (hg : G .expr r [t] r') (hf : Tok r' kd v q) (hkd : endsExpr kd = true) : Cpl S (parseExpr R k) s r' (Is t) := by
  unfold parseExpr
  cases hg with
  | op h =>
    obtain ⟨ks, r1, h1, h2⟩ := look_op h hf (noLam_ends hkd)
    refine .call (lookAhead_cpl hs h1 h2) fun l s1 i1 hl => ?_
    subst hl
    exact (op_cpl hR k k).1 i1 h hf (endsExpr_op hkd t)
  | lambda ha hc hb =>
    obtain ⟨ks, r1, h1, h2⟩ := look_arg ha hc
    refine .call (lookAhead_cpl hs h1 h2) fun l s1 i1 hl => ?_
    subst hl
    exact parseExprLambda_cpl hR k i1 ha hc hb hf hkd
  | ite h1 g1 h2 g2 h3 g3 =>
    refine .call (lookAhead_cpl hs (.cons h1 (.nil _)) .if_) fun l s1 i1 hl => ?_
    subst hl
    exact parseExprIf_cpl hR k i1 h1 g1 h2 g2 h3 g3 hf hkd
  | assert h1 g1 h2 g2 =>
    refine .call (lookAhead_cpl hs (.cons h1 (.nil _)) .assert_) fun l s1 i1 hl => ?_
    subst hl
    exact parseExprAssert_cpl hR k i1 h1 g1 h2 g2 hf hkd
  | with_ h1 g1 h2 g2 =>
    refine .call (lookAhead_cpl hs (.cons h1 (.nil _)) .with_) fun l s1 i1 hl => ?_
    subst hl
    exact parseExprWith_cpl hR k i1 h1 g1 h2 g2 hf hkd
  | let_ h1 g1 h2 g2 =>
    obtain ⟨k3, v3, r3, h3, h4⟩ := first_binds g1 h2
    refine .call (lookAhead_cpl hs (.cons h1 (.cons h3 (.nil _))) (.let_ ?_)) fun l s1 i1 hl => ?_
    · rintro rfl
      rcases h4 with h4 | h4 | h4 <;> cases h4
    subst hl
    exact parseExprLet_cpl hR k i1 h1 g1 h2 g2 hf hkd
  | legacyLet h1 h2 g h3 =>
    refine .call (lookAhead_cpl hs (.cons h1 (.cons h2 (.nil _))) .legacyLet) fun l s1 i1 hl => ?_
    subst hl
    exact parseExprLegacyLet_cpl hR k i1 h1 h2 g h3

theorem recN_cpl (n : Nat) : Cpl2 (recN n) := by
  induction n with
  | zero => exact ⟨recN_sound 0, fun _ _ _ _ a s' e => (nomatch e), fun _ _ _ _ a s' e => (nomatch e)⟩
  | succ n ih =>
    exact ⟨recN_sound (n + 1), fun hs hg hf hk => parseExpr_cpl ih n hs hg hf hk, fun hs hg hf hk => parseExprSelect_cpl ih n hs hg hf hk⟩

/-- An expression is parsed without syntax errors. -/
theorem parse_complete {src : Bytes} {t : Syn} {a : Node} {s' : PState} (h : Accepts src t) (e : parse src = some (a, s')) :
    Clean s' ∧ a.isNull = false ∧ syn a = t := by
  obtain ⟨r, v, hg, hf⟩ := h
  have hs : At [] (.init src) src := ⟨(fun _ h => nomatch h), rfl, _, (init_here src).toHere⟩
  have : Cpl [] (parseTop (src.length + 3)) (.init src) r (Is t) := by
    unfold parseTop
    refine .call ((recN_cpl _).expr hs hg hf rfl) fun x s1 i1 hx => .peek i1 hf fun t s2 hk hv i2 => .whenNot i2 (by simp [hk]) fun s3 i3 => .pure i3 hx
  obtain ⟨h1, h2, h3⟩ := this a s' e
  exact ⟨h1.clean, h2, h3⟩

/-- A source without tokens is parsed to nothing, without syntax errors. -/
theorem parse_empty {src v : Bytes} {a : Node} {s' : PState} (h : Tok src .eof v []) (e : parse src = some (a, s')) : Clean s' ∧ a = .null := by
  have hs : At [] (.init src) src := ⟨(fun _ h => nomatch h), rfl, _, (init_here src).toHere⟩
  have hop : ∀ {R : Rec} {k j p : Nat} {S s}, At S s src → Cpl S (parseExprOpBP R k j p) s src (· = .null) := by
    intro R k j p S s hs
    cases j with
    | zero => intro a s' e; cases e
    | succ j =>
      unfold parseExprOpBP
      refine .peek hs h fun t s1 hk hv i1 => ?_
      rw [if_neg (by rw [hk]; decide)]
      have happ : Cpl S (parseExprApp R k) s1 src (· = .null) := by
        unfold parseExprApp
        refine .call (parseExprSelect_none k i1 h rfl) fun n s2 i2 hn => ?_
        subst hn
        exact .pure i2 rfl
      refine .call happ fun n s2 i2 hn => ?_
      subst hn
      exact .pure i2 rfl
  have : Cpl [] (parseTop (src.length + 3)) (.init src) src (· = .null) := by
    unfold parseTop
    have hex : Cpl [] (recN (src.length + 3)).expr (.init src) src (· = .null) := by
      show Cpl [] (parseExpr _ _) _ _ _
      unfold parseExpr
      refine .call (lookAhead_cpl hs (.cons h (.nil _)) (.op5 (by decide))) fun l s1 i1 hl => ?_
      subst hl
      exact hop i1
    exact .call hex fun x s1 i1 hx => .peek i1 h fun t s2 hk hv i2 => .whenNot i2 (by simp [hk]) fun s3 i3 => .pure i3 hx
  obtain ⟨h1, h2⟩ := this a s' e
  exact ⟨h1.clean, h2⟩

end Verif.Nixf.Syntax
