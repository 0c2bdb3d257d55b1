import Verif.Lemmas.SynLambda
/-
Soundness of the parser: keywords, the look-ahead of `parseExpr`, and the whole source.
-/
namespace Verif.Nixf.Syntax
open Lexical Strings

section
variable {R : Rec} (hR : Snd2 R) (k : Nat)
include hR

omit hR in
/-- Reporting an error, whatever comes after it. -/
theorem Snd.dead {α β : Type} {src : Option Bytes} {s : PState} {P : β → Bytes → List Token → Prop} {d : Diagnostic} {m : PM α} {g : α → Unit → PM β}
    (hd : isSyntaxError d.kind = true) (hm : Mute m) (hf : ∀ a u, Fr (g a u)) : Snd src (m >>= fun a => emitD d >>= g a) s P := by
  intro b s' e hc
  obtain ⟨a, s1, e1, e2⟩ := run_bind e
  obtain ⟨u, s2, e3, e4⟩ := run_bind e2
  exact absurd ((hf a u _ _ _ e4).clean hc) (emit_dirty hd e3)

omit hR in
theorem Snd.frame_dirty {β : Type} {src : Option Bytes} {s : PState} {P : β → Bytes → List Token → Prop} {m : PM β} (h : ∀ a s', m s = some (a, s') → ¬ Clean s') : Snd src m s P :=
  fun a s' e hc => absurd hc (h a s' e)

/-- The function, after the keyword. -/
def PKw (src : Option Bytes) (r : Bytes) (B : List Token) (a : Node) (r' : Bytes) (B' : List Token) : Prop :=
  a.isNull = false ∧ GN src .expr r [a] r' ∧ BufN 1 B B'

theorem parseElse_sound {src : Option Bytes} {s : PState} {r : Bytes} {B : List Token} {t : Token} {c th : Node} (hs : Hr src s r B) :
    Snd src (parseElse R k t c th) s fun a r' B' => (∃ h e v r1, a = .exprIf h c th e ∧ h.range.l = t.range.l ∧ Pt src h.range.r r' ∧ Tok r .kw_else v r1 ∧ GN src .expr r1 [e] r') ∧ BufN 0 B B' := by
  have hfr := hR.fr
  unfold parseElse mkIf
  refine .expect hs (fun t s1 r1 ts hk ht h1 hb => ?_) (fun _ => by unfold noteMatch; frame)
  refine .consume h1 ht (fun s2 h2 _ _ => ?_) (fun _ => by unfold noteMatch; frame)
  refine .call (hR.expr _ _ _ h2) (fun _ => by unfold noteMatch; frame) fun e s9 r9 B9 h9 ⟨hb9, hg9⟩ => ?_
  refine .whenDirty h9 (fun s u s1 e => ?_) (fun s10 he h10 => ?_) (fun _ => by frame)
  · obtain ⟨c, s2, e2, e3⟩ := run_bind e
    obtain ⟨_, s3, e4, e5⟩ := run_bind e3
    exact fun hc => emit_dirty rfl e4 ((noteLast_fr _ _ _ e5).clean hc)
  rcases hg9 with ⟨rfl, -⟩ | ⟨-, hg9⟩
  · exact absurd rfl he
  quiet
  rw [hk] at ht
  exact .pure (by assumption) ⟨⟨_, _, _, _, rfl, rfl, by assumption, ht, hg9⟩, (hb.trans ((BufN.cons _ _).trans hb9)).mono (by omega)⟩

theorem parseThen_sound {src : Option Bytes} {s : PState} {r : Bytes} {B : List Token} {t : Token} {c : Node} (hs : Hr src s r B) :
    Snd src (parseThen R k t c) s fun a r' B' => (∃ h th e v1 r1 r2 v2 r3, a = .exprIf h c th e ∧ h.range.l = t.range.l ∧ Pt src h.range.r r' ∧ Tok r .kw_then v1 r1 ∧ GN src .expr r1 [th] r2 ∧
      Tok r2 .kw_else v2 r3 ∧ GN src .expr r3 [e] r') ∧ BufN 0 B B' := by
  have hfr := hR.fr
  have f1 := parseElse_fr hfr k
  unfold parseThen mkIf
  refine .expect hs (fun t s1 r1 ts hk ht h1 hb => ?_) (fun _ => by unfold noteMatch; frame)
  refine .consume h1 ht (fun s2 h2 _ _ => ?_) (fun _ => by unfold noteMatch; frame)
  refine .call (hR.expr _ _ _ h2) (fun _ => by unfold noteMatch; frame) fun e s9 r9 B9 h9 ⟨hb9, hg9⟩ => ?_
  split
  · quiet
    exact .dirty rfl (fun _ => by unfold noteMatch; frame)
  · rename_i he
    rcases hg9 with ⟨rfl, -⟩ | ⟨-, hg9⟩
    · exact absurd rfl he
    refine (parseElse_sound hR k h9).imp fun a r' B' ⟨⟨h, e, v, r1, h1, hl, hp, h2, h3⟩, hb3⟩ => ?_
    rw [hk] at ht
    exact ⟨⟨_, _, _, _, _, _, _, _, h1, hl, hp, ht, hg9, h2, h3⟩, (hb.trans ((BufN.cons _ _).trans (hb9.trans hb3))).mono (by omega)⟩

theorem parseExprIf_sound {src : Option Bytes} {s : PState} {r r1 v : Bytes} {B : List Token} (hs : Hr src s r B) (ht : Tok r .kw_if v r1) :
    Snd src (parseExprIf R k) s (PKw src r B) := by
  have hfr := hR.fr
  have f1 := parseThen_fr hfr k
  unfold parseExprIf mkIf
  refine .peek hs (fun t s1 q1 ts ht1 h1 hb => ?_) (fun _ => by frame)
  obtain ⟨-, -, rfl⟩ := ht.eq ht1
  have hsp := (h1.front ht1).1
  refine .consume h1 ht1 (fun s2 h2 _ _ => ?_) (fun _ => by frame)
  refine .sync h2 fun s3 h3 => .sync h3 fun s4 h4 => ?_
  refine .call (hR.expr _ _ _ h4) (fun _ => by frame) fun c s9 r9 B9 h9 ⟨hb9, hg9⟩ => ?_
  split
  · quiet
    exact .dirty rfl (fun _ => by frame)
  · rename_i he
    rcases hg9 with ⟨rfl, -⟩ | ⟨-, hg9⟩
    · exact absurd rfl he
    refine (parseThen_sound hR k h9).imp fun a r' B' ⟨⟨h, th, e, v1, r1, r2, v2, r3, ha, hl, hp, g1, g2, g3, g4⟩, hb3⟩ => ?_
    subst ha
    exact ⟨rfl, .ite ht hg9 g1 g2 g3 g4 ⟨by rw [hl]; exact hsp, hp⟩, (hb.trans ((BufN.cons _ _).trans (hb9.trans hb3))).mono (by omega)⟩

theorem parseAssertValue_sound {src : Option Bytes} {s : PState} {r : Bytes} {B : List Token} {t : Token} {c : Node} (hs : Hr src s r B) :
    Snd src (parseAssertValue R k t c) s fun a r' B' => (∃ h e v r1, a = .exprAssert h c e ∧ h.range.l = t.range.l ∧ Pt src h.range.r r' ∧ Tok r .semi_colon v r1 ∧ GN src .expr r1 [e] r') ∧ BufN 0 B B' := by
  have hfr := hR.fr
  unfold parseAssertValue mkAssert
  refine .expect hs (fun t s1 r1 ts hk ht h1 hb => ?_) (fun _ => by unfold noteMatch; frame)
  refine .consume h1 ht (fun s2 h2 _ _ => ?_) (fun _ => by frame)
  refine .call (hR.expr _ _ _ h2) (fun _ => by frame) fun e s9 r9 B9 h9 ⟨hb9, hg9⟩ => ?_
  refine .need h9 (fun s10 he h10 => ?_) (fun _ => by frame)
  rcases hg9 with ⟨rfl, -⟩ | ⟨-, hg9⟩
  · cases he
  quiet
  rw [hk] at ht
  exact .pure (by assumption) ⟨⟨_, _, _, _, rfl, rfl, by assumption, ht, hg9⟩, (hb.trans ((BufN.cons _ _).trans hb9)).mono (by omega)⟩

theorem parseExprAssert_sound {src : Option Bytes} {s : PState} {r r1 v : Bytes} {B : List Token} (hs : Hr src s r B) (ht : Tok r .kw_assert v r1) :
    Snd src (parseExprAssert R k) s (PKw src r B) := by
  have hfr := hR.fr
  have f1 := parseAssertValue_fr hfr k
  unfold parseExprAssert mkAssert
  refine .peek hs (fun t s1 q1 ts ht1 h1 hb => ?_) (fun _ => by frame)
  obtain ⟨-, -, rfl⟩ := ht.eq ht1
  have hsp := (h1.front ht1).1
  refine .consume h1 ht1 (fun s2 h2 _ _ => ?_) (fun _ => by frame)
  refine .sync h2 fun s3 h3 => ?_
  refine .call (hR.expr _ _ _ h3) (fun _ => by frame) fun c s9 r9 B9 h9 ⟨hb9, hg9⟩ => ?_
  split
  · quiet
    exact .dirty rfl (fun _ => by frame)
  · rename_i he
    rcases hg9 with ⟨rfl, -⟩ | ⟨-, hg9⟩
    · exact absurd rfl he
    refine (parseAssertValue_sound hR k h9).imp fun a r' B' ⟨⟨h, e, v1, r1, ha, hl, hp, g1, g2⟩, hb3⟩ => ?_
    subst ha
    exact ⟨rfl, .assert ht hg9 g1 g2 ⟨by rw [hl]; exact hsp, hp⟩, (hb.trans ((BufN.cons _ _).trans (hb9.trans hb3))).mono (by omega)⟩

omit hR in
theorem letAttrs_sound {src : Option Bytes} {s : PState} {r : Bytes} {B : List Token} {b kw : Node} {bs : List Node} (hs : Hr src s r B) (hb : BindsOf b bs) :
    Snd src (letAttrs b kw) s fun a r' B' => r' = r ∧ B' = B ∧ LetOf a bs := by
  unfold letAttrs
  rcases hb with ⟨rfl, rfl⟩ | ⟨hd, rfl⟩
  · rw [if_pos (by rfl)]
    exact .pure hs ⟨rfl, rfl, .inl ⟨rfl, rfl⟩⟩
  · rw [if_neg (by simp [Node.isNull])]
    intro a s' e hc
    obtain ⟨h, st, dy, rfl, -⟩ := onExprAttrs_shape e
    exact ⟨_, _, hs.same (sema_mute (fun _ _ => onExprAttrs_mild) _ _ _ e).1, rfl, rfl, .inr ⟨_, _, _, _, _, rfl⟩⟩

theorem parseExprLet_sound {src : Option Bytes} {s : PState} {r r1 v : Bytes} {B : List Token} (hs : Hr src s r B) (ht : Tok r .kw_let v r1) :
    Snd src (parseExprLet R k) s (PKw src r B) := by
  have hfr := hR.fr
  have f1 := parseBinds_fr hfr k
  have f2 : ∀ b kw, Fr (letAttrs b kw) := fun b kw => by unfold letAttrs; frame
  unfold parseExprLet
  refine .peek hs (fun t s1 q1 ts ht1 h1 hb => ?_) (fun _ => by frame)
  obtain ⟨-, -, rfl⟩ := ht.eq ht1
  have hsp := (h1.front ht1).1
  quiet
  rename_i h1'
  refine .consume h1' ht1 (fun s2 h2 _ _ => ?_) (fun _ => by frame)
  refine .sync h2 fun s3 h3 => ?_
  refine .call (parseBinds_sound hR k h3) (fun _ => by frame) fun b s4 r4 B4 h4 ⟨bs, hbs, hg4, hb4⟩ => ?_
  refine .call (letAttrs_sound h4 hbs) (fun _ => by frame) fun at_ s5 r5 B5 h5 ⟨e1, e2, hsyn⟩ => ?_
  subst e1 e2
  refine .expect h5 (fun t s6 r6 ts hk ht6 h6 hb6 => ?_) (fun _ => by frame)
  quiet
  rename_i h6'
  refine .consume h6' ht6 (fun s7 h7 _ _ => ?_) (fun _ => by frame)
  refine .call (hR.expr _ _ _ h7) (fun _ => by frame) fun e s9 r9 B9 h9 ⟨hb9, hg9⟩ => ?_
  refine .need h9 (fun s10 he h10 => ?_) (fun _ => by frame)
  rcases hg9 with ⟨rfl, -⟩ | ⟨-, hg9⟩
  · cases he
  quiet
  rw [hk] at ht6
  refine .pure (by assumption) ⟨rfl, ?_, (hb.trans ((BufN.cons _ _).trans (hb4.trans (hb6.trans ((BufN.cons _ _).trans hb9))))).mono (by omega)⟩
  exact .let_ ht hg4 ht6 hg9 hsyn ⟨hsp, by assumption⟩

theorem parseExprWith_sound {src : Option Bytes} {s : PState} {r r1 v : Bytes} {B : List Token} (hs : Hr src s r B) (ht : Tok r .kw_with v r1) :
    Snd src (parseExprWith R k) s (PKw src r B) := by
  have hfr := hR.fr
  unfold parseExprWith
  refine .peek hs (fun t s1 q1 ts ht1 h1 hb => ?_) (fun _ => by unfold noteMatch; frame)
  obtain ⟨-, -, rfl⟩ := ht.eq ht1
  have hsp := (h1.front ht1).1
  have hsk := h1.front ht1
  refine .consume h1 ht1 (fun s2 h2 _ _ => ?_) (fun _ => by unfold noteMatch; frame)
  refine .miscAt h2 fun _ _ h2' => ?_
  refine .sync h2' fun s3 h3 => ?_
  refine .call (hR.expr _ _ _ h3) (fun _ => by unfold noteMatch; frame) fun w s4 r4 B4 h4 ⟨hb4, hg4⟩ => ?_
  refine .need h4 (fun s5 hw h5 => ?_) (fun _ => by unfold noteMatch; frame)
  rcases hg4 with ⟨rfl, -⟩ | ⟨-, hg4⟩
  · cases hw
  refine .expect h5 (fun t s6 r6 ts hk ht6 h6 hb6 => ?_) (fun _ => by unfold noteMatch; frame)
  have hsm := h6.front ht6
  refine .miscAt h6 fun _ _ h6' => ?_
  refine .consume h6' ht6 (fun s7 h7 _ _ => ?_) (fun _ => by frame)
  refine .call (hR.expr _ _ _ h7) (fun _ => by frame) fun e s9 r9 B9 h9 ⟨hb9, hg9⟩ => ?_
  refine .need h9 (fun s10 he h10 => ?_) (fun _ => by frame)
  rcases hg9 with ⟨rfl, -⟩ | ⟨-, hg9⟩
  · cases he
  quiet
  rw [hk] at ht6
  exact .pure (by assumption) ⟨rfl, .with_ ht hg4 ht6 hg9 ⟨hsp, by assumption⟩ hsk hsm,
    (hb.trans ((BufN.cons _ _).trans (hb4.trans (hb6.trans ((BufN.cons _ _).trans hb9))))).mono (by omega)⟩

theorem parseExprLegacyLet_sound {src : Option Bytes} {s : PState} {r r1 v : Bytes} {B : List Token} (hs : Hr src s r B) (ht : Tok r .kw_let v r1) :
    Snd src (parseExprLegacyLet R k) s (PKw src r B) := by
  have hfr := hR.fr
  have f1 := parseBinds_fr hfr k
  have f2 := @legacyClose_fr k
  unfold parseExprLegacyLet
  refine .peek hs (fun t s1 q1 ts ht1 h1 hb => ?_) (fun _ => by frame)
  obtain ⟨-, -, rfl⟩ := ht.eq ht1
  have hsp := (h1.front ht1).1
  quiet
  rename_i h1'
  refine .consume h1' ht1 (fun s2 h2 _ _ => ?_) (fun _ => by frame)
  refine .sync h2 fun s3 h3 => ?_
  refine .peek h3 (fun tl s4 q4 ts4 _ h4 hb4 => ?_) (fun _ => by frame)
  refine .expectMay h4 (fun v5 s5 r5 ts5 ht5 h5 hb5 => ?_) (fun _ => by frame)
  refine .call (parseBinds_sound hR k h5) (fun _ => by frame) fun b s6 r6 B6 h6 ⟨bs, hbs, hg6, hb6⟩ => ?_
  quiet
  rename_i h6'
  have hclose : ∀ c, ∀ s6, Hr src s6 r6 B6 → Snd src (legacyClose k tl c) s6 fun _ r' B' => (∃ v, Tok r6 .r_curly v r') ∧ BufN 0 B6 B' := fun c s6 h6' => by
    unfold legacyClose
    refine .expect h6' (fun t s7 r7 ts hk ht7 h7 hb7 => ?_) (fun _ => by unfold noteMatch; frame)
    refine .consume h7 ht7 (fun s8 h8 _ _ => ?_) (fun _ => by frame)
    rw [hk] at ht7
    exact .pure h8 ⟨⟨_, ht7⟩, (hb7.trans (.cons _ _)).mono (by omega)⟩
  refine .call (hclose _ _ h6') (fun _ => by frame) fun rc s7 r7 B7 h7 ⟨⟨v7, ht7⟩, hb7⟩ => ?_
  quiet
  rename_i h8
  have hattrs : ∀ x kw, ∀ s8, Hr src s8 r7 B7 → Snd src (sema fun _ => onExprAttrs x b kw) s8 fun a r' B' => r' = r7 ∧ B' = B7 ∧
      ∃ h rc st dy, a = .exprAttrs h b rc st dy := by
    intro x kw s8 h8 a s' e hc
    obtain ⟨h, st, dy, rfl, -⟩ := onExprAttrs_shape e
    exact ⟨_, _, h8.same (sema_mute (fun _ _ => onExprAttrs_mild) _ _ _ e).1, rfl, rfl, _, _, _, _, rfl⟩
  refine .call (hattrs _ _ _ h8) (fun _ => by frame) fun at_ s9 r9 B9 h9 ⟨e1, e2, hd, rc, st, dy, e3⟩ => ?_
  subst e1 e2 e3
  refine .quiet h9 get_mute.quiet fun _ s10 h10 => ?_
  refine .quiet h10 (emitD_mute rfl).quiet fun _ s11 h11 => ?_
  refine .quiet h11 (Mute.quiet (.when fun _ => emitD_mute rfl)) fun _ s12 h12 => ?_
  quiet
  refine .pure (by assumption) ⟨rfl, ?_, (hb.trans ((BufN.cons _ _).trans (hb4.trans (hb5.trans (hb6.trans hb7))))).mono (by omega)⟩
  exact .legacyLet ht ht5 hg6 ht7 hbs ⟨hsp, by assumption⟩

end

/-! ### Look-ahead -/

/-- What was looked at, and what it tells. -/
inductive LookOk : Look → List TK → Prop
  | lam1 {k} : k = .at_ ∨ k = .colon → LookOk .lambda [.id_, k]
  | op1 {k} : ¬ (k = .at_ ∨ k = .colon) → LookOk .op [.id_, k]
  | lam2 {k} : k ∈ [TK.colon, .at_, .question, .comma, .id_, .ellipsis] → LookOk .lambda [.l_curly, .id_, k]
  | lam3 {k} : k = .colon ∨ k = .at_ → LookOk .lambda [.l_curly, .id_, .r_curly, k]
  | attrs {k} : ¬ (k = .colon ∨ k = .at_) → LookOk .attrs [.l_curly, .id_, .r_curly, k]
  | op2 {k} : k ∉ [TK.colon, .at_, .question, .comma, .id_, .ellipsis, .r_curly] → LookOk .op [.l_curly, .id_, k]
  | lam4 {k} : k = .at_ ∨ k = .colon → LookOk .lambda [.l_curly, .r_curly, k]
  | op3 {k} : ¬ (k = .at_ ∨ k = .colon) → LookOk .op [.l_curly, .r_curly, k]
  | lam5 : LookOk .lambda [.l_curly, .ellipsis]
  | op4 {k} : k ∉ [TK.id_, .r_curly, .ellipsis] → LookOk .op [.l_curly, k]
  | if_ : LookOk .if_ [.kw_if]
  | assert_ : LookOk .assert_ [.kw_assert]
  | let_ {k} : k ≠ .l_curly → LookOk .let_ [.kw_let, k]
  | legacyLet : LookOk .legacyLet [.kw_let, .l_curly]
  | with_ : LookOk .with_ [.kw_with]
  | op5 {k} : k ∉ [TK.id_, .l_curly, .kw_if, .kw_assert, .kw_let, .kw_with] → LookOk .op [k]

/-- The parser has looked at the tokens `ks`, `B0` was the buffer before. -/
structure Looked (src : Option Bytes) (s : PState) (r : Bytes) (B0 : List Token) (ks : List TK) (r1 : Bytes) : Prop where
  ex : ∃ B, Hr src s r B ∧ (B = B0 ∨ B.length ≤ ks.length) ∧ ks.length ≤ B.length
  toks : Toks r ks r1

theorem Lexed.at {src rem : Bytes} {B : List Token} {r r1 : Bytes} {ks : List TK} {t : Token} (h : Lexed src rem B r) (hk : Toks r ks r1)
    (ht : B[ks.length]? = some t) : ∃ r2, Tok r1 t.kind t.view r2 := by
  induction hk generalizing B with
  | nil r =>
    cases B with
    | nil => cases ht
    | cons u us =>
      obtain ⟨r', h1, -⟩ := h
      simp only [List.length_nil, List.getElem?_cons_zero, Option.some.injEq] at ht
      subst ht; exact ⟨r', h1⟩
  | cons h1 _ ih =>
    cases B with
    | nil => cases ht
    | cons u us =>
      obtain ⟨r', g1, -, -, -, g2⟩ := h
      obtain ⟨-, -, rfl⟩ := h1.eq g1
      exact ih g2 (by simpa using ht)

theorem Lexed.kinds {src rem : Bytes} {B : List Token} {r r1 : Bytes} {ks : List TK} (h : Lexed src rem B r) (hk : Toks r ks r1)
    (hl : ks.length ≤ B.length) : (B.take ks.length).map (·.kind) = ks := by
  induction hk generalizing B with
  | nil r => simp
  | cons h1 _ ih =>
    cases B with
    | nil => simp at hl
    | cons u us =>
      obtain ⟨r', g1, -, -, -, g2⟩ := h
      obtain ⟨rfl, -, rfl⟩ := h1.eq g1
      simp only [List.length_cons, List.take_succ_cons, List.map_cons, List.cons.injEq, true_and]
      exact ih g2 (by simpa using hl)

theorem Looked.step {src : Option Bytes} {s s' : PState} {r r1 : Bytes} {B0 : List Token} {ks : List TK} {k : TK} (h : Looked src s r B0 ks r1)
    (hq : ∀ k ∈ ks.getLast?, isQuote k = false) (e : peekKind ks.length s = some (k, s')) (hc : Clean s') :
    ∃ v r2, Tok r1 k v r2 ∧ Looked src s' r B0 (ks ++ [k]) r2 := by
  obtain ⟨B, h1, h2, h3⟩ := h.ex
  unfold peekKind at e
  obtain ⟨t, s1, e1, e2⟩ := run_bind e
  obtain ⟨rfl, rfl⟩ := run_pure e2
  have hkk := h1.lexed.kinds h.toks h3
  obtain ⟨B', g1, g2, g3, g4, -⟩ := peek_here h1.toHere h3 (by
    intro t ht
    refine hq t.kind ?_
    rw [← hkk, List.getLast?_map]
    rw [Option.mem_def] at ht ⊢
    rw [ht]; rfl) e1 hc
  obtain ⟨r2, g5⟩ := g1.lexed.at h.toks g2
  refine ⟨_, r2, g5, ⟨B', h1.peeked e1 g1, ?_, ?_⟩, h.toks.snoc g5⟩
  · rw [List.length_append]
    rcases g4 with rfl | g4
    · rcases h2 with h2 | h2
      · exact .inl h2
      · exact .inr (by simp; omega)
    · exact .inr (by simp; omega)
  · have : ks.length < B'.length := by
      by_contra hx
      rw [List.getElem?_eq_none (by omega)] at g2
      cases g2
    simp; omega

/-- `lookAhead`, from some point on. -/
def Lk (src : Option Bytes) (m : PM Look) (s : PState) (r : Bytes) (B : List Token) : Prop :=
  ∀ l s', m s = some (l, s') → Clean s' → ∃ ks r', Looked src s' r B ks r' ∧ LookOk l ks

theorem Lk.peek {src : Option Bytes} {s : PState} {r r1 : Bytes} {B : List Token} {ks : List TK} {f : TK → PM Look} {n : Nat} (h : Looked src s r B ks r1) (hn : ks.length = n)
    (hq : ∀ k ∈ ks.getLast?, isQuote k = false) (hf : ∀ k, Fr (f k)) (hk : ∀ k s1 r2, Looked src s1 r B (ks ++ [k]) r2 → Lk src (f k) s1 r B) :
    Lk src (peekKind n >>= f) s r B := by
  subst hn
  intro l s' e hc
  obtain ⟨k, s1, e1, e2⟩ := run_bind e
  obtain ⟨v, r2, -, h2⟩ := h.step hq e1 ((hf k _ _ _ e2).clean hc)
  exact hk k s1 r2 h2 l s' e2 hc

theorem Lk.pure {src : Option Bytes} {s : PState} {r r1 : Bytes} {B : List Token} {ks : List TK} {l : Look} (h : Looked src s r B ks r1) (hl : LookOk l ks) :
    Lk src (pure l) s r B := by
  intro l' s' e hc
  obtain ⟨rfl, rfl⟩ := run_pure e
  exact ⟨ks, r1, h, hl⟩

theorem lookAhead_sound {src : Option Bytes} {s s' : PState} {r : Bytes} {B : List Token} {l : Look} (hs : Hr src s r B) (e : lookAhead s = some (l, s'))
    (hc : Clean s') : ∃ ks r', Looked src s' r B ks r' ∧ LookOk l ks := by
  have h0 : Looked src s r B [] r := ⟨⟨B, hs, .inl rfl, Nat.zero_le _⟩, .nil _⟩
  have fp : ∀ n, Fr (peekKind n) := fun n => peekKind_fr
  suffices Lk src lookAhead s r B from this l s' e hc
  unfold lookAhead
  refine .peek h0 rfl (by simp) (fun _ => by frame) fun k0 s0 r0 h0 => ?_
  split
  · refine .peek h0 rfl (by simp [isQuote]) (fun _ => by frame) fun k1 s1 r1 h1 => ?_
    refine .pure h1 ?_
    split
    · exact .lam1 (by assumption)
    · exact .op1 (by assumption)
  · refine .peek h0 rfl (by simp [isQuote]) (fun _ => by frame) fun k1 s1 r1 h1 => ?_
    split
    · refine .peek h1 rfl (by simp [isQuote]) (fun _ => by frame) fun k2 s2 r2 h2 => ?_
      split
      · exact .pure h2 (.lam2 (by simp))
      · exact .pure h2 (.lam2 (by simp))
      · exact .pure h2 (.lam2 (by simp))
      · exact .pure h2 (.lam2 (by simp))
      · exact .pure h2 (.lam2 (by simp))
      · exact .pure h2 (.lam2 (by simp))
      · refine .peek h2 rfl (by simp [isQuote]) (fun _ => by frame) fun k3 s3 r3 h3 => ?_
        refine .pure h3 ?_
        split
        · exact .lam3 (by assumption)
        · exact .attrs (by assumption)
      · refine .pure h2 (.op2 ?_)
        simp only [List.mem_cons, List.not_mem_nil, or_false]
        tauto
    · refine .peek h1 rfl (by simp [isQuote]) (fun _ => by frame) fun k2 s2 r2 h2 => ?_
      refine .pure h2 ?_
      split
      · exact .lam4 (by assumption)
      · exact .op3 (by assumption)
    · exact .pure h1 .lam5
    · refine .pure h1 (.op4 ?_)
      simp only [List.mem_cons, List.not_mem_nil, or_false]
      tauto
  · exact .pure h0 .if_
  · exact .pure h0 .assert_
  · refine .peek h0 rfl (by simp [isQuote]) (fun _ => by frame) fun k1 s1 r1 h1 => ?_
    refine .pure h1 ?_
    split
    · exact .let_ (by assumption)
    · rename_i hk
      have : k1 = .l_curly := by simpa using hk
      subst this; exact .legacyLet
  · exact .pure h0 .with_
  · refine .pure h0 (.op5 ?_)
    simp only [List.mem_cons, List.not_mem_nil, or_false]
    tauto

theorem Looked.buf {src : Option Bytes} {s : PState} {r r1 : Bytes} {B : List Token} {ks : List TK} {n : Nat} (h : Looked src s r B ks r1) (hn : ks.length ≤ n + 1) :
    ∃ B1, Hr src s r B1 ∧ ∀ B', BufN n B1 B' → BufN 0 B B' := by
  obtain ⟨B1, h1, h2, -⟩ := h.ex
  refine ⟨B1, h1, fun B' hb => ?_⟩
  rcases h2 with rfl | h2
  · exact hb.mono (Nat.zero_le _)
  · refine .inl ?_
    rcases hb with hb | hb
    · exact hb
    · have := suffix_length_drop hb; omega

theorem Toks.head {r r' : Bytes} {k : TK} {ks : List TK} (h : Toks r (k :: ks) r') : ∃ v r1, Tok r k v r1 ∧ Toks r1 ks r' := by
  cases h with
  | cons h1 h2 => exact ⟨_, _, h1, h2⟩

/-- `{ a }` is not a set. -/
theorem no_attrs {r r1 r2 r3 r' v1 v2 v3 : Bytes} {t : Syn} (h1 : Tok r .l_curly v1 r1) (h2 : Tok r1 .id_ v2 r2) (h3 : Tok r2 .r_curly v3 r3)
    (h : G .simple r [t] r') : False := by
  have no : ∀ {r k k' v v' q q'}, Tok r k v q → Tok r k' v' q' → k ≠ k' → False := fun a b hne => hne (a.eq b).1
  cases h with
  | set a b c =>
    obtain ⟨-, -, rfl⟩ := a.eq h1
    cases b with
    | noBind => exact no h2 c (by decide)
    | inherit a _ _ _ => exact no h2 a (by decide)
    | inheritFrom a _ _ _ _ _ _ => exact no h2 a (by decide)
    | binding p e _ _ _ =>
      cases p with
      | path n d =>
        cases n with
        | name n =>
          obtain ⟨-, -, rfl⟩ := n.eq h2
          cases d with
          | noDot => exact no h3 e (by decide)
          | dot a _ _ => exact no h3 a (by decide)
        | orName a => exact no h2 a (by decide)
        | strName a _ => exact no h2 a (by decide)
        | interpName a _ _ => exact no h2 a (by decide)
  | var a => exact no h1 a (by decide)
  | int a _ => exact no h1 a (by decide)
  | float a => exact no h1 a (by decide)
  | spath a => exact no h1 a (by decide)
  | uri a => exact no h1 a (by decide)
  | str a _ => exact no h1 a (by decide)
  | ind a _ => exact no h1 a (by decide)
  | pathLit a _ => exact no h1 a (by decide)
  | paren a _ _ => exact no h1 a (by decide)
  | list a _ _ => exact no h1 a (by decide)
  | recSet a _ _ _ => exact no h1 a (by decide)

theorem parseExpr_sound {R : Rec} (hR : Snd2 R) (k : Nat) {src : Option Bytes} {s : PState} {r : Bytes} {B : List Token} (hs : Hr src s r B) :
    Snd src (parseExpr R k) s (PE src .expr r B) := by
  have hfr := hR.fr
  have f1 := parseExprLambda_fr hfr k
  have f2 := parseExprAttrs_fr hfr k
  have f3 := parseExprIf_fr hfr k
  have f4 := parseExprAssert_fr hfr k
  have f5 := parseExprLet_fr hfr k
  have f6 := parseExprLegacyLet_fr hfr k
  have f7 := parseExprWith_fr hfr k
  have f8 := (op_fr hfr k k).1
  intro a s' e hc
  unfold parseExpr at e
  obtain ⟨l, s1, e1, e2⟩ := run_bind e
  have hc1 : Clean s1 := by
    refine Frame.clean (?_ : Frame s1 s') hc
    revert e2
    generalize s1 = s1
    refine (fun (h : ∀ m : PM Node, Fr m → m s1 = some (a, s') → Frame s1 s') => ?_) fun m hm e => hm _ _ _ e
    exact h _ (by frame)
  obtain ⟨ks, r1, hl, hok⟩ := lookAhead_sound hs e1 hc1
  have kw : ∀ m : PM Node, ks.length ≤ 2 → (∀ B1, Hr src s1 r B1 → Snd src m s1 (PKw src r B1)) → Snd src m s1 (PE src .expr r B) := by
    intro m hn hm
    obtain ⟨B1, h1, hb⟩ := hl.buf (n := 1) hn
    exact (hm B1 h1).imp fun a r' B' ⟨g1, g2, g3⟩ => ⟨hb _ g3, .inr ⟨g1, g2⟩⟩
  have lam : ∀ {k1}, ks.head? = some k1 → (k1 = .id_ ∨ k1 = .l_curly) → ks.length ≤ (if k1 = .id_ then 2 else 3) + 1 →
      (k1 = .l_curly → ∃ k2 ks2, ks = k1 :: k2 :: ks2 ∧ k2 ≠ .comma) → Snd src (parseExprLambda R k) s1 (PE src .expr r B) := by
    intro k1 h1 h2 h3 h4
    obtain ⟨B1, h5, hb⟩ := hl.buf h3
    have ht := hl.toks
    cases ks with
    | nil => cases h1
    | cons k0 ks =>
      simp only [List.head?_cons, Option.some.injEq] at h1
      subst h1
      obtain ⟨v, q, ht1, ht2⟩ := ht.head
      refine (parseExprLambda_sound hR k h5 ?_).imp fun a r' B' ⟨k2, v2, r2, g1, g2, g3, g4⟩ => ⟨hb _ ?_, .inr ⟨g2, g3⟩⟩
      · intro v2 q2 hv2 v3 q3 hv3
        obtain ⟨rfl, -, rfl⟩ := ht1.eq hv2
        obtain ⟨k2, ks2, h6, h7⟩ := h4 rfl
        cases h6
        obtain ⟨v4, q4, h8, -⟩ := ht2.head
        exact h7 (h8.eq hv3).1
      · obtain ⟨rfl, -, -⟩ := ht1.eq g1
        exact g4
  have op : ∀ {k1}, ks.head? = some k1 → ks.length ≤ (if startsSimple k1 = true then need k1 else 0) + 1 → Snd src (parseExprOpBP R k k 0) s1 (PE src .expr r B) := by
    intro k1 h1 h3
    have ht := hl.toks
    cases ks with
    | nil => cases h1
    | cons k0 ks =>
      simp only [List.head?_cons, Option.some.injEq] at h1
      subst h1
      obtain ⟨v, q, ht1, ht2⟩ := ht.head
      obtain ⟨B1, h5, hb⟩ := hl.buf h3
      refine ((op_sound hR k k).1 h5).imp fun a r' B' ⟨k2, v2, r2, g1, g2⟩ => ?_
      obtain ⟨rfl, -, -⟩ := ht1.eq g1
      rcases g2 with ⟨g2, g3, g4, g5⟩ | ⟨g2, g3, -, g4⟩
      · rw [if_neg (by rw [g5]; simp)] at hb
        exact ⟨hb _ g4, .inl ⟨g2, g3⟩⟩
      · refine ⟨hb _ (g4.mono ?_), .inr ⟨g2, .op g3⟩⟩
        split <;> omega
  have tok1 : ∀ {k1 ks'}, ks = k1 :: ks' → ∃ v q, Tok r k1 v q := by
    rintro k1 ks' rfl
    obtain ⟨v, q, h, -⟩ := hl.toks.head
    exact ⟨v, q, h⟩
  cases hok with
  | lam1 => exact lam (k1 := .id_) rfl (.inl rfl) (by simp) (fun h => by cases h) a s' e2 hc
  | lam2 => exact lam (k1 := .l_curly) rfl (.inr rfl) (by simp) (fun _ => ⟨_, _, rfl, by decide⟩) a s' e2 hc
  | lam3 => exact lam (k1 := .l_curly) rfl (.inr rfl) (by simp) (fun _ => ⟨_, _, rfl, by decide⟩) a s' e2 hc
  | lam4 => exact lam (k1 := .l_curly) rfl (.inr rfl) (by simp) (fun _ => ⟨_, _, rfl, by decide⟩) a s' e2 hc
  | lam5 => exact lam (k1 := .l_curly) rfl (.inr rfl) (by simp) (fun _ => ⟨_, _, rfl, by decide⟩) a s' e2 hc
  | op1 => exact op (k1 := .id_) rfl (by simp [startsSimple, need]) a s' e2 hc
  | op2 => exact op (k1 := .l_curly) rfl (by simp [startsSimple, need]) a s' e2 hc
  | op3 => exact op (k1 := .l_curly) rfl (by simp [startsSimple, need]) a s' e2 hc
  | op4 => exact op (k1 := .l_curly) rfl (by simp [startsSimple, need]) a s' e2 hc
  | op5 => exact op rfl (by simp) a s' e2 hc
  | attrs =>
    exfalso
    obtain ⟨B1, h1, -⟩ := hl.ex
    obtain ⟨r2, B2, -, -, g, -⟩ := parseExprAttrs_sound hR k h1 a s' e2 hc
    obtain ⟨v1, q1, t1, ht1⟩ := hl.toks.head
    obtain ⟨v2, q2, t2, ht2⟩ := ht1.head
    obtain ⟨v3, q3, t3, -⟩ := ht2.head
    exact no_attrs t1 t2 t3 g.toG
  | if_ =>
    obtain ⟨v, q, ht⟩ := tok1 rfl
    exact kw _ (by simp) (fun B1 h1 => parseExprIf_sound hR k h1 ht) a s' e2 hc
  | assert_ =>
    obtain ⟨v, q, ht⟩ := tok1 rfl
    exact kw _ (by simp) (fun B1 h1 => parseExprAssert_sound hR k h1 ht) a s' e2 hc
  | let_ =>
    obtain ⟨v, q, ht⟩ := tok1 rfl
    exact kw _ (by simp) (fun B1 h1 => parseExprLet_sound hR k h1 ht) a s' e2 hc
  | legacyLet =>
    obtain ⟨v, q, ht⟩ := tok1 rfl
    exact kw _ (by simp) (fun B1 h1 => parseExprLegacyLet_sound hR k h1 ht) a s' e2 hc
  | with_ =>
    obtain ⟨v, q, ht⟩ := tok1 rfl
    exact kw _ (by simp) (fun B1 h1 => parseExprWith_sound hR k h1 ht) a s' e2 hc

theorem recN_sound (n : Nat) : Snd2 (recN n) := by
  induction n with
  | zero => exact ⟨recN_fr 0, fun {src} _ _ _ _ a s' e => (nomatch e), fun {src} _ _ _ _ a s' e => (nomatch e)⟩
  | succ n ih =>
    refine ⟨recN_fr (n + 1), fun {src} s r B hs => parseExpr_sound ih n hs, fun {src} s r B hs => ?_⟩
    refine (parseExprSelect_sound ih n hs).imp fun a r' B' ⟨k, v, r1, ht, h⟩ => ?_
    rcases h with ⟨h1, h2, h3, -⟩ | ⟨h1, -, h2, h3⟩
    · exact ⟨h3, .inl ⟨h1, h2⟩⟩
    · exact ⟨h3.mono (Nat.zero_le _), .inr ⟨h1, h2⟩⟩

theorem init_here (src : Bytes) : Hr (some src) (.init src) src [] :=
  ⟨⟨rfl, rfl, rfl, .inl rfl⟩, fun b hb => by cases hb; rfl, fun b hb => by cases hb; rfl⟩

theorem eof_tok {r v r' : Bytes} (h : Tok r .eof v r') : r' = [] := by
  obtain ⟨t, s, e, hk, -, rfl, -⟩ := h
  obtain ⟨pre, n, h1, -, h2, -⟩ := lex_out (.init r)
  rw [e] at h1 h2
  rw [h1.adv.rem, ← List.drop_drop, h2.mp hk, List.drop_nil]

/-- Without syntax errors, the source is an expression with its nodes at their places, or there is nothing in it. -/
theorem parse_located {src : Bytes} {a : Node} {s' : PState} (e : parse src = some (a, s')) (hc : Clean s') :
    (a = .null ∧ ∃ v, Tok src .eof v []) ∨ (a.isNull = false ∧ (∃ r1 v, GN (some src) .expr src [a] r1 ∧ Tok r1 .eof v [])) := by
  unfold parse parseTop at e
  have hR := recN_sound (src.length + 3)
  have hfr := hR.fr
  suffices Snd (some src) (do
      let e ← (recN (src.length + 3)).expr
      let tok ← peek
      whenP (tok.kind ≠ .eof) (emitD { kind := .unexpectedText, range := tok.range })
      pure e) (.init src) fun a r' B' => (a = .null ∧ ∃ v, Tok src .eof v []) ∨ (a.isNull = false ∧ (∃ r1 v, GN (some src) .expr src [a] r1 ∧ Tok r1 .eof v [])) by
    obtain ⟨_, _, _, h⟩ := this a s' e hc
    exact h
  refine .call (hR.expr _ _ _ (init_here src)) (fun _ => by frame) fun a s1 r1 B1 h1 ⟨hb, hg⟩ => ?_
  refine .peek h1 (fun t s2 r2 ts ht h2 hb2 => ?_) (fun _ => by frame)
  refine .whenDirty h2 (fun s u s1 e => emit_dirty rfl e) (fun s3 hk h3 => ?_) (fun _ => by frame)
  have hk : t.kind = .eof := Classical.not_not.mp hk
  rw [hk] at ht
  have := eof_tok ht
  subst this
  refine .pure h3 ?_
  rcases hg with ⟨rfl, rfl⟩ | ⟨h4, h5⟩
  · exact .inl ⟨rfl, _, ht⟩
  · exact .inr ⟨h4, _, _, h5, ht⟩

/-- Without syntax errors, the source is an expression, or there is nothing in it. -/
theorem parse_sound {src : Bytes} {a : Node} {s' : PState} (e : parse src = some (a, s')) (hc : Clean s') :
    (a = .null ∧ ∃ v, Tok src .eof v []) ∨ (a.isNull = false ∧ Accepts src (syn a)) := by
  rcases parse_located e hc with h | ⟨h, r1, v, h1, h2⟩
  · exact .inl h
  · exact .inr ⟨h, _, _, h1.toG, h2⟩

end Verif.Nixf.Syntax
