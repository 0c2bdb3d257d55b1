import Verif.Lemmas.ParserExpr
/-
Functions.
-/
namespace Verif.Nixf
open Lexical Verif.Props Tree Node

/-- A possibly missing node in a sequence that continues at `m`. -/
theorem Res.seqTo {src : Bytes} {p e lo hi m : Nat} {n : Node} {L : List Node} (h : Res src p n e) (h1 : lo ≤ p) (h0 : lo ≤ m)
    (hm : e ≤ m) (h2 : SeqOk src m hi L) : SeqOk src lo hi (n :: L) := by
  rcases h with rfl | ⟨a, b, c, d, f⟩
  · exact seq_null (h2.mono h0 (Nat.le_refl _))
  · exact seq_cons b a (by omega) (h2.mono (by omega) (Nat.le_refl _))

theorem lCurP_spec {src : Bytes} {s : PState} (hs : Inv src s) :
    Spec src lCurP s (fun c s' => ∃ t, Front src t s' ∧ c = t.range.l ∧ s'.endOff = s.endOff ∧ ∀ u, Front src u s → s' = s) := by
  unfold lCurP
  refine (peek0_spec hs).bind ?_
  rintro t s1 st1 nu1 ⟨f1, e1, -, -, -, u1, -⟩
  exact .pure st1.inv ⟨t, f1, rfl, e1, fun u hu => (u1 u hu).1⟩

theorem formalCommaTok_spec {src : Bytes} {s : PState} {t : Token} (hs : Inv src s) (hf : Front src t s) :
    Spec src formalCommaTok s (fun n s' => Res src s.pos n s'.endOff) := by
  unfold formalCommaTok
  refine (peek0_spec hs).bind ?_
  rintro u s1 st1 nu1 ⟨f1, -, -, -, -, u1, -⟩
  obtain ⟨rfl, rfl⟩ := u1 t hf
  have hp := hf.pos
  split
  · rename_i hk
    have hlt := f1.ok.lt (by rw [hk]; simp) (by rw [hk]; simp)
    refine (pconsume_spec st1.inv f1).bind ?_
    rintro _ s2 st2 nu2 ⟨-, e2, p2, -⟩
    refine (mkMisc_spec st2.inv hf.ok.atR' hf.ok.le).imp ?_
    rintro n s3 st3 nu3 ⟨sm3, m1, m2, m3, m4⟩
    have he3 := sm3.endOff
    exact .inr ⟨m2, m1, by rw [m3]; omega, by rw [m4]; omega, by omega⟩
  · exact .pure st1.inv (.inl rfl)

theorem parseFormal_spec {src : Bytes} {R : Rec} {k : Nat} {s : PState} (hR : RecOk src R k) (hs : Inv src s) (hn : s.NP)
    (hk : src.length + 1 ≤ k + s.pos) :
    Spec src (parseFormal R) s (fun n s' => Res src s.pos n s'.endOff) := by
  unfold parseFormal
  refine (lCurP_spec hs).bind ?_
  rintro l s1 st1 nu1 ⟨b, f1, rfl, e1, -⟩
  have hp1 := f1.pos
  have hn1 := st1.np hn
  refine (formalCommaTok_spec st1.inv f1).bind ?_
  intro comma s2 st2 nu2 q2
  have hn2 := st2.np hn1
  refine (peek0_spec st2.inv).bind ?_
  rintro tok s3 st3 nu3 ⟨f3, e3, -⟩
  have hp3 := f3.pos
  have hn3 := st3.np hn2
  split
  · rename_i hk'
    have hlt := f3.ok.lt (by rw [hk']; simp) (by rw [hk']; simp)
    refine (pconsume_spec st3.inv f3).bind ?_
    rintro _ s4 st4 nu4 ⟨-, e4, p4, -⟩
    refine (fresh_spec st4.inv).bind ?_
    rintro h s5 st5 nu5 ⟨rfl, sm5, -⟩
    have hp5 := sm5.pos
    have he5 := sm5.endOff
    have gi : Good src (.identifier ⟨s4.next, tok.range⟩ tok.view) := good_ident f3.ok.atL f3.ok.atR f3.ok.le f3.ok.view
    refine (peek0_spec st5.inv).bind ?_
    rintro q s6 st6 nu6 ⟨f6, e6, -⟩
    have hp6 := f6.pos
    have hn6 := st6.np (st5.np (st4.np hn3))
    have fin : ∀ (d : Node) (s8 : PState) (c : Cursor) (i : Nat) (s9 : PState), s6.endOff ≤ s8.endOff → At src c →
        c.offset = s8.endOff → s9.endOff = s8.endOff → Res src s6.pos d s8.endOff →
        Res src s.pos (.formal ⟨i, ⟨b.range.l, c⟩⟩ comma (.identifier ⟨s4.next, tok.range⟩ tok.view) d .null) s9.endOff := by
      intro d s8 c i s9 h8 hc1 hc2 h9 qd
      refine Res.mk' (L := [comma, .identifier ⟨s4.next, tok.range⟩ tok.view, d, .null]) rfl f1.ok.atL hc1 ?_ (by omega)
        (by omega) (by omega) ?_ (fun m hm => .inl hm)
      · refine q2.seqTo (m := tok.range.l.offset) (by omega) (by omega) (by omega) (seq_cons gi rfl (Nat.le_refl _) ?_)
        refine qd.seq (by show tok.range.r.offset ≤ _; omega) (by show tok.range.r.offset ≤ _; omega) ?_
        exact seq_null (by simp only [SeqOk]; omega)
      · have : List.Sublist [.identifier ⟨s4.next, tok.range⟩ tok.view, d]
            [comma, .identifier ⟨s4.next, tok.range⟩ tok.view, d, .null] :=
          .cons _ (.cons_cons _ (.cons_cons _ (.cons _ .slnil)))
        exact (this.filter _).subperm
    split
    · refine finish_spec st6.inv ?_
      intro c i s7 sm7 hc1 hc2 he7
      exact fin .null s6 c i s7 (Nat.le_refl _) hc1 hc2 he7 (.inl rfl)
    · rename_i hq
      have hq : q.kind = .question := by simpa using hq
      have hltq := f6.ok.lt (by rw [hq]; simp) (by rw [hq]; simp)
      refine (pconsume_spec st6.inv f6).bind ?_
      rintro _ s7 st7 nu7 ⟨-, e7, p7, -⟩
      refine (hR s7 st7.inv (st7.np hn6) (by omega)).1.bind ?_
      intro d s8 st8 nu8 q8
      refine (needExpr_spec st8.inv).bind ?_
      intro _ s9 st9 nu9 sm9
      have he9 := sm9.endOff
      refine finish_spec st9.inv ?_
      intro c i s10 sm10 hc1 hc2 he10
      exact fin d s9 c i s10 (by omega) hc1 hc2 he10 (q8.mono (by omega) (by omega))
  · split
    · rename_i hk'
      have hlt := f3.ok.lt (by rw [hk']; simp) (by rw [hk']; simp)
      refine (pconsume_spec st3.inv f3).bind ?_
      rintro _ s4 st4 nu4 ⟨-, e4, p4, -⟩
      refine (mkMisc_spec st4.inv f3.ok.atR' f3.ok.le).bind ?_
      rintro e s5 st5 nu5 ⟨sm5, m1, m2, m3, m4⟩
      have he5 := sm5.endOff
      refine finish_spec st5.inv ?_
      intro c i s7 sm7 hc1 hc2 he7
      refine Res.mk' (L := [comma, .null, .null, e]) rfl f1.ok.atL hc1 ?_ (by omega) (by omega) (by omega) ?_ (fun m hm => .inl hm)
      · refine q2.seqTo (m := tok.range.l.offset) (by omega) (by omega) (by omega) (seq_null (seq_null (seq_cons m1 m2 (by rw [m3]) ?_)))
        simp only [SeqOk]; rw [m4]; omega
      · have : List.Sublist [e] [comma, .null, .null, e] := .cons _ (.cons _ (.cons _ (.refl _)))
        have h : e.isNull = false := isNode_not_null m2
        have h2 : (Node.formal ⟨i, ⟨b.range.l, c⟩⟩ comma .null .null e).children = [e].filter isNode := by
          simp only [children, h]; rfl
        rw [h2]
        exact (this.filter _).subperm
    · split
      · exact .pure st3.inv (.inl rfl)
      · rename_i hnn
        obtain ⟨g1, g2, g3, g4, g5⟩ := q2.nonnull hnn
        refine finish_spec st3.inv ?_
        intro c i s7 sm7 hc1 hc2 he7
        refine Res.mk' (L := [comma, .null, .null, .null]) rfl f1.ok.atL hc1 ?_ (by omega) (by omega) (by omega) ?_ (fun m hm => .inl hm)
        · exact q2.seq (by omega) (by omega) (seq_null (seq_null (seq_null (by simp only [SeqOk]; omega))))
        · have : List.Sublist [Node.null, .null] [comma, .null, .null, .null] := .cons _ (.cons _ (.refl _))
          exact (this.filter _).subperm

theorem formalsLoop_spec {src : Bytes} {R : Rec} {k j : Nat} {s : PState} (hR : RecOk src R k) (hs : Inv src s) (hn : s.NP)
    (hk : src.length + 1 ≤ k + s.pos) (hj : src.length + 1 ≤ j + s.pos) :
    Spec src (formalsLoop R k j) s (fun ms s' => SeqOk src s.endOff s'.endOff ms) := by
  induction j generalizing s with
  | zero => have := hs.pos_le; omega
  | succ j ih =>
    rw [formalsLoop]
    refine (peek0_spec hs).bind ?_
    rintro t s1 st1 nu1 ⟨f1, e1, -⟩
    split
    · exact .pure st1.inv (by simp only [SeqOk]; omega)
    · refine (parseFormal_spec hR st1.inv (st1.np hn) (by omega)).bind ?_
      intro f s2 st2 nu2 q2
      have hn2 := st2.np (st1.np hn)
      split
      · refine (removeUnexpected_spec st2.inv hn2 (by omega)).bind ?_
        rintro r s3 st3 nu3 ⟨q3, -⟩
        split
        · rename_i hr
          have := q3 hr
          exact (ih st3.inv (st3.np hn2) (by omega) (by omega)).imp fun ms s4 _ _ q => q.mono (by omega) (Nat.le_refl _)
        · exact .pure st3.inv (by simp only [SeqOk]; omega)
      · rename_i hnn
        obtain ⟨g1, g2, g3, g4, g5⟩ := q2.nonnull hnn
        refine (ih st2.inv hn2 (by omega) (by omega)).bind ?_
        intro ms s3 st3 nu3 q3
        exact .pure st3.inv (q2.seq (by omega) (by omega) q3)

theorem parseFormals_spec {src : Bytes} {R : Rec} {k : Nat} {s : PState} (hR : RecOk src R k) (hs : Inv src s) (hn : s.NP)
    (hk : src.length + 1 ≤ k + s.pos) :
    Spec src (parseFormals R k) s (fun n s' => Res src s.pos n s'.endOff) := by
  unfold parseFormals
  refine (expect_spec hs hn hk).bind ?_
  rintro o s1 st1 nu1 ⟨q1, -, -⟩
  cases o with
  | none => exact .pure st1.inv (.inl rfl)
  | some t =>
    obtain ⟨a1, a2, a3⟩ := q1 t rfl
    have hlt := a2.ok.lt (by rw [a1]; simp) (by rw [a1]; simp)
    refine (pconsume_spec st1.inv a2).bind ?_
    rintro _ s2 st2 nu2 ⟨-, e2, p2, -⟩
    refine sync_spec (P := fun n e => Res src s.pos n e) st2.inv (st2.np (st1.np hn)) ?_
    intro s3 hi3 hn3 sm3 hp3 he3
    refine sync_spec (P := fun n e => Res src s.pos n e) hi3 hn3 ?_
    intro s4 hi4 hn4 sm4 hp4 he4
    refine sync_spec (P := fun n e => Res src s.pos n e) hi4 hn4 ?_
    intro s5 hi5 hn5 sm5 hp5 he5
    refine sync_spec (P := fun n e => Res src s.pos n e) hi5 hn5 ?_
    intro s6 hi6 hn6 sm6 hp6 he6
    refine (formalsLoop_spec hR hi6 hn6 (by omega) (by omega)).bind ?_
    intro ms s7 st7 nu7 q7
    refine (expectOr_spec st7.inv (st7.np hn6) (by omega) a2.ok.atR').bind ?_
    intro _ s8 st8 nu8 _
    refine (lastR_spec st8.inv).bind ?_
    rintro c s9 st9 nu9 ⟨hc1, hc2, sm9, -⟩
    have he9 := sm9.endOff
    refine (sema_spec (P := fun n => ∃ i, n = .formals ⟨i, ⟨t.range.l, c⟩⟩ ms) st9.inv ?_).imp ?_
    · obtain ⟨i, s', h1, h2, -⟩ := onFormals_ok (text := src) (r := ⟨t.range.l, c⟩) (s := ⟨s9.next, s9.lex.diags, s9.bad⟩)
        (fun f hf => q7.okAll f hf)
      exact ⟨_, s', h1, h2, i, rfl⟩
    · rintro n s10 st10 nu10 ⟨⟨i, rfl⟩, sm10, -⟩
      have he10 := sm10.endOff
      exact Res.mk' (L := ms) rfl a2.ok.atL hc1 (q7.mono (by omega) (by omega)) (by omega) (by omega) (by omega)

theorem lambdaArg_sema {src : Bytes} {r : CRange} {i f : Node} {s : PState} (hs : Inv src s) (hi : OkAll src i) (hf : OkAll src f) :
    Spec src (sema fun _ => onLambdaArg r i f) s (fun n s' => (∃ j, n = .lambdaArg ⟨j, r⟩ i f) ∧ s'.endOff = s.endOff) := by
  refine (sema_spec (P := fun n => ∃ j, n = .lambdaArg ⟨j, r⟩ i f) hs ?_).imp (fun _ _ _ _ q => ⟨q.1, q.2.1.endOff⟩)
  obtain ⟨j, s', h1, h2, -⟩ := onLambdaArg_ok (r := r) (s := ⟨s.next, s.lex.diags, s.bad⟩) hi hf
  exact ⟨_, s', h1, h2, j, rfl⟩

/-- `lastR`, then the action for the argument. -/
theorem lambdaArg_fin {src : Bytes} {p : Nat} {l : Cursor} {i f : Node} {L : List Node} {s : PState} (hs : Inv src s)
    (hl : At src l) (hp : p ≤ l.offset) (hlt : p < s.endOff) (hi : OkAll src i) (hf : OkAll src f)
    (hL : SeqOk src l.offset s.endOff L) (hperm : [i, f].Perm L)
    (hif : i.isNode = true ∨ i = .null ∧ f.isNode = true) :
    Spec src (lastR >>= fun c => sema fun _ => onLambdaArg ⟨l, c⟩ i f) s (fun n s' => Res src p n s'.endOff) := by
  refine (lastR_spec hs).bind ?_
  rintro c s1 st1 nu1 ⟨hc1, hc2, sm1, -⟩
  have he1 := sm1.endOff
  refine (lambdaArg_sema st1.inv hi hf).imp ?_
  rintro n s2 st2 nu2 ⟨⟨j, rfl⟩, he2⟩
  exact Res.mk' (L := L) rfl hl hc1 (hc2 ▸ hL) hp (by omega) (by omega) (hperm.filter _).subperm
    (fun m hm => .inl (hperm.mem_iff.mp hm)) (hv := ⟨hif, fun m hm hn => ((hc2 ▸ hL).mem m (hperm.mem_iff.mp hm) hn).2⟩)

theorem parseLambdaArg_spec {src : Bytes} {R : Rec} {k : Nat} {s : PState} (hR : RecOk src R k) (hs : Inv src s) (hn : s.NP)
    (hk : src.length + 1 ≤ k + s.pos) :
    Spec src (parseLambdaArg R k) s (fun n s' => Res src s.pos n s'.endOff) := by
  unfold parseLambdaArg
  refine (lCurP_spec hs).bind ?_
  rintro l s1 st1 nu1 ⟨b, f1, rfl, e1, -⟩
  have hp1 := f1.pos
  have hn1 := st1.np hn
  refine (peek0_spec st1.inv).bind ?_
  rintro tok s2 st2 nu2 ⟨f2, -, -, -, -, u2, -⟩
  obtain ⟨rfl, rfl⟩ := u2 b f1
  have ident : ∀ i, TokOk src tok → Good src (.identifier ⟨i, tok.range⟩ tok.view) := fun i h =>
    good_ident h.atL h.atR h.le h.view
  split
  · rename_i hk'
    have hlt := f2.ok.lt (by rw [hk']; simp) (by rw [hk']; simp)
    refine (pconsume_spec st2.inv f2).bind ?_
    rintro _ s3 st3 nu3 ⟨-, e3, p3, -⟩
    refine (fresh_spec st3.inv).bind ?_
    rintro h s4 st4 nu4 ⟨rfl, sm4, -⟩
    have hp4 := sm4.pos
    have he4 := sm4.endOff
    have hn4 := st4.np (st3.np hn1)
    have gi := ident s3.next f2.ok
    refine (peek0_spec st4.inv).bind ?_
    rintro a s5 st5 nu5 ⟨f5, e5, -⟩
    have hp5 := f5.pos
    have hn5 := st5.np hn4
    split
    · refine lambdaArg_fin (L := [_, .null]) st5.inv f2.ok.atL (by omega) (by omega) gi.ok okAll_null ?_ (.refl _) (.inl rfl)
      exact seq_cons gi rfl (Nat.le_refl _) (seq_null (by simp only [SeqOk]; show tok.range.r.offset ≤ _; omega))
    · rename_i ha
      have ha : a.kind = .at_ := by simpa using ha
      have hlta := f5.ok.lt (by rw [ha]; simp) (by rw [ha]; simp)
      refine (pconsume_spec st5.inv f5).bind ?_
      rintro _ s6 st6 nu6 ⟨-, e6, p6, -⟩
      refine (parseFormals_spec hR st6.inv (st6.np hn5) (by omega)).bind ?_
      intro fs s7 st7 nu7 q7
      refine (whenP_spec st7.inv fun _ => emit_same st7.inv (cur0 f2.ok.atR' (by simp) ?_)).bind ?_
      · intro f hf e he
        simp only [List.mem_cons, List.not_mem_nil, or_false] at hf
        rcases hf with rfl | rfl <;> simp only [List.mem_singleton] at he <;> subst he
        · exact f2.ok.atR'
        · exact ⟨f2.ok.atR, f2.ok.atR⟩
      · intro _ s8 st8 nu8 sm8
        have he8 := sm8.endOff
        refine lambdaArg_fin (L := [_, fs]) st8.inv f2.ok.atL (by omega) (by omega) gi.ok q7.okAll ?_ (.refl _) (.inl rfl)
        refine seq_cons gi rfl (Nat.le_refl _) (q7.seq ?_ ?_ (by simp only [SeqOk]; omega))
        · show tok.range.r.offset ≤ _; omega
        · show tok.range.r.offset ≤ _; omega
  · refine (parseFormals_spec hR st2.inv hn1 (by omega)).bind ?_
    intro fs s3 st3 nu3 q3
    split
    · exact .pure st3.inv (.inl rfl)
    · rename_i hnn
      obtain ⟨g1, g2, g3, g4, g5⟩ := q3.nonnull hnn
      have hn3 := st3.np hn1
      refine (peek0_spec st3.inv).bind ?_
      rintro a s5 st5 nu5 ⟨f5, e5, -⟩
      have hp5 := f5.pos
      have hn5 := st5.np hn3
      split
      · refine lambdaArg_fin (L := [.null, fs]) st5.inv f2.ok.atL (by omega) (by omega) okAll_null g2.ok ?_ (.refl _) (.inr ⟨rfl, g1⟩)
        exact seq_null (q3.seq (by omega) (by omega) (by simp only [SeqOk]; omega))
      · rename_i ha
        have ha : a.kind = .at_ := by simpa using ha
        have hlta := f5.ok.lt (by rw [ha]; simp) (by rw [ha]; simp)
        refine (pconsume_spec st5.inv f5).bind ?_
        rintro _ s6 st6 nu6 ⟨-, e6, p6, -⟩
        refine (expect_spec st6.inv (st6.np hn5) (by omega)).bindF ?_
        rintro o s7 st7 nu7 ⟨q7, q7', -⟩
        cases o with
        | none =>
          refine SpecF.note st7 (q7' rfl) f5.ok.atR' ?_
          intro s8 st8 sm8 _
          have he8 := sm8.endOff
          refine Spec.from st8 ?_
          refine lambdaArg_fin (L := [.null, fs]) st8.inv f2.ok.atL (by omega) (by omega) okAll_null g2.ok ?_ (.refl _) (.inr ⟨rfl, g1⟩)
          exact seq_null (q3.seq (by omega) (by omega) (by simp only [SeqOk]; omega))
        | some t =>
          obtain ⟨a1, a2, a3⟩ := q7 t rfl
          have hltt := a2.ok.lt (by rw [a1]; simp) (by rw [a1]; simp)
          refine Spec.from st7 ?_
          refine (pconsume_spec st7.inv a2).bind ?_
          rintro _ s8 st8 nu8 ⟨-, e8, p8, -⟩
          refine (fresh_spec st8.inv).bind ?_
          rintro h s9 st9 nu9 ⟨rfl, sm9, -⟩
          have he9 := sm9.endOff
          have gi : Good src (.identifier ⟨s8.next, t.range⟩ t.view) := good_ident a2.ok.atL a2.ok.atR a2.ok.le a2.ok.view
          refine lambdaArg_fin (L := [fs, .identifier ⟨s8.next, t.range⟩ t.view]) st9.inv f2.ok.atL (by omega) (by omega) gi.ok g2.ok ?_
            (List.Perm.swap _ _ _) (.inl rfl)
          refine q3.seq (by omega) (by omega) (seq_cons gi rfl (by show _ ≤ t.range.l.offset; omega) ?_)
          simp only [SeqOk]; show t.range.r.offset ≤ _; omega

theorem parseExprLambda_spec {src : Bytes} {R : Rec} {k : Nat} {s : PState} (hR : RecOk src R k) (hs : Inv src s) (hn : s.NP)
    (hk : src.length + 1 ≤ k + s.pos) :
    Spec src (parseExprLambda R k) s (fun n s' => Res src s.pos n s'.endOff) := by
  unfold parseExprLambda
  refine (lCurP_spec hs).bind ?_
  rintro l s1 st1 nu1 ⟨b, f1, rfl, e1, -⟩
  have hp1 := f1.pos
  refine (parseLambdaArg_spec hR st1.inv (st1.np hn) (by omega)).bind ?_
  intro arg s2 st2 nu2 q2
  refine (setBad_spec (f := fun s => s.bad || s.eaten.isEmpty) st2.inv).bind ?_
  rintro _ s3 st3 nu3 sm3
  have hp3 := sm3.pos
  have he3 := sm3.endOff
  have hn3 := st3.np (st2.np (st1.np hn))
  split
  · exact .pure st3.inv (.inl rfl)
  · rename_i hnn
    obtain ⟨g1, g2, g3, g4, g5⟩ := q2.nonnull hnn
    refine (expectMay_spec st3.inv hn3 (by omega)).bind ?_
    intro _ s4 st4 nu4 _
    refine (hR s4 st4.inv (st4.np hn3) (by omega)).1.bind ?_
    intro body s5 st5 nu5 q5
    refine (needExpr_spec st5.inv).bind ?_
    intro _ s6 st6 nu6 sm6
    have he6 := sm6.endOff
    refine finish_spec st6.inv ?_
    intro c i s7 sm7 hc1 hc2 he7
    refine Res.mk' (L := [arg, body]) rfl f1.ok.atL hc1 ?_ (by omega) (by omega) (by omega)
      (hv := fun _ => ⟨by show b.range.l.offset ≤ _; omega, by show _ ≤ c.offset; omega⟩)
    exact q2.seq (by omega) (by omega) (q5.seq (by omega) (by omega) (by simp only [SeqOk]; omega))

end Verif.Nixf
