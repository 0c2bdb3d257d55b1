import Verif.Lemmas.ParserLambda
/-
Expressions that start with a keyword, the lookahead, and whole sources.
-/
namespace Verif.Nixf
open Lexical Verif.Props Tree Node

/-! ### if -/

theorem mkIf_spec {src : Bytes} {p : Nat} {l : Cursor} {c t e : Node} {s : PState} (hs : Inv src s) (hl : At src l)
    (hp : p ≤ l.offset) (hlt : p < s.endOff) (hL : SeqOk src l.offset s.endOff [c, t, e]) :
    Spec src (mkIf l c t e) s (fun n s' => Res src p n s'.endOff) := by
  unfold mkIf
  refine finish_spec hs ?_
  intro r i s' sm hc1 hc2 he
  exact Res.mk' (L := [c, t, e]) rfl hl hc1 (hc2 ▸ hL) hp (by omega) (by omega)

theorem noteLast_pure (n : Note) : (noteLast n : PM Unit) = (noteLast n >>= fun _ => pure ()) := rfl

/-- `diagNullExpr` with a note. -/
theorem nullNote_spec {src : Bytes} {s : PState} {as text : Bytes} {r : CRange} (hs : Inv src s) (hr : AtR src r) :
    Spec src (lastR >>= fun c => diagNullExpr c as >>= fun _ => noteMatch r text) s (fun _ s' => Same s s') := by
  refine (lastR_spec hs).bind ?_
  rintro c s1 st1 nu1 ⟨hc1, -, sm1, -⟩
  refine (diagNullExpr_spec st1.inv hc1).bindF ?_
  rintro _ s2 st2 nu2 ⟨sm2, fd⟩
  rw [noteMatch, noteLast_pure]
  refine SpecF.note st2 fd hr ?_
  intro s3 st3 sm3 _
  exact Spec.from st3 (.pure st3.inv (sm1.trans (sm2.trans sm3)))

theorem parseElse_spec {src : Bytes} {R : Rec} {k p : Nat} {t : Token} {c th : Node} {s : PState} (hR : RecOk src R k)
    (hs : Inv src s) (hn : s.NP) (hk : src.length + 1 ≤ k + s.pos) (ht : TokOk src t) (hp : p ≤ t.range.l.offset)
    (hlt : p < s.endOff) (hL : SeqOk src t.range.l.offset s.endOff [c, th]) :
    Spec src (parseElse R k t c th) s (fun n s' => Res src p n s'.endOff) := by
  unfold parseElse
  refine (expect_spec hs hn hk).bind ?_
  rintro o s1 st1 nu1 ⟨q1, -, -⟩
  cases o with
  | none =>
    refine mkIf_spec st1.inv ht.atL hp (by omega) ?_
    exact hL.append (L' := [.null]) (seq_null (by simp only [SeqOk]; omega))
  | some u =>
    obtain ⟨a1, a2, a3⟩ := q1 u rfl
    have hltu := a2.ok.lt (by rw [a1]; simp) (by rw [a1]; simp)
    refine (pconsume_spec st1.inv a2).bind ?_
    rintro _ s2 st2 nu2 ⟨-, e2, p2, -⟩
    refine (hR s2 st2.inv (st2.np (st1.np hn)) (by omega)).1.bind ?_
    intro e s3 st3 nu3 q3
    refine (whenP_spec st3.inv fun _ => nullNote_spec st3.inv ht.atR').bind ?_
    intro _ s4 st4 nu4 sm4
    have he4 := sm4.endOff
    refine mkIf_spec st4.inv ht.atL hp (by omega) ?_
    exact hL.append (L' := [e]) (q3.seq (by omega) (by omega) (by simp only [SeqOk]; omega))

theorem parseThen_spec {src : Bytes} {R : Rec} {k p : Nat} {t : Token} {c : Node} {s : PState} (hR : RecOk src R k)
    (hs : Inv src s) (hn : s.NP) (hk : src.length + 1 ≤ k + s.pos) (ht : TokOk src t) (hp : p ≤ t.range.l.offset)
    (hlt : p < s.endOff) (hL : SeqOk src t.range.l.offset s.endOff [c]) :
    Spec src (parseThen R k t c) s (fun n s' => Res src p n s'.endOff) := by
  unfold parseThen
  refine (expect_spec hs hn hk).bindF ?_
  rintro o s1 st1 nu1 ⟨q1, q1', -⟩
  cases o with
  | none =>
    refine SpecF.note st1 (q1' rfl) ht.atR' ?_
    intro s2 st2 sm2 _
    have he2 := sm2.endOff
    refine Spec.from st2 (mkIf_spec st2.inv ht.atL hp (by omega) ?_)
    exact hL.append (L' := [.null, .null]) (seq_null (seq_null (by simp only [SeqOk]; omega)))
  | some u =>
    obtain ⟨a1, a2, a3⟩ := q1 u rfl
    have hltu := a2.ok.lt (by rw [a1]; simp) (by rw [a1]; simp)
    refine Spec.from st1 ?_
    refine (pconsume_spec st1.inv a2).bind ?_
    rintro _ s2 st2 nu2 ⟨-, e2, p2, -⟩
    refine (hR s2 st2.inv (st2.np (st1.np hn)) (by omega)).1.bind ?_
    intro e s3 st3 nu3 q3
    have hn3 := st3.np (st2.np (st1.np hn))
    split
    · refine (lastR_spec st3.inv).bind ?_
      rintro cc s4 st4 nu4 ⟨hc1, -, sm4, -⟩
      refine (diagNullExpr_spec st4.inv hc1).bindF ?_
      rintro _ s5 st5 nu5 ⟨sm5, fd⟩
      refine SpecF.note st5 fd ht.atR' ?_
      intro s6 st6 sm6 _
      have he4 := sm4.endOff
      have he5 := sm5.endOff
      have he6 := sm6.endOff
      have hp4 := sm4.pos
      have hp5 := sm5.pos
      have hp6 := sm6.pos
      refine Spec.from st6 ?_
      refine (peek0_spec st6.inv).bind ?_
      rintro n s7 st7 nu7 ⟨f7, e7, -⟩
      split
      · refine mkIf_spec st7.inv ht.atL hp (by omega) ?_
        exact hL.append (L' := [.null, .null]) (seq_null (seq_null (by simp only [SeqOk]; omega)))
      · refine parseElse_spec hR st7.inv (st7.np (st6.np (st4.np hn3))) (by omega) ht hp (by omega) ?_
        exact hL.append (L' := [e]) (q3.seq (by omega) (by omega) (by simp only [SeqOk]; omega))
    · refine parseElse_spec hR st3.inv hn3 (by omega) ht hp (by omega) ?_
      exact hL.append (L' := [e]) (q3.seq (by omega) (by omega) (by simp only [SeqOk]; omega))

theorem parseExprIf_spec {src : Bytes} {R : Rec} {k : Nat} {s : PState} {t : Token} (hR : RecOk src R k) (hs : Inv src s)
    (hn : s.NP) (hk : src.length + 1 ≤ k + s.pos) (hf : Front src t s) (ht : t.kind ≠ .eof) :
    Spec src (parseExprIf R k) s (fun n s' => Res src s.pos n s'.endOff) := by
  unfold parseExprIf
  refine (peek0_spec hs).bind ?_
  rintro u s1 st1 nu1 ⟨f1, -, -, -, -, u1, -⟩
  obtain ⟨rfl, rfl⟩ := u1 t hf
  have hp := f1.pos
  have hlt := f1.ok.lt ht (f1.kind st1.inv hn)
  refine (pconsume_spec st1.inv f1).bind ?_
  rintro _ s2 st2 nu2 ⟨-, e2, p2, -⟩
  refine sync_spec (P := fun n e => Res src s1.pos n e) st2.inv (st2.np hn) ?_
  intro s3 hi3 hn3 sm3 hp3 he3
  refine sync_spec (P := fun n e => Res src s1.pos n e) hi3 hn3 ?_
  intro s4 hi4 hn4 sm4 hp4 he4
  refine (hR s4 hi4 hn4 (by omega)).1.bind ?_
  intro c s5 st5 nu5 q5
  have hn5 := st5.np hn4
  split
  · refine (lastR_spec st5.inv).bind ?_
    rintro cc s6 st6 nu6 ⟨hc1, -, sm6, -⟩
    refine (diagNullExpr_spec st6.inv hc1).bindF ?_
    rintro _ s7 st7 nu7 ⟨sm7, fd⟩
    refine SpecF.fix st7 fd ?_ ?_
    · intro e he
      simp only [List.mem_singleton] at he; subst he; exact f1.ok.atR'
    · intro s8 st8 sm8 fd8
      refine SpecF.fix st8 fd8 ?_ ?_
      · intro e he
        simp only [List.mem_singleton] at he; subst he; exact ⟨f1.ok.atR, f1.ok.atR⟩
      · intro s9 st9 sm9 _
        have he6 := sm6.endOff
        have he7 := sm7.endOff
        have he8 := sm8.endOff
        have he9 := sm9.endOff
        have hp6 := sm6.pos
        have hp7 := sm7.pos
        have hp8 := sm8.pos
        have hp9 := sm9.pos
        refine Spec.from st9 ?_
        refine (peek0_spec st9.inv).bind ?_
        rintro n s10 st10 nu10 ⟨f10, e10, -⟩
        split
        · refine mkIf_spec st10.inv f1.ok.atL (by omega) (by omega) ?_
          exact seq_null (seq_null (seq_null (by simp only [SeqOk]; omega)))
        · refine parseThen_spec hR st10.inv (st10.np (st9.np (st6.np hn5))) (by omega) f1.ok (by omega) (by omega) ?_
          exact q5.seq (by omega) (by omega) (by simp only [SeqOk]; omega)
  · refine parseThen_spec hR st5.inv hn5 (by omega) f1.ok (by omega) (by omega) ?_
    exact q5.seq (by omega) (by omega) (by simp only [SeqOk]; omega)

/-! ### assert -/

theorem mkAssert_spec {src : Bytes} {p : Nat} {l : Cursor} {c v : Node} {s : PState} (hs : Inv src s) (hl : At src l)
    (hp : p ≤ l.offset) (hlt : p < s.endOff) (hL : SeqOk src l.offset s.endOff [c, v]) :
    Spec src (mkAssert l c v) s (fun n s' => Res src p n s'.endOff) := by
  unfold mkAssert
  refine finish_spec hs ?_
  intro r i s' sm hc1 hc2 he
  exact Res.mk' (L := [c, v]) rfl hl hc1 (hc2 ▸ hL) hp (by omega) (by omega)

theorem parseAssertValue_spec {src : Bytes} {R : Rec} {k p : Nat} {t : Token} {c : Node} {s : PState} (hR : RecOk src R k)
    (hs : Inv src s) (hn : s.NP) (hk : src.length + 1 ≤ k + s.pos) (ht : TokOk src t) (hp : p ≤ t.range.l.offset)
    (hlt : p < s.endOff) (hL : SeqOk src t.range.l.offset s.endOff [c]) :
    Spec src (parseAssertValue R k t c) s (fun n s' => Res src p n s'.endOff) := by
  unfold parseAssertValue
  refine (expect_spec hs hn hk).bindF ?_
  rintro o s1 st1 nu1 ⟨q1, q1', -⟩
  cases o with
  | none =>
    refine SpecF.note st1 (q1' rfl) ht.atR' ?_
    intro s2 st2 sm2 _
    have he2 := sm2.endOff
    refine Spec.from st2 (mkAssert_spec st2.inv ht.atL hp (by omega) ?_)
    exact hL.append (L' := [.null]) (seq_null (by simp only [SeqOk]; omega))
  | some u =>
    obtain ⟨a1, a2, a3⟩ := q1 u rfl
    have hltu := a2.ok.lt (by rw [a1]; simp) (by rw [a1]; simp)
    refine Spec.from st1 ?_
    refine (pconsume_spec st1.inv a2).bind ?_
    rintro _ s2 st2 nu2 ⟨-, e2, p2, -⟩
    refine (hR s2 st2.inv (st2.np (st1.np hn)) (by omega)).1.bind ?_
    intro e s3 st3 nu3 q3
    refine (needExpr_spec st3.inv).bind ?_
    intro _ s4 st4 nu4 sm4
    have he4 := sm4.endOff
    refine mkAssert_spec st4.inv ht.atL hp (by omega) ?_
    exact hL.append (L' := [e]) (q3.seq (by omega) (by omega) (by simp only [SeqOk]; omega))

theorem parseExprAssert_spec {src : Bytes} {R : Rec} {k : Nat} {s : PState} {t : Token} (hR : RecOk src R k) (hs : Inv src s)
    (hn : s.NP) (hk : src.length + 1 ≤ k + s.pos) (hf : Front src t s) (ht : t.kind ≠ .eof) :
    Spec src (parseExprAssert R k) s (fun n s' => Res src s.pos n s'.endOff) := by
  unfold parseExprAssert
  refine (peek0_spec hs).bind ?_
  rintro u s1 st1 nu1 ⟨f1, -, -, -, -, u1, -⟩
  obtain ⟨rfl, rfl⟩ := u1 t hf
  have hp := f1.pos
  have hlt := f1.ok.lt ht (f1.kind st1.inv hn)
  refine (pconsume_spec st1.inv f1).bind ?_
  rintro _ s2 st2 nu2 ⟨-, e2, p2, -⟩
  refine sync_spec (P := fun n e => Res src s1.pos n e) st2.inv (st2.np hn) ?_
  intro s4 hi4 hn4 sm4 hp4 he4
  refine (hR s4 hi4 hn4 (by omega)).1.bind ?_
  intro c s5 st5 nu5 q5
  have hn5 := st5.np hn4
  split
  · refine (lastR_spec st5.inv).bind ?_
    rintro cc s6 st6 nu6 ⟨hc1, -, sm6, -⟩
    refine (diagNullExpr_spec st6.inv hc1).bindF ?_
    rintro _ s7 st7 nu7 ⟨sm7, fd⟩
    refine SpecF.fix st7 fd ?_ ?_
    · intro e he
      simp only [List.mem_singleton] at he; subst he; exact f1.ok.atR'
    · intro s9 st9 sm9 _
      have he6 := sm6.endOff
      have he7 := sm7.endOff
      have he9 := sm9.endOff
      have hp6 := sm6.pos
      have hp7 := sm7.pos
      have hp9 := sm9.pos
      refine Spec.from st9 ?_
      refine (peek0_spec st9.inv).bind ?_
      rintro n s10 st10 nu10 ⟨f10, e10, -⟩
      split
      · refine mkAssert_spec st10.inv f1.ok.atL (by omega) (by omega) ?_
        exact seq_null (seq_null (by simp only [SeqOk]; omega))
      · refine parseAssertValue_spec hR st10.inv (st10.np (st9.np (st6.np hn5))) (by omega) f1.ok (by omega) (by omega) ?_
        exact q5.seq (by omega) (by omega) (by simp only [SeqOk]; omega)
  · refine parseAssertValue_spec hR st5.inv hn5 (by omega) f1.ok (by omega) (by omega) ?_
    exact q5.seq (by omega) (by omega) (by simp only [SeqOk]; omega)

/-! ### with -/

theorem parseExprWith_spec {src : Bytes} {R : Rec} {k : Nat} {s : PState} {t : Token} (hR : RecOk src R k) (hs : Inv src s)
    (hn : s.NP) (hk : src.length + 1 ≤ k + s.pos) (hf : Front src t s) (ht : t.kind ≠ .eof) :
    Spec src (parseExprWith R k) s (fun n s' => Res src s.pos n s'.endOff) := by
  unfold parseExprWith
  refine (peek0_spec hs).bind ?_
  rintro u s1 st1 nu1 ⟨f1, -, -, -, -, u1, -⟩
  obtain ⟨rfl, rfl⟩ := u1 t hf
  have hp := f1.pos
  have hlt := f1.ok.lt ht (f1.kind st1.inv hn)
  refine (pconsume_spec st1.inv f1).bind ?_
  rintro _ s2 st2 nu2 ⟨-, e2, p2, -⟩
  refine (mkMisc_spec st2.inv f1.ok.atR' f1.ok.le).bind ?_
  rintro kw s3 st3 nu3 ⟨sm3, w1, w2, w3, w4⟩
  have hp3 := sm3.pos
  have he3 := sm3.endOff
  refine sync_spec (P := fun n e => Res src s1.pos n e) st3.inv (st3.np (st2.np hn)) ?_
  intro s4 hi4 hn4 sm4 hp4 he4
  refine (hR s4 hi4 hn4 (by omega)).1.bind ?_
  intro w s5 st5 nu5 q5
  refine (needExpr_spec st5.inv).bind ?_
  intro _ s6 st6 nu6 sm6
  have he6 := sm6.endOff
  have hp6 := sm6.pos
  have hn6 := st6.np (st5.np hn4)
  have perm : ∀ a b c d : Node, [a, b, c, d].Perm [a, c, b, d] := fun a b c d => (List.Perm.swap c b [d]).cons a
  refine (expect_spec st6.inv hn6 (by omega)).bindF ?_
  rintro o s7 st7 nu7 ⟨q7, q7', -⟩
  cases o with
  | none =>
    refine SpecF.note st7 (q7' rfl) f1.ok.atR' ?_
    intro s8 st8 sm8 _
    have he8 := sm8.endOff
    refine Spec.from st8 ?_
    refine finish_spec st8.inv ?_
    intro c i s9 sm9 hc1 hc2 he9
    refine Res.mk' (L := [kw, w, .null, .null]) rfl f1.ok.atL hc1 ?_ (by omega) (by omega) (by omega) ?_ ?_
    · refine seq_cons w1 w2 (by rw [w3]) (q5.seq (by rw [w4]; omega) (by rw [w4]; omega) ?_)
      exact seq_null (seq_null (by simp only [SeqOk]; omega))
    · exact ((perm _ _ _ _).filter _).subperm
    · exact fun m hm => .inl ((perm _ _ _ _).mem_iff.mp hm)
  | some x =>
    obtain ⟨a1, a2, a3⟩ := q7 x rfl
    have hltx := a2.ok.lt (by rw [a1]; simp) (by rw [a1]; simp)
    have hpx := a2.pos
    refine Spec.from st7 ?_
    refine (mkMisc_spec st7.inv a2.ok.atR' a2.ok.le).bind ?_
    rintro semi s8 st8 nu8 ⟨sm8, x1, x2, x3, x4⟩
    refine (pconsume_spec st8.inv (sm8.front a2)).bind ?_
    rintro _ s9 st9 nu9 ⟨-, e9, p9, -⟩
    refine (hR s9 st9.inv (st9.np (st8.np (st7.np hn6))) (by omega)).1.bind ?_
    intro e s10 st10 nu10 q10
    refine (needExpr_spec st10.inv).bind ?_
    intro _ s11 st11 nu11 sm11
    have he11 := sm11.endOff
    refine finish_spec st11.inv ?_
    intro c i s12 sm12 hc1 hc2 he12
    refine Res.mk' (L := [kw, w, semi, e]) rfl f1.ok.atL hc1 ?_ (by omega) (by omega) (by omega) ?_ ?_
    · refine seq_cons w1 w2 (by rw [w3]) (q5.seq (by rw [w4]; omega) (by rw [w4]; omega) ?_)
      refine seq_cons x1 x2 (by rw [x3]; omega) ?_
      exact q10.seq (by rw [x4]; omega) (by rw [x4]; omega) (by simp only [SeqOk]; omega)
    · exact ((perm _ _ _ _).filter _).subperm
    · exact fun m hm => .inl ((perm _ _ _ _).mem_iff.mp hm)

/-! ### let -/

theorem filter_ranges {a b x y z : Node} (ha : a.isNode = true) (hb : b.isNode = true) (h : a.range = b.range) :
    ([x, a, y, z].filter isNode).map Node.range = ([x, b, y, z].filter isNode).map Node.range := by
  simp only [List.filter_cons, ha, hb]
  split <;> simp [h]

/-- A `let` with its set of bindings, whose range is that of the bindings. -/
theorem let_res {src : Bytes} {p e i j : Nat} {l c : Cursor} {kw b kin body : Node} {st dy : List Node}
    (hall : OkAll src (.exprAttrs ⟨j, b.range⟩ b kw st dy)) (hb : b.isNode = true) (hbg : Good src b) (hkw : Good src kw)
    (hkn : kw.isNode = true) (hkr : RecIn kw) (hl : At src l) (hr : At src c)
    (hL : SeqOk src l.offset c.offset [kw, b, kin, body]) (hp : p ≤ l.offset) (he : c.offset ≤ e) (hlt : p < e) :
    Res src p (.exprLet ⟨i, ⟨l, c⟩⟩ kw kin body (.exprAttrs ⟨j, b.range⟩ b kw st dy)) e := by
  have h1 := hL.apart
  have hkb : kw.rCur.offset ≤ b.lCur.offset := by
    have := hL.2.2
    rw [if_pos hkn] at this
    exact (this.2.1 hb).2
  have hok := hL.okAll
  have hmem := hL.mem
  have an : Nest (.exprAttrs ⟨j, b.range⟩ b kw st dy) := by
    have hc : (Node.exprAttrs ⟨j, b.range⟩ b kw st dy).children = [b, kw] := by
      simp [children, hb, hkn]
    refine ⟨?_, ?_, ?_⟩
    · rw [hc]; intro m hm
      simp only [List.mem_cons, List.not_mem_nil, or_false] at hm
      rcases hm with rfl | rfl
      · exact .inl ⟨Nat.le_refl _, Nat.le_refl _⟩
      · exact .inr ⟨_, _, _, _, rfl, hkb⟩
    · intro _
      rw [hc]
      simp only [List.pairwise_cons, List.mem_singleton, forall_eq, List.not_mem_nil, false_implies, implies_true,
        List.Pairwise.nil, and_true]
      exact .inr hkb
    · rw [hc]; intro m hm
      simp only [List.mem_cons, List.not_mem_nil, or_false] at hm
      rcases hm with rfl | rfl
      · exact .inl hbg.recIn
      · exact .inl hkr
  have anAll : All children Nest (.exprAttrs ⟨j, b.range⟩ b kw st dy) := by
    refine .mk _ an ?_
    intro m hm
    simp only [children, List.mem_filter, List.mem_cons, List.not_mem_nil, or_false] at hm
    rcases hm.1 with rfl | rfl
    · exact hbg.nest
    · exact hkw.nest
  have hin : ∀ m ∈ [kw, b, kin, body], m.isNode = true → l.offset ≤ m.lCur.offset ∧ m.rCur.offset ≤ c.offset :=
    fun m hm hn => (hmem m hm hn).2
  have hgood : Good src (.exprLet ⟨i, ⟨l, c⟩⟩ kw kin body (.exprAttrs ⟨j, b.range⟩ b kw st dy)) := by
    refine ⟨okAll_mk rfl hl hr hL.le (fun _ _ h => by cases h) ?_, .mk _ ⟨?_, ?_, ?_⟩ ?_, fun _ _ _ _ _ h => by cases h⟩
    · intro m hm
      simp only [subs, List.mem_cons, List.not_mem_nil, or_false] at hm
      rcases hm with rfl | rfl | rfl | rfl
      · exact hok _ (by simp)
      · exact hall
      · exact hok _ (by simp)
      · exact hok _ (by simp)
    · intro m hm
      simp only [children, List.mem_filter, List.mem_cons, List.not_mem_nil, or_false] at hm
      obtain ⟨hm, hn⟩ := hm
      rcases hm with rfl | rfl | rfl | rfl
      · exact .inl (hin _ (by simp) hn)
      · exact .inl (hin b (by simp) hb)
      · exact .inl (hin _ (by simp) hn)
      · exact .inl (hin _ (by simp) hn)
    · intro _
      have e : ∀ L : List Node, L.Pairwise Apart ↔
          (L.map Node.range).Pairwise (fun a b => a.r.offset ≤ b.l.offset ∨ b.r.offset ≤ a.l.offset) := by
        intro L
        rw [List.pairwise_map]
        exact Iff.rfl
      have := (e _).mp h1
      rw [← filter_ranges (a := .exprAttrs ⟨j, b.range⟩ b kw st dy) rfl hb rfl] at this
      exact (e _).mpr this
    · intro m hm
      simp only [children, List.mem_filter, List.mem_cons, List.not_mem_nil, or_false] at hm
      obtain ⟨hm, hn⟩ := hm
      rcases hm with rfl | rfl | rfl | rfl
      · exact .inl hkr
      · exact .inr ⟨_, _, _, _, rfl⟩
      · exact .inl (hmem _ (by simp) hn).1.recIn
      · exact .inl (hmem _ (by simp) hn).1.recIn
    · intro m hm
      simp only [children, List.mem_filter, List.mem_cons, List.not_mem_nil, or_false] at hm
      obtain ⟨hm, hn⟩ := hm
      rcases hm with rfl | rfl | rfl | rfl
      · exact hkw.nest
      · exact anAll
      · exact (hmem _ (by simp) hn).1.nest
      · exact (hmem _ (by simp) hn).1.nest
  exact .inr ⟨rfl, hgood, hp, he, hlt⟩

theorem letAttrs_spec {src : Bytes} {b kw : Node} {s : PState} (hs : Inv src s) (hb : OkAll src b) (hkw : OkAll src kw) :
    Spec src (letAttrs b kw) s (fun n s' => Same s s' ∧ (b.isNull = true → n = .null) ∧
      (b.isNull = false → ∃ i st dy, n = .exprAttrs ⟨i, b.range⟩ b kw st dy ∧ OkAll src n)) := by
  unfold letAttrs
  split
  · rename_i h
    exact .pure hs ⟨.refl s, fun _ => rfl, fun h' => by rw [h] at h'; cases h'⟩
  · rename_i h
    refine (attrs_sema hs hb.atR hb.le hb hkw).imp ?_
    rintro n s' _ _ ⟨q, sm⟩
    exact ⟨sm, fun h' => absurd h' h, fun _ => q⟩

theorem parseExprLet_spec {src : Bytes} {R : Rec} {k : Nat} {s : PState} {t : Token} (hR : RecOk src R k) (hs : Inv src s)
    (hn : s.NP) (hk : src.length + 1 ≤ k + s.pos) (hf : Front src t s) (ht : t.kind ≠ .eof) :
    Spec src (parseExprLet R k) s (fun n s' => Res src s.pos n s'.endOff) := by
  unfold parseExprLet
  refine (peek0_spec hs).bind ?_
  rintro u s1 st1 nu1 ⟨f1, -, -, -, -, u1, -⟩
  obtain ⟨rfl, rfl⟩ := u1 t hf
  have hp := f1.pos
  have hlt := f1.ok.lt ht (f1.kind st1.inv hn)
  refine (mkMisc_spec st1.inv f1.ok.atR' f1.ok.le).bind ?_
  rintro kw s2 st2 nu2 ⟨sm2, w1, w2, w3, w4⟩
  refine (pconsume_spec st2.inv (sm2.front f1)).bind ?_
  rintro _ s3 st3 nu3 ⟨-, e3, p3, -⟩
  refine sync_spec (P := fun n e => Res src s1.pos n e) st3.inv (st3.np (st2.np hn)) ?_
  intro s4 hi4 hn4 sm4 hp4 he4
  refine (parseBinds_spec hR hi4 hn4 (by omega)).bind ?_
  intro b s5 st5 nu5 q5
  refine (letAttrs_spec st5.inv q5.okAll w1.ok).bind ?_
  rintro attrs s6 st6 nu6 ⟨sm6, n6, a6⟩
  have hp6 := sm6.pos
  have he6 := sm6.endOff
  have hn6 := st6.np (st5.np hn4)
  have fin : ∀ (kin body : Node) (s8 : PState) (c : Cursor) (i : Nat) (s9 : PState), s6.endOff ≤ s8.endOff → At src c →
      c.offset = s8.endOff → s9.endOff = s8.endOff → SeqOk src s6.endOff s8.endOff [kin, body] →
      Res src s1.pos (.exprLet ⟨i, ⟨u.range.l, c⟩⟩ kw kin body attrs) s9.endOff := by
    intro kin body s8 c i s9 h8 hc1 hc2 h9 hL
    have hLL : SeqOk src u.range.l.offset c.offset [kw, b, kin, body] := by
      refine seq_cons w1 w2 (by rw [w3]) (q5.seq (by rw [w4]; omega) (by rw [w4]; omega) ?_)
      exact hL.mono (by omega) (by omega)
    cases hb : b.isNull with
    | true =>
      have hbn : b = .null := by
        rcases q5 with h | h
        · exact h
        · rw [isNode_not_null h.1] at hb; cases hb
      rw [n6 hb]
      exact Res.mk' (L := [kw, .null, kin, body]) rfl f1.ok.atL hc1 (hbn ▸ hLL) (by omega) (by omega) (by omega)
    | false =>
      obtain ⟨j, st, dy, rfl, hall⟩ := a6 hb
      obtain ⟨g1, g2, -⟩ := q5.nonnull (by rw [hb]; simp)
      exact let_res hall g1 g2 w1 w2 w1.recIn f1.ok.atL hc1 hLL (by omega) (by omega) (by omega)
  refine (expect_spec st6.inv hn6 (by omega)).bind ?_
  rintro o s7 st7 nu7 ⟨q7, -, -⟩
  cases o with
  | none =>
    refine finish_spec st7.inv ?_
    intro c i s8 sm8 hc1 hc2 he8
    exact fin .null .null s7 c i s8 (by omega) hc1 hc2 he8 (seq_null (seq_null (by simp only [SeqOk]; omega)))
  | some x =>
    obtain ⟨a1, a2, a3⟩ := q7 x rfl
    have hltx := a2.ok.lt (by rw [a1]; simp) (by rw [a1]; simp)
    have hpx := a2.pos
    refine (mkMisc_spec st7.inv a2.ok.atR' a2.ok.le).bind ?_
    rintro kin s8 st8 nu8 ⟨sm8, x1, x2, x3, x4⟩
    refine (pconsume_spec st8.inv (sm8.front a2)).bind ?_
    rintro _ s9 st9 nu9 ⟨-, e9, p9, -⟩
    refine (hR s9 st9.inv (st9.np (st8.np (st7.np hn6))) (by omega)).1.bind ?_
    intro e s10 st10 nu10 q10
    refine (needExpr_spec st10.inv).bind ?_
    intro _ s11 st11 nu11 sm11
    have he11 := sm11.endOff
    refine finish_spec st11.inv ?_
    intro c i s12 sm12 hc1 hc2 he12
    refine fin kin e s11 c i s12 (by omega) hc1 hc2 he12 ?_
    refine seq_cons x1 x2 (by rw [x3]; omega) ?_
    exact q10.seq (by rw [x4]; omega) (by rw [x4]; omega) (by simp only [SeqOk]; omega)

/-! ### let { } -/

theorem findBody_mem {bs : List Node} {n : Node} (h : findBody bs = some n) : n ∈ bs := by
  fun_induction findBody bs with
  | case1 => cases h
  | case2 => cases h; simp
  | case3 _ _ _ _ _ _ _ _ _ ih => exact List.mem_cons_of_mem _ (ih h)
  | case4 _ _ _ ih => exact List.mem_cons_of_mem _ (ih h)

theorem legacyLetFixes_at {src text : Bytes} {l r : CRange} {attrs : Node} (hl : AtR src l) (hr : AtR src r)
    (ha : OkAll src attrs) : ∀ f ∈ legacyLetFixes text l r attrs, ∀ e ∈ f.edits, AtR src e.oldRange := by
  intro f hf e he
  unfold legacyLetFixes at hf
  split at hf
  · rename_i h0 hb bs _ _ _
    split at hf
    · rename_i hd pth eq v hfb
      split at hf
      · simp at hf
      · simp only [List.mem_singleton] at hf
        subst hf
        have h1 : OkAll src (.binds hb bs) := ha.sub (by simp [subs])
        have h2 : OkAll src (.binding hd pth eq v) := h1.sub (findBody_mem hfb)
        simp only [List.mem_cons, List.not_mem_nil, or_false] at he
        rcases he with rfl | rfl | rfl
        · exact hl
        · exact h2.atR
        · exact hr
    · simp at hf
  · simp at hf

theorem legacyClose_spec {src : Bytes} {k : Nat} {s : PState} {lc : Token} {c : Cursor} (hs : Inv src s) (hn : s.NP)
    (hk : src.length + 1 ≤ k + s.pos) (hl : TokOk src lc) (hc : At src c) :
    Spec src (legacyClose k lc c) s (fun r _ => AtR src r) := by
  unfold legacyClose
  refine (expect_spec hs hn hk).bindF ?_
  rintro o s1 st1 nu1 ⟨q1, q1', -⟩
  cases o with
  | none =>
    refine SpecF.note st1 (q1' rfl) hl.atR' ?_
    intro s2 st2 sm2 _
    exact Spec.from st2 (.pure st2.inv ⟨hc, hc⟩)
  | some u =>
    obtain ⟨a1, a2, a3⟩ := q1 u rfl
    refine Spec.from st1 ?_
    refine (pconsume_spec st1.inv a2).bind ?_
    intro _ s2 st2 nu2 _
    exact .pure st2.inv a2.ok.atR'

theorem parseExprLegacyLet_spec {src : Bytes} {R : Rec} {k : Nat} {s : PState} {t : Token} (hR : RecOk src R k) (hs : Inv src s)
    (hn : s.NP) (hk : src.length + 1 ≤ k + s.pos) (hf : Front src t s) (ht : t.kind ≠ .eof) :
    Spec src (parseExprLegacyLet R k) s (fun n s' => Res src s.pos n s'.endOff) := by
  unfold parseExprLegacyLet
  refine (peek0_spec hs).bind ?_
  rintro u s1 st1 nu1 ⟨f1, -, -, -, -, u1, -⟩
  obtain ⟨rfl, rfl⟩ := u1 t hf
  have hp := f1.pos
  have hlt := f1.ok.lt ht (f1.kind st1.inv hn)
  refine (mkMisc_spec st1.inv f1.ok.atR' f1.ok.le).bind ?_
  rintro kw s2 st2 nu2 ⟨sm2, w1, w2, w3, w4⟩
  refine (pconsume_spec st2.inv (sm2.front f1)).bind ?_
  rintro _ s3 st3 nu3 ⟨-, e3, p3, -⟩
  refine sync_spec (P := fun n e => Res src s1.pos n e) st3.inv (st3.np (st2.np hn)) ?_
  intro s4 hi4 hn4 sm4 hp4 he4
  refine (peek0_spec hi4).bind ?_
  rintro lc s5 st5 nu5 ⟨f5, e5, -⟩
  have hn5 := st5.np hn4
  refine (expectMay_spec st5.inv hn5 (by omega)).bind ?_
  intro _ s6 st6 nu6 _
  have hn6 := st6.np hn5
  refine (parseBinds_spec hR st6.inv hn6 (by omega)).bind ?_
  intro b s7 st7 nu7 q7
  have hn7 := st7.np hn6
  refine (lastR_spec st7.inv).bind ?_
  rintro c0 s8 st8 nu8 ⟨hc01, -, sm8, -⟩
  have hp8 := sm8.pos
  have he8 := sm8.endOff
  refine (legacyClose_spec st8.inv (st8.np hn7) (by omega) f5.ok hc01).bind ?_
  intro rc s9 st9 nu9 hrc
  refine (lastR_spec st9.inv).bind ?_
  rintro c s10 st10 nu10 ⟨hc1, hc2, sm10, -⟩
  have he10 := sm10.endOff
  refine (attrs_sema (r := ⟨u.range.l, c⟩) st10.inv ⟨f1.ok.atL, hc1⟩ (by dsimp only; omega) q7.okAll w1.ok).bind ?_
  rintro attrs s11 st11 nu11 ⟨⟨j, st, dy, rfl, hall⟩, sm11⟩
  have he11 := sm11.endOff
  refine (get_spec st11.inv).bind ?_
  rintro text _ - - ⟨rfl, -⟩
  have hr : AtR src ⟨u.range.l, c⟩ := ⟨f1.ok.atL, hc1⟩
  refine (emitD_spec st11.inv (cur0 hr (by simp) ?_)).bind ?_
  · intro f hf
    dsimp only at hf
    split at hf
    · exact legacyLetFixes_at f5.ok.atR' hrc hall f hf
    · simp at hf
  · rintro _ s12 st12 nu12 ⟨sm12, -⟩
    have he12 := sm12.endOff
    refine (whenP_spec st12.inv fun _ => emit_same st12.inv (cur0 hr (by simp) (by simp))).bind ?_
    intro _ s13 st13 nu13 sm13
    have he13 := sm13.endOff
    refine node_spec st13.inv ?_
    intro i s14 sm14 he14
    have hkw : Res src u.range.l.offset kw s4.endOff := .inr ⟨w2, w1, by rw [w3], by rw [w4]; omega, by omega⟩
    have hA : Res src s1.pos (.exprAttrs ⟨j, ⟨u.range.l, c⟩⟩ b kw st dy) s14.endOff :=
      Res.attrs (m := s4.endOff) hall f1.ok.atL hc1 hkw (q7.mono (by omega) (by omega)) (by omega) (by omega) (by omega)
        (by omega) (by omega)
    obtain ⟨g1, g2, g3, g4, g5⟩ := hA.nonnull (by simp [isNull])
    have hle : u.range.l.offset ≤ c.offset := by omega
    refine .inr ⟨rfl, ⟨okAll_mk rfl f1.ok.atL hc1 hle (fun _ _ h => by cases h) ?_, .mk _ ⟨?_, ?_, ?_⟩ ?_,
      fun _ _ _ _ _ h => by cases h⟩, by show s1.pos ≤ u.range.l.offset; omega, by show c.offset ≤ _; omega, by omega⟩
    · intro m hm
      simp only [subs, List.mem_cons, List.not_mem_nil, or_false] at hm
      rcases hm with rfl | rfl
      · exact w1.ok
      · exact hall
    · intro m hm
      simp only [children, List.mem_filter, List.mem_cons, List.not_mem_nil, or_false] at hm
      rcases hm.1 with rfl | rfl
      · refine .inl ⟨?_, ?_⟩
        · rw [w3]; exact Nat.le_refl _
        · rw [w4]; show _ ≤ c.offset; omega
      · exact .inl ⟨Nat.le_refl _, Nat.le_refl _⟩
    · intro h; cases h
    · intro m hm
      simp only [children, List.mem_filter, List.mem_cons, List.not_mem_nil, or_false] at hm
      rcases hm.1 with rfl | rfl
      · exact .inl w1.recIn
      · exact .inl g2.recIn
    · intro m hm
      simp only [children, List.mem_filter, List.mem_cons, List.not_mem_nil, or_false] at hm
      rcases hm.1 with rfl | rfl
      · exact w1.nest
      · exact g2.nest

/-! ### Lookahead -/

/-- Looking at token `n` when the tokens before it are known not to be quotes. -/
theorem peekKind_spec {src : Bytes} (n : Nat) {s : PState} (hs : Inv src s)
    (h : ∀ i, i < n → ∃ t, s.buf[i]? = some t ∧ t.kind ≠ .dquote ∧ t.kind ≠ .quote2) :
    Spec src (peekKind n) s (fun k s' => (∃ t, s'.buf[n]? = some t ∧ t.kind = k) ∧ s'.endOff = s.endOff ∧
      (∀ i, i < n → s'.buf[i]? = s.buf[i]?)) := by
  unfold peekKind
  have hlen : n ≤ s.buf.length := by
    cases n with
    | zero => omega
    | succ m =>
      obtain ⟨t, ht, -⟩ := h m (by omega)
      have := (List.getElem?_eq_some_iff.mp ht).1
      omega
  refine (peekN_spec n hs hlen ?_).bind ?_
  · by_cases hl : n < s.buf.length
    · exact .inl hl
    · right
      intro t ht
      obtain ⟨i, hi, rfl⟩ := List.mem_iff_getElem.mp ht
      obtain ⟨u, hu, h1⟩ := h i (by omega)
      rw [List.getElem?_eq_getElem hi] at hu
      cases hu
      exact h1
  · rintro t s1 st1 nu1 ⟨q1, q2, q3, q4, q5, q6, q7⟩
    exact .pure st1.inv ⟨⟨t, q1, rfl⟩, q3, q6⟩

/-- What the lookahead knows about the next token. -/
def LookOk (src : Bytes) (l : Look) (s : PState) : Prop :=
  ∃ t, Front src t s ∧ (l = .attrs → t.kind = .l_curly) ∧
    (l = .if_ ∨ l = .assert_ ∨ l = .let_ ∨ l = .legacyLet ∨ l = .with_ → t.kind ≠ .eof)

theorem lookAhead_spec {src : Bytes} {s : PState} (hs : Inv src s) : Spec src lookAhead s (fun l s' => LookOk src l s') := by
  unfold lookAhead
  refine (peekKind_spec 0 hs (fun i hi => by omega)).bind ?_
  rintro k0 s1 st1 nu1 ⟨⟨t0, hb0, rfl⟩, -, -⟩
  have front : ∀ {s' : PState}, Inv src s' → s'.buf[0]? = some t0 → Front src t0 s' := by
    intro s' hi hb
    cases h : s'.buf with
    | nil => rw [h] at hb; cases hb
    | cons t ts => rw [h] at hb; cases hb; exact .of_buf hi h
  have f1 := front st1.inv hb0
  split
  · rename_i hk0
    refine (peekKind_spec 1 st1.inv (fun i hi => ?_)).bind ?_
    · have : i = 0 := by omega
      subst this
      exact ⟨t0, hb0, by rw [hk0]; simp, by rw [hk0]; simp⟩
    · rintro k1 s2 st2 nu2 ⟨-, -, q2⟩
      have f2 := front st2.inv ((q2 0 (by omega)).trans hb0)
      refine .pure st2.inv ⟨t0, f2, ?_, ?_⟩
      · intro h; split at h <;> cases h
      · intro _; rw [hk0]; simp
  · rename_i hk0
    refine (peekKind_spec 1 st1.inv (fun i hi => ?_)).bind ?_
    · have : i = 0 := by omega
      subst this
      exact ⟨t0, hb0, by rw [hk0]; simp, by rw [hk0]; simp⟩
    · rintro k1 s2 st2 nu2 ⟨⟨t1, hb1, rfl⟩, -, q2⟩
      have hb20 := (q2 0 (by omega)).trans hb0
      have ok : ∀ {l s'}, Inv src s' → s'.buf[0]? = some t0 → LookOk src l s' := fun hi hb =>
        ⟨t0, front hi hb, fun _ => hk0, fun _ => by rw [hk0]; simp⟩
      have knows : ∀ i, i < 2 → t1.kind ≠ .dquote ∧ t1.kind ≠ .quote2 → ∃ t, s2.buf[i]? = some t ∧ t.kind ≠ .dquote ∧ t.kind ≠ .quote2 := by
        intro i hi hk1
        have : i = 0 ∨ i = 1 := by omega
        rcases this with rfl | rfl
        · exact ⟨t0, hb20, by rw [hk0]; simp, by rw [hk0]; simp⟩
        · exact ⟨t1, hb1, hk1⟩
      split
      · rename_i hk1
        refine (peekKind_spec 2 st2.inv (fun i hi => knows i hi (by rw [hk1]; simp))).bind ?_
        rintro k2 s3 st3 nu3 ⟨⟨t2, hb2, rfl⟩, -, q3⟩
        have hb30 := (q3 0 (by omega)).trans hb20
        have hb31 := (q3 1 (by omega)).trans hb1
        split
        all_goals try exact .pure st3.inv (ok st3.inv hb30)
        rename_i hk2
        refine (peekKind_spec 3 st3.inv (fun i hi => ?_)).bind ?_
        · have : i = 0 ∨ i = 1 ∨ i = 2 := by omega
          rcases this with rfl | rfl | rfl
          · exact ⟨t0, hb30, by rw [hk0]; simp, by rw [hk0]; simp⟩
          · exact ⟨t1, hb31, by rw [hk1]; simp, by rw [hk1]; simp⟩
          · exact ⟨t2, hb2, by rw [hk2]; simp, by rw [hk2]; simp⟩
        · rintro k3 s4 st4 nu4 ⟨-, -, q4⟩
          exact .pure st4.inv (ok st4.inv ((q4 0 (by omega)).trans hb30))
      · rename_i hk1
        refine (peekKind_spec 2 st2.inv (fun i hi => knows i hi (by rw [hk1]; simp))).bind ?_
        rintro k2 s3 st3 nu3 ⟨-, -, q3⟩
        exact .pure st3.inv (ok st3.inv ((q3 0 (by omega)).trans hb20))
      · exact .pure st2.inv (ok st2.inv hb20)
      · exact .pure st2.inv (ok st2.inv hb20)
  · rename_i hk0
    exact .pure st1.inv ⟨t0, f1, fun h => (nomatch h), fun _ => by rw [hk0]; simp⟩
  · rename_i hk0
    exact .pure st1.inv ⟨t0, f1, fun h => (nomatch h), fun _ => by rw [hk0]; simp⟩
  · rename_i hk0
    refine (peekKind_spec 1 st1.inv (fun i hi => ?_)).bind ?_
    · have : i = 0 := by omega
      subst this
      exact ⟨t0, hb0, by rw [hk0]; simp, by rw [hk0]; simp⟩
    · rintro k1 s2 st2 nu2 ⟨-, -, q2⟩
      have f2 := front st2.inv ((q2 0 (by omega)).trans hb0)
      refine .pure st2.inv ⟨t0, f2, ?_, ?_⟩
      · intro h; split at h <;> cases h
      · intro _; rw [hk0]; simp
  · rename_i hk0
    exact .pure st1.inv ⟨t0, f1, fun h => (nomatch h), fun _ => by rw [hk0]; simp⟩
  · exact .pure st1.inv ⟨t0, f1, fun h => (nomatch h), fun h => by simp at h⟩

theorem parseExpr_spec {src : Bytes} {R : Rec} {k : Nat} {s : PState} (hR : RecOk src R k) (hs : Inv src s) (hn : s.NP)
    (hk : src.length + 1 ≤ k + s.pos) : Spec src (parseExpr R k) s (fun n s' => Res src s.pos n s'.endOff) := by
  unfold parseExpr
  refine (lookAhead_spec hs).bind ?_
  rintro l s1 st1 nu1 ⟨t, f1, h1, h2⟩
  have hn1 := st1.np hn
  have mono : ∀ {m : PM Node}, Spec src m s1 (fun n s' => Res src s1.pos n s'.endOff) →
      Spec src m s1 (fun n s' => Res src s.pos n s'.endOff) := fun h => h.imp fun n s' _ _ q => q.mono (by omega) (Nat.le_refl _)
  cases l with
  | lambda => exact mono (parseExprLambda_spec hR st1.inv hn1 (by omega))
  | attrs => exact mono (parseExprAttrs_spec hR st1.inv hn1 (by omega) f1 (.inr (h1 rfl)))
  | if_ => exact mono (parseExprIf_spec hR st1.inv hn1 (by omega) f1 (h2 (by simp)))
  | assert_ => exact mono (parseExprAssert_spec hR st1.inv hn1 (by omega) f1 (h2 (by simp)))
  | let_ => exact mono (parseExprLet_spec hR st1.inv hn1 (by omega) f1 (h2 (by simp)))
  | legacyLet => exact mono (parseExprLegacyLet_spec hR st1.inv hn1 (by omega) f1 (h2 (by simp)))
  | with_ => exact mono (parseExprWith_spec hR st1.inv hn1 (by omega) f1 (h2 (by simp)))
  | op => exact mono ((op_spec hR k).1 s1 0 st1.inv hn1 (by omega) (by omega))

theorem recN_ok (src : Bytes) (n : Nat) : RecOk src (recN n) n := by
  induction n with
  | zero => intro s hs _ h; have := hs.pos_le; omega
  | succ n ih =>
    intro s hs hn h
    exact ⟨parseExpr_spec ih hs hn (by omega), parseExprSelect_spec ih hs hn (by omega)⟩

end Verif.Nixf
