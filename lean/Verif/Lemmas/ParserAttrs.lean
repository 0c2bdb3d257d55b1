import Verif.Lemmas.ParserStrings
/-
Attribute paths, bindings and attribute sets.
-/
namespace Verif.Nixf
open Lexical Verif.Props Tree Node

/-- `withSync` does not matter for a result that only depends on the end of the consumed tokens. -/
theorem sync_spec {α : Type} {src : Bytes} {k : TK} {m : PM α} {s : PState} {P : α → Nat → Prop} (hs : Inv src s)
    (hn : s.NP) (h : ∀ s1, Inv src s1 → s1.NP → Same s s1 → s1.pos = s.pos → s1.endOff = s.endOff →
      Spec src m s1 (fun a s' => P a s'.endOff)) :
    Spec src (withSync k m) s (fun a s' => P a s'.endOff) := by
  refine withSync_spec (Q := fun a s' => P a s'.endOff) hs ?_ (fun a s1 s2 q sm _ => by rw [sm.endOff]; exact q)
  intro s1 h1 hi
  refine h s1 hi ?_ ?_ ?_ ?_
  all_goals subst h1
  · exact hn
  · exact ⟨rfl, rfl, rfl⟩
  · rfl
  · rfl

theorem good_dot {src : Bytes} {i p : Nat} {o : Option Nat} {r : CRange} (h : AtR src r) (hle : r.l.offset ≤ r.r.offset) :
    Good src (.dot ⟨i, r⟩ p o) :=
  good_leaf rfl h.l h.r hle rfl rfl (fun _ _ h => by cases h) (fun _ _ _ _ _ h => by cases h)

theorem attrPathLoop_spec {src : Bytes} {R : Rec} {k j prev : Nat} {s : PState} (hR : RecOk src R k) (hs : Inv src s) (hn : s.NP)
    (hk : src.length + 1 ≤ k + s.pos) (hj : src.length + 1 ≤ j + s.pos) :
    Spec src (attrPathLoop R k j prev) s (fun r s' => ∃ L, SeqOk src s.endOff s'.endOff L ∧ (r.1 ++ r.2).Perm L) := by
  induction j generalizing s prev with
  | zero => have := hs.pos_le; omega
  | succ j ih =>
    rw [attrPathLoop]
    refine (peek0_spec hs).bind ?_
    rintro tok s1 st1 nu1 ⟨f1, e1, -, -, -, -, -⟩
    have hp1 := f1.pos
    have hn1 := st1.np hn
    split
    · rename_i hkd
      have hlt := f1.ok.lt (by rw [hkd]; simp) (by rw [hkd]; simp)
      refine (pconsume_spec st1.inv f1).bind ?_
      rintro _ s2 st2 nu2 ⟨-, e2, p2, -⟩
      have hn2 := st2.np hn1
      refine (parseAttrName_spec hR st2.inv hn2 (by omega)).bind ?_
      intro next s3 st3 nu3 q3
      refine (fresh_spec st3.inv).bind ?_
      rintro h s4 st4 nu4 ⟨rfl, sm4, -⟩
      have hp4 := sm4.pos
      have he4 := sm4.endOff
      have hn4 := st4.np (st3.np hn2)
      have hle := f1.ok.le
      split
      · refine (emitD_spec st4.inv (cur0 f1.ok.atR' (by simp) ?_)).bind ?_
        · intro f hf e he
          simp only [List.mem_cons, List.not_mem_nil, or_false] at hf
          rcases hf with rfl | rfl <;> simp only [List.mem_singleton] at he <;> subst he
          · exact f1.ok.atR'
          · exact ⟨f1.ok.atR, f1.ok.atR⟩
        · rintro _ s5 st5 nu5 ⟨sm5, -⟩
          have hp5 := sm5.pos
          have he5 := sm5.endOff
          refine (ih st5.inv (st5.np hn4) (by omega) (by omega)).bind ?_
          rintro ⟨ns, ds⟩ s6 st6 nu6 ⟨L, hL, hp⟩
          refine .pure st6.inv ⟨.dot ⟨s3.next, tok.range⟩ prev none :: L, ?_, ?_⟩
          · refine seq_cons (good_dot f1.ok.atR' hle) rfl (by show _ ≤ tok.range.l.offset; omega) ?_
            exact hL.mono (by show tok.range.r.offset ≤ _; omega) (Nat.le_refl _)
          · exact List.perm_middle.trans (hp.cons _)
      · rename_i hnn
        obtain ⟨g1, g2, g3, g4, g5⟩ := q3.nonnull hnn
        refine (ih st4.inv hn4 (by omega) (by omega)).bind ?_
        rintro ⟨ns, ds⟩ s6 st6 nu6 ⟨L, hL, hp⟩
        refine .pure st6.inv ⟨.dot ⟨s3.next, tok.range⟩ prev (some next.id) :: next :: L, ?_, ?_⟩
        · refine seq_cons (good_dot f1.ok.atR' hle) rfl (by show _ ≤ tok.range.l.offset; omega) ?_
          refine seq_cons g2 g1 (by show tok.range.r.offset ≤ _; omega) ?_
          exact hL.mono (by omega) (Nat.le_refl _)
        · exact List.perm_middle.trans ((hp.cons next).cons _)
    · exact .pure st1.inv ⟨[], by simp only [SeqOk]; omega, .refl _⟩

theorem parseAttrPath_spec {src : Bytes} {R : Rec} {k : Nat} {s : PState} (hR : RecOk src R k) (hs : Inv src s) (hn : s.NP)
    (hk : src.length + 1 ≤ k + s.pos) :
    Spec src (parseAttrPath R k) s (fun n s' => Res src s.pos n s'.endOff) := by
  unfold parseAttrPath
  refine (parseAttrName_spec hR hs hn hk).bind ?_
  intro first s1 st1 nu1 q1
  split
  · exact .pure st1.inv (.inl rfl)
  · rename_i hnn
    obtain ⟨g1, g2, g3, g4, g5⟩ := q1.nonnull hnn
    refine sync_spec (P := fun n e => Res src s.pos n e) st1.inv (st1.np hn) ?_
    intro s2 hi2 hn2 sm2 hp2 he2
    refine (attrPathLoop_spec hR hi2 hn2 (by omega) (by omega)).bind ?_
    rintro ⟨ns, ds⟩ s3 st3 nu3 ⟨L, hL, hp⟩
    refine finish_spec st3.inv ?_
    intro c i s4 sm4 hc1 hc2 he4
    have hseq : SeqOk src first.lCur.offset c.offset (first :: L) :=
      seq_cons g2 g1 (Nat.le_refl _) (hL.mono (by omega) (by omega))
    refine Res.mk' (L := first :: L) rfl g2.ok.at_l hc1 hseq g3 (by omega) (by omega) ?_ ?_ (hv := ?_)
    · exact ((hp.cons first).filter _).subperm
    · intro m hm
      exact .inl ((hp.cons first).mem_iff.mp hm)
    · intro n hn
      exact hseq.r_le n ((hp.cons first).mem_iff.mp (List.mem_append_left _ hn))

theorem bindingSemi_spec {src : Bytes} {s : PState} (hs : Inv src s) : Spec src bindingSemi s (fun _ _ => True) := by
  unfold bindingSemi
  refine (peek0_spec hs).bind ?_
  rintro tok s1 st1 nu1 ⟨f1, -⟩
  split
  · exact (pconsume_spec st1.inv f1).imp fun _ _ _ _ _ => trivial
  · refine (lastR_spec st1.inv).bind ?_
    rintro c s2 st2 nu2 ⟨hc, -⟩
    refine (emitD_spec st2.inv (cur0 (at_AtR hc) (by simp) ?_)).imp fun _ _ _ _ _ => trivial
    intro f hf e he
    simp only [List.mem_singleton] at hf; subst hf
    simp only [List.mem_singleton] at he; subst he
    exact ⟨hc, hc⟩

theorem parseBinding_spec {src : Bytes} {R : Rec} {k : Nat} {s : PState} (hR : RecOk src R k) (hs : Inv src s) (hn : s.NP)
    (hk : src.length + 1 ≤ k + s.pos) :
    Spec src (parseBinding R k) s (fun n s' => Res src s.pos n s'.endOff) := by
  unfold parseBinding
  refine (parseAttrPath_spec hR hs hn hk).bind ?_
  intro path s1 st1 nu1 q1
  split
  · exact .pure st1.inv (.inl rfl)
  · rename_i hnn
    obtain ⟨g1, g2, g3, g4, g5⟩ := q1.nonnull hnn
    refine sync_spec (P := fun n e => Res src s.pos n e) st1.inv (st1.np hn) ?_
    intro s2 hi2 hn2 sm2 hp2 he2
    refine sync_spec (P := fun n e => Res src s.pos n e) hi2 hn2 ?_
    intro s3 hi3 hn3 sm3 hp3 he3
    refine (expect_spec hi3 hn3 (by omega)).bind ?_
    rintro o s4 st4 nu4 ⟨q4, -⟩
    have hn4 := st4.np hn3
    cases o with
    | none =>
      refine finish_spec st4.inv ?_
      intro c i s5 sm5 hc1 hc2 he5
      exact Res.mk' (L := [path, .null, .null]) rfl g2.ok.at_l hc1
        (seq_cons g2 g1 (Nat.le_refl _) (seq_null (seq_null (by simp only [SeqOk]; omega)))) g3 (by omega) (by omega)
        (hv := fun h => by simp [isNode, hd?] at h)
    | some t =>
      obtain ⟨a1, a2, a3⟩ := q4 t rfl
      have hlt := a2.ok.lt (by rw [a1]; simp) (by rw [a1]; simp)
      refine (pconsume_spec st4.inv a2).bind ?_
      rintro _ s5 st5 nu5 ⟨-, e5, p5, -⟩
      refine (mkMisc_spec st5.inv a2.ok.atR' a2.ok.le).bind ?_
      rintro eq s6 st6 nu6 ⟨sm6, m1, m2, m3, m4⟩
      have hp6 := sm6.pos
      have he6 := sm6.endOff
      have hn6 := st6.np (st5.np hn4)
      refine (hR s6 st6.inv hn6 (by omega)).1.bind ?_
      intro e s7 st7 nu7 q7
      refine (needExpr_spec st7.inv).bind ?_
      intro _ s8 st8 nu8 sm8
      have he8 := sm8.endOff
      refine (bindingSemi_spec st8.inv).bind ?_
      intro _ s9 st9 nu9 _
      refine finish_spec st9.inv ?_
      intro c i s10 sm10 hc1 hc2 he10
      refine Res.mk' (L := [path, eq, e]) rfl g2.ok.at_l hc1 ?_ g3 (by omega) (by omega) (hv := fun h => ?_)
      rotate_left
      · rcases q7 with rfl | ⟨-, -, k1, -⟩
        · simp [isNode, hd?] at h
        · omega
      refine seq_cons g2 g1 (Nat.le_refl _) (seq_cons m1 m2 (by rw [m3]; omega) ?_)
      exact q7.seq (by rw [m4]; omega) (by rw [m4]; omega) (by simp only [SeqOk]; omega)

theorem inheritNames_spec {src : Bytes} {R : Rec} {k j : Nat} {s : PState} (hR : RecOk src R k) (hs : Inv src s) (hn : s.NP)
    (hk : src.length + 1 ≤ k + s.pos) (hj : src.length + 1 ≤ j + s.pos) :
    Spec src (inheritNames R k j) s (fun ns s' => SeqOk src s.endOff s'.endOff ns) := by
  induction j generalizing s with
  | zero => have := hs.pos_le; omega
  | succ j ih =>
    rw [inheritNames]
    have hep := hs.end_le
    refine (parseAttrName_spec hR hs hn hk).bind ?_
    intro n s1 st1 nu1 q1
    split
    · exact .pure st1.inv (by simp only [SeqOk]; omega)
    · rename_i hnn
      obtain ⟨g1, g2, g3, g4, g5⟩ := q1.nonnull hnn
      refine (ih st1.inv (st1.np hn) (by omega) (by omega)).bind ?_
      intro ns s2 st2 nu2 q2
      exact .pure st2.inv (q1.seq (by omega) (by omega) q2)

theorem inheritExpr_spec {src : Bytes} {R : Rec} {k : Nat} {s : PState} (hR : RecOk src R k) (hs : Inv src s) (hn : s.NP)
    (hk : src.length + 1 ≤ k + s.pos) :
    Spec src (inheritExpr R k) s (fun n s' => Res src s.pos n s'.endOff) := by
  unfold inheritExpr
  refine (peek0_spec hs).bind ?_
  rintro tok s1 st1 nu1 ⟨f1, e1, -⟩
  have hp1 := f1.pos
  have hn1 := st1.np hn
  split
  · rename_i hk'
    have hlt := f1.ok.lt (by rw [hk']; simp) (by rw [hk']; simp)
    refine (pconsume_spec st1.inv f1).bind ?_
    rintro _ s2 st2 nu2 ⟨-, e2, p2, -⟩
    have hn2 := st2.np hn1
    refine (hR s2 st2.inv hn2 (by omega)).1.bind ?_
    intro e s3 st3 nu3 q3
    refine (needExpr_spec st3.inv).bind ?_
    intro _ s4 st4 nu4 sm4
    have he4 := sm4.endOff
    have hp4 := sm4.pos
    refine (expectOr_spec st4.inv (st4.np (st3.np hn2)) (by omega) f1.ok.atR').bind ?_
    intro _ s5 st5 nu5 _
    exact .pure st5.inv (q3.mono (by omega) (by omega))
  · exact .pure st1.inv (.inl rfl)

theorem parseInherit_spec {src : Bytes} {R : Rec} {k : Nat} {s : PState} (hR : RecOk src R k) (hs : Inv src s) (hn : s.NP)
    (hk : src.length + 1 ≤ k + s.pos) :
    Spec src (parseInherit R k) s (fun n s' => Res src s.pos n s'.endOff) := by
  unfold parseInherit
  refine (peek0_spec hs).bind ?_
  rintro tok s1 st1 nu1 ⟨f1, e1, -⟩
  have hp1 := f1.pos
  have hn1 := st1.np hn
  split
  · exact .pure st1.inv (.inl rfl)
  · rename_i hk'
    have hk' : tok.kind = .kw_inherit := by simpa using hk'
    have hlt := f1.ok.lt (by rw [hk']; simp) (by rw [hk']; simp)
    refine (pconsume_spec st1.inv f1).bind ?_
    rintro _ s2 st2 nu2 ⟨-, e2, p2, -⟩
    refine sync_spec (P := fun n e => Res src s.pos n e) st2.inv (st2.np hn1) ?_
    intro s3 hi3 hn3 sm3 hp3 he3
    refine sync_spec (P := fun n e => Res src s.pos n e) hi3 hn3 ?_
    intro s4 hi4 hn4 sm4 hp4 he4
    refine sync_spec (P := fun n e => Res src s.pos n e) hi4 hn4 ?_
    intro s5 hi5 hn5 sm5 hp5 he5
    refine sync_spec (P := fun n e => Res src s.pos n e) hi5 hn5 ?_
    intro s6 hi6 hn6 sm6 hp6 he6
    refine (inheritExpr_spec hR hi6 hn6 (by omega)).bind ?_
    intro e s7 st7 nu7 q7
    refine (inheritNames_spec hR st7.inv (st7.np hn6) (by omega) (by omega)).bind ?_
    intro names s8 st8 nu8 q8
    refine (expectOr_spec st8.inv (st8.np (st7.np hn6)) (by omega) f1.ok.atR').bind ?_
    intro er s9 st9 nu9 q9
    refine (whenP_spec st9.inv fun _ => emit_same st9.inv (cur0 f1.ok.atR' (by simp [emptyInheritDiag]) ?_)).bind ?_
    · intro f hf x hx
      simp only [emptyInheritDiag, List.mem_singleton] at hf; subst hf
      simp only [List.mem_cons, Option.mem_toList, Option.map_eq_some_iff] at hx
      rcases hx with rfl | ⟨t, ht, rfl⟩
      · exact f1.ok.atR'
      · exact (q9 t ht).2.1.atR'
    · intro _ s10 st10 nu10 sm10
      have he10 := sm10.endOff
      refine finish_spec st10.inv ?_
      intro c i s11 sm11 hc1 hc2 he11
      have hle := f1.ok.le
      refine Res.mk' (L := e :: names) rfl f1.ok.atL hc1 ?_ (by omega) (by omega) (by omega) ?_ ?_
      · exact q7.seq (by omega) (by omega) (q8.mono (Nat.le_refl _) (by omega))
      · exact ((List.perm_append_singleton e names).filter _).subperm
      · exact fun m hm => .inl ((List.perm_append_singleton e names).mem_iff.mp hm)

theorem bindsLoop_spec {src : Bytes} {R : Rec} {k j : Nat} {s : PState} (hR : RecOk src R k) (hs : Inv src s) (hn : s.NP)
    (hk : src.length + 1 ≤ k + s.pos) (hj : src.length + 1 ≤ j + s.pos) :
    Spec src (bindsLoop R k j) s (fun bs s' =>
      (∀ lo, lo ≤ s.pos → lo ≤ s'.endOff → SeqOk src lo s'.endOff bs) ∧ (bs ≠ [] → s.pos < s'.endOff)) := by
  induction j generalizing s with
  | zero => have := hs.pos_le; omega
  | succ j ih =>
    rw [bindsLoop]
    have cons : ∀ n s2 s1, Step src s s1 → s.pos ≤ s1.pos → Step src s1 s2 → Res src s1.pos n s2.endOff → ¬ n.isNull = true →
        s1.pos ≤ s2.pos →
        Spec src (bindsLoop R k j >>= fun bs => pure (n :: bs)) s2 (fun bs s' =>
          (∀ lo, lo ≤ s.pos → lo ≤ s'.endOff → SeqOk src lo s'.endOff bs) ∧ (bs ≠ [] → s.pos < s'.endOff)) := by
      intro n s2 s1 st1 hp1 st2 q2 hnn hp2
      obtain ⟨g1, g2, g3, g4, g5⟩ := q2.nonnull hnn
      have hep := st2.inv.end_le
      refine (ih st2.inv (st2.np (st1.np hn)) (by omega) (by omega)).bind ?_
      rintro bs s3 st3 nu3 ⟨q3, -⟩
      refine .pure st3.inv ⟨fun lo h1 h2 => ?_, fun _ => by omega⟩
      exact q2.seq (by omega) (by omega) (q3 _ hep (by omega))
    refine (parseBinding_spec hR hs hn hk).bind ?_
    intro b s1 st1 nu1 q1
    split
    · refine (parseInherit_spec hR st1.inv (st1.np hn) (by omega)).bind ?_
      intro i s2 st2 nu2 q2
      split
      · have hn2 := st2.np (st1.np hn)
        refine (removeUnexpected_spec st2.inv hn2 (by omega)).bind ?_
        rintro r s3 st3 nu3 ⟨q3, -⟩
        split
        · rename_i hr
          have := q3 hr
          refine (ih st3.inv (st3.np hn2) (by omega) (by omega)).imp ?_
          rintro bs s4 st4 nu4 ⟨q4, q4'⟩
          exact ⟨fun lo h1 h2 => q4 lo (by omega) h2, fun h => by have := q4' h; omega⟩
        · exact .pure st3.inv ⟨fun lo h1 h2 => h2, fun h => absurd rfl h⟩
      · rename_i hnn
        exact cons i s2 s1 st1 (by omega) st2 q2 hnn (by omega)
    · rename_i hnn
      exact cons b s1 s (.refl hs) (by omega) st1 q1 hnn (by omega)

theorem parseBinds_spec {src : Bytes} {R : Rec} {k : Nat} {s : PState} (hR : RecOk src R k) (hs : Inv src s) (hn : s.NP)
    (hk : src.length + 1 ≤ k + s.pos) :
    Spec src (parseBinds R k) s (fun n s' => Res src s.pos n s'.endOff) := by
  unfold parseBinds
  refine (peek0_spec hs).bind ?_
  rintro b s1 st1 nu1 ⟨f1, e1, -⟩
  have hp1 := f1.pos
  refine sync_spec (P := fun n e => Res src s.pos n e) st1.inv (st1.np hn) ?_
  intro s3 hi3 hn3 sm3 hp3 he3
  refine sync_spec (P := fun n e => Res src s.pos n e) hi3 hn3 ?_
  intro s4 hi4 hn4 sm4 hp4 he4
  refine sync_spec (P := fun n e => Res src s.pos n e) hi4 hn4 ?_
  intro s5 hi5 hn5 sm5 hp5 he5
  refine sync_spec (P := fun n e => Res src s.pos n e) hi5 hn5 ?_
  intro s6 hi6 hn6 sm6 hp6 he6
  refine (bindsLoop_spec hR hi6 hn6 (by omega) (by omega)).bind ?_
  rintro bs s7 st7 nu7 ⟨q7, q7'⟩
  split
  · exact .pure st7.inv (.inl rfl)
  · rename_i hne
    have h := q7' (by intro h; rw [h] at hne; exact hne rfl)
    refine finish_spec st7.inv ?_
    intro c i s8 sm8 hc1 hc2 he8
    exact Res.mk' (L := bs) rfl f1.ok.atL hc1 (hc2 ▸ q7 _ (by omega) (by omega)) (by omega) (by omega) (by omega)

theorem recTok_spec {src : Bytes} {s : PState} {t : Token} (hs : Inv src s) (hf : Front src t s) :
    Spec src recTok s (fun n s' => Res src s.pos n s'.endOff ∧
      (t.kind = .kw_rec → s.pos < s'.endOff) ∧ (t.kind ≠ .kw_rec → Front src t s')) := by
  unfold recTok
  refine (peek0_spec hs).bind ?_
  rintro u s1 st1 nu1 ⟨f1, -, -, -, -, u1, -⟩
  obtain ⟨rfl, rfl⟩ := u1 t hf
  have hp := hf.pos
  split
  · rename_i hk
    have hlt := f1.ok.lt (by rw [hk]; simp) (by rw [hk]; simp)
    refine (pconsume_spec st1.inv f1).bind ?_
    rintro _ s2 st2 nu2 ⟨-, e2, p2, -⟩
    refine (mkMisc_spec st2.inv hf.ok.atR' hf.ok.le).imp ?_
    rintro n s3 st3 nu3 ⟨sm3, m1, m2, m3, m4⟩
    have he3 := sm3.endOff
    exact ⟨.inr ⟨m2, m1, by rw [m3]; omega, by rw [m4]; omega, by omega⟩, fun _ => by omega, fun h => absurd hk h⟩
  · rename_i hk
    exact .pure st1.inv ⟨.inl rfl, fun h => absurd h hk, fun _ => hf⟩

theorem attrsOpen_spec {src : Bytes} {k : Nat} {s : PState} {b : Token} (hs : Inv src s) (hn : s.NP)
    (hk : src.length + 1 ≤ k + s.pos) (hb : TokOk src b) :
    Spec src (attrsOpen k b) s (fun t s' => TokOk src t ∧
      ∀ u, Front src u s → u.kind = .l_curly → s.pos < s'.endOff) := by
  unfold attrsOpen
  refine (expect_spec hs hn hk).bind ?_
  rintro o s1 st1 nu1 ⟨q1, -, q1'⟩
  cases o with
  | none => exact .pure st1.inv ⟨hb, fun u hu hk => by have := q1' u hu hk; cases this⟩
  | some t =>
    obtain ⟨a1, a2, a3⟩ := q1 t rfl
    have hlt := a2.ok.lt (by rw [a1]; simp) (by rw [a1]; simp)
    refine (pconsume_spec st1.inv a2).bind ?_
    rintro _ s2 st2 nu2 ⟨-, e2, p2, -⟩
    exact .pure st2.inv ⟨a2.ok, fun u hu hk => by omega⟩

/-- A set with its `rec` token inside. -/
theorem Res.attrs {src : Bytes} {p e i : Nat} {l c : Cursor} {body rec : Node} {st dy : List Node} {m : Nat}
    (hall : OkAll src (.exprAttrs ⟨i, ⟨l, c⟩⟩ body rec st dy)) (hl : At src l) (hr : At src c)
    (hrec : Res src l.offset rec m) (hb : Res src m body c.offset) (hlm : l.offset ≤ m) (hmc : m ≤ c.offset)
    (hp : p ≤ l.offset) (he : c.offset ≤ e) (hlt : p < e) : Res src p (.exprAttrs ⟨i, ⟨l, c⟩⟩ body rec st dy) e := by
  refine Res.mk' (L := [rec, body]) rfl hl hr ?_ hp he hlt ?_ (fun m hm => .inr (hall.sub hm)) ?_ ?_
  · exact hrec.seq (Nat.le_refl _) hlm (hb.seq (Nat.le_refl _) hmc (Nat.le_refl _))
  · exact ((List.Perm.swap rec body []).filter _).subperm
  · intro _ _ h; cases h
  · intro h b r s' d e' hr
    cases e'
    rcases hrec with rfl | ⟨_, _, h1, h2, _⟩
    · simp [isNode, hd?] at hr
    · exact ⟨h1, Nat.le_trans h2 hmc⟩

theorem attrs_sema {src : Bytes} {r : CRange} {body rec : Node} {s : PState} (hs : Inv src s) (hr : AtR src r)
    (hle : r.l.offset ≤ r.r.offset) (hb : OkAll src body) (hrec : OkAll src rec) :
    Spec src (sema fun _ => onExprAttrs r body rec) s (fun n s' =>
      (∃ i st dy, n = .exprAttrs ⟨i, r⟩ body rec st dy ∧ OkAll src n) ∧ Same s s') := by
  refine (sema_spec (P := fun n => ∃ i st dy, n = .exprAttrs ⟨i, r⟩ body rec st dy ∧ OkAll src n) hs ?_).imp
    (fun _ _ _ _ q => ⟨q.1, q.2.1⟩)
  obtain ⟨i, st, dy, s', h1, h2, h3, -⟩ := onExprAttrs_ok (s := ⟨s.next, s.lex.diags, s.bad⟩) hr hle hb hrec
  exact ⟨_, s', h1, h3, i, st, dy, rfl, h2⟩

theorem parseExprAttrs_spec {src : Bytes} {R : Rec} {k : Nat} {s : PState} {t : Token} (hR : RecOk src R k) (hs : Inv src s)
    (hn : s.NP) (hk : src.length + 1 ≤ k + s.pos) (hf : Front src t s) (ht : t.kind = .kw_rec ∨ t.kind = .l_curly) :
    Spec src (parseExprAttrs R k) s (fun n s' => Res src s.pos n s'.endOff) := by
  unfold parseExprAttrs
  refine sync_spec (P := fun n e => Res src s.pos n e) hs hn ?_
  intro s1 hi1 hn1 sm1 hp1 he1
  refine (peek0_spec hi1).bind ?_
  rintro b s2 st2 nu2 ⟨f2, -, -, -, -, u2, -⟩
  obtain ⟨rfl, rfl⟩ := u2 t (sm1.front hf)
  have hp := f2.pos
  refine (recTok_spec st2.inv f2).bind ?_
  rintro rec_ s3 st3 nu3 ⟨q3, q3', q3''⟩
  have hn3 := st3.np hn1
  refine (attrsOpen_spec st3.inv hn3 (by omega) f2.ok).bind ?_
  rintro matcher s4 st4 nu4 ⟨q4, q4'⟩
  have hlt4 : s2.pos < s4.endOff := by
    rcases ht with ht | ht
    · have := q3' ht; omega
    · have := q4' b (q3'' (by rw [ht]; simp)) ht; omega
  refine (setBad_spec (f := fun s => s.bad || s.eaten.isEmpty) st4.inv).bind ?_
  rintro _ s5 st5 nu5 sm5
  have hp5 := sm5.pos
  have he5 := sm5.endOff
  have hn5 := st5.np (st4.np hn3)
  refine (parseBinds_spec hR st5.inv hn5 (by omega)).bind ?_
  intro binds s6 st6 nu6 q6
  refine (expectOr_spec st6.inv (st6.np hn5) (by omega) q4.atR').bind ?_
  intro _ s7 st7 nu7 _
  refine (lastR_spec st7.inv).bind ?_
  rintro c s8 st8 nu8 ⟨hc1, hc2, sm8, -⟩
  have he8 := sm8.endOff
  refine (attrs_sema (r := ⟨b.range.l, c⟩) st8.inv ⟨f2.ok.atL, hc1⟩ (by dsimp only; omega) q6.okAll q3.okAll).imp ?_
  rintro n s9 st9 nu9 ⟨⟨i, st, dy, rfl, hall⟩, sm9⟩
  have he9 := sm9.endOff
  exact Res.attrs (m := s4.endOff) hall f2.ok.atL hc1 (q3.mono (by omega) (by omega)) (q6.mono (by omega) (by omega))
    (by omega) (by omega) (by omega) (by omega) (by omega)

end Verif.Nixf
