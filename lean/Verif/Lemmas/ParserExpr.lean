import Verif.Lemmas.ParserAttrs
/-
Expressions up to operators.
-/
namespace Verif.Nixf
open Lexical Verif.Props Tree Node

theorem redundantParen_at {src : Bytes} {l : CRange} {r : Option CRange} (hl : AtR src l) (hr : ∀ x, r = some x → AtR src x) :
    ∀ c ∈ diagCursors (redundantParenDiag l r), At src c := by
  refine cur0 hl (by simp [redundantParenDiag]) ?_
  intro f hf e he
  simp only [redundantParenDiag, List.mem_singleton] at hf
  subst hf
  cases r with
  | none => simp only [List.mem_singleton] at he; subst he; exact hl
  | some x =>
    simp only [List.mem_cons, List.not_mem_nil, or_false] at he
    rcases he with rfl | rfl
    · exact hl
    · exact hr x rfl

theorem parseExprParen_spec {src : Bytes} {R : Rec} {k : Nat} {s : PState} {t : Token} (hR : RecOk src R k) (hs : Inv src s)
    (hn : s.NP) (hk : src.length + 1 ≤ k + s.pos) (hf : Front src t s) (ht : t.kind = .l_paren) :
    Spec src (parseExprParen R k) s (fun n s' => Res src s.pos n s'.endOff) := by
  unfold parseExprParen
  refine (peek0_spec hs).bind ?_
  rintro l s1 st1 nu1 ⟨f1, -, -, -, -, u1, -⟩
  obtain ⟨rfl, rfl⟩ := u1 t hf
  have hp := f1.pos
  have hlt := f1.ok.lt (by rw [ht]; simp) (by rw [ht]; simp)
  refine (mkMisc_spec st1.inv f1.ok.atR' f1.ok.le).bind ?_
  rintro lparen s2 st2 nu2 ⟨sm2, l1, l2, l3, l4⟩
  refine (pconsume_spec st2.inv (sm2.front f1)).bind ?_
  rintro _ s3 st3 nu3 ⟨-, e3, p3, -⟩
  refine sync_spec (P := fun n e => Res src s1.pos n e) st3.inv (st3.np (st2.np hn)) ?_
  intro s4 hi4 hn4 sm4 hp4 he4
  refine (hR s4 hi4 hn4 (by omega)).1.bind ?_
  intro e s5 st5 nu5 q5
  refine (needExpr_spec st5.inv).bind ?_
  intro _ s6 st6 nu6 sm6
  have he6 := sm6.endOff
  have hp6 := sm6.pos
  refine (expect_spec st6.inv (st6.np (st5.np hn4)) (by omega)).bindF ?_
  rintro o s7 st7 nu7 ⟨q7, q7', -⟩
  cases o with
  | some r =>
    obtain ⟨a1, a2, a3⟩ := q7 r rfl
    have hltr := a2.ok.lt (by rw [a1]; simp) (by rw [a1]; simp)
    refine Spec.from st7 ?_
    refine (pconsume_spec st7.inv a2).bind ?_
    rintro _ s8 st8 nu8 ⟨-, e8, p8, -⟩
    refine (mkMisc_spec st8.inv a2.ok.atR' a2.ok.le).bind ?_
    rintro rparen s9 st9 nu9 ⟨sm9, r1, r2, r3, r4⟩
    refine (whenP_spec st9.inv fun _ => emit_same st9.inv (redundantParen_at f1.ok.atR' ?_)).bind ?_
    · intro x hx; cases hx; exact a2.ok.atR'
    · intro _ s10 st10 nu10 sm10
      have he9 := sm9.endOff
      have he10 := sm10.endOff
      refine node_spec st10.inv ?_
      intro i s11 sm11 he11
      refine Res.mk' (L := [lparen, e, rparen]) rfl f1.ok.atL a2.ok.atR ?_ (by omega) (by omega) (by omega) ?_ ?_
      · refine seq_cons l1 l2 (by rw [l3]) (q5.seq (by rw [l4]; omega) (by rw [l4]; omega) ?_)
        exact seq_cons r1 r2 (by rw [r3]; omega) (by simp only [SeqOk]; rw [r4])
      · exact ((List.Perm.swap lparen e [rparen]).filter _).subperm
      · exact fun m hm => .inl ((List.Perm.swap lparen e [rparen]).mem_iff.mp hm)
  | none =>
    refine SpecF.note st7 (q7' rfl) f1.ok.atR' ?_
    intro s8 st8 sm8 _
    have he8 := sm8.endOff
    refine Spec.from st8 ?_
    refine (whenP_spec st8.inv fun _ => emit_same st8.inv (redundantParen_at f1.ok.atR' ?_)).bind ?_
    · intro x hx; cases hx
    · intro _ s10 st10 nu10 sm10
      have he10 := sm10.endOff
      refine finish_spec st10.inv ?_
      intro c i s11 sm11 hc1 hc2 he11
      refine Res.mk' (L := [lparen, e, .null]) rfl f1.ok.atL hc1 ?_ (by omega) (by omega) (by omega) ?_ ?_
      · refine seq_cons l1 l2 (by rw [l3]) (q5.seq (by rw [l4]; omega) (by rw [l4]; omega) ?_)
        exact seq_null (by simp only [SeqOk]; omega)
      · exact ((List.Perm.swap lparen e [.null]).filter _).subperm
      · exact fun m hm => .inl ((List.Perm.swap lparen e [.null]).mem_iff.mp hm)

theorem listLoop_spec {src : Bytes} {R : Rec} {k j : Nat} {s : PState} (hR : RecOk src R k) (hs : Inv src s) (hn : s.NP)
    (hk : src.length + 2 ≤ k + s.pos) (hj : src.length + 1 ≤ j + s.pos) :
    Spec src (listLoop R j) s (fun ns s' => SeqOk src s.endOff s'.endOff ns) := by
  induction j generalizing s with
  | zero => have := hs.pos_le; omega
  | succ j ih =>
    rw [listLoop]
    refine (peek0_spec hs).bind ?_
    rintro t s1 st1 nu1 ⟨f1, e1, -⟩
    split
    · exact .pure st1.inv (by simp only [SeqOk]; omega)
    · refine (hR s1 st1.inv (st1.np hn) (by omega)).2.bind ?_
      intro n s2 st2 nu2 q2
      split
      · exact .pure st2.inv (by simp only [SeqOk]; omega)
      · rename_i hnn
        obtain ⟨g1, g2, g3, g4, g5⟩ := q2.nonnull hnn
        refine (ih st2.inv (st2.np (st1.np hn)) (by omega) (by omega)).bind ?_
        intro ns s3 st3 nu3 q3
        exact .pure st3.inv (q2.seq (by omega) (by omega) q3)

theorem parseExprList_spec {src : Bytes} {R : Rec} {k : Nat} {s : PState} (hR : RecOk src R k) (hs : Inv src s) (hn : s.NP)
    (hk : src.length + 1 ≤ k + s.pos) :
    Spec src (parseExprList R k) s (fun n s' => Res src s.pos n s'.endOff) := by
  unfold parseExprList
  refine (peek0_spec hs).bind ?_
  rintro tok s1 st1 nu1 ⟨f1, e1, -⟩
  have hp1 := f1.pos
  have hn1 := st1.np hn
  split
  · exact .pure st1.inv (.inl rfl)
  · rename_i hk'
    have hk' : tok.kind = .l_bracket := by simpa using hk'
    have hlt := f1.ok.lt (by rw [hk']; simp) (by rw [hk']; simp)
    refine (pconsume_spec st1.inv f1).bind ?_
    rintro _ s2 st2 nu2 ⟨-, e2, p2, -⟩
    refine sync_spec (P := fun n e => Res src s.pos n e) st2.inv (st2.np hn1) ?_
    intro s3 hi3 hn3 sm3 hp3 he3
    refine (listLoop_spec hR hi3 hn3 (by omega) (by omega)).bind ?_
    intro es s4 st4 nu4 q4
    refine (expectOr_spec st4.inv (st4.np hn3) (by omega) f1.ok.atR').bind ?_
    intro _ s5 st5 nu5 _
    refine finish_spec st5.inv ?_
    intro c i s6 sm6 hc1 hc2 he6
    exact Res.mk' (L := es) rfl f1.ok.atL hc1 (q4.mono (by omega) (by omega)) (by omega) (by omega) (by omega)

theorem decimal_fold {v : Bytes} (h : ∀ c ∈ v, c ∈ digits) :
    Strings.Decimal v (v.foldl (fun (a : Nat) (c : UInt8) => a * 10 + (c.toNat - 48)) 0) := by
  have aux : ∀ r : Bytes, (∀ c ∈ r, c ∈ digits) → Strings.Decimal r.reverse
      (r.reverse.foldl (fun (a : Nat) (c : UInt8) => a * 10 + (c.toNat - 48)) 0) := by
    intro r hr
    induction r with
    | nil => exact .nil
    | cons c r ih =>
      have hc : ∀ c : UInt8, c ∈ digits → 48 ≤ c ∧ c ≤ 57 := by apply forall_byte; decide +kernel
      obtain ⟨h1, h2⟩ := hc c (hr c (by simp))
      have := Strings.Decimal.snoc _ _ c (ih fun d hd => hr d (by simp [hd])) h1 h2
      rw [List.reverse_cons, List.foldl_append]
      simp only [List.foldl_cons, List.foldl_nil]
      rw [Nat.mul_comm]; exact this
  have := aux v.reverse (by simpa using h)
  rwa [List.reverse_reverse] at this

theorem parseExprSimple_spec {src : Bytes} {R : Rec} {k : Nat} {s : PState} (hR : RecOk src R k) (hs : Inv src s) (hn : s.NP)
    (hk : src.length + 1 ≤ k + s.pos) :
    Spec src (parseExprSimple R k) s (fun n s' => Res src s.pos n s'.endOff) := by
  unfold parseExprSimple
  refine (peek0_spec hs).bind ?_
  rintro tok s1 st1 nu1 ⟨f1, e1, -⟩
  have hp1 := f1.pos
  have hn1 := st1.np hn
  have hpe := f1.kind st1.inv hn1
  have leaf : ∀ (n : Hd → Node) s2, Inv src s2 → tok.kind ≠ .eof → tok.range.r.offset ≤ s2.endOff →
      (∀ h, (n h).hd? = some h) → (∀ h, (n h).children = []) → (∀ h, subs (n h) = []) → (∀ h i nm, n h ≠ .identifier i nm) →
      (∀ h, RecIn (n h)) → (∀ i, Val src (n ⟨i, tok.range⟩)) →
      Spec src (fresh tok.range >>= fun h => pure (n h)) s2 (fun n s' => Res src s.pos n s'.endOff) := by
    intro n s2 hi2 hk he h1 h2 h3 h4 h5 h6
    have hlt := f1.ok.lt hk hpe
    refine node_spec hi2 ?_
    intro i s3 sm3 he3
    refine Res.mk' (L := []) (l := tok.range.l) (c := tok.range.r) (h1 _) f1.ok.atL f1.ok.atR (Nat.le_of_lt hlt) (by omega) (by omega) (by omega)
      (by rw [h2]; exact List.nil_subperm) (by rw [h3]; simp) (h4 _) (h5 _) (h6 _)
  split
  · -- a URI
    rename_i hk
    have hlt := f1.ok.lt (by rw [hk]; simp) hpe
    refine (pconsume_spec st1.inv f1).bind ?_
    rintro _ s2 st2 nu2 ⟨-, e2, p2, -⟩
    refine (mkParts_spec (r := tok.range) st2.inv f1.ok.atR' (seq_text (L := []) (Nat.le_of_lt hlt))).bind ?_
    rintro parts s3 st3 nu3 ⟨sm3, g1, g2, g3, g4, -, pi, rfl⟩
    have he3 := sm3.endOff
    refine (fresh_spec st3.inv).bind ?_
    rintro h s4 st4 nu4 ⟨rfl, sm4, -⟩
    have he4 := sm4.endOff
    refine (emitD_spec st4.inv (cur0 f1.ok.atR' (by simp) ?_)).bind ?_
    · intro f hf e he
      simp only [List.mem_singleton] at hf; subst hf
      simp only [List.mem_cons, List.not_mem_nil, or_false] at he
      rcases he with rfl | rfl
      · exact ⟨f1.ok.atL, f1.ok.atL⟩
      · exact ⟨f1.ok.atR, f1.ok.atR⟩
    · rintro _ s5 st5 nu5 ⟨sm5, -⟩
      have he5 := sm5.endOff
      refine .pure st5.inv (Res.mk' (l := tok.range.l) (c := tok.range.r) (L := [_]) rfl f1.ok.atL f1.ok.atR
        (seq_cons g1 g2 (by rw [g3]) (by simp only [SeqOk]; rw [g4])) (by omega) (by omega) (by omega)
        (hv := ⟨pi, _, rfl, merge_single _, .inr (.inr ⟨?_, ?_⟩)⟩))
      · have hm : mergeFragments [.text tok.view] = [.text tok.view] := by simp [mergeFragments]
        rw [hm, f1.ok.view]
      · have := f1.ok.shape
        rw [hk, f1.ok.view] at this
        exact this
  · -- a variable
    rename_i hk
    have hlt := f1.ok.lt (by rw [hk]; simp) hpe
    refine (pconsume_spec st1.inv f1).bind ?_
    rintro _ s2 st2 nu2 ⟨-, e2, p2, -⟩
    refine (fresh_spec st2.inv).bind ?_
    rintro h s3 st3 nu3 ⟨rfl, sm3, -⟩
    have he3 := sm3.endOff
    refine node_spec st3.inv ?_
    intro i s4 sm4 he4
    have g : Good src (.identifier ⟨s2.next, tok.range⟩ tok.view) :=
      good_ident f1.ok.atL f1.ok.atR f1.ok.le f1.ok.view
    exact Res.mk' (l := tok.range.l) (c := tok.range.r) (L := [_]) rfl f1.ok.atL f1.ok.atR (seq_cons g rfl (Nat.le_refl _) (Nat.le_refl _))
      (by omega) (by omega) (by omega)
  · rename_i hk
    refine (pconsume_spec st1.inv f1).bind ?_
    rintro _ s2 st2 nu2 ⟨-, e2, p2, -⟩
    refine (whenP_spec st2.inv fun _ => emit_same st2.inv (cur0 f1.ok.atR' (by simp) (by simp))).bind ?_
    intro _ s3 st3 nu3 sm3
    have he3 := sm3.endOff
    refine leaf _ s3 st3.inv (by rw [hk]; simp) (by omega) (fun _ => rfl) (fun _ => rfl) (fun _ => rfl)
      (fun _ _ _ h => by cases h) (fun _ _ _ _ _ _ h => by cases h) ?_
    intro i
    have hsh := f1.ok.shape
    rw [hk] at hsh
    refine ⟨_, decimal_fold (v := slice src tok.range) (by rw [← f1.ok.view]; exact hsh), ?_⟩
    rw [← f1.ok.view]
    unfold decodeInt
    simp only
    split <;> rfl
  · rename_i hk
    refine (pconsume_spec st1.inv f1).bind ?_
    rintro _ s2 st2 nu2 ⟨-, e2, p2, -⟩
    refine leaf _ s2 st2.inv (by rw [hk]; simp) (by omega) (fun _ => rfl) (fun _ => rfl) (fun _ => rfl)
      (fun _ _ _ h => by cases h) (fun _ _ _ _ _ _ h => by cases h) (fun _ => f1.ok.view)
  · rename_i hk
    refine (pconsume_spec st1.inv f1).bind ?_
    rintro _ s2 st2 nu2 ⟨-, e2, p2, -⟩
    refine leaf _ s2 st2.inv (by rw [hk]; simp) (by omega) (fun _ => rfl) (fun _ => rfl) (fun _ => rfl)
      (fun _ _ _ h => by cases h) (fun _ _ _ _ _ _ h => by cases h) ?_
    intro i
    have hsh := f1.ok.shape
    rw [hk] at hsh
    obtain ⟨t, ht⟩ := hsh
    show slice src tok.range = _
    rw [← f1.ok.view, ht]
    simp
  · rename_i hk
    exact (parseString_spec (ind := false) hR st1.inv f1 hk (by omega)).imp fun n s' _ _ q => q.2.mono (by omega) (Nat.le_refl _)
  · rename_i hk
    exact (parseString_spec (ind := true) hR st1.inv f1 hk (by omega)).imp fun n s' _ _ q => q.2.mono (by omega) (Nat.le_refl _)
  · rename_i hk
    exact (parseExprPath_spec hR st1.inv f1 hk (by omega)).imp fun n s' _ _ q => q.mono (by omega) (Nat.le_refl _)
  · rename_i hk
    exact (parseExprParen_spec hR st1.inv hn1 (by omega) f1 hk).imp fun n s' _ _ q => q.mono (by omega) (Nat.le_refl _)
  · rename_i hk
    exact (parseExprAttrs_spec hR st1.inv hn1 (by omega) f1 (.inl hk)).imp fun n s' _ _ q => q.mono (by omega) (Nat.le_refl _)
  · rename_i hk
    exact (parseExprAttrs_spec hR st1.inv hn1 (by omega) f1 (.inr hk)).imp fun n s' _ _ q => q.mono (by omega) (Nat.le_refl _)
  · exact (parseExprList_spec hR st1.inv hn1 (by omega)).imp fun n s' _ _ q => q.mono (by omega) (Nat.le_refl _)
  · exact .pure st1.inv (.inl rfl)

theorem parseExprSelect_spec {src : Bytes} {R : Rec} {k : Nat} {s : PState} (hR : RecOk src R k) (hs : Inv src s) (hn : s.NP)
    (hk : src.length + 1 ≤ k + s.pos) :
    Spec src (parseExprSelect R k) s (fun n s' => Res src s.pos n s'.endOff) := by
  unfold parseExprSelect
  refine (parseExprSimple_spec hR hs hn hk).bind ?_
  intro e s1 st1 nu1 q1
  split
  · exact .pure st1.inv (.inl rfl)
  · rename_i hnn
    obtain ⟨g1, g2, g3, g4, g5⟩ := q1.nonnull hnn
    refine (peek0_spec st1.inv).bind ?_
    rintro tok s2 st2 nu2 ⟨f2, e2, -⟩
    have hp2 := f2.pos
    have hn2 := st2.np (st1.np hn)
    split
    · exact .pure st2.inv (q1.mono (Nat.le_refl _) (by omega))
    · rename_i hk'
      have hk' : tok.kind = .dot := by simpa using hk'
      have hlt := f2.ok.lt (by rw [hk']; simp) (by rw [hk']; simp)
      refine (fresh_spec st2.inv).bind ?_
      rintro h s3 st3 nu3 ⟨rfl, sm3, -⟩
      have hp3 := sm3.pos
      refine (pconsume_spec st3.inv (sm3.front f2)).bind ?_
      rintro _ s4 st4 nu4 ⟨-, e4, p4, -⟩
      have hn4 := st4.np (st3.np hn2)
      refine (parseAttrPath_spec hR st4.inv hn4 (by omega)).bind ?_
      intro path s5 st5 nu5 q5
      refine (whenP_spec st5.inv fun _ => emit_same st5.inv (cur0 f2.ok.atR' (by simp) ?_)).bind ?_
      · intro f hf e he
        simp only [List.mem_cons, List.not_mem_nil, or_false] at hf
        rcases hf with rfl | rfl <;> simp only [List.mem_singleton] at he <;> subst he
        · exact f2.ok.atR'
        · exact ⟨f2.ok.atR, f2.ok.atR⟩
      · intro _ s6 st6 nu6 sm6
        have hp6 := sm6.pos
        have he6 := sm6.endOff
        refine (peek0_spec st6.inv).bind ?_
        rintro tokOr s7 st7 nu7 ⟨f7, e7, -⟩
        have hp7 := f7.pos
        have gd : Good src (.dot ⟨s2.next, tok.range⟩ e.id none) := good_dot f2.ok.atR' f2.ok.le
        have fin : ∀ (d : Node) (s8 : PState) (c : Cursor) (i : Nat) (s9 : PState), s7.endOff ≤ s8.endOff → At src c → c.offset = s8.endOff → s9.endOff = s8.endOff →
            Res src s7.pos d s8.endOff →
            Res src s.pos (.exprSelect ⟨i, ⟨e.lCur, c⟩⟩ e (.dot ⟨s2.next, tok.range⟩ e.id none) path d false) s9.endOff := by
          intro d s8 c i s9 h8 hc1 hc2 h9 qd
          refine Res.mk' (L := [e, .dot ⟨s2.next, tok.range⟩ e.id none, path, d]) rfl g2.ok.at_l hc1 ?_ g3 (by omega)
            (by omega) ?_ (fun m hm => .inl hm)
          · refine seq_cons g2 g1 (Nat.le_refl _) (seq_cons gd rfl (by show _ ≤ tok.range.l.offset; omega) ?_)
            refine q5.seq (by show tok.range.r.offset ≤ _; omega) (by show tok.range.r.offset ≤ _; omega) ?_
            exact qd.seq (by omega) (by omega) (by simp only [SeqOk]; omega)
          · exact (((List.sublist_cons_self _ _).cons_cons _).filter _).subperm
        split
        · refine finish_spec st7.inv ?_
          intro c i s8 sm8 hc1 hc2 he8
          exact fin .null s7 c i s8 (Nat.le_refl _) hc1 hc2 he8 (.inl rfl)
        · rename_i hk7
          have hk7 : tokOr.kind = .kw_or := by simpa using hk7
          have hlt7 := f7.ok.lt (by rw [hk7]; simp) (by rw [hk7]; simp)
          refine (pconsume_spec st7.inv f7).bind ?_
          rintro _ s8 st8 nu8 ⟨-, e8, p8, -⟩
          have hn8 := st8.np (st7.np (st6.np (st5.np hn4)))
          refine (hR s8 st8.inv hn8 (by omega)).2.bind ?_
          intro d s9 st9 nu9 q9
          refine (whenP_spec st9.inv fun _ => ?_).bind ?_
          · refine (lastR_spec st9.inv).bind ?_
            rintro c s10 st10 nu10 ⟨hc1, -, sm10, -⟩
            refine (diagNullExpr_spec st10.inv hc1).bindF ?_
            rintro _ s11 st11 nu11 ⟨sm11, fd⟩
            have e : (fixLast { message := b!"remove `or` keyword", edits := [.mkRemoval tokOr.range] } : PM Unit) =
                (fixLast { message := b!"remove `or` keyword", edits := [.mkRemoval tokOr.range] } >>= fun _ => pure ()) := rfl
            rw [e]
            refine SpecF.fix st11 fd ?_ ?_
            · intro e he
              simp only [List.mem_singleton] at he; subst he; exact f7.ok.atR'
            · intro s12 st12 sm12 _
              exact Spec.from st12 (.pure st12.inv (sm10.trans (sm11.trans sm12)))
          · intro _ s10 st10 nu10 sm10
            have he10 := sm10.endOff
            refine finish_spec st10.inv ?_
            intro c i s11 sm11 hc1 hc2 he11
            exact fin d s10 c i s11 (by omega) hc1 hc2 he11 (q9.mono (by omega) (by omega))

/-- The last node of a sequence bounds it. -/
theorem Tree.SeqOk.last {src : Bytes} {lo hi : Nat} {L : List Node} (h : SeqOk src lo hi L) (hn : ∀ n ∈ L, n.isNode = true)
    {l : Node} (hl : L.getLast? = some l) : SeqOk src lo l.rCur.offset L := by
  induction L generalizing lo with
  | nil => cases hl
  | cons m ms ih =>
    have hm := hn m (by simp)
    refine ⟨h.1, h.2.1, ?_⟩
    cases ms with
    | nil =>
      simp at hl; subst hl
      rw [if_pos hm]; exact Nat.le_refl _
    | cons m' ms' => exact ih h.2.2 (fun n hn' => hn n (by simp [hn'])) (by simpa using hl)

theorem appLoop_spec {src : Bytes} {R : Rec} {k j : Nat} {s : PState} (hR : RecOk src R k) (hs : Inv src s) (hn : s.NP)
    (hk : src.length + 1 ≤ k + s.pos) (hj : src.length + 1 ≤ j + s.pos) :
    Spec src (appLoop R k j) s (fun ns s' => SeqOk src s.endOff s'.endOff ns ∧ ∀ n ∈ ns, n.isNode = true) := by
  induction j generalizing s with
  | zero => have := hs.pos_le; omega
  | succ j ih =>
    rw [appLoop]
    have hep := hs.end_le
    refine (parseExprSelect_spec hR hs hn hk).bind ?_
    intro n s1 st1 nu1 q1
    split
    · exact .pure st1.inv ⟨by simp only [SeqOk]; omega, by simp⟩
    · rename_i hnn
      obtain ⟨g1, g2, g3, g4, g5⟩ := q1.nonnull hnn
      refine (ih st1.inv (st1.np hn) (by omega) (by omega)).bind ?_
      rintro ns s2 st2 nu2 ⟨q2, q2'⟩
      refine .pure st2.inv ⟨q1.seq (by omega) (by omega) q2, ?_⟩
      intro m hm
      rcases List.mem_cons.mp hm with rfl | hm
      · exact g1
      · exact q2' m hm

theorem parseExprApp_spec {src : Bytes} {R : Rec} {k : Nat} {s : PState} (hR : RecOk src R k) (hs : Inv src s) (hn : s.NP)
    (hk : src.length + 1 ≤ k + s.pos) :
    Spec src (parseExprApp R k) s (fun n s' => Res src s.pos n s'.endOff) := by
  unfold parseExprApp
  refine (parseExprSelect_spec hR hs hn hk).bind ?_
  intro fn s1 st1 nu1 q1
  split
  · exact .pure st1.inv q1
  · rename_i hnn
    rw [not_or] at hnn
    obtain ⟨g1, g2, g3, g4, g5⟩ := q1.nonnull hnn.1
    refine (appLoop_spec hR st1.inv (st1.np hn) (by omega) (by omega)).bind ?_
    rintro args s2 st2 nu2 ⟨q2, q2'⟩
    split
    · exact .pure st2.inv (q1.mono (Nat.le_refl _) (by omega))
    · rename_i l hl
      have hlm := List.mem_of_getLast? hl
      obtain ⟨gl, gl1, gl2⟩ := q2.mem l hlm (q2' l hlm)
      refine node_spec st2.inv ?_
      intro i s3 sm3 he3
      exact Res.mk' (L := fn :: args) rfl g2.ok.at_l gl.ok.at_r
        (seq_cons g2 g1 (Nat.le_refl _) ((q2.last q2' hl).mono g4 (Nat.le_refl _))) g3
        (by show l.rCur.offset ≤ _; omega) (by omega)

theorem good_op {src : Bytes} {i : Nat} {o : TK} {r : CRange} (h : AtR src r) (hle : r.l.offset ≤ r.r.offset) :
    Good src (.op ⟨i, r⟩ o) :=
  good_leaf rfl h.l h.r hle rfl rfl (fun _ _ h => by cases h) (fun _ _ _ _ _ h => by cases h)

/-- Both parts of `parseExprOpBP`. -/
theorem op_spec {src : Bytes} {R : Rec} {k : Nat} (hR : RecOk src R k) (j : Nat) :
    (∀ s lr, Inv src s → s.NP → src.length + 1 ≤ k + s.pos → src.length + 1 ≤ j + s.pos →
      Spec src (parseExprOpBP R k j lr) s (fun n s' => Res src s.pos n s'.endOff)) ∧
    (∀ s lr pre, Inv src s → s.NP → src.length + 1 ≤ k + s.pos → src.length + 1 ≤ j + s.pos → pre.isNode = true →
      Good src pre → pre.rCur.offset ≤ s.endOff →
      Spec src (opLoop R k j lr pre) s (fun n s' => n.isNode = true ∧ Good src n ∧ pre.lCur.offset ≤ n.lCur.offset ∧
        n.rCur.offset ≤ s'.endOff)) := by
  induction j with
  | zero => exact ⟨fun s _ hs _ _ h => by have := hs.pos_le; omega, fun s _ _ hs _ _ h => by have := hs.pos_le; omega⟩
  | succ j ih =>
    obtain ⟨ih1, ih2⟩ := ih
    constructor
    · intro s lr hs hn hk hj
      rw [parseExprOpBP]
      refine (peek0_spec hs).bind ?_
      rintro tok s1 st1 nu1 ⟨f1, e1, -⟩
      have hp1 := f1.pos
      have hn1 := st1.np hn
      split
      · rename_i hkk
        have hlt := f1.ok.lt (by rcases hkk with h | h <;> rw [h] <;> simp) (f1.kind st1.inv hn1)
        refine (pconsume_spec st1.inv f1).bind ?_
        rintro _ s2 st2 nu2 ⟨-, e2, p2, -⟩
        refine (fresh_spec st2.inv).bind ?_
        rintro h s3 st3 nu3 ⟨rfl, sm3, -⟩
        have hp3 := sm3.pos
        have he3 := sm3.endOff
        have hn3 := st3.np (st2.np hn1)
        refine (ih1 s3 _ st3.inv hn3 (by omega) (by omega)).bind ?_
        intro e s4 st4 nu4 q4
        refine (needExpr_spec st4.inv).bind ?_
        intro _ s5 st5 nu5 sm5
        have he5 := sm5.endOff
        have hp5 := sm5.pos
        refine (lastR_spec st5.inv).bind ?_
        rintro c s6 st6 nu6 ⟨hc1, hc2, sm6, -⟩
        have he6 := sm6.endOff
        have hp6 := sm6.pos
        refine (fresh_spec st6.inv).bind ?_
        rintro h s7 st7 nu7 ⟨rfl, sm7, -⟩
        have he7 := sm7.endOff
        have hp7 := sm7.pos
        have hn7 := st7.np (st6.np (st5.np (st4.np hn3)))
        have go : Good src (.op ⟨s2.next, tok.range⟩ tok.kind) := good_op f1.ok.atR' f1.ok.le
        have g : Res src s.pos (.exprUnaryOp ⟨s6.next, ⟨tok.range.l, c⟩⟩ (.op ⟨s2.next, tok.range⟩ tok.kind) e) s7.endOff := by
          refine Res.mk' (L := [.op ⟨s2.next, tok.range⟩ tok.kind, e]) rfl f1.ok.atL hc1 ?_ (by omega) (by omega) (by omega)
          refine seq_cons go rfl (Nat.le_refl _) ?_
          exact q4.seq (by show tok.range.r.offset ≤ _; omega) (by show tok.range.r.offset ≤ _; omega) (by simp only [SeqOk]; omega)
        obtain ⟨g1, g2, g3, g4, g5⟩ := g.nonnull (by simp [isNull])
        refine (ih2 s7 lr _ st7.inv hn7 (by omega) (by omega) g1 g2 g4).imp ?_
        rintro n s8 st8 nu8 ⟨r1, r2, r3, r4⟩
        exact .inr ⟨r1, r2, by omega, r4, by omega⟩
      · refine (parseExprApp_spec hR st1.inv hn1 (by omega)).bind ?_
        intro pre s2 st2 nu2 q2
        split
        · exact .pure st2.inv (.inl rfl)
        · rename_i hnn
          obtain ⟨g1, g2, g3, g4, g5⟩ := q2.nonnull hnn
          refine (ih2 s2 lr pre st2.inv (st2.np hn1) (by omega) (by omega) g1 g2 g4).imp ?_
          rintro n s3 st3 nu3 ⟨r1, r2, r3, r4⟩
          exact .inr ⟨r1, r2, by omega, r4, by omega⟩
    · intro s lr pre hs hn hk hj hp1' hp2' hp3'
      rw [opLoop]
      refine (peek0_spec hs).bind ?_
      rintro tok s1 st1 nu1 ⟨f1, e1, -⟩
      have hp1 := f1.pos
      have hn1 := st1.np hn
      have done : Spec src (pure pre : PM Node) s1 (fun n s' => n.isNode = true ∧ Good src n ∧ pre.lCur.offset ≤ n.lCur.offset ∧
          n.rCur.offset ≤ s'.endOff) := .pure st1.inv ⟨hp1', hp2', Nat.le_refl _, by omega⟩
      -- the right operand, after the operator
      have rest : ∀ s2 msg rbp, Step src s1 s2 → tok.kind ≠ .eof → Same s1 s2 → Spec src (pconsume >>= fun _ => fresh tok.range >>= fun ho =>
          parseExprOpBP R k j rbp >>= fun rhs =>
            if rhs.isNull then (lastR >>= fun c => diagNullExpr c msg >>= fun _ => opLoop R k j lr pre)
            else fresh ⟨pre.lCur, rhs.rCur⟩ >>= fun h => opLoop R k j lr (.exprBinOp h (.op ho tok.kind) pre rhs)) s2
          (fun n s' => n.isNode = true ∧ Good src n ∧ pre.lCur.offset ≤ n.lCur.offset ∧ n.rCur.offset ≤ s'.endOff) := by
        intro s2 msg rbp st2 hke sm2
        have hlt := f1.ok.lt hke (f1.kind st1.inv hn1)
        have f2 := sm2.front f1
        have hp2 := sm2.pos
        refine (pconsume_spec st2.inv f2).bind ?_
        rintro _ s3 st3 nu3 ⟨-, e3, p3, -⟩
        refine (fresh_spec st3.inv).bind ?_
        rintro h s4 st4 nu4 ⟨rfl, sm4, -⟩
        have he4 := sm4.endOff
        have hp4 := sm4.pos
        have hn4 := st4.np (st3.np (st2.np hn1))
        refine (ih1 s4 rbp st4.inv hn4 (by omega) (by omega)).bind ?_
        intro rhs s5 st5 nu5 q5
        split
        · refine (lastR_spec st5.inv).bind ?_
          rintro c s6 st6 nu6 ⟨hc1, -, sm6, -⟩
          refine (diagNullExpr_spec st6.inv hc1).bind ?_
          rintro _ s7 st7 nu7 ⟨sm7, -⟩
          have he6 := sm6.endOff
          have he7 := sm7.endOff
          have hp6 := sm6.pos
          have hp7 := sm7.pos
          exact ih2 s7 lr pre st7.inv (st7.np (st6.np (st5.np hn4))) (by omega) (by omega) hp1' hp2' (by omega)
        · rename_i hnn
          obtain ⟨g1, g2, g3, g4, g5⟩ := q5.nonnull hnn
          refine (fresh_spec st5.inv).bind ?_
          rintro h s6 st6 nu6 ⟨rfl, sm6, -⟩
          have he6 := sm6.endOff
          have hp6 := sm6.pos
          have go : Good src (.op ⟨s3.next, tok.range⟩ tok.kind) := good_op f1.ok.atR' f1.ok.le
          have g : Res src pre.lCur.offset (.exprBinOp ⟨s5.next, ⟨pre.lCur, rhs.rCur⟩⟩ (.op ⟨s3.next, tok.range⟩ tok.kind) pre rhs)
              s6.endOff := by
            have hle := hp2'.ok.le
            refine Res.mk' (L := [pre, .op ⟨s3.next, tok.range⟩ tok.kind, rhs]) rfl hp2'.ok.at_l g2.ok.at_r ?_ (Nat.le_refl _)
              (by show rhs.rCur.offset ≤ _; omega) (by omega) ?_ ?_
            · refine seq_cons hp2' hp1' (Nat.le_refl _) (seq_cons go rfl (by show _ ≤ tok.range.l.offset; omega) ?_)
              exact seq_cons g2 g1 (by show tok.range.r.offset ≤ _; omega) (Nat.le_refl _)
            · exact ((List.Perm.swap pre (.op ⟨s3.next, tok.range⟩ tok.kind) [rhs]).filter _).subperm
            · exact fun m hm => .inl ((List.Perm.swap pre (.op ⟨s3.next, tok.range⟩ tok.kind) [rhs]).mem_iff.mp hm)
          obtain ⟨b1, b2, b3, b4, -⟩ := g.nonnull (by simp [isNull])
          refine (ih2 s6 lr _ st6.inv (st6.np (st5.np hn4)) (by omega) (by omega) b1 b2 b4).imp ?_
          rintro n s8 st8 nu8 ⟨r1, r2, r3, r4⟩
          exact ⟨r1, r2, by omega, r4⟩
      have noteof : ∀ x, getBP tok.kind = some x → tok.kind ≠ .eof := by
        intro x hx he; rw [he] at hx; cases hx
      split
      · rename_i hbp
        split
        · exact done
        · refine (whenP_spec st1.inv fun _ => emit_same st1.inv (cur0 f1.ok.atR' (by simp) (by simp))).bind ?_
          intro _ s2 st2 nu2 sm2
          exact rest s2 _ _ st2 (noteof _ hbp) sm2
      · split
        · rename_i hq
          have hlt := f1.ok.lt (by rw [hq]; simp) (by rw [hq]; simp)
          refine (pconsume_spec st1.inv f1).bind ?_
          rintro _ s2 st2 nu2 ⟨-, e2, p2, -⟩
          refine (fresh_spec st2.inv).bind ?_
          rintro h s3 st3 nu3 ⟨rfl, sm3, -⟩
          have hp3 := sm3.pos
          have he3 := sm3.endOff
          have hn3 := st3.np (st2.np hn1)
          refine (parseAttrPath_spec hR st3.inv hn3 (by omega)).bind ?_
          intro path s4 st4 nu4 q4
          refine (lastR_spec st4.inv).bind ?_
          rintro c s5 st5 nu5 ⟨hc1, hc2, sm5, -⟩
          have hp5 := sm5.pos
          have he5 := sm5.endOff
          refine (fresh_spec st5.inv).bind ?_
          rintro h s6 st6 nu6 ⟨rfl, sm6, -⟩
          have he6 := sm6.endOff
          have hp6 := sm6.pos
          have go : Good src (.op ⟨s2.next, tok.range⟩ tok.kind) := good_op f1.ok.atR' f1.ok.le
          have g : Res src pre.lCur.offset (.exprOpHasAttr ⟨s5.next, ⟨pre.lCur, c⟩⟩ (.op ⟨s2.next, tok.range⟩ tok.kind) pre path)
              s6.endOff := by
            have hle := hp2'.ok.le
            refine Res.mk' (L := [pre, .op ⟨s2.next, tok.range⟩ tok.kind, path]) rfl hp2'.ok.at_l hc1 ?_ (Nat.le_refl _)
              (by omega) (by omega) ?_ ?_
            · refine seq_cons hp2' hp1' (Nat.le_refl _) (seq_cons go rfl (by show _ ≤ tok.range.l.offset; omega) ?_)
              exact q4.seq (by show tok.range.r.offset ≤ _; omega) (by show tok.range.r.offset ≤ _; omega) (by simp only [SeqOk]; omega)
            · exact (((List.sublist_cons_self _ _).cons_cons _).filter _).subperm
            · exact fun m hm => .inl ((List.Perm.swap pre (.op ⟨s2.next, tok.range⟩ tok.kind) [path]).mem_iff.mp hm)
          obtain ⟨b1, b2, b3, b4, -⟩ := g.nonnull (by simp [isNull])
          refine (ih2 s6 lr _ st6.inv (st6.np (st5.np (st4.np hn3))) (by omega) (by omega) b1 b2 b4).imp ?_
          rintro n s8 st8 nu8 ⟨r1, r2, r3, r4⟩
          exact ⟨r1, r2, by omega, r4⟩
        · split
          · rename_i hor
            refine (emitD_spec st1.inv (cur0 f1.ok.atR' (by simp) ?_)).bind ?_
            · intro f hf e he
              simp only [List.mem_singleton] at hf; subst hf
              simp only [List.mem_singleton] at he; subst he
              exact f1.ok.atR'
            · rintro _ s2 st2 nu2 ⟨sm2, -⟩
              exact rest s2 _ _ st2 (by rw [hor]; simp) sm2
          · exact done

end Verif.Nixf
