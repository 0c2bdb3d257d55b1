import Verif.Lemmas.ParserInv
/-
Every parser function ends, keeps the invariant, and returns nodes with correct ranges.
-/
namespace Verif.Nixf
open Lexical Verif.Props Tree Node

/-- What a parser function returns: the null pointer, or a good node between the position `p` before the call and the end
`e` of the last token consumed; at least one token has been consumed. -/
def Res (src : Bytes) (p : Nat) (n : Node) (e : Nat) : Prop :=
  n = .null ∨ (n.isNode = true ∧ Good src n ∧ p ≤ n.lCur.offset ∧ n.rCur.offset ≤ e ∧ p < e)

theorem Res.mono {src : Bytes} {p p' e e' : Nat} {n : Node} (h : Res src p n e) (h1 : p' ≤ p) (h2 : e ≤ e') : Res src p' n e' := by
  rcases h with h | ⟨a, b, c, d, f⟩
  · exact .inl h
  · exact .inr ⟨a, b, by omega, by omega, by omega⟩

theorem Res.okAll {src : Bytes} {p e : Nat} {n : Node} (h : Res src p n e) : OkAll src n := by
  rcases h with rfl | h
  · exact okAll_null
  · exact h.2.1.ok

theorem isNode_not_null {n : Node} (h : n.isNode = true) : n.isNull = false := by
  cases n <;> first | rfl | simp [isNode, hd?] at h

/-- The result was tested against null. -/
theorem Res.nonnull {src : Bytes} {p e : Nat} {n : Node} (h : Res src p n e) (hn : ¬ n.isNull = true) :
    n.isNode = true ∧ Good src n ∧ p ≤ n.lCur.offset ∧ n.rCur.offset ≤ e ∧ p < e := by
  rcases h with rfl | h
  · exact absurd rfl hn
  · exact h

/-- A possibly missing node in a sequence. -/
theorem Res.seq {src : Bytes} {p e lo hi : Nat} {n : Node} {L : List Node} (h : Res src p n e) (h1 : lo ≤ p) (h0 : lo ≤ e)
    (h2 : SeqOk src e hi L) : SeqOk src lo hi (n :: L) := by
  rcases h with rfl | ⟨a, b, c, d, f⟩
  · exact seq_null (h2.mono h0 (Nat.le_refl _))
  · exact seq_cons b a (by omega) (h2.mono d (Nat.le_refl _))

theorem Res.mk' {src : Bytes} {p e : Nat} {n : Node} {i : Nat} {l c : Cursor} {L : List Node}
    (hh : n.hd? = some ⟨i, ⟨l, c⟩⟩) (hl : At src l) (hr : At src c) (hseq : SeqOk src l.offset c.offset L)
    (hp : p ≤ l.offset) (he : c.offset ≤ e) (hlt : p < e)
    (hc : n.children.Subperm (L.filter isNode) := by exact List.Subperm.refl _)
    (hsub : ∀ m ∈ subs n, m ∈ L ∨ OkAll src m := by exact fun m hm => .inl hm)
    (hid : ∀ i nm, n ≠ .identifier i nm := by intro _ _ h; cases h)
    (hrec : RecIn n := by intro _ _ _ _ _ h; cases h) (hv : Val src n := by exact trivial) : Res src p n e := by
  refine .inr ⟨by simp [isNode, hh], .mk' hh hl hr hseq hc hsub hid hrec hv, ?_, ?_, hlt⟩
  · simpa [lCur, Node.range, Node.hd, hh] using hp
  · simpa [rCur, Node.range, Node.hd, hh] using he

/-- The recursive calls, with fuel `k`. -/
def RecOk (src : Bytes) (R : Rec) (k : Nat) : Prop :=
  ∀ s, Inv src s → s.NP → src.length + 2 ≤ k + s.pos →
    Spec src R.expr s (fun n s' => Res src s.pos n s'.endOff) ∧ Spec src R.select s (fun n s' => Res src s.pos n s'.endOff)

theorem TokOk.atR' {src : Bytes} {t : Token} (h : TokOk src t) : AtR src t.range := ⟨h.atL, h.atR⟩

/-! ### Small functions -/

theorem at_AtR {src : Bytes} {c : Cursor} (h : At src c) : AtR src (CRange.at_ c) := ⟨h, h⟩

theorem diagNullExpr_spec {src : Bytes} {s : PState} {c : Cursor} {as : Bytes} (hs : Inv src s) (hc : At src c) :
    Spec src (diagNullExpr c as) s (fun _ s' => Same s s' ∧ FreshD s s') := by
  refine (emitD_spec hs ?_).imp fun _ s' _ _ q => ⟨q.1, q.2.2.2⟩
  refine cur0 (at_AtR hc) (by simp) ?_
  intro f hf e he
  simp only [List.mem_singleton] at hf; subst hf
  simp only [List.mem_singleton] at he; subst he
  exact ⟨hc, hc⟩

theorem whenP_spec {src : Bytes} {s : PState} {c : Prop} [Decidable c] {m : PM Unit} (hs : Inv src s)
    (h : c → Spec src m s (fun _ s' => Same s s')) : Spec src (whenP c m) s (fun _ s' => Same s s') := by
  unfold whenP
  split
  · rename_i hc; exact h hc
  · exact .pure hs (.refl s)

theorem needExpr_spec {src : Bytes} {s : PState} {e : Node} {as : Bytes} (hs : Inv src s) :
    Spec src (needExpr e as) s (fun _ s' => Same s s') := by
  refine whenP_spec hs fun _ => ?_
  refine (lastR_spec hs).bind ?_
  intro c s1 st1 _ q1
  refine (diagNullExpr_spec st1.inv q1.1).imp ?_
  intro _ s2 _ _ q2
  exact ⟨q2.1.buf.trans q1.2.2.1.buf, q2.1.cur.trans q1.2.2.1.cur, q2.1.eaten.trans q1.2.2.1.eaten⟩

theorem Same.trans {s s' s'' : PState} (h : Same s s') (h' : Same s' s'') : Same s s'' :=
  ⟨h'.buf.trans h.buf, h'.cur.trans h.cur, h'.eaten.trans h.eaten⟩

theorem emit_same {src : Bytes} {s : PState} {d : Diagnostic} (hs : Inv src s) (hd : ∀ c ∈ diagCursors d, At src c) :
    Spec src (emitD d) s (fun _ s' => Same s s') := (emitD_spec hs hd).imp fun _ _ _ _ q => q.1

theorem good_misc {src : Bytes} {i : Nat} {r : CRange} (h : AtR src r) (hle : r.l.offset ≤ r.r.offset) :
    Good src (.misc ⟨i, r⟩) :=
  good_leaf rfl h.l h.r hle rfl rfl (fun _ _ h => by cases h) (fun _ _ _ _ _ h => by cases h)

theorem mkMisc_spec {src : Bytes} {s : PState} {r : CRange} (hs : Inv src s) (h : AtR src r) (hle : r.l.offset ≤ r.r.offset) :
    Spec src (mkMisc r) s (fun n s' => Same s s' ∧ Good src n ∧ n.isNode = true ∧ n.lCur = r.l ∧ n.rCur = r.r) := by
  refine (fresh_spec hs).bind ?_
  intro a s1 st1 _ q1
  obtain ⟨rfl, q, -, -⟩ := q1
  exact .pure st1.inv ⟨q, good_misc h hle, rfl, rfl, rfl⟩

/-- `lastR`, then a new node from a given cursor to there. -/
theorem finish_spec {src : Bytes} {s : PState} {l : Cursor} {mk : Hd → Node} {Q : Node → PState → Prop} (hs : Inv src s)
    (h : ∀ c i s', Same s s' → At src c → c.offset = s.endOff → s'.endOff = s.endOff → Q (mk ⟨i, ⟨l, c⟩⟩) s') :
    Spec src (lastR >>= fun c => fresh ⟨l, c⟩ >>= fun h => pure (mk h)) s Q := by
  refine (lastR_spec hs).bind ?_
  intro c s1 st1 _ q1
  refine (fresh_spec st1.inv).bind ?_
  intro a s2 st2 _ q2
  obtain ⟨rfl, q2, -, -⟩ := q2
  have sm := q1.2.2.1.trans q2
  exact .pure st2.inv (h c _ s2 sm q1.1 q1.2.1 sm.endOff)

/-- A new node with a given range. -/
theorem node_spec {src : Bytes} {s : PState} {r : CRange} {mk : Hd → Node} {Q : Node → PState → Prop} (hs : Inv src s)
    (h : ∀ i s', Same s s' → s'.endOff = s.endOff → Q (mk ⟨i, r⟩) s') :
    Spec src (fresh r >>= fun h => pure (mk h)) s Q := by
  refine (fresh_spec hs).bind ?_
  intro a s1 st1 _ q1
  obtain ⟨rfl, q, -, -⟩ := q1
  exact .pure st1.inv (h _ s1 q q.endOff)

/-! ### Unexpected text and expected tokens -/

theorem get_spec {α : Type} {src : Bytes} {s : PState} {f : PState → α} (hs : Inv src s) :
    Spec src (PM.get f) s (fun a s' => s' = s ∧ a = f s) := ⟨_, _, rfl, .refl hs, rfl, rfl⟩

theorem unknownLoop_spec {src : Bytes} {k : Nat} {s : PState} (hs : Inv src s) (hn : s.NP) (hk : src.length + 1 ≤ k + s.pos) :
    Spec src (unknownLoop k) s (fun b s' => (b = true → s.pos < s'.endOff) ∧ (b = false → s'.eaten = s.eaten)) := by
  induction k generalizing s with
  | zero => have := hs.pos_le; omega
  | succ k ih =>
    rw [unknownLoop]
    refine (peek0_spec hs).bind ?_
    rintro t s1 st1 nu1 ⟨f1, e1, -, -, e1', -, -⟩
    refine (get_spec st1.inv).bind ?_
    rintro sync _ - - ⟨rfl, -⟩
    have hp := f1.pos
    split
    · exact .pure st1.inv ⟨fun h => (nomatch h), fun _ => e1'⟩
    · rename_i hc
      rw [not_or] at hc
      have hlt := f1.ok.lt hc.1 (f1.kind st1.inv (st1.np hn))
      refine (pconsume_spec st1.inv f1).bind ?_
      rintro _ s2 st2 nu2 ⟨-, e2, p2, -⟩
      refine (ih st2.inv (st2.np (st1.np hn)) (by omega)).bind ?_
      intro _ s3 st3 nu3 _
      exact .pure st3.inv ⟨fun _ => by omega, fun h => (nomatch h)⟩

theorem consumeAsUnknown_spec {src : Bytes} {k : Nat} {s : PState} (hs : Inv src s) (hn : s.NP)
    (hk : src.length + 1 ≤ k + s.pos) :
    Spec src (consumeAsUnknown k) s (fun r s' =>
      (∀ x, r = some x → AtR src x ∧ s.pos < s'.endOff) ∧ (r = none → s'.eaten = s.eaten)) := by
  unfold consumeAsUnknown
  refine (peek0_spec hs).bind ?_
  rintro t s1 st1 nu1 ⟨f1, e1, -, -, e1', -, -⟩
  refine (unknownLoop_spec st1.inv (st1.np hn) (by omega)).bind ?_
  rintro b s2 st2 nu2 ⟨q2, q2'⟩
  cases b with
  | true =>
    have := q2 rfl
    refine (lastR_spec st2.inv).bind ?_
    rintro c s3 st3 nu3 ⟨h1, h2, h3, -⟩
    have he := h3.endOff
    exact .pure st3.inv ⟨fun x hx => by cases hx; exact ⟨⟨f1.ok.atL, h1⟩, by omega⟩, fun h => (nomatch h)⟩
  | false => exact .pure st2.inv ⟨fun x hx => (nomatch hx), fun _ => (q2' rfl).trans e1'⟩

theorem removeUnexpected_spec {src : Bytes} {k : Nat} {s : PState} (hs : Inv src s) (hn : s.NP)
    (hk : src.length + 1 ≤ k + s.pos) :
    Spec src (removeUnexpected k) s (fun b s' => (b = true → s.pos < s'.endOff) ∧ (b = false → s'.eaten = s.eaten)) := by
  unfold removeUnexpected
  refine (consumeAsUnknown_spec hs hn hk).bind ?_
  rintro r s1 st1 nu1 ⟨q1, q1'⟩
  cases r with
  | none => exact .pure st1.inv ⟨fun h => (nomatch h), fun _ => q1' rfl⟩
  | some x =>
    obtain ⟨a1, a2⟩ := q1 x rfl
    refine (emitD_spec st1.inv (cur0 a1 (by simp) ?_)).bind ?_
    · intro f hf e he
      simp only [List.mem_singleton] at hf; subst hf
      simp only [List.mem_singleton] at he; subst he
      exact a1
    · rintro _ s2 st2 nu2 ⟨q2, -⟩
      have := q2.endOff
      exact .pure st2.inv ⟨fun _ => by omega, fun h => (nomatch h)⟩

theorem insertCur_spec {src : Bytes} {s : PState} (hs : Inv src s) :
    Spec src insertCur s (fun c s' => At src c ∧ s'.endOff = s.endOff) := by
  unfold insertCur
  refine (get_spec hs).bind ?_
  rintro o s' - - ⟨e, rfl⟩
  subst e
  have he := hs.eaten
  split
  · rename_i t ht
    cases h : s'.eaten with
    | nil => rw [h] at ht; cases ht
    | cons u us =>
      rw [h] at ht he; cases ht
      exact .pure hs ⟨he.1.atR, rfl⟩
  · refine (peek0_spec hs).bind ?_
    rintro t s1 st1 nu1 ⟨f1, e1, -⟩
    exact .pure st1.inv ⟨f1.ok.atL, e1⟩

theorem expect_spec {src : Bytes} {k : Nat} {kind : TK} {s : PState} (hs : Inv src s) (hn : s.NP)
    (hk : src.length + 1 ≤ k + s.pos) :
    Spec src (expect k kind) s (fun r s' =>
      (∀ t, r = some t → t.kind = kind ∧ Front src t s' ∧ s.pos ≤ t.range.l.offset) ∧ (r = none → FreshD s s') ∧
      (∀ u, Front src u s → u.kind = kind → r = some u)) := by
  unfold expect
  refine withSync_spec (Q := fun r s' => (∀ t, r = some t → t.kind = kind ∧ Front src t s' ∧ s.pos ≤ t.range.l.offset) ∧
    (r = none → FreshD s s') ∧ (∀ u, Front src u s → u.kind = kind → r = some u)) hs ?_ ?_
  · intro s0 hs0 hi
    have hp0 : s0.pos = s.pos := by subst hs0; rfl
    have hn0 : s0.NP := by subst hs0; exact hn
    have hd0 : s0.lex.diags = s.lex.diags := by subst hs0; rfl
    have hf0 : ∀ u, Front src u s → Front src u s0 := by subst hs0; exact fun u h => ⟨h.buf, h.ok⟩
    clear hs0
    refine (peek0_spec hi).bind ?_
    rintro t s1 st1 nu1 ⟨f1, e1, -, -, -, u1, -⟩
    have hp1 := f1.pos
    split
    · rename_i ht
      refine .pure st1.inv ⟨fun x hx => ?_, fun h => (nomatch h), fun u hu hk => ?_⟩
      · cases hx; exact ⟨ht, f1, by omega⟩
      · rw [(u1 u (hf0 u hu)).2]
    · rename_i hne
      have nofront : ∀ u, Front src u s → u.kind ≠ kind := by
        intro u hu
        rw [← (u1 u (hf0 u hu)).2]; exact hne
      have hn1 := st1.np hn0
      refine (removeUnexpected_spec st1.inv hn1 (by omega)).bind ?_
      rintro b s2 st2 nu2 ⟨q2, -⟩
      refine Spec.bind (Q := fun t s' => b = true → Front src t s') (?_ : Spec src (rePeek b t) s2 _) ?_
      · unfold rePeek; split
        · exact (peek0_spec st2.inv).imp fun _ _ _ _ q _ => q.1
        · rename_i hb; exact .pure st2.inv fun h => absurd h hb
      · intro u s3 st3 nu3 q3
        split
        · rename_i hc
          have fu := q3 hc.1
          have := fu.pos
          refine .pure st3.inv ⟨fun x hx => ?_, fun h => (nomatch h), fun v hv hk => absurd hk (nofront v hv)⟩
          cases hx; exact ⟨hc.2, fu, by omega⟩
        · refine (insertCur_spec st3.inv).bind ?_
          rintro c s4 st4 nu4 ⟨hc, -⟩
          refine (emitD_spec st4.inv (cur0 (at_AtR hc) (by simp) ?_)).bind ?_
          · intro f hf e he
            simp only [List.mem_singleton] at hf; subst hf
            simp only [List.mem_singleton] at he; subst he
            exact ⟨hc, hc⟩
          · rintro _ s5 st5 nu5 ⟨q5, -, -, fd⟩
            refine .pure st5.inv ⟨fun x hx => (nomatch hx), fun _ => ?_, fun v hv hk => absurd hk (nofront v hv)⟩
            refine fd.of ?_
            rw [← hd0]
            exact ((st1.trans st2).trans (st3.trans st4)).diags
  · rintro r s1 s2 ⟨h1, h2, h3⟩ sm hl
    refine ⟨fun t ht => ?_, fun hr => ?_, h3⟩
    · obtain ⟨a, b, c⟩ := h1 t ht
      exact ⟨a, sm.front b, c⟩
    · obtain ⟨ds, d, e, p⟩ := h2 hr
      exact ⟨ds, d, by rw [hl]; exact e, p⟩

theorem expectOr_spec {src : Bytes} {k : Nat} {kind : TK} {r : CRange} {text : Bytes} {s : PState} (hs : Inv src s) (hn : s.NP)
    (hk : src.length + 1 ≤ k + s.pos) (hr : AtR src r) :
    Spec src (expectOr k kind r text) s (fun o s' =>
      ∀ t, o = some t → t.kind = kind ∧ TokOk src t ∧ s.pos ≤ t.range.l.offset ∧ s'.endOff = t.range.r.offset) := by
  unfold expectOr
  refine (expect_spec hs hn hk).bindF ?_
  rintro o s1 st1 nu1 ⟨q1, q1', -⟩
  cases o with
  | none =>
    refine SpecF.note st1 (q1' rfl) hr ?_
    intro s2 st2 sm fd
    exact ⟨none, s2, rfl, st2, fun t h => (nomatch h)⟩
  | some t =>
    obtain ⟨a1, a2, a3⟩ := q1 t rfl
    refine Spec.from st1 ?_
    refine (pconsume_spec st1.inv a2).bind ?_
    rintro _ s2 st2 nu2 ⟨-, e2, -⟩
    refine .pure st2.inv fun u hu => ?_
    cases hu
    exact ⟨a1, a2.ok, a3, e2⟩

theorem expectMay_spec {src : Bytes} {k : Nat} {kind : TK} {s : PState} (hs : Inv src s) (hn : s.NP)
    (hk : src.length + 1 ≤ k + s.pos) : Spec src (expectMay k kind) s (fun _ _ => True) := by
  unfold expectMay
  refine (expect_spec hs hn hk).bind ?_
  rintro o s1 st1 nu1 ⟨q1, q1', -⟩
  cases o with
  | none => exact .pure st1.inv trivial
  | some t =>
    obtain ⟨a1, a2, a3⟩ := q1 t rfl
    exact (pconsume_spec st1.inv a2).imp fun _ _ _ _ _ => trivial

end Verif.Nixf
