import Verif.Lemmas.ParserSpec
import Verif.Lemmas.StringLex
/-
Strings, paths, attribute names, sets of bindings.
-/
namespace Verif.Nixf
open Lexical Verif.Props Tree Node Strings

/-! ### Strings and paths -/

theorem parseInterpolation_spec {src : Bytes} {R : Rec} {k : Nat} {s : PState} {tok : Token} (hR : RecOk src R k)
    (hs : Inv src s) (hf : Front src tok s) (h1 : tok.kind ≠ .eof) (h2 : tok.kind ≠ .path_end)
    (hk : src.length + 1 ≤ k + s.pos) :
    Spec src (parseInterpolation R k) s (fun n s' =>
      n.isNode = true ∧ Good src n ∧ s.pos ≤ n.lCur.offset ∧ n.rCur.offset ≤ s'.endOff ∧ s.pos < s'.endOff ∧ s'.buf = [] ∧
      InterpAt src n s.pos s'.pos) := by
  unfold parseInterpolation
  refine (peek0_spec hs).bind ?_
  rintro t s0 st0 nu0 ⟨f0, e0, -, -, -, u0, -⟩
  obtain ⟨rfl, rfl⟩ := u0 tok hf
  have hp := hf.pos
  have hlt := hf.ok.lt h1 h2
  refine (pconsume_spec hs hf).bind ?_
  rintro _ s1 st1 nu1 ⟨-, e1, p1, -⟩
  let Q : Node → PState → Prop := fun n s' =>
    (n.isNode = true ∧ Good src n ∧ s0.pos ≤ n.lCur.offset ∧ n.rCur.offset ≤ s'.endOff ∧ s0.pos < s'.endOff) ∧
    (∃ h x, n = .interpolation h x) ∧ n.lCur.offset = s0.pos ∧ n.rCur.offset = s'.endOff
  refine (withSync_spec (Q := fun n s' => Q n s' ∧ s'.buf = []) (Q' := fun n s' => Q n s' ∧ s'.buf = []) st1.inv ?_ ?_).imp ?_
  rotate_right
  · rintro n s2 st2 nu2 ⟨⟨⟨q1, q2, q3, q4, q5⟩, q6, q7, q8⟩, q9⟩
    have := st2.inv.end_le
    refine ⟨q1, q2, q3, q4, q5, q9, q6, q7, by omega, by omega, ?_⟩
    rw [q8]; exact st2.inv.gap.trivia
  · intro s2 hs2 hi2
    have hp2 : s2.pos = s1.pos := by subst hs2; rfl
    have he2 : s2.endOff = s1.endOff := by subst hs2; rfl
    clear hs2
    refine withState_spec (Q := Q) hi2 ?_ ?_
    · intro s3 hi3 hst3 _ hb3 hc3 he3 _ _ _
      have hp3 : s3.pos = s2.pos := by simp only [PState.pos, hb3]; exact hc3
      have hn3 : s3.NP := by simp [PState.NP, hst3]
      have hend3 : s3.endOff = s2.endOff := by simp only [PState.endOff, he3]
      refine (hR s3 hi3 hn3 (by omega)).1.bind ?_
      intro e s4 st4 nu4 q4
      refine (needExpr_spec st4.inv).bind ?_
      intro _ s5 st5 nu5 q5
      have hp5 := q5.pos
      have he5 := q5.endOff
      refine (expectOr_spec st5.inv (st5.np (st4.np hn3)) (by omega) hf.ok.atR').bind ?_
      intro _ s6 st6 nu6 _
      refine finish_spec st6.inv ?_
      intro c i s7 sm hc hce he7
      have hres : Res src s0.pos (.interpolation ⟨i, ⟨t.range.l, c⟩⟩ e) s7.endOff :=
        Res.mk' (L := [e]) rfl hf.ok.atL hc (q4.seq (by omega) (by omega) (by simp only [SeqOk]; omega))
          (by omega) (by omega) (by omega)
      refine ⟨?_, ⟨_, _, rfl⟩, hp.symm, hce.trans he7.symm⟩
      rcases hres with h | h
      · cases h
      · exact h
    · intro n s3 s4 q h1 h2 _ hb
      refine ⟨?_, hb⟩
      simp only [Q, h1] at *; exact q
  · rintro n s3 s4 ⟨⟨⟨q1, q2, q3, q4, q5⟩, q6, q7, q8⟩, hb⟩ sm _
    have := sm.endOff
    exact ⟨⟨⟨q1, q2, q3, by omega, by omega⟩, q6, q7, by omega⟩, by rw [sm.buf]; exact hb⟩

theorem seq_merge {src : Bytes} {lo hi : Nat} {fs : List Node} (h : SeqOk src lo hi fs) : SeqOk src lo hi (mergeFragments fs) := by
  unfold mergeFragments
  split
  · exact h
  · split
    · exact h
    · exact seq_text h.le

theorem pieces_texts {fs : List Node} (g : Node → Bytes) (hg : ∀ t, g (.text t) = t) (h : ∀ f ∈ fs, ∃ t, f = .text t) :
    pieces fs = chars (fs.flatMap g) := by
  induction fs with
  | nil => rfl
  | cons f fs ih =>
    obtain ⟨t, rfl⟩ := h f (by simp)
    rw [pieces, ih (fun f hf => h f (by simp [hf])), List.flatMap_cons, chars_append, hg]

theorem pieces_merge (fs : List Node) : pieces (mergeFragments fs) = pieces fs := by
  unfold mergeFragments
  split
  · rfl
  · split
    · rfl
    · rename_i h
      simp only [pieces, List.append_nil]
      refine (pieces_texts (fs := fs) _ ?_ ?_).symm
      · intro t; rfl
      · intro f hf
        simp only [List.any_eq_true, not_exists, not_and] at h
        have := h f hf
        cases f <;> first | exact ⟨_, rfl⟩ | (exfalso; exact this rfl)

theorem merge_single (fs : List Node) (h : ∀ f ∈ mergeFragments fs, ∃ t, f = .text t) : (mergeFragments fs).length ≤ 1 := by
  unfold mergeFragments at h ⊢
  split
  · rename_i h1
    rw [List.isEmpty_iff] at h1
    simp [h1]
  · rename_i h1
    rw [if_neg h1] at h
    split
    · rename_i h2
      rw [if_pos h2] at h
      obtain ⟨f, hf, h3⟩ := List.any_eq_true.mp h2
      obtain ⟨t, rfl⟩ := h f hf
      cases h3
    · simp

/-- The parts of a string or a path. -/
def IsParts (n : Node) (l : List Piece) : Prop :=
  ∃ hp fs, n = .parts hp fs ∧ ((∀ f ∈ fs, ∃ t, f = .text t) → fs.length ≤ 1) ∧ pieces fs = l

theorem mkParts_spec {src : Bytes} {s : PState} {r : CRange} {fs : List Node} (hs : Inv src s) (hr : AtR src r)
    (h : SeqOk src r.l.offset r.r.offset fs) :
    Spec src (mkParts r fs) s (fun n s' => Same s s' ∧ Good src n ∧ n.isNode = true ∧ n.lCur = r.l ∧ n.rCur = r.r ∧
      IsParts n (pieces fs) ∧ ∃ i, n = .parts i (mergeFragments fs)) := by
  unfold mkParts
  refine node_spec hs ?_
  intro i s' sm _
  exact ⟨sm, .mk' (L := mergeFragments fs) rfl hr.l hr.r (seq_merge h) (List.Subperm.refl _) (fun m hm => .inl hm)
    (fun _ _ h => by cases h) (fun _ _ _ _ _ h => by cases h), rfl, rfl, rfl,
    ⟨_, _, rfl, merge_single fs, pieces_merge fs⟩, _, rfl⟩

theorem verbatim_text {src t r : Bytes} {o e : Nat} {l : List Piece} (h : src.drop o = t ++ r)
    (hv : Verbatim src (o + t.length) l e) : Verbatim src o (chars t ++ l) e := by
  induction t generalizing o with
  | nil => simpa [chars] using hv
  | cons c t ih =>
    refine .char o c (t ++ r) _ e h (ih (drop_next h) ?_)
    rw [Nat.add_assoc, Nat.add_comm 1]; exact hv

theorem TokOk.drop {src : Bytes} {t : Token} (h : TokOk src t) :
    src.drop t.range.l.offset = t.view ++ src.drop t.range.r.offset ∧ t.range.l.offset + t.view.length = t.range.r.offset := by
  have h1 := h.atR.1
  have h2 := h.le
  have hv := h.view
  unfold slice at hv
  constructor
  · rw [hv]
    conv => lhs; rw [← List.take_append_drop (t.range.r.offset - t.range.l.offset) (src.drop t.range.l.offset)]
    rw [List.drop_drop]
    congr 2; omega
  · rw [hv]
    simp only [List.length_take, List.length_drop]
    omega

theorem pathLoop_spec {src : Bytes} {R : Rec} {k j : Nat} {s : PState} (hR : RecOk src R k) (hs : Inv src s)
    (hst : s.states.headD .expr = .path) (hb : s.buf = [] ∨ ∃ t, s.buf = [t] ∧ t.kind ≠ .path_end ∧ t.kind ≠ .eof)
    (hk : src.length + 1 ≤ k + s.pos) (hj : src.length + 1 ≤ j + s.pos) :
    Spec src (pathLoop R k j) s (fun x s' => SeqOk src s.pos x.2.offset x.1 ∧ At src x.2 ∧ x.2.offset ≤ s'.endOff ∧
      Verbatim src s.pos (pieces x.1) x.2.offset ∧
      (s.buf = [] → (lexPath s.lex).1.kind ≠ .path_end → s.pos < x.2.offset)) := by
  induction j generalizing s with
  | zero => have := hs.pos_le; omega
  | succ j ih =>
    rw [pathLoop]
    refine (peek0_spec hs).bind ?_
    rintro cur s1 st1 nu1 ⟨f1, e1, -, -, -, u1, b1⟩
    have hp1 := f1.pos
    have hst1 : s1.states.headD .expr = .path := by rw [st1.states]; exact hst
    -- the token is the only one in the buffer and no end of file
    have hbuf1 : s1.buf = [cur] ∧ cur.kind ≠ .eof ∧ (s.buf ≠ [] → cur.kind ≠ .path_end) ∧
        (s.buf = [] → cur.kind = (lexPath s.lex).1.kind) := by
      rcases hb with hb | ⟨t, hb, h1, h2⟩
      · obtain ⟨k1, k2⟩ := b1 hb
        rw [hst] at k2
        refine ⟨k1, ?_, fun h => absurd hb h, fun _ => by rw [k2]; rfl⟩
        have := (lexPS_tok .path hs.srcEq hs.lex).2.2.2.2.2.2.2 rfl
        rw [k2]; exact this
      · obtain ⟨rfl, rfl⟩ := u1 t (.of_buf hs hb)
        exact ⟨hb, h2, fun _ => h1, fun h => by rw [hb] at h; cases h⟩
    obtain ⟨hb1, hneof, hnpe, hkind⟩ := hbuf1
    refine (pconsume_spec st1.inv f1).bind ?_
    rintro _ s2 st2 nu2 ⟨-, e2, p2, -, -, l2, b2, c2⟩
    have hb2 : s2.buf = [] := by rw [hb1] at b2; simpa using b2.symm
    have hst2 : s2.states.headD .expr = .path := by rw [st2.states]; exact hst1
    have hc2 := c2 hb2
    refine (peek0_spec st2.inv).bind ?_
    rintro next s3 st3 nu3 ⟨f3, e3, -, -, -, -, b3⟩
    obtain ⟨hb3, hnext⟩ := b3 hb2
    rw [hst2] at hnext
    have hst3 : s3.states.headD .expr = .path := by rw [st3.states]; exact hst2
    have hp3 := f3.pos
    have hle := f1.ok.le
    obtain ⟨hd0, hd1⟩ := f1.ok.drop
    have hpos0 : s.pos = cur.range.l.offset := by
      rcases hb with hb | ⟨t, hb, -, -⟩
      · rw [(b1 hb).2, hst, lexPS_left .path (by simp)]; simp [PState.pos, hb]
      · obtain ⟨rfl, rfl⟩ := u1 t (.of_buf hs hb)
        exact hp1
    have hpos3 : next.range.l.offset = cur.range.r.offset := by
      rw [hnext, lexPS_left .path (by simp), hc2, e2]
    split
    · refine .pure st3.inv ⟨?_, f1.ok.atR, ?_, ?_, ?_⟩
      · refine seq_text ?_
        simp only [SeqOk]; omega
      · dsimp only; omega
      · rw [hpos0]
        refine verbatim_text hd0 ?_
        rw [hd1]; exact .nil _
      · intro h1 h2
        rw [← hkind h1] at h2
        have := f1.ok.lt hneof h2
        dsimp only; omega
    · rename_i hnend
      -- the consumed token is not empty
      have hcne : cur.kind ≠ .path_end := by
        intro hpe
        apply hnend
        rw [hnext]
        refine f1.ok.pend hpe s2.lex ?_
        have h1 := st2.inv.lex.rem
        rw [h1, st2.inv.srcEq, hc2, e2]
      have hlt := f1.ok.lt hneof hcne
      have hnneof : next.kind ≠ .eof := by
        rw [hnext]; exact (lexPS_tok .path st2.inv.srcEq st2.inv.lex).2.2.2.2.2.2.2 rfl
      split
      · refine (parseInterpolation_spec hR st3.inv f3 hnneof hnend (by omega)).bind ?_
        rename_i hdc
        rintro n s4 st4 nu4 ⟨g1, g2, g3, g4, g5, g6, g7⟩
        have hst4 : s4.states.headD .expr = .path := by rw [st4.states]; exact hst3
        refine (ih st4.inv hst4 (.inl g6) (by omega) (by omega)).bind ?_
        rintro ⟨fs, e⟩ s5 st5 nu5 ⟨q1, q2, q3, q4, -⟩
        dsimp only at q1 q2 q3 q4
        have := q1.le
        refine .pure st5.inv ⟨?_, q2, q3, ?_, ?_⟩
        · refine seq_text (seq_cons g2 g1 (by omega) (q1.mono (by omega) (Nat.le_refl _)))
        · rw [hpos0]
          refine verbatim_text hd0 ?_
          have hsh := f3.ok.shape
          rw [hdc] at hsh
          have hd3 := f3.ok.drop.1
          rw [show next.view = b!"${" from hsh] at hd3
          rw [hd1, ← hpos3]
          rw [hp3] at g7
          obtain ⟨⟨h', x', rfl⟩, -⟩ := id g7
          exact .interp _ _ _ _ _ _ hd3 g7 q4
        · intro _ _; dsimp only; omega
      · refine (setBad_spec st3.inv).bind ?_
        intro _ s4 st4 nu4 sm
        have hst4 : s4.states.headD .expr = .path := by rw [st4.states]; exact hst3
        have hp4 := sm.pos
        have he4 := sm.endOff
        refine (ih st4.inv hst4 (.inr ⟨next, by rw [sm.buf, hb3], hnend, hnneof⟩) (by omega) (by omega)).bind ?_
        rintro ⟨fs, e⟩ s5 st5 nu5 ⟨q1, q2, q3, q4, -⟩
        dsimp only at q1 q2 q3 q4
        have := q1.le
        refine .pure st5.inv ⟨?_, q2, q3, ?_, ?_⟩
        · exact seq_text (q1.mono (by omega) (Nat.le_refl _))
        · rw [hpos0]
          refine verbatim_text hd0 ?_
          rw [hd1, ← hpos3, ← hp3, ← hp4]
          exact q4
        · intro _ _; dsimp only; omega

theorem parseExprPath_spec {src : Bytes} {R : Rec} {k : Nat} {s : PState} {b : Token} (hR : RecOk src R k) (hs : Inv src s)
    (hf : Front src b s) (hb : b.kind = .path_fragment) (hk : src.length + 1 ≤ k + s.pos) :
    Spec src (parseExprPath R k) s (fun n s' => Res src s.pos n s'.endOff) := by
  unfold parseExprPath
  refine (peek0_spec hs).bind ?_
  rintro t s0 st0 nu0 ⟨f0, e0, -, -, -, u0, -⟩
  obtain ⟨rfl, rfl⟩ := u0 b hf
  have hp := hf.pos
  refine Spec.bind (Q := fun x s' => SeqOk src s0.pos x.2.offset x.1 ∧ At src x.2 ∧ x.2.offset ≤ s'.endOff ∧
      Verbatim src s0.pos (pieces x.1) x.2.offset ∧ s0.pos < x.2.offset) ?_ ?_
  · refine withState_spec hs ?_ (fun a s1 s2 q h1 _ _ _ => by rw [h1]; exact q)
    intro s1 hi1 hst1 _ hb1 hc1 he1 _ hcur1 _
    have hp1 : s1.pos = s0.pos := by simp only [PState.pos, hb1]; exact hc1
    refine (pathLoop_spec hR hi1 (by rw [hst1]; rfl) (.inl hb1) (by omega) (by omega)).imp ?_
    rintro x s2 st2 nu2 ⟨q1, q2, q3, q5, q4⟩
    refine ⟨hp1 ▸ q1, q2, q3, hp1 ▸ q5, hp1 ▸ q4 hb1 ?_⟩
    have := hf.ok.path hb s1.lex (by rw [hi1.lex.rem, hi1.srcEq, hcur1 t hf])
    rw [this]; simp
  · rintro ⟨fs, e⟩ s1 st1 nu1 ⟨q1, q2, q3, q5, q4⟩
    dsimp only at q1 q2 q3 q4 q5
    refine (mkParts_spec (r := ⟨t.range.l, e⟩) st1.inv ⟨hf.ok.atL, q2⟩ (hp ▸ q1)).bind ?_
    rintro n s2 st2 nu2 ⟨sm, g, g0, g1, g2, ⟨hp', fs', rfl, -, g3⟩, -⟩
    have he2 := sm.endOff
    refine node_spec st2.inv ?_
    intro i s3 sm3 he3
    refine Res.mk' (L := [_]) rfl hf.ok.atL q2 (seq_cons g g0 (by rw [g1]) (by rw [g2]; exact Nat.le_refl _)) (by omega)
      (by omega) (by omega) (hv := ⟨hp', fs', rfl, ?_⟩)
    rw [g3, ← hp]; exact q5

/-- State of the parser, rules and closing token of the two kinds of strings. -/
def modeOf (i : Bool) : PS := if i then .indString else .string
def rulesOf (i : Bool) : Rules := if i then indCode else dqCode
def closeOf (i : Bool) : TK := if i then .quote2 else .dquote

theorem lexPS_read {src : Bytes} {l : St} {o : Nat} (i : Bool) (h : l.rem = src.drop o) :
    TokRead (rulesOf i) (closeOf i) src o (lexPS (modeOf i) l).1 := by
  cases i with
  | true => exact lexIndString_read h
  | false => exact lexString_read h

theorem pieces_text_cons {t : Bytes} {fs : List Node} : pieces (.text t :: fs) = chars t ++ pieces fs := rfl

theorem partsLoop_spec {src : Bytes} {R : Rec} {k j : Nat} {s : PState} (i : Bool) (hR : RecOk src R k) (hs : Inv src s)
    (hst : s.states.headD .expr = modeOf i)
    (hb : s.buf = [] ∨ ∃ t, s.buf = [t] ∧ TokRead (rulesOf i) (closeOf i) src s.pos t)
    (hk : src.length + 1 ≤ k + s.pos) (hj : src.length + 1 ≤ j + s.pos) :
    Spec src (partsLoop R k j) s (fun fs s' => SeqOk src s.endOff s'.endOff fs ∧
      ∃ u, Front src u s' ∧ Body (rulesOf i) src s.pos (pieces fs) u.range.l.offset ∧
        (u.kind = closeOf i ∧ (rulesOf i).quote <+: src.drop u.range.l.offset ∨ u.kind = .eof)) := by
  have hn : s.NP := by unfold PState.NP; rw [hst]; cases i <;> simp [modeOf]
  have hne : modeOf i ≠ .expr := by cases i <;> simp [modeOf]
  induction j generalizing s with
  | zero => have := hs.pos_le; omega
  | succ j ih =>
    rw [partsLoop]
    refine (peek0_spec hs).bind ?_
    rintro tok s1 st1 nu1 ⟨f1, e1, -, -, -, u1, b1⟩
    have hp1 := f1.pos
    have hn1 := st1.np hn
    have hst1 : s1.states.headD .expr = modeOf i := by rw [st1.states]; exact hst
    obtain ⟨hb1, hread, hpos⟩ : s1.buf = [tok] ∧ TokRead (rulesOf i) (closeOf i) src s.pos tok ∧ s.pos = tok.range.l.offset := by
      rcases hb with hb | ⟨t, hb, hr⟩
      · obtain ⟨k1, k2⟩ := b1 hb
        rw [hst] at k2
        have hp : s.pos = s.lex.cur.offset := by simp [PState.pos, hb]
        refine ⟨k1, ?_, ?_⟩
        · rw [k2]
          refine lexPS_read i ?_
          rw [hs.lex.rem, hs.srcEq, hp]
        · rw [k2, lexPS_left _ hne, hp]
      · obtain ⟨rfl, rfl⟩ := u1 t (.of_buf hs hb)
        exact ⟨hb, hr, hp1⟩
    have hlen := f1.ok.drop.2
    have step : ∀ (g : List Node → List Node) (v : Bytes), (∀ fs lo hi, SeqOk src lo hi fs → SeqOk src lo hi (g fs)) →
        (∀ fs, pieces (g fs) = chars v ++ pieces fs) →
        (∀ l e, Body (rulesOf i) src (s.pos + tok.view.length) l e → Body (rulesOf i) src s.pos (chars v ++ l) e) →
        tok.kind ≠ .eof →
        Spec src (pconsume >>= fun _ => partsLoop R k j >>= fun fs => pure (g fs)) s1 (fun fs s' => SeqOk src s.endOff s'.endOff fs ∧
          ∃ u, Front src u s' ∧ Body (rulesOf i) src s.pos (pieces fs) u.range.l.offset ∧
            (u.kind = closeOf i ∧ (rulesOf i).quote <+: src.drop u.range.l.offset ∨ u.kind = .eof)) := by
      intro g v hg hv hbody hk
      have hlt := f1.ok.lt hk (f1.kind st1.inv hn1)
      refine (pconsume_spec st1.inv f1).bind ?_
      rintro _ s2 st2 nu2 ⟨-, e2, p2, -, -, -, b2, c2⟩
      have hb2 : s2.buf = [] := by rw [hb1] at b2; simpa using b2.symm
      have hst2 : s2.states.headD .expr = modeOf i := by rw [st2.states]; exact hst1
      have hp2 : s2.pos = s2.lex.cur.offset := by simp [PState.pos, hb2]
      have hc2 := c2 hb2
      refine (ih st2.inv hst2 (.inl hb2) (by omega) (by omega) (st2.np hn1)).bind ?_
      rintro fs s3 st3 nu3 ⟨q3, u, q4, q5, q6⟩
      refine .pure st3.inv ⟨hg _ _ _ (q3.mono (by omega) (Nat.le_refl _)), u, q4, ?_, q6⟩
      rw [hv]
      refine hbody _ _ ?_
      rw [show s.pos + tok.view.length = s2.pos by omega]
      exact q5
    split
    · rename_i hk
      have hpe := f1.kind st1.inv hn1
      refine (parseInterpolation_spec hR st1.inv f1 (by rw [hk]; simp) hpe (by omega)).bind ?_
      rintro n s2 st2 nu2 ⟨g1, g2, g3, g4, g5, g6, g7⟩
      have hst2 : s2.states.headD .expr = modeOf i := by rw [st2.states]; exact hst1
      refine (ih st2.inv hst2 (.inl g6) (by omega) (by omega) (st2.np hn1)).bind ?_
      rintro fs s3 st3 nu3 ⟨q3, u, q4, q5, q6⟩
      refine .pure st3.inv ⟨seq_cons g2 g1 (by omega) (q3.mono (by omega) (Nat.le_refl _)), u, q4, ?_, q6⟩
      rw [hp1, ← hpos] at g7
      obtain ⟨⟨h', x', rfl⟩, -⟩ := id g7
      cases hread with
      | interp _ r h h' => exact .interp _ _ _ _ _ _ h h' g7 q5
      | eof h => rw [hk] at h; cases h
      | close h => rw [hk] at h; cases i <;> simp [closeOf] at h
      | esc h => rw [hk] at h; cases h
      | part h => rw [hk] at h; cases h
    · rename_i hk
      refine step (fun fs => .text tok.view :: fs) tok.view (fun _ _ _ => seq_text) (fun _ => rfl) ?_ (by rw [hk]; simp)
      cases hread with
      | part _ h => exact h
      | eof h => rw [hk] at h; cases h
      | close h => rw [hk] at h; cases i <;> simp [closeOf] at h
      | esc h => rw [hk] at h; cases h
      | interp h => rw [hk] at h; cases h
    · rename_i hk
      refine step (fun fs => if unescape tok.view = [] then fs else .text (unescape tok.view) :: fs) (unescape tok.view)
        ?_ ?_ ?_ (by rw [hk]; simp)
      · intro fs lo hi h
        split
        · exact h
        · exact seq_text h
      · intro fs
        split
        · rename_i h; rw [h]; rfl
        · rfl
      · cases hread with
        | esc _ h => exact h
        | part h => rw [hk] at h; cases h
        | eof h => rw [hk] at h; cases h
        | close h => rw [hk] at h; cases i <;> simp [closeOf] at h
        | interp h => rw [hk] at h; cases h
    · rename_i k1 k2 k3
      refine .pure st1.inv ⟨by simp only [SeqOk]; omega, tok, f1, ?_⟩
      cases hread with
      | part h => exact absurd h k2
      | esc h => exact absurd h k3
      | interp h => exact absurd h k1
      | eof h h' => rw [← hpos]; exact ⟨.eof _ h', .inr h⟩
      | close h h' h'' => rw [← hpos]; exact ⟨.close _ h' h'', .inl ⟨h, h'⟩⟩

theorem parseStringParts_spec {src : Bytes} {R : Rec} {k : Nat} {s : PState} (i : Bool) (hR : RecOk src R k) (hs : Inv src s)
    (hst : s.states.headD .expr = modeOf i) (hb : s.buf = []) (hc : s.lex.cur.offset = s.endOff)
    (hk : src.length + 1 ≤ k + s.pos) :
    Spec src (parseStringParts R k) s (fun n s' => Good src n ∧ n.isNode = true ∧ s.endOff ≤ n.lCur.offset ∧
      n.lCur.offset ≤ n.rCur.offset ∧ n.rCur.offset = s'.endOff ∧
      ∃ u l, Front src u s' ∧ IsParts n l ∧ Body (rulesOf i) src s.endOff l u.range.l.offset ∧
        (u.kind = closeOf i ∧ (rulesOf i).quote <+: src.drop u.range.l.offset ∨ u.kind = .eof)) := by
  have he : s.states.headD .expr ≠ .expr := by rw [hst]; cases i <;> simp [modeOf]
  unfold parseStringParts
  refine (peek0_spec hs).bind ?_
  rintro b s1 st1 nu1 ⟨f1, e1, -, -, -, -, b1⟩
  have hbl : b.range.l.offset = s.endOff := by
    rw [(b1 hb).2, lexPS_left _ he, hc]
  have hp1 := f1.pos
  have hread : TokRead (rulesOf i) (closeOf i) src s1.pos b := by
    rw [(b1 hb).2, hst]
    refine lexPS_read i ?_
    rw [hs.lex.rem, hs.srcEq, hp1, hbl, hc]
  refine (partsLoop_spec i hR st1.inv (by rw [st1.states]; exact hst) (.inr ⟨b, (b1 hb).1, hread⟩) (by omega) (by omega)).bind ?_
  rintro fs s2 st2 nu2 ⟨q2, u, q3, q4, q5⟩
  refine (lastR_spec st2.inv).bind ?_
  rintro c s3 st3 nu3 ⟨h1, h2, sm3, -⟩
  have h3 := sm3.endOff
  refine (mkParts_spec (r := ⟨b.range.l, c⟩) st3.inv ⟨f1.ok.atL, h1⟩ (q2.mono (by dsimp only; omega) (by dsimp only; omega))).imp ?_
  rintro n s4 st4 nu4 ⟨sm4, g1, g2, g3, g4, g5, -⟩
  have h4 := sm4.endOff
  refine ⟨g1, g2, ?_, ?_, ?_, u, pieces fs, sm4.front (sm3.front q3), g5, ?_, q5⟩
  · rw [g3]; dsimp only; omega
  · rw [g3, g4]; dsimp only; omega
  · rw [g4]; dsimp only; omega
  · rw [← hbl, ← hp1]; exact q4

/-- After a quote nothing is in the buffer. -/
theorem quote_last {src : Bytes} {s s' : PState} {t : Token} (hs : Inv src s) (hb : s.buf = t :: s'.buf)
    (hk : t.kind = .dquote ∨ t.kind = .quote2) : s'.buf = [] := by
  cases h : s'.buf with
  | nil => rfl
  | cons u us =>
    have := hs.solo t (by rw [hb, h]; simp)
    rcases hk with hk | hk
    · exact absurd hk this.1
    · exact absurd hk this.2

theorem parseString_spec {src : Bytes} {R : Rec} {k : Nat} {ind : Bool} {s : PState} {quote : Token} (hR : RecOk src R k)
    (hs : Inv src s) (hf : Front src quote s) (hqk : quote.kind = closeOf ind)
    (hk : src.length + 1 ≤ k + s.pos) :
    Spec src (parseString R k ind) s (fun n s' => n.isNode = true ∧ Res src s.pos n s'.endOff) := by
  have hq : quote.kind = .dquote ∨ quote.kind = .quote2 := by cases ind <;> simp [closeOf] at hqk <;> simp [hqk]
  unfold parseString
  refine (peek0_spec hs).bind ?_
  rintro t s0 st0 nu0 ⟨f0, e0, -, -, -, u0, -⟩
  obtain ⟨rfl, rfl⟩ := u0 quote hf
  have hp := hf.pos
  have hlt := hf.ok.lt (by rcases hq with h | h <;> rw [h] <;> simp) (by rcases hq with h | h <;> rw [h] <;> simp)
  refine (pconsume_spec hs hf).bind ?_
  rintro _ s1 st1 nu1 ⟨-, e1, p1, -, -, -, b1, c1⟩
  have hb1 := quote_last hs b1 hq
  have hc1 := c1 hb1
  let Q : Node → PState → Prop := fun n s' => n.isNode = true ∧ Res src s0.pos n s'.endOff
  refine withSync_spec (Q := Q) st1.inv ?_ (fun n s1 s2 q sm _ => by have := sm.endOff; simp only [Q, this] at *; exact q)
  intro s2 hs2 hi2
  have hp2 : s2.pos = s1.pos := by subst hs2; rfl
  have he2 : s2.endOff = s1.endOff := by subst hs2; rfl
  have hb2 : s2.buf = [] := by subst hs2; exact hb1
  have hc2 : s2.lex.cur.offset = s2.endOff := by subst hs2; exact hc1
  clear hs2
  refine withState_spec (Q := Q) hi2 ?_ (fun n s1 s2 q h1 _ _ _ => by simp only [Q, h1] at *; exact q)
  intro s3 hi3 hst3 _ hb3 hc3 he3 _ _ _
  have hp3 : s3.pos = s2.pos := by simp only [PState.pos, hb3]; exact hc3
  have hps2 : s2.pos = s2.lex.cur.offset := by simp only [PState.pos, hb2]
  have hm3 : s3.states.headD .expr = modeOf ind := by simp only [hst3, List.headD_cons]; rfl
  have hn3 : s3.NP := by simp only [PState.NP, hst3, List.headD_cons]; split <;> simp
  have hend3 : s3.endOff = s2.endOff := by simp only [PState.endOff, he3]
  refine (parseStringParts_spec ind hR hi3 hm3 hb3 (by omega) (by omega)).bind ?_
  rintro parts s4 st4 nu4 ⟨g1, g2, g3, g4, g5, u, l, hu, ⟨hpt, fs, rfl, hsing, rfl⟩, hbody, hend⟩
  -- the quote at the start
  have hstart : (rulesOf ind).quote <+: src.drop t.range.l.offset ∧
      t.range.l.offset + (rulesOf ind).quote.length = s3.endOff := by
    obtain ⟨d1, d2⟩ := hf.ok.drop
    have hsh := hf.ok.shape
    rw [hqk] at hsh
    have hv : t.view = (rulesOf ind).quote := by cases ind <;> exact hsh
    rw [hv] at d1 d2
    exact ⟨⟨_, d1.symm⟩, by omega⟩
  have hval : ∀ r, Quoted (rulesOf ind) src t.range.l.offset (pieces fs) r → ∀ i c, c.offset = r →
      Val src (.exprString ⟨i, ⟨t.range.l, c⟩⟩ (.parts hpt fs)) := by
    intro r hr i c hc
    refine ⟨_, _, rfl, hsing, ?_⟩
    subst hc
    cases ind with
    | true => exact .inr (.inl hr)
    | false => exact .inl hr
  refine (expect_spec st4.inv (st4.np hn3) (by omega)).bindF ?_
  rintro o s5 st5 nu5 ⟨q5, q5', q5''⟩
  have hup := hu.pos
  cases o with
  | some t' =>
    obtain ⟨a1, a2, a3⟩ := q5 t' rfl
    have ht' : t' = u ∧ (rulesOf ind).quote <+: src.drop u.range.l.offset := by
      rcases hend with ⟨k1, k2⟩ | k1
      · have := q5'' u hu (by rw [k1]; rfl)
        cases this; exact ⟨rfl, k2⟩
      · have := hu.ok.eof k1
        have h1 := a2.ok.lt (by rw [a1]; split <;> simp) (by rw [a1]; split <;> simp)
        have h2 := a2.ok.atR.1
        omega
    obtain ⟨rfl, hpre⟩ := ht'
    refine Spec.from st5 ?_
    refine (pconsume_spec st5.inv a2).bind ?_
    rintro _ s6 st6 nu6 ⟨-, e6, p6, -⟩
    refine node_spec st6.inv ?_
    intro i s7 sm7 he7
    have := a2.ok.le
    refine ⟨rfl, ?_⟩
    refine Res.mk' (L := [_]) rfl hf.ok.atL a2.ok.atR
      (seq_cons g1 g2 (by omega) (by simp only [SeqOk]; omega)) (by omega) (by omega) (by omega)
      (hv := hval _ ⟨hstart.1, _, by rw [hstart.2]; exact hbody, .inl ⟨hpre, rfl⟩⟩ _ _ ?_)
    obtain ⟨d1, d2⟩ := a2.ok.drop
    have hsh := a2.ok.shape
    rw [a1] at hsh
    have hv : t'.view = (rulesOf ind).quote := by cases ind <;> exact hsh
    rw [← hv]; exact d2.symm
  | none =>
    refine SpecF.note st5 (q5' rfl) hf.ok.atR' ?_
    intro s6 st6 sm6 _
    have he6 := sm6.endOff
    have hr := g1.ok.at_r
    refine Spec.from st6 ?_
    refine node_spec st6.inv ?_
    intro i s7 sm7 he7
    refine ⟨rfl, ?_⟩
    have hk' : u.kind = .eof := by
      rcases hend with ⟨k1, k2⟩ | k1
      · have := q5'' u hu (by rw [k1]; rfl)
        cases this
      · exact k1
    have hue := hu.ok.eof hk'
    have := st4.inv.end_le
    exact Res.mk' (L := [_]) rfl hf.ok.atL hr
      (seq_cons g1 g2 (by omega) (Nat.le_refl _)) (by omega) (by omega) (by omega)
      (hv := hval _ ⟨hstart.1, _, by rw [hstart.2]; exact hbody, .inr ⟨Nat.le_of_eq hue.symm, by omega⟩⟩ _ _ rfl)

/-! ### Attribute names and paths -/

theorem good_attrID {src : Bytes} {i j : Nat} {t : Token} (h : TokOk src t) :
    Good src (.attrNameID ⟨i, t.range⟩ (.identifier ⟨j, t.range⟩ t.view)) := by
  have g : Good src (.identifier ⟨j, t.range⟩ t.view) := good_ident h.atL h.atR h.le h.view
  exact .mk' (L := [_]) rfl h.atL h.atR (seq_cons g rfl (Nat.le_refl _) (Nat.le_refl _)) (List.Subperm.refl _)
    (fun m hm => .inl hm) (fun _ _ h => by cases h) (fun _ _ _ _ _ h => by cases h)

theorem parseAttrName_spec {src : Bytes} {R : Rec} {k : Nat} {s : PState} (hR : RecOk src R k) (hs : Inv src s) (hn : s.NP)
    (hk : src.length + 1 ≤ k + s.pos) :
    Spec src (parseAttrName R k) s (fun n s' => Res src s.pos n s'.endOff) := by
  unfold parseAttrName
  refine (peek0_spec hs).bind ?_
  rintro tok s1 st1 nu1 ⟨f1, e1, -, -, -, -, -⟩
  have hp1 := f1.pos
  have hn1 := st1.np hn
  have hpe := f1.kind st1.inv hn1
  have ident : ∀ s2, Inv src s2 → Front src tok s2 → tok.kind ≠ .eof →
      Spec src (pconsume >>= fun _ => fresh tok.range >>= fun h => fresh tok.range >>= fun h' =>
        pure (.attrNameID h' (.identifier h tok.view))) s2 (fun n s' => Res src s.pos n s'.endOff) := by
    intro s2 hi2 f2 hk
    have hlt := f2.ok.lt hk hpe
    refine (pconsume_spec hi2 f2).bind ?_
    rintro _ s3 st3 nu3 ⟨-, e3, p3, -⟩
    refine (fresh_spec st3.inv).bind ?_
    rintro h s4 st4 nu4 ⟨rfl, sm4, -⟩
    have he4 := sm4.endOff
    refine node_spec st4.inv ?_
    intro i s5 sm5 he5
    refine .inr ⟨rfl, good_attrID f2.ok, ?_, ?_, ?_⟩
    · show s.pos ≤ tok.range.l.offset; omega
    · show tok.range.r.offset ≤ s5.endOff; omega
    · omega
  split
  · rename_i hk
    refine (emitD_spec st1.inv (cur0 f1.ok.atR' (by simp) (by simp))).bind ?_
    rintro _ s2 st2 nu2 ⟨sm2, -⟩
    exact ident s2 st2.inv (sm2.front f1) (by rw [hk]; simp)
  · rename_i hk
    exact ident s1 st1.inv f1 (by rw [hk]; simp)
  · rename_i hk
    refine (parseString_spec (ind := false) hR st1.inv f1 hk (by omega)).bind ?_
    rintro n s2 st2 nu2 ⟨g1, q2⟩
    obtain ⟨-, g2, g3, g4, g5⟩ := q2.nonnull (by simp [isNode_not_null g1])
    refine node_spec st2.inv ?_
    intro i s3 sm3 he3
    exact Res.mk' (L := [n]) rfl g2.ok.at_l g2.ok.at_r (seq_cons g2 g1 (Nat.le_refl _) (Nat.le_refl _))
      (by show s.pos ≤ n.lCur.offset; omega) (by show n.rCur.offset ≤ _; omega) (by omega)
  · rename_i hk
    refine (parseInterpolation_spec hR st1.inv f1 (by rw [hk]; simp) hpe (by omega)).bind ?_
    rintro n s2 st2 nu2 ⟨g1, g2, g3, g4, g5, -⟩
    refine node_spec st2.inv ?_
    intro i s3 sm3 he3
    exact Res.mk' (L := [n]) rfl g2.ok.at_l g2.ok.at_r (seq_cons g2 g1 (Nat.le_refl _) (Nat.le_refl _))
      (by show s.pos ≤ n.lCur.offset; omega) (by show n.rCur.offset ≤ _; omega) (by omega)
  · exact .pure st1.inv (.inl rfl)

end Verif.Nixf
