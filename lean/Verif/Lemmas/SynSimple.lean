import Verif.Lemmas.SynSound
/-
Soundness of the parser: paths, attribute names, bindings and simple expressions.
-/
namespace Verif.Nixf.Syntax
open Lexical Strings

theorem Snd.call {α β : Type} {src : Option Bytes} {s : PState} {P : β → Bytes → List Token → Prop} {m : PM α} {f : α → PM β} {Q : α → Bytes → List Token → Prop}
    (hm : Snd src m s Q) (hf : ∀ a, Fr (f a)) (h : ∀ a s1 r1 B1, Hr src s1 r1 B1 → Q a r1 B1 → Snd src (f a) s1 P) : Snd src (m >>= f) s P :=
  .bind hm h hf

/-- `removeUnexpected` without an error. -/
theorem removeUnexpected_run {k : Nat} {s s' : PState} {a : Bool} (h : removeUnexpected k s = some (a, s')) (hc : Clean s') :
    a = false ∧ ∃ t, peek 0 s = some (t, s') ∧ (t.kind = .eof ∨ t.kind ∈ s.sync) := by
  unfold removeUnexpected at h
  obtain ⟨o, s1, e1, h⟩ := run_bind h
  cases o with
  | some r =>
    obtain ⟨_, s2, e2, h⟩ := run_bind h
    obtain ⟨-, rfl⟩ := run_pure h
    exact absurd hc (emit_dirty rfl e2)
  | none =>
    obtain ⟨rfl, rfl⟩ := run_pure h
    refine ⟨rfl, ?_⟩
    unfold consumeAsUnknown at e1
    obtain ⟨t, s2, e2, e1⟩ := run_bind e1
    obtain ⟨b, s3, e3, e1⟩ := run_bind e1
    cases b with
    | true =>
      obtain ⟨_, s4, e4, e1⟩ := run_bind e1
      obtain ⟨h, -⟩ := run_pure e1
      cases h
    | false =>
      obtain ⟨-, rfl⟩ := run_pure e1
      cases k with
      | zero => cases e3
      | succ k =>
        unfold unknownLoop at e3
        obtain ⟨t', s4, e4, e3⟩ := run_bind e3
        obtain ⟨sy, s5, e5, e3⟩ := run_bind e3
        have e45 : s4 = s2 ∧ t' = t := by
          unfold peek at e2 e4
          simp only [Option.some.injEq, Prod.mk.injEq] at e2 e4
          have hl : 1 ≤ s2.buf.length := by
            rw [← e2.2, pull_length]; omega
          have : s4 = s2 := by
            rw [← e4.2, Nat.zero_add, Nat.sub_eq_zero_of_le hl]; rfl
          refine ⟨this, ?_⟩
          rw [← e2.1, ← e4.1, e4.2, e2.2, this]
        obtain ⟨rfl, rfl⟩ := e45
        have e5' : sy = s4.sync ∧ s5 = s4 := by unfold PM.get at e5; cases e5; exact ⟨rfl, rfl⟩
        obtain ⟨rfl, rfl⟩ := e5'
        have hsy := (peek_fr _ _ _ e2).sync
        refine (fun (h : ∀ b s', (if t'.kind = .eof ∨ t'.kind ∈ s5.sync then (pure false : PM Bool) else do
            pconsume
            let _ ← unknownLoop k
            pure true) s5 = some (b, s') → b = false → s' = s5 ∧ (t'.kind = .eof ∨ t'.kind ∈ s5.sync)) => ?_) ?_
        · obtain ⟨rfl, h2⟩ := h _ _ e3 rfl
          exact ⟨t', e2, by rw [← hsy]; exact h2⟩
        · intro b s' e hb
          split at e
          · rename_i hx
            obtain ⟨-, rfl⟩ := run_pure e; exact ⟨rfl, hx⟩
          · obtain ⟨_, s6, e6, e⟩ := run_bind e
            obtain ⟨_, s7, e7, e⟩ := run_bind e
            obtain ⟨rfl, -⟩ := run_pure e
            cases hb

theorem Snd.remove {β : Type} {src : Option Bytes} {s : PState} {r : Bytes} {B : List Token} {P : β → Bytes → List Token → Prop} {k : Nat} {f : Bool → PM β} (hs : Hr src s r B)
    (h : ∀ s1 t r1 ts, Tok r t.kind t.view r1 → Hr src s1 r (t :: ts) → BufN 0 B (t :: ts) → Snd src (f false) s1 P)
    (hf : ∀ a, Fr (f a)) : Snd src (removeUnexpected k >>= f) s P := by
  intro b s' e hc
  obtain ⟨a, s1, e1, e2⟩ := run_bind e
  have hc1 := (hf a _ _ _ e2).clean hc
  obtain ⟨rfl, t, hp, -⟩ := removeUnexpected_run e1 hc1
  obtain ⟨r1, ts, h1, h2, h3⟩ := peek0_here hs.toHere hp hc1
  exact h s1 t r1 ts h1 (hs.peeked hp h2) h3 b s' e2 hc

/-! ### Paths -/

theorem path_end_tok {r v r' : Bytes} (h : TokS .path r .path_end v r') : v = [] ∧ r' = r := by
  obtain ⟨h1, h2, h3⟩ := h
  change (lexPath _).1.kind = _ at h1
  change (lexPath _).1.view = _ at h2
  change (lexPath _).2.rem = _ at h3
  have hv : ∀ k, (finishToken (St.init r) k (St.init r)).view = [] := by
    intro k; simp [finishToken]
  unfold lexPath at h1 h2 h3
  simp only at h1 h2 h3
  split at h1
  · rename_i hr
    simp only [hr] at h2 h3
    rw [hv] at h2
    exact ⟨h2.symm, by rw [← h3]; exact hr.symm.trans rfl⟩
  · rename_i hr
    simp only [hr] at h2 h3
    split at h1
    · cases h1
    · rename_i n1; rw [if_neg n1] at h2 h3
      split at h1
      · cases h1
      · rename_i n2; rw [if_neg n2] at h2 h3
        split at h1
        · cases h1
        · rename_i n3; rw [if_neg n3] at h2 h3
          rw [hv] at h2
          exact ⟨h2.symm, h3.symm⟩

section
variable {R : Rec} (hR : Snd2 R) (k : Nat)
include hR

theorem pathLoop_sound (j : Nat) : ∀ {src : Option Bytes} {s s' : PState} {r : Bytes} {p : List Node × Cursor}, InS .path s r →
    (∀ b ∈ src, s.lex.src = b) → pathLoop R k j s = some (p, s') →
    Clean s' → ∃ r' t, FrontS .path s' r' t ∧ GN src .pbody r (explode p.1) r' ∧ lastCur s' = p.2 ∧ Pt src p.2 r' := by
  have hst : PS.path ≠ .expr := by decide
  induction j with
  | zero => intro src s s' r p _ _ h; cases h
  | succ j ih =>
    intro src s s' r p hs hsrc h hc
    unfold pathLoop at h
    obtain ⟨t, s1, e1, h⟩ := run_bind h
    obtain ⟨_, s2, e2, h⟩ := run_bind h
    obtain ⟨n, s3, e3, h⟩ := run_bind h
    have f1 := (peekS hst hs e1).1
    obtain ⟨i1, i2, i3, i4, i5, i6⟩ := pconsumeS f1 e2
    have hsrc2 : ∀ b ∈ src, s2.lex.src = b := fun b hb => by rw [(pconsume_fr _ _ _ e2).src, (peek_fr _ _ _ e1).src]; exact hsrc b hb
    have hsrc3 : ∀ b ∈ src, s3.lex.src = b := fun b hb => by rw [(peek_fr _ _ _ e3).src]; exact hsrc2 b hb
    have f3 := (peekS hst ⟨i1, i2, .inl ⟨i3, rfl⟩⟩ e3).1
    have hfr := hR.fr
    have hpl := pathLoop_fr hfr k j
    have hpi := parseInterpolation_fr hfr k
    refine tri (Q := fun p s' => ∃ r' t, FrontS .path s' r' t ∧ GN src .pbody r (explode p.1) r' ∧ lastCur s' = p.2 ∧ Pt src p.2 r') ?_ h hc
    clear h hc
    split
    · rename_i hk
      intro p s' h hc
      obtain ⟨rfl, rfl⟩ := run_pure h
      have ht := f3.tok
      rw [hk] at ht
      obtain ⟨hv, hr⟩ := path_end_tok ht
      refine ⟨_, n, f3, ?_, ?_, fun b hb => ?_⟩
      · show GN src .pbody r (chars t.view ++ []) _
        rw [List.append_nil]
        refine .pend (tokP_iff.mpr i4) (tokP_iff.mpr ?_)
        rw [hv, hr] at ht
        exact ht
      · unfold lastCur; rw [peek_eaten e3, i6]
      · have := f1.right
        rw [← i5, hsrc2 b hb] at this; exact this
    · split
      · rename_i hk
        intro p s' h hc
        obtain ⟨i, s4, e4, h⟩ := run_bind h
        obtain ⟨⟨fs, e⟩, s5, e5, h⟩ := run_bind h
        obtain ⟨rfl, rfl⟩ := run_pure h
        obtain ⟨hd, x, r2, v, r', g1, rfl, g2, g3, g4, -⟩ := interpolationS_sound hR k hst f3 hsrc3 f3.tok e4 ((hpl _ _ _ e5).clean hc)
        obtain ⟨r4, t4, g5, g6, g7⟩ := ih g1 (fun b hb => by rw [(hpi _ _ _ e4).src]; exact hsrc3 b hb) e5 hc
        refine ⟨r4, t4, g5, ?_, g7⟩
        show GN src .pbody r (chars t.view ++ .interpolation hd x :: explode fs) _
        have ht := f3.tok
        rw [hk] at ht
        exact .pinterp (tokP_iff.mpr i4) (tokP_iff.mpr ht) g3 g4 g6
      · rename_i h1 h2
        intro p s' h hc
        obtain ⟨_, s4, e4, h⟩ := run_bind h
        obtain ⟨⟨fs, e⟩, s5, e5, h⟩ := run_bind h
        obtain ⟨rfl, rfl⟩ := run_pure h
        have q4 := (assertFail_mute _ _ _ e4).1
        obtain ⟨r4, t4, g5, g6, g7⟩ := ih (f3.same q4).inS (fun b hb => by rw [q4.src]; exact hsrc3 b hb) e5 hc
        refine ⟨r4, t4, g5, ?_, g7⟩
        show GN src .pbody r (chars t.view ++ explode fs) _
        exact .ptext (tokP_iff.mpr i4) (tokP_iff.mpr f3.tok) h1 h2 g6

theorem parseExprPath_sound {src : Option Bytes} {s : PState} {r : Bytes} {t : Token} {ts : List Token} (hs : Hr src s r (t :: ts)) :
    Snd src (parseExprPath R k) s fun a r' B' => B' = [] ∧ ∃ h h' fs, a = .exprPath h (.parts h' fs) ∧
      GN src .pbody (skip r) (explode fs) r' ∧ Spans src h.range r r' := by
  unfold parseExprPath
  intro a s' h hc
  obtain ⟨b, s1, e1, h⟩ := run_bind h
  obtain ⟨⟨fs, e⟩, s2, e2, h⟩ := run_bind h
  obtain ⟨p, s3, e3, h⟩ := run_bind h
  obtain ⟨h0, s4, e4, h⟩ := run_bind h
  obtain ⟨rfl, rfl⟩ := run_pure h
  have hfr := hR.fr
  have hpl := pathLoop_fr hfr k k
  unfold mkParts at e3
  obtain ⟨h1, s5, e5, e3⟩ := run_bind e3
  obtain ⟨rfl, rfl⟩ := run_pure e3
  have q := (fresh_mute _ _ _ e5).1.trans (fresh_mute _ _ _ e4).1
  have hc2 : Clean s2 := (fresh_fr _ _ _ e5).clean ((fresh_fr _ _ _ e4).clean hc)
  obtain ⟨r1, ts1, g1, g2, -⟩ := peek0_here hs.toHere e1 ((Fr.state hpl _ _ _ e2).clean hc2)
  have g2' := hs.peeked e1 g2
  obtain ⟨s6, e6, rfl⟩ := withState_run e2
  have hres : resetBuf s1 = { s1 with lex := setCur b.range.l s1.lex, buf := [] } := by
    unfold resetBuf; rw [g2.buf]
  obtain ⟨r', g3, g4, -⟩ := g2.lexed
  have fr6 := hpl _ _ _ e6
  have hin : InS .path { resetBuf s1 with states := .path :: (resetBuf s1).states } (skip r) := by
    rw [hres]
    exact ⟨rfl, rfl, .inl ⟨rfl, g4.1⟩⟩
  have hsrc1 : ∀ b ∈ src, (resetBuf s1).lex.src = b := fun b hb => by rw [resetBuf_src]; exact g2'.text b hb
  obtain ⟨r2, t2, g5, g6, g7, g8⟩ := pathLoop_sound (src := src) hR k k hin hsrc1 e6 (hc2.of (resetBuf_diags _))
  have hres' : resetBuf s6 = { s6 with lex := setCur t2.range.l s6.lex, buf := [] } := by
    unfold resetBuf; rw [g5.buf]
  have htop := g2.top
  have hrange := fresh_run e4
  refine ⟨r2, [], Hr.same ⟨?_, fun b hb => ?_, ?_⟩ q, rfl, h0, h1, mergeFragments fs, rfl, by rw [explode_merge]; exact g6, ?_⟩
  · rw [hres'] at *
    refine ⟨?_, rfl, rfl, .inl g5.left⟩
    show s6.states.tail.head? = _
    rw [fr6.states]
    show (resetBuf s1).states.head? = _
    rw [hres]; exact htop
  · show (resetBuf s6).lex.src = b
    rw [resetBuf_src, fr6.src]; exact hsrc1 b hb
  · have : lastCur s6 = e := g7
    unfold lastCur at this ⊢
    simp only [resetBuf_eaten]
    rw [this]; exact g8
  · rw [hrange]; exact ⟨(g2'.front g1).1, g8⟩

end

/-! ### Attribute names -/

/-- The tokens attribute names start with. -/
def startsName : TK → Bool
  | .id_ | .kw_or | .dquote | .dollar_curly => true
  | _ => false

/-- The name, or nothing was read. -/
def PName (src : Option Bytes) (r : Bytes) (B : List Token) (a : Node) (r' : Bytes) (B' : List Token) : Prop :=
  (a = .null ∧ r' = r ∧ BufN 0 B B' ∧ ∃ k v r1, Tok r k v r1 ∧ startsName k = false) ∨
    (a.isNull = false ∧ GN src .name r [a] r' ∧ BufN 1 B B')

/-- The path, or nothing was read. -/
def PPath (src : Option Bytes) (r : Bytes) (B : List Token) (a : Node) (r' : Bytes) (B' : List Token) : Prop :=
  (a = .null ∧ r' = r ∧ BufN 0 B B' ∧ ∃ k v r1, Tok r k v r1 ∧ startsName k = false) ∨
    ((∃ h ns ds, a = .attrPath h ns ds ∧ GN src .path r ns r' ∧ Spans src h.range r r') ∧ BufN 1 B B')

section
variable {R : Rec} (hR : Snd2 R) (k : Nat)
include hR

theorem parseAttrName_sound {src : Option Bytes} {s : PState} {r : Bytes} {B : List Token} (hs : Hr src s r B) : Snd src (parseAttrName R k) s (PName src r B) := by
  have hfr := hR.fr
  have f1 := parseInterpolation_fr hfr k
  have f2 := parseString_fr hfr k false
  unfold parseAttrName
  refine .peek hs (fun t s1 r1 ts ht h1 hb => ?_) (fun _ => by frame)
  have hsp := h1.front ht
  split
  · rename_i hk
    refine .quiet h1 (emitD_mute rfl).quiet fun _ s2 h2 => .consume h2 ht (fun s3 h3 _ _ => ?_) (fun _ => by frame)
    quiet
    rw [hk] at ht
    exact .pure (by assumption) (.inr ⟨rfl, .orName ht hsp, hb.trans (.cons _ _)⟩)
  · rename_i hk
    refine .consume h1 ht (fun s3 h3 _ _ => ?_) (fun _ => by frame)
    quiet
    rw [hk] at ht
    exact .pure (by assumption) (.inr ⟨rfl, .name ht hsp, hb.trans (.cons _ _)⟩)
  · rename_i hk
    refine .call (parseString_sound hR k false h1 ht hk) (fun _ => by frame) fun a s2 r2 B2 h2 ⟨hB, h, h', fs, ha, hg, hsp⟩ => ?_
    subst ha hB
    quiet
    rw [hk] at ht
    exact .pure (by assumption) (.inr ⟨rfl, .strName ht hg hsp, .nil⟩)
  · rename_i hk
    refine .call (interpolation_sound hR k h1 ht) (fun _ => by frame) fun a s2 r2 B2 h2 ⟨hB, h, e, r3, v, ha, h3, h4, h5, hsp⟩ => ?_
    subst ha hB
    quiet
    rw [hk] at ht
    exact .pure (by assumption) (.inr ⟨rfl, .interpName ht h4 h5 hsp, .nil⟩)
  · refine .pure h1 (.inl ⟨rfl, rfl, hb, _, _, _, ht, ?_⟩)
    unfold startsName
    split <;> simp_all

theorem attrPathLoop_sound (j : Nat) : ∀ {prev : Nat} {src : Option Bytes} {s : PState} {r : Bytes} {B : List Token}, Hr src s r B →
    Snd src (attrPathLoop R k j prev) s fun a r' B' => GN src .dots r a.1 r' ∧ BufN 0 B B' := by
  have hfr := hR.fr
  have f1 := parseAttrName_fr hfr k
  have f2 := attrPathLoop_fr hfr k
  induction j with
  | zero => intro prev src s r B _ a s' h; cases h
  | succ j ih =>
    intro prev src s r B hs
    unfold attrPathLoop
    refine .peek hs (fun t s1 r1 ts ht h1 hb => ?_) (fun _ => by frame)
    split
    · rename_i hk
      refine .consume h1 ht (fun s3 h3 _ _ => ?_) (fun _ => by frame)
      refine .call (parseAttrName_sound hR k h3) (fun _ => by frame) fun n s4 r4 B4 h4 hn => ?_
      quiet
      split
      · exact .dirty rfl (fun _ => by frame)
      · rename_i hnn
        rcases hn with ⟨rfl, -⟩ | ⟨-, hg, hbn⟩
        · exact absurd rfl hnn
        rename_i h4'
        refine .call (ih h4') (fun _ => by frame) fun a s5 r5 B5 h5 ⟨hg5, hb5⟩ => ?_
        rw [hk] at ht
        exact .pure h5 ⟨.dot ht hg hg5, ((hb.trans (BufN.cons _ _)).trans (hbn.trans hb5)).mono (by omega)⟩
    · exact .pure h1 ⟨.noDot, hb⟩

theorem parseAttrPath_sound {src : Option Bytes} {s : PState} {r : Bytes} {B : List Token} (hs : Hr src s r B) : Snd src (parseAttrPath R k) s (PPath src r B) := by
  have hfr := hR.fr
  have f1 := parseAttrName_fr hfr k
  have f2 := attrPathLoop_fr hfr k
  unfold parseAttrPath
  refine .call (parseAttrName_sound hR k hs) (fun _ => by frame) fun n s4 r4 B4 h4 hn => ?_
  split
  · rename_i hnn
    rcases hn with ⟨rfl, rfl, hb, hx⟩ | ⟨hx, -⟩
    · exact .pure h4 (.inl ⟨rfl, rfl, hb, hx⟩)
    · rw [hnn] at hx; cases hx
  · rename_i hnn
    rcases hn with ⟨rfl, -⟩ | ⟨-, hg, hbn⟩
    · exact absurd rfl hnn
    refine .sync h4 fun s5 h5 => ?_
    refine .call (attrPathLoop_sound hR k k h5) (fun _ => by frame) fun a s6 r6 B6 h6 ⟨hg6, hb6⟩ => ?_
    obtain ⟨ns, ds⟩ := a
    quiet
    exact .pure (by assumption) (.inr ⟨⟨_, _, _, rfl, .path hg hg6, hg.placeName.1, by assumption⟩, (hbn.trans hb6).mono (by omega)⟩)

/-! ### Bindings -/

omit hR in
theorem bindingSemi_sound {src : Option Bytes} {s : PState} {r : Bytes} {B : List Token} (hs : Hr src s r B) :
    Snd src bindingSemi s fun _ r' B' => (∃ v, Tok r .semi_colon v r') ∧ BufN 1 B B' := by
  unfold bindingSemi
  refine .peek hs (fun t s1 r1 ts ht h1 hb => ?_) (fun _ => by frame)
  split
  · rename_i hk
    intro a s' e hc
    obtain ⟨r2, g1, g2, -, -, g3, -, g4⟩ := pconsume_here h1.toHere e
    have g2' := h1.consumed g1 g2 g3 g4
    rw [hk] at g1
    exact ⟨r2, ts, g2', ⟨_, g1⟩, hb.trans (.cons _ _)⟩
  · quiet
    intro a s' e hc
    exact absurd hc (emit_dirty rfl e)

/-- A binding, or nothing was read. -/
def PBind (src : Option Bytes) (r : Bytes) (B : List Token) (a : Node) (r' : Bytes) (B' : List Token) : Prop :=
  (a = .null ∧ r' = r ∧ BufN 0 B B') ∨
    (a.isNull = false ∧ (∀ bs r'', GN src .binds r' bs r'' → GN src .binds r (a :: bs) r'') ∧ BufN 1 B B')

theorem parseBinding_sound {src : Option Bytes} {s : PState} {r : Bytes} {B : List Token} (hs : Hr src s r B) : Snd src (parseBinding R k) s (PBind src r B) := by
  have hfr := hR.fr
  have f1 := parseAttrPath_fr hfr k
  have f2 := bindingSemi_fr
  unfold parseBinding
  refine .call (parseAttrPath_sound hR k hs) (fun _ => by frame) fun n s4 r4 B4 h4 hn => ?_
  split
  · rename_i hnn
    rcases hn with ⟨rfl, rfl, hb, hx⟩ | ⟨⟨_, _, _, rfl, -⟩, -⟩
    · exact .pure h4 (.inl ⟨rfl, rfl, hb⟩)
    · cases hnn
  · rename_i hnn
    rcases hn with ⟨rfl, -⟩ | ⟨⟨h0, ns, ds, rfl, hg, hsp⟩, hbn⟩
    · exact absurd rfl hnn
    refine .sync h4 fun s5 h5 => .sync h5 fun s6 h6 => ?_
    refine .expect h6 (fun t s7 r7 ts hk ht h7 hb7 => ?_) (fun _ => by frame)
    refine .consume h7 ht (fun s8 h8 _ _ => ?_) (fun _ => by frame)
    quiet
    rename_i h8'
    refine .call (hR.expr _ _ _ h8') (fun _ => by frame) fun e s9 r9 B9 h9 ⟨hb9, hg9⟩ => ?_
    refine .need h9 (fun s10 he h10 => ?_) (fun _ => by frame)
    rcases hg9 with ⟨rfl, -⟩ | ⟨-, hg9⟩
    · cases he
    refine .call (bindingSemi_sound h10) (fun _ => by frame) fun _ s11 r11 B11 h11 ⟨⟨v, hv⟩, hb11⟩ => ?_
    quiet
    rw [hk] at ht
    exact .pure (by assumption) (.inr ⟨rfl, fun bs r'' hbs => .binding hg ht hg9 hv hsp ⟨hsp.1, by assumption⟩ hbs,
      ((hbn.trans hb7).trans ((BufN.cons _ _).trans (hb9.trans hb11))).mono (by omega)⟩)

theorem inheritNames_sound (j : Nat) : ∀ {src : Option Bytes} {s : PState} {r : Bytes} {B : List Token}, Hr src s r B →
    Snd src (inheritNames R k j) s fun a r' B' => GN src .names r a r' ∧ BufN 0 B B' := by
  have hfr := hR.fr
  have f1 := parseAttrName_fr hfr k
  have f2 := inheritNames_fr hfr k
  induction j with
  | zero => intro src s r B _ a s' h; cases h
  | succ j ih =>
    intro src s r B hs
    unfold inheritNames
    refine .call (parseAttrName_sound hR k hs) (fun _ => by frame) fun n s4 r4 B4 h4 hn => ?_
    split
    · rename_i hnn
      rcases hn with ⟨rfl, rfl, hb, -⟩ | ⟨hx, -⟩
      · exact .pure h4 ⟨.noName, hb⟩
      · rw [hnn] at hx; cases hx
    · rename_i hnn
      rcases hn with ⟨rfl, -⟩ | ⟨-, hg, hbn⟩
      · exact absurd rfl hnn
      refine .call (ih h4) (fun _ => by frame) fun a s5 r5 B5 h5 ⟨hg5, hb5⟩ => ?_
      exact .pure h5 ⟨.names hg hg5, (hbn.trans hb5).mono (by omega)⟩

theorem inheritExpr_sound {src : Option Bytes} {s : PState} {r : Bytes} {B : List Token} (hs : Hr src s r B) :
    Snd src (inheritExpr R k) s fun a r' B' => (a = .null ∧ r' = r ∨
      a.isNull = false ∧ ∃ v1 r1 r2 v2, Tok r .l_paren v1 r1 ∧ GN src .expr r1 [a] r2 ∧ Tok r2 .r_paren v2 r') ∧ BufN 0 B B' := by
  have hfr := hR.fr
  unfold inheritExpr
  refine .peek hs (fun t s1 r1 ts ht h1 hb => ?_) (fun _ => by frame)
  split
  · rename_i hk
    refine .consume h1 ht (fun s3 h3 _ _ => ?_) (fun _ => by frame)
    refine .call (hR.expr _ _ _ h3) (fun _ => by frame) fun e s9 r9 B9 h9 ⟨hb9, hg9⟩ => ?_
    refine .need h9 (fun s10 he h10 => ?_) (fun _ => by frame)
    rcases hg9 with ⟨rfl, -⟩ | ⟨-, hg9⟩
    · cases he
    refine .expectOr h10 (fun t2 s11 r11 ts11 hk2 ht2 h11 hb11 _ => ?_) (fun _ => by frame)
    rw [hk] at ht
    exact .pure h11 ⟨.inr ⟨he, _, _, _, _, ht, hg9, ht2⟩, ((hb.trans (.cons _ _)).trans (hb9.trans hb11)).mono (by omega)⟩
  · exact .pure h1 ⟨.inl ⟨rfl, rfl⟩, hb⟩

theorem parseInherit_sound {src : Option Bytes} {s : PState} {r : Bytes} {B : List Token} (hs : Hr src s r B) : Snd src (parseInherit R k) s (PBind src r B) := by
  have hfr := hR.fr
  have f1 := inheritNames_fr hfr k k
  have f2 := inheritExpr_fr hfr k
  unfold parseInherit
  refine .peek hs (fun t s1 r1 ts ht h1 hb => ?_) (fun _ => by frame)
  split
  · exact .pure h1 (.inl ⟨rfl, rfl, hb⟩)
  · rename_i hk
    have hk : t.kind = .kw_inherit := by simpa using hk
    have hsp := (h1.front ht).1
    refine .consume h1 ht (fun s3 h3 _ _ => ?_) (fun _ => by frame)
    refine .sync h3 fun s4 h4 => .sync h4 fun s5 h5 => .sync h5 fun s6 h6 => .sync h6 fun s7 h7 => ?_
    refine .call (inheritExpr_sound hR k h7) (fun _ => by frame) fun e s9 r9 B9 h9 ⟨hg9, hb9⟩ => ?_
    refine .call (inheritNames_sound hR k k h9) (fun _ => by frame) fun ns s10 r10 B10 h10 ⟨hg10, hb10⟩ => ?_
    refine .expectOr h10 (fun t2 s11 r11 ts11 hk2 ht2 h11 hb11 _ => ?_) (fun _ => by frame)
    refine .quiet h11 (Mute.quiet (.when fun _ => emitD_mute rfl)) fun _ s12 h12 => ?_
    quiet
    rw [hk] at ht
    have hbb := ((hb.trans (.cons _ _)).trans (hb9.trans (hb10.trans hb11)))
    rcases hg9 with ⟨rfl, rfl⟩ | ⟨he, v1, q1, q2, v2, i1, i2, i3⟩
    · exact .pure (by assumption) (.inr ⟨rfl, fun bs r'' hbs => .inherit ht hg10 ht2 ⟨hsp, by assumption⟩ hbs, hbb.mono (by omega)⟩)
    · refine .pure (by assumption) (.inr ⟨rfl, fun bs r'' hbs => ?_, hbb.mono (by omega)⟩)
      exact .inheritFrom ht i1 i2 i3 hg10 ht2 he ⟨hsp, by assumption⟩ hbs

theorem bindsLoop_sound (j : Nat) : ∀ {src : Option Bytes} {s : PState} {r : Bytes} {B : List Token}, Hr src s r B →
    Snd src (bindsLoop R k j) s fun a r' B' => GN src .binds r a r' ∧ BufN 0 B B' := by
  have hfr := hR.fr
  have f1 := parseBinding_fr hfr k
  have f2 := parseInherit_fr hfr k
  have f3 := bindsLoop_fr hfr k
  induction j with
  | zero => intro src s r B _ a s' h; cases h
  | succ j ih =>
    intro src s r B hs
    unfold bindsLoop
    refine .call (parseBinding_sound hR k hs) (fun _ => by frame) fun n s4 r4 B4 h4 hn => ?_
    split
    · rename_i hnn
      rcases hn with ⟨rfl, rfl, hb⟩ | ⟨hx, -⟩
      swap
      · rw [hnn] at hx; cases hx
      refine .call (parseInherit_sound hR k h4) (fun _ => by frame) fun n s5 r5 B5 h5 hn => ?_
      split
      · rename_i hnn
        rcases hn with ⟨rfl, rfl, hb5⟩ | ⟨hx, -⟩
        swap
        · rw [hnn] at hx; cases hx
        refine .remove h5 (fun s6 t r6 ts ht h6 hb6 => ?_) (fun _ => by frame)
        exact .pure h6 ⟨.noBind, (hb.trans (hb5.trans hb6)).mono (by omega)⟩
      · rename_i hnn
        rcases hn with ⟨rfl, -⟩ | ⟨-, hg, hbn⟩
        · exact absurd rfl hnn
        refine .call (ih h5) (fun _ => by frame) fun a s5 r5 B5 h5 ⟨hg5, hb5⟩ => ?_
        exact .pure h5 ⟨hg _ _ hg5, (hb.trans (hbn.trans hb5)).mono (by omega)⟩
    · rename_i hnn
      rcases hn with ⟨rfl, -⟩ | ⟨-, hg, hbn⟩
      · exact absurd rfl hnn
      refine .call (ih h4) (fun _ => by frame) fun a s5 r5 B5 h5 ⟨hg5, hb5⟩ => ?_
      exact .pure h5 ⟨hg _ _ hg5, (hbn.trans hb5).mono (by omega)⟩

theorem parseBinds_sound {src : Option Bytes} {s : PState} {r : Bytes} {B : List Token} (hs : Hr src s r B) :
    Snd src (parseBinds R k) s fun a r' B' => ∃ bs, BindsOf a bs ∧ GN src .binds r bs r' ∧ BufN 0 B B' := by
  have hfr := hR.fr
  have f3 := bindsLoop_fr hfr k
  unfold parseBinds
  refine .peek hs (fun t s1 r1 ts ht h1 hb => ?_) (fun _ => by frame)
  refine .sync h1 fun s4 h4 => .sync h4 fun s5 h5 => .sync h5 fun s6 h6 => .sync h6 fun s7 h7 => ?_
  refine .call (bindsLoop_sound hR k k h7) (fun _ => by frame) fun ns s10 r10 B10 h10 ⟨hg10, hb10⟩ => ?_
  split
  · rename_i he
    have : ns = [] := by simpa using he
    subst this
    exact .pure h10 ⟨[], .inl ⟨rfl, rfl⟩, hg10, (hb.trans hb10).mono (by omega)⟩
  · quiet
    exact .pure (by assumption) ⟨_, .inr ⟨_, rfl⟩, hg10, (hb.trans hb10).mono (by omega)⟩

omit hR in
theorem onExprAttrs_shape {s s' : PState} {a : Node} {x : CRange} {b c : Node} (h : sema (fun _ => onExprAttrs x b c) s = some (a, s')) :
    ∃ h st dy, a = .exprAttrs h b c st dy ∧ h.range = x := by
  unfold sema at h
  simp only [Option.some.injEq, Prod.mk.injEq] at h
  obtain ⟨rfl, -⟩ := h
  unfold onExprAttrs
  exact ⟨_, _, _, rfl, rfl⟩

theorem parseExprAttrs_sound {src : Option Bytes} {s : PState} {r : Bytes} {B : List Token} (hs : Hr src s r B) :
    Snd src (parseExprAttrs R k) s fun a r' B' => a.isNull = false ∧ GN src .simple r [a] r' ∧ BufN 2 B B' := by
  have hfr := hR.fr
  have f1 := parseBinds_fr hfr k
  have f2 := @attrsOpen_fr k
  have f3 := recTok_fr
  unfold parseExprAttrs
  refine .sync hs fun s0 h0 => .peek h0 (fun t s1 r1 ts ht h1 hb => ?_) (fun _ => by frame)
  have hsp := (h1.front ht).1
  -- rec
  have hrec : Snd src recTok s1 fun a r' B' => (a = .null ∧ r' = r ∨ isPart a = true ∧ (∃ v, Tok r .kw_rec v r') ∧ Spans src a.range r r') ∧ BufN 0 (t :: ts) B' := by
    unfold recTok
    refine .peek h1 (fun t s1 r1 ts ht h1 hb => ?_) (fun _ => by frame)
    split
    · rename_i hk
      have hsp := h1.front ht
      refine .consume h1 ht (fun s3 h3 _ _ => ?_) (fun _ => by unfold mkMisc; frame)
      unfold mkMisc
      quiet
      rw [hk] at ht
      exact .pure (by assumption) ⟨.inr ⟨rfl, ⟨_, ht⟩, hsp⟩, (hb.trans (.cons _ _)).mono (by omega)⟩
    · exact .pure h1 ⟨.inl ⟨rfl, rfl⟩, hb⟩
  refine .call hrec (fun _ => by frame) fun rc s2 r2 B2 h2 ⟨hg2, hb2⟩ => ?_
  have hopen : Snd src (attrsOpen k t) s2 fun a r' B' => (∃ v, Tok r2 .l_curly v r') ∧ BufN 1 B2 B' := by
    unfold attrsOpen
    refine .expect h2 (fun t s7 r7 ts hk ht h7 hb7 => ?_) (fun _ => by frame)
    refine .consume h7 ht (fun s8 h8 _ _ => ?_) (fun _ => by frame)
    rw [hk] at ht
    exact .pure h8 ⟨⟨_, ht⟩, hb7.trans (.cons _ _)⟩
  refine .call hopen (fun _ => by frame) fun mt s3 r3 B3 h3 ⟨⟨v3, hg3⟩, hb3⟩ => ?_
  quiet
  rename_i h3'
  refine .call (parseBinds_sound hR k h3') (fun _ => by frame) fun b s4 r4 B4 h4 ⟨bs, hg4, hg4', hb4⟩ => ?_
  refine .expectOr h4 (fun t2 s11 r11 ts11 hk2 ht2 h11 hb11 _ => ?_) (fun _ => by frame)
  quiet
  rename_i h12
  intro a s' e hc
  obtain ⟨h, st, dy, rfl, hrange⟩ := onExprAttrs_shape e
  refine ⟨_, _, h12.same (sema_mute (fun _ _ => onExprAttrs_mild) _ _ _ e).1, rfl, ?_, ?_⟩
  · have hsp : Spans src h.range r r11 := by rw [hrange]; exact ⟨hsp, by assumption⟩
    rcases hg2 with ⟨rfl, rfl⟩ | ⟨hp, ⟨v, hv⟩, hsr⟩
    · exact .set hg3 hg4' ht2 hg4 hsp
    · exact .recSet hv hg3 hg4' ht2 hg4 hp hsp hsr
  · exact ((hb.trans hb2).trans (hb3.trans (hb4.trans hb11))).mono (by omega)

end

end Verif.Nixf.Syntax
