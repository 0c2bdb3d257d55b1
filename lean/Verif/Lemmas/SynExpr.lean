import Verif.Lemmas.SynSimple
/-
Soundness of the parser: simple expressions, selections, function calls and operators.
-/
namespace Verif.Nixf.Syntax
open Lexical Strings

/-- The tokens simple expressions start with. -/
def startsSimple : TK → Bool
  | .id_ | .int | .float | .spath | .uri | .dquote | .quote2 | .path_fragment | .l_paren | .kw_rec | .l_curly | .l_bracket => true
  | _ => false

/-- How many tokens are consumed at least. -/
def need : TK → Nat
  | .l_curly => 2
  | _ => 1

/-- An expression of the kind `nt`, or nothing was read. -/
def PSimple (src : Option Bytes) (nt : NK) (r : Bytes) (B : List Token) (a : Node) (r' : Bytes) (B' : List Token) : Prop :=
  ∃ k v r1, Tok r k v r1 ∧ ((a = .null ∧ r' = r ∧ BufN 0 B B' ∧ startsSimple k = false) ∨
    (a.isNull = false ∧ startsSimple k = true ∧ GN src nt r [a] r' ∧ BufN (need k) B B'))

section
variable {R : Rec} (hR : Snd2 R) (k : Nat)
include hR

theorem parseExprParen_sound {src : Option Bytes} {s : PState} {r r1 : Bytes} {t : Token} {ts : List Token} (hs : Hr src s r (t :: ts))
    (ht : Tok r t.kind t.view r1) (hk : t.kind = .l_paren) :
    Snd src (parseExprParen R k) s fun a r' B' => a.isNull = false ∧ GN src .simple r [a] r' ∧ BufN 1 (t :: ts) B' := by
  have hfr := hR.fr
  unfold parseExprParen
  refine .peek hs (fun t0 s1 q1 ts1 ht1 h1 hb => ?_) (fun _ => by unfold noteMatch; frame)
  obtain ⟨hk1, -, rfl⟩ := ht.eq ht1
  have hsp := (h1.front ht1).1
  have hspl := (h1.front ht1).2
  refine .miscAt h1 fun _ s2 h1' => ?_
  refine .consume h1' ht1 (fun s3 h3 _ _ => ?_) (fun _ => by unfold noteMatch; frame)
  refine .sync h3 fun s4 h4 => ?_
  refine .call (hR.expr _ _ _ h4) (fun _ => by unfold noteMatch; frame) fun e s9 r9 B9 h9 ⟨hb9, hg9⟩ => ?_
  refine .need h9 (fun s10 he h10 => ?_) (fun _ => by unfold noteMatch; frame)
  rcases hg9 with ⟨rfl, -⟩ | ⟨-, hg9⟩
  · cases he
  refine .expect h10 (fun t2 s7 r7 ts7 hk2 ht2 h7 hb7 => ?_) (fun _ => by unfold noteMatch; frame)
  refine .consume h7 ht2 (fun s8 h8 _ _ => ?_) (fun _ => by frame)
  refine .miscAt h8 fun _ s11 h8' => ?_
  refine .quiet h8' (Mute.quiet (.when fun _ => emitD_mute rfl)) fun _ s12 h12 => ?_
  quiet
  have hsp2 := (h7.front ht2).2
  have hspr := (h7.front ht2).1
  rw [hk2] at ht2
  rw [hk] at ht
  exact .pure (by assumption) ⟨rfl, .paren ht hg9 ht2 ⟨hsp, hsp2⟩ ⟨hsp, hspl⟩ ⟨hspr, hsp2⟩, (hb.trans ((BufN.cons _ _).trans (hb9.trans (hb7.trans (.cons _ _))))).mono (by omega)⟩

theorem listLoop_sound (j : Nat) : ∀ {src : Option Bytes} {s : PState} {r : Bytes} {B : List Token}, Hr src s r B →
    Snd src (listLoop R j) s fun a r' B' => GN src .elems r a r' ∧ BufN 0 B B' := by
  have hfr := hR.fr
  have f2 := listLoop_fr hfr
  induction j with
  | zero => intro src s r B _ a s' h; cases h
  | succ j ih =>
    intro src s r B hs
    unfold listLoop
    refine .peek hs (fun t s1 r1 ts ht h1 hb => ?_) (fun _ => by frame)
    split
    · exact .pure h1 ⟨.noElem, hb⟩
    · refine .call (hR.select _ _ _ h1) (fun _ => by frame) fun n s4 r4 B4 h4 ⟨hb4, hn⟩ => ?_
      split
      · rename_i hnn
        rcases hn with ⟨rfl, rfl⟩ | ⟨hx, -⟩
        · exact .pure h4 ⟨.noElem, (hb.trans hb4).mono (by omega)⟩
        · rw [hnn] at hx; cases hx
      · rename_i hnn
        rcases hn with ⟨rfl, -⟩ | ⟨-, hg⟩
        · exact absurd rfl hnn
        refine .call (ih h4) (fun _ => by frame) fun a s5 r5 B5 h5 ⟨hg5, hb5⟩ => ?_
        exact .pure h5 ⟨.elem hg hg5, (hb.trans (hb4.trans hb5)).mono (by omega)⟩

theorem parseExprList_sound {src : Option Bytes} {s : PState} {r r1 : Bytes} {t : Token} {ts : List Token} (hs : Hr src s r (t :: ts))
    (ht : Tok r t.kind t.view r1) (hk : t.kind = .l_bracket) :
    Snd src (parseExprList R k) s fun a r' B' => a.isNull = false ∧ GN src .simple r [a] r' ∧ BufN 1 (t :: ts) B' := by
  have hfr := hR.fr
  have f2 := listLoop_fr hfr k
  unfold parseExprList
  refine .peek hs (fun t0 s1 q1 ts1 ht1 h1 hb => ?_) (fun _ => by frame)
  obtain ⟨hk1, -, rfl⟩ := ht.eq ht1
  have hsp := (h1.front ht1).1
  rw [if_neg (by rw [← hk1, hk]; simp)]
  refine .consume h1 ht1 (fun s3 h3 _ _ => ?_) (fun _ => by frame)
  refine .sync h3 fun s4 h4 => ?_
  refine .call (listLoop_sound hR k h4) (fun _ => by frame) fun e s9 r9 B9 h9 ⟨hg9, hb9⟩ => ?_
  refine .expectOr h9 (fun t2 s11 r11 ts11 hk2 ht2 h11 hb11 _ => ?_) (fun _ => by frame)
  quiet
  rw [hk] at ht
  exact .pure (by assumption) ⟨rfl, .list ht hg9 ht2 ⟨hsp, by assumption⟩, (hb.trans ((BufN.cons _ _).trans (hb9.trans hb11))).mono (by omega)⟩

omit hR in
theorem BufN.trans0 {n : Nat} {A B C : List Token} (h : BufN 0 A B) (h' : BufN n B C) : BufN n A C := by
  have := h.trans h'; rwa [Nat.zero_add] at this

omit hR in
theorem Snd.parts {β : Type} {src : Option Bytes} {s : PState} {r : Bytes} {B : List Token} {P : β → Bytes → List Token → Prop} {x : CRange} {fs : List Node}
    {f : Node → PM β} (hs : Hr src s r B) (h : ∀ hd s1, Hr src s1 r B → Snd src (f (.parts hd (mergeFragments fs))) s1 P) :
    Snd src (mkParts x fs >>= f) s P := by
  intro b s' e hc
  obtain ⟨a, s1, e1, e2⟩ := run_bind e
  unfold mkParts at e1
  obtain ⟨hd, s2, e3, e4⟩ := run_bind e1
  obtain ⟨rfl, rfl⟩ := run_pure e4
  exact h _ _ (hs.same (fresh_mute _ _ _ e3).1) b s' e2 hc

theorem parseExprSimple_sound {src : Option Bytes} {s : PState} {r : Bytes} {B : List Token} (hs : Hr src s r B) :
    Snd src (parseExprSimple R k) s (PSimple src .simple r B) := by
  have hfr := hR.fr
  have f1 := parseString_fr hfr k
  have f2 := parseExprPath_fr hfr k
  have f3 := parseExprParen_fr hfr k
  have f4 := parseExprAttrs_fr hfr k
  have f5 := parseExprList_fr hfr k
  unfold parseExprSimple
  refine .peek hs (fun t s1 r1 ts ht h1 hb => ?_) (fun _ => by unfold mkParts; frame)
  have yes : ∀ {a : Node} {r' : Bytes} {B' : List Token}, a.isNull = false → startsSimple t.kind = true → GN src .simple r [a] r' →
      BufN (need t.kind) (t :: ts) B' → PSimple src .simple r B a r' B' := fun h1 h2 h3 h4 => ⟨_, _, _, ht, .inr ⟨h1, h2, h3, hb.trans0 h4⟩⟩
  have b1 : t.kind ≠ .l_curly → BufN (need t.kind) (t :: ts) ts := fun hk => by
    have : need t.kind = 1 := by unfold need; split <;> simp_all
    rw [this]; exact .cons _ _
  have ht0 := ht
  have hsp := h1.front ht
  split
  all_goals rename_i hk
  all_goals try rw [hk] at ht0
  · refine .consume h1 ht (fun s3 h3 _ _ => ?_) (fun _ => by unfold mkParts; frame)
    refine .parts h3 fun p s4 h4 => ?_
    quiet
    rename_i h5
    refine .quiet h5 (emitD_mute rfl).quiet fun _ s6 h6 => ?_
    refine .pure h6 (yes rfl (by rw [hk]; rfl) (.uri ht0 ?_ hsp) (b1 (by rw [hk]; simp)))
    rw [explode_merge]
    exact List.append_nil _
  · refine .consume h1 ht (fun s3 h3 _ _ => ?_) (fun _ => by frame)
    quiet
    exact .pure (by assumption) (yes rfl (by rw [hk]; rfl) (.var ht0 hsp) (b1 (by rw [hk]; simp)))
  · refine .consume h1 ht (fun s3 h3 _ _ => ?_) (fun _ => by frame)
    refine .whenDirty h3 (fun s u s1 e => emit_dirty rfl e) (fun s4 hd h4 => ?_) (fun _ => by frame)
    quiet
    refine .pure (by assumption) (yes rfl (by rw [hk]; rfl) (.int ht0 ?_ hsp) (b1 (by rw [hk]; simp)))
    cases hx : decodeInt t.view with
    | none => exact absurd hx hd
    | some n => rfl
  · refine .consume h1 ht (fun s3 h3 _ _ => ?_) (fun _ => by frame)
    quiet
    exact .pure (by assumption) (yes rfl (by rw [hk]; rfl) (.float ht0 hsp) (b1 (by rw [hk]; simp)))
  · refine .consume h1 ht (fun s3 h3 _ _ => ?_) (fun _ => by frame)
    quiet
    exact .pure (by assumption) (yes rfl (by rw [hk]; rfl) (.spath ht0 hsp) (b1 (by rw [hk]; simp)))
  · refine (parseString_sound hR k false h1 ht hk).imp fun a r2 B2 ⟨hB, h, h', fs, ha, hg, hsp⟩ => ?_
    subst ha hB
    exact yes rfl (by rw [hk]; rfl) (.str ht0 hg hsp) .nil
  · refine (parseString_sound hR k true h1 ht hk).imp fun a r2 B2 ⟨hB, h, h', fs, ha, hg, hsp⟩ => ?_
    subst ha hB
    exact yes rfl (by rw [hk]; rfl) (.ind ht0 hg hsp) .nil
  · refine (parseExprPath_sound hR k h1).imp fun a r2 B2 ⟨hB, h, h', fs, ha, hg, hsp⟩ => ?_
    subst ha hB
    exact yes rfl (by rw [hk]; rfl) (.pathLit ht0 hg hsp) .nil
  · refine (parseExprParen_sound hR k h1 ht hk).imp fun a r2 B2 ⟨h1, h2, h3⟩ => ?_
    exact yes h1 (by rw [hk]; rfl) h2 (by rw [hk]; exact h3)
  · refine (parseExprAttrs_sound hR k h1).imp fun a r2 B2 ⟨h1, h2, h3⟩ => ?_
    exact yes h1 (by rw [hk]; rfl) h2 (by rw [hk]; exact h3.mono (by decide))
  · refine (parseExprAttrs_sound hR k h1).imp fun a r2 B2 ⟨h1, h2, h3⟩ => ?_
    exact yes h1 (by rw [hk]; rfl) h2 (by rw [hk]; exact h3)
  · refine (parseExprList_sound hR k h1 ht hk).imp fun a r2 B2 ⟨h1, h2, h3⟩ => ?_
    exact yes h1 (by rw [hk]; rfl) h2 (by rw [hk]; exact h3)
  · refine .pure h1 ⟨_, _, _, ht, .inl ⟨rfl, rfl, hb, ?_⟩⟩
    unfold startsSimple
    split <;> simp_all

theorem parseExprSelect_sound {src : Option Bytes} {s : PState} {r : Bytes} {B : List Token} (hs : Hr src s r B) :
    Snd src (parseExprSelect R k) s (PSimple src .select r B) := by
  have hfr := hR.fr
  have f1 := parseExprSimple_fr hfr k
  have f2 := parseAttrPath_fr hfr k
  unfold parseExprSelect
  refine .call (parseExprSimple_sound hR k hs) (fun _ => by frame) fun e s1 r1 B1 h1 ⟨k0, v0, q0, ht0, he⟩ => ?_
  split
  · rename_i hn
    rcases he with ⟨rfl, rfl, hb, hk⟩ | ⟨hx, -⟩
    · exact .pure h1 ⟨_, _, _, ht0, .inl ⟨rfl, rfl, hb, hk⟩⟩
    · rw [hn] at hx; cases hx
  · rename_i hn
    rcases he with ⟨rfl, -⟩ | ⟨he, hst, hg, hb⟩
    · exact absurd rfl hn
    refine .peek h1 (fun t s2 r2 ts ht h2 hb2 => ?_) (fun _ => by frame)
    split
    · exact .pure h2 ⟨_, _, _, ht0, .inr ⟨he, hst, .simple hg, (hb.trans hb2).mono (by omega)⟩⟩
    · rename_i hk
      have hk : t.kind = .dot := by simpa using hk
      have hspd := h2.front ht
      quiet
      rename_i h2'
      refine .consume h2' ht (fun s3 h3 _ _ => ?_) (fun _ => by frame)
      refine .call (parseAttrPath_sound hR k h3) (fun _ => by frame) fun p s4 r4 B4 h4 hp => ?_
      refine .whenDirty h4 (fun s u s1 e => emit_dirty rfl e) (fun s5 hd h5 => ?_) (fun _ => by frame)
      rcases hp with ⟨rfl, -⟩ | ⟨⟨h, ns, ds, rfl, hgp, hspp⟩, hbp⟩
      · exact absurd rfl hd
      refine .peek h5 (fun t2 s6 r6 ts6 ht6 h6 hb6 => ?_) (fun _ => by frame)
      rw [hk] at ht
      have hbb := hb.trans (hb2.trans ((BufN.cons _ _).trans (hbp.trans hb6)))
      split
      · quiet
        exact .pure (by assumption) ⟨_, _, _, ht0, .inr ⟨rfl, hst, .select hg ht hgp hspp ⟨(hg.place rfl).1, by assumption⟩ hspd, hbb.mono (by omega)⟩⟩
      · rename_i hk6
        have hk6 : t2.kind = .kw_or := by simpa using hk6
        refine .consume h6 ht6 (fun s7 h7 _ _ => ?_) (fun _ => by frame)
        refine .call (hR.select _ _ _ h7) (fun _ => by frame) fun d s8 r8 B8 h8 ⟨hb8, hd8⟩ => ?_
        refine .whenDirty h8 (fun s u s1 e => ?_) (fun s9 hd h9 => ?_) (fun _ => by frame)
        · obtain ⟨c, s2, e2, e3⟩ := run_bind e
          obtain ⟨_, s3, e4, e5⟩ := run_bind e3
          exact fun hc => emit_dirty rfl e4 ((fixLast_fr _ _ _ e5).clean hc)
        · rcases hd8 with ⟨rfl, -⟩ | ⟨hdn, hgd⟩
          · exact absurd rfl hd
          quiet
          refine .pure (by assumption) ⟨_, _, _, ht0, .inr ⟨rfl, hst, ?_, (hbb.trans ((BufN.cons _ _).trans hb8)).mono (by omega)⟩⟩
          rw [hk6] at ht6
          exact .selectOr hg ht hgp ht6 hgd hdn hspp ⟨(hg.place rfl).1, by assumption⟩

theorem appLoop_sound (j : Nat) : ∀ {src : Option Bytes} {s : PState} {r : Bytes} {B : List Token}, Hr src s r B →
    Snd src (appLoop R k j) s fun a r' B' => (a = [] ∧ r' = r ∨ a ≠ [] ∧ GN src .args r a r') ∧ BufN 0 B B' := by
  have hfr := hR.fr
  have f1 := parseExprSelect_fr hfr k
  have f2 := appLoop_fr hfr k
  induction j with
  | zero => intro src s r B _ a s' h; cases h
  | succ j ih =>
    intro src s r B hs
    unfold appLoop
    refine .call (parseExprSelect_sound hR k hs) (fun _ => by frame) fun n s4 r4 B4 h4 ⟨k0, v0, q0, ht0, hn⟩ => ?_
    split
    · rename_i hnn
      rcases hn with ⟨rfl, rfl, hb, -⟩ | ⟨hx, -⟩
      · exact .pure h4 ⟨.inl ⟨rfl, rfl⟩, hb⟩
      · rw [hnn] at hx; cases hx
    · rename_i hnn
      rcases hn with ⟨rfl, -⟩ | ⟨-, -, hg, hb⟩
      · exact absurd rfl hnn
      refine .call (ih h4) (fun _ => by frame) fun a s5 r5 B5 h5 ⟨hg5, hb5⟩ => ?_
      refine .pure h5 ⟨.inr ⟨by simp, ?_⟩, (hb.trans hb5).mono (by omega)⟩
      rcases hg5 with ⟨rfl, rfl⟩ | ⟨-, hg5⟩
      · exact .lastArg hg
      · exact .moreArgs hg hg5

omit hR in
theorem GN.args_last {src : Option Bytes} {nt : NK} {r r' : Bytes} {l : List Node} (h : GN src nt r l r') (hn : nt = .args) :
    l ≠ [] ∧ ∀ a ∈ l.getLast?, Pt src a.range.r r' := by
  induction h with
  | lastArg h _ =>
    refine ⟨by simp, fun a ha => ?_⟩
    cases ha; exact (h.place rfl).2
  | moreArgs h1 h2 _ ih =>
    obtain ⟨h3, h4⟩ := ih rfl
    refine ⟨by simp, fun a ha => h4 a ?_⟩
    rename_i es _ _
    cases es with
    | nil => exact absurd rfl h3
    | cons x xs => simpa [List.getLast?_cons_cons] using ha
  | _ => cases hn

omit hR in
theorem callable_syn {n : Node} (h : n.maybeLambda = true) : callable (syn n) = true := by
  unfold syn
  split <;> first | rfl | cases h

theorem parseExprApp_sound {src : Option Bytes} {s : PState} {r : Bytes} {B : List Token} (hs : Hr src s r B) :
    Snd src (parseExprApp R k) s (PSimple src .app r B) := by
  have hfr := hR.fr
  have f1 := parseExprSelect_fr hfr k
  have f2 := appLoop_fr hfr k
  unfold parseExprApp
  refine .call (parseExprSelect_sound hR k hs) (fun _ => by frame) fun fn s4 r4 B4 h4 ⟨k0, v0, q0, ht0, hn⟩ => ?_
  split
  · rename_i hc
    refine .pure h4 ⟨_, _, _, ht0, ?_⟩
    rcases hn with h | ⟨h1, h2, h3, h4⟩
    · exact .inl h
    · exact .inr ⟨h1, h2, .one h3, h4⟩
  · rename_i hc
    rcases hn with ⟨rfl, -⟩ | ⟨h1, h2, h3, hb⟩
    · exact absurd (.inl rfl) hc
    have hl : fn.maybeLambda = true := by
      cases hx : fn.maybeLambda with
      | true => rfl
      | false => exact absurd (.inr hx) hc
    refine .call (appLoop_sound hR k k h4) (fun _ => by frame) fun a s5 r5 B5 h5 ⟨hg5, hb5⟩ => ?_
    have hbb := (hb.trans hb5).mono (Nat.le_add_right _ _)
    split
    · rename_i ha
      rcases hg5 with ⟨-, rfl⟩ | ⟨ha', -⟩
      · exact .pure h5 ⟨_, _, _, ht0, .inr ⟨h1, h2, .one h3, hbb⟩⟩
      · exact absurd (List.getLast?_eq_none_iff.mp ha) ha'
    · rename_i l ha
      rcases hg5 with ⟨rfl, -⟩ | ⟨-, hg5⟩
      · cases ha
      have hl5 := (hg5.args_last rfl).2 _ ha
      quiet
      exact .pure (by assumption) ⟨_, _, _, ht0, .inr ⟨rfl, h2, .call h3 (callable_syn hl) hg5 ⟨(h3.place rfl).1, hl5⟩, hbb⟩⟩

/-! ### Operators -/

omit hR in
theorem getBP_powers (k : TK) : getBP k = powers k := by
  cases k <;> rfl

/-- No operator after the expression belongs to it. -/
def Follow (p : Nat) (t : Syn) (r' : Bytes) : Prop :=
  ∀ f v r1, Tok r' f v r1 → f ≠ .question ∧ f ≠ .kw_or ∧ ∀ lbp rbp, powers f = some (lbp, rbp) → lbp < p ∧ ∀ q ∈ rightPowers t, lbp < q

/-- The operators that may follow. -/
def Ready (t : Syn) (r : Bytes) : Prop :=
  ∀ f v r1, Tok r f v r1 → (f = .question → rightPowers t = []) ∧ ∀ lbp rbp, powers f = some (lbp, rbp) → ∀ q ∈ rightPowers t, lbp < q

omit hR in
theorem Ready.of_nil {t : Syn} {r : Bytes} (h : rightPowers t = []) : Ready t r := by
  intro f v r1 _
  rw [h]
  exact ⟨fun _ => rfl, fun _ _ _ q hq => nomatch hq⟩

omit hR in
theorem Follow.ready {p : Nat} {t t' : Syn} {r : Bytes} (h : Follow p t r) (ht : rightPowers t' = p :: rightPowers t) : Ready t' r := by
  intro f v r1 hf
  obtain ⟨h1, -, h2⟩ := h f v r1 hf
  refine ⟨fun h => absurd h h1, fun lbp rbp hp q hq => ?_⟩
  rw [ht] at hq
  obtain ⟨h3, h4⟩ := h2 lbp rbp hp
  rcases List.mem_cons.mp hq with rfl | hq
  · exact h3
  · exact h4 q hq

omit hR in
theorem rightPowers_app {r r' : Bytes} {t : Syn} (h : G .app r [t] r') : rightPowers t = [] := by
  cases h with
  | call => rfl
  | one h =>
    cases h with
    | select => rfl
    | selectOr => rfl
    | simple h => cases h <;> rfl

def POp (src : Option Bytes) (p : Nat) (r : Bytes) (B : List Token) (a : Node) (r' : Bytes) (B' : List Token) : Prop :=
  ∃ k v r1, Tok r k v r1 ∧ ((a = .null ∧ r' = r ∧ BufN 0 B B' ∧ startsSimple k = false) ∨
    (a.isNull = false ∧ GN src (.op p) r [a] r' ∧ Follow p (syn a) r' ∧ BufN (need k) B B'))

theorem op_sound (j : Nat) :
    (∀ {p : Nat} {src : Option Bytes} {s : PState} {r : Bytes} {B : List Token}, Hr src s r B → Snd src (parseExprOpBP R k j p) s (POp src p r B)) ∧
    (∀ {p : Nat} {pre : Node} {src : Option Bytes} {s : PState} {q r : Bytes} {B : List Token}, Hr src s r B → pre.isNull = false → Ready (syn pre) r →
      Spans src pre.range q r →
      Snd src (opLoop R k j p pre) s fun a r' B' => a.isNull = false ∧ GN src (.tail p pre q) r [a] r' ∧ Follow p (syn a) r' ∧ BufN 0 B B') := by
  have hfr := hR.fr
  have f1 := parseExprApp_fr hfr k
  have f2 := parseAttrPath_fr hfr k
  have f3 := fun j => (op_fr hfr k j).1
  have f4 := fun j => (op_fr hfr k j).2
  induction j with
  | zero => exact ⟨fun _ a s' h => (nomatch h), fun _ _ _ _ a s' h => (nomatch h)⟩
  | succ j ih =>
    obtain ⟨ih1, ih2⟩ := ih
    constructor
    · intro p src s r B hs
      unfold parseExprOpBP
      refine .peek hs (fun t s1 r1 ts ht h1 hb => ?_) (fun _ => by frame)
      split
      · rename_i hk
        refine .consume h1 ht (fun s3 h3 _ _ => ?_) (fun _ => by frame)
        quiet
        rename_i h4
        refine .call (ih1 h4) (fun _ => by frame) fun e s5 r5 B5 h5 ⟨k5, v5, q5, ht5, he⟩ => ?_
        refine .need h5 (fun s6 hen h6 => ?_) (fun _ => by frame)
        rcases he with ⟨rfl, -⟩ | ⟨-, hg, hf, hb5⟩
        · cases hen
        refine .lastR h6 fun cc s7 hcc h7 => .fresh h7 fun i s8 h7 => ?_
        have hu : unPower t.kind = some (getUnaryBP t.kind) := by
          rcases hk with hk | hk <;> rw [hk] <;> rfl
        have hn : need t.kind = 1 := by
          rcases hk with hk | hk <;> rw [hk] <;> rfl
        have hsp : Spans src (⟨t.range.l, cc⟩ : CRange) r r5 := ⟨(h1.front ht).1, by assumption⟩
        refine (ih2 (q := r) h7 rfl (hf.ready ?_) (by exact hsp)).imp fun a r8 B8 ⟨g1, g2, g3, g4⟩ => ?_
        · show (unPower t.kind).elim 0 id :: _ = _
          rw [hu]; rfl
        · refine ⟨_, _, _, ht, .inr ⟨g1, .opr (.un ht hu hg hsp) g2, g3, ?_⟩⟩
          rw [hn]
          exact (hb.trans ((BufN.cons _ _).trans (hb5.trans g4))).mono (by omega)
      · refine .call (parseExprApp_sound hR k h1) (fun _ => by frame) fun e s5 r5 B5 h5 ⟨k5, v5, q5, ht5, he⟩ => ?_
        split
        · rename_i hn
          rcases he with ⟨rfl, rfl, hb5, hk5⟩ | ⟨hx, -⟩
          · exact .pure h5 ⟨_, _, _, ht5, .inl ⟨rfl, rfl, (hb.trans hb5).mono (by omega), hk5⟩⟩
          · rw [hn] at hx; cases hx
        · rename_i hn
          rcases he with ⟨rfl, -⟩ | ⟨h2, h3, h4, hb5⟩
          · exact absurd rfl hn
          refine (ih2 h5 h2 (.of_nil (rightPowers_app h4.toG)) (h4.place rfl)).imp fun a r8 B8 ⟨g1, g2, g3, g4⟩ => ?_
          exact ⟨_, _, _, ht5, .inr ⟨g1, .opr (.app h4) g2, g3, (hb.trans (hb5.trans g4)).mono (by omega)⟩⟩
    · intro p pre src s q r B hs hpre hready hspre
      unfold opLoop
      refine .peek hs (fun t s1 r1 ts ht h1 hb => ?_) (fun _ => by frame)
      have hrt := hready _ _ _ ht
      split
      · rename_i lbp rbp hbp
        rw [getBP_powers] at hbp
        split
        · rename_i hlt
          refine .pure h1 ⟨hpre, .stop, fun f v q hf => ?_, hb⟩
          obtain ⟨rfl, -, -⟩ := ht.eq hf
          refine ⟨?_, ?_, fun l2 r2 h2 => ?_⟩
          · intro h; rw [h] at hbp; cases hbp
          · intro h; rw [h] at hbp; cases hbp
          · rw [hbp] at h2; cases h2
            exact ⟨hlt, hrt.2 _ _ hbp⟩
        · rename_i hlt
          refine .whenDirty h1 (fun s u s1 e => emit_dirty rfl e) (fun s2 hd h2 => ?_) (fun _ => by frame)
          refine .consume h2 ht (fun s3 h3 _ _ => ?_) (fun _ => by frame)
          quiet
          rename_i h4
          refine .call (ih1 h4) (fun _ => by frame) fun e s5 r5 B5 h5 ⟨k5, v5, q5, ht5, he⟩ => ?_
          split
          · quiet
            exact .dirty rfl (fun _ => by frame)
          · rename_i hn
            rcases he with ⟨rfl, -⟩ | ⟨-, hg, hf, hb5⟩
            · exact absurd rfl hn
            quiet
            rename_i h6
            have hsp : Spans src (⟨pre.lCur, e.rCur⟩ : CRange) q r5 := ⟨hspre.1, (hg.place rfl).2⟩
            refine (ih2 (q := q) h6 rfl (hf.ready ?_) (by exact hsp)).imp fun a r8 B8 ⟨g1, g2, g3, g4⟩ => ?_
            · show (powers t.kind).elim 0 (·.2) :: _ = _
              rw [hbp]; rfl
            · refine ⟨g1, .bin ht hbp (by omega) (hrt.2 _ _ hbp) hg hsp g2, g3, ?_⟩
              exact (hb.trans ((BufN.cons _ _).trans (hb5.trans g4))).mono (by omega)
      · rename_i hbp
        rw [getBP_powers] at hbp
        split
        · rename_i hk
          refine .consume h1 ht (fun s3 h3 _ _ => ?_) (fun _ => by frame)
          quiet
          rename_i h4
          refine .call (parseAttrPath_sound hR k h4) (fun _ => by frame) fun e s5 r5 B5 h5 he => ?_
          refine .lastR h5 fun c s6 hcc h6 => .fresh h6 fun i s7 h6 => ?_
          rw [hk] at ht
          have hr0 := hrt.1 hk
          rcases he with ⟨rfl, rfl, hb5, k6, v6, q6, ht6, hk6⟩ | ⟨⟨hp, ns, ds, rfl, hg, hspp⟩, hb5⟩
          · refine (ih2 (q := q) h6 rfl (.of_nil rfl) (by exact ⟨hspre.1, hcc⟩)).imp fun a r8 B8 ⟨g1, g2, g3, g4⟩ => ?_
            refine ⟨g1, .hasNone ht hr0 (fun k v q hq => ?_) (by exact ⟨hspre.1, hcc⟩) g2, g3, (hb.trans ((BufN.cons _ _).trans (hb5.trans g4))).mono (by omega)⟩
            obtain ⟨rfl, -, -⟩ := ht6.eq hq
            refine ⟨?_, ?_, ?_, ?_⟩ <;> (rintro rfl; cases hk6)
          · refine (ih2 (q := q) h6 rfl (.of_nil rfl) (by exact ⟨hspre.1, hcc⟩)).imp fun a r8 B8 ⟨g1, g2, g3, g4⟩ => ?_
            exact ⟨g1, .has ht hr0 hg hspp (by exact ⟨hspre.1, hcc⟩) g2, g3, (hb.trans ((BufN.cons _ _).trans (hb5.trans g4))).mono (by omega)⟩
        · split
          · exact .dirty rfl (fun _ => by frame)
          · rename_i hk1 hk2
            refine .pure h1 ⟨hpre, .stop, fun f v q hf => ?_, hb⟩
            obtain ⟨rfl, -, -⟩ := ht.eq hf
            refine ⟨hk1, hk2, fun l2 r2 h2 => ?_⟩
            rw [hbp] at h2; cases h2

end

end Verif.Nixf.Syntax
