import Verif.Props.Fixes
/-
C83: bindings in the place of bindings.
-/
namespace Verif.Props
open Verif.Nixf Verif.Nixf.Syntax Lexical Strings

/-- The bindings that are written in a set or in a `let`. -/
def ownBindings : Node → List Node
  | .exprAttrs _ (.binds _ bs) _ _ _ => bs
  | .exprLet _ _ _ _ (.exprAttrs _ (.binds _ bs) _ _ _) => bs
  | .exprLegacyLet _ _ (.exprAttrs _ (.binds _ bs) _ _ _) => bs
  | _ => []

/-- The same set or `let` with other bindings. -/
def withBindings : Syn → List Syn → Syn
  | .set r _, bs => .set r bs
  | .let_ _ e, bs => .let_ bs e
  | .legacyLet _, bs => .legacyLet bs
  | t, _ => t

theorem binds_split {src : Option Bytes} : ∀ {l mid : List Node} {r r' : Bytes}, GN src .binds r (l ++ mid) r' →
    ∃ rm, GN src .binds r l rm ∧ GN src .binds rm mid r'
  | [], _, r, _, h => ⟨r, .noBind, h⟩
  | b :: l, mid, r, r', h => by
    rw [List.cons_append] at h
    cases h with
    | binding g1 t1 g2 t2 s1 s2 g =>
      obtain ⟨rm, h1, h2⟩ := binds_split g
      exact ⟨rm, .binding g1 t1 g2 t2 s1 s2 h1, h2⟩
    | inherit t1 g1 t2 s g =>
      obtain ⟨rm, h1, h2⟩ := binds_split g
      exact ⟨rm, .inherit t1 g1 t2 s h1, h2⟩
    | inheritFrom t1 t2 g1 t3 g2 t4 he s g =>
      obtain ⟨rm, h1, h2⟩ := binds_split g
      exact ⟨rm, .inheritFrom t1 t2 g1 t3 g2 t4 he s h1, h2⟩

theorem binds_place {src : Option Bytes} {b : Node} {mid : List Node} {r r' : Bytes} (h : GN src .binds r (b :: mid) r') :
    Spans src ⟨b.range.l, (mid.getLast?.getD b).range.r⟩ r r' := by
  obtain ⟨rm, h1, h2⟩ := binds_split (l := [b]) h
  have p1 := h1.placeBind
  rcases List.eq_nil_or_concat mid with rfl | ⟨m, c, rfl⟩
  · cases h2
    exact p1
  · rw [List.concat_eq_append] at h2 ⊢
    obtain ⟨rn, -, h3⟩ := binds_split h2
    have p2 := h3.placeBind
    rw [List.getLast?_concat]
    exact ⟨p1.1, p2.2⟩

theorem G.after_binds {w rest : Bytes} {ts : List Syn} (h : G .binds w ts []) (ho : oddL ts = false) (hr : Edge [] rest w) : G .binds (w ++ rest) ts rest := by
  rw [← List.append_nil w] at h
  exact h.alone ho (by simp) (by simp) hr

/-- Bindings, with others in the place of some of them. -/
theorem binds_fill {src : Option Bytes} {P y : Bytes} {l mid rest : List Node} {b : Node} {r1 rm rm2 r2 r' v : Bytes} {k : TK} {ts : List Syn}
    (g1 : GN src .binds r1 l rm) (gm : GN src .binds rm (b :: mid) rm2) (g3 : GN src .binds rm2 rest r2) (t : Tok r2 k v r')
    (hy : Edge (skip rm) y P) (hr : r1 <:+ P ++ skip rm) (ho : oddL (synL l) = false) (hw : G .binds y ts rm2) :
    ∃ r2', G .binds (sw (skip rm) y r1) (synL l ++ ts ++ synL rest) r2' ∧ Tok r2' k v r' := by
  obtain ⟨k0, v0, r0, t0, hk0⟩ := G.first_binds gm.toG
  obtain ⟨-, p, hp, hl⟩ := t0.leads hk0 y
  have s1 : G .binds (sw (skip rm) y r1) (synL l) (p ++ y) := by
    have := G.swap hy g1.toG (skip_suf rm) hr ho (fun _ h => nomatch h) (fun h => nomatch h)
    have e : sw (skip rm) y rm = p ++ y := by
      generalize skip rm = x at hp
      rw [hp]
      exact sw_app _ _ _
    rw [← e]; exact this
  have s2 : G .binds y (ts ++ synL rest) r2 := hw.binds_append rfl g3.toG
  rw [List.append_assoc]
  cases hts : ts ++ synL rest with
  | nil =>
    rw [hts] at s2
    cases s2
    rw [List.append_nil]
    exact ⟨_, s1, hl.tok t⟩
  | cons a as =>
    rw [hts] at s2
    exact ⟨_, s1.binds_append rfl (G.lead_binds hl s2), t⟩

/-- The range from the first to the last of some bindings. -/
def spanOf (b : Node) (mid : List Node) : CRange := ⟨b.range.l, (mid.getLast?.getD b).range.r⟩

/-- What the places of some bindings of a set are. -/
theorem binds_at {src P r0 r1 rm rm2 : Bytes} {l mid : List Node} {b : Node} (hP : src = P ++ skip r0) (hs : r1 <:+ skip r0)
    (g1 : GN (some src) .binds r1 l rm) (gm : GN (some src) .binds rm (b :: mid) rm2) :
    ∃ c, skip r0 = c ++ skip rm ∧ src.take b.lCur.offset = P ++ c ∧ src.drop b.lCur.offset = skip rm ∧
      src.drop (spanOf b mid).r.offset = rm2 := by
  obtain ⟨k0, v0, r', t0, hk0⟩ := G.first_binds gm.toG
  have h0 := (t0.leads hk0 []).1
  obtain ⟨c, hc⟩ : skip rm <:+ skip r0 := (skip_suf rm).trans (g1.suf.trans hs)
  have hu := G.suf (G.unlead_binds gm.toG)
  obtain ⟨e1, e2, e3, -, -⟩ := place_of (binds_place gm) (P := P ++ c) (by rw [List.append_assoc, hc]; exact hP) h0 hu
  exact ⟨c, hc.symm, e1, e2, e3⟩

/-- If consecutive bindings of a set or of a `let` are replaced by a text that consists of bindings (of any number of them), then the new document has
no syntax errors either, and is the old one where this set or `let` has the new bindings instead of these. -/
theorem C83_bindings {src : Bytes} {root m b : Node} {s : PState} {l mid rest : List Node} {w : Bytes} {ts : List Syn} (h : parse src = some (root, s))
    (hc : NoErrors s) (ho : odd (syn root) = false) (hp : Part root m) (hm : ownBindings m = l ++ (b :: mid) ++ rest) (hw : G .binds w ts [])
    (hwo : oddL ts = false) (hf : Fitting src (spanOf b mid) w) :
    ∃ t2, ReadAs (spliced src (spanOf b mid) w) t2 ∧ Swap (syn m) (withBindings (syn m) (synL l ++ ts ++ synL rest)) (syn root) t2 := by
  have hx : m.isExpr = true := by
    unfold ownBindings at hm
    split at hm <;> first | rfl | simp at hm
  obtain ⟨K, r0, gn, hK, e0, -, -, -, -, hodd, H⟩ := document_at h hc hp (by simp [placed, hx])
  have hE := gn.isExpr_of hK hx
  have hodd := hodd ho
  have hP : src = src.take m.lCur.offset ++ skip r0 := by rw [← e0, List.take_append_drop]
  have gw := fun (z : Bytes) (e : src.drop (spanOf b mid).r.offset = z) => G.after_binds hw hwo (e ▸ hf.2)
  -- the rest of the argument, for every kind of `m`
  have last : ∀ {r1 rm rm2 : Bytes}, r1 <:+ skip r0 → GN (some src) .binds r1 l rm → GN (some src) .binds rm (b :: mid) rm2 →
      (∀ c, skip r0 = c ++ skip rm → Edge (skip rm) (w ++ rm2) (src.take m.lCur.offset ++ c) → G .binds (w ++ rm2) ts rm2 →
        G K.fill (sw (skip rm) (w ++ rm2) (skip r0)) [withBindings (syn m) (synL l ++ ts ++ synL rest)] (src.drop m.rCur.offset)) →
      (K = .select ∨ K = .simple → (∃ h as, Part root (.exprCall h m as)) → callable (syn m) = true →
        callable (withBindings (syn m) (synL l ++ ts ++ synL rest)) = true) →
      ∃ t2, ReadAs (spliced src (spanOf b mid) w) t2 ∧ Swap (syn m) (withBindings (syn m) (synL l ++ ts ++ synL rest)) (syn root) t2 := by
    intro r1 rm rm2 hs g1 gm hg hcall
    obtain ⟨c, c1, c2, c3, c4⟩ := binds_at hP hs g1 gm
    have hy : Edge (skip rm) (w ++ rm2) (src.take m.lCur.offset ++ c) := by
      have := hf.1
      rw [c4] at this
      have c3' : src.drop (spanOf b mid).l.offset = skip rm := c3
      have c2' : src.take (spanOf b mid).l.offset = src.take m.lCur.offset ++ c := c2
      rwa [c3', c2'] at this
    have := hg c c1 hy (gw _ c4)
    rw [c1, sw_app] at this
    obtain ⟨t2, a1, a2⟩ := H c (skip rm) (w ++ rm2) _ ho (by rw [e0, c1]) hy this hcall
    refine ⟨t2, readAs_of ?_, a2⟩
    have : spliced src (spanOf b mid) w = src.take m.lCur.offset ++ (c ++ (w ++ rm2)) := by
      show src.take b.lCur.offset ++ w ++ src.drop (spanOf b mid).r.offset = _
      rw [c2, c4]; simp
    rw [this]; exact a1
  have eqs : ∀ {rm c : Bytes}, skip r0 = c ++ skip rm → skip r0 <:+ src.take m.lCur.offset ++ c ++ skip rm := by
    intro rm c e
    rw [List.append_assoc, ← e]
    exact List.suffix_append _ _
  unfold ownBindings at hm
  split at hm
  · next hd hbs bs rc st dy _ =>
    subst hm
    have g := (gn.ofSimple rfl rfl).1 hE
    cases g with
    | @set _ v1 r1 bs r2 v2 _ _ _ _ _ t1 g1 t2 hb sp =>
      rcases hb with ⟨hb, -⟩ | ⟨_, hb⟩
      · cases hb
      · cases hb
        have t1 := t1.skip
        obtain ⟨rm2, g12, g3⟩ := binds_split g1
        obtain ⟨rm, g1, g2⟩ := binds_split g12
        have ho1 : oddL (synL l) = false := by
          have : odd (.set false (synL (l ++ (b :: mid) ++ rest))) = false := hodd
          simp [odd, oddL_append, synL_eq] at this
          simp [synL_eq, this]
        refine last t1.suf g1 g2 ?_ (fun _ _ hx => by cases hx)
        intro c c1 hy gy
        obtain ⟨r2', g4, t4⟩ := binds_fill g1 g2 g3 t2 hy (t1.suf.trans (eqs c1)) ho1 gy
        exact G.simple_fill hE (.set (swT hy t1 ((skip_suf _).trans g1.suf) (eqs c1) (by decide) (by decide)) g4 t4)
    | @recSet _ v0 rr v1 r1 bs r2 v2 _ _ _ _ _ _ t0 t1 g1 t2 hb hrc sp spr =>
      rcases hb with ⟨hb, -⟩ | ⟨_, hb⟩
      · cases hb
      · cases hb
        have t0 := t0.skip
        have hs : syn (.exprAttrs hd (.binds hbs (l ++ (b :: mid) ++ rest)) rc st dy) = .set true (synL (l ++ (b :: mid) ++ rest)) := by
          rw [BindsOf.set (.inr ⟨_, rfl⟩), hrc]
        obtain ⟨rm2, g12, g3⟩ := binds_split g1
        obtain ⟨rm, g1, g2⟩ := binds_split g12
        have ho1 : oddL (synL l) = false := by
          rw [hs] at hodd
          simp [odd, oddL_append, synL_eq] at hodd
          simp [synL_eq, hodd]
        refine last (t1.suf.trans t0.suf) g1 g2 ?_ (fun _ _ hx => by rw [hs] at hx; cases hx)
        intro c c1 hy gy
        obtain ⟨r2', g4, t4⟩ := binds_fill g1 g2 g3 t2 hy ((t1.suf.trans t0.suf).trans (eqs c1)) ho1 gy
        rw [hs]
        exact G.simple_fill hE (.recSet (swT hy t0 ((skip_suf _).trans (g1.suf.trans t1.suf)) (eqs c1) (by decide) (by decide))
          (swT hy t1 ((skip_suf _).trans g1.suf) (t0.suf.trans (eqs c1)) (by decide) (by decide)) g4 t4)
  · next hd kl ki e h1 h2 bs rc st dy _ =>
    subst hm
    have : K = .expr := by
      by_contra hne
      have := gn.closed.1 hE hne _ rfl
      cases this
    subst this
    cases gn with
    | op g =>
      have := g.closed.1 rfl (by simp) _ rfl
      cases this
    | @let_ _ v1 r1 bs r2 v2 r3 _ _ _ _ _ _ t1 g1 t2 ge hl sp =>
      rcases hl with ⟨hl, -⟩ | ⟨_, _, _, _, _, hl⟩
      · cases hl
      · cases hl
        have t1 := t1.skip
        obtain ⟨rm2, g12, g3⟩ := binds_split g1
        obtain ⟨rm, g1, g2⟩ := binds_split g12
        have ho1 : oddL (synL l) = false := by
          have : odd (.let_ (synL (l ++ (b :: mid) ++ rest)) (syn e)) = false := hodd
          simp [odd, oddL_append, synL_eq] at this
          simp [synL_eq, this]
        refine last t1.suf g1 g2 ?_ (fun hk => by rcases hk with hk | hk <;> cases hk)
        intro c c1 hy gy
        obtain ⟨r2', g4, t4⟩ := binds_fill g1 g2 g3 t2 hy (t1.suf.trans (eqs c1)) ho1 gy
        exact .let_ (swT hy t1 ((skip_suf _).trans g1.suf) (eqs c1) (by decide) (by decide)) g4 t4 ge.toG
  · next hd kl h1 h2 bs rc st dy _ =>
    subst hm
    have : K = .expr := by
      by_contra hne
      have := gn.closed.1 hE hne _ rfl
      cases this
    subst this
    cases gn with
    | op g =>
      have := g.closed.1 rfl (by simp) _ rfl
      cases this
    | @legacyLet _ v1 r1 v2 r2 bs r3 v3 _ _ _ _ _ _ _ _ t0 t1 g1 t2 hb sp =>
      rcases hb with ⟨hb, -⟩ | ⟨_, hb⟩
      · cases hb
      · cases hb
        have t0 := t0.skip
        obtain ⟨rm2, g12, g3⟩ := binds_split g1
        obtain ⟨rm, g1, g2⟩ := binds_split g12
        have ho1 : oddL (synL l) = false := by
          have : odd (.legacyLet (synL (l ++ (b :: mid) ++ rest))) = false := hodd
          simp [odd, oddL_append, synL_eq] at this
          simp [synL_eq, this]
        refine last (t1.suf.trans t0.suf) g1 g2 ?_ (fun hk => by rcases hk with hk | hk <;> cases hk)
        intro c c1 hy gy
        obtain ⟨r2', g4, t4⟩ := binds_fill g1 g2 g3 t2 hy ((t1.suf.trans t0.suf).trans (eqs c1)) ho1 gy
        exact .legacyLet (swT hy t0 ((skip_suf _).trans (g1.suf.trans t1.suf)) (eqs c1) (by decide) (by decide))
          (swT hy t1 ((skip_suf _).trans g1.suf) (t0.suf.trans (eqs c1)) (by decide) (by decide)) g4 t4
  · simp at hm

end Verif.Props
