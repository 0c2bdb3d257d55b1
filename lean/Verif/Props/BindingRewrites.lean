import Verif.Props.Bindings
import Verif.Props.PackText
/-
C37, C82: rewrites of several bindings, and removing a binding.
-/
namespace Verif.Props
open Verif.Nixf Verif.Nixf.Syntax Node

variable {src : Bytes} {root : Node} {s : PState}

theorem own_inner {m b : Node} (h : b ∈ ownBindings m) : b ∈ inner m := by
  unfold ownBindings at h
  split at h
  · exact h
  · exact List.mem_append_left _ h
  · exact h
  · cases h

theorem own_part {m b : Node} (hp : Part root m) (h : b ∈ ownBindings m) : Part root b := Part.trans hp (.down (own_inner h) .here)

theorem spliced_range {r r' : CRange} (hl : r.l.offset = r'.l.offset) (hr : r.r.offset = r'.r.offset) (w : Bytes) : spliced src r w = spliced src r' w := by
  unfold spliced; rw [hl, hr]

theorem fitting_range {r r' : CRange} (hl : r.l.offset = r'.l.offset) (hr : r.r.offset = r'.r.offset) {w : Bytes} (h : Fitting src r w) : Fitting src r' w := by
  unfold Fitting at *; rwa [← hl, ← hr]

/-! ### Removing a binding -/

/-- The fix of an unused binding of a `let` removes one of its bindings, and nothing else changes. -/
theorem C82_unused {m : Node} {r : CRange} {f : Fix} (h : parse src = some (root, s)) (hc : NoErrors s) (ho : odd (syn root) = false) (hp : Part root m)
    (hf : f ∈ unusedLetFix r m) (hfit : ∀ e ∈ f.edits, Edge (src.drop e.oldRange.l.offset) (src.drop e.oldRange.r.offset) (src.take e.oldRange.l.offset)) :
    ∃ l b rest t2, ownBindings m = l ++ b :: rest ∧ (∃ h hp n ns ds q v, b = .binding h (.attrPath hp (n :: ns) ds) q v ∧ n.range = r) ∧
      ReadAs (afterFix src f) t2 ∧ Swap (syn m) (withBindings (syn m) (synL l ++ synL rest)) (syn root) t2 := by
  unfold unusedLetFix at hf
  split at hf
  case h_2 => cases hf
  rename_i hd kl ki e attrs
  split at hf
  case h_2 => cases hf
  rename_i b hb
  simp only [List.mem_singleton] at hf
  subst hf
  have h1 := List.mem_of_find?_eq_some hb
  have h2 := List.find?_some hb
  have hown : ownBindings (.exprLet hd kl ki e attrs) = bindings attrs := by
    cases attrs with
    | exprAttrs h' b' rc st dy => cases b' <;> rfl
    | _ => rfl
  obtain ⟨l, rest, hl⟩ := List.mem_iff_append.mp h1
  have hm : ownBindings (.exprLet hd kl ki e attrs) = l ++ (b :: []) ++ rest := by rw [hown, hl]; simp
  obtain ⟨t2, a1, a2⟩ := C83_bindings (w := []) (ts := []) h hc ho hp hm .noBind rfl
    ⟨hfit ⟨b.range, []⟩ (by simp), .inr fun c hc => by cases hc⟩
  refine ⟨l, b, rest, t2, by rw [hown, hl], ?_, a1, by simpa using a2⟩
  split at h2
  · next hh hp' n ns ds q v =>
    simp only [Bool.and_eq_true, beq_iff_eq] at h2
    exact ⟨_, _, _, _, _, _, _, rfl, by cases r; rw [CRange.mk.injEq]; exact ⟨h2.1.2, h2.2⟩⟩
  · cases h2

/-- The text of a binding, in pieces. -/
theorem binding_pieces {hd : Hd} {p eq v : Node} (h : parse src = some (root, s)) (hc : NoErrors s) (ho : odd (syn root) = false)
    (hp : Part root (.binding hd p eq v)) :
    ∃ hpd ns ds, p = .attrPath hpd ns ds ∧ ns ≠ [] ∧ Part root v ∧ v.isExpr = true ∧ odd (syn v) = false ∧ oddL (synL ns) = false ∧
      (∃ R, ∀ y, Edge R y (p.src src) → G .path (p.src src ++ y) (synL ns) y) ∧
      ∀ a b bs, ns = a :: b :: bs → b.lCur.offset ≤ p.rCur.offset ∧ ∀ y, G .path (restPath src p b ++ 32 :: y) (syn b :: synL bs) (32 :: y) := by
  obtain ⟨K, r0, gn, hK, e0, -, -, -, -, go, -⟩ := document_at h hc hp rfl
  have := gn.isBind_of hK rfl
  subst this
  have q0 := gn.skip_ne hK
  have e0 : src.drop hd.range.l.offset = skip r0 := e0
  have go := go ho
  generalize hR : src.drop (Node.binding hd p eq v).rCur.offset = R at gn
  cases gn with
  | @binding _ ns _ _ _ _ _ _ _ _ _ _ hpd ds _ gp te gv ts sp sb gr =>
  have hom : odd (.binding (synL ns) (syn v)) = false := go
  simp only [odd, Bool.or_eq_false_iff] at hom
  have g2 : G .path _ (synL ns) _ := gp.toG.unlead rfl
  obtain ⟨-, -, -, -, ea⟩ := place_of sp (by rw [← e0]; exact (List.take_append_drop _ _).symm) q0 g2.suf
  have ea : skip r0 = Node.src (.attrPath hpd ns ds) src ++ _ := ea
  rw [ea] at g2
  refine ⟨hpd, ns, ds, rfl, ?_, Part.trans hp (.down (by simp [inner]) .here), gv.kind.1 rfl v (by simp), hom.2, hom.1,
    ⟨_, fun y hy => g2.alone hom.1 (by simp) (by simp) hy⟩, ?_⟩
  · rintro rfl; cases gp
  · rintro a b bs rfl
    cases gp with
    | path ga gd =>
    cases gd with
    | dot td gb gd =>
    have gb' : G .path _ (syn b :: synL bs) _ := .path gb.toG gd.toG
    have gb2 := gb'.unlead rfl
    have hb0 := gb.skip_ne (.inl rfl)
    have hsb := gb.placeName
    obtain ⟨-, -, -, le, eb⟩ := place_of (x := ⟨b.lCur, hpd.range.r⟩) (P := src.take b.lCur.offset) ⟨hsb.1, sp.2⟩
      (by rw [← hsb.1 src rfl]; exact (List.take_append_drop _ _).symm) hb0 gb2.suf
    have eb : _ = restPath src (.attrPath hpd (a :: b :: bs) ds) b ++ _ := eb
    rw [eb] at gb2
    refine ⟨le, fun y => gb2.alone ?_ (by simp) (by simp) (Edge.stop fun d hd => by simp at hd; subst hd; exact ⟨by decide, fun h => absurd h (by decide)⟩)⟩
    have : oddL (syn a :: syn b :: synL bs) = false := hom.1
    rw [oddL, Bool.or_eq_false_iff] at this
    exact this.2

theorem value_val {v : Node} (h : parse src = some (root, s)) (hc : NoErrors s) (ho : odd (syn root) = false) (hp : Part root v) (hx : v.isExpr = true) :
    Val (valueSrc src v) (syn v) := by
  have hvs : valueSrc src v = v.src src := by
    unfold valueSrc
    have : v.isNull = false := by cases v <;> first | rfl | cases hx
    rw [this]; rfl
  have e1 : ∀ y, Edge (src.drop v.rCur.offset) (59 :: y) (v.src src) := fun y =>
    Edge.stop fun d hd => by simp at hd; subst hd; exact ⟨by decide, fun h => absurd h (by decide)⟩
  rw [hvs]
  exact ⟨(expr_onto h hc ho hp hx (e1 [])).2, fun y => (expr_onto h hc ho hp hx (e1 y)).1⟩

/-- A text that is one binding, whatever comes after it. -/
def Bound (w : Bytes) (t : Syn) : Prop := odd t = false ∧ ∀ y l r', G .binds y l r' → G .binds (w ++ y) (t :: l) r'

/-- Texts of bindings with spaces in between. -/
theorem spaced_bound {R : Node → Syn → Prop} {f : Node → Bytes} {bs : List Node} (h : ∀ b ∈ bs, ∃ t, R b t ∧ Bound (f b) t) :
    ∃ ts, List.Forall₂ R bs ts ∧ oddL ts = false ∧ ∀ y, G .binds (spaced (bs.map f) ++ y) ts y := by
  induction bs with
  | nil => exact ⟨[], .nil, rfl, fun y => .noBind⟩
  | cons a bs ih =>
    obtain ⟨ts, h1, h2, h3⟩ := ih fun b hb => h b (.tail _ hb)
    obtain ⟨t, g1, g2, g3⟩ := h a (.head _)
    refine ⟨t :: ts, .cons g1 h1, by simp [oddL, g2, h2], fun y => ?_⟩
    cases bs with
    | nil => cases h1; exact g3 _ _ _ .noBind
    | cons b bs =>
      cases h1
      show G .binds ((f a ++ b!" " ++ spaced ((b :: bs).map f)) ++ _) _ _
      rw [List.append_assoc, List.append_assoc]
      exact g3 _ _ _ (G.lead_binds (one_space _) (h3 y))

/-! ### Flattening -/

/-- The names of a binding, after others. -/
def Flat (ns : List Syn) (b : Node) (t : Syn) : Prop := ∃ ms v, syn b = .binding ms v ∧ t = .binding (ns ++ ms) v

/-- Written as names with dots in between. -/
def Dotted (src : Bytes) (p : Node) : Prop := ∃ k ks, p.src src = quoteNixAttrKey k ++ dotted ks

/-- Flattening `a = { b = v; c.d = w; };` gives `a.b = v; a.c.d = w;`, and nothing else changes. The paths are those written as names with
dots in between. -/
theorem C37_flatten_all {m : Node} {l rest : List Node} {hd : Hd} {p eq v : Node} {act : Action} (h : parse src = some (root, s)) (hc : NoErrors s)
    (ho : odd (syn root) = false) (hm : Part root m) (hb : ownBindings m = l ++ .binding hd p eq v :: rest)
    (ha : act ∈ flattenBinding src (.binding hd p eq v)) (hp : Dotted src p) (hp' : ∀ b ∈ ownBindings v, ∀ hd' p' eq' v', b = .binding hd' p' eq' v' → Dotted src p')
    (hfit : Fitting src act.range act.newText) :
    ∃ ns ts t2, syn (.binding hd p eq v) = .binding ns (.set false (synL (ownBindings v))) ∧ List.Forall₂ (Flat ns) (ownBindings v) ts ∧
      ReadAs (spliced src act.range act.newText) t2 ∧ Swap (syn m) (withBindings (syn m) (synL l ++ ts ++ synL rest)) (syn root) t2 := by
  have hpb : Part root (.binding hd p eq v) := own_part hm (by rw [hb]; simp)
  obtain ⟨hpd, ns, ds, rfl, -, hpv, hvx, -, hon, ⟨R, hg⟩, -⟩ := binding_pieces h hc ho hpb
  have g1 := hg [] (Edge.stop fun d hd => by cases hd)
  obtain ⟨k, ks, hk⟩ := hp
  rw [List.append_nil, hk] at g1
  obtain ⟨-, c1⟩ := path_continued g1
  have q1 : ∀ y, Lexical.NotStarting Lexical.identChars (32 :: y) := by intro y x hx; simp at hx; subst hx; decide
  have q2 : ∀ y, Calm (32 :: y) := fun y => Calm.at (by decide +kernel)
  simp only [flattenBinding] at ha
  split at ha
  · cases ha
  rename_i bs hne
  split at ha
  case isFalse => cases ha
  simp only [List.mem_singleton] at ha
  subst ha
  have hfl : flattenable v ≠ [] := hne
  obtain ⟨hv1, hv2⟩ : syn v = .set false (synL (ownBindings v)) ∧ flattenable v = ownBindings v ∧ ∀ b ∈ ownBindings v, plainStatic b = true := by
    unfold flattenable at hfl ⊢
    split at hfl
    · next ha hbs bs rc st dy =>
      split at hfl
      · next hc0 =>
        have hcond := hc0
        simp only [Bool.and_eq_true, List.all_eq_true] at hcond
        have : rc = .null := by cases rc <;> first | rfl | (cases hcond.1; done)
        subst this
        exact ⟨rfl, if_pos hc0, hcond.2⟩
      · exact absurd rfl hfl
    · exact absurd rfl hfl
  obtain ⟨ts, r1, r2, r3⟩ := spaced_bound (R := Flat (synL ns)) (f := flattenOne src (Node.src (.attrPath hpd ns ds) src)) (bs := ownBindings v) (by
    intro b hb
    have hb2 := hv2.2 b hb
    have hpb := own_part hpv hb
    cases b <;> try (cases hb2; done)
    rename_i hd' p' eq' v'
    obtain ⟨hpd', ns', ds', rfl, -, hpv', hvx', hov', hon', ⟨R', hg'⟩, -⟩ := binding_pieces h hc ho hpb
    have g2 := hg' [] (Edge.stop fun d hd => by cases hd)
    obtain ⟨k', ks', hk'⟩ := hp' _ hb _ _ _ _ rfl
    rw [List.append_nil, hk'] at g2
    obtain ⟨-, c2⟩ := path_continued g2
    have hval := value_val h hc ho hpv' hvx'
    refine ⟨.binding (synL ns ++ synL ns') (syn v'), ⟨synL ns', syn v', rfl, rfl⟩, by simp [odd, oddL_append, hon, hon', hov'], fun y l r' hy => ?_⟩
    have e : flattenOne src (Node.src (.attrPath hpd ns ds) src) (.binding hd' (.attrPath hpd' ns' ds') eq' v') ++ y =
        quoteNixAttrKey k ++ dotted ks ++ (dotted (k' :: ks') ++ (32 :: 61 :: ([32] ++ (valueSrc src v' ++ 59 :: y)))) := by
      simp [flattenOne, hk, hk', dotted]
    rw [e]
    exact .binding (G.path_append (c1 _ (dotted_start (q1 _)) (dotted_calm (q2 _))).1 (c2 _ (q1 _) (q2 _)).2) (.ws (g := [32]) (by decide) (tok_eq _))
      (G.lead (one_space _) (hval.2 y) rfl) (tok_semi _) hy)
  have g := r3 []
  rw [List.append_nil] at g
  rw [hv2.1] at hfit ⊢
  obtain ⟨t2, a1, a2⟩ := C83_bindings (b := .binding hd (.attrPath hpd ns ds) eq v) (mid := []) (l := l) (rest := rest) h hc ho hm (by rw [hb]; simp) g r2 hfit
  exact ⟨synL ns, ts, t2, by rw [← hv1]; rfl, r1, a1, a2⟩

/-! ### Packing all bindings of a name -/

/-- Bindings come one after the other. -/
theorem binds_ordered {r r' : Bytes} {bs : List Node} (g : GN (some src) .binds r bs r') :
    bs.Pairwise fun x y => x.range.r.offset ≤ y.range.l.offset := by
  induction bs generalizing r with
  | nil => exact .nil
  | cons x bs ih =>
    obtain ⟨rx, g1, g2⟩ := binds_split (l := [x]) g
    refine .cons (fun y hy => ?_) (ih g2)
    obtain ⟨l, l', rfl⟩ := List.mem_iff_append.mp hy
    obtain ⟨ry, g3, g4⟩ := binds_split g2
    obtain ⟨rz, g5, -⟩ := binds_split (l := [y]) g4
    have p1 : src.drop x.range.r.offset = rx := g1.placeBind.2 src rfl
    have p2 : src.drop y.range.l.offset = skip ry := g5.placeBind.1 src rfl
    have n1 := List.length_pos_iff.mpr (g5.skip_ne (.inr rfl))
    have n2 := ((skip_suf ry).trans g3.suf).length_le
    rw [← p2] at n1 n2
    rw [← p1] at n2
    simp only [List.length_drop] at n1 n2
    omega

theorem siblings_l {first : Bytes} {lo : Nat} {bs : List Node} : ∀ {r : CRange}, (∀ x ∈ bs, startsWith first x = true → lo ≤ x.range.l.offset) → lo ≤ r.l.offset →
    ((∃ x ∈ bs, startsWith first x = true ∧ x.range.l.offset = lo) ∨ r.l.offset = lo) → (siblingsRange first r bs).l.offset = lo := by
  induction bs with
  | nil =>
    intro r _ _ h
    rcases h with ⟨x, hx, -⟩ | h
    · cases hx
    · exact h
  | cons b bs ih =>
    intro r h1 h2 h3
    unfold siblingsRange
    have hb := h1 b (.head _)
    refine ih (fun x hx => h1 x (.tail _ hx)) ?_ ?_
    · split
      · next hs => dsimp only; split <;> first | exact hb hs | exact h2
      · exact h2
    · rcases h3 with ⟨x, hx, hs, he⟩ | h3
      · rcases List.mem_cons.mp hx with rfl | hx
        · right
          rw [if_pos hs]
          dsimp only
          split <;> omega
        · exact .inl ⟨x, hx, hs, he⟩
      · right
        split
        · next hs =>
          have := hb hs
          dsimp only
          split <;> omega
        · exact h3

theorem siblings_r {first : Bytes} {hi : Nat} {bs : List Node} : ∀ {r : CRange}, (∀ x ∈ bs, startsWith first x = true → x.range.r.offset ≤ hi) → r.r.offset ≤ hi →
    ((∃ x ∈ bs, startsWith first x = true ∧ x.range.r.offset = hi) ∨ r.r.offset = hi) → (siblingsRange first r bs).r.offset = hi := by
  induction bs with
  | nil =>
    intro r _ _ h
    rcases h with ⟨x, hx, -⟩ | h
    · cases hx
    · exact h
  | cons b bs ih =>
    intro r h1 h2 h3
    unfold siblingsRange
    have hb := h1 b (.head _)
    refine ih (fun x hx => h1 x (.tail _ hx)) ?_ ?_
    · split
      · next hs => dsimp only; split <;> first | exact hb hs | exact h2
      · exact h2
    · rcases h3 with ⟨x, hx, hs, he⟩ | h3
      · rcases List.mem_cons.mp hx with rfl | hx
        · right
          rw [if_pos hs]
          dsimp only
          split <;> omega
        · exact .inl ⟨x, hx, hs, he⟩
      · right
        split
        · next hs =>
          have := hb hs
          dsimp only
          split <;> omega
        · exact h3

/-- If the bindings of a name come one after the other, then their range is that from the first to the last of them. -/
theorem siblings_span {first : Bytes} {l rest mid : List Node} {c b : Node} {hb hs : Hd} {rc : Node} {st dy : List Node} (h : parse src = some (root, s)) (hc : NoErrors s)
    (hp : Part root (.exprAttrs hs (.binds hb (l ++ (c :: mid) ++ rest)) rc st dy))
    (h1 : ∀ x ∈ c :: mid, startsWith first x = true) (h2 : ∀ x ∈ l ++ rest, startsWith first x = false) (hm : b ∈ c :: mid) :
    (siblingsRange first b.range (l ++ (c :: mid) ++ rest)).l.offset = (spanOf c mid).l.offset ∧
      (siblingsRange first b.range (l ++ (c :: mid) ++ rest)).r.offset = (spanOf c mid).r.offset := by
  obtain ⟨K, r0, gn, hK, -⟩ := document_at h hc hp rfl
  have hord : (l ++ (c :: mid) ++ rest).Pairwise fun x y => x.range.r.offset ≤ y.range.l.offset := by
    have g := (gn.ofSimple rfl rfl).1 (gn.isExpr_of hK rfl)
    cases g with
    | set t1 g1 t2 hb sp =>
      rcases hb with ⟨hb, -⟩ | ⟨_, hb⟩
      · cases hb
      · cases hb; exact binds_ordered g1
    | recSet t0 t1 g1 t2 hb hrc sp spr =>
      rcases hb with ⟨hb, -⟩ | ⟨_, hb⟩
      · cases hb
      · cases hb; exact binds_ordered g1
  have hle : ∀ x ∈ c :: mid, x.range.l.offset ≤ x.range.r.offset := by
    intro x hx
    have hpx : Part root x := own_part hp (by simp only [ownBindings, List.mem_append]; exact .inl (.inr hx))
    have : isBind x = true := by
      have := h1 x hx
      cases x <;> first | rfl | cases this
    obtain ⟨-, -, -, -, -, -, le, -⟩ := document_at h hc hpx (by simp [placed, this])
    exact le
  have hmid : (c :: mid).Pairwise fun x y => x.range.r.offset ≤ y.range.l.offset := ((List.pairwise_append.mp hord).1 |> List.pairwise_append.mp).2.1
  have hin : ∀ x ∈ l ++ (c :: mid) ++ rest, startsWith first x = true → x ∈ c :: mid := by
    intro x hx hs
    simp only [List.mem_append] at hx
    rcases hx with (hx | hx) | hx
    · rw [h2 x (by simp [hx])] at hs; cases hs
    · exact hx
    · rw [h2 x (by simp [hx])] at hs; cases hs
  have lo : ∀ x ∈ c :: mid, c.range.l.offset ≤ x.range.l.offset := by
    intro x hx
    rcases List.mem_cons.mp hx with rfl | hx
    · exact Nat.le_refl _
    · exact Nat.le_trans (hle c (.head _)) ((List.pairwise_cons.mp hmid).1 x hx)
  have hlast : mid.getLast?.getD c ∈ c :: mid := by
    cases hg : mid.getLast? with
    | none => simp
    | some z => exact .tail _ (List.mem_of_getLast? hg)
  have hi : ∀ x ∈ c :: mid, x.range.r.offset ≤ (mid.getLast?.getD c).range.r.offset := by
    intro x hx
    rcases List.eq_nil_or_concat mid with rfl | ⟨m', z, rfl⟩
    · rw [List.mem_singleton] at hx; subst hx; exact Nat.le_refl _
    · rw [List.concat_eq_append] at *
      rw [List.getLast?_concat] at hlast ⊢
      rw [← List.cons_append] at hx hmid
      rcases List.mem_append.mp hx with hx | hx
      · exact Nat.le_trans ((List.pairwise_append.mp hmid).2.2 x hx z (by simp)) (hle z hlast)
      · rw [List.mem_singleton] at hx; subst hx; exact Nat.le_refl _
  have hc' : c ∈ l ++ (c :: mid) ++ rest := by simp
  refine ⟨siblings_l (fun x hx hs => lo x (hin x hx hs)) (lo b hm) (.inl ⟨c, hc', h1 c (.head _), rfl⟩),
    siblings_r (fun x hx hs => hi x (hin x hx hs)) (hi b hm) (.inl ⟨_, ?_, h1 _ hlast, rfl⟩)⟩
  simp only [List.mem_append]
  exact .inl (.inr hlast)

/-- What a binding is in the new set: the same without the first name, or, if there is only one name, with that name. -/
inductive Shallow (first : Bytes) : Node → Syn → Prop
  | rest {h hp : Hd} {a b : Node} {bs ds : List Node} {eq v : Node} : Shallow first (.binding h (.attrPath hp (a :: b :: bs) ds) eq v) (.binding (syn b :: synL bs) (syn v))
  | whole {h hp : Hd} {a : Node} {ds : List Node} {eq v : Node} {n : Syn} : NameIs n first →
      Shallow first (.binding h (.attrPath hp [a] ds) eq v) (.binding [n] (syn v))

theorem shallow_bound {first : Bytes} {b : Node} (h : parse src = some (root, s)) (hc : NoErrors s) (ho : odd (syn root) = false) (hp : Part root b)
    (hs : startsWith first b = true) : ∃ t, Shallow first b t ∧ Bound (shallowOne src first b) t := by
  cases b <;> try (cases hs; done)
  rename_i hd p eq v
  obtain ⟨hpd, ns, ds, rfl, hne, hpv, hvx, hov, hon, -, hrest⟩ := binding_pieces h hc ho hp
  have hval := value_val h hc ho hpv hvx
  rcases ns with _ | ⟨a, _ | ⟨b, bs⟩⟩
  · exact absurd rfl hne
  · obtain ⟨n, n1, n2, n3⟩ := bind_onto (k := first) hval
    exact ⟨_, .whole n1, n2, n3⟩
  · obtain ⟨le, g⟩ := hrest a b bs rfl
    have : oddL (syn a :: syn b :: synL bs) = false := hon
    rw [oddL, Bool.or_eq_false_iff] at this
    refine ⟨_, .rest, by simp [odd, this.2, hov], fun y l r' hy => ?_⟩
    have e : shallowOne src first (.binding hd (.attrPath hpd (a :: b :: bs) ds) eq v) ++ y =
        restPath src (.attrPath hpd (a :: b :: bs) ds) b ++ 32 :: 61 :: 32 :: (valueSrc src v ++ 59 :: y) := by
      simp only [shallowOne, pathNames]
      rw [if_pos le]
      simp
    rw [e]
    exact .binding (g _) (.ws (g := [32]) (by decide) (tok_eq _)) (G.lead (one_space _) (hval.2 y) rfl) (tok_semi _) hy

theorem packed_all {first : Bytes} {bs : List Node} {hb hs hd : Hd} {p eq v rc : Node} {st dy : List Node} {act : Action}
    (hsb : startsWith first (.binding hd p eq v) = true)
    (ha : act ∈ packBinding src (.binding hd p eq v) (.binds hb bs) (.exprAttrs hs (.binds hb bs) rc st dy)) :
    (act.title = b!"Pack all '" ++ first ++ b!"' bindings to nested set" → act = ⟨b!"Pack all '" ++ first ++ b!"' bindings to nested set",
      siblingsRange first hd.range bs, quoteNixAttrKey first ++ b!" = " ++ shallowText src first bs ++ b!";"⟩ ∧ rc = .null) ∧
    (act.title = b!"Recursively pack all '" ++ first ++ b!"' bindings to nested set" → ∃ nested, nestedOf first (.exprAttrs hs (.binds hb bs) rc st dy) = some nested ∧
      act = ⟨b!"Recursively pack all '" ++ first ++ b!"' bindings to nested set",
      siblingsRange first hd.range bs, quoteNixAttrKey first ++ b!" = " ++ nestedText src 101 (semaStatic nested) ++ b!";"⟩ ∧ rc = .null) := by
  have one : ∀ {a : Action}, a ∈ packOne src hd p v → a.title = b!"Pack dotted path to nested set" := by
    intro a ha
    simp only [packOne] at ha
    split at ha
    · cases ha
    · rw [List.mem_singleton] at ha; subst ha; rfl
  have hne : b!"Pack dotted path to nested set" ≠ b!"Pack all '" ++ first ++ b!"' bindings to nested set" := by
    intro h
    have := congrArg (fun l => l[5]?) h
    simp at this
  have hne' : b!"Pack dotted path to nested set" ≠ b!"Recursively pack all '" ++ first ++ b!"' bindings to nested set" := by
    intro h
    have := congrArg (fun l => l[0]?) h
    simp at this
  simp only [packBinding] at ha
  simp only [startsWith] at hsb
  split at ha
  case h_2 => cases ha
  rename_i a2 b2 bs2 hpn
  rw [hpn] at hsb
  simp only [beq_iff_eq] at hsb
  rw [hsb] at ha
  simp only at ha
  split at ha
  · cases ha
  rename_i hcond
  have hrc : rc = .null := by
    have : ¬ rc.isNull = false := fun h => hcond (.inr h)
    cases rc <;> first | rfl | exact absurd rfl this
  split at ha
  · cases ha
  split at ha
  · exact ⟨fun ht => absurd ((one ha).symm.trans ht) hne, fun ht => absurd ((one ha).symm.trans ht) hne'⟩
  split at ha
  · cases ha
  rename_i nested hn
  rcases List.mem_append.mp ha with ha | ha
  · exact ⟨fun ht => absurd ((one ha).symm.trans ht) hne, fun ht => absurd ((one ha).symm.trans ht) hne'⟩
  · simp only [List.mem_cons, List.not_mem_nil, or_false] at ha
    rcases ha with rfl | rfl
    · exact ⟨fun _ => ⟨rfl, hrc⟩, fun ht => by simp at ht⟩
    · exact ⟨fun ht => by simp at ht, fun _ => ⟨nested, hn, rfl, hrc⟩⟩

/-- Packing all bindings of a name, if they come one after the other: they become one binding of this name with a set of the same bindings without
the first name, and nothing else changes. -/
theorem C37_pack_all {first : Bytes} {l rest mid : List Node} {c b : Node} {hb hs : Hd} {rc : Node} {st dy : List Node} {act : Action}
    (h : parse src = some (root, s)) (hc : NoErrors s) (ho : odd (syn root) = false)
    (hp : Part root (.exprAttrs hs (.binds hb (l ++ (c :: mid) ++ rest)) rc st dy)) (h1 : ∀ x ∈ c :: mid, startsWith first x = true)
    (h2 : ∀ x ∈ l ++ rest, startsWith first x = false) (hm : b ∈ c :: mid)
    (ha : act ∈ packBinding src b (.binds hb (l ++ (c :: mid) ++ rest)) (.exprAttrs hs (.binds hb (l ++ (c :: mid) ++ rest)) rc st dy))
    (ht : act.title = b!"Pack all '" ++ first ++ b!"' bindings to nested set") (hfit : Fitting src act.range act.newText) :
    ∃ nm ts t2, NameIs nm first ∧ List.Forall₂ (Shallow first) (c :: mid) ts ∧ ReadAs (spliced src act.range act.newText) t2 ∧
      Swap (.set false (synL (l ++ (c :: mid) ++ rest))) (.set false (synL l ++ [.binding [nm] (.set false ts)] ++ synL rest)) (syn root) t2 := by
  have hsb := h1 b hm
  cases b <;> try (cases hsb; done)
  rename_i hd p eq v
  have hact := (packed_all hsb ha).1 ht
  obtain ⟨rfl, rfl⟩ := hact
  obtain ⟨o1, o2⟩ := siblings_span h hc hp h1 h2 hm
  have hfil : (l ++ (c :: mid) ++ rest).filter (startsWith first) = c :: mid := by
    rw [List.filter_append, List.filter_append, List.filter_eq_self.mpr h1, List.filter_eq_nil_iff.mpr (fun x hx => by simp [h2 x (by simp [hx])]),
      List.filter_eq_nil_iff.mpr (fun x hx => by simp [h2 x (by simp [hx])])]
    simp
  obtain ⟨ts, r1, r2, r3⟩ := spaced_bound (R := Shallow first) (f := shallowOne src first) (bs := c :: mid) fun x hx =>
    shallow_bound h hc ho (own_part hp (by simp only [ownBindings, List.mem_append]; exact .inl (.inr hx))) (h1 x hx)
  have hval : Val (shallowText src first (l ++ (c :: mid) ++ rest)) (.set false ts) := by
    refine ⟨by simpa [odd] using r2, fun y => ?_⟩
    have e : shallowText src first (l ++ (c :: mid) ++ rest) ++ 59 :: y = 123 :: 32 :: (spaced ((c :: mid).map (shallowOne src first)) ++ 32 :: 125 :: 59 :: y) := by
      simp only [shallowText, hfil]
      simp
    rw [e]
    cases r1 with
    | cons r1 rs => exact G.ofSelect (.simple (.set (tok_lcurly _) (G.lead_binds (one_space _) (r3 _)) (.ws (g := [32]) (by decide) (tok_rcurly _))))
  obtain ⟨nm, n1, n2, n3⟩ := bind_onto (k := first) hval
  have g := n3 [] [] [] .noBind
  rw [List.append_nil] at g
  obtain ⟨t2, a1, a2⟩ := C83_bindings (b := c) (mid := mid) (l := l) (rest := rest) h hc ho hp rfl g (by simp [oddL, n2]) (fitting_range o1 o2 hfit)
  refine ⟨nm, ts, t2, n1, r1, ?_, a2⟩
  show ReadAs (spliced src (siblingsRange first (Node.binding hd p eq v).range _) _) t2
  rw [spliced_range o1 o2]
  exact a1

/-- Packing all bindings of a name recursively, if they come one after the other: they become one binding of this name with a set of the attributes, and
nothing else changes, as far as the attributes are not inherited or dynamic, and not nested too deep. -/
theorem C37_pack_recursive {first : Bytes} {l rest mid : List Node} {c b nested : Node} {hb hs : Hd} {rc : Node} {st dy : List Node} {act : Action}
    (h : parse src = some (root, s)) (hc : NoErrors s) (ho : odd (syn root) = false)
    (hp : Part root (.exprAttrs hs (.binds hb (l ++ (c :: mid) ++ rest)) rc st dy)) (h1 : ∀ x ∈ c :: mid, startsWith first x = true)
    (h2 : ∀ x ∈ l ++ rest, startsWith first x = false) (hm : b ∈ c :: mid)
    (hn : nestedOf first (.exprAttrs hs (.binds hb (l ++ (c :: mid) ++ rest)) rc st dy) = some nested) (hk : ∀ a ∈ semaStatic nested, Packable root 100 a)
    (ha : act ∈ packBinding src b (.binds hb (l ++ (c :: mid) ++ rest)) (.exprAttrs hs (.binds hb (l ++ (c :: mid) ++ rest)) rc st dy))
    (ht : act.title = b!"Recursively pack all '" ++ first ++ b!"' bindings to nested set") (hfit : Fitting src act.range act.newText) :
    ∃ nm ts t2, NameIs nm first ∧ List.Forall₂ Packed (semaStatic nested) ts ∧ ReadAs (spliced src act.range act.newText) t2 ∧
      Swap (.set false (synL (l ++ (c :: mid) ++ rest))) (.set false (synL l ++ [.binding [nm] (.set false ts)] ++ synL rest)) (syn root) t2 := by
  have hsb := h1 b hm
  cases b <;> try (cases hsb; done)
  rename_i hd p eq v
  obtain ⟨n', hn', rfl, rfl⟩ := (packed_all hsb ha).2 ht
  rw [hn] at hn'
  cases hn'
  obtain ⟨o1, o2⟩ := siblings_span h hc hp h1 h2 hm
  obtain ⟨ts, r1, r2⟩ := C37_nested h hc ho hk
  have hval : Val (nestedText src 101 (semaStatic nested)) (.set false ts) := ⟨r2.2, fun y => G.ofSelect (.simple (G.after r2 (by simp) (by simp)
    (Edge.stop fun d hd => by simp at hd; subst hd; exact ⟨by decide, fun h => absurd h (by decide)⟩)))⟩
  obtain ⟨nm, n1, n2, n3⟩ := bind_onto (k := first) hval
  have g := n3 [] [] [] .noBind
  rw [List.append_nil] at g
  obtain ⟨t2, a1, a2⟩ := C83_bindings (b := c) (mid := mid) (l := l) (rest := rest) h hc ho hp rfl g (by simp [oddL, n2]) (fitting_range o1 o2 hfit)
  refine ⟨nm, ts, t2, n1, r1, ?_, a2⟩
  show ReadAs (spliced src (siblingsRange first (Node.binding hd p eq v).range _) _) t2
  rw [spliced_range o1 o2]
  exact a1

/-! ### Examples -/

example : judgedFlatten b!"{ x = 1; a.b = { c.d = f x; e = 2; }; y = 3; }" 9 =
    [(true, b!"{ x = 1; a.b.c.d = f x; a.b.e = 2; y = 3; }", some b!"(set (= x 1) (= a b c d (call f x)) (= a b e 2) (= y 3))")] := by decide +kernel
example : (judgedPack b!"{ x = 1; a.b = 1; a.c.d = f x; y = 3; }" 9).drop 1 =
    [(true, b!"{ x = 1; a = { b = 1; c.d = f x; }; y = 3; }", some b!"(set (= x 1) (= a (set (= b 1) (= c d (call f x)))) (= y 3))"),
     (true, b!"{ x = 1; a = { b = 1; c = { d = f x; }; }; y = 3; }", some b!"(set (= x 1) (= a (set (= b 1) (= c (set (= d (call f x)))))) (= y 3))")] := by decide +kernel
example : fixesOf [] .unusedDefLet b!"let a = 1; b.c = 2; d = 3; in a + d" = [b!"let a = 1;  d = 3; in a + d"] ∧
    syntaxOf b!"let a = 1;  d = 3; in a + d" = some b!"(let (= a 1) (= d 3) (+ a d))" := by decide +kernel

/-- Removing an unused binding that touches `let` makes this a part of a word. -/
theorem C82_adjacent_violated : fixesOf [] .unusedDefLet b!"let\"a\"=1;b=2;in b" = [b!"letb=2;in b"] ∧ syntaxOf b!"letb=2;in b" = none ∧
    syntaxOf b!"let\"a\"=1;b=2;in b" = some b!"(let (= \"a\" 1) (= b 2) b)" := by decide +kernel

end Verif.Props
