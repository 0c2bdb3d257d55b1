import Verif.Props.Parents
import Verif.Props.Parser
import Verif.Spec.Descend
/-
C27: the node at a position.
-/
namespace Verif.Props
open Nixf Node Lexical Tree
open Scoping (children_size)

variable {src : Bytes} {root : Node} {s : PState}

theorem contains_covers (n : Node) (r : PosRange) : n.positionRange.contains r = true ↔ Covers n r := by
  have le : ∀ a b : Pos, a.le b = true ↔ Before a b := by
    intro a b
    obtain ⟨l, c⟩ := a
    obtain ⟨l', c'⟩ := b
    simp only [Pos.le, Pos.lt, Before, Bool.or_eq_true, Bool.and_eq_true, decide_eq_true_eq, Pos.mk.injEq]
    omega
  unfold PosRange.contains Covers
  rw [Bool.and_eq_true, le, le]
  rfl

theorem descendF_spec (r : PosRange) (k : Nat) : ∀ n : Node, sizeOf n ≤ k →
    (descendF k n r = none ↔ ¬ Covers n r) ∧
    ∀ m, descendF k n r = some m → Reach n m ∧ Covers m r ∧ ∀ c ∈ m.children, ¬ Covers c r := by
  induction k with
  | zero =>
    intro n hn
    exfalso
    cases n <;> simp at hn
  | succ k ih =>
    intro n hn
    unfold descendF
    by_cases hc : n.positionRange.contains r = true
    · rw [if_pos hc]
      rcases hf : n.children.find? (fun c => c.positionRange.contains r) with _ | c <;> simp only [hf]
      · rw [List.find?_eq_none] at hf
        refine ⟨by simp [(contains_covers n r).mp hc], fun m hm => ?_⟩
        cases hm
        exact ⟨.here _, (contains_covers n r).mp hc, fun c hcc hcv => hf c hcc ((contains_covers c r).mpr hcv)⟩
      · have hm := List.mem_of_find?_eq_some hf
        have hp := List.find?_some hf
        have hs := children_size hm
        obtain ⟨h1, h2⟩ := ih c (by omega)
        refine ⟨?_, fun m hm' => ?_⟩
        · simp only [(contains_covers n r).mp hc, not_true_eq_false, iff_false]
          rw [h1]
          exact not_not_intro ((contains_covers c r).mp hp)
        · obtain ⟨a1, a2, a3⟩ := h2 m hm'
          exact ⟨.down _ _ _ hm a1, a2, a3⟩
    · rw [if_neg hc]
      refine ⟨by simp [← contains_covers, hc], nofun⟩

/-- Nothing is found exactly if the root does not contain the range. -/
theorem C27_none (n : Node) (r : PosRange) : n.descend r = none ↔ ¬ Covers n r := (descendF_spec r _ n (Nat.le_refl _)).1

/-- What is found is a node of the tree that contains the range, and none of its children contains it. -/
theorem C27_found (n : Node) (r : PosRange) (m : Node) (h : n.descend r = some m) :
    Reach n m ∧ Covers m r ∧ ∀ c ∈ m.children, ¬ Covers c r := (descendF_spec r _ n (Nat.le_refl _)).2 m h

/-! ### Parsed trees -/

theorem posOf_mono (p t : Bytes) : Before (posOf p).position (posOf (p ++ t)).position := by
  unfold Before Cursor.position posOf
  simp only [List.count_append]
  by_cases h : t.count NL = 0
  · refine .inr ⟨by simp [h], ?_⟩
    have hn : NL ∉ t := List.count_eq_zero.mp h
    have : ∀ x ∈ t.reverse, decide (x ≠ NL) = true := by
      intro x hx
      have : x ∈ t := List.mem_reverse.mp hx
      exact decide_eq_true fun e => hn (e ▸ this)
    rw [List.reverse_append, List.takeWhile_append_of_pos this, List.length_append]
    omega
  · exact .inl (by omega)

theorem at_mono {src : Bytes} {a b : Cursor} (ha : At src a) (hb : At src b) (h : a.offset ≤ b.offset) :
    Before a.position b.position := by
  rw [ha.2, hb.2]
  have : src.take b.offset = src.take a.offset ++ (src.take b.offset).drop a.offset := by
    conv_lhs => rw [← List.take_append_drop a.offset (src.take b.offset)]
    rw [List.take_take, Nat.min_eq_left h]
  rw [this]
  exact posOf_mono _ _

/-- What is known about the nodes of a parsed tree. -/
structure Fine (src : Bytes) (n : Node) : Prop where
  atl : At src n.lCur
  atr : At src n.rCur
  nest : Nest n
  kw : Typed n

theorem children_subs {n c : Node} (h : c ∈ n.children) : c ∈ subs n := by
  have h1 := (List.mem_filter.mp h).1
  cases n
  case formal h c i d e =>
    simp only at h1
    split at h1 <;> (simp_all [subs]; try tauto)
  all_goals first | exact h1 | (simp only [subs, List.mem_append, List.mem_cons, List.not_mem_nil, or_false] at h1 ⊢; try tauto)

theorem all_reach {f : Node → List Node} {P : Node → Prop} (hf : ∀ {n c : Node}, c ∈ n.children → c ∈ f n) {n m : Node}
    (h : All f P n) (hr : Reach n m) : All f P m := by
  induction hr with
  | here => exact h
  | down n c m hc _ ih => exact ih (h.sub (hf hc))

theorem parse_fine (h : parse src = some (root, s)) (n : Node) (hr : Reach root n) : Fine src n := by
  have h1 := all_reach children_subs (parse_okAll h) hr
  have h2 := all_reach (f := children) (fun h => h) (C48_nesting_partial src root s h) hr
  exact ⟨h1.at_l, h1.at_r, h2.here, (parse_ids h).up.2 n hr⟩

theorem before_trans {a b c : Pos} (h : Before a b) (h' : Before b c) : Before a c := by
  unfold Before at *
  omega

theorem inside_covers {c n : Node} {r : PosRange} (hc : Fine src c) (hn : Fine src n) (h : Inside c n) (hv : CoversInside c r) :
    CoversInside n r := by
  have h1 := at_mono hn.atl hc.atl h.1
  have h2 := at_mono hc.atr hn.atr h.2
  unfold CoversInside Covers StrictlyBefore Before at *
  omega

theorem apart_covers {a b : Node} {r : PosRange} (ha : Fine src a) (hb : Fine src b) (h : Apart a b) (hv : Covers a r)
    (hv' : CoversInside b r) : False := by
  unfold CoversInside Covers at *
  rcases h with h | h
  · have h1 := at_mono ha.atr hb.atl h
    unfold StrictlyBefore Before at *
    omega
  · have h1 := at_mono hb.atr ha.atl h
    unfold StrictlyBefore Before at *
    omega

/-- `k` is the `rec` token of `n`, but lies outside. -/
def Odd (n k : Node) : Prop := (∃ h b st dy, n = .exprAttrs h b k st dy) ∧ k ∈ n.children ∧ ¬ Inside k n

theorem odd_let {n c k : Node} (hn : Nest n) (hc : c ∈ n.children) (ho : Odd c k) : ∃ h k i e, n = .exprLet h k i e c := by
  obtain ⟨⟨h, b, st, dy, rfl⟩, h2, h3⟩ := ho
  rcases hn.2.2 _ hc with h1 | h1
  · exact absurd (h1 _ _ _ _ _ rfl (children_isNode h2)) h3
  · exact h1

theorem odd_kw {n c k : Node} (hn : Nest n) (hk : Typed n) (hc : c ∈ n.children) (ho : Odd c k) :
    k ∈ n.children ∧ k.children = [] ∧ Inside k n ∧ isLegacyLet n = false := by
  have hlet := odd_let hn hc ho
  obtain ⟨⟨h, b, st, dy, rfl⟩, h2, h3⟩ := ho
  obtain ⟨h', k', i, e, rfl⟩ := hlet
  rcases hk with hk | ⟨hk, _, _, _, _, e1⟩
  · cases hk
  · cases e1
    have hm : k ∈ (Node.exprLet h' k i e (.exprAttrs h b k st dy)).children :=
      List.mem_filter.mpr ⟨by simp, children_isNode h2⟩
    refine ⟨hm, hk, ?_, rfl⟩
    rcases hn.1 k hm with h | ⟨_, _, _, _, e2, _⟩
    · exact h
    · cases e2

theorem covers_up {n x : Node} {r : PosRange} (hf : ∀ m, Reach n m → Fine src m) (hr : Reach n x) (hx : CoversInside x r) :
    CoversInside n r ∨ ∃ k, Odd n k ∧ Reach k x ∧ CoversInside k r := by
  induction hr with
  | here => exact .inl hx
  | down n c x hc hcx ih =>
    have fn := hf n (.here _)
    have fc := hf c (.down _ _ _ hc (.here _))
    rcases ih (fun m hm => hf m (.down _ _ _ hc hm)) hx with h | ⟨k, hk, hkx, hkc⟩
    · by_cases hi : Inside c n
      · exact .inl (inside_covers fc fn hi h)
      · rcases fn.nest.1 c hc with h' | ⟨h1, b, st, dy, e, _⟩
        · exact absurd h' hi
        · exact .inr ⟨c, ⟨⟨_, _, _, _, e⟩, hc, hi⟩, hcx, h⟩
    · obtain ⟨a1, a2, a3, _⟩ := odd_kw fn.nest fn.kw hc hk
      exact .inl (inside_covers (hf k (.down _ _ _ a1 (.here _))) fn a3 hkc)

theorem reach_leaf {k x : Node} (h : k.children = []) (hr : Reach k x) : x = k := by
  cases hr with
  | here => rfl
  | down _ c _ hc _ => rw [h] at hc; cases hc

theorem descendF_leaf {r : PosRange} {j : Nat} {k m : Node} (h : k.children = []) (hm : descendF j k r = some m) : m = k := by
  cases j with
  | zero => cases hm
  | succ j =>
    unfold descendF at hm
    rw [h] at hm
    simp only [List.find?_nil] at hm
    split at hm
    · exact (Option.some.inj hm).symm
    · cases hm

theorem descendF_deepest (r : PosRange) (j : Nat) : ∀ n x m : Node, sizeOf n ≤ j → (∀ m, Reach n m → Fine src m) →
    Reach n x → CoversInside x r → descendF j n r = some m → Reach x m := by
  induction j with
  | zero =>
    intro n x m hn
    exfalso
    cases n <;> simp at hn
  | succ j ih =>
    intro n x m hn hf hr hx hm
    have hfound := ((descendF_spec r _ n hn).2 m hm).1
    cases hr with
    | here => exact hfound
    | down _ c _ hc hcx =>
      have fn := hf n (.here _)
      have fr : ∀ c ∈ n.children, Fine src c := fun c hc => hf c (.down _ _ _ hc (.here _))
      have fc := fr c hc
      -- the chosen child
      have key : ∀ y ∈ n.children, CoversInside y r →
          ∃ d, n.children.find? (fun c => c.positionRange.contains r) = some d ∧ descendF j d r = some m := by
        intro y hy hyc
        unfold descendF at hm
        rcases hfd : n.children.find? (fun c => c.positionRange.contains r) with _ | d
        · exact absurd ((contains_covers y r).mpr hyc.1) (List.find?_eq_none.mp hfd y hy)
        · simp only [hfd] at hm
          split at hm
          · exact ⟨d, hfd, hm⟩
          · cases hm
      have same : isLegacyLet n = false → ∀ y ∈ n.children, CoversInside y r → descendF j y r = some m := by
        intro hl y hy hyc
        obtain ⟨d, hd, hdm⟩ := key y hy hyc
        have hdn := List.mem_of_find?_eq_some hd
        have hdc := (contains_covers d r).mp (List.find?_some (p := fun c : Node => c.positionRange.contains r) hd)
        by_cases hdy : d = y
        · rw [← hdy]; exact hdm
        · exact (apart_covers (fr d hdn) (fr y hy) (pairwise_sym (fun _ _ => apart_symm) (fn.nest.2.1 hl) hdn hy hdy) hdc hyc).elim
      rcases covers_up (fun m hm => hf m (.down _ _ _ hc hm)) hcx hx with hcv | ⟨k, hk, hkx, hkc⟩
      · by_cases hl : isLegacyLet n = false
        · have hs := children_size hc
          exact ih c x m (by omega) (fun m hm => hf m (.down _ _ _ hc hm)) hcx hx (same hl c hc hcv)
        · obtain ⟨d, hd, hdm⟩ := key c hc hcv
          by_cases hdc : d = c
          · have hs := children_size hc
            rw [hdc] at hdm
            exact ih c x m (by omega) (fun m hm => hf m (.down _ _ _ hc hm)) hcx hx hdm
          · have hdn := List.mem_of_find?_eq_some hd
            have hdv := (contains_covers d r).mp (List.find?_some (p := fun c : Node => c.positionRange.contains r) hd)
            cases n
            case exprLegacyLet h k a =>
              obtain ⟨hk, h', b, st, dy, rfl⟩ := fn.kw
              have hc1 := (List.mem_filter.mp hc).1
              have hd1 := (List.mem_filter.mp hdn).1
              simp only [List.mem_cons, List.not_mem_nil, or_false] at hc1 hd1
              rcases hc1 with rfl | rfl
              · -- the keyword comes first
                exfalso
                have hkn := children_isNode hc
                rw [show (Node.exprLegacyLet h c (.exprAttrs h' b c st dy)).children = [c, .exprAttrs h' b c st dy] by
                  simp [children, hkn, show (Node.exprAttrs h' b c st dy).isNode = true from rfl], List.find?_cons_of_pos (p := fun c : Node => c.positionRange.contains r) ((contains_covers c r).mpr hcv.1)] at hd
                exact hdc (Option.some.inj hd).symm
              · rcases hd1 with rfl | rfl
                · rw [descendF_leaf (by obtain ⟨_, e⟩ := hk; rw [e]; rfl) hdm]
                  have hkm : d ∈ (Node.exprAttrs h' b d st dy).children := List.mem_filter.mpr ⟨by simp, children_isNode hdn⟩
                  cases hcx with
                  | here => exact .down _ _ _ hkm (.here _)
                  | down _ c' _ hc' hcx' =>
                    have hc1 := (List.mem_filter.mp hc').1
                    simp only [List.mem_cons, List.not_mem_nil, or_false] at hc1
                    have hfc : ∀ m, Reach c' m → Fine src m := fun m hm => hf m (.down _ _ _ hc (.down _ _ _ hc' hm))
                    by_cases hcd : c' = d
                    · rw [hcd] at hcx'
                      rw [reach_leaf (by obtain ⟨_, e⟩ := hk; rw [e]; rfl) hcx']
                      exact .here _
                    · exfalso
                      rcases covers_up hfc hcx' hx with hb | ⟨k, hk1, -, -⟩
                      · exact apart_covers (fr d hdn) (hfc _ (.here _))
                          (pairwise_sym (fun _ _ => apart_symm) (fc.nest.2.1 rfl) hkm hc' (fun e => hcd e.symm)) hdv hb
                      · obtain ⟨_, _, _, _, e⟩ := odd_let fc.nest hc' hk1
                        cases e
                · exact absurd rfl hdc
            all_goals exact absurd rfl hl
      · obtain ⟨a1, a2, a3, a4⟩ := odd_kw fn.nest fn.kw hc hk
        rw [reach_leaf a2 hkx, descendF_leaf a2 (same a4 k a1 hkc)]
        exact .here _

/-- In a parsed tree, every node that contains the range is above what is found, that is, what is found is the innermost
node. Nodes that merely touch an empty range are left out. -/
theorem C27_innermost (h : parse src = some (root, s)) (r : PosRange) (x m : Node) (hx : Reach root x) (hc : CoversInside x r)
    (hm : root.descend r = some m) : Reach x m :=
  descendF_deepest r _ root x m (Nat.le_refl _) (fun _ => parse_fine h _) hx hc hm

/-- Something is found if any node contains the range. -/
theorem C27_complete (h : parse src = some (root, s)) (r : PosRange) (x : Node) (hx : Reach root x) (hc : CoversInside x r) :
    ∃ m, root.descend r = some m := by
  rcases hd : root.descend r with _ | m
  · exfalso
    rw [C27_none] at hd
    rcases covers_up (fun _ => parse_fine h _) hx hc with h' | ⟨k, hk, -⟩
    · exact hd h'.1
    · obtain ⟨⟨_, _, _, _, rfl⟩, k1, k2⟩ := hk
      obtain ⟨n', s', h1, -, h2, -⟩ := parse_spec src
      rw [h] at h1; cases h1
      rcases h2 with h2 | h2
      · cases h2
      · exact k2 (h2.2.1.recIn _ _ _ _ _ rfl (children_isNode k1))
  · exact ⟨m, rfl⟩

/-- The kind and the range of the node found. -/
def found (src : Bytes) (r : PosRange) : Option (NodeKind × Nat × Nat) :=
  (parse src).bind fun p => (descendF 100 p.1 r).bind fun m => m.kind?.map fun k => (k, m.lCur.offset, m.rCur.offset)

-- the cases of libnixf/test/Basic/Nodes.cpp
example : found b!"{ a = 1; }" ⟨⟨0, 2⟩, ⟨0, 2⟩⟩ = some (.Identifier, 2, 3) := by decide +kernel
example : found b!"{ a = 1; }" ⟨⟨0, 2⟩, ⟨0, 4⟩⟩ = some (.Binding, 2, 8) := by decide +kernel
example : found b!"{ a = 1; }" ⟨⟨0, 2⟩, ⟨1, 4⟩⟩ = none := by decide +kernel
-- between two nodes the first of the children is taken, which here is the operator
example : found b!"a+b" ⟨⟨0, 1⟩, ⟨0, 1⟩⟩ = some (.Op, 1, 2) := by decide +kernel

end Verif.Props
