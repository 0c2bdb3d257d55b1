import Verif.Lemmas.Ids
/-
Identities of nodes in attribute sets: lowering of bindings.
-/
namespace Verif.Nixf
open Scoping Node

/-- The identities in a set. -/
def Foot (sa : SA) (i : Nat) : Prop := (∃ x ∈ sa.static, Pid (attrValue x) i) ∨ ∃ y ∈ sa.dynamic, FootD y i

structure SAOk (C : Node → Prop) (U : Nat → Prop) (sa : SA) : Prop where
  si : SI sa.static sa.dynamic
  sval : ∀ x ∈ sa.static, VOk C (attrValue x)
  dkey : ∀ x ∈ sa.dynamic, VOk C (attrKey x)
  dval : ∀ x ∈ sa.dynamic, VOk C (attrValue x)
  keys : ∀ x ∈ sa.static, C (attrKey x)
  foot : ∀ i, Foot sa i → U i

theorem SAOk.nil {C : Node → Prop} {U : Nat → Prop} : SAOk C U {} := by
  refine ⟨⟨.nil, .nil, nofun, nofun, .nil, nofun, nofun, nofun⟩, nofun, nofun, nofun, nofun, ?_⟩
  rintro i (⟨x, hx, _⟩ | ⟨x, hx, _⟩) <;> cases hx

theorem SAOk.mono {C : Node → Prop} {U U' : Nat → Prop} {sa : SA} (h : SAOk C U sa) (hu : ∀ i, U i → U' i) : SAOk C U' sa :=
  ⟨h.si, h.sval, h.dkey, h.dval, h.keys, fun i hi => hu i (h.foot i hi)⟩

theorem mem_attrParts {r : Bool} {st dy : List Node} {p : Bool × Node} : p ∈ attrParts r st dy ↔
    (∃ x ∈ st, (attrValue x).isNull = false ∧ p = (r && attrKind x != .inherit, attrValue x)) ∨
    ∃ y ∈ dy, (attrValue y).isNull = false ∧ (p = (r, attrKey y) ∨ p = (r, attrValue y)) := by
  unfold attrParts
  simp only [List.mem_append, List.mem_map, List.mem_flatMap, List.mem_filter, Bool.not_eq_true', List.mem_cons,
    List.not_mem_nil, or_false]
  constructor
  · rintro (⟨x, ⟨h1, h2⟩, rfl⟩ | ⟨y, ⟨h1, h2⟩, h3⟩)
    · exact .inl ⟨x, h1, h2, rfl⟩
    · exact .inr ⟨y, h1, h2, h3⟩
  · rintro (⟨x, h1, h2, rfl⟩ | ⟨y, h1, h2, h3⟩)
    · exact .inl ⟨x, ⟨h1, h2⟩, rfl⟩
    · exact .inr ⟨y, ⟨h1, h2⟩, h3⟩

theorem isNull_of_isNode {n : Node} (h : n.isNode = true) : n.isNull = false := by
  cases n <;> first | rfl | cases h

/-- Pairs of parts of a set. -/
theorem attrParts_rel {st dy : List Node} (h : SI st dy) (hf : ∀ x ∈ st, Faithful (attrValue x))
    (hk : ∀ y ∈ dy, Faithful (attrKey y)) (hv : ∀ y ∈ dy, Faithful (attrValue y)) (r : Bool) :
    ∀ p ∈ attrParts r st dy, ∀ q ∈ attrParts r st dy,
      (p.1 = q.1 → Compat p.2 q.2) ∧ (p.1 ≠ q.1 → PDisj p.2 q.2) := by
  have aux : ∀ x ∈ st, ∀ y ∈ dy, PDisj (attrValue x) (attrKey y) ∧ PDisj (attrValue x) (attrValue y) := fun x hx y hy =>
    ⟨fun i h1 h2 => h.relSD x hx y hy i h1 (.inl h2), fun i h1 h2 => h.relSD x hx y hy i h1 (.inr h2)⟩
  intro p hp q hq
  rcases mem_attrParts.mp hp with ⟨x, hx, _, rfl⟩ | ⟨x, hx, _, hpx⟩
  · rcases mem_attrParts.mp hq with ⟨y, hy, _, rfl⟩ | ⟨y, hy, _, hqy⟩
    · by_cases hxy : x = y
      · subst hxy
        exact ⟨fun _ => hf x hx, fun hc => absurd rfl hc⟩
      · rcases pairwise_sym (fun _ _ => RelS.symm) h.relS hx hy hxy with hd | ⟨k1, k2, hc⟩
        · exact ⟨fun _ => hd.compat, fun _ => hd⟩
        · refine ⟨fun _ => hc, fun hc => absurd ?_ hc⟩
          simp only [k1, k2]
    · have := aux x hx y hy
      rcases hqy with rfl | rfl
      · exact ⟨fun _ => this.1.compat, fun _ => this.1⟩
      · exact ⟨fun _ => this.2.compat, fun _ => this.2⟩
  · rcases mem_attrParts.mp hq with ⟨y, hy, _, rfl⟩ | ⟨y, hy, _, hqy⟩
    · have := aux y hy x hx
      rcases hpx with rfl | rfl
      · exact ⟨fun _ => this.1.symm.compat, fun _ => this.1.symm⟩
      · exact ⟨fun _ => this.2.symm.compat, fun _ => this.2.symm⟩
    · by_cases hxy : x = y
      · subst hxy
        have hd := h.dyn x hx
        rcases hpx with rfl | rfl <;> rcases hqy with rfl | rfl
        · exact ⟨fun _ => hk x hx, fun hc => absurd rfl hc⟩
        · exact ⟨fun _ => hd.compat, fun _ => hd⟩
        · exact ⟨fun _ => hd.symm.compat, fun _ => hd.symm⟩
        · exact ⟨fun _ => hv x hx, fun hc => absurd rfl hc⟩
      · have hd := pairwise_sym (fun _ _ => DisjD.symm) h.relD hx hy hxy
        have : PDisj p.2 q.2 := fun i h1 h2 => by
          rcases hpx with rfl | rfl <;> rcases hqy with rfl | rfl
          · exact hd i (.inl h1) (.inl h2)
          · exact hd i (.inl h1) (.inr h2)
          · exact hd i (.inr h1) (.inl h2)
          · exact hd i (.inr h1) (.inr h2)
        exact ⟨fun _ => this.compat, fun _ => this⟩

theorem foot_of_attrParts {r : Bool} {sa : SA} {p : Bool × Node} {i : Nat} (hp : p ∈ attrParts r sa.static sa.dynamic)
    (hi : Pid p.2 i) : Foot sa i := by
  rcases mem_attrParts.mp hp with ⟨x, hx, _, rfl⟩ | ⟨x, hx, _, rfl | rfl⟩
  · exact .inl ⟨x, hx, hi⟩
  · exact .inr ⟨x, hx, .inl hi⟩
  · exact .inr ⟨x, hx, .inr hi⟩

theorem attrParts_of_foot {r : Bool} {sa : SA} (h : SI sa.static sa.dynamic) {i : Nat} (hi : Foot sa i) :
    ∃ p ∈ attrParts r sa.static sa.dynamic, Pid p.2 i := by
  rcases hi with ⟨x, hx, hi⟩ | ⟨x, hx, hi⟩
  · exact ⟨_, mem_attrParts.mpr (.inl ⟨x, hx, isNull_of_isNode (h.nodes x (List.mem_append_left _ hx)).2, rfl⟩), hi⟩
  · have hn := isNull_of_isNode (h.nodes x (List.mem_append_right _ hx)).2
    rcases hi with hi | hi
    · exact ⟨_, mem_attrParts.mpr (.inr ⟨x, hx, hn, .inl rfl⟩), hi⟩
    · exact ⟨_, mem_attrParts.mpr (.inr ⟨x, hx, hn, .inr rfl⟩), hi⟩

theorem vok_attrParts {C : Node → Prop} {U : Nat → Prop} {sa : SA} (h : SAOk C U sa) {r : Bool} {p : Bool × Node}
    (hp : p ∈ attrParts r sa.static sa.dynamic) : VOk C p.2 := by
  rcases mem_attrParts.mp hp with ⟨x, hx, _, rfl⟩ | ⟨x, hx, _, rfl | rfl⟩
  · exact h.sval x hx
  · exact h.dkey x hx
  · exact h.dval x hx

theorem SI.goodSet {st dy : List Node} (h : SI st dy) : GoodSet st :=
  ⟨h.names, fun x hx => isNull_of_isNode (h.nodes x (List.mem_append_left _ hx)).1⟩

theorem mkSet {C : Node → Prop} {U : Nat → Prop} {sa : SA} (h : SAOk C U sa) {hd : Hd} (b r : Node) (hid : ¬ U hd.id) :
    VOk C (.exprAttrs hd b r sa.static sa.dynamic) ∧
    ∀ i, Pid (.exprAttrs hd b r sa.static sa.dynamic) i → i = hd.id ∨ U i := by
  have hrel := attrParts_rel h.si (fun x hx => (h.sval x hx).1) (fun x hx => (h.dkey x hx).1) (fun x hx => (h.dval x hx).1) (!r.isNull)
  refine ⟨VOk.of_parts (faithful_of_parts (fun p hp q hq => (hrel p hp q hq).1) (fun p hp q hq => (hrel p hp q hq).2) ?_) ?_ ?_, ?_⟩
  · intro p hp hc
    exact hid (h.foot _ (foot_of_attrParts hp hc))
  · refine ⟨h.si.goodSet, ⟨h.si, fun x hx hc => hid (h.foot _ (.inl ⟨x, hx, hc⟩)), fun x hx hc => hid (h.foot _ (.inr ⟨x, hx, hc⟩))⟩, ?_⟩
    intro k hk
    obtain ⟨x, hx, rfl⟩ := List.mem_map.mp hk
    exact h.keys x hx
  · intro p hp
    exact vok_attrParts h hp
  · intro i hi
    rcases pid_cases hi with rfl | ⟨p, hp, hi⟩
    · exact .inl rfl
    · exact .inr (h.foot _ (foot_of_attrParts hp hi))

theorem unSet {C : Node → Prop} {hd : Hd} {b r : Node} {st dy : List Node} (h : VOk C (.exprAttrs hd b r st dy)) :
    SAOk C (fun i => Pid (.exprAttrs hd b r st dy) i ∧ i ≠ hd.id) ⟨st, dy⟩ := by
  obtain ⟨hs, ⟨h1, h2, h3⟩, h4⟩ := h.good
  have hv : ∀ x ∈ st ++ dy, (attrValue x).isNull = false := fun x hx => isNull_of_isNode (h1.nodes x hx).2
  refine ⟨h1, ?_, ?_, ?_, ?_, ?_⟩
  · intro x hx
    exact h.part (mem_attrParts.mpr (.inl ⟨x, hx, hv x (List.mem_append_left _ hx), rfl⟩))
  · intro x hx
    exact h.part (mem_attrParts.mpr (.inr ⟨x, hx, hv x (List.mem_append_right _ hx), .inl rfl⟩))
  · intro x hx
    exact h.part (mem_attrParts.mpr (.inr ⟨x, hx, hv x (List.mem_append_right _ hx), .inr rfl⟩))
  · intro x hx
    exact h4 _ (List.mem_map_of_mem hx)
  · intro i hi
    obtain ⟨p, hp, hpi⟩ := attrParts_of_foot (r := !r.isNull) (sa := ⟨st, dy⟩) h1 hi
    refine ⟨pid_part (n := .exprAttrs hd b r st dy) hp hpi, ?_⟩
    rintro rfl
    rcases hi with ⟨x, hx, hi⟩ | ⟨x, hx, hi⟩
    · exact h2 x hx hi
    · exact h3 x hx hi

theorem insertStatic_perm (a : Node) (st : List Node) : (insertStatic a st).Perm (a :: st) := by
  induction st with
  | nil => exact .refl _
  | cons b bs ih =>
    unfold insertStatic
    split
    · exact .refl _
    · exact (ih.cons b).trans (.swap a b bs)

theorem findStatic_none {n : Bytes} {st : List Node} (h : findStatic n st = none) : n ∉ st.map attrName := by
  intro hc
  obtain ⟨a, ha, rfl⟩ := List.mem_map.mp hc
  have := List.find?_eq_none.mp h a ha
  simp at this

theorem pairwise_perm {α : Type} {R : α → α → Prop} (hs : ∀ x y, R x y → R y x) {l l' : List α} (h : l.Perm l') (hl : l.Pairwise R) :
    l'.Pairwise R := (h.pairwise_iff (fun {x y} => hs x y)).mp hl

theorem SAOk.insertS {C : Node → Prop} {U U' : Nat → Prop} {st dy : List Node} (h : SAOk C U ⟨st, dy⟩) {y : Node}
    (hn : findStatic (attrName y) st = none) (h0 : (attrKey y).staticName? = some (attrName y)) (h1 : ∀ x ∈ st, RelS y x)
    (h2 : ∀ d ∈ dy, ∀ i, Pid (attrValue y) i → FootD d i → False) (h3 : (attrKey y).isNode = true)
    (h3' : (attrValue y).isNode = true) (h4 : attrKind y = .inheritFrom → isSelect (attrValue y) = true)
    (h5 : VOk C (attrValue y)) (h6 : C (attrKey y)) (hu : ∀ i, U i → U' i) (hu' : ∀ i, Pid (attrValue y) i → U' i) :
    SAOk C U' ⟨insertStatic y st, dy⟩ := by
  have hp := insertStatic_perm y st
  have hm : ∀ x, x ∈ insertStatic y st → x = y ∨ x ∈ st := fun x hx => List.mem_cons.mp (hp.mem_iff.mp hx)
  refine ⟨⟨?_, h.si.relD, ?_, h.si.dyn, ?_, ?_, ?_, fun x hx => (hm x hx).elim (fun e => e ▸ h0) (h.si.static x)⟩, ?_, h.dkey, h.dval, ?_, ?_⟩
  · exact pairwise_perm (fun _ _ => RelS.symm) hp.symm (.cons h1 h.si.relS)
  · intro x hx
    rcases hm x hx with rfl | hx
    · exact h2
    · exact h.si.relSD x hx
  · exact ((hp.map attrName).nodup_iff).mpr (List.nodup_cons.mpr ⟨findStatic_none hn, h.si.names⟩)
  · intro x hx
    rcases List.mem_append.mp hx with hx | hx
    · rcases hm x hx with rfl | hx
      · exact ⟨h3, h3'⟩
      · exact h.si.nodes x (List.mem_append_left _ hx)
    · exact h.si.nodes x (List.mem_append_right _ hx)
  · intro x hx
    rcases hm x hx with rfl | hx
    · exact h4
    · exact h.si.sel x hx
  · intro x hx
    rcases hm x hx with rfl | hx
    · exact h5
    · exact h.sval x hx
  · intro x hx
    rcases hm x hx with rfl | hx
    · exact h6
    · exact h.keys x hx
  · rintro i (⟨x, hx, hi⟩ | hi)
    · rcases hm x hx with rfl | hx
      · exact hu' i hi
      · exact hu i (h.foot i (.inl ⟨x, hx, hi⟩))
    · exact hu i (h.foot i (.inr hi))

theorem SAOk.pushD {C : Node → Prop} {U U' : Nat → Prop} {st dy : List Node} (h : SAOk C U ⟨st, dy⟩) {y : Node}
    (h1 : ∀ i, FootD y i → ¬ U i) (h2 : PDisj (attrKey y) (attrValue y)) (h3 : (attrKey y).isNode = true)
    (h3' : (attrValue y).isNode = true) (h4 : VOk C (attrKey y)) (h5 : VOk C (attrValue y)) (hu : ∀ i, U i → U' i)
    (hu' : ∀ i, FootD y i → U' i) : SAOk C U' ⟨st, dy ++ [y]⟩ := by
  have hm : ∀ x, x ∈ dy ++ [y] → x ∈ dy ∨ x = y := fun x hx => by simpa using hx
  refine ⟨⟨h.si.relS, ?_, ?_, ?_, h.si.names, ?_, h.si.sel, h.si.static⟩, h.sval, ?_, ?_, h.keys, ?_⟩
  · refine List.pairwise_append.mpr ⟨h.si.relD, List.pairwise_singleton .., fun x hx z hz i hi hi' => ?_⟩
    simp only [List.mem_singleton] at hz
    subst hz
    exact h1 i hi' (h.foot i (.inr ⟨x, hx, hi⟩))
  · intro x hx z hz i hi hi'
    rcases hm z hz with hz | rfl
    · exact h.si.relSD x hx z hz i hi hi'
    · exact h1 i hi' (h.foot i (.inl ⟨x, hx, hi⟩))
  · intro x hx
    rcases hm x hx with hx | rfl
    · exact h.si.dyn x hx
    · exact h2
  · intro x hx
    rcases List.mem_append.mp hx with hx | hx
    · exact h.si.nodes x (List.mem_append_left _ hx)
    · rcases hm x hx with hx | rfl
      · exact h.si.nodes x (List.mem_append_right _ hx)
      · exact ⟨h3, h3'⟩
  · intro x hx
    rcases hm x hx with hx | rfl
    · exact h.dkey x hx
    · exact h4
  · intro x hx
    rcases hm x hx with hx | rfl
    · exact h.dval x hx
    · exact h5
  · rintro i (hi | ⟨x, hx, hi⟩)
    · exact hu i (h.foot i (.inl hi))
    · rcases hm x hx with hx | rfl
      · exact hu i (h.foot i (.inr ⟨x, hx, hi⟩))
      · exact hu' i hi

theorem setStatic_split {n : Bytes} {st : List Node} {a v : Node} (h : findStatic n st = some a) (ha : (attrValue a).isNode = true) :
    ∃ l1 l2, st = l1 ++ a :: l2 ∧ setStatic n v st = l1 ++ .attr (attrName a) (attrKey a) v (attrKind a) :: l2 := by
  induction st with
  | nil => cases h
  | cons b bs ih =>
    unfold findStatic at h
    rw [List.find?_cons] at h
    by_cases hb : (attrName b == n) = true
    · rw [hb] at h
      cases h
      cases a with
      | attr m k w kind =>
        refine ⟨[], bs, rfl, ?_⟩
        have : (m == n) = true := hb
        simp only [setStatic, this, if_true, attrName, attrKey, attrKind, List.nil_append]
      | _ => cases ha
    · rw [Bool.not_eq_true] at hb
      rw [hb] at h
      obtain ⟨l1, l2, e1, e2⟩ := ih h
      refine ⟨b :: l1, l2, by rw [e1]; rfl, ?_⟩
      cases b with
      | attr m k w kind =>
        have : (m == n) = false := hb
        simp only [setStatic, this, Bool.false_eq_true, if_false, e2, List.cons_append]
      | _ => simp only [setStatic, e2, List.cons_append]

/-- Replace the value of an attribute by one that has new identities `N` in addition. -/
theorem SAOk.setS {C : Node → Prop} {U U' N : Nat → Prop} {st dy : List Node} (h : SAOk C U ⟨st, dy⟩) {n : Bytes} {a v : Node}
    (ha : findStatic n st = some a) (hk : attrKind a ≠ .inheritFrom) (hn : v.isNode = true) (hv : VOk C v)
    (hp : ∀ i, Pid v i → Pid (attrValue a) i ∨ N i) (hN : ∀ i, N i → ¬ U i) (hu : ∀ i, U i → U' i) (hu' : ∀ i, N i → U' i) :
    SAOk C U' ⟨setStatic n v st, dy⟩ := by
  have hmem : a ∈ st := List.mem_of_find?_eq_some ha
  obtain ⟨l1, l2, e1, e2⟩ := setStatic_split (v := v) ha (h.si.nodes a (List.mem_append_left _ hmem)).2
  have hp1 : st.Perm (a :: (l1 ++ l2)) := by rw [e1]; exact List.perm_middle
  have hp2 : (setStatic n v st).Perm (.attr (attrName a) (attrKey a) v (attrKind a) :: (l1 ++ l2)) := by
    rw [e2]; exact List.perm_middle
  have hm : ∀ x, x ∈ setStatic n v st → x = .attr (attrName a) (attrKey a) v (attrKind a) ∨ x ∈ l1 ++ l2 := fun x hx =>
    List.mem_cons.mp (hp2.mem_iff.mp hx)
  have hm' : ∀ x, x ∈ l1 ++ l2 → x ∈ st := fun x hx => hp1.mem_iff.mpr (List.mem_cons_of_mem _ hx)
  have hpw := pairwise_perm (fun _ _ => RelS.symm) hp1 h.si.relS
  rw [List.pairwise_cons] at hpw
  have hU : ∀ i, Pid v i → Pid (attrValue a) i ∨ N i := hp
  refine ⟨⟨?_, h.si.relD, ?_, h.si.dyn, ?_, ?_, ?_, fun x hx => (hm x hx).elim (fun e => e ▸ h.si.static a hmem) fun hx => h.si.static x (hm' x hx)⟩, ?_, h.dkey, h.dval, ?_, ?_⟩
  · refine pairwise_perm (fun _ _ => RelS.symm) hp2.symm (.cons ?_ hpw.2)
    intro x hx
    rcases hpw.1 x hx with hd | hd
    · refine .inl fun i hi hi' => ?_
      rcases hU i hi with hi | hi
      · exact hd i hi hi'
      · exact hN i hi (h.foot i (.inl ⟨x, hm' x hx, hi'⟩))
    · exact absurd hd.1 hk
  · intro x hx y hy i hi hi'
    rcases hm x hx with rfl | hx
    · rcases hU i hi with hi | hi
      · exact h.si.relSD a hmem y hy i hi hi'
      · exact hN i hi (h.foot i (.inr ⟨y, hy, hi'⟩))
    · exact h.si.relSD x (hm' x hx) y hy i hi hi'
  · have := ((hp1.map attrName).nodup_iff).mp h.si.names
    exact ((hp2.map attrName).nodup_iff).mpr this
  · intro x hx
    rcases List.mem_append.mp hx with hx | hx
    · rcases hm x hx with rfl | hx
      · exact ⟨(h.si.nodes a (List.mem_append_left _ hmem)).1, hn⟩
      · exact h.si.nodes x (List.mem_append_left _ (hm' x hx))
    · exact h.si.nodes x (List.mem_append_right _ hx)
  · intro x hx
    rcases hm x hx with rfl | hx
    · exact fun hc => absurd hc hk
    · exact h.si.sel x (hm' x hx)
  · intro x hx
    rcases hm x hx with rfl | hx
    · exact hv
    · exact h.sval x (hm' x hx)
  · intro x hx
    rcases hm x hx with rfl | hx
    · exact h.keys a hmem
    · exact h.keys x (hm' x hx)
  · rintro i (⟨x, hx, hi⟩ | hi)
    · rcases hm x hx with rfl | hx
      · rcases hU i hi with hi | hi
        · exact hu i (h.foot i (.inl ⟨a, hmem, hi⟩))
        · exact hu' i hi
      · exact hu i (h.foot i (.inl ⟨x, hm' x hx, hi⟩))
    · exact hu i (h.foot i (.inr hi))

/-- Merging two sets that share nothing. -/
theorem mergeStatic_ids {C : Node → Prop} {ys xs dy : List Node} {s : SemaSt} {U V : Nat → Prop} (h : SAOk C U ⟨xs, dy⟩)
    (h1 : ∀ y ∈ ys, ∀ x ∈ xs, RelS y x) (h2 : ys.Pairwise RelS)
    (h3 : ∀ y ∈ ys, ∀ d ∈ dy, ∀ i, Pid (attrValue y) i → FootD d i → False)
    (h4 : ∀ y ∈ ys, (attrKey y).isNode = true ∧ (attrValue y).isNode = true)
    (h5 : ∀ y ∈ ys, (attrKey y).staticName? = some (attrName y) ∧ (attrKind y = .inheritFrom → isSelect (attrValue y) = true))
    (h6 : ∀ y ∈ ys, VOk C (attrValue y) ∧ C (attrKey y)) (hu : ∀ i, U i → V i) (hv : ∀ y ∈ ys, ∀ i, Pid (attrValue y) i → V i) :
    SAOk C V ⟨(mergeStatic ys xs s).1, dy⟩ ∧ (mergeStatic ys xs s).2.next = s.next := by
  induction ys generalizing xs s U with
  | nil => exact ⟨h.mono hu, rfl⟩
  | cons y ys ih =>
    rw [List.pairwise_cons] at h2
    unfold mergeStatic
    rcases hfs : findStatic (attrName y) xs with _ | x
    · simp only
      have hm : ∀ x, x ∈ insertStatic y xs → x = y ∨ x ∈ xs := fun x hx => List.mem_cons.mp ((insertStatic_perm y xs).mem_iff.mp hx)
      refine ih (U := V) (h.insertS hfs (h5 y (List.mem_cons_self ..)).1 (h1 y (List.mem_cons_self ..)) (h3 y (List.mem_cons_self ..)) (h4 y (List.mem_cons_self ..)).1
        (h4 y (List.mem_cons_self ..)).2 (h5 y (List.mem_cons_self ..)).2 (h6 y (List.mem_cons_self ..)).1
        (h6 y (List.mem_cons_self ..)).2 hu (hv y (List.mem_cons_self ..))) ?_ h2.2
        (fun z hz => h3 z (List.mem_cons_of_mem _ hz)) (fun z hz => h4 z (List.mem_cons_of_mem _ hz))
        (fun z hz => h5 z (List.mem_cons_of_mem _ hz)) (fun z hz => h6 z (List.mem_cons_of_mem _ hz)) (fun _ h => h)
        (fun z hz => hv z (List.mem_cons_of_mem _ hz))
      intro z hz x hx
      rcases hm x hx with rfl | hx
      · exact (h2.1 z hz).symm
      · exact h1 z (List.mem_cons_of_mem _ hz) x hx
    · simp only
      have := ih (s := dupAttr (attrName y) (attrKey y).range (attrKey x).range s) h (fun z hz => h1 z (List.mem_cons_of_mem _ hz)) h2.2
        (fun z hz => h3 z (List.mem_cons_of_mem _ hz)) (fun z hz => h4 z (List.mem_cons_of_mem _ hz))
        (fun z hz => h5 z (List.mem_cons_of_mem _ hz)) (fun z hz => h6 z (List.mem_cons_of_mem _ hz)) hu
        (fun z hz => hv z (List.mem_cons_of_mem _ hz))
      exact this

theorem merge_ids {C : Node → Prop} {x y : SA} {s : SemaSt} {U V W : Nat → Prop} (hx : SAOk C U x) (hy : SAOk C V y)
    (hd : ∀ i, U i → V i → False) (hu : ∀ i, U i → W i) (hv : ∀ i, V i → W i) :
    SAOk C W (mergeAttrSets x y s).1 ∧ (mergeAttrSets x y s).2.next = s.next := by
  have hfx : ∀ x' ∈ x.static, ∀ i, Pid (attrValue x') i → U i := fun x' h i hi => hx.foot i (.inl ⟨x', h, hi⟩)
  have hfy : ∀ y' ∈ y.static, ∀ i, Pid (attrValue y') i → V i := fun y' h i hi => hy.foot i (.inl ⟨y', h, hi⟩)
  have hdx : ∀ x' ∈ x.dynamic, ∀ i, FootD x' i → U i := fun x' h i hi => hx.foot i (.inr ⟨x', h, hi⟩)
  have hdy : ∀ y' ∈ y.dynamic, ∀ i, FootD y' i → V i := fun y' h i hi => hy.foot i (.inr ⟨y', h, hi⟩)
  -- the dynamic attributes together
  have h0 : SAOk C W ⟨x.static, x.dynamic ++ y.dynamic⟩ := by
    refine ⟨⟨hx.si.relS, List.pairwise_append.mpr ⟨hx.si.relD, hy.si.relD, fun a ha b hb i h1 h2 => hd i (hdx a ha i h1) (hdy b hb i h2)⟩,
      ?_, ?_, hx.si.names, ?_, hx.si.sel, hx.si.static⟩, hx.sval, ?_, ?_, hx.keys, ?_⟩
    · intro a ha b hb i h1 h2
      rcases List.mem_append.mp hb with hb | hb
      · exact hx.si.relSD a ha b hb i h1 h2
      · exact hd i (hfx a ha i h1) (hdy b hb i h2)
    · intro b hb
      rcases List.mem_append.mp hb with hb | hb
      · exact hx.si.dyn b hb
      · exact hy.si.dyn b hb
    · intro b hb
      rcases List.mem_append.mp hb with hb | hb
      · exact hx.si.nodes b (List.mem_append_left _ hb)
      · rcases List.mem_append.mp hb with hb | hb
        · exact hx.si.nodes b (List.mem_append_right _ hb)
        · exact hy.si.nodes b (List.mem_append_right _ hb)
    · intro b hb
      rcases List.mem_append.mp hb with hb | hb
      · exact hx.dkey b hb
      · exact hy.dkey b hb
    · intro b hb
      rcases List.mem_append.mp hb with hb | hb
      · exact hx.dval b hb
      · exact hy.dval b hb
    · rintro i (⟨a, ha, hi⟩ | ⟨b, hb, hi⟩)
      · exact hu i (hfx a ha i hi)
      · rcases List.mem_append.mp hb with hb | hb
        · exact hu i (hdx b hb i hi)
        · exact hv i (hdy b hb i hi)
  -- the static attributes of `y` share nothing with those of `x`, but their dynamic attributes are there
  have := mergeStatic_ids (s := s) h0 (ys := y.static) (V := W)
    (fun b hb a ha => .inl fun i h1 h2 => hd i (hfx a ha i h2) (hfy b hb i h1)) hy.si.relS
    (fun b hb d hd' i h1 h2 => by
      rcases List.mem_append.mp hd' with hd' | hd'
      · exact hd i (hdx d hd' i h2) (hfy b hb i h1)
      · exact hy.si.relSD b hb d hd' i h1 h2)
    (fun b hb => hy.si.nodes b (List.mem_append_left _ hb)) (fun b hb => ⟨hy.si.static b hb, hy.si.sel b hb⟩) (fun b hb => ⟨hy.sval b hb, hy.keys b hb⟩)
    (fun _ h => h) (fun b hb i hi => hv i (hfy b hb i hi))
  exact this

/-- The names and the value of a binding: they share nothing, and their identities are among `D`. -/
structure PathOk (C : Node → Prop) (D : Nat → Prop) (names : List Node) (e : Node) : Prop where
  nn : ∀ n ∈ names ++ [e], n.isNull = false → n.isNode = true
  vok : ∀ n ∈ names ++ [e], n.isNode = true → VOk C n
  keys : ∀ n ∈ names, n.isNode = true → C n
  sep : (names ++ [e]).Pairwise fun x y => x.isNode = true → y.isNode = true → PDisj x y
  ids : ∀ n ∈ names ++ [e], n.isNode = true → ∀ i, Pid n i → D i

theorem checkRec_next {r r' : CRange} {x y : Node} {s : SemaSt} : (checkAttrRecursiveForMerge r x r' y s).next = s.next := by
  unfold checkAttrRecursiveForMerge
  simp only
  split <;> rfl

theorem insertAttr_ids {C : Node → Prop} {U D : Nat → Prop} {sa : SA} {name e : Node} {s : SemaSt} (h : SAOk C U sa)
    (hp : PathOk C D [name] e) (hn : name.isNull = false) (hd : ∀ i, D i → ¬ U i) :
    SAOk C (fun i => U i ∨ D i) (insertAttr sa name e .plain s).1 ∧ (insertAttr sa name e .plain s).2.next = s.next := by
  have hname := hp.nn name (by simp) hn
  have hmono : SAOk C (fun i => U i ∨ D i) sa := h.mono fun i hi => .inl hi
  have he : e.isNull = false → e.isNode = true := hp.nn e (by simp)
  have hsep : e.isNode = true → PDisj name e := fun h' => by
    have := hp.sep
    simp only [List.cons_append, List.nil_append, List.pairwise_cons, List.mem_singleton] at this
    exact this.1 e rfl hname h'
  unfold insertAttr
  rcases hsn : name.staticName? with _ | n
  · simp only
    refine ⟨?_, trivial⟩
    split
    · exact hmono
    · rename_i hne
      have hne := he (by simpa using hne)
      refine SAOk.pushD (st := sa.static) (dy := sa.dynamic) h (y := .attr [] name e .plain) ?_ (hsep hne) hname hne
        (hp.vok name (by simp) hname) (hp.vok e (by simp) hne) (fun i hi => .inl hi) ?_
      · rintro i (hi | hi)
        · exact hd i (hp.ids name (by simp) hname i hi)
        · exact hd i (hp.ids e (by simp) hne i hi)
      · rintro i (hi | hi)
        · exact .inr (hp.ids name (by simp) hname i hi)
        · exact .inr (hp.ids e (by simp) hne i hi)
  · simp only
    rcases hfs : findStatic n sa.static with _ | a
    · simp only
      refine ⟨?_, trivial⟩
      split
      · exact hmono
      · rename_i hne
        have hne := he (by simpa using hne)
        refine SAOk.insertS (st := sa.static) (dy := sa.dynamic) h (y := .attr n name e .plain) hfs hsn ?_ ?_ hname hne nofun
          (hp.vok e (by simp) hne) (hp.keys name (by simp) hname) (fun i hi => .inl hi) ?_
        · exact fun x hx => .inl fun i h1 h2 => hd i (hp.ids e (by simp) hne i h1) (h.foot i (.inl ⟨x, hx, h2⟩))
        · exact fun x hx i h1 h2 => hd i (hp.ids e (by simp) hne i h1) (h.foot i (.inr ⟨x, hx, h2⟩))
        · exact fun i hi => .inr (hp.ids e (by simp) hne i hi)
    · simp only
      have hmem : a ∈ sa.static := List.mem_of_find?_eq_some hfs
      split
      · rename_i hx bx rx stx dyx hy by_ ry sty dyy hav
        have hk : attrKind a ≠ .inheritFrom := fun hc => by
          have := h.si.sel a hmem hc
          rw [hav] at this
          cases this
        have hxv := h.sval a hmem
        rw [hav] at hxv
        have hev := hp.vok (.exprAttrs hy by_ ry sty dyy) (by simp) rfl
        have hUx : ∀ i, Pid (.exprAttrs hx bx rx stx dyx) i → U i := fun i hi => h.foot i (.inl ⟨a, hmem, by rw [hav]; exact hi⟩)
        have hDe : ∀ i, Pid (.exprAttrs hy by_ ry sty dyy) i → D i := fun i hi => hp.ids _ (by simp) rfl i hi
        have hm := merge_ids (s := checkAttrRecursiveForMerge hx.range rx hy.range ry s) (unSet hxv) (unSet hev)
          (W := fun i => (Pid (.exprAttrs hx bx rx stx dyx) i ∧ i ≠ hx.id) ∨ Pid (.exprAttrs hy by_ ry sty dyy) i)
          (fun i h1 h2 => hd i (hDe i h2.1) (hUx i h1.1)) (fun i hi => .inl hi) (fun i hi => .inr hi.1)
        generalize mergeAttrSets ⟨stx, dyx⟩ ⟨sty, dyy⟩ (checkAttrRecursiveForMerge hx.range rx hy.range ry s) = ms at hm
        obtain ⟨m, s'⟩ := ms
        have hset := mkSet hm.1 (hd := hx) bx rx (by
          rintro (hc | hc)
          · exact hc.2 rfl
          · exact hd _ (hDe _ hc) (hUx _ (pid_self (.exprAttrs hx bx rx stx dyx))))
        refine ⟨?_, by rw [hm.2, checkRec_next]⟩
        refine SAOk.setS (st := sa.static) (dy := sa.dynamic) (N := D) h hfs hk rfl hset.1 ?_ hd (fun i hi => .inl hi) (fun i hi => .inr hi)
        intro i hi
        rw [hav]
        rcases hset.2 i hi with rfl | hi | hi
        · exact .inl (pid_self (.exprAttrs hx bx rx stx dyx))
        · exact .inl hi.1
        · exact .inr (hDe i hi)
      · exact ⟨hmono, rfl⟩

theorem addAttr_ids {C : Node → Prop} {sa : SA} {path : List Node} {e : Node} {s : SemaSt} {U D : Nat → Prop} (h : SAOk C U sa)
    (hp : PathOk C D path e) (hd : ∀ i, D i → ¬ U i) (hu : ∀ i, U i → i < s.next) (hdn : ∀ i, D i → i < s.next) :
    s.next ≤ (addAttr sa path e s).2.next ∧
    SAOk C (fun i => U i ∨ D i ∨ (s.next ≤ i ∧ i < (addAttr sa path e s).2.next)) (addAttr sa path e s).1 := by
  induction path generalizing sa s U D with
  | nil => exact ⟨Nat.le_refl _, h.mono fun i hi => .inl hi⟩
  | cons name rest ih =>
    have hhead : ∀ (hn : name.isNull = false), name.isNode = true := fun hn => hp.nn name (by simp) hn
    have hrest : PathOk C (fun i => D i ∧ (name.isNode = true → ¬ Pid name i)) rest e := by
      refine ⟨fun n hn => hp.nn n (by simp at hn ⊢; tauto), fun n hn => hp.vok n (by simp at hn ⊢; tauto),
        fun n hn => hp.keys n (List.mem_cons_of_mem _ hn), ?_, ?_⟩
      · have := hp.sep
        rw [List.cons_append, List.pairwise_cons] at this
        exact this.2
      · intro n hn hnn i hi
        refine ⟨hp.ids n (by simp at hn ⊢; tauto) hnn i hi, fun hc hi' => ?_⟩
        have := hp.sep
        rw [List.cons_append, List.pairwise_cons] at this
        exact this.1 n hn hc hnn i hi' hi
    rcases rest with _ | ⟨n2, rest⟩
    · unfold addAttr
      split
      · exact ⟨Nat.le_refl _, h.mono fun i hi => .inl hi⟩
      · rename_i hn
        have := insertAttr_ids (s := s) h hp (by simpa using hn) hd
        exact ⟨by rw [this.2]; exact Nat.le_refl _, this.1.mono fun i hi => hi.elim .inl (fun h => .inr (.inl h))⟩
    · unfold addAttr
      split
      · have := ih (s := s) h hrest (fun i hi => hd i hi.1) hu (fun i hi => hdn i hi.1)
        refine ⟨this.1, this.2.mono fun i hi => ?_⟩
        rcases hi with hi | hi | hi
        · exact .inl hi
        · exact .inr (.inl hi.1)
        · exact .inr (.inr hi)
      · rename_i hn
        have hname := hhead (by simpa using hn)
        have hcr := ih (s := { s with next := s.next + 1 }) (sa := {}) (U := fun _ => False) SAOk.nil hrest (fun i _ => id)
          (fun i hi => hi.elim) (fun i hi => Nat.lt_succ_of_lt (hdn i hi.1))
        split
        · rename_i n hsn
          split
          · rename_i a hfs
            have hmem : a ∈ sa.static := List.mem_of_find?_eq_some hfs
            split
            · rename_i hd' b r st dy hfi hav
              have hk : attrKind a ≠ .inheritFrom := fun hc => by
                have := h.si.sel a hmem hc
                rw [hav] at this
                cases this
              have hxv := h.sval a hmem
              rw [hav] at hxv
              have hUx : ∀ i, Pid (.exprAttrs hd' b r st dy) i → U i := fun i hi => h.foot i (.inl ⟨a, hmem, by rw [hav]; exact hi⟩)
              have hself := hUx _ (pid_self (.exprAttrs hd' b r st dy))
              have hi1 := ih (s := s) (unSet hxv) hrest (fun i hi hc => hd i hi.1 (hUx i hc.1)) (fun i hi => hu i (hUx i hi.1))
                (fun i hi => hdn i hi.1)
              generalize addAttr ⟨st, dy⟩ (n2 :: rest) e s = ms at hi1
              obtain ⟨inner, s'⟩ := ms
              have hset := mkSet hi1.2 (hd := hd') b r (by
                rintro (hc | hc | hc)
                · exact hc.2 rfl
                · exact hd _ hc.1 hself
                · have := hu _ hself
                  have h2 : (Node.exprAttrs hd' b r st dy).id = hd'.id := rfl
                  omega)
              refine ⟨hi1.1, ?_⟩
              refine SAOk.setS (st := sa.static) (dy := sa.dynamic) (N := fun i => D i ∨ (s.next ≤ i ∧ i < s'.next)) h hfs hk rfl hset.1 ?_ ?_
                (fun i hi => .inl hi) (fun i hi => .inr hi)
              · intro i hi
                rw [hav]
                rcases hset.2 i hi with rfl | hi | hi | hi
                · exact .inl (pid_self (.exprAttrs hd' b r st dy))
                · exact .inl hi.1
                · exact .inr (.inl hi.1)
                · exact .inr (.inr hi)
              · rintro i (hi | hi) hc
                · exact hd i hi hc
                · have := hu i hc
                  omega
            · exact ⟨Nat.le_refl _, h.mono fun i hi => .inl hi⟩
          · rename_i hfs
            generalize addAttr {} (n2 :: rest) e { s with next := s.next + 1 } = ms at hcr
            obtain ⟨inner, s'⟩ := ms
            have hset := mkSet hcr.2 (hd := ⟨s.next, name.range⟩) .null .null (by
              rintro (hc | hc | hc)
              · exact hc
              · exact absurd (hdn _ hc.1) (Nat.lt_irrefl _)
              · simp only at hc; omega)
            have hle : s.next + 1 ≤ s'.next := hcr.1
            have hpid : ∀ i, Pid (.exprAttrs ⟨s.next, name.range⟩ .null .null inner.static inner.dynamic) i →
                D i ∨ (s.next ≤ i ∧ i < s'.next) := by
              intro i hi
              rcases hset.2 i hi with rfl | hi | hi | hi
              · exact .inr ⟨Nat.le_refl _, hle⟩
              · exact hi.elim
              · exact .inl hi.1
              · simp only at hi
                exact .inr ⟨by omega, hi.2⟩
            have hdis : ∀ i, Pid (.exprAttrs ⟨s.next, name.range⟩ .null .null inner.static inner.dynamic) i → ¬ U i := by
              intro i hi hc
              rcases hpid i hi with hi | hi
              · exact hd i hi hc
              · have := hu i hc
                omega
            refine ⟨Nat.le_of_succ_le hle, ?_⟩
            exact SAOk.insertS (st := sa.static) (dy := sa.dynamic) h
              (y := .attr n name (.exprAttrs ⟨s.next, name.range⟩ .null .null inner.static inner.dynamic) .plain) hfs hsn
              (fun x hx => .inl fun i h1 h2 => hdis i h1 (h.foot i (.inl ⟨x, hx, h2⟩)))
              (fun x hx i h1 h2 => hdis i h1 (h.foot i (.inr ⟨x, hx, h2⟩))) hname rfl nofun hset.1
              (hp.keys name (by simp) hname) (fun i hi => .inl hi) (fun i hi => .inr (hpid i hi))
        · generalize addAttr {} (n2 :: rest) e { s with next := s.next + 1 } = ms at hcr
          obtain ⟨inner, s'⟩ := ms
          have hset := mkSet hcr.2 (hd := ⟨s.next, name.range⟩) .null .null (by
            rintro (hc | hc | hc)
            · exact hc
            · exact absurd (hdn _ hc.1) (Nat.lt_irrefl _)
            · simp only at hc; omega)
          have hle : s.next + 1 ≤ s'.next := hcr.1
          have hpid : ∀ i, Pid (.exprAttrs ⟨s.next, name.range⟩ .null .null inner.static inner.dynamic) i →
              (D i ∧ ¬ Pid name i) ∨ (s.next ≤ i ∧ i < s'.next) := by
            intro i hi
            rcases hset.2 i hi with rfl | hi | hi | hi
            · exact .inr ⟨Nat.le_refl _, hle⟩
            · exact hi.elim
            · exact .inl ⟨hi.1, hi.2 hname⟩
            · simp only at hi
              exact .inr ⟨by omega, hi.2⟩
          have hnid : ∀ i, Pid name i → D i := hp.ids name (by simp) hname
          refine ⟨Nat.le_of_succ_le hle, ?_⟩
          refine SAOk.pushD (st := sa.static) (dy := sa.dynamic) h
            (y := .attr [] name (.exprAttrs ⟨s.next, name.range⟩ .null .null inner.static inner.dynamic) .plain) ?_ ?_ hname rfl
            (hp.vok name (by simp) hname) hset.1 (fun i hi => .inl hi) ?_
          · rintro i (hi | hi) hc
            · exact hd i (hnid i hi) hc
            · rcases hpid i hi with hi | hi
              · exact hd i hi.1 hc
              · have := hu i hc
                omega
          · intro i h1 h2
            rcases hpid i h2 with hi | hi
            · exact hi.2 h1
            · have := hdn i (hnid i h1)
              omega
          · rintro i (hi | hi)
            · exact .inr (.inl (hnid i hi))
            · rcases hpid i hi with hi | hi
              · exact .inr (.inl hi.1)
              · exact .inr (.inr hi)

/-! ### `inherit` -/

theorem vok_leaf {C : Node → Prop} {n : Node} (hp : parts n = []) (hg : GoodN C n) : VOk C n :=
  VOk.of_parts (faithful_of_parts (by simp [hp]) (by simp [hp]) (by simp [hp])) hg (by simp [hp])

/-- What is inside of the desugared `inherit (e) name`. -/
theorem inside_select {h hp : Hd} {e name m : Node} {Δ : List Frame} (hn : name.isNode = true) (he : e.isNode = true)
    (hm : Inside (.exprSelect h e .null (.attrPath hp [name] []) .null true) Δ m) :
    (Δ = [] ∧ m = .exprSelect h e .null (.attrPath hp [name] []) .null true) ∨ Inside e Δ m ∨
      (Δ = [] ∧ m = .attrPath hp [name] []) ∨ Inside name Δ m := by
  have h1 : parts (.exprSelect h e .null (.attrPath hp [name] []) .null true) = [(false, e), (false, .attrPath hp [name] [])] := by
    have hx : (Node.attrPath hp [name] []).isNode = true := rfl
    have hz : Node.null.isNode = false := rfl
    simp [Scoping.parts, Node.children, he, hx, hz]
  have h2 : parts (.attrPath hp [name] []) = [(false, name)] := by
    simp [Scoping.parts, Node.children, hn]
  rcases inside_cases hm with h | ⟨p, hpp, E, h, rfl⟩
  · exact .inl h
  · rw [h1] at hpp
    simp only [List.mem_cons, List.not_mem_nil, or_false] at hpp
    rcases hpp with rfl | rfl
    · exact .inr (.inl h)
    · simp only at h
      rcases inside_cases h with h | ⟨p, hpp, E', h, rfl⟩
      · exact .inr (.inr (.inl h))
      · rw [h2] at hpp
        simp only [List.mem_cons, List.not_mem_nil, or_false] at hpp
        subst hpp
        exact .inr (.inr (.inr ‹_›))

theorem vok_select {C : Node → Prop} {h hp : Hd} {e name : Node} (hn : name.isNode = true) (he : e.isNode = true) (hv : VOk C name)
    (hve : VOk C e) (hd : PDisj name e) (h1 : ¬ Pid name hp.id) (h2 : ¬ Pid e hp.id) (h3 : ¬ Pid name h.id) (h4 : ¬ Pid e h.id)
    (h5 : hp.id ≠ h.id) : VOk C (.exprSelect h e .null (.attrPath hp [name] []) .null true) := by
  have p1 : parts (.exprSelect h e .null (.attrPath hp [name] []) .null true) = [(false, e), (false, .attrPath hp [name] [])] := by
    have hx : (Node.attrPath hp [name] []).isNode = true := rfl
    have hz : Node.null.isNode = false := rfl
    simp [Scoping.parts, Node.children, he, hx, hz]
  have p2 : parts (.attrPath hp [name] []) = [(false, name)] := by
    simp [Scoping.parts, Node.children, hn]
  have hpid : ∀ i, Pid (.attrPath hp [name] []) i → i = hp.id ∨ Pid name i := by
    intro i hi
    rcases pid_cases hi with rfl | ⟨p, hpp, hi⟩
    · exact .inl rfl
    · rw [p2] at hpp
      simp only [List.mem_cons, List.not_mem_nil, or_false] at hpp
      subst hpp
      exact .inr hi
  have hvp : VOk C (.attrPath hp [name] []) := by
    refine VOk.of_parts (faithful_of_parts ?_ ?_ ?_) ⟨trivial, trivial, nofun⟩ ?_
    · rw [p2]
      simp only [List.mem_cons, List.not_mem_nil, or_false]
      rintro p rfl q rfl _
      exact hv.1
    · rw [p2]
      simp only [List.mem_cons, List.not_mem_nil, or_false]
      rintro p rfl q rfl hc
      exact absurd rfl hc
    · rw [p2]
      simp only [List.mem_cons, List.not_mem_nil, or_false]
      rintro p rfl
      exact h1
    · rw [p2]
      simp only [List.mem_cons, List.not_mem_nil, or_false]
      rintro p rfl
      exact hv
  have hdp : PDisj e (.attrPath hp [name] []) := by
    intro i hi hi'
    rcases hpid i hi' with rfl | hi'
    · exact h2 hi
    · exact hd i hi' hi
  refine VOk.of_parts (faithful_of_parts ?_ ?_ ?_) ⟨trivial, trivial, nofun⟩ ?_
  · rw [p1]
    simp only [List.mem_cons, List.not_mem_nil, or_false]
    rintro p (rfl | rfl) q (rfl | rfl) _
    · exact hve.1
    · exact hdp.compat
    · exact hdp.symm.compat
    · exact hvp.1
  · rw [p1]
    simp only [List.mem_cons, List.not_mem_nil, or_false]
    rintro p (rfl | rfl) q (rfl | rfl) hc <;> exact absurd rfl hc
  · rw [p1]
    simp only [List.mem_cons, List.not_mem_nil, or_false]
    rintro p (rfl | rfl)
    · exact h4
    · intro hc
      rcases hpid _ hc with hc | hc
      · exact h5 hc.symm
      · exact h3 hc
  · rw [p1]
    simp only [List.mem_cons, List.not_mem_nil, or_false]
    rintro p (rfl | rfl)
    · exact hve
    · exact hvp

/-- The attributes of a set share nothing with `e`, or they come from `inherit (e)`. -/
structure Shared (e : Node) (sa : SA) : Prop where
  st : ∀ x ∈ sa.static, (∀ Δ m, Inside (attrValue x) Δ m → ¬ Pid e m.id) ∨
    (attrKind x = .inheritFrom ∧ ∀ Δ m, Inside (attrValue x) Δ m → Inside e Δ m ∨ ¬ Pid e m.id)
  dy : ∀ y ∈ sa.dynamic, ∀ i, FootD y i → ¬ Pid e i

theorem lowerInherit_ids {C : Node → Prop} {sa : SA} {names : List Node} {e : Node} {s : SemaSt} {U D : Nat → Prop} (h : SAOk C U sa)
    (hp : PathOk C D (names) e) (hj : e.isNode = true → Shared e sa)
    (hd : ∀ n ∈ names, n.isNode = true → ∀ i, Pid n i → ¬ U i)
    (hu : ∀ i, U i → i < s.next) (hdn : ∀ i, D i → i < s.next) :
    s.next ≤ (lowerInherit sa e names s).2.next ∧
    SAOk C (fun i => U i ∨ D i ∨ (s.next ≤ i ∧ i < (lowerInherit sa e names s).2.next)) (lowerInherit sa e names s).1 := by
  induction names generalizing sa s U with
  | nil => exact ⟨Nat.le_refl _, h.mono fun i hi => .inl hi⟩
  | cons name rest ih =>
    have hrest : PathOk C D rest e := by
      refine ⟨fun n hn => hp.nn n (by simp at hn ⊢; tauto), fun n hn => hp.vok n (by simp at hn ⊢; tauto),
        fun n hn => hp.keys n (List.mem_cons_of_mem _ hn), ?_, fun n hn => hp.ids n (by simp at hn ⊢; tauto)⟩
      have := hp.sep
      rw [List.cons_append, List.pairwise_cons] at this
      exact this.2
    have hsep : ∀ n ∈ rest ++ [e], name.isNode = true → n.isNode = true → PDisj name n := by
      have := hp.sep
      rw [List.cons_append, List.pairwise_cons] at this
      exact this.1
    -- one name
    have key : ∀ v kind s1, desugarInheritExpr name e s = (v, kind, s1) →
        s.next ≤ s1.next ∧ (lowerInheritName sa name v kind s1).2.next = s1.next ∧
        ∃ U', (∀ i, U' i → U i ∨ D i ∨ (s.next ≤ i ∧ i < s1.next)) ∧ (∀ i, U i → U' i) ∧
          (∀ n ∈ rest, n.isNode = true → ∀ i, Pid n i → ¬ U' i) ∧
          SAOk C U' (lowerInheritName sa name v kind s1).1 ∧
          (e.isNode = true → Shared e (lowerInheritName sa name v kind s1).1) := by
      intro v kind s1 hv
      have hnext : s.next ≤ s1.next := by
        unfold desugarInheritExpr at hv
        split at hv
        · split at hv <;> (cases hv; exact Nat.le_succ _)
        · cases hv; exact Nat.le_add_right _ 2
      refine ⟨hnext, ?_, ?_⟩
      · unfold lowerInheritName
        split
        · rfl
        · split
          · rfl
          · split <;> rfl
      have hsame : (lowerInheritName sa name v kind s1).1 = sa → ∃ U', (∀ i, U' i → U i ∨ D i ∨ (s.next ≤ i ∧ i < s1.next)) ∧ (∀ i, U i → U' i) ∧
          (∀ n ∈ rest, n.isNode = true → ∀ i, Pid n i → ¬ U' i) ∧
          SAOk C U' (lowerInheritName sa name v kind s1).1 ∧
          (e.isNode = true → Shared e (lowerInheritName sa name v kind s1).1) := fun heq =>
        ⟨U, fun i hi => .inl hi, fun i hi => hi, fun n hn => hd n (List.mem_cons_of_mem _ hn), by rw [heq]; exact h, by rw [heq]; exact hj⟩
      by_cases hnull : name.isNull = true
      · exact hsame (by unfold lowerInheritName; rw [if_pos hnull])
      have hname := hp.nn name (by simp) (by simpa using hnull)
      rcases hsn : name.staticName? with _ | n
      · exact hsame (by unfold lowerInheritName; rw [if_neg hnull, hsn])
      rcases hfs : findStatic n sa.static with _ | a
      · have heq : (lowerInheritName sa name v kind s1).1 = ⟨insertStatic (.attr n name v kind) sa.static, sa.dynamic⟩ := by
          unfold lowerInheritName
          rw [if_neg hnull]
          simp only [hsn, hfs]
        rw [heq]
        have hmem : ∀ x, x ∈ insertStatic (.attr n name v kind) sa.static → x = .attr n name v kind ∨ x ∈ sa.static :=
          fun x hx => List.mem_cons.mp ((insertStatic_perm _ _).mem_iff.mp hx)
        by_cases hen : e.isNull = true
        · -- `inherit name`
          have hvv : v.id = s.next ∧ parts v = [] ∧ v.isNode = true ∧ GoodN C v ∧ s1.next = s.next + 1 ∧ kind = .inherit := by
            unfold desugarInheritExpr at hv
            rw [if_pos hen] at hv
            split at hv <;> (cases hv; exact ⟨rfl, rfl, rfl, ⟨trivial, trivial, nofun⟩, rfl, rfl⟩)
          obtain ⟨v1, v2, v3, v4, v5, rfl⟩ := hvv
          have hpv : ∀ i, Pid v i → i = s.next := by
            intro i hi
            rcases pid_cases hi with rfl | ⟨p, hpp, _⟩
            · exact v1
            · rw [v2] at hpp; cases hpp
          refine ⟨fun i => U i ∨ i = s.next, fun i hi => ?_, fun i hi => .inl hi, ?_, ?_, ?_⟩
          · rcases hi with hi | rfl
            · exact .inl hi
            · exact .inr (.inr ⟨Nat.le_refl _, by omega⟩)
          · rintro m hm hmn i hi (hc | rfl)
            · exact hd m (List.mem_cons_of_mem _ hm) hmn i hi hc
            · exact absurd (hdn _ (hp.ids m (by simp [hm]) hmn _ hi)) (Nat.lt_irrefl _)
          · exact SAOk.insertS (st := sa.static) (dy := sa.dynamic) h (y := .attr n name v .inherit) hfs hsn
              (fun x hx => .inl fun i h1 h2 => by
                have := hu i (h.foot i (.inl ⟨x, hx, h2⟩)); have := hpv i h1; omega)
              (fun x hx i h1 h2 => by
                have := hu i (h.foot i (.inr ⟨x, hx, h2⟩)); have := hpv i h1; omega)
              hname v3 nofun (vok_leaf v2 v4) (hp.keys name (by simp) hname) (fun i hi => .inl hi) (fun i hi => .inr (hpv i hi))
          · intro hc
            rw [isNull_of_isNode hc] at hen
            cases hen
        · -- `inherit (e) name`
          have he := hp.nn e (by simp) (by simpa using hen)
          unfold desugarInheritExpr at hv
          rw [if_neg hen] at hv
          simp only [Prod.mk.injEq] at hv
          obtain ⟨hv1, hv2, hv3⟩ := hv
          subst hv3 hv2
          have hne := hsep e (by simp) hname he
          have hnid : ∀ i, Pid name i → i < s.next := fun i hi => hdn i (hp.ids name (by simp) hname i hi)
          have heid : ∀ i, Pid e i → i < s.next := fun i hi => hdn i (hp.ids e (by simp) he i hi)
          have hvok : VOk C v := by
            rw [← hv1]
            refine vok_select hname he (hp.vok name (by simp) hname) (hp.vok e (by simp) he) hne ?_ ?_ ?_ ?_ ?_
            · intro hc; have := hnid _ hc; simp only at this; omega
            · intro hc; have := heid _ hc; simp only at this; omega
            · intro hc; have := hnid _ hc; simp only at this; omega
            · intro hc; have := heid _ hc; simp only at this; omega
            · simp
          have hins : ∀ Δ m, Inside v Δ m → (m.id = s.next + 1 ∨ m.id = s.next) ∨ Inside e Δ m ∨ Pid name m.id := by
            intro Δ m hm
            rw [← hv1] at hm
            rcases inside_select hname he hm with ⟨rfl, rfl⟩ | hm | ⟨rfl, rfl⟩ | hm
            · exact .inl (.inl rfl)
            · exact .inr (.inl hm)
            · exact .inl (.inr rfl)
            · exact .inr (.inr ⟨_, _, hm, rfl⟩)
          have hpv : ∀ i, Pid v i → D i ∨ (s.next ≤ i ∧ i < s.next + 2) := by
            rintro i ⟨Δ, m, hm, rfl⟩
            rcases hins Δ m hm with (hi | hi) | hm | hm
            · exact .inr ⟨by omega, by omega⟩
            · exact .inr ⟨by omega, by omega⟩
            · exact .inl (hp.ids e (by simp) he _ ⟨_, _, hm, rfl⟩)
            · exact .inl (hp.ids name (by simp) hname _ hm)
          have hj := hj he
          refine ⟨fun i => U i ∨ Pid v i, fun i hi => ?_, fun i hi => .inl hi, ?_, ?_, ?_⟩
          · rcases hi with hi | hi
            · exact .inl hi
            · exact .inr (hpv i hi)
          · rintro m hm hmn i hi (hc | hc)
            · exact hd m (List.mem_cons_of_mem _ hm) hmn i hi hc
            · obtain ⟨Δ, m', hm', rfl⟩ := hc
              have := hdn _ (hp.ids m (by simp [hm]) hmn _ hi)
              rcases hins Δ m' hm' with (hc | hc) | hc | hc
              · omega
              · omega
              · have := hrest.sep
                rw [List.pairwise_append] at this
                exact this.2.2 m hm e (by simp) hmn he _ hi ⟨_, _, hc, rfl⟩
              · exact hsep m (by simp [hm]) hname hmn _ hc hi
          · refine SAOk.insertS (st := sa.static) (dy := sa.dynamic) h (y := .attr n name v .inheritFrom) hfs hsn ?_ ?_
              hname (by rw [← hv1]; rfl) (fun _ => by rw [← hv1]; rfl) hvok (hp.keys name (by simp) hname) (fun i hi => .inl hi) (fun i hi => .inr hi)
            · intro x hx
              have hux : ∀ Δ m, Inside (attrValue x) Δ m → U m.id := fun Δ m hm => h.foot _ (.inl ⟨x, hx, _, _, hm, rfl⟩)
              rcases hj.st x hx with hx1 | ⟨k, hx1⟩
              · refine .inl ?_
                rintro i ⟨Δ, m, hm, rfl⟩ ⟨Δ', m', hm', hid⟩
                have hU := hux Δ' m' hm'
                have := hu _ hU
                rw [hid] at hU this
                rcases hins Δ m hm with (hc | hc) | hc | hc
                · omega
                · omega
                · exact hx1 Δ' m' hm' ⟨_, _, hc, hid.symm⟩
                · exact hd name (by simp) hname _ hc hU
              · refine .inr ⟨rfl, k, ?_⟩
                intro Δ m Δ' m' hm hm' hid
                have hU := hux Δ' m' hm'
                have := hu _ hU
                rcases hins Δ m hm with (hc | hc) | hc | hc
                · omega
                · omega
                · rcases hx1 Δ' m' hm' with h1 | h1
                  · exact (hp.vok e (by simp) he).1 _ _ _ _ hc h1 hid
                  · exact absurd ⟨_, _, hc, hid⟩ h1
                · rw [hid] at hc
                  exact absurd hU (hd name (by simp) hname _ hc)
            · rintro y hy i ⟨Δ, m, hm, rfl⟩ hi'
              have hU := h.foot _ (.inr ⟨y, hy, hi'⟩)
              have := hu _ hU
              rcases hins Δ m hm with (hc | hc) | hc | hc
              · omega
              · omega
              · exact hj.dy y hy _ hi' ⟨_, _, hc, rfl⟩
              · exact hd name (by simp) hname _ hc hU
          · refine fun _ => ⟨?_, hj.dy⟩
            intro x hx
            rcases hmem x hx with rfl | hx
            · refine .inr ⟨rfl, fun Δ m hm => ?_⟩
              rcases hins Δ m hm with hc | hc | hc
              · refine .inr fun hc' => ?_
                have := heid _ hc'
                omega
              · exact .inl hc
              · exact .inr fun hc' => hne _ hc hc'
            · exact hj.st x hx
      · exact hsame (by unfold lowerInheritName; rw [if_neg hnull]; simp only [hsn, hfs])
    unfold lowerInherit
    rcases hds : desugarInheritExpr name e s with ⟨v, kind, s1⟩
    simp only
    obtain ⟨k1, k2, U', k3, k4, k5, k6, k7⟩ := key v kind s1 hds
    rcases hlin : lowerInheritName sa name v kind s1 with ⟨sa1, s2⟩
    rw [hlin] at k2 k6 k7
    simp only at k2 k6 k7 ⊢
    have := ih (s := s2) k6 hrest k7 k5 (fun i hi => by
      rcases k3 i hi with hi | hi | hi
      · have := hu i hi; omega
      · have := hdn i hi; omega
      · omega) (fun i hi => by have := hdn i hi; omega)
    refine ⟨by omega, this.2.mono fun i hi => ?_⟩
    rcases hi with hi | hi | hi
    · rcases k3 i hi with hi | hi | hi
      · exact .inl hi
      · exact .inr (.inl hi)
      · exact .inr (.inr ⟨hi.1, by omega⟩)
    · exact .inr (.inl hi)
    · exact .inr (.inr ⟨by omega, hi.2⟩)

/-! ### Bindings -/

/-- A binding with the identities `D`. -/
def BindOk (C : Node → Prop) (D : Nat → Prop) : Node → Prop
  | .inherit _ names e => PathOk C D names e
  | .binding _ (.attrPath _ names _) _ v => PathOk C D names v
  | _ => False

theorem PathOk.mono {C C' : Node → Prop} {D : Nat → Prop} {names : List Node} {e : Node} (h : PathOk C D names e)
    (hc : ∀ k, C k → C' k) : PathOk C' D names e :=
  ⟨h.nn, fun n hn hnn => (h.vok n hn hnn).mono hc, fun n hn hnn => hc _ (h.keys n hn hnn), h.sep, h.ids⟩

theorem BindOk.mono {C C' : Node → Prop} {D : Nat → Prop} {b : Node} (h : BindOk C D b) (hc : ∀ k, C k → C' k) : BindOk C' D b := by
  unfold BindOk at h ⊢
  split at h
  · exact PathOk.mono h hc
  · exact PathOk.mono h hc
  · exact h.elim

/-- Bindings parsed one after the other. -/
inductive BSeq (C : Node → Prop) : Nat → Nat → List Node → Prop
  | nil (a b) : a ≤ b → BSeq C a b []
  | cons (a c b x xs) : BindOk C (fun i => a ≤ i ∧ i < c) x → a ≤ c → BSeq C c b xs → BSeq C a b (x :: xs)

theorem BSeq.mono {C C' : Node → Prop} {a b : Nat} {bs : List Node} (h : BSeq C a b bs) (hc : ∀ k, C k → C' k) : BSeq C' a b bs := by
  induction h with
  | nil a b h => exact .nil _ _ h
  | cons a c b x xs h1 h2 _ ih => exact .cons _ _ _ _ _ (h1.mono hc) h2 ih

theorem BSeq.le {C : Node → Prop} {a b : Nat} {bs : List Node} (h : BSeq C a b bs) : a ≤ b := by
  induction h with
  | nil a b h => exact h
  | cons a c b x xs h1 h2 _ ih => omega

theorem lowerBinds_ids {C : Node → Prop} {a0 a b N : Nat} {bs : List Node} (hb : BSeq C a b bs) {sa : SA} {s : SemaSt}
    (h : SAOk C (fun i => (a0 ≤ i ∧ i < a) ∨ (N ≤ i ∧ i < s.next)) sa) (ha : a0 ≤ a) (hbN : b ≤ N) (hN : N ≤ s.next) :
    s.next ≤ (lowerBinds sa bs s).2.next ∧
    SAOk C (fun i => (a0 ≤ i ∧ i < b) ∨ (N ≤ i ∧ i < (lowerBinds sa bs s).2.next)) (lowerBinds sa bs s).1 := by
  induction hb generalizing sa s with
  | nil a b hab =>
    refine ⟨Nat.le_refl _, h.mono fun i hi => ?_⟩
    simp only [lowerBinds]
    omega
  | cons a c b x xs hx hac hxs ih =>
    have hcb := hxs.le
    have fin : ∀ sa1 s1, s.next ≤ s1.next → SAOk C (fun i => ((a0 ≤ i ∧ i < a) ∨ (N ≤ i ∧ i < s.next)) ∨ (a ≤ i ∧ i < c) ∨ (s.next ≤ i ∧ i < s1.next)) sa1 →
        s.next ≤ (lowerBinds sa1 xs s1).2.next ∧
        SAOk C (fun i => (a0 ≤ i ∧ i < b) ∨ (N ≤ i ∧ i < (lowerBinds sa1 xs s1).2.next)) (lowerBinds sa1 xs s1).1 := by
      intro sa1 s1 h1 h2
      have := ih (sa := sa1) (s := s1) (h2.mono fun i hi => by omega) (by omega) hbN (by omega)
      exact ⟨by omega, this.2⟩
    unfold BindOk at hx
    split at hx
    · rename_i hh names e
      have := lowerInherit_ids (s := s) h hx (fun he => ⟨?_, ?_⟩) ?_ (fun i hi => by omega) (fun i hi => by omega)
      · exact fin _ _ this.1 this.2
      · intro y hy
        refine .inl fun Δ m hm hc => ?_
        have h1 := h.foot _ (.inl ⟨y, hy, _, _, hm, rfl⟩)
        have h2 := hx.ids e (by simp) he _ hc
        omega
      · intro y hy i hi hc
        have h1 := h.foot _ (.inr ⟨y, hy, hi⟩)
        have h2 := hx.ids e (by simp) he _ hc
        omega
      · intro n hn hnn i hi hc
        have h2 := hx.ids n (by simp [hn]) hnn _ hi
        omega
    · rename_i hh hp names ds eq v
      have := addAttr_ids (s := s) h hx (fun i hi hc => by omega) (fun i hi => by omega)
        (fun i hi => by omega)
      exact fin _ _ this.1 this.2
    · exact hx.elim

/-- An attribute set. -/
theorem onExprAttrs_ids {a : Nat} {r : CRange} {body rec : Node} {s : SemaSt} (ha : a ≤ s.next) (hcov : Cov a s.next [rec, body])
    (hb : body = .null ∨ ∃ h bs, body = .binds h bs ∧ BSeq (Reach body) a s.next bs) (hr : Leaf rec) :
    s.next ≤ (onExprAttrs r body rec s).2.next ∧
    G a (onExprAttrs r body rec s).2.next (onExprAttrs r body rec s).1 ∧
    ∃ h st dy, (onExprAttrs r body rec s).1 = .exprAttrs h body rec st dy := by
  have key : ∃ (sa : SA) (s' : SemaSt), s.next ≤ s'.next ∧
      SAOk (Reach body) (fun i => (a ≤ i ∧ i < s.next) ∨ (s.next ≤ i ∧ i < s'.next)) sa ∧
      onExprAttrs r body rec s = (.exprAttrs ⟨s'.next, r⟩ body rec sa.static sa.dynamic, { s' with next := s'.next + 1 }) := by
    rcases hb with rfl | ⟨h, bs, rfl, hb⟩
    · exact ⟨{}, s, Nat.le_refl _, SAOk.nil, rfl⟩
    · have := lowerBinds_ids hb (s := s) (a0 := a) (N := s.next) (sa := {}) SAOk.nil (Nat.le_refl _) (Nat.le_refl _) (Nat.le_refl _)
      exact ⟨_, _, this.1, this.2, rfl⟩
  obtain ⟨sa, s', hn, hsa, heq⟩ := key
  rw [heq]
  have hset := mkSet hsa (hd := ⟨s'.next, r⟩) body rec (by simp only; omega)
  have hch : ∀ c ∈ (Node.exprAttrs ⟨s'.next, r⟩ body rec sa.static sa.dynamic).children, c ∈ [rec, body] := by
    intro c hc
    have := List.mem_filter.mp hc
    simp only [List.mem_cons, List.not_mem_nil, or_false] at this ⊢
    tauto
  have hrid : ∀ c ∈ (Node.exprAttrs ⟨s'.next, r⟩ body rec sa.static sa.dynamic).children, ∀ i, Rid c i → a ≤ i ∧ i < s.next := fun c hc i hi =>
    (hcov.all c (hch c hc)).rid (children_isNode hc) i hi
  refine ⟨by simp only; omega, ⟨fun _ => rfl, ?_, ?_, cinj_of hcov hch ?_, up_of hcov (fun c h => .inl (hch c h)) ⟨hb.imp id fun ⟨h, bs, e, _⟩ => ⟨h, bs, e⟩, hr, s, by rw [show (⟨s'.next, r⟩ : Hd).range = r from rfl, heq]⟩, ?_⟩, _, _, _, rfl⟩
  · intro _ i hi
    rcases hset.2 i hi with rfl | hi <;> (simp only at *; omega)
  · intro _ i hi
    rcases rid_cases hi with rfl | ⟨c, hc, hi⟩
    · have : (Node.exprAttrs ⟨s'.next, r⟩ body rec sa.static sa.dynamic).id = s'.next := rfl
      simp only
      omega
    · have := hrid c hc i hi
      simp only
      omega
  · intro c hc hi
    have := hrid c hc _ hi
    have h2 : (Node.exprAttrs ⟨s'.next, r⟩ body rec sa.static sa.dynamic).id = s'.next := rfl
    simp only at this
    omega
  · by_cases hbn : body.isNode = true
    · exact hset.1.mono fun k hk => .down _ _ _ (by simp [Node.children, hbn]) hk
    · -- no bindings: no keys
      rcases hb with rfl | ⟨h, bs, rfl, _⟩
      · have : sa = {} := by
          simp only [onExprAttrs] at heq
          cases sa
          simp only [Prod.mk.injEq, Node.exprAttrs.injEq] at heq
          simp only [← heq.1.2.2.2.1, ← heq.1.2.2.2.2]
        subst this
        exact (mkSet (C := Reach _) (U := fun _ => False) SAOk.nil (hd := ⟨s'.next, r⟩) .null rec (fun h => h)).1
      · exact absurd rfl hbn

end Verif.Nixf
