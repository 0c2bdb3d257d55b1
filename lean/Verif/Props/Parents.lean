import Verif.Lemmas.Parents
import Verif.Lemmas.IdsParse
/-
C26: the map of parents of a parsed tree.
-/
namespace Verif.Props
open Nixf Scoping

variable {src : Bytes} {root : Node} {s : PState}

theorem pm_ok (h : parse src = some (root, s)) :
    (∀ i q, ptrFind i (runPM root) = some q → Entry root i q) ∧ ∀ i, Rid root i → ptrFind i (runPM root) ≠ none := by
  have := pmDfs_ok (parse_ids h).up.1 (sizeOf root) root root [] (Nat.le_refl _) (.here _) (.inl ⟨rfl, rfl⟩) nofun
  exact this.2

theorem reach_child {p c : Node} (h : Reach root p) (hc : c ∈ p.children) : Reach root c := h.trans (.down _ _ _ hc (.here _))

/-- A node below the root is not the root. -/
theorem child_ne {p c : Node} (h : Reach root p) (hc : c ∈ p.children) : c ≠ root := by
  rintro rfl
  have := reach_size h
  have := children_size hc
  omega

/-- The root is its own parent. -/
theorem C26_root (h : parse src = some (root, s)) : (runPM root).query root = some root := by
  obtain ⟨h1, h2⟩ := pm_ok h
  unfold PMap.query
  rcases hx : ptrFind root.id (runPM root) with _ | q
  · exact absurd hx (h2 _ (rid_self _))
  · rcases h1 _ _ hx with ⟨-, rfl⟩ | ⟨c, hc, hr, hm, -⟩
    · rfl
    · exact absurd ((parse_ids h).cinj _ _ (reach_child hr hm) (.here _) hc) (child_ne hr hm)

/-- The map has exactly the parents of the nodes below the root. -/
theorem C26_parent (h : parse src = some (root, s)) (c p : Node) (hr : Reach root c) (hne : c ≠ root) :
    (runPM root).query c = some p ↔ ParentOf root p c := by
  obtain ⟨h1, h2⟩ := pm_ok h
  have hcinj := (parse_ids h).cinj
  have key : ∃ q, (runPM root).query c = some q ∧ ParentOf root q c := by
    rcases hx : ptrFind c.id (runPM root) with _ | q
    · exact absurd hx (h2 _ ⟨_, hr, rfl⟩)
    · refine ⟨q, hx, ?_⟩
      rcases h1 _ _ hx with ⟨hi, rfl⟩ | ⟨d, hd, hq, hm, hk⟩
      · exact absurd (hcinj _ _ hr (.here _) hi) hne
      · cases hcinj _ _ (reach_child hq hm) hr hd
        exact ⟨hq, hm, hk⟩
  obtain ⟨q, hq, hpar⟩ := key
  rw [hq]
  refine ⟨fun e => by cases e; exact hpar, fun hp => ?_⟩
  rcases (parse_ids h).up.1 _ _ _ hpar.1 hp.1 hpar.2.1 hp.2.1 with rfl | hl | hl
  · rfl
  · exact absurd hl (hpar.2.2 _ hp.1)
  · exact absurd hl (hp.2.2 _ hpar.1)

/-- Every node below the root has exactly one parent. -/
theorem C26_unique (h : parse src = some (root, s)) (c : Node) (hr : Reach root c) (hne : c ≠ root) :
    ∃ p, ParentOf root p c ∧ ∀ p', ParentOf root p' c → p' = p := by
  obtain ⟨h1, h2⟩ := pm_ok h
  rcases hx : (runPM root).query c with _ | p
  · exact absurd hx (h2 _ ⟨_, hr, rfl⟩)
  · have := C26_parent h c
    refine ⟨p, (this p hr hne).mp hx, fun p' hp' => ?_⟩
    have := (this p' hr hne).mpr hp'
    rw [hx] at this
    cases this
    rfl

/-- Nothing but the nodes of the tree is in the map. -/
theorem C26_only (h : parse src = some (root, s)) (i : Nat) (q : Node) (hq : (i, q) ∈ runPM root) : ∃ n, Reach root n ∧ n.id = i := by
  obtain ⟨h1, -⟩ := pm_ok h
  rcases hx : ptrFind i (runPM root) with _ | q'
  · unfold ptrFind at hx
    rw [Option.map_eq_none_iff, List.find?_eq_none] at hx
    exact absurd (hx _ hq) (by simp)
  · rcases h1 _ _ hx with ⟨rfl, -⟩ | ⟨c, rfl, hr, hm, -⟩
    · exact ⟨_, .here _, rfl⟩
    · exact ⟨_, reach_child hr hm, rfl⟩

/-- `isRoot` holds of the root only. -/
theorem C26_isRoot (h : parse src = some (root, s)) (n : Node) (hr : Reach root n) : (runPM root).isRoot n = true ↔ n = root := by
  unfold PMap.isRoot
  by_cases hne : n = root
  · subst hne
    simp [C26_root h]
  · obtain ⟨p, hp, -⟩ := C26_unique h n hr hne
    rw [(C26_parent h n p hr hne).mpr hp]
    simp only [beq_iff_eq, hne, iff_false]
    intro hid
    have := (parse_ids h).cinj _ _ hp.1 hr hid
    subst this
    have := children_size hp.2.1
    omega

/-- `isRoot` does not hold of nodes that are not in the tree. -/
theorem C26_isRoot_outside (h : parse src = some (root, s)) (n : Node) (hn : ∀ m, Reach root m → m.id ≠ n.id) : (runPM root).isRoot n = false := by
  unfold PMap.isRoot PMap.query
  rcases hx : ptrFind n.id (runPM root) with _ | q
  · rfl
  · rcases (pm_ok h).1 _ _ hx with ⟨hi, -⟩ | ⟨c, hi, hr, hm, -⟩
    · exact absurd hi.symm (hn _ (.here _))
    · exact absurd hi (hn _ (reach_child hr hm))

theorem ancestors_exist (h : parse src = some (root, s)) (k : Nat) : ∀ n, Reach root n → sizeOf root < sizeOf n + k →
    ∃ l, Ancestors root n l ∧ sizeOf n + l.length ≤ sizeOf root + 1 := by
  induction k with
  | zero =>
    intro n hr hk
    have := reach_size hr
    omega
  | succ k ih =>
    intro n hr hk
    by_cases hne : n = root
    · subst hne
      exact ⟨_, .root, by simp⟩
    · obtain ⟨p, hp, -⟩ := C26_unique h n hr hne
      have hs := children_size hp.2.1
      obtain ⟨l, hl, hlen⟩ := ih p hp.1 (by omega)
      exact ⟨_, .child _ _ _ hp hl, by simp; omega⟩

/-- Searching upwards ends, after at most as many steps as the tree is large, with the nearest node of the kind on the way
to the root, or with nothing if there is none. -/
theorem C26_up (h : parse src = some (root, s)) (kind : Node → Bool) (n : Node) (hr : Reach root n) :
    ∃ l, Ancestors root n l ∧ ∀ fuel, sizeOf root ≤ fuel → (runPM root).upTo kind fuel n = some (l.find? kind) := by
  obtain ⟨l, hl, hlen⟩ := ancestors_exist h (sizeOf root + 1) n hr (by omega)
  refine ⟨l, hl, fun fuel hf => ?_⟩
  have hn : 0 < sizeOf n := by cases n <;> simp <;> omega
  have hlen' : l.length ≤ fuel := by omega
  clear hlen hf hn
  induction hl generalizing fuel with
  | root =>
    cases fuel with
    | zero => simp at hlen'
    | succ k =>
      unfold PMap.upTo
      by_cases hk : kind root = true
      · simp [hk]
      · simp [hk, C26_root h]
  | child p c l hp hl ih =>
    cases fuel with
    | zero => simp at hlen'
    | succ k =>
      unfold PMap.upTo
      by_cases hk : kind c = true
      · simp [hk]
      · have hroot := C26_isRoot h c hr
        have hcn := child_ne hp.1 hp.2.1
        have hq := (C26_parent h c p hr hcn).mpr hp
        unfold PMap.isRoot at hroot
        rw [hq] at hroot
        have hb : (p.id == c.id) = false := by
          simpa [hcn] using hroot
        rw [if_neg hk, hq]
        simp only [hb, Bool.false_eq_true, if_false]
        rw [List.find?_cons_of_neg hk]
        exact ih hp.1 k (by simpa using hlen')

/-- The same for expressions. -/
theorem C26_upExpr (h : parse src = some (root, s)) (n : Node) (hr : Reach root n) :
    ∃ l, Ancestors root n l ∧ ∀ fuel, sizeOf root ≤ fuel → (runPM root).upExpr fuel n = some (l.find? Node.isExpr) :=
  C26_up h _ n hr

/-- The tree of `let a = f 1; in a`. -/
def pmTree : Node := ((parse b!"let a = f 1; in a").map (·.1)).getD .null

/-- The identities of the nodes with those of their parents. -/
def pmIds (n : Node) : List (Nat × Nat) := (pmDfs 100 n n []).map fun e => (e.1, e.2.id)

example : pmIds pmTree = [(16, 16), (1, 16), (12, 16), (11, 12), (10, 11), (4, 10), (3, 4), (2, 3), (5, 10), (9, 10), (7, 9), (6, 7),
    (8, 9), (13, 16), (15, 16), (14, 15)] := by decide +kernel

/-- The first expression above the identifier `f` (6) is the variable (7), above the call (9) the call itself; no lambda is above. -/
example :
    let m := pmDfs 100 pmTree pmTree []
    ((m.find? (·.1 == 6)).bind fun e => (m.upExpr 100 e.2).map fun o => o.map Node.id) = some (some 7) ∧
    (m.upTo (fun n => n matches .exprLambda ..) 100 pmTree).map (fun o => o.map Node.id) = some none := by decide +kernel

end Verif.Props
