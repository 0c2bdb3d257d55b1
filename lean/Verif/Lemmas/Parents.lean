import Verif.Model.ParentMap
import Verif.Lemmas.Ids
/-
The map of parents.
-/
namespace Verif.Nixf
open Scoping

theorem ptrFind_insert {α : Type} (k i : Nat) (v : α) (m : List (Nat × α)) :
    ptrFind i (ptrInsert k v m) = (ptrFind i m).or (if i = k then some v else none) := by
  unfold ptrInsert ptrFind
  by_cases hk : m.any (fun p => p.1 == k) = true
  · rw [if_pos hk]
    by_cases hi : i = k
    · subst hi
      obtain ⟨p, hp, hpk⟩ := List.any_eq_true.mp hk
      rcases hf : m.find? (fun p => p.1 == i) with _ | q
      · exact absurd hpk (List.find?_eq_none.mp hf p hp)
      · simp [hf]
    · simp [hi]
  · rw [if_neg hk, List.find?_append]
    by_cases hi : i = k
    · subst hi
      rcases hf : m.find? (fun p => p.1 == i) with _ | q <;> simp [hf]
    · have : (k == i) = false := by simpa using fun h => hi h.symm
      simp [this, hi]

/-- An entry is the parent of the node, and not the set of a `let` if the node is the keyword. -/
def Entry (root : Node) (i : Nat) (q : Node) : Prop :=
  (i = root.id ∧ q = root) ∨
    ∃ c, c.id = i ∧ Reach root q ∧ c ∈ q.children ∧ ∀ q', Reach root q' → ¬ LetKw q c q'

/-- The way a node is visited. -/
def Visit (root n p : Node) (m : PMap) : Prop :=
  (n = root ∧ p = root) ∨ (n ∈ p.children ∧ Reach root p ∧
    (ptrFind n.id m = none → ∀ q', Reach root q' → ¬ LetKw p n q') ∧ ∀ d, d.isNode = true → LetKw n d p → ptrFind d.id m ≠ none)

theorem pmDfs_ok {root : Node} (hu : UPar root) (k : Nat) : ∀ n p m, sizeOf n ≤ k → Reach root n →
    Visit root n p m → (∀ i q, ptrFind i m = some q → Entry root i q) →
    (∀ i q, ptrFind i m = some q → ptrFind i (pmDfs k n p m) = some q) ∧
    (∀ i q, ptrFind i (pmDfs k n p m) = some q → Entry root i q) ∧
    ∀ i, Rid n i → ptrFind i (pmDfs k n p m) ≠ none := by
  induction k with
  | zero =>
    intro n p m hn
    exfalso
    cases n <;> simp at hn
  | succ k ih =>
    intro n p m hn hr hv hm
    unfold pmDfs
    generalize hm0 : ptrInsert n.id p m = m0
    have hf0 : ∀ i, ptrFind i m0 = (ptrFind i m).or (if i = n.id then some p else none) := fun i => by rw [← hm0, ptrFind_insert]
    have h1 : ∀ i q, ptrFind i m = some q → ptrFind i m0 = some q := fun i q h => by rw [hf0, h]; rfl
    have h2 : ∀ i q, ptrFind i m0 = some q → Entry root i q := by
      intro i q h
      rw [hf0] at h
      rcases hq : ptrFind i m with _ | q'
      · rw [hq] at h
        simp only [Option.none_or] at h
        split at h
        · rename_i hi
          cases h
          subst hi
          rcases hv with ⟨rfl, rfl⟩ | ⟨v1, v2, v3, -⟩
          · exact .inl ⟨rfl, rfl⟩
          · exact .inr ⟨n, rfl, v2, v1, v3 hq⟩
        · cases h
      · rw [hq] at h
        cases h
        exact hm i _ hq
    have h3 : ptrFind n.id m0 ≠ none := by
      rw [hf0]
      rcases ptrFind n.id m with _ | q' <;> simp
    -- a keyword `let` below this set has been seen
    have hkw : ∀ d ∈ n.children, ∀ q', Reach root q' → LetKw n d q' → ptrFind d.id m0 ≠ none := by
      intro d hd q' hq' hl
      have hnq := (hl.mem (children_isNode hd)).2
      rcases hv with ⟨rfl, rfl⟩ | ⟨v1, v2, -, v4⟩
      · exfalso
        have := reach_size hq'
        have := children_size hnq
        omega
      · have hpq : p = q' := by
          rcases hu _ _ _ v2 hq' v1 hnq with h | h | h
          · exact h
          · exfalso
            obtain ⟨_, b, st, dy, rfl, ⟨_, _, _, e1⟩ | ⟨_, e1⟩⟩ := h <;>
              obtain ⟨_, _, _, _, e0, ⟨_, _, _, e2⟩ | ⟨_, e2⟩⟩ := hl <;> rw [e2] at e1 <;> cases e1
          · exfalso
            obtain ⟨_, _, _, _, rfl, _⟩ := h
            obtain ⟨_, _, _, _, _, ⟨_, _, _, e2⟩ | ⟨_, e2⟩⟩ := hl <;> cases e2
        subst hpq
        have := v4 d (children_isNode hd) hl
        rw [hf0]
        rcases hq : ptrFind d.id m with _ | q
        · exact absurd hq this
        · simp
    -- the children
    have fold : ∀ (post pre : List Node) (m1 : PMap), n.children = pre ++ post → (∀ i q, ptrFind i m0 = some q → ptrFind i m1 = some q) →
        (∀ i q, ptrFind i m1 = some q → Entry root i q) → (∀ c ∈ pre, ∀ i, Rid c i → ptrFind i m1 ≠ none) →
        (∀ i q, ptrFind i m1 = some q → ptrFind i (post.foldl (fun m c => pmDfs k c n m) m1) = some q) ∧
        (∀ i q, ptrFind i (post.foldl (fun m c => pmDfs k c n m) m1) = some q → Entry root i q) ∧
        ∀ c ∈ pre ++ post, ∀ i, Rid c i → ptrFind i (post.foldl (fun m c => pmDfs k c n m) m1) ≠ none := by
      intro post
      induction post with
      | nil =>
        intro pre m1 hpp hm1 he hpre
        exact ⟨fun i q h => h, he, by simpa using hpre⟩
      | cons d post ihp =>
        intro pre m1 hpp hm1 he hpre
        have hd : d ∈ n.children := by rw [hpp]; simp
        have hsz := children_size hd
        have hvd : Visit root d n m1 := by
          refine .inr ⟨hd, hr, ?_, ?_⟩
          · intro hno q' hq' hl
            have := hkw d hd q' hq' hl
            rcases hx : ptrFind d.id m0 with _ | q
            · exact this hx
            · rw [hm1 _ _ hx] at hno; cases hno
          · intro kw hkn hl
            -- the keyword is the first child
            have hpre1 : kw ∈ pre := by
              have hne : kw ≠ d := by
                rintro rfl
                obtain ⟨h, b, st, dy, e1, -⟩ := hl
                have : sizeOf kw < sizeOf kw := by
                  conv_rhs => rw [e1]
                  simp
                  omega
                omega
              have hfirst : ∃ rest, n.children = kw :: rest := by
                obtain ⟨h, b, st, dy, rfl, ⟨h', i, e, rfl⟩ | ⟨h', rfl⟩⟩ := hl
                · simp [Node.children, List.filter_cons, hkn]
                · simp [Node.children, List.filter_cons, hkn]
              obtain ⟨rest, hrest⟩ := hfirst
              rw [hrest] at hpp
              cases pre with
              | nil => simp at hpp; exact absurd hpp.1 hne
              | cons x pre => simp at hpp; simp [hpp.1]
            exact hpre kw hpre1 _ (rid_self kw)
        obtain ⟨a1, a2, a3⟩ := ih d n m1 (by omega) (hr.trans (.down _ _ _ hd (.here _))) hvd he
        rw [List.foldl_cons]
        obtain ⟨b1, b2, b3⟩ := ihp (pre ++ [d]) _ (by rw [hpp]; simp) (fun i q h => a1 i q (hm1 i q h)) a2 (by
          intro c hc i hi
          rcases List.mem_append.mp hc with hc | hc
          · have := hpre c hc i hi
            rcases hx : ptrFind i m1 with _ | q
            · exact absurd hx this
            · rw [a1 i q hx]; simp
          · rw [List.mem_singleton.mp hc] at hi
            exact a3 i hi)
        refine ⟨fun i q h => b1 i q (a1 i q h), b2, fun c hc => b3 c (by simpa using hc)⟩
    obtain ⟨c1, c2, c3⟩ := fold n.children [] m0 rfl (fun _ _ h => h) h2 (by simp)
    refine ⟨fun i q h => c1 i q (h1 i q h), c2, fun i hi => ?_⟩
    rcases rid_cases hi with rfl | ⟨c, hc, hi⟩
    · rcases hx : ptrFind n.id m0 with _ | q
      · exact absurd hx h3
      · rw [c1 _ _ hx]; simp
    · exact c3 c (by simpa using hc) i hi

end Verif.Nixf
