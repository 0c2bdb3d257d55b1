import Verif.Model.Completion
import Verif.Spec.Completion
import Verif.Lemmas.ScopeRun
/-
Lists of completion items.
-/
namespace Verif.Nixf.Complete
open Scoping

/-- What remains of a list with the bound on its size. -/
def capped (L : List Item) : List Item × Bool := (L.take maxSize, decide (maxSize < L.length))

theorem addItems_eq : ∀ (L items : List Item), items.length ≤ maxSize → addItems items L = capped (items ++ L)
  | [], items, h => by
    simp only [addItems, capped, List.append_nil, List.take_of_length_le h, Prod.mk.injEq, true_and]
    exact (decide_eq_false (by omega)).symm
  | i :: is, items, h => by
    rw [addItems, addItem]
    by_cases hl : items.length ≥ maxSize
    · rw [if_pos hl]
      have he : items.length = maxSize := by omega
      simp only [capped, Prod.mk.injEq]
      constructor
      · rw [← he, List.take_left']
        rfl
      · exact (decide_eq_true (by rw [List.length_append, List.length_cons]; omega)).symm
    · rw [if_neg hl]
      simp only
      rw [addItems_eq is (items ++ [i]) (by rw [List.length_append, List.length_cons, List.length_nil]; omega)]
      simp

theorem capped_append {L M : List Item} (h : (capped L).2 = false) : addItems (capped L).1 M = capped (L ++ M) := by
  have hl : L.length ≤ maxSize := by
    have := of_decide_eq_false h
    omega
  have e : (capped L).1 = L := List.take_of_length_le hl
  rw [e, addItems_eq _ _ hl]

theorem capped_stop {L M : List Item} (h : (capped L).2 = true) : capped (L ++ M) = capped L := by
  have hl : maxSize < L.length := of_decide_eq_true h
  unfold capped
  rw [List.take_append_of_le_length (by omega), decide_eq_true hl, decide_eq_true (by rw [List.length_append]; omega)]

theorem capped_length {L : List Item} : (capped L).1.length ≤ maxSize := by
  rw [capped, List.length_take]
  omega

theorem addItems_length : ∀ (L items : List Item), items.length ≤ maxSize → (addItems items L).1.length ≤ maxSize := by
  intro L items h
  rw [addItems_eq L items h]
  exact capped_length

/-- The items of an environment, those of the outermost scope first. -/
def cands (vl : VL) (pfx : Bytes) : Env → List Item
  | [] => []
  | sc :: env => cands vl pfx env ++ sc.defs.filterMap (defItem vl pfx)

theorem collectDef_eq (vl : VL) (pfx : Bytes) : ∀ env, collectDef vl pfx env [] = capped (cands vl pfx env)
  | [] => rfl
  | sc :: env => by
    rw [collectDef, collectDef_eq vl pfx env, cands]
    rcases hb : (capped (cands vl pfx env)).2 with _ | _
    · rw [← capped_append hb]
      rcases hc : capped (cands vl pfx env) with ⟨a, b⟩
      rw [hc] at hb
      simp only at hb
      subst hb
      rfl
    · rw [capped_stop hb]
      rcases hc : capped (cands vl pfx env) with ⟨a, b⟩
      rw [hc] at hb
      simp only at hb
      subst hb
      rfl

theorem completeNames_eq (pfx : Bytes) : ∀ (L : List Bytes) (num : Nat), num ≤ maxSize →
    completeNames pfx num L = (L.filter (pfx.isPrefixOf ·)).take (maxSize + 1 - num)
  | [], num, _ => by simp [completeNames]
  | x :: xs, num, h => by
    rw [completeNames]
    by_cases hx : pfx.isPrefixOf x = true
    · rw [if_pos hx, List.filter_cons_of_pos hx]
      by_cases hn : num + 1 > maxSize
      · rw [if_pos hn, show maxSize + 1 - num = 1 by omega]
        simp
      · rw [if_neg hn, completeNames_eq pfx xs (num + 1) (by omega),
          show maxSize + 1 - num = (maxSize + 1 - (num + 1)) + 1 by omega, List.take_succ_cons]
    · rw [if_neg hx, List.filter_cons_of_neg hx]
      exact completeNames_eq pfx xs num h

/-- One more name than fits is enough. -/
theorem capped_take (items : List Item) (L : List Item) : capped (items ++ L.take (maxSize + 1)) = capped (items ++ L) := by
  unfold capped
  have h : (items ++ L.take (maxSize + 1)).take maxSize = (items ++ L).take maxSize := by
    simp only [List.take_append, List.take_take]
    congr 2
    omega
  rw [h]
  simp only [Prod.mk.injEq, true_and, List.length_append, List.length_take]
  rw [decide_eq_decide]
  omega

/-- The items that the names of nixpkgs make. -/
def packageItem (edit : Server.LRange) (p : Params) (name : Bytes) : Item :=
  { label := name, kind := .field, textEdit := some (edit, name), data := some p }

theorem completePackages_eq (worker : List Bytes → Option (List Bytes)) (edit : Server.LRange) (p : Params) (items : List Item)
    (h : items.length ≤ maxSize) : completePackages worker edit p items =
      capped (items ++ ((((worker p.scope).getD []).filter (p.pfx.isPrefixOf ·)).map (packageItem edit p))) := by
  unfold completePackages
  rw [addItems_eq _ _ h]
  have e : (packages worker p).filter (p.pfx.isPrefixOf ·) =
      (((worker p.scope).getD []).filter (p.pfx.isPrefixOf ·)).take (maxSize + 1) := by
    unfold packages
    rcases worker p.scope with _ | names
    · simp
    · simp only [Option.getD_some]
      rw [completeNames_eq _ _ _ (Nat.zero_le _)]
      rw [List.filter_eq_self.mpr]
      · rfl
      · intro a ha
        exact (List.mem_filter.mp (List.mem_of_mem_take ha)).2
  rw [e, List.map_take]
  exact capped_take _ _

end Verif.Nixf.Complete
