import Verif.Lemmas.PrecTable
import Verif.Lemmas.PrecUnique
/-
Property C16 (operator precedence and associativity).
-/
namespace Verif.Props
open Nixf Prec Tr

/-- There is at most one way to group a sequence of operands and operators according to the table. -/
theorem C16_unique (t t' : Tr) (h : Grouped t) (h' : Grouped t') (e : t.yield = t'.yield) : t = t' := grouped_unique h h' e

example (a b c : Node) : Grouped (.bin .op_add (.leaf a) (.bin .op_mul (.leaf b) (.leaf c))) :=
  ⟨by simp [rightSpine], by
    simp only [leftSpine, List.mem_cons, List.not_mem_nil, or_false, forall_eq]
    exact ⟨9, .left, 10, .left, rfl, rfl, .inl (by decide)⟩, trivial, by simp [rightSpine], by simp [leftSpine], trivial, trivial⟩

/-- All operators are in the table. -/
def InTable (is : List Item) : Prop := ∀ o, OprIn o is → (table o).isSome

theorem InTable.left {a b : List Item} (h : InTable (a ++ b)) : InTable a := fun o ho => h o ho.append_left
theorem InTable.right {a b : List Item} (h : InTable (a ++ b)) : InTable b := fun o ho => h o ho.append_right

theorem reads_table {R : Rec} {k : Nat} {s s' : PState} {is : List RItem} (h : Reads R k s is s') : InTable (items is) := by
  have nil : InTable [] := by
    intro o ho
    cases o with
    | has => obtain ⟨p, hp⟩ := ho; simp at hp
    | _ => simp [OprIn] at ho
  have cons : ∀ (i : Item) (is : List Item), (∀ o, OprIn o [i] → (table o).isSome) → InTable is → InTable (i :: is) := by
    intro i is h1 h2 o ho
    cases o with
    | has =>
      rfl
    | _ =>
      rcases List.mem_cons.mp ho with e | e
      · exact h1 _ (by simp [OprIn, e])
      · exact h2 _ e
  induction h with
  | nil => exact nil
  | quiet _ _ _ _ _ _ ih | look _ _ _ _ _ _ _ ih => exact ih
  | operand _ n _ _ _ _ _ _ ih =>
    refine cons _ _ (fun o ho => ?_) ih
    cases o with
    | has => rfl
    | _ => simp [OprIn] at ho
  | bin _ t _ _ _ _ _ ht _ _ ih =>
    refine cons _ _ (fun o ho => ?_) ih
    cases o with
    | has => rfl
    | _ => simp [OprIn] at ho; try (subst ho; exact ht)
  | un _ t _ _ _ _ _ ht _ _ ih =>
    refine cons _ _ (fun o ho => ?_) ih
    cases o with
    | has => rfl
    | _ => simp [OprIn] at ho; try (subst ho; exact ht)
  | has _ t _ _ p _ _ _ _ _ _ _ _ ih =>
    refine cons _ _ (fun o ho => ?_) ih
    cases o with
    | has => rfl
    | _ => simp [OprIn] at ho
  | nonassoc _ _ _ _ _ _ _ _ _ _ ih | missing _ _ _ _ _ _ _ _ _ _ ih | or_ _ _ _ _ _ _ _ _ _ _ _ _ ih => exact ih

/-- Prefix operators and `?` bind tighter than everything that is not associative. -/
theorem above_of {l : Nat} {x : List Item} (hl : l ≤ 6) (ht : InTable x) (h : ∀ b, .bin b ∈ x → l < lev (.bin b)) : Above l x := by
  intro o ho
  have := ht o ho
  cases o with
  | bin b => exact h b ho
  | un k => cases k <;> first | (simp [table] at this; done) | (simp [lev, table]; omega)
  | has => simp [lev, table]; omega

/-- The last occurrence. -/
theorem last_mem {α : Type} {a : α} {x : List α} (h : a ∈ x) : ∃ y z, x = y ++ a :: z ∧ a ∉ z := by
  obtain ⟨p, q, e, hp⟩ := List.eq_append_cons_of_mem (List.mem_reverse.mpr h)
  refine ⟨q.reverse, p.reverse, ?_, by simpa using hp⟩
  rw [← List.reverse_reverse x, e]; simp

/-- A conflict cannot be grouped, whatever follows. -/
theorem conflict_no_tree {is : List Item} {rest : List RItem} (ht : InTable is) (h : Conflict 0 is rest) :
    ∃ o rest', rest = .ok (.bin o) :: rest' ∧ ∀ t b, Grouped t → t.yield ≠ is ++ .bin o :: b := by
  obtain ⟨o, rest', p, h1, h2, h3⟩ := h
  refine ⟨o, rest', h1, ?_⟩
  intro t b hg he
  rcases h3 with ⟨h3, -⟩ | ⟨a, o', q, x, rfl, h4, h5, h6⟩
  · have := lb_vals h2; rw [h3] at this; simp at this
  have htx : InTable x := InTable.right (a := a ++ [.bin o']) (by simpa using ht)
  have hin : ∀ b, .bin b ∈ x → (getBP b).isSome := fun b hb => by rw [← table_bin]; exact htx (.bin b) hb
  have v1 := lb_vals h2
  have v2 := rb_vals h4
  rw [← h5] at v2
  have fin : ∀ {a o' x}, t.yield = a ++ .bin o' :: (x ++ .bin o :: b) → lev (.bin o') = lev (.bin o) → lev (.bin o) ≤ 6 →
      ¬ RightOk (.bin o') (.bin o) → ¬ LeftOk (.bin o') (.bin o) → InTable x → (∀ b, .bin b ∈ x → lev (.bin o) < lev (.bin b)) → False :=
    fun e1 e2 e3 e4 e5 e6 e7 => no_tree t _ _ _ _ b hg e1 e2 e4 e5 (above_of e3 e6 e7)
  have e0 : t.yield = a ++ .bin o' :: (x ++ .bin o :: b) := by rw [he]; simp
  have notR : ∀ {o' o : TK} {l a a'}, table (.bin o') = some (l, a) → table (.bin o) = some (l, a') → (a ≠ .right ∨ a' ≠ .right) →
      ¬ RightOk (.bin o') (.bin o) := by
    rintro o' o l a a' e1 e2 e3 ⟨_, _, _, _, f1, f2, f3⟩
    rw [e1] at f1; rw [e2] at f2; cases f1; cases f2
    rcases f3 with f3 | ⟨-, rfl, rfl⟩
    · omega
    · simp at e3
  have notL : ∀ {o' o : TK} {l a a'}, table (.bin o') = some (l, a) → table (.bin o) = some (l, a') → (a ≠ .left ∨ a' ≠ .left) →
      ¬ LeftOk (.bin o') (.bin o) := by
    rintro o' o l a a' e1 e2 e3 ⟨_, _, _, _, f1, f2, f3⟩
    rw [e1] at f1; rw [e2] at f2; cases f1; cases f2
    rcases f3 with f3 | ⟨-, rfl, rfl⟩
    · omega
    · simp at e3
  have hv : p.1 = 1 ∨ p.1 = 2 ∨ p.1 = 9 ∨ p.1 = 10 := by
    simp only [List.mem_cons, List.not_mem_nil, or_false] at v1 v2
    omega
  have tight : ∀ b, .bin b ∈ x → p.1 < lbp (.bin b) := h6
  -- the level of operators with a larger left binding power
  have up : ∀ b : TK, (getBP b).isSome → (9 < lbp (.bin b) → 5 < lev (.bin b)) ∧ (10 < lbp (.bin b) → 6 < lev (.bin b)) ∧
      (2 < lbp (.bin b) → 1 < lev (.bin b)) ∧ (1 < lbp (.bin b) → b ≠ .op_pipe_into → 1 < lev (.bin b)) := by
    intro b hb
    cases b <;> first | (simp [getBP] at hb; done) | (refine ⟨?_, ?_, ?_, ?_⟩ <;> simp [lbp, getBP, lev, table])
  rcases hv with hv | hv | hv | hv
  · -- `<|` after `|>`
    have ho : o = .op_pipe_from := by
      cases o <;> simp only [getBP, Option.some.injEq, reduceCtorEq] at h2 <;> first | rfl | (subst h2; simp at hv)
    have ho' : o' = .op_pipe_into := by
      cases o' <;> simp only [getBP, Option.some.injEq, reduceCtorEq] at h4 <;> first | rfl | (subst h4; rw [hv] at h5; simp at h5)
    subst ho ho'
    by_cases hm : Item.bin .op_pipe_into ∈ x
    · obtain ⟨y, z, rfl, hz⟩ := last_mem hm
      have e1 : t.yield = (a ++ .bin .op_pipe_into :: y) ++ .bin .op_pipe_into :: (z ++ .bin .op_pipe_from :: b) := by rw [e0]; simp
      refine fin e1 rfl (by decide) (notR rfl rfl (.inl (by decide))) (notL rfl rfl (.inr (by decide)))
        (InTable.right (a := y ++ [.bin .op_pipe_into]) (by simpa using htx)) (fun c hc => ?_)
      have hc' : Item.bin c ∈ y ++ .bin .op_pipe_into :: z := by simp [hc]
      exact (up c (hin c hc')).2.2.2 (by have := tight c hc'; omega) (by rintro rfl; exact hz hc)
    · refine fin e0 rfl (by decide) (notR rfl rfl (.inl (by decide))) (notL rfl rfl (.inr (by decide))) htx (fun c hc => ?_)
      exact (up c (hin c hc)).2.2.2 (by have := tight c hc; omega) (by rintro rfl; exact hm hc)
  · -- `|>` after `<|`
    have ho : o = .op_pipe_into := by
      cases o <;> simp only [getBP, Option.some.injEq, reduceCtorEq] at h2 <;> first | rfl | (subst h2; simp at hv)
    have ho' : o' = .op_pipe_from := by
      cases o' <;> simp only [getBP, Option.some.injEq, reduceCtorEq] at h4 <;> first | rfl | (subst h4; rw [hv] at h5; simp at h5)
    subst ho ho'
    refine fin e0 rfl (by decide) (notR rfl rfl (.inr (by decide))) (notL rfl rfl (.inl (by decide))) htx (fun c hc => ?_)
    exact (up c (hin c hc)).2.2.1 (by have := tight c hc; omega)
  · have ho : table (.bin o) = some (5, .non) := by
      cases o <;> simp only [getBP, Option.some.injEq, reduceCtorEq] at h2 <;> first | rfl | (subst h2; simp at hv)
    have ho' : table (.bin o') = some (5, .non) := by
      cases o' <;> simp only [getBP, Option.some.injEq, reduceCtorEq] at h4 <;> first | rfl | (subst h4; rw [hv] at h5; simp at h5)
    refine fin e0 (by rw [lev_of ho, lev_of ho']) (by rw [lev_of ho]; decide) (notR ho' ho (.inl (by decide)))
      (notL ho' ho (.inl (by decide))) htx (fun c hc => ?_)
    rw [lev_of ho]
    exact (up c (hin c hc)).1 (by have := tight c hc; omega)
  · have ho : table (.bin o) = some (6, .non) := by
      cases o <;> simp only [getBP, Option.some.injEq, reduceCtorEq] at h2 <;> first | rfl | (subst h2; simp at hv)
    have ho' : table (.bin o') = some (6, .non) := by
      cases o' <;> simp only [getBP, Option.some.injEq, reduceCtorEq] at h4 <;> first | rfl | (subst h4; rw [hv] at h5; simp at h5)
    refine fin e0 (by rw [lev_of ho, lev_of ho']) (by rw [lev_of ho]; decide) (notR ho' ho (.inl (by decide)))
      (notL ho' ho (.inl (by decide))) htx (fun c hc => ?_)
    rw [lev_of ho]
    exact (up c (hin c hc)).2.1 (by have := tight c hc; omega)

/-- What the operator parser does to the operands and operators it reads, whatever the operands are: if it reports no error
among them, its tree has them in the order read and groups them according to the table, provided that they are
`Documented` (outside of that the code deviates from the table, see below). If it does report an operator as not
associative, then no tree groups the items in front of the operator, the operator and anything after it. -/
theorem C16_grouping_partial (R : Rec) (k j : Nat) (s : PState) (n : Node) (s' : PState)
    (h : parseExprOpBP R k j 0 s = some (n, s')) (hn : n ≠ .null) :
    ∃ is, Reads R k s is s' ∧ (Clean is → (tr n).yield = items is ∧ (Documented (items is) → Grouped (tr n))) ∧
      (∀ is0 rest, is = is0 ++ .nonassoc :: rest → Clean is0 → ∃ o rest', rest = .ok (.bin o) :: rest' ∧
        ∀ t b, Grouped t → t.yield ≠ items is0 ++ .bin o :: b) := by
  rcases (op_reads R k j).1 s 0 n s' h with ⟨rfl, -⟩ | ⟨-, is, h1, h2, h3⟩
  · exact absurd rfl hn
  refine ⟨is, h1, fun hc => ?_, ?_⟩
  · obtain ⟨e, hr⟩ := h2 hc
    exact ⟨e.symm, fun hd => grouped_of_bp _ hr.grouped (e ▸ hd)⟩
  · rintro is0 rest rfl hc
    have ht := reads_table h1
    rw [items_append] at ht
    refine conflict_no_tree ht.left (h3 (fun o p hp he => by omega) is0 rest rfl hc)

/-- The same with an operator in front of the expression, whose right binding power is `lr`: in addition nothing at the left
end of the tree belongs to that operator. -/
theorem C16_operand_partial (R : Rec) (k j lr : Nat) (s : PState) (n : Node) (s' : PState)
    (h : parseExprOpBP R k j lr s = some (n, s')) (hn : n ≠ .null) :
    ∃ is, Reads R k s is s' ∧ (Clean is → (tr n).yield = items is ∧ (Documented (items is) → Grouped (tr n)) ∧
      ∀ o, .bin o ∈ leftSpine (tr n) → ∃ p, getBP o = some p ∧ lr < p.1) := by
  rcases (op_reads R k j).1 s lr n s' h with ⟨rfl, -⟩ | ⟨-, is, h1, h2, h3⟩
  · exact absurd rfl hn
  refine ⟨is, h1, fun hc => ?_⟩
  obtain ⟨e, hr⟩ := h2 hc
  refine ⟨e.symm, fun hd => grouped_of_bp _ hr.grouped (e ▸ hd), fun o ho => ?_⟩
  rcases getBP_left _ hr.grouped _ ho with ho' | ⟨ho', k', e', hk⟩
  · cases ho'
  · cases e'
    obtain ⟨p, hp⟩ := Option.isSome_iff_exists.mp hk
    exact ⟨p, hp, by rw [← (lbp_of hp).1]; exact hr.left _ ho'⟩

/-! ### Examples and deviations -/

/-- A tree without the contents of its operands. -/
inductive Shape
  | x
  | bin (k : TK) (l r : Shape)
  | un (k : TK) (e : Shape)
  | has (e : Shape)
deriving DecidableEq

def shape : Tr → Shape
  | .leaf _ => .x
  | .bin k l r => .bin k (shape l) (shape r)
  | .un k e => .un k (shape e)
  | .has e _ => .has (shape e)

/-- The grouping of the operators of a source. -/
def shapeOf (src : Bytes) : Option Shape := (parse src).map fun r => shape (tr r.1)

/-- The kinds of the diagnostics of a source. -/
def kindsOf (src : Bytes) : Option (List DK) := (parse src).map fun r => r.2.lex.diags.map (·.kind)

example : shapeOf b!"a + b * c ++ d" = some (.bin .op_add .x (.bin .op_mul .x (.bin .op_concat .x .x))) := by decide +kernel
example : shapeOf b!"a -> b -> c || d && e" =
    some (.bin .op_impl .x (.bin .op_impl .x (.bin .op_or .x (.bin .op_and .x .x)))) := by decide +kernel
example : kindsOf b!"a == b == c" = some [.operatorNotAssociative] := by decide +kernel
example : kindsOf b!"a == b && c < d" = some [] := by decide +kernel

/-- `RightOk` and `LeftOk`, computed. -/
def rightOkB (a b : Opr) : Bool :=
  match table a, table b with
  | some (la, aa), some (lb, ab) => la < lb || (la = lb && aa = .right && ab = .right)
  | _, _ => false
def leftOkB (a b : Opr) : Bool :=
  match table a, table b with
  | some (la, aa), some (lb, ab) => lb < la || (la = lb && aa = .left && ab = .left)
  | _, _ => false

theorem rightOk_b {a b : Opr} (h : RightOk a b) : rightOkB a b = true := by
  obtain ⟨la, aa, lb, ab, h1, h2, h3⟩ := h
  simp only [rightOkB, h1, h2, Bool.or_eq_true, Bool.and_eq_true, decide_eq_true_eq, and_assoc]
  exact h3
theorem leftOk_b {a b : Opr} (h : LeftOk a b) : leftOkB a b = true := by
  obtain ⟨la, aa, lb, ab, h1, h2, h3⟩ := h
  simp only [leftOkB, h1, h2, Bool.or_eq_true, Bool.and_eq_true, decide_eq_true_eq, and_assoc]
  exact h3

/-- `Grouped`, computed. -/
def groupedB : Tr → Bool
  | leaf _ => true
  | bin k l r => (rightSpine l).all (leftOkB · (.bin k)) && (leftSpine r).all (rightOkB (.bin k) ·) && groupedB l && groupedB r
  | un k e => (leftSpine e).all (rightOkB (.un k) ·) && groupedB e
  | .has e _ => (leftSpine e).all (fun o => o ≠ .has) && (rightSpine e).all (leftOkB · .has) && groupedB e

theorem groupedB_of {t : Tr} (h : Grouped t) : groupedB t = true := by
  induction t with
  | leaf n => rfl
  | bin k l r ihl ihr =>
    obtain ⟨h1, h2, h3, h4⟩ := h
    simp only [groupedB, Bool.and_eq_true, List.all_eq_true]
    exact ⟨⟨⟨fun o ho => leftOk_b (h1 o ho), fun o ho => rightOk_b (h2 o ho)⟩, ihl h3⟩, ihr h4⟩
  | un k e ih =>
    obtain ⟨h1, h2⟩ := h
    simp only [groupedB, Bool.and_eq_true, List.all_eq_true]
    exact ⟨fun o ho => rightOk_b (h1 o ho), ih h2⟩
  | has e p ih =>
    obtain ⟨h1, h2, h3⟩ := h
    simp only [groupedB, Bool.and_eq_true, List.all_eq_true, decide_eq_true_eq]
    exact ⟨⟨h1, fun o ho => leftOk_b (h2 o ho)⟩, ih h3⟩

/-- The source is parsed without any diagnostic, but not grouped according to the table. -/
def Misgrouped (src : Bytes) : Prop := ∃ n s, parse src = some (n, s) ∧ s.lex.diags = [] ∧ ¬ Grouped (tr n)

theorem misgrouped_of {src : Bytes} (h : ((parse src).any fun r => r.2.lex.diags.isEmpty && !groupedB (tr r.1)) = true) :
    Misgrouped src := by
  rcases hp : parse src with _ | ⟨n, s⟩
  · rw [hp] at h; simp at h
  · rw [hp] at h
    simp only [Option.any_some, Bool.and_eq_true, List.isEmpty_iff, Bool.not_eq_true'] at h
    exact ⟨n, s, hp, h.1, fun hg => by rw [groupedB_of hg] at h; simp at h⟩

example : ((parse b!"a - b - c * d ? e").any fun r => groupedB (tr r.1)) = true := by decide +kernel

/-- C16 is violated: `/` groups to the right and binds tighter than `*`. -/
theorem C16_division_violated : Misgrouped b!"a / b / c" ∧ Misgrouped b!"a * b / c" ∧
    shapeOf b!"a / b / c" = some (.bin .op_div .x (.bin .op_div .x .x)) ∧
      shapeOf b!"a * b / c" = some (.bin .op_mul .x (.bin .op_div .x .x)) :=
  ⟨misgrouped_of (by decide +kernel), misgrouped_of (by decide +kernel), by decide +kernel⟩

/-- C16 is violated: `|>` groups to the right and `<|` to the left. -/
theorem C16_pipe_violated : Misgrouped b!"a |> b |> c" ∧ Misgrouped b!"a <| b <| c" ∧
    shapeOf b!"a |> b |> c" = some (.bin .op_pipe_into .x (.bin .op_pipe_into .x .x)) ∧
      shapeOf b!"a <| b <| c" = some (.bin .op_pipe_from (.bin .op_pipe_from .x .x) .x) :=
  ⟨misgrouped_of (by decide +kernel), misgrouped_of (by decide +kernel), by decide +kernel⟩

/-- C16 is violated: `!` takes an update as its operand, although it binds tighter. -/
theorem C16_not_update_violated : Misgrouped b!"!a // b" ∧
    shapeOf b!"!a // b" = some (.un .op_not (.bin .op_update .x .x)) :=
  ⟨misgrouped_of (by decide +kernel), by decide +kernel⟩

/-- C16 is violated: the unary minus takes `a ? b` as its operand, although it binds tighter. -/
theorem C16_negate_has_violated : Misgrouped b!"-a ? b" ∧ shapeOf b!"-a ? b" = some (.un .op_negate (.has .x)) :=
  ⟨misgrouped_of (by decide +kernel), by decide +kernel⟩

/-- C16 is violated: `?` is not associative, but no error is reported. -/
theorem C16_has_has_violated : Misgrouped b!"a ? b ? c" ∧ shapeOf b!"a ? b ? c" = some (.has (.has .x)) :=
  ⟨misgrouped_of (by decide +kernel), by decide +kernel⟩

end Verif.Props
