import Verif.Spec.Prec
/-
The table determines the grouping: two trees that follow it and have the same text are equal.
-/
namespace Verif.Nixf.Prec
open Tr

/-- The first thing written, if it is an operator that takes what is in front as operand. -/
def headOpr : List Item → Option Opr
  | .bin k :: _ => some (.bin k)
  | .has _ :: _ => some .has
  | _ => none

/-- May `b` take what follows the operator `c` (`none` at the outermost level)? -/
def Admits (c : Option Opr) (b : Opr) : Prop := ∀ a, c = some a → RightOk a b

/-- Reading an expression in the context `c`; the second argument is what has been read on its left. -/
inductive PP : Option Opr → Option Tr → List Item → Tr → List Item → Prop
  | operand (c n is t rest) : PP c (some (.leaf n)) is t rest → PP c none (.operand n :: is) t rest
  | un (c k is e is' t rest) : PP (some (.un k)) none is e is' → PP c (some (.un k e)) is' t rest →
      PP c none (.un k :: is) t rest
  | bin (c k l is r is' t rest) : Admits c (.bin k) → PP (some (.bin k)) none is r is' →
      PP c (some (.bin k l r)) is' t rest → PP c (some l) (.bin k :: is) t rest
  | has (c l p is t rest) : Admits c .has → PP c (some (.has l p)) is t rest → PP c (some l) (.has p :: is) t rest
  | stop (c l is) : (∀ o, headOpr is = some o → ¬ Admits c o) → (is = [] ∨ (headOpr is).isSome) → PP c (some l) is l is

theorem PP.unique {c l is t rest t' rest'} (h : PP c l is t rest) (h' : PP c l is t' rest') : t = t' ∧ rest = rest' := by
  induction h generalizing t' rest' with
  | operand c n is t rest _ ih => cases h' with | operand _ _ _ _ _ h' => exact ih h'
  | un c k is e is' t rest _ _ ih1 ih2 =>
    cases h' with
    | un _ _ _ e' is2 _ _ h1 h2 =>
      obtain ⟨rfl, rfl⟩ := ih1 h1
      exact ih2 h2
  | bin c k l is r is' t rest ha _ _ ih1 ih2 =>
    cases h' with
    | bin _ _ _ _ r' is2 _ _ _ h1 h2 =>
      obtain ⟨rfl, rfl⟩ := ih1 h1
      exact ih2 h2
    | stop _ _ _ hs => exact absurd ha (hs _ rfl)
  | has c l p is t rest ha _ ih =>
    cases h' with
    | has _ _ _ _ _ _ _ h' => exact ih h'
    | stop _ _ _ hs => exact absurd ha (hs _ rfl)
  | stop c l is hs hi =>
    cases h' with
    | bin _ _ _ _ _ _ _ _ ha => exact absurd ha (hs _ rfl)
    | has _ _ _ _ _ _ ha => exact absurd ha (hs _ rfl)
    | stop => exact ⟨rfl, rfl⟩

theorem not_admits {a b : Opr} (h : LeftOk a b) : ¬ Admits (some a) b := by
  intro h'
  obtain ⟨la, aa, lb, ab, h1, h2, h3⟩ := h
  obtain ⟨la', aa', lb', ab', k1, k2, k3⟩ := h' a rfl
  rw [h1] at k1; rw [h2] at k2; cases k1; cases k2
  rcases h3 with h3 | ⟨h3, h4, h5⟩ <;> rcases k3 with k3 | ⟨k3, k4, k5⟩
  · omega
  · omega
  · omega
  · rw [h4] at k4; cases k4

/-- Nothing of `rest` belongs to a tree with these operators at its right end. -/
def Closed (os : List Opr) (rest : List Item) : Prop :=
  (rest = [] ∨ (headOpr rest).isSome) ∧ ∀ o, headOpr rest = some o → ∀ a ∈ os, ¬ Admits (some a) o

theorem PP.of_grouped (t : Tr) : Grouped t → ∀ (c : Option Opr) (is : List Item) (t' : Tr) (rest : List Item),
    (∀ o ∈ leftSpine t, Admits c o) → Closed (rightSpine t) is → PP c (some t) is t' rest →
    PP c none (yield t ++ is) t' rest := by
  induction t with
  | leaf n => intro _ c is t' rest _ _ h; exact .operand _ _ _ _ _ h
  | bin k l r ihl ihr =>
    rintro ⟨g1, g2, g3, g4⟩ c is t' rest hl hc h
    have e : yield (.bin k l r) ++ is = yield l ++ (.bin k :: (yield r ++ is)) := by simp [Tr.yield]
    rw [e]
    refine ihl g3 c _ t' rest (fun o ho => hl o (by simp [leftSpine, ho])) ⟨.inr rfl, ?_⟩ ?_
    · intro o ho a ha
      cases ho
      exact not_admits (g1 a ha)
    · refine .bin c k l _ r is t' rest (hl _ (by simp [leftSpine])) ?_ h
      refine ihr g4 _ is r is (fun o ho a ha => by cases ha; exact g2 o ho) ⟨hc.1, fun o ho a ha => hc.2 o ho a (by simp [rightSpine, ha])⟩ ?_
      exact .stop _ _ _ (fun o ho => hc.2 o ho _ (by simp [rightSpine])) hc.1
  | un k e ih =>
    rintro ⟨g1, g2⟩ c is t' rest hl hc h
    refine .un c k _ e is t' rest ?_ h
    refine ih g2 _ is e is (fun o ho a ha => by cases ha; exact g1 o ho) ⟨hc.1, fun o ho a ha => hc.2 o ho a (by simp [rightSpine, ha])⟩ ?_
    exact .stop _ _ _ (fun o ho => hc.2 o ho _ (by simp [rightSpine])) hc.1
  | has e p ih =>
    rintro ⟨-, g1, g2⟩ c is t' rest hl hc h
    have e' : yield (.has e p) ++ is = yield e ++ (.has p :: is) := by simp [Tr.yield]
    rw [e']
    refine ih g2 c _ t' rest (fun o ho => hl o (by simp [leftSpine, ho])) ⟨.inr rfl, ?_⟩ (.has _ _ _ _ _ _ (hl _ (by simp [leftSpine])) h)
    intro o ho a ha
    cases ho
    exact not_admits (g1 a ha)

/-- The table determines the grouping. -/
theorem grouped_unique {t t' : Tr} (h : Grouped t) (h' : Grouped t') (he : t.yield = t'.yield) : t = t' := by
  have key : ∀ t : Tr, Grouped t → PP none none t.yield t [] := by
    intro t g
    have := PP.of_grouped t g none [] t [] (fun o _ a ha => by cases ha) ⟨.inl rfl, fun o ho => by cases ho⟩
      (.stop _ _ _ (fun o ho => by cases ho) (.inl rfl))
    simpa using this
  have h1 := key t h
  have h2 := key t' h'
  rw [he] at h1
  exact (h1.unique h2).1

end Verif.Nixf.Prec
