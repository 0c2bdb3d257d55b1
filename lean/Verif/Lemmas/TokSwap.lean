import Verif.Lemmas.TokPure
/-
A token does not depend on what comes after it, if that is the end of the source or begins with a character at which every
token ends.
-/
namespace Verif.Nixf.Syntax
open Lexical Strings Verif.Props

/-- Every token ends in front of these characters: white space, brackets, semicolons and quotes. -/
def stops (d : UInt8) : Bool := isSpace d || b!"()[]{};\"".contains d

/-- Every token but a URI ends in front of these characters, commas and question marks. -/
def soft (d : UInt8) : Bool := stops d || d == 44 || d == 63

/-- `y` may come after a token that is not a URI, in place of `x`. -/
def Quiet' (x y : Bytes) : Prop := ∀ d ∈ y.head?, soft d = true ∧ (d = 123 → x.head? = some 123)

/-- No URI in `p` goes on with the comma or question mark that `y` begins with: `x` begins with one, too, or there is no colon. -/
def Apart (x y p : Bytes) : Prop := ∀ d ∈ y.head?, stops d = false → x.head? = some d ∨ 58 ∉ p

theorem stops_facts : ∀ d : UInt8, stops d = true → isPathChar d = false ∧ isUriSchemeChar d = false ∧ isUriPathChar d = false ∧
    isDigit d = false ∧ isIdentifierChar d = false ∧ d ≠ 47 ∧ d ≠ 58 ∧ d ≠ 46 ∧ d ≠ 62 ∧ d ≠ 36 ∧ d ≠ 42 ∧ d ≠ 126 ∧ d ≠ 69 ∧
    d ≠ 101 ∧ d ≠ 43 ∧ d ≠ 45 := by
  apply forall_byte; decide +kernel

theorem soft_facts : ∀ d : UInt8, soft d = true → isPathChar d = false ∧ isUriSchemeChar d = false ∧ isUriPathChar d = !stops d ∧
    isDigit d = false ∧ isIdentifierChar d = false ∧ d ≠ 47 ∧ d ≠ 58 ∧ d ≠ 46 ∧ d ≠ 62 ∧ d ≠ 36 ∧ d ≠ 42 ∧ d ≠ 126 ∧ d ≠ 69 ∧
    d ≠ 101 ∧ d ≠ 43 ∧ d ≠ 45 := by
  apply forall_byte; decide +kernel

theorem stops_soft {d : UInt8} (h : stops d = true) : soft d = true := by simp [soft, h]

theorem Apart.suffix {x y p q : Bytes} (h : Apart x y p) (hq : q <:+ p) : Apart x y q := fun d hd hs =>
  (h d hd hs).imp_right fun h hm => h (hq.subset hm)

theorem apart_stop {c : UInt8} (hc : stops c = true) (x y p : Bytes) : Apart (c :: x) (c :: y) p := by
  intro d hd hs; simp at hd; subst hd; rw [hc] at hs; cases hs

section
variable {x y : Bytes} (hy : Quiet' x y)
include hy

omit hy in
theorem dropWhile_suffix (f : UInt8 → Bool) (l : Bytes) : l.dropWhile f <:+ l := ⟨l.takeWhile f, List.takeWhile_append_dropWhile⟩

omit hy in
theorem suffix_split {u p x : Bytes} (h : u <:+ p ++ x) (hl : x.length ≤ u.length) : ∃ r, u = r ++ x := by
  obtain ⟨a, ha⟩ := h
  have : a.length ≤ p.length := by
    have := congrArg List.length ha; simp at this; omega
  obtain ⟨b, rfl, hb⟩ : ∃ b, p = a ++ b ∧ u = b ++ x := by
    rcases List.append_eq_append_iff.mp ha with ⟨c, h1, h2⟩ | ⟨c, h1, h2⟩
    · exact ⟨c, h1, h2⟩
    · have : c = [] := by
        have := congrArg List.length h1; simp at this
        exact List.eq_nil_of_length_eq_zero (by omega)
      subst this
      exact ⟨[], by simpa using h1.symm, by simpa using h2.symm⟩
  exact ⟨b, hb⟩

omit hy in
theorem dropWhile_self {f : UInt8 → Bool} (hf : ∀ d ∈ y.head?, f d = false) : y.dropWhile f = y := by
  cases y with
  | nil => rfl
  | cons d t => simp [hf d (by simp)]

omit hy in
/-- All of the text is skipped, or it ends inside. -/
theorem dropWhile_cases (f : UInt8 → Bool) (p : Bytes) : (∀ z, (p ++ z).dropWhile f = z.dropWhile f) ∨
    ∃ c q, f c = false ∧ ∀ z, (p ++ z).dropWhile f = c :: q ++ z := by
  induction p with
  | nil => exact .inl fun z => rfl
  | cons c p ih =>
    cases hc : f c with
    | false => exact .inr ⟨c, p, hc, fun z => by simp [hc]⟩
    | true =>
      rcases ih with h | ⟨d, q, h1, h2⟩
      · exact .inl fun z => by simp [hc, h]
      · exact .inr ⟨d, q, h1, fun z => by simp [hc, h2]⟩

omit hy in
theorem dropWhile_swap {f : UInt8 → Bool} {p q : Bytes} (hf : ∀ d ∈ y.head?, f d = false) (h : (p ++ x).dropWhile f = q ++ x) :
    (p ++ y).dropWhile f = q ++ y := by
  rcases dropWhile_cases f p with hp | ⟨c, q', -, hp⟩
  · rw [hp] at h ⊢
    rw [dropWhile_self hf]
    have := (dropWhile_suffix f x).length_le
    rw [h] at this
    simp only [List.length_append] at this
    have : q = [] := List.eq_nil_of_length_eq_zero (by omega)
    subst this; rfl
  · rw [hp] at h ⊢
    rw [List.append_cancel_right h]

theorem contR_mono {q : Bytes} (h : contR (q ++ y) = true) : contR (q ++ x) = true := by
  unfold contR at h ⊢
  cases q with
  | nil =>
    cases y with
    | nil => simp at h
    | cons d t =>
      obtain ⟨h1, h2⟩ := hy d (by simp)
      obtain ⟨a, -, -, -, -, -, -, -, -, b, -⟩ := soft_facts d h1
      simp [a] at h
      exact absurd h.1.symm b
  | cons c q =>
    cases q with
    | nil =>
      simp only [List.cons_append, List.nil_append, List.head?_cons, Option.any_some, Bool.or_eq_true] at h ⊢
      refine h.imp_right fun h => ?_
      cases y with
      | nil => simp at h
      | cons d t =>
        simp at h
        obtain ⟨h1, h2⟩ := hy d (by simp)
        have := h2 h.2.symm
        cases x with
        | nil => cases this
        | cons e s => simp at this; subst this; simp [h.1]
    | cons d q => simpa using h

omit hy in
/-- The rest after the characters of a path. -/
def pathU (r : Bytes) : Bytes := if r.head? = some 126 then r.drop 1 else r.dropWhile isPathChar

theorem pathU_cases {p : Bytes} (hp : p ≠ []) : (pathU (p ++ y) = y ∧ (pathU (p ++ x)).length ≤ x.length) ∨
    ∃ c q, ∀ z, pathU (p ++ z) = c :: q ++ z := by
  obtain ⟨a, p, rfl⟩ := List.exists_cons_of_ne_nil hp
  unfold pathU
  simp only [List.cons_append, List.head?_cons, Option.some.injEq]
  split
  · cases p with
    | nil => exact .inl ⟨by simp, by simp⟩
    | cons c q => exact .inr ⟨c, q, fun z => by simp⟩
  · rcases dropWhile_cases isPathChar (a :: p) with h | ⟨c, q, -, h⟩
    · refine .inl ⟨?_, ?_⟩
      · rw [← List.cons_append, h]
        exact dropWhile_self fun d hd => (soft_facts d (hy d hd).1).1
      · rw [← List.cons_append, h]
        exact (dropWhile_suffix _ _).length_le
    · exact .inr ⟨c, q, fun z => by rw [← List.cons_append, h]; rfl⟩

theorem pathR_none {p : Bytes} (hp : p ≠ []) (h : pathR (p ++ x) = none) : pathR (p ++ y) = none := by
  change (if (pathU (p ++ x)).head? = some 47 then (if contR ((pathU (p ++ x)).drop 1) then some ((pathU (p ++ x)).drop 1) else none) else none) = _ at h
  show (if (pathU (p ++ y)).head? = some 47 then (if contR ((pathU (p ++ y)).drop 1) then some ((pathU (p ++ y)).drop 1) else none) else none) = _
  rcases pathU_cases hy hp with ⟨h1, -⟩ | ⟨c, q, h1⟩
  · rw [h1, if_neg]
    intro h47
    exact (soft_facts _ (hy 47 (by simp [h47])).1).2.2.2.2.2.1 rfl
  · rw [h1] at h ⊢
    simp only [List.cons_append, List.head?_cons, Option.some.injEq, List.drop_succ_cons, List.drop_zero] at h ⊢
    split
    · rename_i hc
      rw [if_pos hc] at h
      split at h
      · cases h
      · rename_i hx
        exact if_neg fun hh => hx (contR_mono hy hh)
    · rfl

theorem pathR_some {p q : Bytes} (hp : p ≠ []) (h : pathR (p ++ x) = some (q ++ x)) (hq : contR (q ++ y) = true) :
    pathR (p ++ y) = some (q ++ y) := by
  change (if (pathU (p ++ x)).head? = some 47 then (if contR ((pathU (p ++ x)).drop 1) then some ((pathU (p ++ x)).drop 1) else none) else none) = _ at h
  show (if (pathU (p ++ y)).head? = some 47 then (if contR ((pathU (p ++ y)).drop 1) then some ((pathU (p ++ y)).drop 1) else none) else none) = _
  split at h
  · rename_i h47
    split at h
    · simp only [Option.some.injEq] at h
      rcases pathU_cases hy hp with ⟨h1, h2⟩ | ⟨c, q', h1⟩
      · exfalso
        have hl := congrArg List.length h
        cases hu : pathU (p ++ x) with
        | nil => rw [hu] at h47; cases h47
        | cons a b => rw [hu] at hl h2; simp at hl h2; omega
      · rw [h1] at h h47 ⊢
        simp only [List.cons_append, List.head?_cons, List.drop_succ_cons, List.drop_zero] at h h47 ⊢
        have := List.append_cancel_right h
        subst this
        rw [if_pos h47, if_pos hq]
    · cases h
  · cases h

theorem uriR_none {p : Bytes} (ha : Apart x y p) (h : uriR (p ++ x) = none) : uriR (p ++ y) = none := by
  unfold uriR at h ⊢
  simp only at h ⊢
  rcases dropWhile_cases isUriSchemeChar p with hp | ⟨c, q, -, hp⟩
  · rw [hp, dropWhile_self fun d hd => (soft_facts d (hy d hd).1).2.1, if_neg]
    intro h58
    exact (soft_facts _ (hy 58 (by simp [h58])).1).2.2.2.2.2.2.1 rfl
  · have h58 : c = 58 → 58 ∈ p := by
      rintro rfl
      have := (dropWhile_suffix isUriSchemeChar (p ++ [])).subset (a := 58) (by rw [hp]; simp)
      simpa using this
    rw [hp] at h ⊢
    simp only [List.cons_append, List.head?_cons, List.drop_succ_cons, List.drop_zero] at h ⊢
    split
    · rename_i hc
      rw [if_pos hc] at h
      cases q with
      | nil =>
        rw [if_neg]
        intro hh
        cases hyc : y with
        | nil => simp [hyc] at hh
        | cons d t =>
          have := (soft_facts d (hy d (by simp [hyc])).1).2.2.1
          simp [hyc] at hh
          have hd : stops d = false := by rw [hh] at this; simpa using this
          rcases ha d (by simp [hyc]) hd with h1 | h1
          · rw [if_pos] at h
            · cases h
            · simp [h1, hh]
          · exact h1 (h58 (by simpa using hc))
      | cons a q =>
        simp only [List.cons_append, List.head?_cons, Option.any_some] at h ⊢
        by_cases ha : isUriPathChar a = true
        · simp [ha] at h
        · simp [ha]
    · rfl

theorem uriR_some {p q : Bytes} (hap : Apart x y p) (h : uriR (p ++ x) = some (q ++ x)) : uriR (p ++ y) = some (q ++ y) := by
  unfold uriR at h ⊢
  simp only at h ⊢
  split at h
  · rename_i h58
    split at h
    · rename_i ha
      simp only [Option.some.injEq] at h
      rcases dropWhile_cases isUriSchemeChar p with hp | ⟨c, r, -, hp⟩
      · exfalso
        rw [hp] at h h58
        have h1 := (dropWhile_suffix isUriSchemeChar x).length_le
        have h2 := (dropWhile_suffix isUriPathChar ((x.dropWhile isUriSchemeChar).drop 1)).length_le
        rw [h] at h2
        cases hu : x.dropWhile isUriSchemeChar with
        | nil => rw [hu] at h58; cases h58
        | cons a b => rw [hu] at h1 h2; simp at h1 h2; omega
      · rw [hp] at h h58 ha ⊢
        simp only [List.cons_append, List.head?_cons, List.drop_succ_cons, List.drop_zero] at h h58 ha ⊢
        rw [if_pos h58]
        cases r with
        | nil =>
          exfalso
          simp only [List.nil_append] at h ha
          cases x with
          | nil => simp at ha
          | cons a b =>
            simp only [List.head?_cons, Option.any_some] at ha
            rw [List.dropWhile_cons_of_pos ha] at h
            have h2 := (dropWhile_suffix isUriPathChar b).length_le
            rw [h] at h2; simp at h2; omega
        | cons a r =>
          simp only [List.cons_append, List.head?_cons, Option.any_some] at ha ⊢
          simp only [ha, if_true]
          congr 1
          rcases dropWhile_cases isUriPathChar (a :: r) with h1 | ⟨c', r', -, h1⟩
          · by_cases h44 : ∃ d ∈ y.head?, stops d = false
            · exfalso
              obtain ⟨d, hd, h44⟩ := h44
              have hdu := (soft_facts d (hy d hd).1).2.2.1
              rw [h44] at hdu
              rcases hap d hd h44 with h2 | h2
              · obtain ⟨t, rfl⟩ : ∃ t, x = d :: t := by
                  cases x with
                  | nil => cases h2
                  | cons e t => simp at h2; exact ⟨t, by rw [h2]⟩
                have h3 := h1 (d :: t)
                rw [h, List.dropWhile_cons_of_pos hdu] at h3
                have h4 := (dropWhile_suffix isUriPathChar t).length_le
                rw [← h3] at h4
                simp at h4; omega
              · have := (dropWhile_suffix isUriSchemeChar (p ++ [])).subset (a := c) (by rw [hp]; simp)
                simp only [Option.some.injEq] at h58
                subst h58
                exact h2 (by simpa using this)
            · refine dropWhile_swap (p := a :: r) (fun d hd => ?_) h
              have := (soft_facts d (hy d hd).1).2.2.1
              rw [this]
              cases hs : stops d with
              | true => rfl
              | false => exact absurd ⟨d, hd, hs⟩ h44
          · have h2 := h1 x
            rw [h] at h2
            rw [← List.append_cancel_right h2] at h1
            exact h1 y
    · cases h
  · cases h

omit hy in
theorem signR_le (r : Bytes) : (signR r).length ≤ r.length := by unfold signR; split <;> simp

theorem expR_swap {p q : Bytes} (h : expR (p ++ x) = (q ++ x, true)) : expR (p ++ y) = (q ++ y, true) := by
  unfold expR at h ⊢
  cases p with
  | nil =>
    simp only [List.nil_append] at h ⊢
    rw [if_neg]
    · split at h
      · exfalso
        simp only [Prod.mk.injEq] at h
        have h1 := (dropWhile_suffix isDigit (signR (x.drop 1))).length_le
        rw [h.1] at h1
        have h2 := signR_le (x.drop 1)
        cases x with
        | nil => rename_i h0; simp at h0
        | cons a b => simp at h1 h2; omega
      · simp only [Prod.mk.injEq, and_true] at h
        have : q = [] := by have := congrArg List.length h; simpa using this
        subst this; rfl
    · intro hh
      cases hyc : y with
      | nil => simp [hyc] at hh
      | cons d t =>
        obtain ⟨-, -, -, -, -, -, -, -, -, -, -, -, a, b, -⟩ := soft_facts d (hy d (by simp [hyc])).1
        simp [hyc, a, b] at hh
  | cons e p =>
    simp only [List.cons_append, List.head?_cons, Option.any_some, List.drop_succ_cons, List.drop_zero] at h ⊢
    split
    · rename_i he
      rw [if_pos he] at h
      simp only [Prod.mk.injEq] at h
      obtain ⟨h1, h2⟩ := h
      have hlen : q.length + x.length < (signR (p ++ x)).length := by
        cases hs : signR (p ++ x) with
        | nil => rw [hs] at h2; simp at h2
        | cons a b =>
          rw [hs] at h1 h2
          simp only [List.head?_cons, Option.any_some] at h2
          rw [List.dropWhile_cons_of_pos h2] at h1
          have h3 := (dropWhile_suffix isDigit b).length_le
          rw [h1] at h3
          simp at h3 ⊢; omega
      have hr : ∃ r, r ≠ [] ∧ ∀ z, signR (p ++ z) = r ++ z := by
        cases p with
        | nil =>
          exfalso
          have := signR_le x
          simp at hlen; omega
        | cons c p =>
          unfold signR at hlen ⊢
          simp only [List.cons_append, List.head?_cons, Option.any_some, List.drop_succ_cons, List.drop_zero] at hlen ⊢
          by_cases hc : (c == 43 || c == 45) = true
          · rw [if_pos hc] at hlen
            refine ⟨p, ?_, fun z => if_pos hc⟩
            rintro rfl; simp only [List.nil_append] at hlen; omega
          · exact ⟨c :: p, by simp, fun z => if_neg hc⟩
      obtain ⟨r, hr, hz⟩ := hr
      obtain ⟨a, r, rfl⟩ := List.exists_cons_of_ne_nil hr
      rw [hz] at h1 h2 ⊢
      simp only [List.cons_append, List.head?_cons, Option.any_some] at h2 ⊢
      rw [h2]
      congr 1
      exact dropWhile_swap (p := a :: r) (fun d hd => (soft_facts d (hy d hd).1).2.2.2.1) h1
    · rename_i he
      rw [if_neg he] at h
      simp only [Prod.mk.injEq, and_true] at h
      have : e :: p = q := List.append_cancel_right (by simpa using h)
      subst this; rfl

omit hy in
theorem expR_suffix (r : Bytes) : (expR r).1 <:+ r := by
  unfold expR
  split
  · refine (dropWhile_suffix _ _).trans ?_
    unfold signR
    split
    · exact (List.drop_suffix _ _).trans (List.drop_suffix _ _)
    · exact List.drop_suffix _ _
  · exact List.suffix_refl _

theorem numR_swap {c : UInt8} {p q : Bytes} {k : TK} (hc : isDigit c = true) (h : numR (c :: p ++ x) = (k, q ++ x, true)) :
    numR (c :: p ++ y) = (k, q ++ y, true) := by
  unfold numR at h ⊢
  simp only at h ⊢
  have hstop : ∀ d ∈ y.head?, isDigit d = false := fun d hd => (soft_facts d (hy d hd).1).2.2.2.1
  split at h
  · rename_i h46
    simp only [Prod.mk.injEq, Bool.and_eq_true] at h
    obtain ⟨rfl, h1, h2, h3⟩ := h
    have hs := expR_suffix (((((c :: p) ++ x).dropWhile isDigit).drop 1).dropWhile isDigit)
    rw [h1] at hs
    obtain ⟨r2, hr2⟩ := suffix_split (p := c :: p) (x := x) ((dropWhile_suffix isDigit _).trans ((List.drop_suffix 1 _).trans
      (dropWhile_suffix isDigit (c :: p ++ x)))) (by have := hs.length_le; simp only [List.length_append] at this; omega)
    rcases dropWhile_cases isDigit (c :: p) with hp | ⟨a, r, -, hp⟩
    · exfalso
      rw [hp] at h46 hs
      have g1 := (dropWhile_suffix isDigit x).length_le
      have g2 := hs.length_le
      have g3 := (dropWhile_suffix isDigit ((x.dropWhile isDigit).drop 1)).length_le
      cases hu : x.dropWhile isDigit with
      | nil => rw [hu] at h46; cases h46
      | cons a b => rw [hu] at g1 g2 g3; simp at g1 g2 g3; omega
    · rw [hp] at h46 h1 h2 hr2 ⊢
      simp only [List.cons_append, List.head?_cons, List.drop_succ_cons, List.drop_zero] at h46 h1 h2 hr2 ⊢
      rw [if_pos h46]
      have hr3 := dropWhile_swap hstop hr2
      rw [hr2] at h1 h2
      have he : expR (r2 ++ x) = (q ++ x, true) := by rw [← h1, ← h2]
      rw [hr3, expR_swap hy he]
      have h2len : 1 ≤ p.length := by
        cases p with
        | nil =>
          have := hp []
          simp [hc] at this
        | cons => simp
      obtain ⟨b, p, rfl⟩ : ∃ b p', p = b :: p' := by cases p with
        | nil => simp at h2len
        | cons b p => exact ⟨b, p, rfl⟩
      simp only [List.cons_append, List.take_succ_cons, List.take_zero] at h3 ⊢
      rw [h3]; rfl
  · rename_i h46
    simp only [Prod.mk.injEq, and_true] at h
    obtain ⟨rfl, h1⟩ := h
    have := dropWhile_swap (p := c :: p) hstop h1
    rw [this, if_neg]
    intro hh
    cases q with
    | nil => exact (soft_facts _ (hy 46 (by simpa using hh)).1).2.2.2.2.2.2.2.1 rfl
    | cons a q => rw [h1] at h46; exact h46 (by simpa using hh)

/-- The segments of a search path. -/
theorem seg_cases (q : Bytes) : (∃ c r, ∀ z, (q ++ z).drop (spathSegments (q ++ z)) = c :: r ++ z) ∨
    ((q ++ y).drop (spathSegments (q ++ y)) = y ∧ ((q ++ x).drop (spathSegments (q ++ x))).length ≤ x.length) := by
  generalize hn : q.length = n
  induction n using Nat.strongRecOn generalizing q with
  | ind n ih =>
  have hy0 : spathSegments y = 0 := by
    cases hyc : y with
    | nil => rw [spathSegments]
    | cons d t =>
      rw [spathSegments]
      exact if_neg (soft_facts d (hy d (by simp [hyc])).1).2.2.2.2.2.1
  cases q with
  | nil => exact .inr ⟨by simp [hy0], by simp⟩
  | cons c r =>
    by_cases hc : c = 47
    · subst hc
      rcases dropWhile_cases isPathChar r with hp | ⟨a, b, ha, hp⟩
      · refine .inr ⟨?_, ?_⟩
        · have h1 := hp y
          rw [dropWhile_self fun d hd => (soft_facts d (hy d hd).1).1] at h1
          have h2 : (r ++ y).takeWhile isPathChar = r := by
            have := List.takeWhile_append_dropWhile (p := isPathChar) (l := r ++ y)
            rw [h1] at this
            exact List.append_cancel_right this
          rw [List.cons_append, spathSegments]
          simp only [h2]
          rw [if_pos True.intro]
          split
          · rename_i h0
            have : r = [] := List.eq_nil_of_length_eq_zero h0
            subst this; simp
          · rw [List.drop_append_of_le_length (Nat.le_refl _), List.drop_length, List.nil_append, hy0]
            rw [show 1 + r.length + 0 = r.length + 1 by omega, List.drop_succ_cons, List.drop_append_of_le_length (Nat.le_refl _)]
            simp
        · have h1 := hp x
          rw [List.cons_append, spathSegments]
          simp only
          have h3 := List.takeWhile_append_dropWhile (p := isPathChar) (l := r ++ x)
          rw [h1] at h3
          have h4 := congrArg List.length h3
          have h5 := (dropWhile_suffix isPathChar x).length_le
          simp only [List.length_append] at h4
          rw [if_pos True.intro]
          split
          · rename_i h0
            rw [h0] at h4
            simp only [List.drop_succ_cons, List.drop_zero, List.length_append]; omega
          · simp only [List.length_drop, List.length_cons, List.length_append]; omega
      · have hk : ∃ pre, r = pre ++ a :: b ∧ ∀ z, (r ++ z).takeWhile isPathChar = pre := by
          have h1 := hp []
          have h2 := List.takeWhile_append_dropWhile (p := isPathChar) (l := r)
          rw [List.append_nil] at h1
          rw [h1] at h2
          refine ⟨r.takeWhile isPathChar, by simpa using h2.symm, fun z => ?_⟩
          have h3 := List.takeWhile_append_dropWhile (p := isPathChar) (l := r ++ z)
          rw [hp z] at h3
          conv at h3 => rhs; rw [← h2]
          rw [List.append_assoc, List.append_nil] at h3
          exact List.append_cancel_right h3
        obtain ⟨pre, rfl, hk⟩ := hk
        by_cases h0 : pre = []
        · subst h0
          refine .inl ⟨a, b, fun z => ?_⟩
          rw [List.cons_append, spathSegments]
          simp only [hk, List.length_nil]
          simp
        · have hd : ∀ z, (47 :: (pre ++ a :: b) ++ z).drop (spathSegments (47 :: (pre ++ a :: b) ++ z)) =
              ((a :: b) ++ z).drop (spathSegments ((a :: b) ++ z)) := by
            intro z
            rw [List.cons_append, spathSegments]
            simp only [hk]
            rw [if_pos True.intro, if_neg (by simpa using h0)]
            have : (pre ++ a :: b ++ z).drop pre.length = a :: b ++ z := by
              rw [List.append_assoc, List.drop_append_of_le_length (Nat.le_refl _)]; simp
            rw [this]
            rw [show 1 + pre.length + spathSegments (a :: b ++ z) = (pre.length + spathSegments (a :: b ++ z)) + 1 by omega,
              List.drop_succ_cons, ← List.drop_drop, this]
          rcases ih (a :: b).length (by rw [← hn]; simp only [List.length_cons, List.length_append]; omega) (a :: b) rfl with ⟨c, r, h⟩ | ⟨h1, h2⟩
          · exact .inl ⟨c, r, fun z => (hd z).trans (h z)⟩
          · exact .inr ⟨by rw [hd, h1], by rw [hd]; exact h2⟩
    · refine .inl ⟨c, r, fun z => ?_⟩
      rw [List.cons_append, spathSegments]
      simp [hc]

theorem spathR_cases {p : Bytes} : (∀ c, spathR (c :: p ++ y) = none) ∧ (∀ c q, spathR (c :: p ++ x) ≠ some (q ++ x)) ∨
    (∃ o : Option Bytes, ∀ c z, spathR (c :: p ++ z) = o.map (· ++ z)) := by
  unfold spathR
  simp only [List.cons_append, List.drop_succ_cons, List.drop_zero]
  have hnp : ∀ d ∈ y.head?, isPathChar d = false := fun d hd => (soft_facts d (hy d hd).1).1
  have hn62 : y.head? ≠ some 62 := fun h => (soft_facts _ (hy 62 (by simp [h])).1).2.2.2.2.2.2.2.2.1 rfl
  have hshort : ∀ {a : Bytes} {q : Bytes}, a.length ≤ x.length → (if a.head? = some 62 then some (a.drop 1) else none) ≠ some (q ++ x) := by
    intro a q ha h
    split at h
    · rename_i h62
      simp only [Option.some.injEq] at h
      cases a with
      | nil => cases h62
      | cons b a => have := congrArg List.length h; simp at this ha; omega
    · cases h
  cases p with
  | nil =>
    refine .inl ⟨fun _ => ?_, fun _ q => ?_⟩
    · rw [if_neg]
      intro h
      cases hyc : y with
      | nil => simp [hyc] at h
      | cons d t => simp [hyc, hnp d (by simp [hyc])] at h
    · simp only [List.nil_append]
      split
      · refine hshort ?_
        have := (dropWhile_suffix isPathChar x).length_le
        simp; omega
      · simp
  | cons a p =>
    simp only [List.cons_append, List.head?_cons, Option.any_some]
    by_cases ha : isPathChar a = true
    · simp only [if_pos ha]
      rcases dropWhile_cases isPathChar (a :: p) with hp | ⟨b, r, -, hp⟩
      · refine .inl ⟨fun _ => ?_, fun _ q => ?_⟩
        · have := hp y
          rw [List.cons_append] at this
          rw [this, dropWhile_self hnp]
          have : spathSegments y = 0 := by
            cases hyc : y with
            | nil => rw [spathSegments]
            | cons d t =>
              rw [spathSegments]
              exact if_neg (soft_facts d (hy d (by simp [hyc])).1).2.2.2.2.2.1
          rw [this, List.drop_zero, if_neg hn62]
        · have := hp x
          rw [List.cons_append] at this
          rw [this]
          refine hshort ?_
          have := (dropWhile_suffix isPathChar x).length_le
          simp; omega
      · simp only [← List.cons_append] 
        simp only [hp]
        rcases seg_cases hy (b :: r) with ⟨c, r', h⟩ | ⟨h1, h2⟩
        · refine .inr ⟨if c = 62 then some r' else none, fun _ z => ?_⟩
          simp only [h]
          by_cases hc : c = 62
          · simp [hc]
          · simp [hc]
        · refine .inl ⟨fun _ => ?_, fun _ q => ?_⟩
          · simp only [h1, if_neg hn62]
          · exact hshort h2
    · simp only [if_neg ha]
      exact .inr ⟨none, fun _ _ => rfl⟩

omit hy in
theorem find_mono {α : Type} {l : List α} {f g : α → Bool} (h1 : ∀ a ∈ l, g a = true → f a = true) {a : α} (h : l.find? f = some a) (h2 : g a = true) :
    l.find? g = some a := by
  induction l with
  | nil => cases h
  | cons b l ih =>
    rw [List.find?_cons] at h ⊢
    cases hf : f b with
    | true => rw [hf] at h; cases h; rw [h2]
    | false =>
      rw [hf] at h
      have : g b = false := by
        by_contra hg
        have := h1 b (by simp) (by simpa using hg)
        rw [hf] at this; cases this
      rw [this]
      exact ih (fun a ha => h1 a (by simp [ha])) h

omit hy in
theorem prefix_append_cases {w p z : Bytes} (h : w <+: p ++ z) : w <+: p ∨ ∃ t, w = p ++ t ∧ t <+: z ∧ t ≠ [] := by
  obtain ⟨s, hs⟩ := h
  rcases List.append_eq_append_iff.mp hs with ⟨a, h1, h2⟩ | ⟨a, h1, h2⟩
  · exact .inl ⟨a, h1.symm⟩
  · cases a with
    | nil => exact .inl ⟨[], by simpa using h1⟩
    | cons a as => exact .inr ⟨a :: as, h1, ⟨s, h2.symm⟩, by simp⟩

omit hy in
theorem table_stop : ∀ w ∈ opTable, ∀ d ∈ w.1.drop 1, soft d = true → w.1 = b!"${" := by decide +kernel

theorem op_prefix {p : Bytes} (hp : p ≠ []) {w : Bytes × TK} (hw : w ∈ opTable) (h : w.1 <+: p ++ y) : w.1 <+: p ++ x := by
  obtain ⟨c, p, rfl⟩ := List.exists_cons_of_ne_nil hp
  rcases prefix_append_cases h with h | ⟨t, h, ht, hy'⟩
  · exact h.trans (List.prefix_append _ _)
  · obtain ⟨d, t, rfl⟩ := List.exists_cons_of_ne_nil hy'
    cases hyc : y with
    | nil => rw [hyc] at ht; simp at ht
    | cons e s =>
      rw [hyc] at ht
      have hde := (List.cons_prefix_cons.mp ht).1
      subst hde
      obtain ⟨h1, h2⟩ := hy d (by simp [hyc])
      have h3 := table_stop w hw d (by rw [h]; simp) h1
      rw [h3] at h ⊢
      cases p with
      | nil =>
        simp only [List.cons_append, List.nil_append, List.cons.injEq] at h
        obtain ⟨rfl, rfl, -⟩ := h
        have := h2 rfl
        cases x with
        | nil => cases this
        | cons e s => simp at this; subst this; simp
      | cons a p =>
        simp at h

theorem lexOp_swap {p q : Bytes} (hp : p ≠ []) (h : (p ++ x).drop (lexOp (p ++ x)).2 = q ++ x) :
    lexOp (p ++ y) = lexOp (p ++ x) ∧ (p ++ y).drop (lexOp (p ++ x)).2 = q ++ y := by
  have hmono : ∀ w ∈ opTable, w.1.isPrefixOf (p ++ y) = true → w.1.isPrefixOf (p ++ x) = true := fun w hw h =>
    List.isPrefixOf_iff_prefix.mpr (op_prefix hy hp hw (List.isPrefixOf_iff_prefix.mp h))
  unfold lexOp at h ⊢
  cases hf : opTable.find? (fun w => w.1.isPrefixOf (p ++ x)) with
  | none =>
    have : opTable.find? (fun w => w.1.isPrefixOf (p ++ y)) = none := by
      rw [List.find?_eq_none] at hf ⊢
      exact fun w hw hh => hf w hw (hmono w hw hh)
    rw [hf] at h
    rw [this]
    refine ⟨rfl, ?_⟩
    obtain ⟨c, p, rfl⟩ := List.exists_cons_of_ne_nil hp
    simp only [List.cons_append, List.drop_succ_cons, List.drop_zero] at h ⊢
    rw [List.append_cancel_right h]
  | some w =>
    rw [hf] at h
    simp only at h
    have hpre := List.isPrefixOf_iff_prefix.mp (List.find?_some (p := fun w : Bytes × TK => w.1.isPrefixOf (p ++ x)) hf)
    have hlen : w.1.length ≤ p.length := by
      have h1 := congrArg List.length h
      have h2 := hpre.length_le
      simp at h1 h2; omega
    have hpre' : w.1 <+: p := by
      rcases prefix_append_cases hpre with h | ⟨t, h, ht, hx⟩
      · exact h
      · have := congrArg List.length h
        have h3 : 0 < t.length := List.length_pos_iff.mpr hx
        simp at this; omega
    have : opTable.find? (fun w => w.1.isPrefixOf (p ++ y)) = some w :=
      find_mono hmono hf (List.isPrefixOf_iff_prefix.mpr (hpre'.trans (List.prefix_append _ _)))
    rw [this]
    refine ⟨rfl, ?_⟩
    rw [List.drop_append_of_le_length hlen] at h ⊢
    rw [List.append_cancel_right h]

theorem tokR_swap {p q : Bytes} {k : TK} (hap : Apart x y p) (hp : p ≠ []) (h : tokR (p ++ x) = (k, q ++ x, true)) (hq : k = .path_fragment → contR (q ++ y) = true) :
    tokR (p ++ y) = (k, q ++ y, true) := by
  obtain ⟨c, p, rfl⟩ := List.exists_cons_of_ne_nil hp
  unfold tokR at h ⊢
  simp only [List.cons_append] at h ⊢
  split at h
  · rename_i u hu
    simp only [Prod.mk.injEq, and_true] at h
    obtain ⟨rfl, rfl⟩ := h
    split at hu
    · rename_i hc
      rw [if_pos hc]
      have := pathR_some hy hp (by rw [List.cons_append]; exact hu) (hq rfl)
      rw [List.cons_append] at this
      rw [this]
    · cases hu
  · rename_i hu
    have : (if (isPathChar c || c == 47 || c == 126) = true then pathR (c :: (p ++ y)) else none) = none := by
      split
      · rename_i hc
        rw [if_pos hc] at hu
        exact pathR_none hy hp hu
      · rfl
    rw [this]
    simp only
    split at h
    · rename_i u hu
      simp only [Prod.mk.injEq, and_true] at h
      obtain ⟨rfl, rfl⟩ := h
      split at hu
      · rename_i hc
        rw [if_pos hc]
        have := uriR_some hy (p := c :: p) (q := q) hap (by rw [List.cons_append]; exact hu)
        rw [List.cons_append] at this
        rw [this]
      · cases hu
    · rename_i hu
      have : (if isAlpha c = true then uriR (c :: (p ++ y)) else none) = none := by
        split
        · rename_i hc
          rw [if_pos hc] at hu
          exact uriR_none hy (p := c :: p) hap hu
        · rfl
      rw [this]
      simp only
      split at h
      · rename_i hd
        rw [if_pos hd]
        exact numR_swap hy hd h
      · rename_i hd
        rw [if_neg hd]
        split at h
        · rename_i hi
          rw [if_pos hi]
          simp only [Prod.mk.injEq, and_true] at h
          obtain ⟨rfl, h⟩ := h
          have h2 := dropWhile_swap (fun d hd => (soft_facts d (hy d hd).1).2.2.2.2.1) h
          rw [h, h2]
          have hl : q.length ≤ p.length := by
            have := (dropWhile_suffix isIdentifierChar (p ++ x)).length_le
            rw [h] at this; simp at this; omega
          have e : ∀ z : Bytes, (c :: (p ++ z)).take ((c :: (p ++ z)).length - (q ++ z).length) = (c :: p).take (p.length + 1 - q.length) := by
            intro z
            rw [← List.cons_append, List.take_append_of_le_length (by simp; omega)]
            congr 1; simp; omega
          rw [e, e]
        · rename_i hi
          rw [if_neg hi]
          rcases spathR_cases hy (p := p) with ⟨h1, h2⟩ | ⟨o, ho⟩
          · have : (if (c == 60) = true then spathR (c :: (p ++ y)) else none) = none := by
              split
              · exact h1 c
              · rfl
            rw [this]
            split at h
            · rename_i u hu
              exfalso
              simp only [Prod.mk.injEq, and_true] at h
              obtain ⟨rfl, rfl⟩ := h
              split at hu
              · exact h2 c _ hu
              · cases hu
            · simp only [Prod.mk.injEq, and_true] at h
              obtain ⟨rfl, h⟩ := h
              obtain ⟨a, b⟩ := lexOp_swap hy (p := c :: p) hp h
              rw [List.cons_append] at a b
              exact Prod.ext (by rw [a]; rfl) (Prod.ext (by rw [a]; exact b) rfl)
          · have ho' : ∀ c z, spathR (c :: (p ++ z)) = o.map (· ++ z) := ho
            rw [ho'] at h ⊢
            by_cases hc : (c == 60) = true
            · rw [if_pos hc] at h ⊢
              cases o with
              | some u =>
                simp only [Option.map_some, Prod.mk.injEq, and_true] at h ⊢
                exact ⟨h.1, by rw [List.append_cancel_right h.2]⟩
              | none =>
                simp only [Option.map_none, Prod.mk.injEq, and_true] at h ⊢
                obtain ⟨rfl, h⟩ := h
                obtain ⟨a, b⟩ := lexOp_swap hy (p := c :: p) hp h
                rw [List.cons_append] at a b
                exact ⟨by rw [a]; rfl, by rw [a]; exact b⟩
            · rw [if_neg hc] at h ⊢
              simp only [Prod.mk.injEq, and_true] at h ⊢
              obtain ⟨rfl, h⟩ := h
              obtain ⟨a, b⟩ := lexOp_swap hy (p := c :: p) hp h
              rw [List.cons_append] at a b
              exact ⟨by rw [a]; rfl, by rw [a]; exact b⟩

end

/-! ### White space and comments -/

theorem trivia_clean {s : St} (h : (consumeTrivia s).diags = []) : s.diags = [] := by
  fun_induction consumeTrivia s with
  | case1 => exact h
  | case2 s c r hs hc ih => have := ih h; rwa [consumeWhile_diags] at this
  | case3 s c r hs hc s' hcm ih =>
    have := ih h
    unfold consumeComments at hcm
    split at hcm
    · simp only at hcm
      split at hcm
      · cases hcm; simpa [consume_diags] using this
      · cases hcm; simp [St.emit] at this
    · split at hcm
      · cases hcm; simpa [consume_diags] using this
      · cases hcm
  | case4 => exact h

theorem block_swap {p x : Bytes} (y : Bytes) {n : Nat} (h : blockComment (p ++ x) = (n, true)) (hn : n ≤ p.length) :
    blockComment (p ++ y) = (n, true) := by
  have h2 : ∀ (l : Bytes) n, blockComment l = (n, true) → 2 ≤ n := by
    intro l
    induction l with
    | nil => intro n h; cases h
    | cons c l ih =>
      intro n h
      rw [blockComment] at h
      split at h
      · cases h; omega
      · have := ih (blockComment l).1 (Prod.ext rfl (Prod.ext_iff.mp h).2)
        have := (Prod.ext_iff.mp h).1
        simp only at this; omega
  induction p generalizing n with
  | nil => have := h2 _ _ h; simp at hn; omega
  | cons c p ih =>
    rw [List.cons_append, blockComment] at h ⊢
    cases p with
    | nil => have := h2 (c :: x) n (by rw [blockComment]; exact h); simp at hn; omega
    | cons d p =>
      have e : ∀ z : Bytes, b!"*/".isPrefixOf (c :: (d :: p ++ z)) = ((42 : UInt8) == c && ((47 : UInt8) == d && true)) := fun _ => rfl
      rw [e] at h ⊢
      split
      · rename_i hc; rw [if_pos hc] at h; exact h
      · rename_i hc; rw [if_neg hc] at h
        have h1 := (Prod.ext_iff.mp h).1
        have h3 := (Prod.ext_iff.mp h).2
        simp only at h1 h3
        have := ih (n := (blockComment (d :: p ++ x)).1) (Prod.ext rfl h3) (by simp only [List.length_cons] at hn ⊢; omega)
        rw [this, h1]

theorem line_swap {p x : Bytes} (y : Bytes) {n : Nat} (h : lineComment (p ++ x) = n) (hn : n < p.length) :
    lineComment (p ++ y) = n := by
  induction p generalizing n with
  | nil => simp at hn
  | cons c p ih =>
    rw [List.cons_append, lineComment] at h ⊢
    cases p with
    | nil =>
      have : n = 0 := by simp at hn; omega
      subst this
      split at h
      · omega
      · split at h <;> omega
    | cons d p =>
      have e1 : ∀ z : Bytes, b!"\r\n".isPrefixOf (c :: (d :: p ++ z)) = ((13 : UInt8) == c && ((10 : UInt8) == d && true)) := fun _ => rfl
      have e2 : ∀ z : Bytes, b!"\n".isPrefixOf (c :: (d :: p ++ z)) = ((10 : UInt8) == c && true) := fun _ => rfl
      rw [e1, e2] at h ⊢
      split
      · rename_i hc; rw [if_pos hc] at h; exact h
      · rename_i hc; rw [if_neg hc] at h
        split
        · rename_i hc; rw [if_pos hc] at h; exact h
        · rename_i hc; rw [if_neg hc] at h
          rw [ih (n := n - 1) (by omega) (by simp only [List.length_cons] at hn ⊢; omega)]
          omega

theorem trivia_suffix (s : St) : (consumeTrivia s).rem <:+ s.rem := by
  obtain ⟨n, h, -⟩ := consumeTrivia_adv s
  rw [h.rem]; exact List.drop_suffix _ _

theorem comments_none {s : St} : consumeComments s = none ↔ peekPrefix b!"/*" s = false ∧ peekPrefix b!"#" s = false := by
  unfold consumeComments
  split
  · rename_i h; simp only [h]; split <;> simp
  · rename_i h
    split
    · rename_i h'; simp [h']
    · rename_i h'; simp [h, h']

theorem trivia_step {s s' : St} (h : consumeComments s = some s') : consumeTrivia s = consumeTrivia s' := by
  have hx : ∃ c t, s.rem = c :: t := by
    cases hs : s.rem with
    | nil => have := consumeComments_lt h; rw [hs] at this; simp at this
    | cons c t => exact ⟨c, t, rfl⟩
  obtain ⟨c, t, hs⟩ := hx
  have hsp : isSpace c = false := by
    unfold consumeComments at h
    split at h
    · rename_i hp
      rw [peekPrefix, hs] at hp
      have : c = 47 := by simp only [List.isPrefixOf, Bool.and_eq_true, beq_iff_eq] at hp; exact hp.1.symm
      subst this; decide
    · split at h
      · rename_i hp
        rw [peekPrefix, hs] at hp
        have : c = 35 := by simp only [List.isPrefixOf, Bool.and_eq_true, beq_iff_eq] at hp; exact hp.1.symm
        subst this; decide
      · cases h
  conv => lhs; unfold consumeTrivia
  split
  · rename_i h'; rw [hs] at h'; cases h'
  · rename_i c' t' h'
    rw [hs] at h'; cases h'
    rw [dif_neg (by simp [hsp])]
    split
    · rename_i s2 h2; rw [h] at h2; cases h2; rfl
    · rename_i h2; rw [h] at h2; cases h2

theorem drop_split {p x q : Bytes} {n : Nat} (h : (p ++ x).drop n = q ++ x) (hq : q ≠ []) : n < p.length ∧ ∀ z : Bytes, (p ++ z).drop n = q ++ z := by
  have hl := congrArg List.length h
  have : 0 < q.length := List.length_pos_iff.mpr hq
  simp only [List.length_drop, List.length_append] at hl
  have hn : n < p.length := by omega
  refine ⟨hn, fun z => ?_⟩
  rw [List.drop_append_of_le_length (by omega)] at h ⊢
  rw [List.append_cancel_right h]

theorem suffix_longer {p x q u : Bytes} (h : q ++ x <:+ u) (hq : q ≠ []) (hu : u <:+ p ++ x) : ∃ p', u = p' ++ x ∧ p' ≠ [] := by
  have hl := h.length_le
  have : 0 < q.length := List.length_pos_iff.mpr hq
  simp only [List.length_append] at hl
  obtain ⟨p', rfl⟩ := suffix_split hu (by omega)
  refine ⟨p', rfl, ?_⟩
  rintro rfl
  simp only [List.nil_append] at hl; omega

theorem prefix_of_longer {w p z : Bytes} (h : w.isPrefixOf (p ++ z) = true) (hl : w.length ≤ p.length) (z' : Bytes) :
    w.isPrefixOf (p ++ z') = true := by
  rw [List.isPrefixOf_iff_prefix] at h ⊢
  rcases prefix_append_cases h with h | ⟨t, rfl, -, ht⟩
  · exact h.trans (List.prefix_append _ _)
  · have : 0 < t.length := List.length_pos_iff.mpr ht
    simp only [List.length_append] at hl; omega

theorem trivia_swap {x y q : Bytes} (hy : y.head? ≠ some 42 ∨ q.head? ≠ some 47) (s : St) : ∀ {p : Bytes} {s' : St}, (consumeTrivia s).diags = [] → (consumeTrivia s).rem = q ++ x → q ≠ [] →
    s.rem = p ++ x → s'.rem = p ++ y → s'.diags = [] → (consumeTrivia s').rem = q ++ y ∧ (consumeTrivia s').diags = [] := by
  fun_induction consumeTrivia s with
  | case1 s hs =>
    intro p s' hd hr hq hp
    rw [hr] at hs
    exact absurd (List.append_eq_nil_iff.mp hs).1 hq
  | case2 s c r hs hc ih =>
    intro p s' hd hr hq hp hs' hd'
    rw [← trivia_white s']
    have h1 := trivia_suffix (consumeWhile isSpace s)
    rw [hr] at h1
    obtain ⟨p', hp', hne⟩ := suffix_longer (p := p) h1 hq (by rw [consumeWhile_rem, hp]; exact dropWhile_suffix _ _)
    refine ih hd hr hq hp' ?_ (by rw [consumeWhile_diags, hd'])
    rw [consumeWhile_rem] at hp' ⊢
    rw [hp] at hp'
    rw [hs']
    rcases dropWhile_cases isSpace p with h | ⟨a, b, -, h⟩
    · rw [h] at hp'
      have := (dropWhile_suffix isSpace x).length_le
      rw [hp'] at this
      simp only [List.length_append] at this
      exact absurd (List.eq_nil_of_length_eq_zero (by omega)) hne
    · rw [h] at hp' ⊢
      rw [List.append_cancel_right hp']
  | case3 s c r hs hc s1 hcm ih =>
    intro p s' hd hr hq hp hs' hd'
    have hd1 := trivia_clean hd
    have hlt := consumeComments_lt hcm
    have h1 := trivia_suffix s1
    rw [hr] at h1
    have hcm' := hcm
    unfold consumeComments at hcm
    split at hcm
    · rename_i hpre
      simp only at hcm
      split at hcm
      · rename_i hcl
        cases hcm
        simp only [consume_rem, hp] at h1 hcl ih hd hr
        have hsuf : ((p ++ x).drop 2).drop (blockComment ((p ++ x).drop 2)).1 <:+ (p ++ x).drop 2 := List.drop_suffix _ _
        obtain ⟨p1, hp1, hne1⟩ := suffix_longer (p := p) h1 hq ((List.drop_suffix _ _).trans (List.drop_suffix _ _))
        obtain ⟨p2, hp2, hne2⟩ := suffix_longer (p := p) (h1.trans hsuf) hq (List.drop_suffix _ _)
        rw [hp2] at hp1 hcl
        obtain ⟨a1, a2⟩ := drop_split hp2 hne2
        obtain ⟨b1, b2⟩ := drop_split hp1 hne1
        have hb := block_swap y (n := (blockComment (p2 ++ x)).1) (Prod.ext rfl hcl) (by omega)
        have hpre' : peekPrefix b!"/*" s' = true := by
          rw [peekPrefix, hp] at hpre
          rw [peekPrefix, hs']
          exact prefix_of_longer hpre (by simp; omega) _
        have hcm2 : consumeComments s' = some (consume (blockComment (p2 ++ x)).1 (consume 2 s')) := by
          unfold consumeComments
          rw [if_pos hpre']
          simp only [consume_rem, hs', a2, hb, if_true]
        rw [trivia_step hcm2]
        refine ih hd hr hq (p := p1) ?_ ?_ ?_
        · rw [hp2]; exact hp1
        · simp only [consume_rem, hs', a2, b2]
        · simp [consume_diags, hd']
      · cases hcm; simp [St.emit] at hd1
    · rename_i hnp
      split at hcm
      · rename_i hpre
        cases hcm
        simp only [consume_rem, hp] at h1 ih hd hr
        have hsuf : ((p ++ x).drop 1).drop (lineComment ((p ++ x).drop 1)) <:+ (p ++ x).drop 1 := List.drop_suffix _ _
        obtain ⟨p1, hp1, hne1⟩ := suffix_longer (p := p) h1 hq ((List.drop_suffix _ _).trans (List.drop_suffix _ _))
        obtain ⟨p2, hp2, hne2⟩ := suffix_longer (p := p) (h1.trans hsuf) hq (List.drop_suffix _ _)
        rw [hp2] at hp1
        obtain ⟨a1, a2⟩ := drop_split hp2 hne2
        obtain ⟨b1, b2⟩ := drop_split hp1 hne1
        have hb := line_swap y (n := lineComment (p2 ++ x)) rfl (by omega)
        have hpre' : peekPrefix b!"#" s' = true := by
          rw [peekPrefix, hp] at hpre
          rw [peekPrefix, hs']
          exact prefix_of_longer hpre (by simp; omega) _
        have hnp' : ¬ peekPrefix b!"/*" s' = true := by
          intro h
          unfold peekPrefix at h hpre'
          cases hr : s'.rem with
          | nil => rw [hr] at h; cases h
          | cons a b =>
            rw [hr] at h hpre'
            simp only [List.isPrefixOf, Bool.and_eq_true, beq_iff_eq] at h hpre'
            rw [← h.1] at hpre'
            exact absurd hpre'.1 (by decide)
        have hcm2 : consumeComments s' = some (consume (lineComment (p2 ++ x)) (consume 1 s')) := by
          unfold consumeComments
          rw [if_neg hnp', if_pos hpre']
          simp only [consume_rem, hs', a2, hb]
        rw [trivia_step hcm2]
        refine ih hd hr hq (p := p1) ?_ ?_ ?_
        · rw [hp2]; exact hp1
        · simp only [consume_rem, hs', a2, b2]
        · simp [consume_diags, hd']
      · cases hcm
  | case4 s c r hs hc hcm =>
    intro p s' hd hr hq hp hs' hd'
    rw [hp] at hr
    have := List.append_cancel_right hr
    subst this
    obtain ⟨c', p, rfl⟩ := List.exists_cons_of_ne_nil hq
    rw [hp] at hs
    cases hs
    have h1 := comments_none.mp hcm
    unfold peekPrefix at h1
    rw [hp] at h1
    have h2 : consumeComments s' = none := by
      rw [comments_none]
      unfold peekPrefix
      rw [hs']
      constructor
      · by_contra h
        have h : b!"/*" <+: c :: p ++ y := List.isPrefixOf_iff_prefix.mp (Bool.of_not_eq_false h)
        rcases prefix_append_cases h with h | ⟨t, h3, h4, h5⟩
        · have := h1.1
          rw [List.isPrefixOf_iff_prefix.mpr (h.trans (List.prefix_append _ _))] at this
          cases this
        · cases p with
          | nil =>
            simp only [List.cons_append, List.nil_append, List.cons.injEq] at h3
            rw [← h3.2] at h4
            obtain ⟨u, hu⟩ := h4
            rcases hy with hy | hy
            · exact hy (by rw [← hu]; simp)
            · exact hy (by rw [← h3.1]; rfl)
          | cons d p =>
            have := congrArg List.length h3
            have h6 : 0 < t.length := List.length_pos_iff.mpr h5
            simp only [List.length_append, List.length_cons, List.length_nil] at this; omega
      · have := h1.2
        simpa [List.isPrefixOf] using this
    have h3 : consumeTrivia s' = s' := by
      unfold consumeTrivia
      split
      · rfl
      · rename_i h'
        rw [hs'] at h'; cases h'
        rw [dif_neg hc]
        split
        · rename_i h4; rw [h2] at h4; cases h4
        · rfl
    rw [h3]
    exact ⟨hs', hd'⟩

theorem skip_swap {x y p q : Bytes} (hy : Quiet' x y) (hc : CleanSkip (p ++ x)) (h : skip (p ++ x) = q ++ x) (hq : q ≠ []) :
    skip (p ++ y) = q ++ y ∧ CleanSkip (p ++ y) :=
  trivia_swap (.inl fun h => (soft_facts _ (hy 42 (by simp [h])).1).2.2.2.2.2.2.2.2.2.2.1 rfl) (.init (p ++ x)) hc h hq rfl rfl rfl

theorem skip_hard {x p : Bytes} {c : UInt8} (y : Bytes) (hs : stops c = true) (hc : CleanSkip (p ++ c :: x)) (h : skip (p ++ c :: x) = c :: x) :
    skip (p ++ c :: y) = c :: y ∧ CleanSkip (p ++ c :: y) := by
  have e : ∀ z : Bytes, p ++ c :: z = (p ++ [c]) ++ z := fun z => by simp
  rw [e] at hc h ⊢
  exact trivia_swap (q := [c]) (.inr fun h => (stops_facts _ hs).2.2.2.2.2.1 (by simpa using h)) (.init _) hc h (by simp) rfl rfl rfl

theorem Tok.ne {r v r' : Bytes} {k : TK} (h : Tok r k v r') (hk : k ≠ .eof) : v ≠ [] := by
  obtain ⟨t, s, h1, h2, h3, h4, h5⟩ := h
  obtain ⟨pre, n, ho, -, h6, h7⟩ := lex_out (.init r)
  rw [h1] at ho h6
  have h8 := fun h => hk (h2.symm.trans (h6.mpr h))
  have h9 : n ≠ 0 := fun h => h8 (h7.mp h)
  rw [← h3, ho.view]
  intro h
  rcases List.take_eq_nil_iff.mp h with h | h
  · exact h9 h
  · exact h8 h

theorem Tok.text {r v r' : Bytes} {k : TK} (h : Tok r k v r') : Syntax.skip r = v ++ r' := (tok_iff.mp h).2.2

/-- What comes after a token may be replaced. -/
theorem Tok.swap {x y p p' v : Bytes} {k : TK} (hy : Quiet' x y) (hap : Apart x y p) (h : Tok (p ++ x) k v (p' ++ x)) (hk : k ≠ .eof)
    (hq : k = .path_fragment → contR (p' ++ y) = true) : Tok (p ++ y) k v (p' ++ y) := by
  have hv := h.ne hk
  rw [tok_iff] at h ⊢
  obtain ⟨h1, h2, h3⟩ := h
  have hv : v ++ p' ≠ [] := by simp [hv]
  rw [← List.append_assoc] at h3
  obtain ⟨a, b⟩ := skip_swap hy h1 h3 hv
  refine ⟨b, ?_, by rw [a, List.append_assoc]⟩
  rw [a]
  rw [h3] at h2
  refine tokR_swap hy (hap.suffix ?_) hv h2 hq
  have hs : v ++ p' ++ x <:+ p ++ x := by rw [← h3]; exact trivia_suffix (.init (p ++ x))
  obtain ⟨g, hg⟩ := hs
  exact ⟨g, List.append_cancel_right (by simpa using hg)⟩

end Verif.Nixf.Syntax
