import Verif.Lemmas.SourceCode
import Verif.Model.Server
import Verif.Spec.Lexical
/-
Positions of a text grow with the offset, also if the text is not UTF-8.
-/
namespace Verif.SourceCode
open Server Nixf

/-- The order of positions (Protocol.h:149-152). -/
def PosLe (a b : Position) : Prop := a.line < b.line ∨ a.line = b.line ∧ a.character ≤ b.character

theorem codepoints_prefix (l t : Bytes) : codepoints l <+: codepoints (l ++ t) := by
  fun_induction codepoints l with
  | case1 => exact List.nil_prefix
  | case2 c rest h ih =>
    rw [List.cons_append, codepoints, if_pos h]
    exact (List.prefix_append_right_inj [_]).mpr ih
  | case3 c rest h n hn ih =>
    rw [List.cons_append, codepoints, if_neg h]
    rw [if_pos hn]
    exact (List.prefix_append_right_inj [_]).mpr ih
  | case4 c rest h n hn ih =>
    rw [List.cons_append, codepoints, if_neg h]
    simp only
    rw [if_neg hn]
    by_cases hl : n - 1 ≤ rest.length
    · rw [List.drop_append_of_le_length hl]
      exact (List.prefix_append_right_inj [_]).mpr ih
    · have h1 : rest.drop (n - 1) = [] := List.drop_eq_nil_iff.mpr (by omega)
      rw [h1]
      exact (List.prefix_append_right_inj [_]).mpr (by rw [codepoints]; exact List.nil_prefix)

theorem lspLength_mono (l t : Bytes) : lspLength l ≤ lspLength (l ++ t) := by
  obtain ⟨r, hr⟩ := codepoints_prefix l t
  unfold lspLength
  rw [← hr, List.map_append, List.sum_append]
  omega

theorem lastLine_start (l : Bytes) : ∃ a b, l = a ++ b ∧ startOfLastLine l = a.length ∧ NL ∉ b ∧ (a = [] ∨ ∃ a', a = a' ++ [NL]) := by
  rcases split_last NL l with h | ⟨a, b, rfl, hb⟩
  · exact ⟨[], l, rfl, startOfLastLine_free l h, h, .inl rfl⟩
  · exact ⟨a ++ [NL], b, by simp, by rw [startOfLastLine_split a b hb]; simp, hb, .inr ⟨a, rfl⟩⟩

theorem startOfLastLine_append {l t : Bytes} (h : NL ∉ t) : startOfLastLine (l ++ t) = startOfLastLine l := by
  rcases split_last NL l with h1 | ⟨a, b, rfl, hb⟩
  · rw [startOfLastLine_free l h1, startOfLastLine_free (l ++ t)]
    simp [h1, h]
  · rw [startOfLastLine_split a b hb, List.append_assoc, List.cons_append, startOfLastLine_split]
    simp [hb, h]

theorem startOfLastLine_le (l : Bytes) : startOfLastLine l ≤ l.length := by
  obtain ⟨a, b, h1, h2, -⟩ := lastLine_start l
  have := congrArg List.length h1
  simp only [List.length_append] at this
  omega

theorem take_split {src : Bytes} {a b : Nat} (h : a ≤ b) : src.take b = src.take a ++ (src.take b).drop a := by
  have := (List.take_append_drop a (src.take b)).symm
  rwa [List.take_take, Nat.min_eq_left h] at this

theorem offsetToPosition_eq (src : Bytes) (a : Nat) : offsetToPosition src a =
    ⟨(src.take a).count NL, lspLength ((src.take a).drop (startOfLastLine (src.take a)))⟩ := by
  unfold offsetToPosition
  have : src.take (min src.length a) = src.take a := by
    rcases Nat.le_total src.length a with h | h
    · rw [Nat.min_eq_left h, List.take_of_length_le (Nat.le_refl _), List.take_of_length_le h]
    · rw [Nat.min_eq_right h]
  simp only [this]

theorem offsetToPosition_mono (src : Bytes) {a b : Nat} (h : a ≤ b) : PosLe (offsetToPosition src a) (offsetToPosition src b) := by
  rw [offsetToPosition_eq, offsetToPosition_eq, take_split h]
  generalize src.take a = l
  generalize (src.take b).drop a = t
  unfold PosLe
  simp only [List.count_append]
  by_cases hc : t.count NL = 0
  · refine .inr ⟨by simp [hc], ?_⟩
    rw [startOfLastLine_append (List.count_eq_zero.mp hc), List.drop_append_of_le_length (startOfLastLine_le l)]
    exact Int.ofNat_le.mpr (lspLength_mono _ _)
  · left
    omega

theorem offsetToPosition_line (src : Bytes) (a : Nat) : (offsetToPosition src a).line = ((src.take a).count NL : Int) := by
  rw [offsetToPosition_eq]

theorem codepoints_bound (l : Bytes) : ((codepoints l).map (·.2)).sum ≤ 2 * l.length := by
  fun_induction codepoints l with
  | case1 => simp
  | case2 c rest h ih => simp only [List.map_cons, List.sum_cons, List.length_cons]; omega
  | case3 c rest h n hn ih => simp only [List.map_cons, List.sum_cons, List.length_cons]; omega
  | case4 c rest h n hn ih =>
    simp only [List.map_cons, List.sum_cons, List.length_cons, List.length_drop] at ih ⊢
    split <;> omega

/-- The fields of a position are not negative, and bounded by the size of the text. -/
theorem offsetToPosition_bound (src : Bytes) (a : Nat) :
    0 ≤ (offsetToPosition src a).line ∧ (offsetToPosition src a).line ≤ src.length ∧
    0 ≤ (offsetToPosition src a).character ∧ (offsetToPosition src a).character ≤ 2 * src.length := by
  rw [offsetToPosition_eq]
  have h1 : (src.take a).count NL ≤ (src.take a).length := List.count_le_length ..
  have h2 := codepoints_bound ((src.take a).drop (startOfLastLine (src.take a)))
  have h3 : (src.take a).length ≤ src.length := by rw [List.length_take]; omega
  have h4 : ((src.take a).drop (startOfLastLine (src.take a))).length ≤ src.length := by rw [List.length_drop]; omega
  unfold lspLength
  refine ⟨by simp, ?_, by simp, ?_⟩ <;> simp only <;> omega

/-- A range spans several lines iff its text has a newline. -/
theorem lines_iff (src : Bytes) (r : CRange) (h : r.l.offset ≤ r.r.offset) :
    (offsetToPosition src r.l.offset).line < (offsetToPosition src r.r.offset).line ↔ NL ∈ Lexical.slice src r := by
  rw [offsetToPosition_line, offsetToPosition_line, take_split h, List.count_append]
  have : (src.take r.r.offset).drop r.l.offset = Lexical.slice src r := by
    unfold Lexical.slice
    rw [List.drop_take]
  rw [this]
  rw [← List.count_pos_iff]
  omega

end Verif.SourceCode
