import Verif.Model.Draft
/-
Property C06: versions of drafts.
-/
namespace Verif.Props
open Verif.Draft

theorem incrementLast_lt (c : UInt8) (h : c ≠ 57) : incrementLast c = c + 1 := by
  rw [incrementLast]; simp [h]

theorem incrementLast_nine : incrementLast 57 = 49 := by
  rw [incrementLast]
  simp only [ne_eq, not_true_eq_false, if_false]
  rw [incrementLast_lt] <;> decide

theorem isDigit_succ (c : UInt8) (h : isDigit c = true) (h9 : c ≠ 57) :
    isDigit (c + 1) = true ∧ (c + 1).toNat - 48 = (c.toNat - 48) + 1 := by
  have : ∀ b : BitVec 8, isDigit (UInt8.ofBitVec b) = true → UInt8.ofBitVec b ≠ 57 →
      isDigit (UInt8.ofBitVec b + 1) = true ∧
        (UInt8.ofBitVec b + 1).toNat - 48 = ((UInt8.ofBitVec b).toNat - 48) + 1 := by decide +kernel
  exact this c.toBitVec h h9

/-- **C06**, partial: an automatically assigned version is one more than the previous one, if the
last digit of the previous one is not 9. (Missing: last digit 9, where the claim is false, see
`C06_increment_violated`.) -/
theorem C06_increment_partial (s : Bytes) (c : UInt8) (n : Nat) (h : parseNat (s ++ [c]) = some n) (hc : c ≠ 57) :
    parseNat (updateVersion (s ++ [c]) []) = some (n + 1) := by
  unfold parseNat at h
  split at h
  · simp at h
  split at h
  · rename_i h2
    simp only [List.all_append, List.all_cons, List.all_nil, Bool.and_true, Bool.and_eq_true] at h2
    simp only [updateVersion, ne_eq, not_true_eq_false, if_false, increment, List.getLast?_concat, h2.2,
      List.dropLast_concat, incrementLast_lt c hc]
    obtain ⟨h3, h4⟩ := isDigit_succ c h2.2 hc
    simp only [List.foldl_append, List.foldl_cons, List.foldl_nil, Option.some.injEq] at h
    simp only [Bool.not_true, Bool.false_eq_true, if_false, parseNat, List.append_eq_nil_iff, List.cons_ne_nil,
      and_false, List.all_append, h2.1, List.all_cons, h3, List.all_nil, Bool.and_self, if_true,
      List.foldl_append, List.foldl_cons, List.foldl_nil, h4]
    simp only [Option.some.injEq]; omega
  · simp at h

/-- **C06 violated**: after version 9 comes version 1, after 19 comes 11. -/
theorem C06_increment_violated :
    updateVersion b!"9" [] = b!"1" ∧ updateVersion b!"19" [] = b!"11" := by
  constructor <;> simp [updateVersion, increment, incrementLast_nine, isDigit]

/-- The version of a draft after `n` updates without a client version. -/
def autoVersion : Nat → Bytes
  | 0 => []
  | n + 1 => updateVersion (autoVersion n) []

/-- **C06 violated** for every long history: from the second update on the version has period 9, so two
updates nine apart always get the same version. -/
theorem C06_versions_repeat (n : Nat) : autoVersion (n + 2 + 9) = autoVersion (n + 2) := by
  induction n with
  | zero => decide +kernel
  | succ n ih =>
    show updateVersion (autoVersion (n + 2 + 9)) [] = updateVersion (autoVersion (n + 2)) []
    rw [ih]

/-- **C06**, the very first automatic version is "0" (the comment in the code says 1). -/
theorem C06_first_version : autoVersion 1 = b!"0" := by decide

/-! Client-provided versions -/

theorem natDigits_digits (n : Nat) : (natDigits n).all isDigit = true ∧ natDigits n ≠ [] ∧
    (natDigits n).foldl (fun a c => a * 10 + (c.toNat - 48)) 0 = n := by
  have hd : ∀ k, k < 10 → isDigit (UInt8.ofNat (48 + k)) = true ∧ (UInt8.ofNat (48 + k)).toNat - 48 = k := by
    intro k hk
    have : ∀ k, k < 10 → isDigit (UInt8.ofNat (48 + k)) = true ∧ (UInt8.ofNat (48 + k)).toNat - 48 = k := by decide
    exact this k hk
  fun_induction natDigits n with
  | case1 n h =>
    obtain ⟨h1, h2⟩ := hd n h
    exact ⟨by simp only [List.all_cons, h1, List.all_nil, Bool.and_self], by simp,
      by simp only [List.foldl_cons, List.foldl_nil, h2]; omega⟩
  | case2 n h ih =>
    obtain ⟨h1, h2⟩ := hd (n % 10) (Nat.mod_lt _ (by omega))
    refine ⟨by simp only [List.all_append, ih.1, List.all_cons, h1, List.all_nil, Bool.and_self], by simp, ?_⟩
    rw [List.foldl_append, ih.2.2]
    simp only [List.foldl_cons, List.foldl_nil, h2]
    omega

theorem parseNat_natDigits (n : Nat) : parseNat (natDigits n) = some n := by
  obtain ⟨h1, h2, h3⟩ := natDigits_digits n
  unfold parseNat
  rw [if_neg h2, if_pos h1, h3]

theorem natDigits_head (n : Nat) (r : Bytes) : natDigits n ≠ 45 :: r := by
  intro h
  have := (natDigits_digits n).1
  rw [h] at this
  simp [isDigit] at this

/-- **C06**, the version number sent by a client survives: it is stored and decodes to the same number, for every
`int64_t`. -/
theorem C06_client_version_kept (old : Bytes) (v : Int) (h1 : -2 ^ 63 ≤ v) (h2 : v < 2 ^ 63) :
    decodeVersion (updateVersion old (encodeVersion (some v))) = some v := by
  have hne : encodeVersion (some v) ≠ [] := by
    simp only [encodeVersion, intDigits]
    split
    · simp
    · exact (natDigits_digits _).2.1
  rw [updateVersion, if_pos hne]
  simp only [encodeVersion, intDigits, decodeVersion]
  by_cases hv : v < 0
  · rw [if_pos hv]
    simp only [parseInt, parseNat_natDigits, Option.bind_some]
    have : v.natAbs ≤ 2 ^ 63 := by omega
    rw [if_pos this]; congr 1; omega
  · rw [if_neg hv]
    unfold parseInt
    split
    · rename_i h; exact absurd h (natDigits_head _ _)
    · simp only [parseNat_natDigits, Option.bind_some]
      have : v.natAbs < 2 ^ 63 := by omega
      rw [if_pos this]; congr 1; omega

example : parseNat b!"12" = some 12 ∧ parseNat (updateVersion b!"12" []) = some 13 := by decide +kernel
example : decodeVersion (encodeVersion (some (-42))) = some (-42) := by decide +kernel

end Verif.Props
