import Verif.Lemmas.SourceCode
import Verif.Spec.Lexical
import Verif.Props.Rename
/-
C53: the position sent by the client and the position used to look up a node.
-/
namespace Verif.Props
open Nixf Verif.Spec SourceCode Lexical

theorem takeWhile_reverse_encode (cs : List Char) :
    (encode cs).reverse.takeWhile (fun b => decide (b ≠ NL)) = (encode (lastLine cs)).reverse := by
  rcases split_last '\n' cs with h | ⟨a, b, rfl, hb⟩
  · rw [lastLine_free _ h]
    refine takeWhile_all _ _ fun x hx => ?_
    simp only [decide_eq_true_eq]
    rintro rfl
    exact nl_not_mem_encode _ h (List.mem_reverse.mp hx)
  · rw [lastLine_split _ _ hb, encode_append, encode_cons, encode_newline, List.reverse_append, List.reverse_append,
      List.append_assoc]
    refine takeWhile_stop _ _ _ _ ?_ ?_
    · intro x hx
      simp only [decide_eq_true_eq]
      rintro rfl
      exact nl_not_mem_encode _ hb (List.mem_reverse.mp hx)
    · simp

theorem units_le (c : Char) : units c ≤ (String.utf8EncodeChar c).length ∧
    (units c = (String.utf8EncodeChar c).length ↔ c.toNat < 128) := by
  have h : (String.utf8EncodeChar c).length = c.utf8Size := String.length_utf8EncodeChar c
  rw [h]
  have hv : c.toNat = c.val.toNat := rfl
  unfold units Char.utf8Size
  simp only [UInt32.le_iff_toNat_le, hv]
  simp only [show (UInt32.ofNatLT 127 (by decide)).toNat = 127 from rfl,
    show (UInt32.ofNatLT 2047 (by decide)).toNat = 2047 from rfl,
    show (UInt32.ofNatLT 65535 (by decide)).toNat = 65535 from rfl]
  repeat' split
  all_goals omega

theorem utf16Len_le (cs : List Char) : utf16Len cs ≤ (encode cs).length ∧
    (utf16Len cs = (encode cs).length ↔ ∀ c ∈ cs, c.toNat < 128) := by
  induction cs with
  | nil => simp [utf16Len, encode]
  | cons c cs ih =>
    obtain ⟨h1, h2⟩ := units_le c
    obtain ⟨h3, h4⟩ := ih
    rw [utf16Len_cons, encode_cons, List.length_append]
    refine ⟨by omega, ?_⟩
    constructor
    · intro h x hx
      rcases List.mem_cons.mp hx with rfl | hx
      · exact h2.mp (by omega)
      · exact h4.mp (by omega) x hx
    · intro h
      have := h2.mpr (h c List.mem_cons_self)
      have := h4.mpr fun x hx => h x (List.mem_cons_of_mem _ hx)
      omega

/-- **C53.** The client's cursor behind the text `pre` is looked up at the line and column (in bytes) behind `pre` exactly if the
characters between the start of the line and the cursor are ASCII. -/
theorem C53_cursor_iff (pre : List Char) :
    toNixfPosition (posAfter pre) = (posOf (encode pre)).position ↔ ∀ c ∈ lastLine pre, c.toNat < 128 := by
  have h := (utf16Len_le (lastLine pre)).2
  have hc : ((posOf (encode pre)).position : Pos) = ⟨(pre.count '\n' : Nat), ((encode (lastLine pre)).length : Nat)⟩ := by
    simp only [posOf, Cursor.position, count_encode]
    rw [takeWhile_reverse_encode, List.length_reverse]
  rw [hc]
  simp only [toNixfPosition, posAfter, Pos.mk.injEq, true_and]
  rw [← h]
  omega

/-- The line is always the right one, and the column is never too far to the right. -/
theorem C53_line (pre : List Char) :
    (toNixfPosition (posAfter pre)).line = (posOf (encode pre)).position.line ∧
      (toNixfPosition (posAfter pre)).column ≤ (posOf (encode pre)).position.column := by
  have h := (utf16Len_le (lastLine pre)).1
  simp only [posOf, Cursor.position, count_encode]
  rw [takeWhile_reverse_encode, List.length_reverse]
  simp only [toNixfPosition, posAfter]
  exact ⟨trivial, by omega⟩

example : toNixfPosition (posAfter ['é', '\n', 'a', 'b']) = (posOf (encode ['é', '\n', 'a', 'b'])).position :=
  (C53_cursor_iff _).mpr (by simp [lastLine])

/-- `x: y: [ "éé" x y ]`, up to the last `y`. -/
def accented : List Char := ['x', ':', ' ', 'y', ':', ' ', '[', ' ', '"', 'é', 'é', '"', ' ', 'x', ' ']

theorem encode_accented : encode accented = b!"x: y: [ \"éé\" x " := by
  simp [encode, accented, String.utf8EncodeChar]

/-- The column of the definition found for a cursor in the first line. -/
noncomputable def definitionAt (src : Bytes) (col : Int) : Option (Except DefErr Nat) :=
  match parse src with
  | some (root, _) =>
    match root.descend ⟨⟨0, col⟩, ⟨0, col⟩⟩ with
    | some n =>
      some ((findDefinition (runPM root) (runVL [] (sizeOf root) root) (sizeOf root) n).map fun d => d.syntax_.range.l.column)
    | none => none
  | none => none

/-- C53. With the cursor on the last `y` of `x: y: [ "éé" x y ]`, the definition of `x` is found. -/
theorem C53_wrong_variable_violated :
    posAfter accented = ⟨0, 15⟩ ∧ (posOf (encode accented)).position = ⟨0, 17⟩ ∧
    definitionAt (encode accented ++ b!"y ]") 15 = some (.ok 0) ∧
    definitionAt (encode accented ++ b!"y ]") 17 = some (.ok 3) := by
  rw [encode_accented]
  refine ⟨?_, ?_, ?_, ?_⟩
  · simp [posAfter, accented, lastLine, utf16Len, units]
  · decide +kernel
  · decide +kernel
  · decide +kernel

end Verif.Props
