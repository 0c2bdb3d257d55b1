import Verif.Lemmas.SourceCode
/-
Properties C01-C04: positions and edits of a document.
-/
namespace Verif.Props
open Verif.SourceCode Verif.Spec

/-- **C01.** For every valid UTF-8 document and every character boundary, the reported position is
(newlines before, UTF-16 units since the last newline). -/
theorem C01_offsetToPosition_spec (pre post : List Char) :
    offsetToPosition (encode (pre ++ post)) (encode pre).length = posAfter pre :=
  offsetToPosition_encode pre post

/-- **C01**, offsets past the end are treated as the end. -/
theorem C01_offset_past_end (cs : List Char) (o : Nat) (h : (encode cs).length ≤ o) :
    offsetToPosition (encode cs) o = posAfter cs := by
  have h1 := offsetToPosition_encode cs []
  rw [List.append_nil] at h1
  rw [← h1]
  simp only [offsetToPosition]
  rw [Nat.min_eq_left h, Nat.min_self]

example : offsetToPosition (encode ['a', '\n', '𝄞', 'é', 'b']) 8 = ⟨1, 3⟩ := by
  have := C01_offsetToPosition_spec ['a', '\n', '𝄞', 'é'] ['b']
  simpa [posAfter, encode, String.utf8EncodeChar, lastLine, utf16Len, units] using this

/-- **C02**, offset → position → offset is the identity on character boundaries. The bound on the column is
forced by the conversion to `int` in `positionToOffset`. -/
theorem C02_offset_position_offset (pre post : List Char)
    (h : utf16Len (lastLine pre) < 2 ^ 31) :
    positionToOffset (encode (pre ++ post))
      (offsetToPosition (encode (pre ++ post)) (encode pre).length) false
      = .ok (encode pre).length := by
  rw [C01_offsetToPosition_spec, positionToOffset_iff]
  refine ⟨by simp [posAfter], pre, post, rfl, rfl, ?_⟩
  rw [toInt32_id]
  · simp [posAfter]
  · simp only [posAfter]; omega

/-- **C02**, position → offset → position is the identity on accepted positions. -/
theorem C02_position_offset_position (cs : List Char) (p : Position) (o : Nat)
    (hp : p.character < 2 ^ 31) (h : positionToOffset (encode cs) p false = .ok o) :
    offsetToPosition (encode cs) o = p := by
  obtain ⟨hc, pre, post, rfl, rfl, h3⟩ := (positionToOffset_iff _ _ _).mp h
  rw [C01_offsetToPosition_spec, h3, toInt32_id _ hc hp]

/-- **C02**, different character boundaries of a document have different positions. -/
theorem C02_position_injective (pre post pre' post' : List Char) (h : pre ++ post = pre' ++ post')
    (hp : posAfter pre = posAfter pre') : pre = pre' :=
  posAfter_inj pre post pre' post' h hp

example : utf16Len (lastLine ['a', '\n', '𝄞']) < 2 ^ 31 ∧
    positionToOffset (encode ['a', '\n', '𝄞']) ⟨1, 2⟩ false = .ok 6 := by decide +kernel

/-- **C03**, for every byte string and position the returned offset is inside the document. -/
theorem C03_in_bounds (code : Bytes) (p : Position) (allow : Bool) (o : Nat)
    (h : positionToOffset code p allow = .ok o) : o ≤ code.length := by
  unfold positionToOffset at h
  split at h
  · simp at h
  split at h
  · simp at h
  cases hls : lineStart code p.line.toNat 0 with
  | none => simp [hls] at h
  | some s =>
    simp only [hls] at h
    obtain ⟨a, rest, rfl, -, -, rfl⟩ := lineStart_some _ _ _ hls
    split at h
    · simp at h
    · simp only [Except.ok.injEq] at h
      have h1 := measureUnits_le (((a ++ rest).drop a.length).takeWhile (· != NL)) (toInt32 p.character)
      have h2 : (((a ++ rest).drop a.length).takeWhile (· != NL)).length ≤ rest.length := by
        rw [List.drop_left]; exact (List.takeWhile_sublist _).length_le
      rw [← h, List.length_append]
      omega

/-- **C03**, for every byte string negative coordinates and lines past the end are rejected. -/
theorem C03_rejects_bad_line_or_negative (code : Bytes) (p : Position) (allow : Bool)
    (h : p.line < 0 ∨ p.character < 0 ∨ (code.count NL : Int) < p.line) :
    ∃ e, positionToOffset code p allow = .error e := by
  unfold positionToOffset
  by_cases h1 : p.line < 0
  · exact ⟨_, by rw [if_pos h1]⟩
  by_cases h2 : p.character < 0
  · exact ⟨_, by rw [if_neg h1, if_pos h2]⟩
  have : lineStart code p.line.toNat 0 = none := (lineStart_none _ _).mpr (by omega)
  exact ⟨_, by rw [if_neg h1, if_neg h2, this]⟩

/-- **C03**, on valid UTF-8 a position with a column below 2^31 is accepted exactly if it is the
position of a character boundary (so columns past the end of line and columns inside a surrogate pair are
rejected). Partial: columns of 2^31 and more, see `C03_column_truncation_violated`. -/
theorem C03_accepted_iff_boundary_partial (cs : List Char) (p : Position) (hp : p.character < 2 ^ 31) :
    (∃ o, positionToOffset (encode cs) p false = .ok o) ↔
      ∃ pre post, cs = pre ++ post ∧ posAfter pre = p := by
  constructor
  · rintro ⟨o, h⟩
    obtain ⟨hc, pre, post, h1, h2, h3⟩ := (positionToOffset_iff _ _ _).mp h
    exact ⟨pre, post, h1, by rw [h3, toInt32_id _ hc hp]⟩
  · rintro ⟨pre, post, h1, rfl⟩
    refine ⟨_, (positionToOffset_iff _ _ _).mpr ⟨by simp [posAfter], pre, post, h1, rfl, ?_⟩⟩
    rw [toInt32_id]
    · simp [posAfter]
    · exact hp

/-- **C03 violated**: a column of 2^32 on an empty line is accepted as column 0, since the `int64_t`
column is passed to an `int` parameter. -/
theorem C03_column_truncation_violated :
    positionToOffset [] ⟨0, 2 ^ 32⟩ false = .ok 0 := by decide +kernel

example : (∃ o, positionToOffset (encode ['𝄞']) ⟨0, 2⟩ false = .ok o) ∧
    ¬ (∃ o, positionToOffset (encode ['𝄞']) ⟨0, 1⟩ false = .ok o) := by
  constructor
  · exact ⟨4, by decide +kernel⟩
  · rintro ⟨o, h⟩
    have : positionToOffset (encode ['𝄞']) ⟨0, 1⟩ false = .error .charInvalid := by decide +kernel
    rw [this] at h; simp at h

/-- **C04**, a whole-document change replaces the document. -/
theorem C04_full_change (contents text : Bytes) (len : Option Int) :
    applyChange contents ⟨none, len, text⟩ = (.ok (), text) := rfl

theorem posAfter_newline (cs : List Char) : posAfter (cs ++ ['\n']) = ⟨(cs.count '\n' : Int) + 1, 0⟩ := by
  have : lastLine (cs ++ ['\n']) = [] := lastLine_split cs [] (by simp)
  simp [posAfter, this, utf16Len]

/-- What `positionToOffset` followed by `inferFinalNewline` does on valid UTF-8. -/
theorem infer_ok (cs : List Char) (p : Position) (hp : p.character < 2 ^ 31) (o : Nat) (contents' : Bytes)
    (h : inferFinalNewline (positionToOffset (encode cs) p false) (encode cs) p = (.ok o, contents')) :
    ∃ cs', contents' = encode cs' ∧
      (cs' = cs ∨ (cs' = cs ++ ['\n'] ∧ cs.getLast? ≠ some '\n' ∧ p = posAfter cs')) ∧
      ∃ pre post, cs' = pre ++ post ∧ o = (encode pre).length ∧ posAfter pre = p := by
  unfold inferFinalNewline at h
  cases hr : positionToOffset (encode cs) p false with
  | ok o' =>
    rw [hr] at h
    simp at h
    obtain ⟨rfl, rfl⟩ := h
    obtain ⟨hc, pre, post, h1, h2, h3⟩ := (positionToOffset_iff _ _ _).mp hr
    exact ⟨cs, rfl, .inl rfl, pre, post, h1, h2, by rw [h3, toInt32_id _ hc hp]⟩
  | error e =>
    rw [hr] at h
    simp only at h
    split at h
    · simp at h
    rename_i h1
    split at h
    · simp at h
    rename_i h2
    split at h
    · simp at h
    rename_i h3
    simp at h
    have hpp : p = posAfter (cs ++ ['\n']) := by
      rw [posAfter_newline]
      rw [count_encode] at h3
      obtain ⟨l, c⟩ := p
      simp at h2 h3 ⊢; omega
    have hE : encode cs ++ [NL] = encode (cs ++ ['\n']) := by
      rw [encode_append]; simp [encode, encode_newline]
    refine ⟨cs ++ ['\n'], ?_, .inr ⟨rfl, ?_, hpp⟩, cs ++ ['\n'], [], by simp, ?_, hpp.symm⟩
    · rw [← hE]; exact h.2.symm
    · intro hl
      obtain ⟨ys, rfl⟩ := List.getLast?_eq_some_iff.mp hl
      apply h1
      rw [encode_append]; simp [encode, encode_newline]
    · rw [← hE, List.length_append]; simp; omega

/-- **C04**, soundness: whenever an incremental change is accepted, the new document is the splice of the
old one, or of the old one with one newline appended; the newline is added only if the document does not end
in one and one end of the range is the start of the line after the last. If the client states the length of
the replaced text, it is right. -/
theorem C04_accepted_is_splice (cs text : List Char) (start stop : Position) (len : Option Int)
    (hs : start.character < 2 ^ 31) (he : stop.character < 2 ^ 31) (res : Bytes)
    (h : applyChange (encode cs) ⟨some (start, stop), len, encode text⟩ = (.ok (), res)) :
    ∃ doc removed out, res = encode out ∧ IsSplice doc start stop text removed out ∧
      (∀ l, len = some l → l = utf16Len removed) ∧
      (doc = cs ∨ doc = cs ++ ['\n'] ∧ cs.getLast? ≠ some '\n' ∧
        (start = posAfter doc ∨ stop = posAfter doc)) := by
  unfold applyChange at h
  simp only at h
  generalize hi1 : inferFinalNewline (positionToOffset (encode cs) start false) (encode cs) start = t1 at h
  obtain ⟨si, c1⟩ := t1
  cases si with
  | error e => simp at h
  | ok si =>
    simp only at h
    obtain ⟨cs1, rfl, hcs1, a, r, hcsa, hsi, hpa⟩ := infer_ok cs start hs si c1 hi1
    generalize hi2 : inferFinalNewline (positionToOffset (encode cs1) stop false) (encode cs1) stop = t2 at h
    obtain ⟨ei, c2⟩ := t2
    cases ei with
    | error e => simp at h
    | ok ei =>
      simp only at h
      obtain ⟨cs2, rfl, hcs2, b, q, hcsb, hei, hpb⟩ := infer_ok cs1 stop he ei c2 hi2
      split at h
      · simp at h
      rename_i hlt
      split at h
      · simp at h
      rename_i hlen
      simp at h
      -- the start boundary is also a boundary of the final document
      obtain ⟨r', hr'⟩ : ∃ r', cs2 = a ++ r' := by
        rcases hcs2 with rfl | ⟨rfl, _, _⟩
        · exact ⟨r, hcsa⟩
        · exact ⟨r ++ ['\n'], by rw [hcsa]; simp⟩
      obtain ⟨d, rfl, hd⟩ := append_eq_of_encode_le a r' b q (by rw [← hr', ← hcsb]) (by omega)
      subst hd hr'
      have hdrop : ((encode (a ++ (d ++ q))).drop si).take (ei - si) = encode d := by
        rw [hsi, hei, ← List.append_assoc]; exact splice_mid a d q
      refine ⟨a ++ (d ++ q), d, a ++ text ++ q, ?_, ⟨a, q, by simp, hpa, hpb, rfl⟩, ?_, ?_⟩
      · rw [← h, hsi, hei, ← List.append_assoc a, splice_take, splice_drop]; simp [encode_append]
      · rintro l rfl
        rw [hdrop, lspLength_encode] at hlen
        simp at hlen; omega
      · rcases hcs1 with rfl | ⟨rfl, h1, h2⟩
        · rcases hcs2 with h3 | ⟨h3, h4, h5⟩
          · exact .inl h3
          · exact .inr ⟨h3, h4, .inr h5⟩
        · rcases hcs2 with h3 | ⟨h3, h4, h5⟩
          · exact .inr ⟨h3, h1, .inl (by rw [h3]; exact h2)⟩
          · simp at h4

/-- **C04**, completeness: every edit the protocol allows (positions are character boundaries with
columns in `int` range, the stated length, if any, is right) is accepted and gives the splice. -/
theorem C04_valid_change_accepted (cs text removed out : List Char) (start stop : Position) (len : Option Int)
    (hs : start.character < 2 ^ 31) (he : stop.character < 2 ^ 31)
    (h : IsSplice cs start stop text removed out) (hl : ∀ l, len = some l → l = utf16Len removed) :
    applyChange (encode cs) ⟨some (start, stop), len, encode text⟩ = (.ok (), encode out) := by
  obtain ⟨a, c, rfl, rfl, rfl, rfl⟩ := h
  have h1 : positionToOffset (encode (a ++ removed ++ c)) (posAfter a) false = .ok (encode a).length := by
    have := C02_offset_position_offset a (removed ++ c) (by simp only [posAfter] at hs; omega)
    rwa [C01_offsetToPosition_spec, ← List.append_assoc] at this
  have h2 : positionToOffset (encode (a ++ removed ++ c)) (posAfter (a ++ removed)) false
      = .ok (encode (a ++ removed)).length := by
    have := C02_offset_position_offset (a ++ removed) c (by simp only [posAfter] at he; omega)
    rwa [C01_offsetToPosition_spec] at this
  have hdrop : ((encode (a ++ removed ++ c)).drop (encode a).length).take
      ((encode (a ++ removed)).length - (encode a).length) = encode removed := splice_mid a removed c
  have hnot : ¬ (encode (a ++ removed)).length < (encode a).length := by
    rw [encode_append, List.length_append]; omega
  have hlen : len.any (fun l => decide ((utf16Len removed : Int) ≠ l)) = false := by
    cases len with
    | none => rfl
    | some l => have := hl l rfl; simp [this]
  simp only [applyChange, h1, h2, inferFinalNewline, hnot, if_false, hdrop, lspLength_encode, hlen]
  simp only [Bool.false_eq_true, if_false, Prod.mk.injEq, true_and]
  rw [splice_take, splice_drop]; simp [encode_append]

/-- **C04**, a change whose stated length disagrees with the addressed text is refused. -/
theorem C04_length_mismatch_refused (cs text removed out : List Char) (start stop : Position) (l : Int)
    (hs : start.character < 2 ^ 31) (he : stop.character < 2 ^ 31)
    (h : IsSplice cs start stop text removed out) (hl : l ≠ utf16Len removed) :
    (applyChange (encode cs) ⟨some (start, stop), some l, encode text⟩).1 = .error .lengthMismatch := by
  obtain ⟨a, c, rfl, rfl, rfl, rfl⟩ := h
  have h1 : positionToOffset (encode (a ++ removed ++ c)) (posAfter a) false = .ok (encode a).length := by
    have := C02_offset_position_offset a (removed ++ c) (by simp only [posAfter] at hs; omega)
    rwa [C01_offsetToPosition_spec, ← List.append_assoc] at this
  have h2 : positionToOffset (encode (a ++ removed ++ c)) (posAfter (a ++ removed)) false
      = .ok (encode (a ++ removed)).length := by
    have := C02_offset_position_offset (a ++ removed) c (by simp only [posAfter] at he; omega)
    rwa [C01_offsetToPosition_spec] at this
  have hdrop : ((encode (a ++ removed ++ c)).drop (encode a).length).take
      ((encode (a ++ removed)).length - (encode a).length) = encode removed := splice_mid a removed c
  have hnot : ¬ (encode (a ++ removed)).length < (encode a).length := by
    rw [encode_append, List.length_append]; omega
  have hlen : ((utf16Len removed : Int) ≠ l) := fun h => hl h.symm
  simp only [applyChange, h1, h2, inferFinalNewline, hnot, if_false, hdrop, lspLength_encode]
  simp [hlen]

example : IsSplice ['a', '𝄞', '\n', 'b'] ⟨0, 1⟩ ⟨1, 0⟩ ['x'] ['𝄞', '\n'] ['a', 'x', 'b'] :=
  ⟨['a'], ['b'], by decide +kernel⟩
example : applyChange (encode ['a']) ⟨some (⟨1, 0⟩, ⟨1, 0⟩), none, encode ['b']⟩
    = (.ok (), encode ['a', '\n', 'b']) := by decide +kernel

end Verif.Props
