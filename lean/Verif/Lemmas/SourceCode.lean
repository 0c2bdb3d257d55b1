import Verif.Model.SourceCode
import Verif.Spec.Text

namespace Verif.SourceCode
open Verif.Spec

theorem u8_ofNat_toNat {n : Nat} (h : n < 256) : (UInt8.ofNat n).toNat = n := by
  simp [UInt8.toNat_ofNat']; omega

theorem and80 (b : UInt8) : (b &&& 0x80 = 0) ↔ b.toNat < 128 := by
  have : ∀ b : BitVec 8, (UInt8.ofBitVec b &&& 0x80 = 0) ↔ (UInt8.ofBitVec b).toNat < 128 := by decide
  exact this b.toBitVec

theorem countlOne_eq (b : UInt8) : countlOne b =
    if b.toNat < 0x80 then 0
  else if b.toNat < 0xC0 then 1
  else if b.toNat < 0xE0 then 2
  else if b.toNat < 0xF0 then 3
  else if b.toNat < 0xF8 then 4
  else if b.toNat < 0xFC then 5
  else if b.toNat < 0xFE then 6
  else if b.toNat < 0xFF then 7
  else 8 := by
  unfold countlOne; simp [UInt8.lt_iff_toNat_lt]

theorem encode_nil : encode [] = [] := rfl
theorem encode_cons (c cs) : encode (c :: cs) = String.utf8EncodeChar c ++ encode cs := by
  simp [encode]
theorem encode_append (a b) : encode (a ++ b) = encode a ++ encode b := by
  simp [encode]

theorem utf16Len_nil : utf16Len [] = 0 := rfl
theorem utf16Len_cons (c cs) : utf16Len (c :: cs) = units c + utf16Len cs := by simp [utf16Len]
theorem utf16Len_append (a b) : utf16Len (a ++ b) = utf16Len a + utf16Len b := by
  simp [utf16Len]
theorem units_pos (c) : 1 ≤ units c := by unfold units; split <;> omega

theorem charLt (c : Char) : c.val.toNat < 0x110000 := by
  have := c.valid
  simp only [UInt32.isValidChar, Nat.isValidChar] at this
  omega

/-- The UTF-8 encoding of a code point number. -/
def encNat (v : Nat) : Bytes :=
  if v ≤ 127 then [UInt8.ofNat v]
  else if v ≤ 2047 then [UInt8.ofNat (v / 64 % 32 + 192), UInt8.ofNat (v % 64 + 128)]
  else if v ≤ 65535 then
    [UInt8.ofNat (v / 4096 % 16 + 224), UInt8.ofNat (v / 64 % 64 + 128), UInt8.ofNat (v % 64 + 128)]
  else [UInt8.ofNat (v / 262144 % 8 + 240), UInt8.ofNat (v / 4096 % 64 + 128),
    UInt8.ofNat (v / 64 % 64 + 128), UInt8.ofNat (v % 64 + 128)]

theorem utf8EncodeChar_eq (c : Char) : String.utf8EncodeChar c = encNat c.val.toNat := rfl

theorem codepoints_cons (c : Char) (rest : Bytes) :
    codepoints (String.utf8EncodeChar c ++ rest) =
      ((String.utf8EncodeChar c).length, units c) :: codepoints rest := by
  have hlt := charLt c
  rw [utf8EncodeChar_eq]
  unfold units Char.toNat
  generalize c.val.toNat = v at *
  unfold encNat
  by_cases h1 : v ≤ 127
  · have : v < 65536 := by omega
    simp only [h1, this, if_true, List.cons_append, List.nil_append, List.length_cons, List.length_nil]
    rw [codepoints]
    have : ((UInt8.ofNat v) &&& 0x80 = 0) := by rw [and80, u8_ofNat_toNat (by omega)]; omega
    simp [this]
  by_cases h2 : v ≤ 2047
  · have : v < 65536 := by omega
    simp only [h1, h2, this, if_true, if_false, List.cons_append, List.nil_append, List.length_cons, List.length_nil]
    rw [codepoints]
    have hb : (UInt8.ofNat (v / 64 % 32 + 192)).toNat = v / 64 % 32 + 192 := u8_ofNat_toNat (by omega)
    have : ¬ ((UInt8.ofNat (v / 64 % 32 + 192)) &&& 0x80 = 0) := by rw [and80, hb]; omega
    have hc : countlOne (UInt8.ofNat (v / 64 % 32 + 192)) = 2 := by
      rw [countlOne_eq, hb]; repeat' split
      all_goals omega
    simp only [this, hc]; simp
  by_cases h3 : v ≤ 65535
  · have : v < 65536 := by omega
    simp only [h1, h2, h3, this, if_true, if_false, List.cons_append, List.nil_append, List.length_cons, List.length_nil]
    rw [codepoints]
    have hb : (UInt8.ofNat (v / 4096 % 16 + 224)).toNat = v / 4096 % 16 + 224 := u8_ofNat_toNat (by omega)
    have : ¬ ((UInt8.ofNat (v / 4096 % 16 + 224)) &&& 0x80 = 0) := by rw [and80, hb]; omega
    have hc : countlOne (UInt8.ofNat (v / 4096 % 16 + 224)) = 3 := by
      rw [countlOne_eq, hb]; repeat' split
      all_goals omega
    simp only [this, hc]; simp
  · have : ¬ v < 65536 := by omega
    simp only [h1, h2, h3, this, if_false, List.cons_append, List.nil_append, List.length_cons, List.length_nil]
    rw [codepoints]
    have hb : (UInt8.ofNat (v / 262144 % 8 + 240)).toNat = v / 262144 % 8 + 240 := u8_ofNat_toNat (by omega)
    have : ¬ ((UInt8.ofNat (v / 262144 % 8 + 240)) &&& 0x80 = 0) := by rw [and80, hb]; omega
    have hc : countlOne (UInt8.ofNat (v / 262144 % 8 + 240)) = 4 := by
      rw [countlOne_eq, hb]; repeat' split
      all_goals omega
    simp only [this, hc]; simp

theorem codepoints_encode (cs : List Char) :
    codepoints (encode cs) = cs.map fun c => ((String.utf8EncodeChar c).length, units c) := by
  induction cs with
  | nil => simp [encode, codepoints]
  | cons c cs ih => rw [encode_cons, codepoints_cons, ih]; rfl

theorem lspLength_encode (cs : List Char) : lspLength (encode cs) = utf16Len cs := by
  simp [lspLength, codepoints_encode, utf16Len, Function.comp_def]

/-- The bytes of a character other than newline contain no newline byte. -/
theorem nl_not_mem (c : Char) (h : c ≠ '\n') : NL ∉ String.utf8EncodeChar c := by
  have hlt := charLt c
  have hv : c.val.toNat ≠ 10 := by
    intro h'; apply h; apply Char.ext; apply UInt32.toNat_inj.mp; exact h'
  rw [utf8EncodeChar_eq]
  generalize c.val.toNat = v at *
  unfold encNat
  have key : ∀ n, n < 256 → n ≠ 10 → (10 : UInt8) ≠ UInt8.ofNat n := by
    intro n hn h10 he
    have := congrArg UInt8.toNat he
    rw [u8_ofNat_toNat hn] at this
    exact h10 this.symm
  simp only [NL]
  intro hm
  split at hm
  · simp only [List.mem_cons, List.not_mem_nil, or_false] at hm; exact key v (by omega) hv hm
  split at hm
  · simp only [List.mem_cons, List.not_mem_nil, or_false] at hm
    rcases hm with hm | hm
    · exact key _ (by omega) (by omega) hm
    · exact key _ (by omega) (by omega) hm
  split at hm
  · simp only [List.mem_cons, List.not_mem_nil, or_false] at hm
    rcases hm with hm | hm | hm
    · exact key _ (by omega) (by omega) hm
    · exact key _ (by omega) (by omega) hm
    · exact key _ (by omega) (by omega) hm
  · simp only [List.mem_cons, List.not_mem_nil, or_false] at hm
    rcases hm with hm | hm | hm | hm
    · exact key _ (by omega) (by omega) hm
    · exact key _ (by omega) (by omega) hm
    · exact key _ (by omega) (by omega) hm
    · exact key _ (by omega) (by omega) hm

theorem encode_newline : String.utf8EncodeChar '\n' = [NL] := by decide

theorem count_encode (cs : List Char) : (encode cs).count NL = cs.count '\n' := by
  induction cs with
  | nil => rfl
  | cons c cs ih =>
    rw [encode_cons, List.count_append, ih]
    by_cases h : c = '\n'
    · subst h; rw [encode_newline]; simp; omega
    · rw [List.count_cons_of_ne h, List.count_eq_zero_of_not_mem (nl_not_mem c h)]; omega

theorem nl_not_mem_encode (cs : List Char) (h : '\n' ∉ cs) : NL ∉ encode cs := by
  rw [← List.count_eq_zero, count_encode]; exact List.count_eq_zero.mpr h

theorem nl_mem_encode (cs : List Char) (h : NL ∉ encode cs) : '\n' ∉ cs := by
  rw [← List.count_eq_zero, ← count_encode]; exact List.count_eq_zero.mpr h

/-- Split a list at its last newline. -/
theorem split_last {α} [DecidableEq α] (x : α) (l : List α) :
    (x ∉ l) ∨ ∃ a b, l = a ++ x :: b ∧ x ∉ b := by
  induction l with
  | nil => left; simp
  | cons y l ih =>
    rcases ih with h | ⟨a, b, h, hb⟩
    · by_cases hy : x = y
      · right; exact ⟨[], l, by simp [hy], h⟩
      · left; simp [hy, h]
    · right; exact ⟨y :: a, b, by simp [h], hb⟩

theorem takeWhile_all {α} (p : α → Bool) (l : List α) (h : ∀ x ∈ l, p x = true) : l.takeWhile p = l := by
  induction l with
  | nil => rfl
  | cons a l ih =>
    simp only [List.mem_cons, forall_eq_or_imp] at h
    simp [h.1, ih h.2]

theorem takeWhile_stop {α} (p : α → Bool) (l : List α) (x : α) (r : List α)
    (h : ∀ x ∈ l, p x = true) (hx : p x = false) : (l ++ x :: r).takeWhile p = l := by
  induction l with
  | nil => simp [hx]
  | cons a l ih =>
    simp only [List.mem_cons, forall_eq_or_imp] at h
    simp [h.1, ih h.2]

theorem lastLine_free (l : List Char) (h : '\n' ∉ l) : lastLine l = l := by
  unfold lastLine
  rw [takeWhile_all, List.reverse_reverse]
  intro x hx; simp at hx ⊢; rintro rfl; exact h hx

theorem lastLine_split (a l : List Char) (h : '\n' ∉ l) : lastLine (a ++ '\n' :: l) = l := by
  unfold lastLine
  rw [List.reverse_append, List.reverse_cons, List.append_assoc, List.singleton_append,
    takeWhile_stop, List.reverse_reverse]
  · intro x hx; simp at hx ⊢; rintro rfl; exact h hx
  · simp

theorem startOfLastLine_free (l : Bytes) (h : NL ∉ l) : startOfLastLine l = 0 := by
  unfold startOfLastLine
  have : l.reverse.findIdx? (· == NL) = none := by
    rw [List.findIdx?_eq_none_iff]; intro x hx; simp at hx ⊢; rintro rfl; exact h hx
  rw [this]

theorem startOfLastLine_split (a l : Bytes) (h : NL ∉ l) :
    startOfLastLine (a ++ NL :: l) = a.length + 1 := by
  unfold startOfLastLine
  have : (a ++ NL :: l).reverse.findIdx? (· == NL) = some l.length := by
    rw [List.reverse_append, List.reverse_cons, List.append_assoc, List.singleton_append,
      List.findIdx?_append]
    have : l.reverse.findIdx? (· == NL) = none := by
      rw [List.findIdx?_eq_none_iff]; intro x hx; simp at hx ⊢; rintro rfl; exact h hx
    rw [this]; simp [List.findIdx?_cons]
  rw [this]; simp; omega

theorem drop_startOfLastLine (cs : List Char) :
    (encode cs).drop (startOfLastLine (encode cs)) = encode (lastLine cs) := by
  rcases split_last '\n' cs with h | ⟨a, b, rfl, hb⟩
  · rw [startOfLastLine_free _ (nl_not_mem_encode _ h), lastLine_free _ h]; rfl
  · rw [lastLine_split _ _ hb, encode_append, encode_cons, encode_newline, List.singleton_append,
      startOfLastLine_split _ _ (nl_not_mem_encode _ hb)]
    simp [List.drop_append]

theorem offsetToPosition_encode (pre post : List Char) :
    offsetToPosition (encode (pre ++ post)) (encode pre).length = posAfter pre := by
  unfold offsetToPosition posAfter
  have h1 : min (encode (pre ++ post)).length (encode pre).length = (encode pre).length := by
    rw [encode_append, List.length_append]; omega
  have h2 : (encode (pre ++ post)).take (encode pre).length = encode pre := by
    rw [encode_append, List.take_left]
  simp only [h1, h2, count_encode, drop_startOfLastLine, lspLength_encode]

/-! ### Lines -/

theorem lineStart_shift (code : Bytes) (n start : Nat) :
    lineStart code n start = (lineStart (code.drop start) n 0).map (· + start) := by
  induction n generalizing code start with
  | zero => simp [lineStart]
  | succ n ih =>
    simp only [lineStart, List.drop_zero]
    cases findNL (code.drop start) with
    | none => rfl
    | some k =>
      simp only
      rw [ih code, ih (code.drop start)]
      simp only [List.drop_drop, Option.map_map, Function.comp_def]
      have : start + k + 1 = start + (0 + k + 1) := by omega
      rw [this]
      congr 1
      funext x; omega

theorem findNL_split (a rest : Bytes) (h : NL ∉ a) : findNL (a ++ NL :: rest) = some a.length := by
  unfold findNL
  rw [List.findIdx?_append]
  have : a.findIdx? (· == NL) = none := by
    rw [List.findIdx?_eq_none_iff]; intro x hx; simp; rintro rfl; exact h hx
  rw [this]; simp [List.findIdx?_cons]

theorem findNL_none (a : Bytes) : findNL a = none ↔ NL ∉ a := by
  unfold findNL
  rw [List.findIdx?_eq_none_iff]
  constructor
  · intro h hm; have := h _ hm; simp at this
  · intro h x hx; simp; rintro rfl; exact h hx

theorem split_first {α} [DecidableEq α] (x : α) (l : List α) :
    (x ∉ l) ∨ ∃ a b, l = a ++ x :: b ∧ x ∉ a := by
  induction l with
  | nil => left; simp
  | cons y l ih =>
    by_cases hy : x = y
    · right; exact ⟨[], l, by simp [hy], by simp⟩
    rcases ih with h | ⟨a, b, h, hb⟩
    · left; simp [hy, h]
    · right; exact ⟨y :: a, b, by simp [h], by simp [hy, hb]⟩

/-- A prefix that is empty or ends in a newline. -/
def LineBreak (a : Bytes) : Prop := a = [] ∨ ∃ a', a = a' ++ [NL]

theorem lineStart_cons (a rest : Bytes) (h : NL ∉ a) (n : Nat) :
    lineStart (a ++ NL :: rest) (n + 1) 0 = (lineStart rest n 0).map (· + (a.length + 1)) := by
  rw [lineStart]
  simp only [List.drop_zero, findNL_split a rest h]
  rw [lineStart_shift]
  have : (a ++ NL :: rest).drop (0 + a.length + 1) = rest := by
    simp [List.drop_append]
  rw [this]; congr 1; funext x; omega

theorem lineStart_of (a rest : Bytes) (h : LineBreak a) :
    lineStart (a ++ rest) (a.count NL) 0 = some a.length := by
  generalize hn : a.count NL = n
  induction n generalizing a with
  | zero =>
    rcases h with rfl | ⟨a', rfl⟩
    · rfl
    · simp at hn
  | succ n ih =>
    rcases split_first NL a with h' | ⟨u, v, rfl, hu⟩
    · rw [List.count_eq_zero.mpr h'] at hn; omega
    · rw [List.append_assoc, List.cons_append, lineStart_cons _ _ hu, ih]
      · simp; omega
      · rcases h with h | ⟨a', h⟩
        · simp at h
        · rcases List.eq_nil_or_concat v with rfl | ⟨v', x, rfl⟩
          · left; rfl
          · right
            refine ⟨v', ?_⟩
            have : x = NL := by
              have h2 := congrArg List.getLast? h
              rw [List.concat_eq_append, show u ++ NL :: (v' ++ [x]) = (u ++ NL :: v') ++ [x] by simp,
                List.getLast?_concat, List.getLast?_concat] at h2
              exact Option.some.inj h2
            simp [this]
      · rw [List.count_append, List.count_cons_self, List.count_eq_zero.mpr hu] at hn; omega

theorem lineStart_some (code : Bytes) (n s : Nat) (h : lineStart code n 0 = some s) :
    ∃ a rest, code = a ++ rest ∧ LineBreak a ∧ a.count NL = n ∧ a.length = s := by
  induction n generalizing code s with
  | zero => simp [lineStart] at h; exact ⟨[], code, rfl, .inl rfl, rfl, by simpa using h⟩
  | succ n ih =>
    rcases split_first NL code with h' | ⟨u, v, rfl, hu⟩
    · simp [lineStart, (findNL_none code).mpr h'] at h
    · rw [lineStart_cons _ _ hu] at h
      cases hv : lineStart v n 0 with
      | none => simp [hv] at h
      | some s' =>
        rw [hv] at h
        obtain ⟨a, rest, rfl, hb, hc, hl⟩ := ih _ _ hv
        refine ⟨u ++ NL :: a, rest, by simp, ?_, ?_, ?_⟩
        · right
          rcases hb with rfl | ⟨a', rfl⟩
          · exact ⟨u, rfl⟩
          · exact ⟨u ++ NL :: a', by simp⟩
        · rw [List.count_append, List.count_cons_self, List.count_eq_zero.mpr hu]; omega
        · simp at h; simp; omega

theorem lineStart_none (code : Bytes) (n : Nat) : lineStart code n 0 = none ↔ code.count NL < n := by
  induction n generalizing code with
  | zero => simp [lineStart]
  | succ n ih =>
    rcases split_first NL code with h' | ⟨u, v, rfl, hu⟩
    · simp [lineStart, (findNL_none code).mpr h', List.count_eq_zero.mpr h']
    · rw [lineStart_cons _ _ hu, Option.map_eq_none_iff, ih, List.count_append, List.count_cons_self,
        List.count_eq_zero.mpr hu]; omega

/-! ### Columns -/

theorem measureLoop_ok (u v : List Char) (hu : u ≠ []) (r : Nat) :
    measureLoop (codepoints (encode (u ++ v))) r (utf16Len u) = (r + (encode u).length, 0, true) := by
  induction u generalizing r with
  | nil => exact absurd rfl hu
  | cons c u ih =>
    rw [codepoints_encode]
    simp only [List.cons_append, List.map_cons, measureLoop, utf16Len_cons]
    cases u with
    | nil => simp [utf16Len_nil, encode]
    | cons d u =>
      have := units_pos d
      have hpos : ¬ ((units c + utf16Len (d :: u) : Nat) : Int) - (units c : Int) ≤ 0 := by
        rw [utf16Len_cons]; omega
      rw [if_neg hpos]
      have e : ((units c + utf16Len (d :: u) : Nat) : Int) - (units c : Int) = (utf16Len (d :: u) : Nat) := by
        omega
      rw [e]
      rw [← codepoints_encode, ih (by simp), encode_cons c, List.length_append, Nat.add_assoc]

theorem measureLoop_inv (l : List Char) (r : Nat) (k : Int) (res : Nat) (k' : Int) (b : Bool)
    (h : measureLoop (codepoints (encode l)) r k = (res, k', b)) :
    ∃ u v, l = u ++ v ∧ res = r + (encode u).length ∧ k' = k - utf16Len u ∧
      (b = true → k' ≤ 0) ∧ (b = false → v = [] ∧ (0 < k → 0 < k')) := by
  induction l generalizing r k with
  | nil =>
    simp [encode, codepoints, measureLoop] at h
    refine ⟨[], [], rfl, ?_, ?_, ?_, ?_⟩
    · simp [h.1, encode]
    · simp [← h.2.1, utf16Len]
    · rw [h.2.2]; simp
    · rw [← h.2.1]; simp
  | cons c l ih =>
    rw [codepoints_encode] at h
    simp only [List.map_cons, measureLoop] at h
    split at h
    · rename_i hle
      simp at h
      refine ⟨[c], l, rfl, ?_, ?_, ?_, ?_⟩
      · rw [encode_cons, encode_nil]; simp [h.1]
      · rw [utf16Len_cons, utf16Len_nil]; omega
      · omega
      · rw [h.2.2]; simp
    · rename_i hle
      rw [← codepoints_encode] at h
      obtain ⟨u, v, rfl, h1, h2, h3, h4⟩ := ih _ _ h
      refine ⟨c :: u, v, rfl, ?_, ?_, h3, ?_⟩
      · rw [encode_cons, List.length_append]; omega
      · rw [utf16Len_cons]; omega
      · intro hb; obtain ⟨h5, h6⟩ := h4 hb; exact ⟨h5, fun _ => h6 (by omega)⟩

theorem measureUnits_ok (u v : List Char) :
    measureUnits (encode (u ++ v)) (utf16Len u) = ((encode u).length, true) := by
  unfold measureUnits
  cases u with
  | nil => simp [utf16Len_nil, encode_nil]
  | cons c u =>
    have := units_pos c
    have hpos : ¬ ((utf16Len (c :: u) : Nat) : Int) ≤ 0 := by rw [utf16Len_cons]; omega
    rw [if_neg hpos, measureLoop_ok _ _ (by simp)]
    have : (encode (c :: u)).length ≤ (encode (c :: (u ++ v))).length := by
      rw [← List.cons_append, encode_append, List.length_append]; omega
    simpa using this

theorem measureUnits_valid (l : List Char) (k : Int) (res : Nat)
    (h : measureUnits (encode l) k = (res, true)) :
    ∃ u v, l = u ++ v ∧ res = (encode u).length ∧ k = utf16Len u := by
  unfold measureUnits at h
  split at h
  · simp at h
    exact ⟨[], l, rfl, by simp [← h.1, encode], by simp [utf16Len]; omega⟩
  · rename_i hk
    generalize hm : measureLoop (codepoints (encode l)) 0 k = t at h
    obtain ⟨r, k', b⟩ := t
    obtain ⟨u, v, rfl, h1, h2, h3, h4⟩ := measureLoop_inv _ _ _ _ _ _ hm
    simp only at h
    split at h
    · simp at h
    · simp at h
      obtain ⟨rfl, h6, h7⟩ := h
      subst h7
      have := h3 rfl
      exact ⟨u, v, rfl, by omega, by omega⟩

theorem measureUnits_le (b : Bytes) (k : Int) : (measureUnits b k).1 ≤ b.length := by
  unfold measureUnits
  split
  · simp
  · simp only []
    split
    · simp
    · simp; omega

theorem toInt32_id (x : Int) (h0 : 0 ≤ x) (h : x < 2 ^ 31) : toInt32 x = x := by
  unfold toInt32; rw [Int.bmod_eq_of_le] <;> omega

/-- The prefix of a UTF-8 text ending with a newline byte is a prefix of characters. -/
theorem encode_split_nl (cs : List Char) (a rest : Bytes) (h : encode cs = a ++ rest) (hb : LineBreak a) :
    ∃ p q, cs = p ++ q ∧ encode p = a ∧ encode q = rest ∧ (p = [] ∨ ∃ p', p = p' ++ ['\n']) := by
  induction cs generalizing a with
  | nil =>
    simp [encode] at h
    exact ⟨[], [], rfl, by simp [encode, h.1], by simp [encode, h.2], .inl rfl⟩
  | cons c cs ih =>
    rcases hb with rfl | ⟨a', rfl⟩
    · exact ⟨[], c :: cs, rfl, rfl, h, .inl rfl⟩
    · rw [encode_cons] at h
      by_cases hc : c = '\n'
      · subst hc
        rw [encode_newline] at h
        cases a' with
        | nil =>
          simp at h
          exact ⟨['\n'], cs, rfl, by simp [encode, encode_newline], h, .inr ⟨[], rfl⟩⟩
        | cons x a' =>
          simp at h
          obtain ⟨p, q, rfl, h1, h2, h3⟩ := ih (a' ++ [NL]) (by simp [h.2]) (.inr ⟨a', rfl⟩)
          refine ⟨'\n' :: p, q, rfl, ?_, h2, ?_⟩
          · rw [encode_cons, h1, encode_newline]; simp [← h.1]
          · right
            rcases h3 with rfl | ⟨p', rfl⟩
            · exact ⟨[], rfl⟩
            · exact ⟨'\n' :: p', rfl⟩
      · -- the newline of `a` lies behind the bytes of `c`
        have hnm := nl_not_mem c hc
        rw [List.append_eq_append_iff] at h
        rcases h with ⟨t, h1, h2⟩ | ⟨t, h1, h2⟩
        · -- a' ++ [NL] = enc c ++ t
          rcases List.eq_nil_or_concat t with rfl | ⟨t', x, rfl⟩
          · simp at h1
            exact absurd (h1 ▸ (by simp : NL ∈ a' ++ [NL])) hnm
          · have hx : x = NL := by
              have := congrArg List.getLast? h1
              simp at this; exact this.symm
            subst hx
            rw [List.concat_eq_append] at h1 h2
            obtain ⟨p, q, rfl, h1', h2', h3⟩ := ih (t' ++ [NL]) h2 (.inr ⟨t', rfl⟩)
            refine ⟨c :: p, q, rfl, ?_, h2', ?_⟩
            · rw [encode_cons, h1', h1]
            · right
              rcases h3 with rfl | ⟨p', rfl⟩
              · have := congrArg List.length h1'
                simp [encode] at this
              · exact ⟨c :: p', rfl⟩
        · exact absurd (h1 ▸ (by simp : NL ∈ (a' ++ [NL]) ++ t)) hnm

theorem takeWhile_encode (cs : List Char) :
    (encode cs).takeWhile (· != NL) = encode (cs.takeWhile (· ≠ '\n')) := by
  rcases split_first '\n' cs with h | ⟨a, b, rfl, ha⟩
  · rw [takeWhile_all, takeWhile_all]
    · intro x hx; simp; rintro rfl; exact h hx
    · intro x hx; simp; rintro rfl; exact nl_not_mem_encode _ h hx
  · rw [takeWhile_stop (p := fun x => decide (x ≠ '\n')), encode_append, encode_cons, encode_newline, List.singleton_append, takeWhile_stop]
    · intro x hx; simp; rintro rfl; exact nl_not_mem_encode _ ha hx
    · simp
    · intro x hx; simp; rintro rfl; exact ha hx
    · simp

end Verif.SourceCode

namespace Verif.SourceCode
open Verif.Spec

theorem lastLine_append_free (a d : List Char) (h : '\n' ∉ d) : lastLine (a ++ d) = lastLine a ++ d := by
  rcases split_last '\n' a with h' | ⟨u, v, rfl, hv⟩
  · rw [lastLine_free a h', lastLine_free]; simp [h, h']
  · rw [lastLine_split u v hv, List.append_assoc, List.cons_append, lastLine_split]; simp [h, hv]

theorem posAfter_extend (pre d : List Char) (h : posAfter (pre ++ d) = posAfter pre) : d = [] := by
  simp only [posAfter, Position.mk.injEq] at h
  by_cases hd : '\n' ∈ d
  · have := List.count_pos_iff.mpr hd
    rw [List.count_append] at h; omega
  · rw [lastLine_append_free _ _ hd, utf16Len_append] at h
    cases d with
    | nil => rfl
    | cons c d => have := units_pos c; rw [utf16Len_cons] at h; omega

theorem posAfter_inj (pre post pre' post' : List Char) (h : pre ++ post = pre' ++ post')
    (hp : posAfter pre = posAfter pre') : pre = pre' := by
  rw [List.append_eq_append_iff] at h
  rcases h with ⟨t, h1, h2⟩ | ⟨t, h1, h2⟩
  · subst h1; rw [posAfter_extend pre t hp.symm]; simp
  · subst h1; rw [posAfter_extend pre' t hp]; simp

/-- Exact acceptance: a position is accepted iff some character boundary has it (column truncated to
32 bits), and then the offset of this boundary is returned. -/
theorem positionToOffset_iff (cs : List Char) (p : Position) (o : Nat) :
    positionToOffset (encode cs) p false = .ok o ↔
      0 ≤ p.character ∧
      ∃ pre post, cs = pre ++ post ∧ o = (encode pre).length ∧
        posAfter pre = ⟨p.line, toInt32 p.character⟩ := by
  constructor
  · intro h
    unfold positionToOffset at h
    split at h
    · simp at h
    rename_i hl
    split at h
    · simp at h
    rename_i hc
    refine ⟨by omega, ?_⟩
    cases hls : lineStart (encode cs) p.line.toNat 0 with
    | none => simp [hls] at h
    | some s =>
      simp only [hls] at h
      obtain ⟨a, rest, hE, hB, hcount, hlen⟩ := lineStart_some _ _ _ hls
      obtain ⟨P, Q, rfl, hP, hQ, hPn⟩ := encode_split_nl cs a rest hE hB
      subst hP
      have hdrop : (encode (P ++ Q)).drop s = encode Q := by
        rw [encode_append, ← hlen, List.drop_left]
      rw [hdrop, takeWhile_encode] at h
      generalize hm : measureUnits (encode (Q.takeWhile (· ≠ '\n'))) (toInt32 p.character) = t at h
      obtain ⟨r, v⟩ := t
      cases v with
      | false => simp at h
      | true =>
        simp at h
        obtain ⟨u, v, huv, hr, hk⟩ := measureUnits_valid _ _ _ hm
        refine ⟨P ++ u, v ++ Q.dropWhile (· ≠ '\n'), ?_, ?_, ?_⟩
        · rw [List.append_assoc, ← List.append_assoc u, ← huv, List.takeWhile_append_dropWhile]
        · rw [encode_append, List.length_append]; omega
        · have hu : '\n' ∉ u := by
            intro hu
            have : '\n' ∈ Q.takeWhile (· ≠ '\n') := by rw [huv]; simp [hu]
            have := List.all_takeWhile (p := fun x => decide (x ≠ '\n')) (l := Q) |> List.all_eq_true.mp |> (· _ this)
            simp at this
          have hPc : P.count '\n' = p.line.toNat := by rw [← count_encode]; exact hcount
          have hlast : lastLine (P ++ u) = u := by
            rcases hPn with rfl | ⟨P', rfl⟩
            · rw [List.nil_append, lastLine_free _ hu]
            · rw [List.append_assoc, List.singleton_append, lastLine_split _ _ hu]
          simp only [posAfter, Position.mk.injEq, hlast, List.count_append, hPc,
            List.count_eq_zero.mpr hu]
          omega
  · rintro ⟨hc, pre, post, rfl, ho, hp⟩
    simp only [posAfter, Position.mk.injEq] at hp
    obtain ⟨h1, h2⟩ := hp
    unfold positionToOffset
    rw [if_neg (by omega), if_neg (by omega)]
    -- split the prefix at its last newline
    obtain ⟨P, u, rfl, hu, hPn⟩ : ∃ P u, pre = P ++ u ∧ '\n' ∉ u ∧ (P = [] ∨ ∃ P', P = P' ++ ['\n']) := by
      rcases split_last '\n' pre with h | ⟨a, b, rfl, hb⟩
      · exact ⟨[], pre, rfl, h, .inl rfl⟩
      · exact ⟨a ++ ['\n'], b, by simp, hb, .inr ⟨a, rfl⟩⟩
    have hlast : lastLine (P ++ u) = u := by
      rcases hPn with rfl | ⟨P', rfl⟩
      · rw [List.nil_append, lastLine_free _ hu]
      · rw [List.append_assoc, List.singleton_append, lastLine_split _ _ hu]
    rw [hlast] at h2
    have hline : p.line.toNat = (encode P).count NL := by
      rw [count_encode]
      rw [List.count_append, List.count_eq_zero.mpr hu] at h1
      omega
    have hLB : LineBreak (encode P) := by
      rcases hPn with rfl | ⟨P', rfl⟩
      · left; rfl
      · right; refine ⟨encode P', ?_⟩
        rw [encode_append]; simp [encode, encode_newline]
    have hls : lineStart (encode (P ++ u ++ post)) p.line.toNat 0 = some (encode P).length := by
      rw [List.append_assoc, encode_append, hline]; exact lineStart_of _ _ hLB
    rw [hls]
    have hdrop : (encode (P ++ u ++ post)).drop (encode P).length = encode (u ++ post) := by
      rw [List.append_assoc, encode_append, List.drop_left]
    have htw : (u ++ post).takeWhile (· ≠ '\n') = u ++ post.takeWhile (· ≠ '\n') := by
      rw [List.takeWhile_append_of_pos]
      intro a ha; simp; rintro rfl; exact hu ha
    simp only [hdrop, takeWhile_encode, htw, ← h2, measureUnits_ok]
    simp [ho, encode_append]

theorem encode_len_pos (c : Char) : 0 < (String.utf8EncodeChar c).length := by
  rw [String.length_utf8EncodeChar]; exact Char.utf8Size_pos c

theorem append_eq_of_encode_le (a b c d : List Char) (h : a ++ b = c ++ d)
    (hl : (encode a).length ≤ (encode c).length) : ∃ t, c = a ++ t ∧ b = t ++ d := by
  rw [List.append_eq_append_iff] at h
  rcases h with ⟨t, h1, h2⟩ | ⟨t, h1, h2⟩
  · exact ⟨t, h1, h2⟩
  · subst h1
    rw [encode_append, List.length_append] at hl
    cases t with
    | nil => exact ⟨[], by simp, by simpa using h2.symm⟩
    | cons x t =>
      have := encode_len_pos x
      rw [encode_cons, List.length_append] at hl; omega

theorem splice_mid (a d q : List Char) :
    ((encode (a ++ d ++ q)).drop (encode a).length).take ((encode (a ++ d)).length - (encode a).length)
      = encode d := by
  simp [encode_append]

theorem splice_take (a d q : List Char) : (encode (a ++ d ++ q)).take (encode a).length = encode a := by
  simp [encode_append]

theorem splice_drop (a d q : List Char) : (encode (a ++ d ++ q)).drop (encode (a ++ d)).length = encode q := by
  rw [encode_append (a ++ d), List.drop_left]

end Verif.SourceCode
