import Verif.Model.URI

namespace Verif.URI

theorem hex_roundtrip (c : UInt8) :
    isHexDigit (hexdigit (c / 16)) = true ∧ isHexDigit (hexdigit (c % 16)) = true ∧
      hexFromNibbles (hexdigit (c / 16)) (hexdigit (c % 16)) = c ∧
      hexdigit (c / 16) ≠ 58 ∧ hexdigit (c % 16) ≠ 58 ∧ hexdigit (c / 16) ≠ 47 ∧ hexdigit (c % 16) ≠ 47 := by
  revert c
  apply forall_byte
  decide +kernel

theorem not_escape_percent (c : UInt8) (h : shouldEscape c = false) : c ≠ 37 := by
  rintro rfl; revert h; decide

theorem percentDecode_ne (c : UInt8) (r : Bytes) (h : c ≠ 37) : percentDecode (c :: r) = c :: percentDecode r := by
  match r with
  | [] => simp [percentDecode, h]
  | [a] => simp [percentDecode, h]
  | a :: b :: r => rw [percentDecode]; simp [h]

theorem percentDecode_encode_append (s t : Bytes) :
    percentDecode (percentEncode s ++ t) = s ++ percentDecode t := by
  induction s with
  | nil => rfl
  | cons c s ih =>
    simp only [percentEncode]
    by_cases h : shouldEscape c = true
    · obtain ⟨h1, h2, h3, -⟩ := hex_roundtrip c
      simp only [h, if_true, List.cons_append]
      rw [percentDecode]
      simp [h1, h2, h3, ih]
    · simp only [Bool.not_eq_true] at h
      have := not_escape_percent c h
      simp only [h, Bool.false_eq_true, if_false, List.cons_append]
      rw [percentDecode_ne _ _ this, ih]

theorem percentDecode_encode (s : Bytes) : percentDecode (percentEncode s) = s := by
  have := percentDecode_encode_append s []
  simpa [percentDecode] using this

theorem mem_encode (s : Bytes) (x : UInt8) (hx : x = 58 ∨ x = 47) (h : x ∈ percentEncode s) : x ∈ s := by
  induction s with
  | nil => exact h
  | cons c s ih =>
    simp only [percentEncode] at h
    by_cases hc : shouldEscape c = true
    · simp only [hc, if_true, List.mem_cons] at h
      obtain ⟨-, -, -, h1, h2, h3, h4⟩ := hex_roundtrip c
      rcases h with h | h | h | h
      · rcases hx with rfl | rfl <;> exact absurd h (by decide)
      · rcases hx with rfl | rfl
        · exact absurd h.symm h1
        · exact absurd h.symm h3
      · rcases hx with rfl | rfl
        · exact absurd h.symm h2
        · exact absurd h.symm h4
      · exact List.mem_cons_of_mem _ (ih h)
    · simp only [Bool.not_eq_true] at hc
      simp only [hc, Bool.false_eq_true, if_false, List.mem_cons] at h
      rcases h with h | h
      · simp [h]
      · exact List.mem_cons_of_mem _ (ih h)

theorem findIdx_split (a rest : Bytes) (x : UInt8) (h : x ∉ a) :
    (a ++ x :: rest).findIdx? (· == x) = some a.length := by
  rw [List.findIdx?_append]
  have : a.findIdx? (· == x) = none := by
    rw [List.findIdx?_eq_none_iff]; intro y hy; simp; rintro rfl; exact h hy
  rw [this]; simp [List.findIdx?_cons]

theorem startsSlash_iff (b : Bytes) : startsSlash b = true ↔ ∃ r, b = 47 :: r := by
  constructor
  · intro h; unfold startsSlash at h; split at h
    · exact ⟨_, rfl⟩
    · cases h
  · rintro ⟨r, rfl⟩; rfl

theorem encode_slash (r : Bytes) : percentEncode (47 :: r) = 47 :: percentEncode r := by
  rw [percentEncode]
  have : shouldEscape 47 = false := by decide
  simp [this]

theorem encode_not_slash (b : Bytes) (h : startsSlash b = false) : startsSlash (percentEncode b) = false := by
  cases b with
  | nil => rfl
  | cons c r =>
    have hc : c ≠ 47 := by rintro rfl; simp [startsSlash] at h
    rw [percentEncode]
    split
    · rfl
    · unfold startsSlash; split
      · rename_i heq; simp at heq; exact absurd heq.1 hc
      · rfl

theorem scheme_no_colon (s : Bytes) (h : isValidScheme s = true) : (58 : UInt8) ∉ s := by
  cases s with
  | nil => simp
  | cons c r =>
    simp only [isValidScheme, Bool.and_eq_true, List.all_eq_true] at h
    intro hm
    simp only [List.mem_cons] at hm
    rcases hm with hm | hm
    · rw [← hm] at h; exact absurd h.1 (by decide)
    · exact absurd (h.2 _ hm) (by decide)

/-- The URIs the printer can represent: a valid scheme, no `/` in the authority, and a body that is
empty or absolute if there is an authority. -/
structure Printable (u : URI) : Prop where
  scheme : isValidScheme u.scheme = true
  authority : (47 : UInt8) ∉ u.authority
  body : u.authority = [] ∨ u.body = [] ∨ startsSlash u.body = true

theorem parse_core (scheme rest : Bytes) (h : isValidScheme scheme = true) :
    parse (percentEncode scheme ++ 58 :: rest) =
      match rest with
      | 47 :: 47 :: rest =>
        match rest.findIdx? (· == 47) with
        | none => some ⟨scheme, percentDecode rest, percentDecode []⟩
        | some p => some ⟨scheme, percentDecode (rest.take p), percentDecode (rest.drop p)⟩
      | rest => some ⟨scheme, [], percentDecode rest⟩ := by
  have hnc : (58 : UInt8) ∉ percentEncode scheme :=
    fun hm => scheme_no_colon scheme h (mem_encode _ _ (.inl rfl) hm)
  unfold parse
  rw [findIdx_split _ _ _ hnc]
  simp only [List.take_left', percentDecode_encode, h]
  have : (percentEncode scheme ++ 58 :: rest).drop ((percentEncode scheme).length + 1) = rest := by
    simp [List.drop_append]
  simp only [this]
  rfl

theorem parse_toString (u : URI) (h : Printable u) : parse (toString u) = some u := by
  obtain ⟨scheme, authority, body⟩ := u
  obtain ⟨hs, ha, hb⟩ := h
  simp only at hs ha hb
  have hna : (47 : UInt8) ∉ percentEncode authority := fun hm => ha (mem_encode _ _ (.inr rfl) hm)
  simp only [toString]
  by_cases h1 : authority = [] ∧ body = []
  · obtain ⟨rfl, rfl⟩ := h1
    simp only [true_and, if_true]
    rw [show percentEncode scheme ++ [58] = percentEncode scheme ++ 58 :: [] from rfl, parse_core _ _ hs]
    rfl
  · rw [if_neg h1]
    by_cases h2 : authority ≠ [] ∨ startsSlash body = true
    · rw [if_pos h2]
      have e : percentEncode scheme ++ [58] ++ b!"//" ++ percentEncode authority ++ percentEncode body
          = percentEncode scheme ++ 58 :: (47 :: 47 :: (percentEncode authority ++ percentEncode body)) := by simp
      rw [e, parse_core _ _ hs]
      simp only
      by_cases h3 : startsSlash body = true
      · obtain ⟨r, rfl⟩ := (startsSlash_iff body).mp h3
        rw [encode_slash, findIdx_split _ _ _ hna]
        simp only [List.take_left', List.drop_left', percentDecode_encode]
        rw [← encode_slash, percentDecode_encode]
      · have hbe : body = [] := by
          rcases hb with rfl | rfl | h
          · rcases h2 with h2 | h2
            · exact absurd rfl h2
            · exact absurd h2 h3
          · rfl
          · exact absurd h h3
        subst hbe
        simp only [percentEncode, List.append_nil]
        have : (percentEncode authority).findIdx? (· == 47) = none := by
          rw [List.findIdx?_eq_none_iff]; intro y hy; simp; rintro rfl; exact hna hy
        rw [this]
        simp [percentDecode_encode, percentDecode]
    · rw [if_neg h2]
      simp only [not_or, ne_eq, Decidable.not_not, Bool.not_eq_true] at h2
      obtain ⟨rfl, h3⟩ := h2
      rw [List.append_assoc, List.singleton_append, parse_core _ _ hs]
      have h4 := encode_not_slash body h3
      split
      · rename_i heq; rw [heq] at h4; simp [startsSlash] at h4
      · rw [percentDecode_encode]

theorem native_id (p : Bytes) (h : (92 : UInt8) ∉ p) : native p = p := by
  unfold native
  conv => rhs; rw [← List.map_id p]
  apply List.map_congr_left
  intro a ha
  have : a ≠ 92 := by rintro rfl; exact h ha
  simp [this]

end Verif.URI
