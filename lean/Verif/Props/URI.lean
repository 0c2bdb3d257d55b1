import Verif.Lemmas.URI
/-
Properties C07 and C08: percent encoding and file URIs.
-/
namespace Verif.Props
open Verif.URI

/-- **C07**, decoding the encoded form of any byte string gives it back. -/
theorem C07_decode_encode (s : Bytes) : percentDecode (percentEncode s) = s := percentDecode_encode s

/-- **C07**, different strings have different encodings. -/
theorem C07_encode_injective (s t : Bytes) (h : percentEncode s = percentEncode t) : s = t := by
  rw [← percentDecode_encode s, h, percentDecode_encode]

/-- The characters a URI component may contain literally (RFC 3986 unreserved), plus `/` and `:`. -/
def isPlain (c : UInt8) : Bool :=
  (b!"abcdefghijklmnopqrstuvwxyzABCDEFGHIJKLMNOPQRSTUVWXYZ0123456789-._~/:").contains c

/-- Upper-case hexadecimal digits. -/
def isUpperHex (c : UInt8) : Bool := (b!"0123456789ABCDEF").contains c

/-- Strings made of plain characters and well-formed `%XX` escapes. -/
inductive WellFormed : Bytes → Prop
  | nil : WellFormed []
  | plain (c s) : isPlain c = true → WellFormed s → WellFormed (c :: s)
  | escape (a b s) : isUpperHex a = true → isUpperHex b = true → WellFormed s → WellFormed (37 :: a :: b :: s)

/-- **C07**, the encoded form consists of plain characters and well-formed `%XX` escapes. -/
theorem C07_encode_wellFormed (s : Bytes) : WellFormed (percentEncode s) := by
  have h1 : ∀ c : UInt8, isUpperHex (hexdigit (c / 16)) = true ∧ isUpperHex (hexdigit (c % 16)) = true ∧
      (shouldEscape c = false → isPlain c = true) := by
    apply forall_byte; decide +kernel
  induction s with
  | nil => exact .nil
  | cons c s ih =>
    rw [percentEncode]
    obtain ⟨ha, hb, hc⟩ := h1 c
    split
    · exact .escape _ _ _ ha hb ih
    · rename_i h; exact .plain _ _ (hc (by simpa using h)) ih

/-- **C07**, plain characters (in particular path separators) are kept as they are. -/
theorem C07_plain_kept (s : Bytes) (h : ∀ c ∈ s, isPlain c = true) : percentEncode s = s := by
  have h1 : ∀ c : UInt8, isPlain c = true → shouldEscape c = false := by apply forall_byte; decide +kernel
  induction s with
  | nil => rfl
  | cons c s ih =>
    simp only [List.mem_cons, forall_eq_or_imp] at h
    rw [percentEncode, h1 c h.1, ih h.2]; simp

example : percentEncode b!"/a b%é" = b!"/a%20b%25%C3%A9" := by decide

/-- The value of a hexadecimal digit of either case. -/
def hexVal (c : UInt8) : Option Nat :=
  if (b!"0123456789abcdef").contains c then some ((b!"0123456789abcdef").idxOf c)
  else if (b!"ABCDEF").contains c then some ((b!"ABCDEF").idxOf c + 10) else none

/-- `Decoded s t`: `t` is `s` with each `%` followed by two hexadecimal digits replaced by the byte they denote; everything
else, including any other `%`, is kept. -/
inductive Decoded : Bytes → Bytes → Prop
  | nil : Decoded [] []
  | escape (a b x y s t) : hexVal a = some x → hexVal b = some y → Decoded s t →
      Decoded (37 :: a :: b :: s) (UInt8.ofNat (16 * x + y) :: t)
  | keep (c s t) : (c ≠ 37 ∨ ¬ ∃ a b r, s = a :: b :: r ∧ (hexVal a).isSome ∧ (hexVal b).isSome) → Decoded s t →
      Decoded (c :: s) (c :: t)

/-- **C07**, decoding of arbitrary strings: exactly the well-formed escapes are replaced. -/
theorem C07_decode_any (s : Bytes) : Decoded s (percentDecode s) := by
  have h1 : ∀ c : UInt8, isHexDigit c = (hexVal c).isSome := by apply forall_byte; decide +kernel
  have h2 : ∀ c : UInt8, isHexDigit c = true → hexVal c = some (hexValue c).toNat := by
    apply forall_byte; decide +kernel
  fun_induction percentDecode s with
  | case1 => exact .nil
  | case2 c rest hc ih => exact .keep _ _ _ (.inl hc) ih
  | case3 c hc a b rest' hh ih =>
    have hc : c = 37 := by simpa using hc
    subst hc
    simp only [Bool.and_eq_true] at hh
    have := Decoded.escape a b _ _ _ _ (h2 a hh.1) (h2 b hh.2) ih
    have e : UInt8.ofNat (16 * (hexValue a).toNat + (hexValue b).toNat) = hexFromNibbles a b := by
      unfold hexFromNibbles
      apply UInt8.toNat.inj
      simp [UInt8.toNat_add, UInt8.toNat_mul, Nat.mul_comm]
    rw [e] at this
    exact this
  | case4 c hc a b rest' hh ih =>
    refine .keep _ _ _ (.inr ?_) ih
    rintro ⟨a', b', r, he, ha, hb⟩
    cases he
    rw [← h1] at ha hb
    exact hh (by simp [ha, hb])
  | case5 c rest hc hn ih =>
    refine .keep _ _ _ (.inr ?_) ih
    rintro ⟨a, b, r, rfl, -⟩
    exact hn a b r rfl

example : percentDecode b!"%4g%%41%e9%" = b!"%4g%A" ++ [233] ++ b!"%" := by decide +kernel

/-- **C08**, parsing the printed form of a URI gives the URI back: for every valid scheme, every authority without
`/` and every body (absolute or empty if there is an authority). -/
theorem C08_parse_toString (u : URI.URI) (h : Printable u) : parse (toString u) = some u := parse_toString u h

example : Printable ⟨b!"file", b!"host", b!"/a b"⟩ := ⟨by decide, by decide, by decide⟩

theorem rootName_cases (p : Bytes) : rootName p = [] ∨
    ∃ host rest, p = 47 :: 47 :: (host ++ rest) ∧ rootName p = 47 :: 47 :: host ∧ host ≠ [] ∧
      (47 : UInt8) ∉ host ∧ (rest = [] ∨ startsSlash rest = true) := by
  unfold rootName
  split
  · rename_i c rest
    split
    · exact .inl rfl
    · rename_i hc
      right
      refine ⟨(c :: rest).takeWhile (· ≠ 47), (c :: rest).dropWhile (· ≠ 47), ?_, rfl, ?_, ?_, ?_⟩
      · rw [List.takeWhile_append_dropWhile]
      · simp [hc]
      · intro hm
        have := List.all_takeWhile (p := fun x : UInt8 => decide (x ≠ 47)) (l := c :: rest) |> List.all_eq_true.mp |> (· _ hm)
        simp at this
      · cases hd : (c :: rest).dropWhile (· ≠ 47) with
        | nil => exact .inl rfl
        | cons x xs =>
          right
          have := List.head?_dropWhile_not (fun x : UInt8 => decide (x ≠ 47)) (c :: rest)
          rw [hd] at this
          simp at this
          subst this; rfl
  · exact .inl rfl

def asciiLetters : Bytes := b!"abcdefghijklmnopqrstuvwxyzABCDEFGHIJKLMNOPQRSTUVWXYZ"

/-- **C08**, file path → URI → file path is the identity, for every absolute path without a backslash that does not
look like `/X:...`. Partial: these two cases are false, see below. -/
theorem C08_file_roundtrip_partial (p : Bytes) (habs : isAbsolute p = true)
    (hbs : (92 : UInt8) ∉ p)
    (hdrive : ∀ x r, p = 47 :: x :: 58 :: r → x ∉ asciiLetters) :
    ∃ s, uriOfFile p = some s ∧ fileOfURI s = some p := by
  have hwin : p.head? = some 47 → isWindowsPath (p.drop 1) = false := by
    intro hh
    have hl : ∀ c : UInt8, isAlpha c = true → c ∈ asciiLetters := by
      apply forall_byte; decide +kernel
    unfold isWindowsPath
    split
    · rename_i a b r hd
      rw [← Bool.not_eq_true]
      intro hc
      simp only [Bool.and_eq_true, beq_iff_eq] at hc
      cases p with
      | nil => cases hh
      | cons y p =>
        simp only [List.head?_cons, Option.some.injEq] at hh
        simp only [List.drop_one, List.tail_cons] at hd
        exact hdrive a r (by rw [hh, hd, hc.2]) (hl a hc.1)
    · rfl
  have hfile : isValidScheme b!"file" = true := by decide
  rcases rootName_cases p with hr | ⟨host, rest, rfl, hr, hne, hns, hrest⟩
  · -- no network root
    unfold isAbsolute at habs
    rw [hr] at habs
    simp only [List.length_nil, List.drop_zero] at habs
    have hc : createFile p = some ⟨b!"file", [], p⟩ := by
      unfold createFile
      simp only [hr]
      rfl
    refine ⟨toString ⟨b!"file", [], p⟩, by simp [uriOfFile, hc], ?_⟩
    unfold fileOfURI
    rw [parse_toString _ ⟨hfile, by simp, .inl rfl⟩]
    have hwin := hwin (by
      cases p with
      | nil => cases habs
      | cons c r =>
        unfold startsSlash at habs
        split at habs
        · rename_i h; cases h; rfl
        · cases habs)
    rw [List.drop_one] at hwin
    simp [resolve, getAbsolutePath, habs, hwin, native_id p hbs]
  · have hsl : startsSlash rest = true := by
      unfold isAbsolute at habs
      rw [hr] at habs
      simpa using habs
    have hc : createFile (47 :: 47 :: (host ++ rest)) = some ⟨b!"file", host, rest⟩ := by
      unfold createFile
      simp only [hr]
      have : isNetworkPath (47 :: 47 :: host) = true := by
        cases host with
        | nil => exact absurd rfl hne
        | cons x xs => rfl
      rw [if_pos this]
      simp [mkURI, hsl]
    refine ⟨toString ⟨b!"file", host, rest⟩, by simp [uriOfFile, hc], ?_⟩
    unfold fileOfURI
    rw [parse_toString _ ⟨hfile, hns, .inr (.inr hsl)⟩]
    simp only [resolve, getAbsolutePath, hsl]
    simp [hne]
    rw [native_id]
    simpa using hbs

/-- **C08 violated** for paths containing a backslash: `/a\b` comes back as `/a/b`. -/
theorem C08_backslash_violated :
    isAbsolute b!"/a\\b" = true ∧ (uriOfFile b!"/a\\b").bind fileOfURI = some b!"/a/b" := by decide +kernel

/-- **C08 violated** for POSIX paths that look like a Windows drive: `/c:/x` comes back as `c:/x`. -/
theorem C08_drive_violated :
    isAbsolute b!"/c:/x" = true ∧ (uriOfFile b!"/c:/x").bind fileOfURI = some b!"c:/x" := by decide +kernel

/-- A finding about `C08`: the client's URI `file:////net` is accepted as the path `//net`, for which the server's own
URI constructor fails its assertion. -/
theorem C08_net_root_assertion :
    fileOfURI b!"file:////net" = some b!"//net" ∧ uriOfFile b!"//net" = none := by decide +kernel

example : isAbsolute b!"/home/u/a b.nix" = true ∧ (92 : UInt8) ∉ b!"/home/u/a b.nix" ∧
    uriOfFile b!"/home/u/a b.nix" = some b!"file:///home/u/a%20b.nix" := by decide +kernel

end Verif.Props
