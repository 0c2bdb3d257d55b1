import Verif.Props.SearchPath
/-
Property C95: URIs such as `https://example.org`.
-/
namespace Verif.Props
open Nixf Lexical
open Nixf.Syntax (pathR uriR numR tokR lex_pure)

/-- A URI of Nix: a letter, scheme characters, a colon and at least one URI character. -/
def IsUri (v : Bytes) : Prop :=
  ∃ c w p, v = c :: (w ++ 58 :: p) ∧ c ∈ letters ∧ (∀ x ∈ w, x ∈ schemeChars) ∧ p ≠ [] ∧ ∀ x ∈ p, x ∈ uriChars

namespace UriToken

theorem run {f : UInt8 → Bool} {p x : Bytes} (hp : ∀ c ∈ p, f c = true) (hx : ∀ c ∈ x.head?, f c = false) :
    (p ++ x).dropWhile f = x := by
  rw [List.dropWhile_append_of_pos hp]
  cases x with
  | nil => rfl
  | cons c x => simp [hx c (by simp)]

theorem letters_scheme : ∀ c ∈ letters, c ∈ schemeChars := by decide +kernel

theorem scheme_path : ∀ c ∈ schemeChars, c ∈ pathChars ∧ c ≠ 126 := by decide +kernel

theorem pathR_of {c : UInt8} {w t : Bytes} (hc : c ∈ letters) (hw : ∀ x ∈ w, x ∈ schemeChars) : pathR (c :: (w ++ 58 :: t)) = none := by
  have h1 : c ≠ 126 := (scheme_path c (letters_scheme c hc)).2
  have h2 : (c :: (w ++ 58 :: t)).dropWhile isPathChar = 58 :: t := by
    rw [← List.cons_append]
    refine run (fun x hx => (isPathChar_mem x).mpr ?_) (by intro c h; simp at h; subst h; decide)
    rcases List.mem_cons.mp hx with rfl | hx
    · exact (scheme_path _ (letters_scheme _ hc)).1
    · exact (scheme_path _ (hw x hx)).1
  unfold pathR
  simp [h1, h2]

theorem uriR_of {c : UInt8} {w p rest : Bytes} (hc : c ∈ letters) (hw : ∀ x ∈ w, x ∈ schemeChars) (hp : p ≠ [])
    (hu : ∀ x ∈ p, x ∈ uriChars) (hr : NotStarting uriChars rest) : uriR (c :: (w ++ 58 :: (p ++ rest))) = some rest := by
  have h2 : (c :: (w ++ 58 :: (p ++ rest))).dropWhile isUriSchemeChar = 58 :: (p ++ rest) := by
    rw [← List.cons_append]
    refine run (fun x hx => (isUriSchemeChar_mem x).mpr ?_) (by intro c h; simp at h; subst h; decide)
    rcases List.mem_cons.mp hx with rfl | hx
    · exact letters_scheme _ hc
    · exact hw x hx
  have h3 : (p ++ rest).dropWhile isUriPathChar = rest := by
    refine run (fun x hx => (isUriPathChar_mem x).mpr (hu x hx)) fun c h => ?_
    have := hr c h
    rw [← isUriPathChar_mem] at this
    simpa using this
  have h4 : (p ++ rest).head?.any isUriPathChar = true := by
    cases p with
    | nil => exact absurd rfl hp
    | cons x p => simpa using (isUriPathChar_mem x).mpr (hu x (by simp))
  unfold uriR
  simp only [h2, List.head?_cons, if_true, List.drop_succ_cons, List.drop_zero, h4, h3]

theorem uriR_inv {c : UInt8} {t rest : Bytes} (hc : isAlpha c = true) (h : uriR (c :: t) = some rest) :
    ∃ v, c :: t = v ++ rest ∧ IsUri v ∧ NotStarting uriChars rest := by
  have hc' := (isAlpha_mem c).mp hc
  have hs : isUriSchemeChar c = true := (isUriSchemeChar_mem c).mpr (letters_scheme c hc')
  unfold uriR at h
  simp only [List.dropWhile_cons, hs, if_true] at h
  split at h
  · rename_i h58
    split at h
    · rename_i hany
      simp only [Option.some.injEq] at h
      have ht := List.takeWhile_append_dropWhile (p := isUriSchemeChar) (l := t)
      generalize hq : t.dropWhile isUriSchemeChar = q at *
      cases q with
      | nil => cases h58
      | cons x q =>
        simp at h58; subst h58
        simp only [List.drop_succ_cons, List.drop_zero] at hany h
        have hd := List.takeWhile_append_dropWhile (p := isUriPathChar) (l := q)
        rw [h] at hd
        refine ⟨c :: (t.takeWhile isUriSchemeChar ++ 58 :: q.takeWhile isUriPathChar), ?_, ⟨c, _, _, rfl, hc', ?_, ?_, ?_⟩, ?_⟩
        · rw [List.cons_append, List.append_assoc, List.cons_append, hd, ht]
        · exact fun x hx => (isUriSchemeChar_mem x).mp (List.mem_takeWhile_imp hx)
        · cases q with
          | nil => cases hany
          | cons y q => simp at hany; simp [hany]
        · exact fun x hx => (isUriPathChar_mem x).mp (List.mem_takeWhile_imp hx)
        · intro y hy
          rw [← h] at hy
          rw [← isUriPathChar_mem]
          have := List.head?_dropWhile_not isUriPathChar q
          rw [Option.mem_def] at hy
          rw [hy] at this
          simpa using this
    · cases h
  · cases h

theorem maybeKW_ne (w : Bytes) : maybeKW w ≠ .uri := by
  unfold maybeKW
  cases h : keywords.lookup w with
  | none => simp
  | some k =>
    have : ∀ p ∈ keywords, p.2 ≠ .uri := by decide +kernel
    obtain ⟨p, hp, -, e⟩ : ∃ p ∈ keywords, p.1 = w ∧ p.2 = k := by
      clear this
      revert h
      generalize keywords = l
      induction l with
      | nil => nofun
      | cons q l ih =>
        rw [List.lookup_cons]
        split
        · rename_i he; intro h; cases h; exact ⟨q, by simp, (by simpa using he : w = q.1).symm, rfl⟩
        · intro h; obtain ⟨p, hp, e⟩ := ih h; exact ⟨p, by simp [hp], e⟩
    simpa [e] using this p hp

theorem lexOp_ne (r : Bytes) : (lexOp r).1 ≠ .uri := by
  have : ∀ p ∈ opTable, p.2 ≠ .uri := by decide +kernel
  unfold lexOp
  split
  · rename_i h; exact this _ (List.mem_of_find?_eq_some h)
  · decide

theorem numR_ne (r : Bytes) : (numR r).1 ≠ .uri := by
  unfold numR
  simp only
  split <;> simp

theorem tokR_inv {r : Bytes} (h : (tokR r).1 = .uri) : ∃ c t, r = c :: t ∧ isAlpha c = true ∧ uriR r = some (tokR r).2.1 := by
  cases r with
  | nil => cases h
  | cons c t =>
    refine ⟨c, t, rfl, ?_⟩
    have hn := lexOp_ne (c :: t)
    have hk := numR_ne (c :: t)
    have hm := maybeKW_ne
    revert h
    unfold tokR
    simp only
    split
    · intro h; cases h
    · split
      · rename_i u hu
        intro _
        split at hu
        · rename_i ha; exact ⟨ha, hu⟩
        · cases hu
      · intro h
        exfalso
        revert h
        repeat' split
        all_goals first
          | (intro h; cases h; done)
          | exact hk
          | exact hn
          | exact hm _

end UriToken
open UriToken

/-- **C95**: the tokens for URIs are exactly the longest texts that are URIs of Nix. -/
theorem C95_token (s : St) (g r v rest : Bytes) (hs : s.rem = g ++ r) (hg : Trivia g r) (hr : NoTrivia r) :
    ((lex s).1.kind = .uri ∧ (lex s).1.view = v ∧ (lex s).2.rem = rest) ↔ r = v ++ rest ∧ IsUri v ∧ NotStarting uriChars rest := by
  obtain ⟨s1, -, h1, h2⟩ := lex_skip hs hg hr
  obtain ⟨p1, p2, -⟩ := lex_pure (s := s1) (h1 ▸ hr)
  have hv : (lex s).1.view ++ (lex s).2.rem = r := (C13_trivia_exact s g r hs hg hr).1
  rw [← h2] at p1 p2
  rw [h1] at p1 p2
  constructor
  · rintro ⟨a, rfl, rfl⟩
    rw [p1] at a
    obtain ⟨c, t, rfl, hc, hu⟩ := tokR_inv a
    rw [← p2] at hu
    obtain ⟨v, e, hi, hn⟩ := uriR_inv hc hu
    rw [e] at hv
    rw [List.append_cancel_right hv]
    exact ⟨e, hi, hn⟩
  · rintro ⟨rfl, ⟨c, w, p, rfl, hc, hw, hp, hu⟩, hn⟩
    have e : c :: (w ++ 58 :: p) ++ rest = c :: (w ++ 58 :: (p ++ rest)) := by simp
    have ht : tokR (c :: (w ++ 58 :: (p ++ rest))) = (.uri, rest, true) := by
      unfold tokR
      simp only [pathR_of hc hw, ite_self, (isAlpha_mem c).mpr hc, if_true, uriR_of hc hw hp hu hn]
    rw [e, ht] at p1 p2
    rw [p2] at hv
    exact ⟨p1, List.append_cancel_right hv, p2⟩

example : (lex (.init b!" # c\nx:y.z~ a")).1.kind = .uri ∧ (lex (.init b!" # c\nx:y.z~ a")).1.view = b!"x:y.z~" ∧
    (lex (.init b!"x: y")).1.kind = .id_ ∧ (lex (.init b!"x_:y")).1.kind = .id_ ∧ (lex (.init b!"x:y/z")).1.view = b!"x:y/z" ∧
    (lex (.init b!"x:y#z")).1.view = b!"x:y" := by decide +kernel

example : IsUri b!"https://example.org" :=
  ⟨104, b!"ttps", b!"//example.org", by decide +kernel, by decide +kernel, by decide +kernel, by decide, by decide +kernel⟩

end Verif.Props
