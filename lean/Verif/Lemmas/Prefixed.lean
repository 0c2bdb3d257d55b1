import Verif.Lemmas.ReplaceTop
import Verif.Lemmas.TokPath
import Verif.Props.Rewrites
/-
Writing `builtins.` in front of a name.
-/
namespace Verif.Nixf.Syntax
open Lexical Strings Verif.Props

/-- A word: neither a path nor a URI begins where it begins. -/
theorem tokR_word {c : UInt8} {t u : Bytes} (hc : c ∈ letters ∨ c = 95) (h : tokR (c :: t) = (.id_, u, true)) :
    pathR (c :: t) = none ∧ uriR (c :: t) = none := by
  have f : ∀ c : UInt8, c ∈ letters ∨ c = 95 → isPathChar c = true ∧ (isAlpha c = true ∨ (isUriSchemeChar c = false ∧ c ≠ 58)) := by
    apply forall_byte; decide +kernel
  obtain ⟨f1, f2⟩ := f c hc
  have hp : pathR (c :: t) = none := by
    cases e : pathR (c :: t) with
    | none => rfl
    | some w => simp [tokR, f1, e] at h
  refine ⟨hp, ?_⟩
  rcases f2 with f2 | ⟨f2, f3⟩
  · cases e : uriR (c :: t) with
    | none => rfl
    | some w => simp [tokR, f1, f2, hp, e] at h
  · simp [uriR, f2, f3]

theorem tokR_id {c : UInt8} {t : Bytes} (ha : isAlpha c = true) (hd : isDigit c = false) (hp : pathR (c :: t) = none) (hu : uriR (c :: t) = none) :
    tokR (c :: t) = (maybeKW ((c :: t).take ((c :: t).length - (t.dropWhile isIdentifierChar).length)), t.dropWhile isIdentifierChar, true) := by
  simp [tokR, hp, hu, ha, hd]

theorem tokR_op {c : UInt8} {t : Bytes} (hc : isAlpha c = false ∧ isDigit c = false ∧ c ≠ 95 ∧ c ≠ 60) (hp : pathR (c :: t) = none) :
    tokR (c :: t) = ((lexOp (c :: t)).1, (c :: t).drop (lexOp (c :: t)).2, true) := by
  simp [tokR, hp, hc]

/-- The tokens of a name with a prefix. -/
theorem tok_prefixed {x s rest : Bytes} (h : Tok s .id_ x rest) (hs : skip s = s) :
    Tok (b!"builtins." ++ s) .id_ b!"builtins" (46 :: s) ∧ Tok (46 :: s) .dot b!"." s := by
  obtain ⟨c, w, rfl, hc, -, -⟩ := word_of h (.inl rfl)
  obtain ⟨-, h1, h2⟩ := tok_iff.mp h
  rw [hs] at h1 h2
  subst h2
  obtain ⟨p1, p2⟩ := tokR_word hc h1
  have f : ∀ c : UInt8, c ∈ letters ∨ c = 95 → c ≠ 126 ∧ c ≠ 46 := by apply forall_byte; decide +kernel
  obtain ⟨f1, f2⟩ := f c hc
  have q1 : pathR (46 :: (c :: w ++ rest)) = none := by
    have : pathR (46 :: (c :: w ++ rest)) = pathR (c :: w ++ rest) := by
      simp [pathR, f1, isPathChar]
    rw [this]; exact p1
  have q2 : pathR (b!"builtins." ++ (c :: w ++ rest)) = none := by
    have : pathR (b!"builtins." ++ (c :: w ++ rest)) = pathR (c :: w ++ rest) := by
      simp [pathR, f1, isPathChar, isAlpha, isDigit]
    rw [this]; exact p1
  have q3 : uriR (b!"builtins." ++ (c :: w ++ rest)) = none := by
    have : uriR (b!"builtins." ++ (c :: w ++ rest)) = uriR (c :: w ++ rest) := by
      simp [uriR, isUriSchemeChar, isAlpha, isDigit]
    rw [this]; exact p2
  have n1 : NoTrivia (b!"builtins." ++ (c :: w ++ rest)) := noTrivia_of_head (c := 98) (by decide) (by decide) (by decide)
  have n2 : NoTrivia (46 :: (c :: w ++ rest)) := noTrivia_of_head (c := 46) (by decide) (by decide) (by decide)
  have k1 : ∀ {r : Bytes}, NoTrivia r → CleanSkip r ∧ skip r = r := fun hn => by
    unfold CleanSkip skip
    rw [consumeTrivia_id hn]
    exact ⟨rfl, rfl⟩
  constructor
  · refine tok_iff.mpr ⟨(k1 n1).1, ?_, ?_⟩
    · rw [(k1 n1).2]
      have hd : ((b!"uiltins." ++ (c :: w ++ rest)).dropWhile isIdentifierChar) = 46 :: (c :: w ++ rest) := by
        simp [isIdentifierChar, isAlpha, isDigit]
      rw [show b!"builtins." ++ (c :: w ++ rest) = 98 :: (b!"uiltins." ++ (c :: w ++ rest)) from rfl] at q2 q3 ⊢
      rw [tokR_id (by decide) (by decide) q2 q3, hd]
      have e : (98 :: (b!"uiltins." ++ (c :: w ++ rest))).take ((98 :: (b!"uiltins." ++ (c :: w ++ rest))).length - (46 :: (c :: w ++ rest)).length) = b!"builtins" := by
        have : (98 :: (b!"uiltins." ++ (c :: w ++ rest))).length - (46 :: (c :: w ++ rest)).length = 8 := by
          simp only [List.length_cons, List.length_append]; simp
        rw [this]; rfl
      rw [e]
      rfl
    · rw [(k1 n1).2]; rfl
  · refine tok_iff.mpr ⟨(k1 n2).1, ?_, ?_⟩
    · rw [(k1 n2).2]
      have hb : (46 == c) = false := by simpa using Ne.symm f2
      have hd : opTable.find? (fun p => p.1.isPrefixOf (46 :: (c :: w ++ rest))) = some (b!".", .dot) := by
        simp [opTable, List.isPrefixOf, hb]
      have hl : lexOp (46 :: (c :: w ++ rest)) = (.dot, 1) := by
        unfold lexOp
        rw [hd]; rfl
      rw [tokR_op (by decide) q1, hl]
      rfl
    · rw [(k1 n2).2]; rfl

theorem G.select_fill {K : NK} (h : K.isExpr = true) (hk : K ≠ .simple) {r r' : Bytes} {t : Syn} (g : G .select r [t] r') : G K.fill r [t] r' := by
  cases K with
  | expr => exact .op (.opr (.app (.one g)) .stop)
  | op p => exact .one g
  | atom => exact .one g
  | app => exact .one g
  | select => exact g
  | simple => exact absurd rfl hk
  | _ => cases h

end Verif.Nixf.Syntax
