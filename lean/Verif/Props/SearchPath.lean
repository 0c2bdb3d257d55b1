import Verif.Lemmas.TokPure
import Verif.Props.Tokens
/-
Property C94: search paths such as `<nixpkgs/lib>`.
-/
namespace Verif.Props
open Nixf Lexical
open Nixf.Syntax (spathR numR tokR lex_pure)

/-- `(\/{PATH_CHAR}+)*`: a slash and path characters, any number of times. -/
inductive Segments : Bytes → Prop
  | nil : Segments []
  | cons (p u : Bytes) : p ≠ [] → (∀ c ∈ p, c ∈ pathChars) → Segments u → Segments (47 :: (p ++ u))

/-- The part of a search path between `<` and `>`. -/
def SearchBody (w : Bytes) : Prop := ∃ p u, p ≠ [] ∧ (∀ c ∈ p, c ∈ pathChars) ∧ Segments u ∧ w = p ++ u

/-- A search path: `\<{PATH_CHAR}+(\/{PATH_CHAR}+)*\>`. -/
def IsSearchPath (v : Bytes) : Prop := ∃ w, SearchBody w ∧ v = 60 :: (w ++ [62])

/-- A search path with a slash at its end. -/
def WithSlash (v : Bytes) : Prop := ∃ w, SearchBody w ∧ v = 60 :: (w ++ [47, 62])

namespace SearchPath

theorem run {p x : Bytes} (hp : ∀ c ∈ p, c ∈ pathChars) (hx : ∀ c ∈ x.head?, c ∉ pathChars) :
    (p ++ x).takeWhile isPathChar = p ∧ (p ++ x).dropWhile isPathChar = x := by
  have h1 : ∀ c ∈ p, isPathChar c = true := fun c hc => (isPathChar_mem c).mpr (hp c hc)
  have h2 : x.takeWhile isPathChar = [] ∧ x.dropWhile isPathChar = x := by
    cases x with
    | nil => exact ⟨rfl, rfl⟩
    | cons c x =>
      have : isPathChar c = false := by
        have := hx c (by simp)
        rw [← isPathChar_mem] at this
        simpa using this
      simp [this]
  rw [List.takeWhile_append_of_pos h1, List.dropWhile_append_of_pos h1, h2.1, h2.2]
  simp

theorem slash_not : (47 : UInt8) ∉ pathChars ∧ (62 : UInt8) ∉ pathChars := by decide +kernel

theorem head_not {u x : Bytes} (hu : Segments u) (hx : ∀ c ∈ x.head?, c ∉ pathChars) : ∀ c ∈ (u ++ x).head?, c ∉ pathChars := by
  cases hu with
  | nil => exact hx
  | cons p u _ _ _ => intro c hc; simp at hc; subst hc; exact slash_not.1

theorem segments_of {u x : Bytes} (hu : Segments u) (hx : ∀ c ∈ x.head?, c ∉ pathChars) :
    spathSegments (u ++ x) = u.length + spathSegments x := by
  induction hu with
  | nil => simp
  | cons p u hp hc hu ih =>
    rw [List.cons_append, List.append_assoc, spathSegments]
    obtain ⟨h1, -⟩ := run hc (head_not hu hx)
    have hl : p.length ≠ 0 := by simpa using hp
    simp only [if_true, h1, if_neg hl, List.drop_left, ih, List.length_cons, List.length_append]
    omega

theorem segments_inv (bs : Bytes) : ∃ u, Segments u ∧ (bs = u ++ bs.drop (spathSegments bs) ∨
    bs = u ++ 47 :: bs.drop (spathSegments bs)) := by
  fun_induction spathSegments bs with
  | case1 => exact ⟨[], .nil, .inl rfl⟩
  | case2 r k hk => exact ⟨[], .nil, .inr (by simp)⟩
  | case3 r k hk ih =>
    obtain ⟨u, hu, h⟩ := ih
    have hr : r = r.takeWhile isPathChar ++ r.drop k := by
      have := List.takeWhile_append_dropWhile (p := isPathChar) (l := r)
      have e : r.drop k = r.dropWhile isPathChar := by
        show r.drop (r.takeWhile isPathChar).length = _
        conv_lhs => rw [← this]
        rw [List.takeWhile_append_dropWhile]
        conv_lhs => arg 2; rw [← this]
        exact List.drop_left
      rw [e, this]
    refine ⟨47 :: (r.takeWhile isPathChar ++ u), .cons _ _ (by rintro e; exact hk (by show (r.takeWhile isPathChar).length = 0; rw [e]; rfl))
      (fun c hc => (isPathChar_mem c).mp (List.mem_takeWhile_imp hc)) hu, ?_⟩
    have e : (47 :: r).drop (1 + k + spathSegments (r.drop k)) = (r.drop k).drop (spathSegments (r.drop k)) := by
      rw [show 1 + k + spathSegments (r.drop k) = (k + spathSegments (r.drop k)) + 1 by omega, List.drop_succ_cons, List.drop_drop]
    rw [e]
    rcases h with h | h
    · left; rw [List.cons_append, List.append_assoc, ← h, ← hr]
    · right; rw [List.cons_append, List.append_assoc, ← h, ← hr]
  | case4 c r hc => exact ⟨[], .nil, .inl rfl⟩

theorem spathR_of {w rest e : Bytes} (hw : SearchBody w) (he : e = [] ∨ e = [47]) : spathR (60 :: (w ++ (e ++ 62 :: rest))) = some rest := by
  obtain ⟨p, u, hp, hc, hu, rfl⟩ := hw
  have hx : ∀ c ∈ (e ++ 62 :: rest).head?, c ∉ pathChars := by
    rcases he with rfl | rfl <;> (intro c h; simp at h; subst h)
    · exact slash_not.2
    · exact slash_not.1
  obtain ⟨-, h2⟩ := run hc (head_not hu hx)
  have hs : spathSegments (e ++ 62 :: rest) = e.length := by
    have h62 : isPathChar 62 = false := by decide
    rcases he with rfl | rfl
    · rw [List.nil_append, spathSegments]; simp
    · rw [List.singleton_append, spathSegments]; simp [h62]
  have hh : (p ++ (u ++ (e ++ 62 :: rest))).head?.any isPathChar = true := by
    cases p with
    | nil => exact absurd rfl hp
    | cons c p => simpa using (isPathChar_mem c).mpr (hc c (by simp))
  unfold spathR
  simp only [List.drop_succ_cons, List.drop_zero, List.append_assoc]
  rw [if_pos hh, h2, segments_of hu hx, hs]
  have : (u ++ (e ++ 62 :: rest)).drop (u.length + e.length) = 62 :: rest := by
    rw [← List.append_assoc, ← List.length_append, List.drop_left]
  rw [this]; simp

theorem spathR_inv {r rest : Bytes} (h : spathR (60 :: r) = some rest) : ∃ w e, SearchBody w ∧ (e = [] ∨ e = [47]) ∧
    60 :: r = 60 :: (w ++ (e ++ 62 :: rest)) := by
  unfold spathR at h
  simp only [List.drop_succ_cons, List.drop_zero] at h
  split at h
  · rename_i hh
    split at h
    · rename_i hx
      simp only [Option.some.injEq] at h
      obtain ⟨u, hu, hd⟩ := segments_inv (r.dropWhile isPathChar)
      generalize hx' : (r.dropWhile isPathChar).drop (spathSegments (r.dropWhile isPathChar)) = x at hx h hd
      have ex : x = 62 :: rest := by
        cases x with
        | nil => cases hx
        | cons c x => simp at hx h; rw [hx, h]
      have hr := List.takeWhile_append_dropWhile (p := isPathChar) (l := r)
      have hb : SearchBody (r.takeWhile isPathChar ++ u) := by
        refine ⟨_, u, ?_, fun c hc => (isPathChar_mem c).mp (List.mem_takeWhile_imp hc), hu, rfl⟩
        cases r with
        | nil => cases hh
        | cons c r => simp at hh; simp [hh]
      rcases hd with hd | hd
      · exact ⟨_, [], hb, .inl rfl, by rw [List.nil_append, ← ex, List.append_assoc, ← hd, hr]⟩
      · exact ⟨_, [47], hb, .inr rfl, by rw [List.singleton_append, ← ex, List.append_assoc, ← hd, hr]⟩
    · cases h
  · cases h

theorem maybeKW_ne (w : Bytes) : maybeKW w ≠ .spath := by
  unfold maybeKW
  cases h : keywords.lookup w with
  | none => simp
  | some k =>
    have : ∀ p ∈ keywords, p.2 ≠ .spath := by decide +kernel
    obtain ⟨p, hp, -, e⟩ : ∃ p ∈ keywords, p.1 = w ∧ p.2 = k := by
      clear this
      revert h
      generalize keywords = l
      induction l with
      | nil => nofun
      | cons q l ih =>
        rw [List.lookup_cons]
        split
        · rename_i he; intro h; cases h; exact ⟨q, by simp, (by simpa using he : w = q.1).symm, rfl⟩
        · intro h; obtain ⟨p, hp, e⟩ := ih h; exact ⟨p, by simp [hp], e⟩
    simpa [e] using this p hp

theorem lexOp_ne (r : Bytes) : (lexOp r).1 ≠ .spath := by
  have : ∀ p ∈ opTable, p.2 ≠ .spath := by decide +kernel
  unfold lexOp
  split
  · rename_i h; exact this _ (List.mem_of_find?_eq_some h)
  · decide

theorem numR_ne (r : Bytes) : (numR r).1 ≠ .spath := by
  unfold numR
  simp only
  split <;> simp

theorem tokR_iff (r rest : Bytes) : (tokR r).1 = .spath ∧ (tokR r).2.1 = rest ↔ r.head? = some 60 ∧ spathR r = some rest := by
  cases r with
  | nil => simp [tokR]
  | cons c t =>
    by_cases hc : c = 60
    · subst hc
      have h1 : (isPathChar 60 || (60 : UInt8) == 47 || (60 : UInt8) == 126) = false := by decide
      have h2 : isAlpha 60 = false ∧ isDigit 60 = false := by decide
      have hn := lexOp_ne (60 :: t)
      unfold tokR
      simp only [h1, h2.1, h2.2, Bool.false_eq_true, if_false, beq_self_eq_true, if_true, Bool.or_self, List.head?_cons, true_and,
        show ((60 : UInt8) == 95) = false by decide]
      cases spathR (60 :: t) with
      | none => simp [hn]
      | some u => simp
    · have hn := lexOp_ne (c :: t)
      have hk := numR_ne (c :: t)
      have hm := maybeKW_ne
      simp only [List.head?_cons, Option.some.injEq, hc, false_and, iff_false, not_and]
      intro h
      exfalso
      revert h
      unfold tokR
      simp only
      repeat' split
      all_goals first
        | (intro h; cases h; done)
        | exact hk
        | exact hn
        | exact hm _
        | (rename_i h; simp [hc] at h; done)

end SearchPath
open SearchPath

/-- **C94**, the tokens for search paths: exactly the search paths, and the search paths with a slash at the end. -/
theorem C94_token_partial (s : St) (g r v rest : Bytes) (hs : s.rem = g ++ r) (hg : Trivia g r) (hr : NoTrivia r) :
    ((lex s).1.kind = .spath ∧ (lex s).1.view = v ∧ (lex s).2.rem = rest) ↔ r = v ++ rest ∧ (IsSearchPath v ∨ WithSlash v) := by
  obtain ⟨s1, -, h1, h2⟩ := lex_skip hs hg hr
  obtain ⟨p1, p2, -⟩ := lex_pure (s := s1) (h1 ▸ hr)
  have hv : (lex s).1.view ++ (lex s).2.rem = r := (C13_trivia_exact s g r hs hg hr).1
  rw [← h2] at p1 p2
  rw [h1] at p1 p2
  constructor
  · rintro ⟨a, rfl, rfl⟩
    rw [p1] at a
    obtain ⟨b1, b2⟩ := (tokR_iff r _).mp ⟨a, p2.symm⟩
    refine ⟨hv.symm, ?_⟩
    cases r with
    | nil => cases b1
    | cons c t =>
      simp at b1; subst b1
      obtain ⟨w, e, hw, he, hx⟩ := spathR_inv b2
      rw [hx] at hv
      have : (lex s).1.view = 60 :: (w ++ (e ++ [62])) := by
        apply List.append_cancel_right (bs := (lex s).2.rem)
        rw [hv]; simp
      rw [this]
      rcases he with rfl | rfl
      · exact .inl ⟨w, hw, rfl⟩
      · exact .inr ⟨w, hw, rfl⟩
  · rintro ⟨rfl, h⟩
    have hR : spathR (v ++ rest) = some rest ∧ (v ++ rest).head? = some 60 := by
      rcases h with ⟨w, hw, rfl⟩ | ⟨w, hw, rfl⟩
      · have := spathR_of (rest := rest) hw (.inl rfl)
        exact ⟨by simpa using this, rfl⟩
      · have := spathR_of (rest := rest) hw (.inr rfl)
        exact ⟨by simpa using this, rfl⟩
    obtain ⟨a, b⟩ := (tokR_iff _ _).mpr ⟨hR.2, hR.1⟩
    rw [a] at p1
    rw [b] at p2
    rw [p2] at hv
    exact ⟨p1, List.append_cancel_right hv, p2⟩

/-- **C94**, otherwise: a `<` that begins neither of these is an operator, with `=` or `|` if one of them follows. -/
theorem C94_operator (s : St) (g t : Bytes) (hs : s.rem = g ++ 60 :: t) (hg : Trivia g (60 :: t))
    (hn : ¬ ∃ v rest, 60 :: t = v ++ rest ∧ (IsSearchPath v ∨ WithSlash v)) :
    (lex s).1.kind = if t.head? = some 61 then .op_le else if t.head? = some 124 then .op_pipe_from else .op_lt := by
  have hr : NoTrivia (60 :: t) := noTrivia_of_head (by decide) (by decide) (by decide)
  obtain ⟨s1, -, h1, h2⟩ := lex_skip hs hg hr
  obtain ⟨p1, -⟩ := lex_pure (s := s1) (h1 ▸ hr)
  rw [← h2, h1] at p1
  rw [p1]
  have hR : spathR (60 :: t) = none := by
    cases h : spathR (60 :: t) with
    | none => rfl
    | some rest =>
      obtain ⟨w, e, hw, he, hx⟩ := spathR_inv h
      refine absurd ⟨60 :: (w ++ (e ++ [62])), rest, by rw [hx]; simp, ?_⟩ hn
      rcases he with rfl | rfl
      · exact .inl ⟨w, hw, rfl⟩
      · exact .inr ⟨w, hw, rfl⟩
  have h1 : (isPathChar 60 || (60 : UInt8) == 47 || (60 : UInt8) == 126) = false := by decide
  have h2 : isAlpha 60 = false ∧ isDigit 60 = false := by decide
  have hk : (tokR (60 :: t)).1 = (lexOp (60 :: t)).1 := by
    unfold tokR
    simp only [h1, h2.1, h2.2, Bool.false_eq_true, if_false, beq_self_eq_true, if_true, Bool.or_self,
      show ((60 : UInt8) == 95) = false by decide, hR]
  rw [hk]
  cases t with
  | nil => decide +kernel
  | cons c t =>
    by_cases h61 : c = 61
    · subst h61; simp [lexOp, opTable, List.find?, List.isPrefixOf]
    · by_cases h124 : c = 124
      · subst h124; simp [lexOp, opTable, List.find?, List.isPrefixOf]
      · have e1 : ((61 : UInt8) == c) = false := by simpa using fun h => h61 h.symm
        have e2 : ((124 : UInt8) == c) = false := by simpa using fun h => h124 h.symm
        simp [lexOp, opTable, List.find?, List.isPrefixOf, h61, h124, e1, e2]

namespace SearchPath

theorem ends {w : Bytes} (hw : SearchBody w) : ∃ a c, w = a ++ [c] ∧ c ∈ pathChars := by
  have last : ∀ {p : Bytes}, p ≠ [] → (∀ c ∈ p, c ∈ pathChars) → ∃ a c, p = a ++ [c] ∧ c ∈ pathChars := by
    intro p hp hc
    exact ⟨p.dropLast, p.getLast hp, (List.dropLast_append_getLast hp).symm, hc _ (List.getLast_mem hp)⟩
  have seg : ∀ {u : Bytes}, Segments u → u = [] ∨ ∃ a c, u = a ++ [c] ∧ c ∈ pathChars := by
    intro u hu
    induction hu with
    | nil => exact .inl rfl
    | cons p u hp hc _ ih =>
      right
      rcases ih with rfl | ⟨a, c, rfl, h⟩
      · obtain ⟨a, c, rfl, h⟩ := last hp hc
        exact ⟨47 :: a, c, by simp, h⟩
      · exact ⟨47 :: (p ++ a), c, by simp, h⟩
  obtain ⟨p, u, hp, hc, hu, rfl⟩ := hw
  rcases seg hu with rfl | ⟨a, c, rfl, h⟩
  · simpa using last hp hc
  · exact ⟨p ++ a, c, by simp, h⟩

end SearchPath

/-- **C94**, violated: every search path with a slash before its `>` is a token for a search path, but it is none. -/
theorem C94_slash_violated (w rest : Bytes) (hw : SearchBody w) :
    (lex (.init (60 :: (w ++ [47, 62]) ++ rest))).1.kind = .spath ∧ (lex (.init (60 :: (w ++ [47, 62]) ++ rest))).1.view = 60 :: (w ++ [47, 62]) ∧
      ¬ IsSearchPath (60 :: (w ++ [47, 62])) := by
  have hn : NoTrivia (60 :: (w ++ [47, 62]) ++ rest) := noTrivia_of_head (by decide) (by decide) (by decide)
  have := (C94_token_partial (.init (60 :: (w ++ [47, 62]) ++ rest)) [] _ (60 :: (w ++ [47, 62])) rest rfl (.nil _) hn).mpr
    ⟨rfl, .inr ⟨w, hw, rfl⟩⟩
  refine ⟨this.1, this.2.1, ?_⟩
  rintro ⟨x, hx, e⟩
  obtain ⟨a, c, rfl, hc⟩ := ends hx
  have e' : w ++ [47, 62] = a ++ [c] ++ [62] := by simpa using e
  rw [show w ++ [47, 62] = (w ++ [47]) ++ [62] by simp] at e'
  have e2 := List.append_cancel_right e'
  have e3 : (47 : UInt8) = c := by
    have := congrArg List.getLast? e2
    simpa using this
  exact slash_not.1 (e3 ▸ hc)

example : IsSearchPath b!"<nixpkgs/lib>" :=
  ⟨b!"nixpkgs/lib", ⟨b!"nixpkgs", b!"/lib", by decide, by decide +kernel, .cons b!"lib" [] (by decide) (by decide +kernel) .nil, rfl⟩, rfl⟩

example : (lex (.init b!" <nixpkgs/lib> x")).1.view = b!"<nixpkgs/lib>" ∧ (lex (.init b!"<a/>")).1.kind = .spath ∧
    (lex (.init b!"<a//b>")).1.kind = .op_lt ∧ (lex (.init b!"<a >")).1.kind = .op_lt := by decide +kernel

/-- An operator. -/
example : ¬ ∃ v rest, b!"<a >" = v ++ rest ∧ (IsSearchPath v ∨ WithSlash v) := by
  rintro ⟨v, rest, h⟩
  have := (C94_token_partial (.init b!"<a >") [] b!"<a >" v rest rfl (.nil _)
    (noTrivia_of_head (by decide) (by decide) (by decide))).mpr h
  exact absurd this.1 (by decide +kernel)

end Verif.Props
