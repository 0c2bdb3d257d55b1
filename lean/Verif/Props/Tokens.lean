import Verif.Props.Lexer
/-
Property C15: classification of tokens.

All theorems are about `lex` on a state whose remaining text is some trivia `g` followed by the text in question.
-/
namespace Verif.Props
open Nixf Lexical

theorem noTrivia_of_head {c : UInt8} {t : Bytes} (h1 : isWhite c = false) (h2 : c ≠ 35) (h3 : c ≠ 47) :
    NoTrivia (c :: t) := by
  refine ⟨by simp [h1], ?_, ?_⟩
  · rintro ⟨q, hq⟩; simp at hq; exact h2 hq.1.symm
  · rintro ⟨q, hq⟩; simp at hq; exact h3 hq.1.symm

/-- `lex` on a text without leading trivia. -/
theorem lex_at {s : St} {c : UInt8} {t : Bytes} (hc : s.rem = c :: t) (h : NoTrivia s.rem) : lex s =
    match (if isPathChar c || c == 47 || c == 126 then consumePathStart s else none) with
    | some s' => (finishToken s .path_fragment s', s')
    | none =>
      match (if isAlpha c then consumeURI s else none) with
      | some s' => (finishToken s .uri s', s')
      | none =>
        if isDigit c then
          (finishToken s (lexNumbers s).1 (lexNumbers s).2, (lexNumbers s).2)
        else if isAlpha c || c == 95 then
          (finishToken s (maybeKW (finishToken s .id_ (lexIdentifier s)).view) (lexIdentifier s), lexIdentifier s)
        else
          match (if c == 60 then consumeSPath s else none) with
          | some s' => (finishToken s .spath s', s')
          | none =>
            (finishToken s (lexOp s.rem).1 (consume (lexOp s.rem).2 s), consume (lexOp s.rem).2 s) := by
  unfold lex
  rw [consumeTrivia_id h]
  simp only
  split
  · rename_i h'; rw [hc] at h'; cases h'
  · rename_i c' t' h'
    rw [hc] at h'
    cases h'
    rfl

theorem pathTest_none {s : St} (c : UInt8) (h : ¬ PathHere s.rem) :
    (if isPathChar c || c == 47 || c == 126 then consumePathStart s else none) = none := by
  rw [consumePathStart_none h]; split <;> rfl

theorem identStart_facts (c : UInt8) : c ∈ letters ∨ c = 95 →
    isWhite c = false ∧ c ≠ 35 ∧ c ≠ 47 ∧ isDigit c = false ∧ (isAlpha c || c == 95) = true := by
  revert c; apply forall_byte; decide +kernel

theorem digit_facts (c : UInt8) : c ∈ digits →
    isWhite c = false ∧ c ≠ 35 ∧ c ≠ 47 ∧ isDigit c = true ∧ isAlpha c = false := by
  revert c; apply forall_byte; decide +kernel

/-- The token kind of a word: its keyword if it is a reserved word, an identifier otherwise. -/
def wordKind (w : Bytes) : TK := (reserved.lookup w).getD .id_

/-- A maximal run of identifier characters starting with a letter or underscore, where no path or URI starts, is one token:
the keyword if it is a reserved word, otherwise an identifier. -/
theorem C15_word (s : St) (g : Bytes) (c : UInt8) (w rest : Bytes)
    (hs : s.rem = g ++ (c :: w ++ rest)) (hg : Trivia g (c :: w ++ rest))
    (hc : c ∈ letters ∨ c = 95) (hw : ∀ x ∈ w, x ∈ identChars) (hr : NotStarting identChars rest)
    (hp : ¬ PathHere (c :: w ++ rest)) (hu : ¬ UriHere (c :: w ++ rest)) :
    (lex s).1.kind = wordKind (c :: w) ∧ (lex s).1.view = c :: w ∧ (lex s).2.rem = rest := by
  obtain ⟨f1, f2, f3, f4, f5⟩ := identStart_facts c hc
  have hn : NoTrivia (c :: w ++ rest) := noTrivia_of_head f1 f2 f3
  obtain ⟨s1, -, h1, h2⟩ := lex_skip hs hg hn
  have hcons : s1.rem = c :: (w ++ rest) := by rw [h1]; rfl
  rw [h2, lex_at hcons (h1 ▸ hn)]
  have hp' : ¬ PathHere s1.rem := h1 ▸ hp
  have hu' : ¬ UriHere s1.rem := h1 ▸ hu
  have e : s1.rem = c :: (w ++ rest) := hcons
  have a1 : AdvN 1 s1 (consume 1 s1) := consume_adv (by simp [e])
  obtain ⟨a2, e2⟩ := consumeWhile_run (p := isIdentifierChar) (consume_one_rem e)
    (fun x hx => (isIdentifierChar_mem x).mpr (hw x hx))
    (fun x hx => by
      have := hr x hx
      rw [← isIdentifierChar_mem] at this
      simpa using this)
  have a : AdvN (1 + w.length) s1 (lexIdentifier s1) := a1.trans a2
  have v : ∀ k, (finishToken s1 k (lexIdentifier s1)).view = c :: w := by
    intro k
    rw [finishToken_view a, e, Nat.add_comm]
    simp
  rw [pathTest_none c hp', consumeURI_none hcons hu']
  simp only [f4, f5, Bool.false_eq_true, if_false, if_true]
  refine ⟨?_, v _, e2⟩
  simp only [v]
  simp only [finishToken, maybeKW, wordKind, lookup_reserved]

example : ∃ s, Reaches b!"# x\n let' y" s [] ∧ s.rem = b!"# x\n " ++ (108 :: b!"et'" ++ b!" y") ∧
    wordKind b!"let'" = .id_ ∧ wordKind b!"let" = .kw_let :=
  ⟨_, .start, rfl, by decide, by decide⟩

example : (lex (.init b!"# x\n let' y")).1.kind = .id_ ∧ (lex (.init b!"let/y")).1.kind = .path_fragment ∧
    (lex (.init b!"let:y")).1.kind = .uri ∧ (lex (.init b!"let y")).1.kind = .kw_let := by decide +kernel

/-- Where a path starts, the token is a path; otherwise, where a URI starts, it is a URI. -/
theorem C15_path_or_uri (s : St) (g r : Bytes) (hs : s.rem = g ++ r) (hg : Trivia g r) (hr : NoTrivia r) :
    (PathHere r → (lex s).1.kind = .path_fragment) ∧ (¬ PathHere r → UriHere r → (lex s).1.kind = .uri) := by
  obtain ⟨s1, -, h1, h2⟩ := lex_skip hs hg hr
  rw [h2, ← h1]
  refine ⟨fun hp => ?_, fun hp hu => ?_⟩
  · have hsome := (consumePathStart_iff s1).mpr hp
    obtain ⟨w, t, e, hw, -⟩ := hp
    cases h : s1.rem with
    | nil => rw [h] at e; simp at e
    | cons c t' =>
      rw [lex_at h (h1 ▸ hr)]
      have hc : (isPathChar c || c == 47 || c == 126) = true := by
        rw [h] at e
        cases w with
        | nil => simp at e; simp [e.1]
        | cons x w =>
          simp at e
          rcases hw with hw | hw
          · simp at hw; simp [e.1, hw.1]
          · have := (isPathChar_mem x).mpr (hw x (by simp)); simp [e.1, this]
      rw [if_pos hc]
      obtain ⟨s', hs'⟩ := Option.isSome_iff_exists.mp hsome
      rw [hs']
      rfl
  · obtain ⟨c, w, d, t, e, hc, -⟩ := id hu
    have e' : s1.rem = c :: (w ++ 58 :: d :: t) := e
    have hsome := (consumeURI_iff s1 c _ e' hc).mpr hu
    rw [lex_at e' (h1 ▸ hr), pathTest_none c hp, if_pos ((isAlpha_mem c).mpr hc)]
    obtain ⟨s', hs'⟩ := Option.isSome_iff_exists.mp hsome
    rw [hs']
    rfl

example : PathHere b!"./a" ∧ PathHere b!"~/${a}" ∧ UriHere b!"http://x" ∧ ¬ UriHere b!"a: b" := by
  refine ⟨⟨b!".", b!"a", rfl, .inr (by decide), .inl ⟨97, rfl, by decide⟩⟩,
    ⟨b!"~", b!"${a}", rfl, .inl rfl, .inr ⟨b!"a}", rfl⟩⟩,
    ⟨104, b!"ttp", 47, b!"/x", rfl, by decide, by decide, by decide⟩, ?_⟩
  rintro ⟨c, w, d, t, h, hc, hw, hd⟩
  cases w with
  | nil => simp at h; obtain ⟨-, rfl, -⟩ := h; exact absurd hd (by decide)
  | cons x w =>
    simp at h
    obtain ⟨-, rfl, -⟩ := h
    exact absurd (hw 58 (by simp)) (by decide)

/-- The converse: an identifier or keyword token is a maximal run of identifier characters starting with a letter or
underscore, and no path or URI starts there. -/
theorem C15_word_only (s : St) (h : (lex s).1.kind = .id_ ∨ ∃ p ∈ reserved, (lex s).1.kind = p.2) :
    ∃ c w, (lex s).1.view = c :: w ∧ (c ∈ letters ∨ c = 95) ∧ (∀ x ∈ w, x ∈ identChars) ∧
      NotStarting identChars (lex s).2.rem ∧ ¬ PathHere (c :: w ++ (lex s).2.rem) ∧ ¬ UriHere (c :: w ++ (lex s).2.rem) ∧
      (lex s).1.kind = wordKind (c :: w) := by
  obtain ⟨n, h1, h2, h3⟩ := consumeTrivia_adv s
  obtain ⟨s1, -, e1, e2⟩ := lex_skip (s := s) (g := s.rem.take n) (r := (consumeTrivia s).rem)
    (by rw [h1.rem, List.take_append_drop]) h2 h3
  rw [e2] at h ⊢
  have hn : NoTrivia s1.rem := e1 ▸ h3
  clear e1 e2 h1 h2 h3
  by_cases hp : PathHere s1.rem
  · have := (C15_path_or_uri s1 [] s1.rem rfl (.nil _) hn).1 hp
    rw [this] at h
    exact absurd h (by decide)
  by_cases hu : UriHere s1.rem
  · have := (C15_path_or_uri s1 [] s1.rem rfl (.nil _) hn).2 hp hu
    rw [this] at h
    exact absurd h (by decide)
  cases hr : s1.rem with
  | nil =>
    have he : (lex s1).1.kind = .eof := by
      rw [C12_eof, hr]; exact .nil _
    rw [he] at h
    exact absurd h (by decide)
  | cons c t =>
    by_cases hc : c ∈ letters ∨ c = 95
    · obtain ⟨w, r, h4, h5, h6, -⟩ := takeWhile_split isIdentifierChar t
      have hrr : NotStarting identChars r := by
        intro x hx hm
        rw [← isIdentifierChar_mem] at hm
        rw [h6 x hx] at hm; cases hm
      have hw : ∀ x ∈ w, x ∈ identChars := fun x hx => (isIdentifierChar_mem x).mp (h5 x hx)
      have he : s1.rem = c :: w ++ r := by rw [hr, h4]; rfl
      obtain ⟨k1, k2, k3⟩ := C15_word s1 [] c w r he (.nil _) hc hw hrr (he ▸ hp) (he ▸ hu)
      refine ⟨c, w, k2, hc, hw, by rw [k3]; exact hrr, ?_, ?_, k1⟩
      · rw [k3, ← he]; exact hp
      · rw [k3, ← he]; exact hu
    · exfalso
      have halpha : (isAlpha c || c == 95) = false := by
        rw [Bool.or_eq_false_iff]
        simp only [not_or] at hc
        refine ⟨?_, by simpa using hc.2⟩
        have := hc.1
        rw [← isAlpha_mem] at this
        simpa using this
      rw [lex_at hr hn, pathTest_none c hp, consumeURI_none hr hu] at h
      simp only [halpha, Bool.false_eq_true, if_false] at h
      by_cases hdg : isDigit c = true
      · simp only [hdg, if_true] at h
        unfold lexNumbers at h
        simp only [finishToken] at h
        split at h
        · exact absurd (show TK.float = .id_ ∨ ∃ p ∈ reserved, TK.float = p.2 from h) (by decide)
        · exact absurd (show TK.int = .id_ ∨ ∃ p ∈ reserved, TK.int = p.2 from h) (by decide)
      · simp only [hdg, if_false, Bool.false_eq_true] at h
        cases hsp : (if (c == 60) = true then consumeSPath s1 else none) with
        | some s' =>
          simp only [hsp] at h
          exact absurd (show TK.spath = .id_ ∨ ∃ p ∈ reserved, TK.spath = p.2 from h) (by decide)
        | none =>
          simp only [hsp] at h
          simp only [finishToken, lexOp] at h
          cases hf : opTable.find? (fun p => p.1.isPrefixOf s1.rem) with
          | some q =>
            simp only [hf] at h
            have : ∀ q ∈ opTable, ¬ (q.2 = .id_ ∨ ∃ p ∈ reserved, q.2 = p.2) := by decide
            exact this _ (List.mem_of_find?_eq_some hf) h
          | none =>
            simp only [hf] at h
            exact absurd (show TK.unknown = .id_ ∨ ∃ p ∈ reserved, TK.unknown = p.2 from h) (by decide)

/-- Integers: a maximal run of digits that is not followed by a dot, where no path starts. -/
theorem C15_int (s : St) (g : Bytes) (d : UInt8) (ds rest : Bytes) (hs : s.rem = g ++ (d :: ds ++ rest))
    (hg : Trivia g (d :: ds ++ rest)) (hd : ∀ x ∈ d :: ds, x ∈ digits) (hr : NotStarting (46 :: digits) rest)
    (hp : ¬ PathHere (d :: ds ++ rest)) :
    (lex s).1.kind = .int ∧ (lex s).1.view = d :: ds ∧ (lex s).2.rem = rest := by
  obtain ⟨f1, f2, f3, f4, f5⟩ := digit_facts d (hd d (by simp))
  have hn : NoTrivia (d :: ds ++ rest) := noTrivia_of_head f1 f2 f3
  obtain ⟨s1, -, h1, h2⟩ := lex_skip hs hg hn
  have hcons : s1.rem = d :: (ds ++ rest) := by rw [h1]; rfl
  rw [h2, lex_at hcons (h1 ▸ hn)]
  have hp' : ¬ PathHere s1.rem := h1 ▸ hp
  obtain ⟨a, e⟩ := consumeWhile_run (p := isDigit) h1 (fun x hx => (isDigit_mem x).mpr (hd x hx))
    (fun x hx => by
      have := hr x hx
      rw [List.mem_cons, not_or, ← isDigit_mem] at this
      simpa using this.2)
  have hnum : lexNumbers s1 = (.int, consumeWhile isDigit s1) := by
    unfold lexNumbers
    simp only
    rw [if_neg]
    rw [e]
    intro hh
    exact hr 46 hh (by simp)
  rw [pathTest_none d hp']
  simp only [f4, f5, Bool.false_eq_true, if_false, if_true, hnum]
  exact ⟨rfl, by rw [finishToken_view a, h1]; simp, e⟩

example : (lex (.init b!"007 x")).1.kind = .int ∧ (lex (.init b!"1/x")).1.kind = .path_fragment := by decide +kernel

/-- Floats: digits, a dot, digits, and possibly an exponent, where no path starts and the rest cannot continue the number.
A diagnostic is added exactly when there is a superfluous leading zero. -/
theorem C15_float_partial (s : St) (g : Bytes) (d : UInt8) (ds fs e rest : Bytes)
    (hs : s.rem = g ++ (d :: ds ++ 46 :: (fs ++ (e ++ rest)))) (hg : Trivia g (d :: ds ++ 46 :: (fs ++ (e ++ rest))))
    (hd : ∀ x ∈ d :: ds, x ∈ digits) (hf : ∀ x ∈ fs, x ∈ digits)
    (he : (e = [] ∧ NotStarting (69 :: 101 :: digits) rest) ∨ (IsExponent e ∧ NotStarting digits rest))
    (hp : ¬ PathHere (d :: ds ++ 46 :: (fs ++ (e ++ rest)))) :
    (lex s).1.kind = .float ∧ (lex s).1.view = d :: ds ++ 46 :: (fs ++ e) ∧ (lex s).2.rem = rest ∧
      (d = 48 ∧ ds ≠ [] ↔ ∃ x ∈ (lex s).2.diags.drop (consumeTrivia s).diags.length, x.kind = .floatLeadingZero) ∧
      (∀ x ∈ (lex s).2.diags.drop (consumeTrivia s).diags.length, x.kind = .floatLeadingZero) := by
  obtain ⟨f1, f2, f3, f4, f5⟩ := digit_facts d (hd d (by simp))
  have hn : NoTrivia (d :: ds ++ 46 :: (fs ++ (e ++ rest))) := noTrivia_of_head f1 f2 f3
  have hct : (consumeTrivia s).rem = d :: ds ++ 46 :: (fs ++ (e ++ rest)) := by
    obtain ⟨n, h1, h2, h3⟩ := consumeTrivia_adv s
    exact (trivia_unique h2 hg (by rw [h1.rem, List.take_append_drop, hs]) h3 hn).2
  have hlex : lex s = lex (consumeTrivia s) := by
    conv => rhs; unfold lex
    rw [consumeTrivia_id (hct ▸ hn)]
    rfl
  rw [hlex]
  generalize consumeTrivia s = s1 at hct
  clear hlex hs hg s
  rw [lex_at (t := ds ++ 46 :: (fs ++ (e ++ rest))) hct (hct ▸ hn)]
  have hp' : ¬ PathHere s1.rem := hct ▸ hp
  have hcons : s1.rem = d :: (ds ++ 46 :: (fs ++ (e ++ rest))) := hct
  -- integer part
  obtain ⟨a1, e1⟩ := consumeWhile_run (p := isDigit) hct (fun x hx => (isDigit_mem x).mpr (hd x hx)) (by simp; decide)
  have d1 : (consumeWhile isDigit s1).diags = s1.diags := by
    unfold consumeWhile consume; split <;> rfl
  -- dot
  have a2 : AdvN 1 (consumeWhile isDigit s1) (consume 1 (consumeWhile isDigit s1)) := consume_adv (by simp [e1])
  have e2 := consume_one_rem e1
  have dcons : ∀ n t, (consume n t).diags = t.diags := by intro n t; unfold consume; split <;> rfl
  -- fraction
  have hfr : ∀ c ∈ (e ++ rest).head?, isDigit c = false := by
    intro c hc
    rcases he with ⟨rfl, hr⟩ | ⟨⟨m, sg, xs, rfl, hm, -⟩, hr⟩
    · have := hr c hc
      simp only [List.mem_cons, not_or, ← isDigit_mem] at this
      simpa using this.2.2
    · simp at hc
      subst hc
      rcases hm with rfl | rfl <;> decide
  obtain ⟨a3, e3⟩ := consumeWhile_run (p := isDigit) e2 (fun x hx => (isDigit_mem x).mpr (hf x hx)) hfr
  generalize hs3 : consumeWhile isDigit (consume 1 (consumeWhile isDigit s1)) = s3 at a3 e3
  have d3 : s3.diags = s1.diags := by
    rw [← hs3]; simp only [consumeWhile, dcons]
  -- exponent
  have hexp : AdvN e.length s3 (lexFloatExp s3) ∧ (lexFloatExp s3).rem = rest ∧ (lexFloatExp s3).diags = s1.diags := by
    rcases he with ⟨rfl, hr⟩ | ⟨⟨m, sg, xs, rfl, hm, hsg, hne, hxs⟩, hr⟩
    · rw [List.nil_append] at e3
      have : lexFloatExp s3 = s3 := by
        unfold lexFloatExp
        split
        · rfl
        · rename_i x t hx
          have := hr x (by rw [← e3, hx]; rfl)
          simp only [List.mem_cons, not_or] at this
          rw [if_neg (by simp [this.1, this.2.1])]
      rw [this]
      exact ⟨.refl s3, e3, d3⟩
    · have e3' : s3.rem = m :: (sg ++ (xs ++ rest)) := by rw [e3]; simp
      have b1 : AdvN 1 s3 (consume 1 s3) := consume_adv (by simp [e3'])
      have c1 := consume_one_rem e3'
      have b2 : AdvN sg.length (consume 1 s3) (expSign (consume 1 s3)) ∧ (expSign (consume 1 s3)).rem = xs ++ rest ∧
          (expSign (consume 1 s3)).diags = s1.diags := by
        unfold expSign
        rcases hsg with rfl | rfl | rfl
        · rw [List.nil_append] at c1
          cases xs with
          | nil => exact absurd rfl hne
          | cons x xs =>
            rw [c1]
            simp only [List.cons_append]
            have : ¬ (x == 43 || x == 45) = true := by
              have := hxs x (by simp)
              intro hh
              simp only [Bool.or_eq_true, beq_iff_eq] at hh
              rcases hh with rfl | rfl <;> exact absurd this (by decide)
            rw [if_neg this]
            exact ⟨.refl _, c1, by rw [dcons, d3]⟩
        · rw [List.singleton_append] at c1
          rw [c1]
          simp only [beq_self_eq_true, Bool.true_or, if_true]
          exact ⟨consume_adv (by simp [c1]), consume_one_rem c1, by rw [dcons, dcons, d3]⟩
        · rw [List.singleton_append] at c1
          rw [c1]
          simp only [beq_self_eq_true, Bool.or_true, if_true]
          exact ⟨consume_adv (by simp [c1]), consume_one_rem c1, by rw [dcons, dcons, d3]⟩
      obtain ⟨b2, c2, d2⟩ := b2
      obtain ⟨b3, c3⟩ := consumeWhile_run (p := isDigit) c2 (fun x hx => (isDigit_mem x).mpr (hxs x hx))
        (fun x hx => by have := hr x hx; rw [← isDigit_mem] at this; simpa using this)
      have hfe : lexFloatExp s3 = consumeWhile isDigit (expSign (consume 1 s3)) := by
        unfold lexFloatExp
        rw [e3']
        have hm' : (m == 69 || m == 101) = true := by rcases hm with rfl | rfl <;> decide
        simp only [hm', if_true]
        rw [if_neg]
        rw [c2, takeWhile_run (fun x hx => (isDigit_mem x).mpr (hxs x hx))
          (fun x hx => by have := hr x hx; rw [← isDigit_mem] at this; simpa using this)]
        exact hne
      rw [hfe]
      refine ⟨?_, c3, by simp only [consumeWhile, dcons, d2]⟩
      have := (b1.trans b2).trans b3
      have hl : (m :: sg ++ xs).length = 1 + sg.length + xs.length := by simp; omega
      rw [hl]; exact this
  obtain ⟨a4, e4, d4⟩ := hexp
  have a := ((a1.trans a2).trans a3).trans a4
  -- the token
  have hview : ∀ s', s'.cur = (lexFloatExp s3).cur → ∀ k, (finishToken s1 k s').view = d :: ds ++ 46 :: (fs ++ e) := by
    intro s' h' k
    have := finishToken_view a k
    unfold finishToken at this ⊢
    simp only at this ⊢
    rw [h', this, hct]
    rw [show (d :: ds).length + 1 + fs.length + e.length = (d :: ds ++ 46 :: (fs ++ e)).length by simp; omega]
    rw [show d :: ds ++ 46 :: (fs ++ (e ++ rest)) = (d :: ds ++ 46 :: (fs ++ e)) ++ rest by simp]
    rw [List.take_left]
  rw [pathTest_none d hp']
  simp only [f4, f5, Bool.false_eq_true, if_false, if_true]
  have hnum : lexNumbers s1 = (.float, if b!"0".isPrefixOf (s1.rem.take 2) && s1.rem.take 2 != b!"0." then
      (lexFloatExp s3).emit { kind := .floatLeadingZero, range := ⟨s1.cur, (consumeWhile isDigit s1).cur⟩, args := [s1.rem.take 2] }
    else lexFloatExp s3) := by
    unfold lexNumbers
    simp only
    rw [if_pos (by rw [e1]; rfl), hs3]
  have hlz : (b!"0".isPrefixOf (s1.rem.take 2) && s1.rem.take 2 != b!"0.") = true ↔ d = 48 ∧ ds ≠ [] := by
    rw [hcons]
    cases ds with
    | nil => simp; intro h; rw [← h]
    | cons x xs =>
      have hx : x ≠ 46 := by
        rintro rfl; exact absurd (hd 46 (by simp)) (by decide)
      simp [hx]
      exact eq_comm
  rw [hnum]
  simp only
  by_cases hz : d = 48 ∧ ds ≠ []
  · rw [if_pos (hlz.mpr hz)]
    refine ⟨rfl, hview _ rfl _, e4, ?_, ?_⟩
    · simp [St.emit, d4, hz.1, hz.2]
    · simp [St.emit, d4]
  · rw [if_neg (fun h => hz (hlz.mp h))]
    refine ⟨rfl, hview _ rfl _, e4, ?_, ?_⟩
    · simp only [hz, d4, List.drop_length]; simp
    · simp [d4]

example : (lex (.init b!"1.5e-3 x")).1.view = b!"1.5e-3" ∧ (lex (.init b!"1.5e-3 x")).1.kind = .float ∧
    (lex (.init b!"01.5")).2.diags.length = 1 ∧ IsExponent b!"e-3" :=
  ⟨by decide +kernel, by decide +kernel, by decide +kernel, ⟨101, b!"-", b!"3", rfl, .inr rfl, .inr (.inr rfl), by decide, by decide⟩⟩

/-- C15 is violated for floats: Nix's grammar has floats without integer part, such as `.5`; the lexer yields a dot and an
integer. -/
theorem C15_float_without_integer_part_violated :
    (run [.expr, .expr] (.init b!".5")).1.map Token.kind = [.dot, .int] := by decide +kernel

/-- A punctuation token comes from the operator table. -/
theorem lex_op_find (s : St) (p : Bytes × TK) (hp : p ∈ punctuation) (h : (lex s).1.kind = p.2) :
    ∃ q k, opTable.find? (fun p => p.1.isPrefixOf (consumeTrivia s).rem) = some (q, k) ∧ (lex s).1.view = q ∧
      (lex s).1.kind = k := by
  obtain ⟨n, h1, h2, h3⟩ := consumeTrivia_adv s
  obtain ⟨s1, -, e1, e2⟩ := lex_skip (s := s) (g := s.rem.take n) (r := (consumeTrivia s).rem)
    (by rw [h1.rem, List.take_append_drop]) h2 h3
  rw [e2, ← e1]
  rw [e2] at h
  have hn : NoTrivia s1.rem := e1 ▸ h3
  clear e1 e2 h1 h2 h3
  have hkinds : ∀ q ∈ punctuation, q.2 ≠ .eof ∧ q.2 ≠ .path_fragment ∧ q.2 ≠ .uri ∧ q.2 ≠ .int ∧ q.2 ≠ .float ∧
      q.2 ≠ .id_ ∧ q.2 ≠ .spath ∧ q.2 ≠ .unknown ∧ ∀ r ∈ reserved, q.2 ≠ r.2 := by decide
  obtain ⟨k1, k2, k3, k4, k5, k6, k7, k8, k9⟩ := hkinds p hp
  have hid : ¬ ((lex s1).1.kind = .id_ ∨ ∃ p ∈ reserved, (lex s1).1.kind = p.2) := by
    rw [h]; rintro (h | ⟨r, hr, h⟩)
    · exact k6 h
    · exact k9 r hr h
  have hword : ∀ w, wordKind w = .id_ ∨ ∃ p ∈ reserved, wordKind w = p.2 := by
    intro w
    unfold wordKind
    cases hl : reserved.lookup w with
    | none => left; rfl
    | some k =>
      right
      have aux : ∀ (l : List (Bytes × TK)) (x : Bytes) (k : TK), l.lookup x = some k → ∃ p ∈ l, k = p.2 := by
        intro l x k
        induction l with
        | nil => intro h; cases h
        | cons p l ih =>
          intro h
          obtain ⟨a, b⟩ := p
          simp only [List.lookup_cons] at h
          split at h
          · cases h; exact ⟨(a, _), by simp, rfl⟩
          · obtain ⟨q, hq, hk⟩ := ih h; exact ⟨q, by simp [hq], hk⟩
      exact aux _ _ _ hl
  cases hr : s1.rem with
  | nil =>
    have he : (lex s1).1.kind = .eof := by
      rw [C12_eof, hr]; exact .nil _
    rw [he] at h
    exact absurd h.symm k1
  | cons c t =>
    rw [← hr, lex_at hr hn]
    rw [lex_at hr hn] at h hid
    have hl : 1 ≤ s1.rem.length := by simp [hr]
    cases hnp : (if isPathChar c || c == 47 || c == 126 then consumePathStart s1 else none) with
    | some s' => rw [hnp] at h; exact absurd h.symm k2
    | none =>
      cases hnu : (if isAlpha c then consumeURI s1 else none) with
      | some s' => rw [hnp, hnu] at h; exact absurd h.symm k3
      | none =>
        rw [hnp, hnu] at h hid
        simp only at h hid ⊢
        by_cases hd : isDigit c = true
        · exfalso
          simp only [hd, if_true] at h
          unfold lexNumbers at h
          simp only [finishToken] at h
          split at h
          · exact k5 h.symm
          · exact k4 h.symm
        · simp only [hd, if_false, Bool.false_eq_true] at h hid ⊢
          by_cases ha : (isAlpha c || c == 95) = true
          · exfalso
            simp only [ha, if_true] at hid
            simp only [finishToken, maybeKW, lookup_reserved] at hid
            exact hid (hword _)
          · simp only [ha, if_false, Bool.false_eq_true] at h hid ⊢
            cases hsp : (if (c == 60) = true then consumeSPath s1 else none) with
            | some s' => rw [hsp] at h; exact absurd h.symm k7
            | none =>
              rw [hsp] at h
              simp only at h ⊢
              rw [finishToken_view (consume_adv (lexOp_le hl).2)]
              simp only [finishToken] at h ⊢
              unfold lexOp at h ⊢
              cases hf : opTable.find? (fun p => p.1.isPrefixOf s1.rem) with
              | some q =>
                obtain ⟨q, k⟩ := q
                simp only [hf] at h ⊢
                have hpre := List.find?_some hf
                simp only [List.isPrefixOf_iff_prefix] at hpre
                rw [List.prefix_iff_eq_take] at hpre
                exact ⟨q, k, rfl, hpre.symm, rfl⟩
              | none =>
                simp only [hf] at h
                exact absurd h.symm k8

/-- Tokens with a fixed spelling have this spelling, except that `|||>` is taken for the pipe operator `|>`. -/
theorem C15_punctuation (s : St) (p : Bytes × TK) (hp : p ∈ punctuation) (h : (lex s).1.kind = p.2) :
    (lex s).1.view = p.1 ∨ ((lex s).1.kind = .op_pipe_into ∧ (lex s).1.view = b!"|||>") := by
  obtain ⟨q, k, hf, h1, h2⟩ := lex_op_find s p hp h
  have : ∀ a ∈ opTable, ∀ b ∈ punctuation, a.2 = b.2 → a.1 = b.1 ∨ (a.2 = .op_pipe_into ∧ a.1 = b!"|||>") := by
    decide
  rw [h1, h2]
  exact this _ (List.mem_of_find?_eq_some hf) _ hp (by rw [← h2, h])

example : (lex (.init b!" //b")).1.kind = .op_update ∧ (lex (.init b!" /* c */ ->")).1.kind = .op_impl := by decide +kernel

/-- C15 is violated for `|||>`: it is read as one pipe operator instead of `||` `|>`. -/
theorem C15_or_pipe_violated : (run [.expr] (.init b!"|||>")).1.map (fun t => (t.kind, t.view)) = [(.op_pipe_into, b!"|||>")] := by
  decide +kernel

theorem opTable_longest_first : ∀ i : Fin opTable.length, ∀ b ∈ punctuation, opTable[i].1.isPrefixOf b.1 = true →
    opTable[i].1.length < b.1.length → ∃ j : Fin opTable.length, j < i ∧ opTable[j] = b := by decide +kernel

/-- Operators are read by maximal munch: if the token is a punctuation token, no longer spelling fits at this place. -/
theorem C15_longest (s : St) (g r : Bytes) (hs : s.rem = g ++ r) (hg : Trivia g r) (hr : NoTrivia r)
    (p : Bytes × TK) (hp : p ∈ punctuation) (h : (lex s).1.kind = p.2) :
    ∀ q ∈ punctuation, q.1 <+: r → q.1.length ≤ (lex s).1.view.length := by
  have hct : (consumeTrivia s).rem = r := by
    obtain ⟨n, h1, h2, h3⟩ := consumeTrivia_adv s
    exact (trivia_unique h2 hg (by rw [h1.rem, List.take_append_drop, hs]) h3 hr).2
  obtain ⟨x, k, hf, h1, h2⟩ := lex_op_find s p hp h
  rw [hct] at hf
  obtain ⟨hpx, i, hi, hxi, hbefore⟩ := List.find?_eq_some_iff_getElem.mp hf
  have hpx := List.isPrefixOf_iff_prefix.mp hpx
  intro q hq hqr
  rw [h1]
  by_contra hlt
  have hxq : x <+: q.1 := List.prefix_of_prefix_length_le hpx hqr (by omega)
  obtain ⟨j, hji, hj⟩ := opTable_longest_first ⟨i, hi⟩ q hq (by simp only [Fin.getElem_fin, hxi]; exact List.isPrefixOf_iff_prefix.mpr hxq)
    (by simp only [Fin.getElem_fin, hxi]; omega)
  have := hbefore j.val hji
  simp only [Fin.getElem_fin] at hj
  rw [hj] at this
  simp [List.isPrefixOf_iff_prefix.mpr hqr] at this

example : (lex (.init b!"++a")).1.view = b!"++" ∧ (lex (.init b!"<=a")).1.view = b!"<=" := by decide +kernel

end Verif.Props
