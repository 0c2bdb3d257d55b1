import Verif.Lemmas.Lexer
/-
Properties C12 (progress and bounds), C13 (tiling), C14 (cursors) and C15 (classification) of the lexer.
-/
namespace Verif.Props
open Nixf Lexical

/-! ### C12 -/

/-- The two situations in which the lexer moves past the end: a lone backslash ends the source inside a double-quoted
string, or `''\` ends it inside an indented string. -/
def PastEnd (m : Mode) (rem : Bytes) : Prop :=
  (m = .str ∧ rem = b!"\\") ∨ (m = .indStr ∧ rem = b!"''\\")

theorem lexIn_out (m : Mode) (s : St) (h : ¬ PastEnd m s.rem) : ∃ pre n, LexOut s (lexIn m s).1 (lexIn m s).2 pre n ∧
    ((lexIn m s).1.kind = .eof → s.rem.drop pre = []) ∧
    ((lexIn m s).1.kind ≠ .eof → (lexIn m s).1.kind ≠ .path_end → 1 ≤ n) := by
  cases m with
  | expr =>
    obtain ⟨pre, n, h1, -, h3, h4⟩ := lex_out s
    refine ⟨pre, n, h1, h3.mp, fun hk _ => ?_⟩
    rcases Nat.eq_zero_or_pos n with h0 | h0
    · exact absurd (h3.mpr (h4.mp h0)) hk
    · exact h0
  | path =>
    obtain ⟨n, h1, h2, h3, h4⟩ := lexPath_out s
    refine ⟨0, n, h1, fun hk => absurd hk h4, fun _ hk => ?_⟩
    rcases Nat.eq_zero_or_pos n with h0 | h0
    · exact absurd (h2.mpr h0) hk
    · exact h0
  | str =>
    obtain ⟨n, h1, h2, h3⟩ := lexString_out s (fun hh => h (.inl ⟨rfl, hh⟩))
    refine ⟨0, n, h1, h2.mp, fun hk _ => ?_⟩
    rcases Nat.eq_zero_or_pos n with h0 | h0
    · exact absurd (h2.mpr (h3.mp h0)) hk
    · exact h0
  | indStr =>
    obtain ⟨n, h1, h2, h3⟩ := lexIndString_out s (fun hh => h (.inr ⟨rfl, hh⟩))
    refine ⟨0, n, h1, h2.mp, fun hk _ => ?_⟩
    rcases Nat.eq_zero_or_pos n with h0 | h0
    · exact absurd (h2.mpr (h3.mp h0)) hk
    · exact h0

/-- The lexer moves past the end of the source (the assertion of `consume`) exactly in the two situations above. In
particular `lex` and `lexPath` never do. -/
theorem C12_in_bounds_partial (m : Mode) (s : St) (h0 : s.oob = false) :
    (lexIn m s).2.oob = true ↔ PastEnd m s.rem := by
  constructor
  · intro h
    by_contra hp
    obtain ⟨pre, n, h1, -⟩ := lexIn_out m s hp
    rw [h1.adv.oob, h0] at h; cases h
  · rintro (⟨rfl, h⟩ | ⟨rfl, h⟩)
    · simp [lexIn, lexString, h, consume]
    · simp [lexIn, lexIndString, h, consume, peekPrefix]

/-- C12 is violated: both situations occur, on the sources `"\` and `''''\`. -/
theorem C12_past_end_violated :
    (run [.expr, .str] (.init b!"\"\\")).2.oob = true ∧ (run [.expr, .indStr] (.init b!"''''\\")).2.oob = true := by
  decide +kernel

example : (run [.expr, .str, .str] (.init b!"\"\\n\"")).2.oob = false := by decide +kernel

/-- In every context, a token other than end of file (and the empty `path_end` marker) makes progress: the cursor moves
forward inside the source, and less text remains. -/
theorem C12_progress (m : Mode) (s : St) (h : ¬ PastEnd m s.rem) (h1 : (lexIn m s).1.kind ≠ .eof)
    (h2 : (lexIn m s).1.kind ≠ .path_end) :
    s.cur.offset < (lexIn m s).2.cur.offset ∧ (lexIn m s).2.rem.length < s.rem.length ∧
      (lexIn m s).2.cur.offset + (lexIn m s).2.rem.length = s.cur.offset + s.rem.length := by
  obtain ⟨pre, n, h3, -, h4⟩ := lexIn_out m s h
  have h5 := h4 h1 h2
  have h6 := h3.adv.le
  rw [h3.adv.offset, h3.adv.rem, List.length_drop]
  omega

example : (lexIn .path (.init b!"a/b c")).1.kind = .path_fragment ∧ (lexIn .str (.init b!"a$${b}\"")).1.kind = .string_part ∧
    ¬ PastEnd .str b!"a$${b}\"" := by
  refine ⟨by decide +kernel, by decide +kernel, ?_⟩
  rintro (⟨-, h⟩ | ⟨h, -⟩)
  · exact absurd h (by decide)
  · cases h

/-- End of file is reported in expression context exactly when only trivia is left, and the cursor is then at the end of
the source. -/
theorem C12_eof (s : St) : (lex s).1.kind = .eof ↔ Trivia s.rem [] := by
  obtain ⟨pre, n, h1, h2, h3, h4⟩ := lex_out s
  constructor
  · intro h
    have := h1.trivia
    have hd := h3.mp h
    rw [hd] at this
    rwa [← List.take_append_drop pre s.rem, hd, List.append_nil]
  · intro h
    have hn : NoTrivia ([] : Bytes) := by simp [NoTrivia]
    exact h3.mpr (trivia_unique h1.trivia h (by rw [List.take_append_drop, List.append_nil]) h2 hn).2

/-- `lex` never returns the `path_end` marker. -/
theorem lex_not_path_end (s : St) : (lex s).1.kind ≠ .path_end := by
  obtain ⟨pre, n, h1, h2, h3, h4⟩ := lex_out s
  intro hk
  unfold lex at hk
  simp only at hk
  split at hk
  · cases hk
  · split at hk
    · cases hk
    · split at hk
      · cases hk
      · split at hk
        · unfold lexNumbers at hk; simp only at hk; split at hk <;> cases hk
        · split at hk
          · simp only [finishToken, maybeKW] at hk
            rw [lookup_reserved] at hk
            revert hk
            cases hl : reserved.lookup _ with
            | none => simp
            | some k =>
              simp only [Option.getD_some]
              rintro rfl
              have : ∀ p ∈ reserved, p.2 ≠ TK.path_end := by decide
              have aux : ∀ (l : List (Bytes × TK)) (x : Bytes) (k : TK), l.lookup x = some k → ∃ p ∈ l, p.2 = k := by
                intro l x k
                induction l with
                | nil => intro h; cases h
                | cons p l ih =>
                  intro h
                  obtain ⟨a, b⟩ := p
                  simp only [List.lookup_cons] at h
                  split at h
                  · cases h; exact ⟨(a, _), by simp, rfl⟩
                  · obtain ⟨q, hq, hk⟩ := ih h; exact ⟨q, by simp [hq], hk⟩
              obtain ⟨p, hp, hk⟩ := aux _ _ _ hl
              exact this p hp hk
          · split at hk
            · cases hk
            · simp only [finishToken, lexOp] at hk
              split at hk
              · rename_i p k hf
                have : ∀ q ∈ opTable, q.2 ≠ TK.path_end := by decide
                exact this _ (List.mem_of_find?_eq_some hf) hk
              · cases hk

/-- The state after `k` tokens in expression context. -/
def iterLex : Nat → St → St
  | 0, s => s
  | k + 1, s => iterLex k (lex s).2

/-- Repeated lexing of any text reaches end of file, after at most as many tokens as there are characters. -/
theorem C12_eof_reached (s : St) : ∃ k, k ≤ s.rem.length ∧ (lex (iterLex k s)).1.kind = .eof := by
  induction hn : s.rem.length using Nat.strong_induction_on generalizing s with
  | _ n ih =>
    by_cases h : (lex s).1.kind = .eof
    · exact ⟨0, by omega, h⟩
    · have hp := lex_not_path_end s
      have h1 := C12_progress .expr s (by rintro (⟨h, -⟩ | ⟨h, -⟩) <;> cases h) h hp
      obtain ⟨k, hk, he⟩ := ih _ (by rw [← hn]; exact h1.2.1) (lex s).2 rfl
      refine ⟨k + 1, ?_, he⟩
      have := h1.2.1
      simp only [lexIn] at this
      omega

example : (lex (iterLex 3 (.init b!"a # c\n b/c"))).1.kind = .eof := by decide +kernel

/-- A run in which the lexer never moved past the end. -/
theorem run_oob {ms : List Mode} {s : St} (h : (run ms s).2.oob = false) : s.oob = false := by
  induction ms generalizing s with
  | nil => exact h
  | cons m ms ih =>
    simp only [run] at h
    have := ih h
    by_cases hp : PastEnd m s.rem
    · cases hs : s.oob with
      | false => rfl
      | true =>
        exfalso
        have e : (lexIn m s).2.oob = true := by
          rcases hp with ⟨rfl, hr⟩ | ⟨rfl, hr⟩
          · simp [lexIn, lexString, hr, consume]
          · simp [lexIn, lexIndString, hr, consume, peekPrefix]
        rw [e] at this; cases this
    · obtain ⟨pre, n, h1, -⟩ := lexIn_out m s hp
      rw [← h1.adv.oob]; exact this

theorem run_cons_ok {m : Mode} {ms : List Mode} {s : St} (h : (run (m :: ms) s).2.oob = false) :
    ¬ PastEnd m s.rem ∧ (run ms (lexIn m s).2).2.oob = false := by
  simp only [run] at h
  refine ⟨fun hp => ?_, h⟩
  have := run_oob h
  have h0 := run_oob (ms := m :: ms) (s := s) (by simpa only [run] using h)
  rw [(C12_in_bounds_partial m s h0).mpr hp] at this
  cases this

/-- In whatever contexts the parser asks for tokens, it gets only finitely many besides end of file and `path_end`. -/
theorem C12_finite (ms : List Mode) (s : St) (h : (run ms s).2.oob = false) :
    ((run ms s).1.filter (fun t => t.kind ≠ .eof ∧ t.kind ≠ .path_end)).length ≤ s.rem.length := by
  induction ms generalizing s with
  | nil => simp [run]
  | cons m ms ih =>
    obtain ⟨h1, h2⟩ := run_cons_ok h
    have := ih _ h2
    simp only [run]
    rw [List.filter_cons]
    split
    · rename_i hk
      simp only [ne_eq, decide_eq_true_eq] at hk
      have := (C12_progress m s h1 hk.1 hk.2).2.1
      simp only [List.length_cons]
      omega
    · obtain ⟨pre, n, h3, -⟩ := lexIn_out m s h1
      have h4 := h3.adv.rem
      have : (lexIn m s).2.rem.length ≤ s.rem.length := by rw [h4, List.length_drop]; omega
      omega

/-! ### C13 -/

/-- For every text and every sequence of contexts, the text is tiled by trivia and token texts: their concatenation, in
order, followed by what is not lexed yet, is the text. -/
theorem C13_tiles (ms : List Mode) (s : St) (h : (run ms s).2.oob = false) :
    Tiles s.rem (run ms s).1 (run ms s).2.rem := by
  induction ms generalizing s with
  | nil => exact .nil _
  | cons m ms ih =>
    obtain ⟨h1, h2⟩ := run_cons_ok h
    obtain ⟨pre, n, h3, -⟩ := lexIn_out m s h1
    have ht := ih _ h2
    have e1 : (lexIn m s).1.view ++ (lexIn m s).2.rem = s.rem.drop pre := by
      rw [h3.view, h3.adv.rem, ← List.drop_drop, List.take_append_drop]
    have e2 : s.rem = s.rem.take pre ++ ((lexIn m s).1.view ++ (lexIn m s).2.rem) := by
      rw [e1, List.take_append_drop]
    simp only [run]
    rw [e2]
    refine .cons _ _ _ _ _ ?_ ht
    rw [e1]
    exact h3.trivia

/-- In string and path contexts no trivia is skipped; in expression context it is skipped completely. -/
theorem C13_no_trivia_in_strings (m : Mode) (s : St) (h : ¬ PastEnd m s.rem) (hm : m ≠ .expr) :
    (lexIn m s).1.view ++ (lexIn m s).2.rem = s.rem := by
  have fin : ∀ {n}, LexOut s (lexIn m s).1 (lexIn m s).2 0 n → (lexIn m s).1.view ++ (lexIn m s).2.rem = s.rem := by
    intro n h1
    rw [h1.view, h1.adv.rem]; simp
  cases m with
  | expr => exact absurd rfl hm
  | path => obtain ⟨n, h1, -⟩ := lexPath_out s; exact fin h1
  | str => obtain ⟨n, h1, -⟩ := lexString_out s (fun hh => h (.inl ⟨rfl, hh⟩)); exact fin h1
  | indStr => obtain ⟨n, h1, -⟩ := lexIndString_out s (fun hh => h (.inr ⟨rfl, hh⟩)); exact fin h1

/-- What `lex` skips is exactly the longest trivia at the start of the text: the token text starts at the first
character that starts neither white space nor a comment. -/
theorem C13_trivia_exact (s : St) (g r : Bytes) (h : s.rem = g ++ r) (hg : Trivia g r) (hr : NoTrivia r) :
    (lex s).1.view ++ (lex s).2.rem = r ∧ (lex s).1.range.l = moveCur g s.cur := by
  obtain ⟨pre, n, h1, h2, -⟩ := lex_out s
  obtain ⟨e1, e2⟩ := trivia_unique h1.trivia hg (by rw [List.take_append_drop, h]) h2 hr
  refine ⟨?_, by rw [h1.left, e1]⟩
  rw [h1.view, h1.adv.rem, ← List.drop_drop, List.take_append_drop, e2]

/-- The concatenation of the skipped texts and the token texts of a completed run is the whole source. -/
theorem C13_concat (ms : List Mode) (src : Bytes) (h : (run ms (.init src)).2.oob = false)
    (hend : (run ms (.init src)).2.rem = []) :
    ∃ gaps : List Bytes, gaps.length = (run ms (.init src)).1.length ∧
      (List.zipWith (fun g (t : Token) => g ++ t.view) gaps (run ms (.init src)).1).flatten = src := by
  have key : ∀ (txt : Bytes) (ts : List Token) (rest : Bytes), Tiles txt ts rest →
      ∃ gaps : List Bytes, gaps.length = ts.length ∧
        (List.zipWith (fun g (t : Token) => g ++ t.view) gaps ts).flatten ++ rest = txt := by
    intro txt ts rest ht
    induction ht with
    | nil r => exact ⟨[], rfl, rfl⟩
    | cons g t ts txt rest _ _ ih =>
      obtain ⟨gaps, h1, h2⟩ := ih
      exact ⟨g :: gaps, by simp [h1], by simp [← h2]⟩
  obtain ⟨gaps, h1, h2⟩ := key _ _ _ (C13_tiles ms (.init src) h)
  refine ⟨gaps, h1, ?_⟩
  rw [hend, List.append_nil] at h2
  exact h2

example : (run [.expr, .expr, .str, .str, .expr] (.init b!"/* x */ a \"b # c\" # d")).2.oob = false ∧
    (run [.expr, .expr, .str, .str, .expr] (.init b!"/* x */ a \"b # c\" # d")).2.rem = [] ∧
    (run [.expr, .expr, .str, .str, .expr] (.init b!"/* x */ a \"b # c\" # d")).1.map Token.view =
      [b!"a", b!"\"", b!"b # c", b!"\"", b!""] := by decide +kernel

/-! ### C14 -/

/-- The invariant of lexer states: the cursor is a correct one, what remains is the text after it, and the cursors of all
diagnostics are correct. -/
structure Sound (s : St) : Prop where
  at_ : At s.src s.cur
  rem : s.rem = s.src.drop s.cur.offset
  diags : ∀ d ∈ s.diags, ∀ c ∈ diagCursors d, At s.src c

theorem At_move {src rem : Bytes} {cur : Cursor} (h : At src cur) (hr : rem = src.drop cur.offset) {n : Nat}
    (hn : n ≤ rem.length) : At src (moveCur (rem.take n) cur) ∧ (moveCur (rem.take n) cur).offset = cur.offset + n := by
  have ho : (moveCur (rem.take n) cur).offset = cur.offset + n := by
    rw [moveCur_offset, List.length_take, Nat.min_eq_left hn]
  refine ⟨⟨?_, ?_⟩, ho⟩
  · rw [ho]
    rw [hr, List.length_drop] at hn
    have := h.1
    omega
  · rw [ho]
    conv => lhs; rw [h.2]
    rw [← moveCur_zero, ← moveCur_zero, ← moveCur_append, List.take_add, hr]

theorem Sound.adv {n : Nat} {s s' : St} (h : Sound s) (ha : AdvN n s s') : Sound s' := by
  obtain ⟨h1, h2⟩ := At_move h.at_ h.rem ha.le
  refine ⟨?_, ?_, ?_⟩
  · rw [ha.src, ha.cur]; exact h1
  · rw [ha.rem, ha.src, ha.cur, h2, h.rem, List.drop_drop]
  · intro d hd c hc
    rw [ha.src]
    rcases ha.diags d hd with hh | hh
    · exact h.diags d hh c hc
    · obtain ⟨k, hk, rfl⟩ := hh c hc
      exact (At_move h.at_ h.rem hk).1

/-- States the parser can bring the lexer into: from the start, by lexing in any context, and by moving the cursor back to
the start or end of a token seen before (`seen`), in any order. -/
inductive Reaches (src : Bytes) : St → List Token → Prop
  | start : Reaches src (.init src) []
  | lex (m s seen) : Reaches src s seen → ¬ PastEnd m s.rem → Reaches src (lexIn m s).2 ((lexIn m s).1 :: seen)
  | back (t s seen) : Reaches src s seen → t ∈ seen → Reaches src (setCur t.range.l s) seen
  | backEnd (t s seen) : Reaches src s seen → t ∈ seen → Reaches src (setCur t.range.r s) seen

/-- Whatever the parser does, every cursor the lexer produces (current position, both ends of every token, and the cursors
in diagnostics, notes and fixes) has the line and the column of its byte offset, and lies in the source. -/
theorem C14_cursors (src : Bytes) (s : St) (seen : List Token) (h : Reaches src s seen) :
    At src s.cur ∧ (∀ t ∈ seen, At src t.range.l ∧ At src t.range.r) ∧ (∀ d ∈ s.diags, ∀ c ∈ diagCursors d, At src c) := by
  suffices hh : (Sound s ∧ s.src = src) ∧ ∀ t ∈ seen, At src t.range.l ∧ At src t.range.r by
    obtain ⟨⟨h1, rfl⟩, h2⟩ := hh
    exact ⟨h1.at_, h2, h1.diags⟩
  induction h with
  | start =>
    refine ⟨⟨⟨⟨Nat.zero_le _, ?_⟩, rfl, by simp [St.init]⟩, rfl⟩, by simp⟩
    simp [St.init, posOf]
  | lex m s seen _ hp ih =>
    obtain ⟨⟨ih1, rfl⟩, ih2⟩ := ih
    obtain ⟨pre, n, h1, -⟩ := lexIn_out m s hp
    refine ⟨⟨ih1.adv h1.adv, h1.adv.src⟩, ?_⟩
    intro t ht
    rcases List.mem_cons.mp ht with rfl | ht
    · rw [h1.left, h1.right]
      refine ⟨(At_move ih1.at_ ih1.rem (by have := h1.adv.le; omega)).1, ?_⟩
      rw [← h1.adv.src]
      exact (ih1.adv h1.adv).at_
    · exact ih2 t ht
  | back t s seen _ ht ih =>
    obtain ⟨⟨ih1, rfl⟩, ih2⟩ := ih
    exact ⟨⟨⟨(ih2 t ht).1, rfl, ih1.diags⟩, rfl⟩, ih2⟩
  | backEnd t s seen _ ht ih =>
    obtain ⟨⟨ih1, rfl⟩, ih2⟩ := ih
    exact ⟨⟨⟨(ih2 t ht).2, rfl, ih1.diags⟩, rfl⟩, ih2⟩

/-- The range of every token delimits exactly its text. -/
theorem C13_range_is_text (src : Bytes) (s : St) (seen : List Token) (h : Reaches src s seen) :
    ∀ t ∈ seen, t.range.l.offset ≤ t.range.r.offset ∧ slice src t.range = t.view := by
  suffices hh : (Sound s ∧ s.src = src) ∧ (∀ t ∈ seen, At src t.range.l ∧ At src t.range.r) ∧
      ∀ t ∈ seen, t.range.l.offset ≤ t.range.r.offset ∧ slice src t.range = t.view from hh.2.2
  induction h with
  | start =>
    refine ⟨⟨⟨⟨Nat.zero_le _, ?_⟩, rfl, by simp [St.init]⟩, rfl⟩, by simp, by simp⟩
    simp [St.init, posOf]
  | lex m s seen hs hp ih =>
    obtain ⟨⟨ih1, rfl⟩, ih2, ih3⟩ := ih
    have hc := (C14_cursors _ _ _ (.lex m s seen hs hp)).2.1
    obtain ⟨pre, n, h1, -⟩ := lexIn_out m s hp
    refine ⟨⟨ih1.adv h1.adv, h1.adv.src⟩, hc, ?_⟩
    intro t ht
    rcases List.mem_cons.mp ht with rfl | ht
    · have e1 : (lexIn m s).1.range.l.offset = s.cur.offset + pre := by
        rw [h1.left, moveCur_offset, List.length_take, Nat.min_eq_left]
        have := h1.adv.le; omega
      have e2 : (lexIn m s).1.range.r.offset = s.cur.offset + (pre + n) := by rw [h1.right, h1.adv.offset]
      refine ⟨by omega, ?_⟩
      unfold slice
      rw [h1.view, e1, e2, ih1.rem, List.drop_drop]
      congr 1
      omega
    · exact ih3 t ht
  | back t s seen hs ht ih =>
    obtain ⟨⟨ih1, rfl⟩, ih2, ih3⟩ := ih
    exact ⟨⟨⟨(ih2 t ht).1, rfl, ih1.diags⟩, rfl⟩, ih2, ih3⟩
  | backEnd t s seen hs ht ih =>
    obtain ⟨⟨ih1, rfl⟩, ih2, ih3⟩ := ih
    exact ⟨⟨⟨(ih2 t ht).2, rfl, ih1.diags⟩, rfl⟩, ih2, ih3⟩

/-- A state reached with a token on the second line and a diagnostic (unterminated comment). -/
example : Reaches b!"a\n  b /*" (lexIn .expr (lexIn .expr (lexIn .expr (.init b!"a\n  b /*")).2).2).2
    [(lexIn .expr (lexIn .expr (lexIn .expr (.init b!"a\n  b /*")).2).2).1,
     (lexIn .expr (lexIn .expr (.init b!"a\n  b /*")).2).1, (lexIn .expr (.init b!"a\n  b /*")).1] :=
  .lex .expr _ _ (.lex .expr _ _ (.lex .expr _ _ .start (by rintro (⟨h, -⟩ | ⟨h, -⟩) <;> cases h))
    (by rintro (⟨h, -⟩ | ⟨h, -⟩) <;> cases h)) (by rintro (⟨h, -⟩ | ⟨h, -⟩) <;> cases h)

example : (lexIn .expr (lexIn .expr (.init b!"a\n  b /*")).2).1.range = ⟨⟨1, 2, 4⟩, ⟨1, 3, 5⟩⟩ ∧
    (lexIn .expr (lexIn .expr (lexIn .expr (.init b!"a\n  b /*")).2).2).2.diags.length = 1 := by decide +kernel

end Verif.Props
