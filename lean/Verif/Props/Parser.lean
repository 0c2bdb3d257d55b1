import Verif.Lemmas.ParserTop
import Verif.Spec.Parse
/-
Properties C46 (parsing terminates and consumes everything or reports an error), C48 (ranges of syntax trees), C49
(assertions of the parser) and C50 (positions of its diagnostics).
-/
namespace Verif.Props
open Nixf Lexical Tree Node

theorem init_inv (src : Bytes) : Inv src (.init src) := by
  refine ⟨rfl, ⟨⟨Nat.zero_le _, ?_⟩, rfl, by simp [PState.init, St.init]⟩, ?_, trivial, ?_, ?_⟩
  · simp [PState.init, St.init, posOf]
  · exact Gap.refl (Nat.zero_le _)
  · intro _ t ht; cases ht
  · intro t ht; cases ht

theorem eaten_consumed {src : Bytes} {ts : List Token} (h : Eaten src ts) : Consumed src 0 ts.reverse (endOf ts) := by
  induction ts with
  | nil => exact .nil 0 (Nat.zero_le _)
  | cons t ts ih =>
    obtain ⟨h1, h2, h3⟩ := h
    rw [List.reverse_cons]
    exact .snoc 0 _ _ t (ih h3) h2.le h1.atL h1.atR h1.le h1.view h2.trivia

/-- Everything known about a run of the parser. -/
theorem parse_spec (src : Bytes) : ∃ n s, parse src = some (n, s) ∧ Inv src s ∧ Res src 0 n s.endOff ∧
    (Trivia (src.drop s.endOff) [] ∨ ∃ t ts d, s.buf = t :: ts ∧ d ∈ s.lex.diags ∧ d.kind = .unexpectedText ∧
      d.range = t.range) := by
  have hn : (PState.init src).NP := by simp [PState.NP, PState.init]
  have key : Spec src (parseTop (src.length + 3)) (.init src) (fun n s => Res src 0 n s.endOff ∧
      (Trivia (src.drop s.endOff) [] ∨ ∃ t ts d, s.buf = t :: ts ∧ d ∈ s.lex.diags ∧ d.kind = .unexpectedText ∧
        d.range = t.range)) := by
    unfold parseTop
    refine (recN_ok src (src.length + 3) _ (init_inv src) hn (by omega)).1.bind ?_
    intro n s1 st1 nu1 q1
    have hn1 := st1.np hn
    refine (peek0_spec st1.inv).bind ?_
    rintro t s2 st2 nu2 ⟨f2, e2, -⟩
    have q2 : Res src 0 n s2.endOff := by rw [e2]; exact q1.mono (Nat.zero_le _) (Nat.le_refl _)
    by_cases ht : t.kind = .eof
    · rw [whenP, if_neg (by simpa using ht)]
      refine (Spec.pure (Q := fun _ s => s = s2) st2.inv rfl).bind ?_
      rintro _ s3 - - rfl
      refine .pure st2.inv ⟨q2, .inl ?_⟩
      have hl := f2.ok.eof ht
      obtain ⟨ts, hb⟩ := f2.buf
      have := st2.inv.buf
      rw [hb] at this
      have hg := this.1.trivia
      rw [hl, List.drop_length] at hg
      rwa [List.take_of_length_le (by rw [List.length_drop])] at hg
    · rw [whenP, if_pos (by simpa using ht)]
      obtain ⟨_, s3, e3, st3, sm3, -⟩ := emitD_spec (d := { kind := .unexpectedText, range := t.range }) st2.inv
        (cur0 f2.ok.atR' (by simp) (by simp))
      refine ⟨n, s3, by rw [PM.bind_eq e3]; rfl, st3, by rw [sm3.endOff]; exact q2, .inr ?_⟩
      obtain ⟨ts, hb⟩ := f2.buf
      refine ⟨t, ts, { kind := .unexpectedText, range := t.range }, by rw [sm3.buf, hb], ?_, rfl, rfl⟩
      cases e3
      simp [St.emit]
  obtain ⟨n, s, h1, h2, h3, h4⟩ := key
  exact ⟨n, s, h1, h2.inv, h3, h4⟩

/-! ### C46 -/

/-- For every source the parser ends, and it does so within a recursion depth of the length of the source plus three. -/
theorem C46_terminates (src : Bytes) : ∃ n s, parse src = some (n, s) := by
  obtain ⟨n, s, h, -⟩ := parse_spec src
  exact ⟨n, s, h⟩

example : (parse b!"{ a = [ 1 (2 + ] in").isSome = true := by decide +kernel

/-- The tokens consumed are tokens of the source from its start on, in this order; nothing but white space and comments
was skipped, nothing was consumed twice. -/
theorem C46_consumes_in_order (src : Bytes) (n : Node) (s : PState) (h : parse src = some (n, s)) :
    ∃ e, Consumed src 0 s.eaten.reverse e := by
  obtain ⟨n', s', h1, h2, -⟩ := parse_spec src
  rw [h] at h1; cases h1
  exact ⟨_, eaten_consumed h2.eaten⟩

/-- Either everything after the last token consumed is white space and comments, or the parser reports unexpected text. -/
theorem C46_consumes_all_or_error (src : Bytes) (n : Node) (s : PState) (h : parse src = some (n, s)) :
    ∃ e, Consumed src 0 s.eaten.reverse e ∧
      (Trivia (src.drop e) [] ∨ ∃ d ∈ s.lex.diags, d.kind = .unexpectedText ∧ d.range.l.offset ≥ e ∧
        Trivia ((src.drop e).take (d.range.l.offset - e)) (src.drop d.range.l.offset)) := by
  obtain ⟨n', s', h1, h2, -, h3⟩ := parse_spec src
  rw [h] at h1; cases h1
  refine ⟨_, eaten_consumed h2.eaten, ?_⟩
  rcases h3 with h3 | ⟨t, ts, d, hb, hd, hk, hr⟩
  · exact .inl h3
  · right
    have := h2.buf
    rw [hb] at this
    exact ⟨d, hd, hk, hr ▸ this.1.le, hr ▸ this.1.trivia⟩

-- Both cases occur.
example : ((parse b!"1 # c").map fun r => (r.2.lex.diags, r.2.eaten.map (·.range.r.offset))) = some ([], [1]) := by decide +kernel
example : ((parse b!"1 in").map fun r => r.2.lex.diags.map fun d => (d.kind, d.range.l.offset)) =
    some [(.unexpectedText, 2)] := by decide +kernel

/-! ### C48 -/

/-- Ranges and values of the nodes of a parsed tree. -/
theorem parse_okAll {src : Bytes} {n : Node} {s : PState} (h : parse src = some (n, s)) : OkAll src n := by
  obtain ⟨n', s', h1, -, h2, -⟩ := parse_spec src
  rw [h] at h1; cases h1
  exact h2.okAll

/-- The range of every node of the tree is a range of the source with correct line and column numbers, and the name of
every identifier is the text of its range. -/
theorem C48_ranges (src : Bytes) (n : Node) (s : PState) (h : parse src = some (n, s)) : All subs (Ok src) n := by
  obtain ⟨n', s', h1, -, h2, -⟩ := parse_spec src
  rw [h] at h1; cases h1
  exact h2.okAll.imp fun _ h => h.1

example : ((parse b!"f x").map fun r => r.1.children.map fun c => (c.lCur, c.rCur, c.children.map fun
    | .identifier _ nm => nm
    | _ => [])) = some [(⟨0, 0, 0⟩, ⟨0, 1, 1⟩, [b!"f"]), (⟨0, 2, 2⟩, ⟨0, 3, 3⟩, [b!"x"])] := by decide +kernel

theorem nest_null : All children Nest .null :=
  .mk _ ⟨by simp [children], by simp [children], by simp [children]⟩ (by simp [children])

/-- Every child lies inside its parent, and children do not overlap, except at the keyword `let` (see `Nest`). -/
theorem C48_nesting_partial (src : Bytes) (n : Node) (s : PState) (h : parse src = some (n, s)) : All children Nest n := by
  obtain ⟨n', s', h1, -, h2, -⟩ := parse_spec src
  rw [h] at h1; cases h1
  rcases h2 with rfl | h2
  · exact nest_null
  · exact h2.2.1.nest

/-- The tree of `let a = 1; in a`. -/
def letTree : Node := ((parse b!"let a = 1; in a").map (·.1)).getD .null

/-- C48 is violated: the set of bindings of a `let` has a child outside of its range, the keyword `let`. -/
theorem C48_let_violated : ∃ a ∈ letTree.children, ∃ c ∈ a.children, ¬ Inside c a := by
  have h : letTree.children.any (fun a => a.children.any fun c => decide (c.lCur.offset < a.lCur.offset)) = true := by
    decide +kernel
  simp only [List.any_eq_true, decide_eq_true_eq] at h
  obtain ⟨a, ha, c, hc, hlt⟩ := h
  exact ⟨a, ha, c, hc, fun hi => by have := hi.1; omega⟩

/-- The tree of `let { body = 1; }`. -/
def legacyLetTree : Node := ((parse b!"let { body = 1; }").map (·.1)).getD .null

/-- C48 is violated: two children of `let { body = 1; }` overlap. -/
theorem C48_legacy_let_violated : ¬ legacyLetTree.children.Pairwise Apart := by
  have h : (legacyLetTree.children.map fun c => (c.lCur.offset, c.rCur.offset)) = [(0, 3), (0, 17)] := by decide +kernel
  intro hp
  generalize legacyLetTree.children = l at h hp
  rcases l with _ | ⟨a, _ | ⟨b, _ | ⟨c, l⟩⟩⟩
  · simp at h
  · simp at h
  · simp only [List.map_cons, List.map_nil, List.cons.injEq, Prod.mk.injEq] at h
    obtain ⟨⟨h1, h2⟩, ⟨h3, h4⟩, -⟩ := h
    simp only [List.pairwise_cons, List.mem_singleton, forall_eq] at hp
    rcases hp.1 with h | h <;> omega
  · simp at h

/-! ### C49 -/

/-- C49 is violated: an `inherit` of a quoted name without a source fails the assertion of `desugarInheritExpr`, and two
adjacent interpolations in a path fail that of `parseExprPath`. -/
theorem C49_assert_violated :
    ((parse b!"{ inherit \"a\"; }").map (·.2.bad)) = some true ∧ ((parse b!"./${a}${b}").map (·.2.bad)) = some true := by
  decide +kernel

example : ((parse b!"{ inherit (x) \"a\"; inherit b; c = ./d/${e}; }").map (·.2.bad)) = some false := by decide +kernel

/-! ### C50 -/

/-- The range of every diagnostic, of its notes and of the edits of its fixes is a range of the source, with correct line
and column numbers. -/
theorem C50_diagnostics_in_source (src : Bytes) (n : Node) (s : PState) (h : parse src = some (n, s)) :
    ∀ d ∈ s.lex.diags, ∀ c ∈ diagCursors d, At src c := by
  obtain ⟨n', s', h1, h2, -, -⟩ := parse_spec src
  rw [h] at h1; cases h1
  exact h2.diags

example : ((parse b!"{ a = ; inherit; }").map fun r => r.2.lex.diags.map fun d => (diagCursors d).map (·.offset)) =
    some [[5, 5, 5, 5], [8, 15, 8, 15, 15, 16]] := by decide +kernel

end Verif.Props
