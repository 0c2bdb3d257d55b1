import Verif.Lemmas.SynFrame
/-
Where the parser is: the text that the look-ahead buffer and the lexer have not yet read.
-/
namespace Verif.Nixf.Syntax
open Lexical Strings

/-- The kinds of tokens that the lexer does not read past. -/
def isQuote : TK → Bool
  | .dquote | .quote2 => true
  | _ => false

/-- The tokens of the buffer are those of the text `r`, and `rem` is what comes after them. -/
def Lexed (src rem : Bytes) : List Token → Bytes → Prop
  | [], r => rem = r ∨ (rem = skip r ∧ (consumeTrivia (.init r)).diags = [])
  | t :: ts, r => ∃ r', Tok r t.kind t.view r' ∧ (src.drop t.range.l.offset = skip r ∧ src.drop t.range.r.offset = r') ∧ (ts = [] → rem = r') ∧
      (ts ≠ [] → isQuote t.kind = false) ∧ Lexed src rem ts r'

/-- The parser is outside of strings, `r` is the text not yet consumed, `B` the tokens looked at. -/
structure Here (s : PState) (r : Bytes) (B : List Token) : Prop where
  top : s.states.head? = some .expr
  fit : Fit s
  buf : s.buf = B
  lexed : Lexed s.lex.src s.lex.rem B r

/-- The buffer after consuming at least `n` tokens of `B`; not more than one token has been looked at in addition. -/
def BufN (n : Nat) (B B' : List Token) : Prop := B'.length ≤ 1 ∨ B' <:+ B.drop n

theorem BufN.refl (B : List Token) : BufN 0 B B := .inr (List.suffix_refl _)

theorem suffix_drop {α : Type} {a b : List α} (n : Nat) (h : a <:+ b) : a.drop n <:+ b.drop n := by
  obtain ⟨c, rfl⟩ := h
  rw [List.drop_append]
  refine List.IsSuffix.trans ?_ (List.suffix_append _ _)
  have := List.drop_suffix (n - (n - c.length)) (a.drop (n - c.length))
  rw [List.drop_drop, show n - c.length + (n - (n - c.length)) = n by omega] at this
  exact this

theorem suffix_length_drop {α : Type} {a b : List α} {n : Nat} (h : a <:+ b.drop n) : a.length ≤ b.length - n := by
  have := h.length_le
  simpa using this

theorem BufN.trans {n m : Nat} {A B C : List Token} (h : BufN n A B) (h' : BufN m B C) : BufN (n + m) A C := by
  rcases h' with h' | h'
  · exact .inl h'
  rcases h with h | h
  · refine .inl ?_
    have := suffix_length_drop h'
    omega
  · refine .inr ?_
    have := suffix_drop m h
    rw [List.drop_drop] at this
    exact h'.trans this

theorem BufN.mono {n m : Nat} {A B : List Token} (h : BufN n A B) (hm : m ≤ n) : BufN m A B := by
  rcases h with h | h
  · exact .inl h
  · refine .inr (h.trans ?_)
    obtain ⟨d, rfl⟩ := Nat.exists_eq_add_of_le hm
    rw [← List.drop_drop]
    exact List.drop_suffix _ _

theorem BufN.cons (t : Token) (ts : List Token) : BufN 1 (t :: ts) ts := .inr (by simp)

theorem BufN.nil {n : Nat} {A : List Token} : BufN n A [] := .inl (by simp)

/-- From an empty buffer. -/
theorem BufN.of_nil {n : Nat} {B : List Token} (h : BufN n [] B) : B.length ≤ 1 := by
  rcases h with h | h
  · exact h
  · have := suffix_length_drop h
    simp at this
    simp [this]

/-! ### States that differ in nothing important -/

structure Same (s s' : PState) : Prop where
  src : s'.lex.src = s.lex.src
  rem : s'.lex.rem = s.lex.rem
  cur : s'.lex.cur = s.lex.cur
  buf : s'.buf = s.buf
  states : s'.states = s.states
  sync : s'.sync = s.sync
  eaten : s'.eaten = s.eaten

theorem Same.refl (s : PState) : Same s s := ⟨rfl, rfl, rfl, rfl, rfl, rfl, rfl⟩

theorem Same.trans {s s' s'' : PState} (h : Same s s') (h' : Same s' s'') : Same s s'' :=
  ⟨h'.src.trans h.src, h'.rem.trans h.rem, h'.cur.trans h.cur, h'.buf.trans h.buf, h'.states.trans h.states, h'.sync.trans h.sync,
    h'.eaten.trans h.eaten⟩

theorem Same.fit {s s' : PState} (h : Same s s') (hf : Fit s) : Fit s' := by
  unfold Fit at hf ⊢; rw [h.rem, h.src, h.cur]; exact hf

theorem Here.same {s s' : PState} {r : Bytes} {B : List Token} (h : Here s r B) (q : Same s s') : Here s' r B :=
  ⟨by rw [q.states]; exact h.top, q.fit h.fit, q.buf.trans h.buf, by rw [q.src, q.rem]; exact h.lexed⟩

/-- The function changes nothing important. -/
def Quiet {α : Type} (m : PM α) : Prop := ∀ s a s', m s = some (a, s') → Same s s'

/-- ... and adds no syntax errors. -/
def Mute {α : Type} (m : PM α) : Prop := ∀ s a s', m s = some (a, s') → Same s s' ∧ (Clean s → Clean s')

theorem Mute.quiet {α : Type} {m : PM α} (h : Mute m) : Quiet m := fun s a s' e => (h s a s' e).1

theorem fresh_mute {r : CRange} : Mute (fresh r) := by
  intro s a s' h; unfold fresh at h; cases h; exact ⟨⟨rfl, rfl, rfl, rfl, rfl, rfl, rfl⟩, id⟩
theorem lastR_mute : Mute lastR := by
  intro s a s' h; unfold lastR at h
  split at h <;> (cases h; exact ⟨⟨rfl, rfl, rfl, rfl, rfl, rfl, rfl⟩, id⟩)
theorem emitD_mute {d : Diagnostic} (hd : isSyntaxError d.kind = false) : Mute (emitD d) := by
  intro s a s' h
  have := run_modify h; subst this
  refine ⟨⟨rfl, rfl, rfl, rfl, rfl, rfl, rfl⟩, fun hc x hx => ?_⟩
  simp only [St.emit, List.mem_append, List.mem_singleton] at hx
  rcases hx with hx | rfl
  · exact hc x hx
  · exact hd
theorem assertFail_mute : Mute assertFail := by
  intro s a s' h
  have := run_modify h; subst this; exact ⟨⟨rfl, rfl, rfl, rfl, rfl, rfl, rfl⟩, id⟩
theorem assertLast_mute : Mute assertLast := by
  intro s a s' h
  have := run_modify h; subst this; exact ⟨⟨rfl, rfl, rfl, rfl, rfl, rfl, rfl⟩, id⟩
theorem get_mute {α : Type} {f : PState → α} : Mute (PM.get f) := by
  intro s a s' h; unfold PM.get at h; cases h; exact ⟨.refl _, id⟩
theorem pure_mute {α : Type} {a : α} : Mute (pure a) := by
  intro s b s' h; obtain ⟨-, rfl⟩ := run_pure h; exact ⟨.refl _, id⟩
theorem Mute.bind {α β : Type} {m : PM α} {f : α → PM β} (h1 : Mute m) (h2 : ∀ a, Mute (f a)) : Mute (m >>= f) := by
  intro s b s' h
  obtain ⟨a, s1, e1, e2⟩ := run_bind h
  obtain ⟨a1, a2⟩ := h1 _ _ _ e1
  obtain ⟨b1, b2⟩ := h2 _ _ _ _ e2
  exact ⟨a1.trans b1, b2 ∘ a2⟩
theorem mkMisc_mute {r : CRange} : Mute (mkMisc r) := .bind fresh_mute fun _ => pure_mute
theorem Mute.when {c : Prop} [Decidable c] {m : PM Unit} (h : c → Mute m) : Mute (whenP c m) := by
  unfold whenP; split
  · rename_i hc; exact h hc
  · exact pure_mute
theorem needExpr_mute {e : Node} {as : Bytes} (h : e.isNull = false) : Mute (needExpr e as) :=
  .when fun h' => by rw [h] at h'; cases h'

theorem clean_mild {s : PState} {t : SemaSt} (h : Mild ⟨s.next, s.lex.diags, s.bad⟩ t) (hc : Clean s) :
    ∀ d ∈ t.diags, isSyntaxError d.kind = false := by
  obtain ⟨u, e, hu⟩ := h
  intro d hd
  rw [e] at hd
  rcases List.mem_append.mp hd with h | h
  · exact hc d h
  · exact hu d h

theorem sema_mute {α : Type} {f : Bytes → SemaSt → α × SemaSt} (hf : ∀ src s, Mild s (f src s).2) : Mute (sema f) := by
  intro s a s' h
  unfold sema at h
  simp only at h; cases h
  exact ⟨⟨rfl, rfl, rfl, rfl, rfl, rfl, rfl⟩, clean_mild (hf _ _)⟩

/-! ### Look-ahead -/

/-- The kinds of the first tokens of a text. -/
inductive Toks : Bytes → List TK → Bytes → Prop
  | nil (r) : Toks r [] r
  | cons {r k v r1 ks r'} : Tok r k v r1 → Toks r1 ks r' → Toks r (k :: ks) r'

theorem Toks.snoc {r r' r'' v : Bytes} {ks : List TK} {k : TK} (h : Toks r ks r') (h' : Tok r' k v r'') : Toks r (ks ++ [k]) r'' := by
  induction h with
  | nil r => exact .cons h' (.nil _)
  | cons h1 _ ih => exact .cons h1 (ih h')

theorem Toks.eq {r r1 r2 : Bytes} {ks ks' : List TK} (h : Toks r ks r1) (h' : Toks r ks' r2) (hl : ks.length = ks'.length) :
    ks = ks' ∧ r1 = r2 := by
  induction h generalizing ks' with
  | nil r =>
    cases h' with
    | nil => exact ⟨rfl, rfl⟩
    | cons => simp at hl
  | cons h1 _ ih =>
    cases h' with
    | nil => simp at hl
    | cons g1 g2 =>
      obtain ⟨rfl, -, rfl⟩ := h1.eq g1
      obtain ⟨rfl, rfl⟩ := ih g2 (by simpa using hl)
      exact ⟨rfl, rfl⟩

theorem Lexed.toks {src rem r : Bytes} {B : List Token} (h : Lexed src rem B r) :
    ∃ r', Toks r (B.map (·.kind)) r' ∧ (B ≠ [] → rem = r') ∧ (B = [] → r' = r) := by
  induction B generalizing r with
  | nil => exact ⟨r, .nil r, fun h => absurd rfl h, fun _ => rfl⟩
  | cons t ts ih =>
    obtain ⟨r1, h1, h2, h3, h4, h5⟩ := h
    obtain ⟨r', h6, h7, h8⟩ := ih h5
    refine ⟨r', .cons h1 h6, fun _ => ?_, fun h => (nomatch h)⟩
    by_cases hts : ts = []
    · rw [h3 hts, h8 hts]
    · exact h7 hts

theorem lex_right (s : St) : (lex s).1.range.r = (lex s).2.cur := by
  unfold lex
  simp only
  repeat' split
  all_goals rfl

/-- Reading another token. -/
theorem Lexed.snoc {src rem r rem' : Bytes} {B : List Token} {t : Token} (h : Lexed src rem B r)
    (hq : ∀ t ∈ B.getLast?, isQuote t.kind = false)
    (ht : Tok rem t.kind t.view rem') (hd : src.drop t.range.l.offset = skip rem ∧ src.drop t.range.r.offset = rem') :
    Lexed src rem' (B ++ [t]) r := by
  induction B generalizing r with
  | nil =>
    rcases h with rfl | ⟨rfl, hc⟩
    · exact ⟨rem', ht, hd, fun _ => rfl, fun h => absurd rfl h, .inl rfl⟩
    · exact ⟨rem', ht.of_skip hc, ⟨by rw [hd.1, skip_skip], hd.2⟩, fun _ => rfl, fun h => absurd rfl h, .inl rfl⟩
  | cons a ts ih =>
    obtain ⟨r1, h1, h2, h3, h4, h5⟩ := h
    refine ⟨r1, h1, h2, by simp, fun _ => ?_, ?_⟩
    · by_cases hts : ts = []
      · subst hts; exact hq a (by simp)
      · exact h4 hts
    · refine ih h5 fun t ht => hq t ?_
      cases ts with
      | nil => simp at ht
      | cons b bs => simpa using ht

theorem pull_length (n : Nat) (s : PState) : (pull n s).buf.length = s.buf.length + n := by
  induction n generalizing s with
  | zero => rfl
  | succ n ih => rw [pull, ih]; simp [pullOne]; omega

theorem headD_of_head {l : List PS} {p : PS} (h : l.head? = some p) : l.headD .expr = p := by
  cases l with
  | nil => cases h
  | cons a l => simpa using h

theorem pullOne_here {s : PState} {r : Bytes} {B : List Token} (h : Here s r B)
    (hq : ∀ t ∈ B.getLast?, isQuote t.kind = false) (hc : Clean (pullOne s)) :
    ∃ t, Here (pullOne s) r (B ++ [t]) := by
  have e : pullOne s = { s with lex := (lex s.lex).2, buf := s.buf ++ [(lex s.lex).1] } := by
    unfold pullOne; rw [headD_of_head h.top]; rfl
  obtain ⟨a, h1, h2, h3, h4, h5, -⟩ := lex_tok s.lex h.fit
  have ha : a = [] := by
    cases a with
    | nil => rfl
    | cons x xs =>
      have h6 := hc x (by rw [e]; show x ∈ (lex s.lex).2.diags; rw [h1]; simp)
      have h7 := h2 x (by simp)
      rw [h7] at h6; cases h6
  obtain ⟨h6, h7⟩ := h5 ha
  rw [e]
  refine ⟨(lex s.lex).1, h.top, ?_, by simp only [h.buf], ?_⟩
  · unfold Fit; simp only; rw [h4, h3]
  · simp only
    rw [h3]
    exact h.lexed.snoc hq h6 ⟨h7, by rw [lex_right, ← h4]⟩

/-- Reading one more token when it is known to be correct. -/
theorem pullOne_clean {s : PState} {r r1 r' : Bytes} {B : List Token} {ks : List TK} {k : TK} {v : Bytes} (h : Here s r B) (hc : Clean s)
    (hk : Toks r ks r1) (hl : ks.length = B.length) (ht : Tok r1 k v r') : Clean (pullOne s) := by
  have e : pullOne s = { s with lex := (lex s.lex).2, buf := s.buf ++ [(lex s.lex).1] } := by
    unfold pullOne; rw [headD_of_head h.top]; rfl
  obtain ⟨a, h1, h2, h3, h4, -, h5⟩ := lex_tok s.lex h.fit
  have ha : a = [] := by
    obtain ⟨r2, g1, g2, g3⟩ := h.lexed.toks
    obtain ⟨-, rfl⟩ := hk.eq g1 (by simpa using hl)
    by_cases hB : B = []
    · subst hB
      rw [g3 rfl] at ht
      rcases h.lexed with e | ⟨e, -⟩
      · rw [← e] at ht; exact h5 _ _ _ ht
      · have := ht.skip; rw [← e] at this; exact h5 _ _ _ this
    · rw [← g2 hB] at ht; exact h5 _ _ _ ht
  rw [e]
  intro d hd
  have hd : d ∈ (lex s.lex).2.diags := hd
  rw [h1, ha, List.append_nil] at hd
  exact hc d hd

/-- `peek(n)`, when the tokens before have been looked at. -/
theorem peek_here {s s' : PState} {r : Bytes} {B : List Token} {n : Nat} {t : Token} (h : Here s r B) (hn : n ≤ B.length)
    (hq : ∀ t ∈ (B.take n).getLast?, isQuote t.kind = false) (e : peek n s = some (t, s')) (hc : Clean s') :
    ∃ B', Here s' r B' ∧ B'[n]? = some t ∧ B.take n = B'.take n ∧ (B' = B ∨ B'.length = n + 1) ∧ BufN 0 B (B'.drop n) := by
  unfold peek at e
  simp only [Option.some.injEq, Prod.mk.injEq] at e
  obtain ⟨e1, e2⟩ := e
  rw [h.buf] at e1 e2
  by_cases hl : n = B.length
  · rw [show n + 1 - B.length = 1 by omega] at e1 e2
    have e2 : pullOne s = s' := e2
    have e1 : (pullOne s).buf.getD n default = t := e1
    rw [← e2] at hc
    rw [hl, List.take_length] at hq
    obtain ⟨u, h1⟩ := pullOne_here h hq hc
    rw [e2] at h1
    rw [e2, h1.buf, hl] at e1
    have : u = t := by simpa using e1
    subst this
    refine ⟨_, h1, by simp [hl], by simp [hl], .inr (by simp [hl]), .inl (by simp [hl])⟩
  · rw [show n + 1 - B.length = 0 by omega] at e1 e2
    have e2 : s = s' := e2
    have e1 : s.buf.getD n default = t := e1
    subst e2
    have hlt : n < B.length := by omega
    refine ⟨B, h, ?_, rfl, .inl rfl, .inr ?_⟩
    · rw [h.buf] at e1
      rw [List.getElem?_eq_getElem hlt]
      rw [← e1]
      simp [List.getD_eq_getElem?_getD, List.getElem?_eq_getElem hlt]
    · exact List.drop_suffix _ _

theorem peek_clean {s s' : PState} {r r1 r' : Bytes} {B : List Token} {n : Nat} {t : Token} {ks : List TK} {k : TK} {v : Bytes}
    (h : Here s r B) (hn : n ≤ B.length) (hc : Clean s)
    (hk : Toks r ks r1) (hl : ks.length = n) (ht : Tok r1 k v r') (e : peek n s = some (t, s')) : Clean s' := by
  unfold peek at e
  simp only [Option.some.injEq, Prod.mk.injEq] at e
  obtain ⟨e1, e2⟩ := e
  rw [h.buf] at e1 e2
  by_cases hl' : n = B.length
  · rw [show n + 1 - B.length = 1 by omega] at e2
    have e2 : pullOne s = s' := e2
    rw [← e2]
    exact pullOne_clean h hc hk (by omega) ht
  · rw [show n + 1 - B.length = 0 by omega] at e2
    have e2 : s = s' := e2
    rw [← e2]; exact hc

/-- `peek()`. -/
theorem peek0_here {s s' : PState} {r : Bytes} {B : List Token} {t : Token} (h : Here s r B) (e : peek 0 s = some (t, s')) (hc : Clean s') :
    ∃ r1 ts, Tok r t.kind t.view r1 ∧ Here s' r (t :: ts) ∧ BufN 0 B (t :: ts) := by
  obtain ⟨B', h1, h2, -, -, h4⟩ := peek_here h (Nat.zero_le _) (by simp) e hc
  cases B' with
  | nil => simp at h2
  | cons u us =>
    simp only [List.length_cons, Nat.zero_lt_succ, List.getElem?_eq_getElem, List.getElem_cons_zero, Option.some.injEq] at h2
    subst h2
    obtain ⟨r1, h5, -⟩ := h1.lexed
    exact ⟨r1, us, h5, h1, h4⟩

/-- `consume()` of a token that has been looked at. -/
theorem pconsume_here {s s' : PState} {r : Bytes} {t : Token} {ts : List Token} {u : Unit} (h : Here s r (t :: ts))
    (e : pconsume s = some (u, s')) :
    ∃ r1, Tok r t.kind t.view r1 ∧ Here s' r1 ts ∧ (isQuote t.kind = true → ts = []) ∧ (ts = [] → s'.lex.rem = r1) ∧
      s'.lex = s.lex ∧ s'.states = s.states ∧ s'.eaten = t :: s.eaten := by
  unfold pconsume at e
  simp only [h.buf, List.isEmpty_cons, Bool.false_eq_true, if_false] at e
  cases e
  obtain ⟨r1, h1, h2, h3, h4, h5⟩ := h.lexed
  refine ⟨r1, h1, ⟨h.top, h.fit, rfl, h5⟩, fun hq => ?_, h3, rfl, rfl, rfl⟩
  by_contra hts
  have := h4 hts
  rw [hq] at this; cases this

end Verif.Nixf.Syntax
