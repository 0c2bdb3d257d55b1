import Verif.Lemmas.SynTop
/-
Rules for proofs that a parser function reads a phrase of the grammar to its end, without a syntax error.
-/
namespace Verif.Nixf.Syntax
open Lexical Strings

/-- The parser is outside of strings at the text `r`, without syntax errors; `S` are the tokens to synchronize at. -/
structure At (S : List TK) (s : PState) (r : Bytes) : Prop where
  clean : Clean s
  sync : s.sync = S
  here : ∃ B, Here s r B

/-- The function ends at the text `r'`, without syntax errors, with a result as given by `P`. -/
def Cpl {α : Type} (S : List TK) (m : PM α) (s : PState) (r' : Bytes) (P : α → Prop) : Prop :=
  ∀ a s', m s = some (a, s') → At S s' r' ∧ P a

theorem At.peek {S : List TK} {s s' : PState} {r v r1 : Bytes} {k : TK} {t : Token} (h : At S s r) (ht : Tok r k v r1)
    (e : peek 0 s = some (t, s')) : At S s' r ∧ t.kind = k ∧ t.view = v ∧ ∃ ts, Here s' r (t :: ts) := by
  obtain ⟨hc, hs, B, hB⟩ := h
  have hc' := peek_clean hB (Nat.zero_le _) hc (.nil r) rfl ht e
  obtain ⟨r2, ts, h1, h2, -⟩ := peek0_here hB e hc'
  obtain ⟨h3, h4, -⟩ := h1.eq ht
  exact ⟨⟨hc', (peek_fr _ _ _ e).sync.trans hs, _, h2⟩, h3, h4, ts, h2⟩

theorem pconsume_peek {s s' : PState} {u : Unit} (e : pconsume s = some (u, s')) : ∃ t s1, peek 0 s = some (t, s1) ∧ pconsume s1 = some (u, s') := by
  refine ⟨_, _, rfl, ?_⟩
  unfold pconsume at e ⊢
  cases hb : s.buf with
  | nil =>
    rw [hb] at e
    simp only [List.isEmpty_nil, if_true] at e
    rw [show (0 + 1 - ([] : List Token).length) = 1 from rfl]
    have : (pull 1 s).buf.isEmpty = false := by
      have := pull_length 1 s
      rw [hb] at this
      cases hx : (pull 1 s).buf with
      | nil => rw [hx] at this; simp at this
      | cons => rfl
    rw [this]
    exact e
  | cons a l =>
    rw [show (0 + 1 - (a :: l).length) = 0 by simp]
    simp only [pull]
    exact e

theorem At.consume {S : List TK} {s s' : PState} {r v r1 : Bytes} {k : TK} {u : Unit} (h : At S s r) (ht : Tok r k v r1)
    (e : pconsume s = some (u, s')) : At S s' r1 ∧ (isQuote k = true ∨ s.buf.length ≤ 1 → s'.buf = [] ∧ s'.lex.rem = r1) := by
  obtain ⟨t, s1, e1, e2⟩ := pconsume_peek e
  obtain ⟨h1, hk, -, ts, h2⟩ := h.peek ht e1
  obtain ⟨r2, g1, g2, g3, g4, g5, -⟩ := pconsume_here h2 e2
  obtain ⟨-, -, rfl⟩ := g1.eq ht
  refine ⟨⟨?_, ?_, _, g2⟩, fun hq => ?_⟩
  · unfold Clean; rw [g5]; exact h1.clean
  · rw [(pconsume_fr _ _ _ e2).sync]; exact h1.sync
  · have : ts = [] := by
      rcases hq with hq | hq
      · exact g3 (by rw [hk]; exact hq)
      · have h3 : s1.buf.length ≤ 1 := by
          unfold Nixf.peek at e1
          simp only [Option.some.injEq, Prod.mk.injEq] at e1
          rw [← e1.2, pull_length]; omega
        rw [h2.buf] at h3
        simpa using h3
    rw [g2.buf]
    exact ⟨this, g4 this⟩

theorem At.same {S : List TK} {s s' : PState} {r : Bytes} (h : At S s r) (q : Same s s') (hc : Clean s → Clean s') : At S s' r := by
  obtain ⟨h1, h2, B, h3⟩ := h
  exact ⟨hc h1, q.sync.trans h2, B, h3.same q⟩

theorem At.mute {α : Type} {S : List TK} {s s' : PState} {r : Bytes} {m : PM α} {a : α} (h : At S s r) (hm : Mute m) (e : m s = some (a, s')) :
    At S s' r := h.same (hm _ _ _ e).1 (hm _ _ _ e).2

section
variable {α β : Type} {S : List TK} {s : PState} {r r' : Bytes} {P : β → Prop}

theorem Cpl.call {m : PM α} {f : α → PM β} {r1 : Bytes} {Q : α → Prop} (hm : Cpl S m s r1 Q)
    (h : ∀ a s1, At S s1 r1 → Q a → Cpl S (f a) s1 r' P) : Cpl S (m >>= f) s r' P := by
  intro b s' e
  obtain ⟨a, s1, e1, e2⟩ := run_bind e
  obtain ⟨h1, h2⟩ := hm a s1 e1
  exact h a s1 h1 h2 b s' e2

theorem Cpl.pure {b : β} (h : At S s r') (hp : P b) : Cpl S (pure b) s r' P := by
  intro b' s' e
  obtain ⟨rfl, rfl⟩ := run_pure e
  exact ⟨h, hp⟩

theorem Cpl.imp {m : PM β} {Q : β → Prop} (hm : Cpl S m s r' Q) (h : ∀ a, Q a → P a) : Cpl S m s r' P := by
  intro b s' e
  obtain ⟨h1, h2⟩ := hm b s' e
  exact ⟨h1, h _ h2⟩

theorem Cpl.peek {f : Token → PM β} {k : TK} {v r1 : Bytes} (hs : At S s r) (ht : Tok r k v r1)
    (h : ∀ t s1, t.kind = k → t.view = v → At S s1 r → Cpl S (f t) s1 r' P) : Cpl S (Nixf.peek 0 >>= f) s r' P := by
  intro b s' e
  obtain ⟨t, s1, e1, e2⟩ := run_bind e
  obtain ⟨h1, h2, h3, -⟩ := hs.peek ht e1
  exact h t s1 h2 h3 h1 b s' e2

theorem Cpl.lcur {f : Cursor → PM β} {k : TK} {v r1 : Bytes} (hs : At S s r) (ht : Tok r k v r1)
    (h : ∀ c s1, At S s1 r → Cpl S (f c) s1 r' P) : Cpl S (lCurP >>= f) s r' P := by
  intro b s' e
  obtain ⟨c, s1, e1, e2⟩ := run_bind e
  obtain ⟨t, s2, e3, e4⟩ := run_bind e1
  obtain ⟨rfl, rfl⟩ := run_pure e4
  exact h _ _ (hs.peek ht e3).1 b s' e2

theorem Cpl.consume {f : Unit → PM β} {k : TK} {v r1 : Bytes} (hs : At S s r) (ht : Tok r k v r1)
    (h : ∀ s1, At S s1 r1 → Cpl S (f ()) s1 r' P) : Cpl S (pconsume >>= f) s r' P := by
  intro b s' e
  obtain ⟨_, s1, e1, e2⟩ := run_bind e
  exact h s1 (hs.consume ht e1).1 b s' e2

theorem Cpl.mute {m : PM α} {f : α → PM β} (hs : At S s r) (hm : Mute m) (h : ∀ a s1, At S s1 r → Cpl S (f a) s1 r' P) :
    Cpl S (m >>= f) s r' P := by
  intro b s' e
  obtain ⟨a, s1, e1, e2⟩ := run_bind e
  exact h a s1 (hs.mute hm e1) b s' e2

theorem Cpl.need {x : Node} {as : Bytes} {f : Unit → PM β} (hs : At S s r) (hx : x.isNull = false)
    (h : ∀ s1, At S s1 r → Cpl S (f ()) s1 r' P) : Cpl S (needExpr x as >>= f) s r' P :=
  .mute hs (needExpr_mute hx) fun _ => h

theorem Cpl.whenNot {c : Prop} [Decidable c] {m : PM Unit} {f : Unit → PM β} (hs : At S s r) (hc : ¬ c)
    (h : ∀ s1, At S s1 r → Cpl S (f ()) s1 r' P) : Cpl S (whenP c m >>= f) s r' P := by
  unfold whenP
  rw [if_neg hc]
  exact .mute hs pure_mute fun _ => h

theorem At.expect {k : Nat} {kind : TK} {s s1 : PState} {v r1 : Bytes} {a : Option Token} (hs : At S s r) (ht : Tok r kind v r1)
    (e : Nixf.expect k kind s = some (a, s1)) : ∃ t, a = some t ∧ t.kind = kind ∧ t.view = v ∧ At S s1 r ∧ Nixf.peek 0 s = some (t, s1) := by
  cases hp : Nixf.peek 0 s with
  | none => unfold Nixf.peek at hp; cases hp
  | some p =>
    obtain ⟨t, s2⟩ := p
    obtain ⟨h1, h2, h3, -⟩ := hs.peek ht hp
    rw [expect_ok hp h2] at e
    cases e
    exact ⟨t, rfl, h2, h3, h1, rfl⟩

theorem Cpl.expect {k : Nat} {kind : TK} {f : Option Token → PM β} {v r1 : Bytes} (hs : At S s r) (ht : Tok r kind v r1)
    (h : ∀ t s1, t.kind = kind → t.view = v → At S s1 r → Cpl S (f (some t)) s1 r' P) : Cpl S (Nixf.expect k kind >>= f) s r' P := by
  intro b s' e
  obtain ⟨a, s1, e1, e2⟩ := run_bind e
  obtain ⟨t, rfl, h1, h2, h3, -⟩ := hs.expect ht e1
  exact h t s1 h1 h2 h3 b s' e2

theorem Cpl.expectOr {k : Nat} {kind : TK} {x : CRange} {text : Bytes} {f : Option Token → PM β} {v r1 : Bytes} (hs : At S s r) (ht : Tok r kind v r1)
    (h : ∀ t s1, At S s1 r1 → (s.buf.length ≤ 1 → s1.buf = [] ∧ s1.lex.rem = r1) → Cpl S (f (some t)) s1 r' P) : Cpl S (Nixf.expectOr k kind x text >>= f) s r' P := by
  intro b s' e
  obtain ⟨a, s1, e1, e2⟩ := run_bind e
  unfold Nixf.expectOr at e1
  obtain ⟨o, s2, e3, e4⟩ := run_bind e1
  obtain ⟨t, rfl, h1, h2, h3, hp⟩ := hs.expect ht e3
  obtain ⟨_, s4, e5, e6⟩ := run_bind e4
  obtain ⟨rfl, rfl⟩ := run_pure e6
  obtain ⟨h4, h5⟩ := h3.consume ht e5
  refine h t _ h4 (fun hl => h5 (.inr ?_)) b s' e2
  unfold Nixf.peek at hp
  simp only [Option.some.injEq, Prod.mk.injEq] at hp
  rw [← hp.2, pull_length]; omega

theorem Cpl.expectMay {k : Nat} {kind : TK} {f : Unit → PM β} {v r1 : Bytes} (hs : At S s r) (ht : Tok r kind v r1)
    (h : ∀ s1, At S s1 r1 → Cpl S (f ()) s1 r' P) : Cpl S (Nixf.expectMay k kind >>= f) s r' P := by
  intro b s' e
  obtain ⟨a, s1, e1, e2⟩ := run_bind e
  unfold Nixf.expectMay at e1
  obtain ⟨o, s2, e3, e4⟩ := run_bind e1
  obtain ⟨t, rfl, h1, h2, h3, hp⟩ := hs.expect ht e3
  exact h s1 (h3.consume ht e4).1 b s' e2

theorem At.withSync (h : At S s r) (k : TK) : At (k :: S) { s with sync := k :: s.sync } r := by
  obtain ⟨h1, h2, B, h3⟩ := h
  exact ⟨h1, by rw [← h2], B, h3.sync _⟩

theorem At.unSync {k : TK} (h : At (k :: S) s r) : At S { s with sync := s.sync.erase k } r := by
  obtain ⟨h1, h2, B, h3⟩ := h
  exact ⟨h1, by simp [h2], B, h3.sync _⟩

theorem Cpl.sync {k : TK} {m : PM β} (hs : At S s r) (h : ∀ s1, At (k :: S) s1 r → Cpl (k :: S) m s1 r' P) : Cpl S (withSync k m) s r' P := by
  intro b s' e
  obtain ⟨s1, e1, rfl⟩ := withSync_run e
  obtain ⟨h1, h2⟩ := h _ (hs.withSync k) b s1 e1
  exact ⟨h1.unSync, h2⟩

/-- `removeUnexpected`, when there is nothing to remove. -/
theorem Cpl.remove {k : Nat} {f : Bool → PM β} {kind : TK} {v r1 : Bytes} (hs : At S s r) (ht : Tok r kind v r1) (hk : kind ∈ S)
    (h : ∀ s1, At S s1 r → Cpl S (f false) s1 r' P) : Cpl S (removeUnexpected k >>= f) s r' P := by
  intro b s' e
  obtain ⟨a, s1, e1, e2⟩ := run_bind e
  unfold removeUnexpected at e1
  obtain ⟨o, s2, e3, e4⟩ := run_bind e1
  unfold consumeAsUnknown at e3
  obtain ⟨t, s3, e5, e3⟩ := run_bind e3
  obtain ⟨c, s4, e6, e3⟩ := run_bind e3
  obtain ⟨h3, hk3, -⟩ := hs.peek ht e5
  have hc : c = false ∧ At S s4 r := by
    cases k with
    | zero => cases e6
    | succ k =>
      unfold unknownLoop at e6
      obtain ⟨t2, s5, e7, e6⟩ := run_bind e6
      obtain ⟨sy, s6, e8, e6⟩ := run_bind e6
      obtain ⟨h5, hk5, -⟩ := h3.peek ht e7
      have e9 : sy = s5.sync ∧ s6 = s5 := by unfold PM.get at e8; cases e8; exact ⟨rfl, rfl⟩
      obtain ⟨rfl, rfl⟩ := e9
      rw [if_pos (by right; rw [hk5, h5.sync]; exact hk)] at e6
      obtain ⟨rfl, rfl⟩ := run_pure e6
      exact ⟨rfl, h5⟩
  obtain ⟨rfl, h4⟩ := hc
  obtain ⟨rfl, rfl⟩ := run_pure e3
  obtain ⟨rfl, rfl⟩ := run_pure e4
  exact h _ h4 b s' e2

theorem Cpl.parts {x : CRange} {fs : List Node} {f : Node → PM β} (hs : At S s r)
    (h : ∀ hd s1, At S s1 r → Cpl S (f (.parts hd (mergeFragments fs))) s1 r' P) : Cpl S (mkParts x fs >>= f) s r' P := by
  intro b s' e
  obtain ⟨a, s1, e1, e2⟩ := run_bind e
  unfold mkParts at e1
  obtain ⟨hd, s2, e3, e4⟩ := run_bind e1
  obtain ⟨rfl, rfl⟩ := run_pure e4
  exact h _ _ (hs.mute fresh_mute e3) b s' e2

theorem Cpl.misc {x : CRange} {f : Node → PM β} (hs : At S s r) (h : ∀ hd s1, At S s1 r → Cpl S (f (.misc hd)) s1 r' P) :
    Cpl S (mkMisc x >>= f) s r' P := by
  intro b s' e
  obtain ⟨a, s1, e1, e2⟩ := run_bind e
  obtain ⟨hd, s2, e3, e4⟩ := run_bind e1
  obtain ⟨rfl, rfl⟩ := run_pure e4
  exact h _ _ (hs.mute fresh_mute e3) b s' e2

end

/-- Steps over statements that do not read anything. -/
macro "quietc" : tactic => `(tactic| with_reducible repeat' first
  | refine Cpl.mute (by assumption) fresh_mute fun _ _ _ => ?_
  | refine Cpl.mute (by assumption) lastR_mute fun _ _ _ => ?_
  | refine Cpl.mute (by assumption) mkMisc_mute fun _ _ _ => ?_
  | refine Cpl.mute (by assumption) assertLast_mute fun _ _ _ => ?_
  | refine Cpl.mute (by assumption) assertFail_mute fun _ _ _ => ?_
  | fail)

/-- The node is the phrase `t`. -/
def Is (t : Syn) (a : Node) : Prop := a.isNull = false ∧ syn a = t

/-- The tokens that follow expressions. -/
def endsExpr : TK → Bool
  | .r_paren | .r_curly | .semi_colon | .kw_then | .kw_else | .comma | .eof => true
  | _ => false

/-- The token does not continue a selection. -/
def endsSelect (k : TK) : Prop := k ≠ .dot ∧ k ≠ .kw_or

/-- What is known of the calls that go through `Rec`. -/
structure Cpl2 (R : Rec) : Prop where
  snd : Snd2 R
  expr : ∀ {S s r r' t k v q}, At S s r → G .expr r [t] r' → Tok r' k v q → endsExpr k = true → Cpl S R.expr s r' (Is t)
  select : ∀ {S s r r' t k v q}, At S s r → G .select r [t] r' → Tok r' k v q → endsSelect k → Cpl S R.select s r' (Is t)

end Verif.Nixf.Syntax
