import Verif.Lemmas.SynAt
/-
Rules for proofs about parser functions that report no syntax error.
-/
namespace Verif.Nixf.Syntax
open Lexical Strings

/-- A place in the source, given by the text after it. Nothing is said when there is no source. -/
def Pt (src : Option Bytes) (c : Cursor) (r : Bytes) : Prop := ∀ b ∈ src, b.drop c.offset = r

/-- A range is that of the text between two rests of the source, without what is skipped in front of it. -/
def Spans (src : Option Bytes) (x : CRange) (r r' : Bytes) : Prop := Pt src x.l (skip r) ∧ Pt src x.r r'

/-- Where the last token ends. -/
def lastCur (s : PState) : Cursor :=
  match s.eaten with
  | t :: _ => t.range.r
  | [] => default

/-- The parser is outside of strings and at the end of the last token. -/
structure Hr (src : Option Bytes) (s : PState) (r : Bytes) (B : List Token) : Prop extends Here s r B where
  text : ∀ b ∈ src, s.lex.src = b
  ends : Pt src (lastCur s) r

theorem Hr.of_none {s : PState} {r : Bytes} {B : List Token} (h : Here s r B) : Hr none s r B := ⟨h, by simp, by simp [Pt]⟩

theorem Hr.same {src : Option Bytes} {s s' : PState} {r : Bytes} {B : List Token} (h : Hr src s r B) (q : Same s s') : Hr src s' r B :=
  ⟨h.toHere.same q, fun b hb => by rw [q.src]; exact h.text b hb, by unfold lastCur; rw [q.eaten]; exact h.ends⟩

theorem pull_eaten (n : Nat) (s : PState) : (pull n s).eaten = s.eaten := by
  induction n generalizing s with
  | zero => rfl
  | succ n ih => rw [pull, ih]; rfl

theorem peek_eaten {s s' : PState} {n : Nat} {t : Token} (e : peek n s = some (t, s')) : s'.eaten = s.eaten := by
  unfold peek at e
  simp only [Option.some.injEq, Prod.mk.injEq] at e
  rw [← e.2, pull_eaten]

/-- Looking at tokens. -/
theorem Hr.peeked {src : Option Bytes} {s s' : PState} {r : Bytes} {B B' : List Token} {n : Nat} {t : Token} (h : Hr src s r B)
    (e : peek n s = some (t, s')) (h' : Here s' r B') : Hr src s' r B' :=
  ⟨h', fun b hb => by rw [(peek_fr _ _ _ e).src]; exact h.text b hb, by unfold lastCur; rw [peek_eaten e]; exact h.ends⟩

/-- The place of the next token. -/
theorem Hr.front {src : Option Bytes} {s : PState} {r r1 : Bytes} {t : Token} {ts : List Token} (h : Hr src s r (t :: ts))
    (ht : Tok r t.kind t.view r1) : Spans src t.range r r1 := by
  obtain ⟨r', h1, ⟨h2, h3⟩, -⟩ := h.lexed
  obtain ⟨-, -, rfl⟩ := ht.eq h1
  refine ⟨fun b hb => ?_, fun b hb => ?_⟩
  · rw [← h.text b hb]; exact h2
  · rw [← h.text b hb]; exact h3

theorem Hr.consumed {src : Option Bytes} {s s' : PState} {r r1 : Bytes} {t : Token} {ts : List Token} (h : Hr src s r (t :: ts))
    (ht : Tok r t.kind t.view r1) (h' : Here s' r1 ts) (hs : s'.lex = s.lex) (he : s'.eaten = t :: s.eaten) : Hr src s' r1 ts :=
  ⟨h', fun b hb => by rw [hs]; exact h.text b hb, by unfold lastCur; rw [he]; exact (h.front ht).2⟩

/-- If no syntax error is reported, the function ends outside of strings, with a result as given by `P`. -/
def Snd {α : Type} (src : Option Bytes) (m : PM α) (s : PState) (P : α → Bytes → List Token → Prop) : Prop :=
  ∀ a s', m s = some (a, s') → Clean s' → ∃ r' B', Hr src s' r' B' ∧ P a r' B'

theorem emit_dirty {s s' : PState} {d : Diagnostic} {u : Unit} (hd : isSyntaxError d.kind = true) (e : emitD d s = some (u, s')) : ¬ Clean s' := by
  have := run_modify e; subst this
  intro hc
  have := hc d (by simp [St.emit])
  rw [hd] at this; cases this

theorem peek_sync {s s' : PState} {n : Nat} {t : Token} (x : List TK) (e : peek n s = some (t, s')) :
    peek n { s with sync := x } = some (t, { s' with sync := x }) := by
  have hp : ∀ k (s : PState), pull k { s with sync := x } = { pull k s with sync := x } := by
    intro k
    induction k with
    | zero => intro s; rfl
    | succ k ih =>
      intro s
      rw [pull, pull]
      rw [← ih]; rfl
  unfold peek at e ⊢
  simp only [Option.some.injEq, Prod.mk.injEq] at e
  obtain ⟨e1, e2⟩ := e
  simp only [hp]
  rw [e2]
  rw [e2] at e1
  rw [← e1]

theorem withSync_run {α : Type} {k : TK} {m : PM α} {s s' : PState} {a : α} (h : withSync k m s = some (a, s')) :
    ∃ s1, m { s with sync := k :: s.sync } = some (a, s1) ∧ s' = { s1 with sync := s1.sync.erase k } := by
  unfold withSync at h
  obtain ⟨_, s1, e1, e⟩ := run_bind h
  obtain ⟨b, s2, e2, e⟩ := run_bind e
  obtain ⟨_, s3, e3, e⟩ := run_bind e
  obtain ⟨rfl, rfl⟩ := run_pure e
  have e1 := run_modify e1
  have e3 := run_modify e3
  subst e1
  exact ⟨s2, e2, e3⟩

/-- `expect` without an error. -/
theorem expect_run {k : Nat} {kind : TK} {s s' : PState} {a : Option Token} (h : expect k kind s = some (a, s')) (hc : Clean s') :
    ∃ t, a = some t ∧ t.kind = kind ∧ peek 0 s = some (t, s') := by
  have hfr := expect_fr _ _ _ h
  unfold expect at h
  obtain ⟨s1, h', rfl⟩ := withSync_run h
  clear h
  have h := h'
  have hc : Clean s1 := hc
  obtain ⟨t, s2, e2, h⟩ := run_bind h
  split at h
  · rename_i hk
    obtain ⟨ha, hb⟩ := run_pure h
    subst ha; subst hb
    refine ⟨t, rfl, hk, ?_⟩
    have := peek_sync s.sync e2
    have hs : s1.sync.erase kind = s.sync := hfr.sync
    rw [hs]
    exact this
  · exfalso
    obtain ⟨removed, s3, e3, h⟩ := run_bind h
    obtain ⟨t', s4, e4, h⟩ := run_bind h
    by_cases hr : removed = true
    · -- text was removed
      have : ¬ Clean s3 := by
        unfold removeUnexpected at e3
        obtain ⟨o, s5, e5, e3⟩ := run_bind e3
        cases o with
        | none => obtain ⟨rfl, -⟩ := run_pure e3; cases hr
        | some r =>
          obtain ⟨_, s6, e6, e3⟩ := run_bind e3
          obtain ⟨-, rfl⟩ := run_pure e3
          exact emit_dirty rfl e6
      have f4 := rePeek_fr _ _ _ e4
      refine this (f4.clean ?_)
      split at h
      · obtain ⟨-, rfl⟩ := run_pure h; exact hc
      · obtain ⟨_, s5, e5, h⟩ := run_bind h
        obtain ⟨_, s6, e6, h⟩ := run_bind h
        obtain ⟨-, rfl⟩ := run_pure h
        exact absurd hc (emit_dirty rfl e6)
    · split at h
      · rename_i hx; exact hr hx.1
      · obtain ⟨_, s5, e5, h⟩ := run_bind h
        obtain ⟨_, s6, e6, h⟩ := run_bind h
        obtain ⟨-, rfl⟩ := run_pure h
        exact absurd hc (emit_dirty rfl e6)

/-- `expect`, when the token is there. -/
theorem expect_ok {k : Nat} {kind : TK} {s s1 : PState} {t : Token} (h : peek 0 s = some (t, s1)) (hk : t.kind = kind) :
    expect k kind s = some (some t, s1) := by
  have hp := peek_sync (kind :: s.sync) h
  have hs : s1.sync = s.sync := (peek_fr _ _ _ h).sync
  unfold expect withSync
  simp only [Bind.bind, PM.bind', PM.modify, hp, hk, if_true]
  simp only [Pure.pure, PM.pure', List.erase_cons_head, ← hs]

theorem expectOr_run {k : Nat} {kind : TK} {r : CRange} {text : Bytes} {s s' : PState} {a : Option Token}
    (h : expectOr k kind r text s = some (a, s')) (hc : Clean s') :
    ∃ t s1, a = some t ∧ t.kind = kind ∧ peek 0 s = some (t, s1) ∧ pconsume s1 = some ((), s') := by
  unfold expectOr at h
  obtain ⟨o, s1, e1, h⟩ := run_bind h
  have hc1 : Clean s1 := by
    cases o with
    | none =>
      obtain ⟨_, s2, e2, h⟩ := run_bind h
      obtain ⟨-, rfl⟩ := run_pure h
      exact (noteLast_fr _ _ _ e2).clean hc
    | some t =>
      obtain ⟨_, s2, e2, h⟩ := run_bind h
      obtain ⟨-, rfl⟩ := run_pure h
      exact (pconsume_fr _ _ _ e2).clean hc
  obtain ⟨t, rfl, hk, hp⟩ := expect_run e1 hc1
  obtain ⟨_, s2, e2, h⟩ := run_bind h
  obtain ⟨rfl, rfl⟩ := run_pure h
  exact ⟨t, s1, rfl, hk, hp, e2⟩

/-! ### Rules -/

section
variable {α β : Type} {src : Option Bytes} {s : PState} {r : Bytes} {B : List Token} {P : β → Bytes → List Token → Prop}

theorem Snd.bind {m : PM α} {f : α → PM β} {Q : α → Bytes → List Token → Prop} (hm : Snd src m s Q)
    (h : ∀ a s1 r1 B1, Hr src s1 r1 B1 → Q a r1 B1 → Snd src (f a) s1 P) (hf : ∀ a, Fr (f a)) : Snd src (m >>= f) s P := by
  intro b s' e hc
  obtain ⟨a, s1, e1, e2⟩ := run_bind e
  obtain ⟨r1, B1, h1, h2⟩ := hm a s1 e1 ((hf a _ _ _ e2).clean hc)
  exact h a s1 r1 B1 h1 h2 b s' e2 hc

theorem Snd.pure {b : β} (h : Hr src s r B) (hp : P b r B) : Snd src (pure b) s P := by
  intro b' s' e hc
  obtain ⟨rfl, rfl⟩ := run_pure e
  exact ⟨r, B, h, hp⟩

theorem Snd.imp {m : PM β} {Q : β → Bytes → List Token → Prop} (hm : Snd src m s Q) (h : ∀ a r B, Q a r B → P a r B) : Snd src m s P := by
  intro b s' e hc
  obtain ⟨r1, B1, h1, h2⟩ := hm b s' e hc
  exact ⟨r1, B1, h1, h _ _ _ h2⟩

theorem Snd.peek {f : Token → PM β} (hs : Hr src s r B)
    (h : ∀ t s1 r1 ts, Tok r t.kind t.view r1 → Hr src s1 r (t :: ts) → BufN 0 B (t :: ts) → Snd src (f t) s1 P) (hf : ∀ a, Fr (f a)) :
    Snd src (Nixf.peek 0 >>= f) s P := by
  intro b s' e hc
  obtain ⟨t, s1, e1, e2⟩ := run_bind e
  obtain ⟨r1, ts, h1, h2, h3⟩ := peek0_here hs.toHere e1 ((hf _ _ _ _ e2).clean hc)
  exact h t s1 r1 ts h1 (hs.peeked e1 h2) h3 b s' e2 hc

theorem Snd.lcur {f : Cursor → PM β} (hs : Hr src s r B)
    (h : ∀ c s1 r1 t ts, Pt src c (skip r) → Tok r t.kind t.view r1 → Hr src s1 r (t :: ts) → BufN 0 B (t :: ts) → Snd src (f c) s1 P) (hf : ∀ a, Fr (f a)) :
    Snd src (lCurP >>= f) s P := by
  intro b s' e hc
  obtain ⟨c, s1, e1, e2⟩ := run_bind e
  obtain ⟨t, s2, e3, e4⟩ := run_bind e1
  obtain ⟨rfl, rfl⟩ := run_pure e4
  obtain ⟨r1, ts, h1, h2, h3⟩ := peek0_here hs.toHere e3 ((hf _ _ _ _ e2).clean hc)
  have h2' := hs.peeked e3 h2
  exact h _ s1 r1 t ts (h2'.front h1).1 h1 h2' h3 b s' e2 hc

theorem Snd.consume {f : Unit → PM β} {t : Token} {ts : List Token} {r1 : Bytes} (hs : Hr src s r (t :: ts)) (ht : Tok r t.kind t.view r1)
    (h : ∀ s1, Hr src s1 r1 ts → (isQuote t.kind = true → ts = []) → (ts = [] → s1.lex.rem = r1) → Snd src (f ()) s1 P)
    (_hf : ∀ a, Fr (f a)) : Snd src (pconsume >>= f) s P := by
  intro b s' e hc
  obtain ⟨_, s1, e1, e2⟩ := run_bind e
  obtain ⟨r2, h1, h2, h3, h4, h5, -, h6⟩ := pconsume_here hs.toHere e1
  obtain ⟨-, -, rfl⟩ := h1.eq ht
  exact h s1 (hs.consumed h1 h2 h5 h6) h3 h4 b s' e2 hc

theorem Snd.quiet {m : PM α} {f : α → PM β} (hs : Hr src s r B) (hm : Quiet m) (h : ∀ a s1, Hr src s1 r B → Snd src (f a) s1 P)
    : Snd src (m >>= f) s P := by
  intro b s' e hc
  obtain ⟨a, s1, e1, e2⟩ := run_bind e
  exact h a s1 (hs.same (hm _ _ _ e1)) b s' e2 hc

theorem lastR_run {c : Cursor} {s s' : PState} (e : Nixf.lastR s = some (c, s')) : c = lastCur s := by
  unfold Nixf.lastR at e; unfold lastCur
  cases hx : s.eaten <;> (rw [hx] at e; cases e; rfl)

theorem fresh_run {x : CRange} {h : Hd} {s s' : PState} (e : Nixf.fresh x s = some (h, s')) : h.range = x := by
  unfold Nixf.fresh at e; cases e; rfl

/-- A new header. -/
theorem Snd.fresh {x : CRange} {f : Hd → PM β} (hs : Hr src s r B) (h : ∀ i s1, Hr src s1 r B → Snd src (f ⟨i, x⟩) s1 P) :
    Snd src (Nixf.fresh x >>= f) s P := by
  intro b s' e hc
  obtain ⟨a, s1, e1, e2⟩ := run_bind e
  have h1 := hs.same (fresh_mute _ _ _ e1).1
  have ha : a = ⟨s.next, x⟩ := by unfold Nixf.fresh at e1; cases e1; rfl
  subst ha
  exact h _ s1 h1 b s' e2 hc

/-- The end of the last token. -/
theorem Snd.lastR {f : Cursor → PM β} (hs : Hr src s r B) (h : ∀ c s1, Pt src c r → Hr src s1 r B → Snd src (f c) s1 P) :
    Snd src (Nixf.lastR >>= f) s P := by
  intro b s' e hc
  obtain ⟨a, s1, e1, e2⟩ := run_bind e
  have h1 := hs.same (lastR_mute _ _ _ e1).1
  refine h a s1 ?_ h1 b s' e2 hc
  have := hs.ends
  rw [lastR_run e1]; exact this

theorem Snd.dirty {d : Diagnostic} {f : Unit → PM β} (hd : isSyntaxError d.kind = true) (hf : ∀ a, Fr (f a)) : Snd src (emitD d >>= f) s P := by
  intro b s' e hc
  obtain ⟨a, s1, e1, e2⟩ := run_bind e
  exact absurd ((hf a _ _ _ e2).clean hc) (emit_dirty hd e1)

/-- A statement that only reports an error. -/
theorem Snd.dirty' {m : PM α} {f : α → PM β} (hm : ∀ a s1, m s = some (a, s1) → ¬ Clean s1) (hf : ∀ a, Fr (f a)) : Snd src (m >>= f) s P := by
  intro b s' e hc
  obtain ⟨a, s1, e1, e2⟩ := run_bind e
  exact absurd ((hf a _ _ _ e2).clean hc) (hm a s1 e1)

theorem Snd.need {x : Node} {as : Bytes} {f : Unit → PM β} (hs : Hr src s r B)
    (h : ∀ s1, x.isNull = false → Hr src s1 r B → Snd src (f ()) s1 P) (hf : ∀ a, Fr (f a)) : Snd src (needExpr x as >>= f) s P := by
  cases hx : x.isNull with
  | false => exact .quiet hs (needExpr_mute hx).quiet fun _ s1 h1 => h s1 hx h1
  | true =>
    refine .dirty' ?_ hf
    intro a s1 e1
    unfold needExpr whenP at e1
    rw [if_pos hx] at e1
    obtain ⟨c, s2, e2, e3⟩ := run_bind e1
    exact emit_dirty rfl e3

theorem Snd.whenDirty {c : Prop} [Decidable c] {m : PM Unit} {f : Unit → PM β} (hs : Hr src s r B)
    (hm : ∀ s u s1, m s = some (u, s1) → ¬ Clean s1) (h : ∀ s1, ¬ c → Hr src s1 r B → Snd src (f ()) s1 P) (hf : ∀ a, Fr (f a)) :
    Snd src (whenP c m >>= f) s P := by
  unfold whenP
  split
  · exact .dirty' (hm s) hf
  · rename_i hc; exact .quiet hs pure_mute.quiet fun _ s1 h1 => h s1 hc h1

theorem Snd.expect {k : Nat} {kind : TK} {f : Option Token → PM β} (hs : Hr src s r B)
    (h : ∀ t s1 r1 ts, t.kind = kind → Tok r t.kind t.view r1 → Hr src s1 r (t :: ts) → BufN 0 B (t :: ts) → Snd src (f (some t)) s1 P)
    (hf : ∀ a, Fr (f a)) : Snd src (Nixf.expect k kind >>= f) s P := by
  intro b s' e hc
  obtain ⟨a, s1, e1, e2⟩ := run_bind e
  have hc1 := (hf a _ _ _ e2).clean hc
  obtain ⟨t, rfl, hk, hp⟩ := expect_run e1 hc1
  obtain ⟨r1, ts, h1, h2, h3⟩ := peek0_here hs.toHere hp hc1
  exact h t s1 r1 ts hk h1 (hs.peeked hp h2) h3 b s' e2 hc

theorem Snd.expectOr {k : Nat} {kind : TK} {x : CRange} {text : Bytes} {f : Option Token → PM β} (hs : Hr src s r B)
    (h : ∀ t s1 r1 ts, t.kind = kind → Tok r kind t.view r1 → Hr src s1 r1 ts → BufN 1 B ts →
      (B.length ≤ 1 → ts = [] ∧ s1.lex.rem = r1) → Snd src (f (some t)) s1 P)
    (hf : ∀ a, Fr (f a)) : Snd src (Nixf.expectOr k kind x text >>= f) s P := by
  intro b s' e hc
  obtain ⟨a, s1, e1, e2⟩ := run_bind e
  have hc1 := (hf a _ _ _ e2).clean hc
  obtain ⟨t, s2, rfl, hk, hp, hq⟩ := expectOr_run e1 hc1
  obtain ⟨r1, ts, h1, h2, h3⟩ := peek0_here hs.toHere hp ((pconsume_fr _ _ _ hq).clean hc1)
  obtain ⟨r2, g1, g2, g3, g4, g5, -, g6⟩ := pconsume_here h2 hq
  obtain ⟨-, -, rfl⟩ := h1.eq g1
  refine h t s1 r1 ts hk (by rw [← hk]; exact h1) ((hs.peeked hp h2).consumed h1 g2 g5 g6) (h3.trans (.cons t ts)) (fun hl => ?_) b s' e2 hc
  have : ts = [] := by
    rcases h3 with h3 | h3
    · simpa using h3
    · have := h3.length_le
      simp only [List.drop_zero, List.length_cons] at this
      exact List.eq_nil_of_length_eq_zero (by omega)
  exact ⟨this, g4 this⟩

theorem Snd.expectMay {k : Nat} {kind : TK} {f : Unit → PM β} (hs : Hr src s r B)
    (h : ∀ v s1 r1 ts, Tok r kind v r1 → Hr src s1 r1 ts → BufN 1 B ts → Snd src (f ()) s1 P)
    (hf : ∀ a, Fr (f a)) : Snd src (Nixf.expectMay k kind >>= f) s P := by
  intro b s' e hc
  obtain ⟨a, s1, e1, e2⟩ := run_bind e
  have hc1 := (hf a _ _ _ e2).clean hc
  unfold Nixf.expectMay at e1
  obtain ⟨o, s2, e3, e4⟩ := run_bind e1
  have hc2 : Clean s2 := by
    cases o with
    | none => obtain ⟨-, rfl⟩ := run_pure e4; exact hc1
    | some t => exact (pconsume_fr _ _ _ e4).clean hc1
  obtain ⟨t, rfl, hk, hp⟩ := expect_run e3 hc2
  obtain ⟨r1, ts, h1, h2, h3⟩ := peek0_here hs.toHere hp hc2
  obtain ⟨r2, g1, g2, g3, g4, g5, -, g6⟩ := pconsume_here h2 e4
  obtain ⟨-, -, rfl⟩ := h1.eq g1
  exact h t.view s1 r1 ts (by rw [← hk]; exact h1) ((hs.peeked hp h2).consumed h1 g2 g5 g6) (h3.trans (.cons t ts)) b s' e2 hc

theorem Here.sync (h : Here s r B) (x : List TK) : Here { s with sync := x } r B := ⟨h.top, h.fit, h.buf, h.lexed⟩

theorem Hr.sync (h : Hr src s r B) (x : List TK) : Hr src { s with sync := x } r B := ⟨h.toHere.sync x, h.text, h.ends⟩

theorem Snd.sync {k : TK} {m : PM β} (hs : Hr src s r B) (h : ∀ s1, Hr src s1 r B → Snd src m s1 P) : Snd src (withSync k m) s P := by
  intro b s' e hc
  obtain ⟨s1, e1, rfl⟩ := withSync_run e
  obtain ⟨r1, B1, h1, h2⟩ := h _ (hs.sync _) b s1 e1 hc
  exact ⟨r1, B1, h1.sync _, h2⟩

end

end Verif.Nixf.Syntax
