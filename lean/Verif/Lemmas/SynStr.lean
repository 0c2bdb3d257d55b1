import Verif.Lemmas.SynRules
import Verif.Lemmas.StringLex
/-
The parser inside of strings and paths.
-/
namespace Verif.Nixf.Syntax
open Lexical Strings

/-- A token of a string or path. -/
def TokS (st : PS) (r : Bytes) (k : TK) (v r' : Bytes) : Prop :=
  (lexPS st (.init r)).1.kind = k ∧ (lexPS st (.init r)).1.view = v ∧ (lexPS st (.init r)).2.rem = r'

theorem TokS.eq {st : PS} {r v v' a a' : Bytes} {k k' : TK} (h : TokS st r k v a) (h' : TokS st r k' v' a') :
    k = k' ∧ v = v' ∧ a = a' := by
  obtain ⟨rfl, rfl, rfl⟩ := h
  obtain ⟨rfl, rfl, rfl⟩ := h'
  exact ⟨rfl, rfl, rfl⟩

theorem tokP_iff {r v r' : Bytes} {k : TK} : TokP r k v r' ↔ TokS .path r k v r' := by
  constructor
  · rintro ⟨t, s, h, rfl, rfl, rfl⟩
    unfold TokS; rw [show lexPS .path (.init r) = (t, s) from h]; exact ⟨rfl, rfl, rfl⟩
  · rintro ⟨rfl, rfl, rfl⟩
    exact ⟨_, _, rfl, rfl, rfl, rfl⟩

/-- The lexer in a string or path. -/
theorem lexS_tok {st : PS} (hst : st ≠ .expr) (s : St) (h : s.rem = s.src.drop s.cur.offset) :
    (lexPS st s).2.diags = s.diags ∧ (lexPS st s).2.src = s.src ∧ (lexPS st s).2.rem = s.src.drop (lexPS st s).2.cur.offset ∧
      TokS st s.rem (lexPS st s).1.kind (lexPS st s).1.view (lexPS st s).2.rem ∧ (lexPS st s).1.range.l = s.cur := by
  obtain ⟨f1, f2, -⟩ := lexPS_frame st s h
  refine ⟨?_, f1, f2, ?_, ?_⟩
  · cases st with
    | expr => exact absurd rfl hst
    | string => unfold lexPS lexString consume; simp only; repeat' split
                all_goals rfl
    | indString => unfold lexPS lexIndString consume; simp only; repeat' split
                   all_goals rfl
    | path => unfold lexPS lexPath consumeWhile consume; simp only; repeat' split
              all_goals rfl
  · cases st with
    | expr => exact absurd rfl hst
    | string => obtain ⟨hk, hv, -, hs⟩ := (sim_init s).lexString; exact ⟨hk.symm, hv.symm, hs.rem.symm⟩
    | indString => obtain ⟨hk, hv, -, hs⟩ := (sim_init s).lexIndString; exact ⟨hk.symm, hv.symm, hs.rem.symm⟩
    | path => obtain ⟨hk, hv, -, hs⟩ := (sim_init s).lexPath; exact ⟨hk.symm, hv.symm, hs.rem.symm⟩
  · cases st with
    | expr => exact absurd rfl hst
    | string => unfold lexPS lexString; simp only; repeat' split
                all_goals rfl
    | indString => unfold lexPS lexIndString; simp only; repeat' split
                   all_goals rfl
    | path => unfold lexPS lexPath; simp only; repeat' split
              all_goals rfl

theorem lexPS_right {st : PS} (hst : st ≠ .expr) (s : St) : (lexPS st s).1.range.r = (lexPS st s).2.cur := by
  cases st with
  | expr => exact absurd rfl hst
  | string => unfold lexPS lexString; simp only; repeat' split
              all_goals rfl
  | indString => unfold lexPS lexIndString; simp only; repeat' split
                 all_goals rfl
  | path => unfold lexPS lexPath; simp only; repeat' split
            all_goals rfl

/-- The parser is in a string or path (`st`), at the text `r`; a token has been read ahead, if there is a second one. -/
structure InS (st : PS) (s : PState) (r : Bytes) : Prop where
  top : s.states.head? = some st
  fit : Fit s
  at_ : (s.buf = [] ∧ s.lex.rem = r) ∨
    ∃ t, s.buf = [t] ∧ TokS st r t.kind t.view s.lex.rem ∧ s.lex.src.drop t.range.l.offset = r ∧ s.lex.src.drop t.range.r.offset = s.lex.rem

/-- The same after a token has been read ahead. -/
structure FrontS (st : PS) (s : PState) (r : Bytes) (t : Token) : Prop where
  top : s.states.head? = some st
  fit : Fit s
  buf : s.buf = [t]
  tok : TokS st r t.kind t.view s.lex.rem
  left : s.lex.src.drop t.range.l.offset = r
  right : s.lex.src.drop t.range.r.offset = s.lex.rem

theorem FrontS.inS {st : PS} {s : PState} {r : Bytes} {t : Token} (h : FrontS st s r t) : InS st s r :=
  ⟨h.top, h.fit, .inr ⟨t, h.buf, h.tok, h.left, h.right⟩⟩

theorem InS.same {st : PS} {s s' : PState} {r : Bytes} (h : InS st s r) (q : Same s s') : InS st s' r :=
  ⟨by rw [q.states]; exact h.top, q.fit h.fit, by rw [q.buf, q.rem, q.src]; exact h.at_⟩

theorem FrontS.same {st : PS} {s s' : PState} {r : Bytes} {t : Token} (h : FrontS st s r t) (q : Same s s') : FrontS st s' r t :=
  ⟨by rw [q.states]; exact h.top, q.fit h.fit, by rw [q.buf]; exact h.buf, by rw [q.rem]; exact h.tok, by rw [q.src]; exact h.left,
    by rw [q.src, q.rem]; exact h.right⟩

theorem InS.sync {st : PS} {s : PState} {r : Bytes} (h : InS st s r) (x : List TK) : InS st { s with sync := x } r :=
  ⟨h.top, h.fit, h.at_⟩

theorem peekS {st : PS} {s s' : PState} {r : Bytes} {t : Token} (hst : st ≠ .expr) (h : InS st s r) (e : peek 0 s = some (t, s')) :
    FrontS st s' r t ∧ s'.lex.diags = s.lex.diags := by
  unfold peek at e
  simp only [Option.some.injEq, Prod.mk.injEq] at e
  obtain ⟨e1, e2⟩ := e
  rcases h.at_ with ⟨hb, hr⟩ | ⟨t', hb, h1, h2, h3⟩
  · have e3 : s' = pullOne s := by rw [← e2, hb]; rfl
    have e4 : pullOne s = { s with lex := (lexPS st s.lex).2, buf := [(lexPS st s.lex).1] } := by
      unfold pullOne; rw [headD_of_head h.top, hb]; rfl
    obtain ⟨g1, g2, g3, g4, g5⟩ := lexS_tok hst s.lex h.fit
    rw [e4] at e3
    rw [e2, e3] at e1
    have e1 : (lexPS st s.lex).1 = t := e1
    subst e3
    rw [hr] at g4
    refine ⟨⟨h.top, ?_, by rw [← e1], by rw [← e1]; exact g4, ?_, ?_⟩, g1⟩
    · show (lexPS st s.lex).2.rem = (lexPS st s.lex).2.src.drop _
      rw [g2]; exact g3
    · show (lexPS st s.lex).2.src.drop _ = _
      rw [g2, ← e1, g5, ← h.fit, hr]
    · show (lexPS st s.lex).2.src.drop _ = _
      rw [g2, ← e1, lexPS_right hst]
      exact g3.symm
  · have e3 : s' = s := by rw [← e2, hb]; rfl
    rw [e2, e3, hb] at e1
    have e1 : t' = t := e1
    subst e3 e1
    exact ⟨⟨h.top, h.fit, hb, h1, h2, h3⟩, rfl⟩

theorem pconsumeS {st : PS} {s s' : PState} {r : Bytes} {t : Token} {u : Unit} (h : FrontS st s r t) (e : pconsume s = some (u, s')) :
    s'.states.head? = some st ∧ Fit s' ∧ s'.buf = [] ∧ TokS st r t.kind t.view s'.lex.rem ∧ s'.lex = s.lex ∧
      s'.eaten = t :: s.eaten := by
  unfold pconsume at e
  rw [h.buf] at e
  simp only [List.isEmpty_cons, Bool.false_eq_true, if_false, h.buf] at e
  cases e
  exact ⟨h.top, h.fit, rfl, h.tok, rfl, rfl⟩

/-! ### Strings -/

theorem consume_rem (n : Nat) (s : St) : (consume n s).rem = s.rem.drop n := by
  unfold consume
  split
  · rfl
  · rw [List.drop_eq_nil_of_le (by omega)]

/-- The rules of Spec/Strings.lean that the grammar is used with. -/
structure Sane (R : Rules) : Prop where
  esc : ∀ r, R.esc (36 :: r) = none
  quote : ∀ r, ¬ R.quote <+: 36 :: r
  dollar : ∀ r, R.dollar (36 :: r) ≤ (36 :: r).length
  pos : R.quote ≠ []

theorem sane_dq : Sane dqCode := by
  refine ⟨fun r => rfl, fun r h => by simp [dqCode] at h, fun r => ?_, by simp [dqCode]⟩
  show codeDollars _ ≤ _
  unfold codeDollars; split <;> simp_all

theorem sane_ind : Sane indCode := by
  refine ⟨fun r => ?_, fun r h => by simp [indCode] at h, fun r => ?_, by simp [indCode]⟩
  · exact codeIndEsc_none (c := 36) (r := r) (by simp)
  · show codeDollars _ ≤ _
    unfold codeDollars; split <;> simp_all

section
variable {R : Rules} (hR : Sane R)
include hR

theorem body_esc {r r' t : Bytes} {l : List Syn} {n : Nat} (h : R.esc r = some (n, t)) (hn : n ≤ r.length) :
    G (.body R) r l r' ↔ ∃ l', l = t.map .ch ++ l' ∧ G (.body R) (r.drop n) l' r' := by
  constructor
  · intro g
    cases g with
    | close _ h' => rw [h] at h'; cases h'
    | esc h' _ g => rw [h] at h'; cases h'; exact ⟨_, rfl, g⟩
    | char _ _ h' => rw [h] at h'; cases h'
    | dollar => rw [hR.esc] at h; cases h
    | interp => rw [hR.esc] at h; cases h
  · rintro ⟨l', rfl, g⟩
    exact .esc h hn g

omit hR in
theorem body_char {c : UInt8} {r r' : Bytes} {l : List Syn} (h1 : c ≠ 36) (h2 : ¬ R.quote <+: c :: r) (h3 : R.esc (c :: r) = none) :
    G (.body R) (c :: r) l r' ↔ ∃ l', l = .ch c :: l' ∧ G (.body R) r l' r' := by
  constructor
  · intro g
    cases g with
    | close h' => exact absurd h' h2
    | esc h' _ g => rw [h3] at h'; cases h'
    | char _ _ _ g => exact ⟨_, rfl, g⟩
    | dollar => exact absurd rfl h1
    | interp => exact absurd rfl h1
  · rintro ⟨l', rfl, g⟩
    exact .char h1 h2 h3 g

theorem body_dollar {r r' : Bytes} {l : List Syn} {n : Nat} (h : R.dollar (36 :: r) = n) (hn : n ≠ 0) :
    G (.body R) (36 :: r) l r' ↔ ∃ l', l = ((36 :: r).take n).map .ch ++ l' ∧ G (.body R) ((36 :: r).drop n) l' r' := by
  subst h
  constructor
  · intro g
    cases g with
    | close h' => exact absurd h' (hR.quote _)
    | esc h' _ g => rw [hR.esc] at h'; cases h'
    | char h' => exact absurd rfl h'
    | dollar _ g => exact ⟨_, rfl, g⟩
    | interp h' => exact absurd h' hn
  · rintro ⟨l', rfl, g⟩
    exact .dollar hn g

end

theorem body_stringPart {r r' : Bytes} {l : List Syn} :
    G (.body dqCode) r l r' ↔ ∃ l', l = (r.take (stringPart r)).map .ch ++ l' ∧ G (.body dqCode) (r.drop (stringPart r)) l' r' := by
  fun_induction stringPart r generalizing l with
  | case1 | case2 | case3 | case5 => simp
  | case4 c r h1 h2 h3 ih =>
    obtain ⟨q, hq⟩ := List.isPrefixOf_iff_prefix.mp h3
    simp only [List.cons_append, List.nil_append, List.cons.injEq] at hq
    obtain ⟨rfl, rfl⟩ := hq
    rw [body_dollar sane_dq (n := 3) rfl (by decide)]
    simp only [List.drop_succ_cons, List.drop_zero, List.take_succ_cons, List.take_zero, List.map_cons, List.map_nil,
      List.cons_append, List.nil_append, Nat.add_comm 3] at ih ⊢
    constructor
    · rintro ⟨l', rfl, g⟩
      obtain ⟨l2, rfl, g'⟩ := ih.mp g
      exact ⟨l2, rfl, g'⟩
    · rintro ⟨l2, rfl, g⟩
      exact ⟨_, rfl, ih.mpr ⟨l2, rfl, g⟩⟩
  | case6 c r h1 h2 h3 h4 ih =>
    simp only [Nat.add_comm 1, List.take_succ_cons, List.drop_succ_cons, List.map_cons, List.cons_append]
    have : G (.body dqCode) (c :: r) l r' ↔ ∃ l', l = .ch c :: l' ∧ G (.body dqCode) r l' r' := by
      by_cases hc : c = 36
      · subst hc
        have hd : dqCode.dollar (36 :: r) = 1 :=
          codeDollars_one (fun h => h3 (List.isPrefixOf_iff_prefix.mpr h)) (fun h => h4 (List.isPrefixOf_iff_prefix.mpr h))
        rw [body_dollar sane_dq hd (by decide)]
        simp
      · exact body_char hc (by intro hp; simp [dqCode] at hp; exact h2 hp.symm) (dqEsc_none h1)
    rw [this]
    constructor
    · rintro ⟨l', rfl, g⟩
      obtain ⟨l2, rfl, g'⟩ := ih.mp g
      exact ⟨l2, rfl, g'⟩
    · rintro ⟨l2, rfl, g⟩
      exact ⟨_, rfl, ih.mpr ⟨l2, rfl, g⟩⟩

theorem body_indStringPart {r r' : Bytes} {l : List Syn} :
    G (.body indCode) r l r' ↔ ∃ l', l = (r.take (indStringPart r)).map .ch ++ l' ∧ G (.body indCode) (r.drop (indStringPart r)) l' r' := by
  fun_induction indStringPart r generalizing l with
  | case1 | case2 | case4 => simp
  | case3 c r h1 h3 ih =>
    obtain ⟨q, hq⟩ := List.isPrefixOf_iff_prefix.mp h3
    simp only [List.cons_append, List.nil_append, List.cons.injEq] at hq
    obtain ⟨rfl, rfl⟩ := hq
    rw [body_dollar sane_ind (n := 3) rfl (by decide)]
    simp only [List.drop_succ_cons, List.drop_zero, List.take_succ_cons, List.take_zero, List.map_cons, List.map_nil,
      List.cons_append, List.nil_append, Nat.add_comm 3] at ih ⊢
    constructor
    · rintro ⟨l', rfl, g⟩
      obtain ⟨l2, rfl, g'⟩ := ih.mp g
      exact ⟨l2, rfl, g'⟩
    · rintro ⟨l2, rfl, g⟩
      exact ⟨_, rfl, ih.mpr ⟨l2, rfl, g⟩⟩
  | case5 c r h1 h3 h4 ih =>
    simp only [Nat.add_comm 1, List.take_succ_cons, List.drop_succ_cons, List.map_cons, List.cons_append]
    have : G (.body indCode) (c :: r) l r' ↔ ∃ l', l = .ch c :: l' ∧ G (.body indCode) r l' r' := by
      have hq : ¬ b!"''" <+: c :: r := fun h => h1 (List.isPrefixOf_iff_prefix.mpr h)
      by_cases hc : c = 36
      · subst hc
        have hd : indCode.dollar (36 :: r) = 1 :=
          codeDollars_one (fun h => h3 (List.isPrefixOf_iff_prefix.mpr h)) (fun h => h4 (List.isPrefixOf_iff_prefix.mpr h))
        rw [body_dollar sane_ind hd (by decide)]
        simp
      · exact body_char hc hq (codeIndEsc_none hq)
    rw [this]
    constructor
    · rintro ⟨l', rfl, g⟩
      obtain ⟨l2, rfl, g'⟩ := ih.mp g
      exact ⟨l2, rfl, g'⟩
    · rintro ⟨l2, rfl, g⟩
      exact ⟨_, rfl, ih.mpr ⟨l2, rfl, g⟩⟩

/-- Text of a string, without interpolations. -/
inductive Steps (R : Rules) : Bytes → Bytes → Bytes → Prop
  | nil (r) : Steps R r [] r
  | esc {r n t l r'} : R.esc r = some (n, t) → n ≤ r.length → Steps R (r.drop n) l r' → Steps R r (t ++ l) r'
  | char {c r l r'} : c ≠ 36 → ¬ R.quote <+: c :: r → R.esc (c :: r) = none → Steps R r l r' → Steps R (c :: r) (c :: l) r'
  | dollar {r l r'} : R.dollar (36 :: r) ≠ 0 → Steps R ((36 :: r).drop (R.dollar (36 :: r))) l r' →
      Steps R (36 :: r) ((36 :: r).take (R.dollar (36 :: r)) ++ l) r'

theorem steps_stringPart (r : Bytes) : Steps dqCode r (r.take (stringPart r)) (r.drop (stringPart r)) := by
  fun_induction stringPart r with
  | case1 | case2 | case3 | case5 => simpa using Steps.nil _
  | case4 c r h1 h2 h3 ih =>
    obtain ⟨q, hq⟩ := List.isPrefixOf_iff_prefix.mp h3
    simp only [List.cons_append, List.nil_append, List.cons.injEq] at hq
    obtain ⟨rfl, rfl⟩ := hq
    simp only [List.drop_succ_cons, List.drop_zero, List.take_succ_cons, Nat.add_comm 3] at ih ⊢
    exact Steps.dollar (R := dqCode) (r := 36 :: 123 :: q) (show (3 : Nat) ≠ 0 by decide) ih
  | case6 c r h1 h2 h3 h4 ih =>
    simp only [Nat.add_comm 1, List.take_succ_cons, List.drop_succ_cons]
    by_cases hc : c = 36
    · subst hc
      have hd : dqCode.dollar (36 :: r) = 1 :=
        codeDollars_one (fun h => h3 (List.isPrefixOf_iff_prefix.mpr h)) (fun h => h4 (List.isPrefixOf_iff_prefix.mpr h))
      have := Steps.dollar (R := dqCode) (r := r) (l := r.take (stringPart r)) (r' := r.drop (stringPart r)) (by rw [hd]; decide) (by rw [hd]; exact ih)
      rw [hd] at this; exact this
    · exact .char hc (by intro hp; simp [dqCode] at hp; exact h2 hp.symm) (dqEsc_none h1) ih

theorem steps_indStringPart (r : Bytes) : Steps indCode r (r.take (indStringPart r)) (r.drop (indStringPart r)) := by
  fun_induction indStringPart r with
  | case1 | case2 | case4 => simpa using Steps.nil _
  | case3 c r h1 h3 ih =>
    obtain ⟨q, hq⟩ := List.isPrefixOf_iff_prefix.mp h3
    simp only [List.cons_append, List.nil_append, List.cons.injEq] at hq
    obtain ⟨rfl, rfl⟩ := hq
    simp only [List.drop_succ_cons, List.drop_zero, List.take_succ_cons, Nat.add_comm 3] at ih ⊢
    exact Steps.dollar (R := indCode) (r := 36 :: 123 :: q) (show (3 : Nat) ≠ 0 by decide) ih
  | case5 c r h1 h3 h4 ih =>
    simp only [Nat.add_comm 1, List.take_succ_cons, List.drop_succ_cons]
    have hq : ¬ b!"''" <+: c :: r := fun h => h1 (List.isPrefixOf_iff_prefix.mpr h)
    by_cases hc : c = 36
    · subst hc
      have hd : indCode.dollar (36 :: r) = 1 :=
        codeDollars_one (fun h => h3 (List.isPrefixOf_iff_prefix.mpr h)) (fun h => h4 (List.isPrefixOf_iff_prefix.mpr h))
      have := Steps.dollar (R := indCode) (r := r) (l := r.take (indStringPart r)) (r' := r.drop (indStringPart r)) (by rw [hd]; decide) (by rw [hd]; exact ih)
      rw [hd] at this; exact this
    · exact .char hc hq (codeIndEsc_none hq) ih

/-- A piece of text is read as the characters `t`. -/
def Reads (R : Rules) (r t r' : Bytes) : Prop :=
  (∀ l e, G (.body R) r l e ↔ ∃ l', l = t.map .ch ++ l' ∧ G (.body R) r' l' e) ∧ Steps R r t r'

theorem reads_esc {R : Rules} (hR : Sane R) {r t : Bytes} {n : Nat} (h : R.esc r = some (n, t)) (hn : n ≤ r.length) : Reads R r t (r.drop n) :=
  ⟨fun _ _ => body_esc hR h hn, by have := Steps.esc h hn (.nil _); rwa [List.append_nil] at this⟩

/-- What a token of a string says about the grammar. -/
inductive ReadS (R : Rules) (close : TK) (r : Bytes) (k : TK) (v r' : Bytes) : Prop
  | eof (hk : k = .eof) (h : r = [])
  | close (hk : k = close) (h : r = R.quote ++ r') (h' : R.esc r = none)
  | interp (hk : k = .dollar_curly) (h : r = 36 :: 123 :: r') (h' : R.dollar r = 0)
  | esc (hk : k = .string_escape)
      (h : Reads R r (unescape v) r')
  | part (hk : k = .string_part) (h : Reads R r v r')

theorem readDq {r v r' : Bytes} {k : TK} (h : TokS .string r k v r') : ReadS dqCode .dquote r k v r' := by
  obtain ⟨h1, h2, h3⟩ := h
  change (lexString _).1.kind = _ at h1
  change (lexString _).1.view = _ at h2
  change (lexString _).2.rem = _ at h3
  unfold lexString at h1 h2 h3
  have hi : (St.init r).rem = r := rfl
  rw [hi] at h1 h2 h3
  cases r with
  | nil => simp only at h1; exact .eof h1.symm rfl
  | cons c t =>
    simp only at h1 h2 h3
    split at h1
    · rename_i hc; subst hc
      rw [if_pos rfl] at h3
      refine .close h1.symm ?_ rfl
      simp only [consume_rem, hi] at h3
      rw [← h3]; rfl
    · rename_i h34
      rw [if_neg h34] at h2 h3
      split at h1
      · rename_i h92; subst h92
        rw [if_pos rfl] at h2 h3
        refine .esc h1.symm ?_
        simp only [consume_rem, hi] at h3
        rw [clamp_view, hi] at h2
        rw [← h2, ← h3]
        cases t with
        | nil => exact reads_esc sane_dq (n := 1) (t := []) rfl (by simp)
        | cons c t =>
          refine reads_esc sane_dq (n := 2) ?_ (by simp)
          show some (2, [escaped c]) = _
          unfold unescape escaped
          simp only [List.take_succ_cons, List.take_zero]
          split
          · rfl
          · split
            · rfl
            · split <;> rfl
      · rename_i h92
        rw [if_neg h92] at h2 h3
        split at h1
        · rename_i hp
          rw [if_pos hp] at h3
          obtain ⟨rfl, hp⟩ := hp
          simp only [consume_rem, hi] at h3
          unfold peekPrefix at hp
          obtain ⟨q, hq⟩ := List.isPrefixOf_iff_prefix.mp hp
          rw [hi] at hq
          refine .interp h1.symm ?_ ?_
          · rw [← h3, ← hq]; rfl
          · rw [← hq]; rfl
        · rename_i hp
          rw [if_neg hp] at h2 h3
          simp only [consume_rem, hi] at h3
          rw [clamp_view, hi] at h2
          refine .part h1.symm ?_
          rw [← h2, ← h3]
          exact ⟨fun _ _ => body_stringPart, steps_stringPart _⟩

theorem readInd {r v r' : Bytes} {k : TK} (h : TokS .indString r k v r') : ReadS indCode .quote2 r k v r' := by
  obtain ⟨h1, h2, h3⟩ := h
  change (lexIndString _).1.kind = _ at h1
  change (lexIndString _).1.view = _ at h2
  change (lexIndString _).2.rem = _ at h3
  unfold lexIndString at h1 h2 h3
  have hi : (St.init r).rem = r := rfl
  rw [hi] at h1 h2 h3
  cases r with
  | nil => simp only at h1; exact .eof h1.symm rfl
  | cons c t =>
    simp only at h1 h2 h3
    split at h1
    · rename_i hp
      rw [if_pos hp] at h2 h3
      obtain ⟨q, hq⟩ := List.isPrefixOf_iff_prefix.mp (show b!"''".isPrefixOf (c :: t) = true from hp)
      have e1 : (consume 2 (St.init (c :: t))).rem = q := by rw [consume_rem, hi, ← hq]; rfl
      have hd : c :: t = 39 :: 39 :: q := by rw [← hq]; rfl
      unfold peekPrefix at h1 h2 h3
      rw [e1] at h1 h2 h3
      have a0 := peek_adv (p := b!"''") hp
      split at h1
      · rename_i h4
        rw [if_pos h4] at h2 h3
        refine .esc h1.symm ?_
        cases q with
        | nil => simp at h4
        | cons d q =>
          have a := a0.trans (consume_adv (n := 1) (s := consume 2 (St.init (c :: t))) (by rw [e1]; simp))
          rw [finishToken_view a, hi] at h2
          rw [consume_rem, e1] at h3
          rw [← h2, hd, ← h3]
          refine reads_esc sane_ind (n := 3) (t := unescape (List.take 3 (39 :: 39 :: d :: q))) ?_ (by simp)
          simp at h4
          rcases h4 with rfl | rfl <;> rfl
      · rename_i h4
        rw [if_neg h4] at h2 h3
        split at h1
        · rename_i h5
          rw [if_pos h5] at h2 h3
          refine .esc h1.symm ?_
          cases q with
          | nil => simp at h5
          | cons d q =>
            simp at h5
            subst h5
            have a := a0.trans (consume_adv (n := 1) (s := consume 2 (St.init (c :: t))) (by rw [e1]; simp))
            have e2 : (consume 1 (consume 2 (St.init (c :: t)))).rem = q := by rw [consume_rem, e1]; rfl
            rw [consume_rem, e2] at h3
            cases q with
            | nil =>
              have hv : (finishToken (St.init (c :: t)) .string_escape (consume 1 (consume 1 (consume 2 (St.init (c :: t)))))).view =
                  [39, 39, 92] := by
                have e3 : (consume 1 (consume 1 (consume 2 (St.init (c :: t))))).cur = (consume 1 (consume 2 (St.init (c :: t)))).cur := by
                  generalize consume 1 (consume 2 (St.init (c :: t))) = u at e2
                  unfold consume
                  rw [e2]; simp [moveCur]
                have e4 : (finishToken (St.init (c :: t)) .string_escape (consume 1 (consume 1 (consume 2 (St.init (c :: t)))))).view =
                    (finishToken (St.init (c :: t)) .string_escape (consume 1 (consume 2 (St.init (c :: t))))).view := by
                  simp only [finishToken, e3]
                rw [e4, finishToken_view a, hi, hd]; rfl
              rw [hv] at h2
              rw [← h2, hd, ← h3]
              exact reads_esc sane_ind (n := 3) (t := b!"'") rfl (by simp)
            | cons d q =>
              have a2 := a.trans (consume_adv (n := 1) (s := consume 1 (consume 2 (St.init (c :: t)))) (by rw [e2]; simp))
              rw [finishToken_view a2, hi, hd] at h2
              rw [← h2, hd, ← h3]
              exact reads_esc sane_ind (n := 4) (t := b!"'") rfl (by simp)
        · rename_i h5
          rw [if_neg h5] at h2 h3
          rw [e1] at h3
          subst h3
          refine .close h1.symm (by rw [hd]; rfl) ?_
          rw [hd]
          show codeIndEsc _ = none
          unfold codeIndEsc
          split <;> simp_all
    · rename_i hp1
      rw [if_neg hp1] at h2 h3
      split at h1
      · rename_i hp
        rw [if_pos hp] at h3
        simp only [consume_rem, hi] at h3
        unfold peekPrefix at hp
        obtain ⟨q, hq⟩ := List.isPrefixOf_iff_prefix.mp hp
        rw [hi] at hq
        refine .interp h1.symm ?_ ?_
        · rw [← h3, ← hq]; rfl
        · rw [← hq]; rfl
      · rename_i hp
        rw [if_neg hp] at h2 h3
        simp only [consume_rem, hi] at h3
        rw [clamp_view, hi] at h2
        refine .part h1.symm ?_
        rw [← h2, ← h3]
        exact ⟨fun _ _ => body_indStringPart, steps_indStringPart _⟩

end Verif.Nixf.Syntax
