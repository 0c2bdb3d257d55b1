import Verif.Model.Parser
import Verif.Props.Lexer
import Verif.Lemmas.Shape
import Verif.Lemmas.SemaAt
/-
The invariant of the parser: positions, the look-ahead buffer, the consumed tokens, and the ranges of nodes.
-/
namespace Verif.Nixf
open Lexical Verif.Props Tree Node

/-! ### Gaps -/

theorem Trivia.append {a b r : Bytes} (h : Trivia a (b ++ r)) (h' : Trivia b r) : Trivia (a ++ b) r := by
  generalize hx : b ++ r = x at h
  induction h with
  | nil => simpa using h'
  | space c t _ hc _ ih => exact .space c _ r hc (ih hx)
  | line body t _ hb _ ih =>
    have := Trivia.line body (t ++ b) r hb (ih hx)
    simpa using this
  | lineEof body hb =>
    obtain ⟨rfl, rfl⟩ := List.append_eq_nil_iff.mp hx
    simpa using Trivia.lineEof body hb
  | block body t _ hb _ ih =>
    have := Trivia.block body (t ++ b) r hb (ih hx)
    simpa using this
  | blockEof body hb =>
    obtain ⟨rfl, rfl⟩ := List.append_eq_nil_iff.mp hx
    simpa using Trivia.blockEof body hb

/-- Between the offsets `a` and `b` there is only white space and comments. -/
structure Gap (src : Bytes) (a b : Nat) : Prop where
  le : a ≤ b
  len : b ≤ src.length
  trivia : Trivia ((src.drop a).take (b - a)) (src.drop b)

theorem Gap.refl {src : Bytes} {a : Nat} (h : a ≤ src.length) : Gap src a a := ⟨Nat.le_refl _, h, by simp; exact .nil _⟩

theorem Gap.trans {src : Bytes} {a b c : Nat} (h : Gap src a b) (h' : Gap src b c) : Gap src a c := by
  have h1 := h.le
  have h2 := h'.le
  refine ⟨by omega, h'.len, ?_⟩
  have e1 : (src.drop a).take (c - a) = (src.drop a).take (b - a) ++ (src.drop b).take (c - b) := by
    rw [show c - a = (b - a) + (c - b) by omega, List.take_add, List.drop_drop]
    congr 4; omega
  have e2 : src.drop b = (src.drop b).take (c - b) ++ src.drop c := by
    conv => lhs; rw [← List.take_append_drop (c - b) (src.drop b), List.drop_drop]
    congr 2; omega
  rw [e1]
  refine Trivia.append ?_ h'.trivia
  rw [← e2]; exact h.trivia

/-! ### The invariant -/

/-- A token of the source: the cursors are correct, it is not empty (except `eof` and `path_end`), its text is that of its
range. -/
structure TokOk (src : Bytes) (t : Token) : Prop where
  atL : At src t.range.l
  atR : At src t.range.r
  le : t.range.l.offset ≤ t.range.r.offset
  lt : t.kind ≠ .eof → t.kind ≠ .path_end → t.range.l.offset < t.range.r.offset
  view : t.view = slice src t.range
  eof : t.kind = .eof → t.range.l.offset = src.length
  path : t.kind = .path_fragment → ∀ l : St, l.rem = src.drop t.range.l.offset → (lexPath l).1.kind = .path_fragment
  pend : t.kind = .path_end → ∀ l : St, l.rem = src.drop t.range.r.offset → (lexPath l).1.kind = .path_end
  shape : Shape t.kind t.view

/-- The tokens of the buffer follow each other from `lo` to `hi`, with only trivia in between. -/
def BufOk (src : Bytes) : Nat → List Token → Nat → Prop
  | lo, [], hi => Gap src lo hi
  | lo, t :: ts, hi =>
    Gap src lo t.range.l.offset ∧ TokOk src t ∧ (ts = [] → hi = t.range.r.offset) ∧ BufOk src t.range.r.offset ts hi

/-- Offset of the end of the last token. -/
def endOf : List Token → Nat
  | [] => 0
  | t :: _ => t.range.r.offset

/-- The tokens consumed so far (last first) follow each other from the start of the source, with only trivia in
between. -/
def Eaten (src : Bytes) : List Token → Prop
  | [] => True
  | t :: ts => TokOk src t ∧ Gap src (endOf ts) t.range.l.offset ∧ Eaten src ts

namespace PState

/-- The position: start of the next token if it has been looked at, otherwise of the unread text. -/
def pos (s : PState) : Nat :=
  match s.buf with
  | [] => s.lex.cur.offset
  | t :: _ => t.range.l.offset

/-- The end of the last token consumed. -/
def endOff (s : PState) : Nat := endOf s.eaten

/-- The parser is not inside a path. -/
def NP (s : PState) : Prop := s.states.headD .expr ≠ .path

end PState

/-- The invariant. -/
structure Inv (src : Bytes) (s : PState) : Prop where
  srcEq : s.lex.src = src
  lex : Sound s.lex
  buf : BufOk src s.endOff s.buf s.lex.cur.offset
  eaten : Eaten src s.eaten
  kinds : s.NP → ∀ t ∈ s.buf, t.kind ≠ .path_end
  solo : ∀ t ∈ s.buf.dropLast, t.kind ≠ .dquote ∧ t.kind ≠ .quote2

theorem BufOk.le {src : Bytes} {lo hi : Nat} {buf : List Token} (h : BufOk src lo buf hi) : lo ≤ hi ∧ hi ≤ src.length := by
  induction buf generalizing lo with
  | nil => exact ⟨Gap.le h, Gap.len h⟩
  | cons t ts ih =>
    obtain ⟨h1, h2, -, h3⟩ := h
    have := ih h3
    have := h1.le
    have := h2.le
    omega

theorem Inv.end_le {src : Bytes} {s : PState} (h : Inv src s) : s.endOff ≤ s.pos := by
  have := h.buf
  unfold PState.pos
  cases hb : s.buf with
  | nil => rw [hb] at this; exact Gap.le this
  | cons t ts => rw [hb] at this; exact this.1.le

theorem Inv.pos_le {src : Bytes} {s : PState} (h : Inv src s) : s.pos ≤ src.length := by
  have := h.buf
  unfold PState.pos
  cases hb : s.buf with
  | nil => rw [hb] at this; exact Gap.len this
  | cons t ts => rw [hb] at this; exact this.1.len

theorem Inv.gap {src : Bytes} {s : PState} (h : Inv src s) : Gap src s.endOff s.pos := by
  have := h.buf
  unfold PState.pos
  cases hb : s.buf with
  | nil => rw [hb] at this; exact this
  | cons t ts => rw [hb] at this; exact this.1

theorem eaten_mono {src : Bytes} {l l' : List Token} (h : l <:+ l') (he : Eaten src l') : endOf l ≤ endOf l' := by
  induction l' with
  | nil => rw [List.suffix_nil.mp h]
  | cons t ts ih =>
    rcases List.suffix_cons_iff.mp h with rfl | h
    · exact Nat.le_refl _
    · obtain ⟨h1, h2, h3⟩ := he
      have := ih h h3
      have := h2.le
      have := h1.le
      simp only [endOf] at *
      omega

/-- What every parser function does with the state. -/
structure Step (src : Bytes) (s s' : PState) : Prop where
  inv : Inv src s'
  states : s'.states = s.states
  sync : s'.sync = s.sync
  pos : s.pos ≤ s'.pos
  eaten : s.eaten <:+ s'.eaten
  diags : s.lex.diags <+: s'.lex.diags
  next : s.next ≤ s'.next

theorem Step.refl {src : Bytes} {s : PState} (h : Inv src s) : Step src s s :=
  ⟨h, rfl, rfl, Nat.le_refl _, List.suffix_rfl, List.prefix_rfl, Nat.le_refl _⟩

theorem Step.trans {src : Bytes} {s s' s'' : PState} (h : Step src s s') (h' : Step src s' s'') : Step src s s'' :=
  ⟨h'.inv, h'.states.trans h.states, h'.sync.trans h.sync, Nat.le_trans h.pos h'.pos, h.eaten.trans h'.eaten,
    h.diags.trans h'.diags, Nat.le_trans h.next h'.next⟩

theorem Step.endOff {src : Bytes} {s s' : PState} (h : Step src s s') : s.endOff ≤ s'.endOff :=
  eaten_mono h.eaten h.inv.eaten

theorem Step.np {src : Bytes} {s s' : PState} (h : Step src s s') (hn : s.NP) : s'.NP := by
  unfold PState.NP at *; rw [h.states]; exact hn

/-! ### Specifications -/

/-- `m`, started in `s`, ends with a result and a state satisfying `Q`, which can be reached from `s0`. -/
def SpecF {α : Type} (src : Bytes) (s0 : PState) (m : PM α) (s : PState) (Q : α → PState → Prop) : Prop :=
  ∃ a s', m s = some (a, s') ∧ Step src s0 s' ∧ Q a s'

/-- `m`, started in `s`, ends with a result and a state satisfying `Q`. -/
def Spec {α : Type} (src : Bytes) (m : PM α) (s : PState) (Q : α → PState → Prop) : Prop := SpecF src s m s Q

theorem PM.bind_def {α β : Type} (m : PM α) (f : α → PM β) (s : PState) :
    (m >>= f) s = match m s with | some (a, s') => f a s' | none => none := rfl

theorem PM.bind_eq {α β : Type} {m : PM α} {f : α → PM β} {s s' : PState} {a : α} (h : m s = some (a, s')) :
    (m >>= f) s = f a s' := by rw [PM.bind_def, h]

theorem Spec.bindF {α β : Type} {src : Bytes} {m : PM α} {f : α → PM β} {s : PState} {Q : α → PState → Prop}
    {Q' : β → PState → Prop} (h : Spec src m s Q)
    (h' : ∀ a s', Step src s s' → s.pos ≤ s'.pos ∧ s.endOff ≤ s'.endOff ∧ s'.endOff ≤ s'.pos ∧ s'.pos ≤ src.length →
      Q a s' → SpecF src s (f a) s' Q') : Spec src (m >>= f) s Q' := by
  obtain ⟨a, s', h1, h2, h3⟩ := h
  obtain ⟨b, s'', k1, k2, k3⟩ := h' a s' h2 ⟨h2.pos, h2.endOff, h2.inv.end_le, h2.inv.pos_le⟩ h3
  exact ⟨b, s'', by rw [PM.bind_eq h1]; exact k1, k2, k3⟩

theorem Spec.from {α : Type} {src : Bytes} {m : PM α} {s0 s : PState} {Q : α → PState → Prop} (h0 : Step src s0 s)
    (h : Spec src m s Q) : SpecF src s0 m s Q := by
  obtain ⟨a, s', h1, h2, h3⟩ := h
  exact ⟨a, s', h1, h0.trans h2, h3⟩

theorem Spec.bind {α β : Type} {src : Bytes} {m : PM α} {f : α → PM β} {s : PState} {Q : α → PState → Prop}
    {Q' : β → PState → Prop} (h : Spec src m s Q)
    (h' : ∀ a s', Step src s s' → s.pos ≤ s'.pos ∧ s.endOff ≤ s'.endOff ∧ s'.endOff ≤ s'.pos ∧ s'.pos ≤ src.length →
      Q a s' → Spec src (f a) s' Q') : Spec src (m >>= f) s Q' :=
  h.bindF fun a s' st nu q => (h' a s' st nu q).from st

theorem Spec.pure {α : Type} {src : Bytes} {s : PState} {a : α} {Q : α → PState → Prop} (hs : Inv src s) (h : Q a s) :
    Spec src (pure a : PM α) s Q := ⟨a, s, rfl, Step.refl hs, h⟩

theorem Spec.imp {α : Type} {src : Bytes} {m : PM α} {s : PState} {Q Q' : α → PState → Prop} (h : Spec src m s Q)
    (hq : ∀ a s', Step src s s' → s.pos ≤ s'.pos ∧ s.endOff ≤ s'.endOff ∧ s'.endOff ≤ s'.pos ∧ s'.pos ≤ src.length →
      Q a s' → Q' a s') : Spec src m s Q' := by
  obtain ⟨a, s', h1, h2, h3⟩ := h
  exact ⟨a, s', h1, h2, hq a s' h2 ⟨h2.pos, h2.endOff, h2.inv.end_le, h2.inv.pos_le⟩ h3⟩

/-! ### The lexer in a parser state -/

theorem lexPS_out (ps : PS) (s : St) : ∃ pre n, LexOut s (lexPS ps s).1 { (lexPS ps s).2 with oob := s.oob } pre n ∧
    ((lexPS ps s).1.kind = .eof → s.rem.drop pre = []) ∧
    ((lexPS ps s).1.kind ≠ .eof → (lexPS ps s).1.kind ≠ .path_end → 1 ≤ n) ∧
    (ps ≠ .path → (lexPS ps s).1.kind ≠ .path_end) ∧
    (ps = .path → (lexPS ps s).1.kind ≠ .eof) := by
  have fix : ∀ {t : Token} {s' : St} {pre n : Nat}, LexOut s t s' pre n → LexOut s t { s' with oob := s.oob } pre n := by
    intro t s' pre n h
    have : ({ s' with oob := s.oob } : St) = s' := by rw [← h.adv.oob]
    rw [this]; exact h
  cases ps with
  | expr =>
    obtain ⟨pre, n, h1, h2, h3, h4⟩ := lex_out s
    refine ⟨pre, n, fix h1, h3.mp, fun hk _ => ?_, fun _ => ?_, fun h => by cases h⟩
    · rcases Nat.eq_zero_or_pos n with h0 | h0
      · exact absurd (h3.mpr (h4.mp h0)) hk
      · exact h0
    · exact lex_not_path_end s
  | path =>
    obtain ⟨n, h1, h2, h3, h4⟩ := lexPath_out s
    refine ⟨0, n, fix h1, fun hk => absurd hk h4, fun _ hk => ?_, fun h => absurd rfl h, fun _ => h4⟩
    rcases Nat.eq_zero_or_pos n with h0 | h0
    · exact absurd (h2.mpr h0) hk
    · exact h0
  | string =>
    by_cases hs : s.rem = [92]
    · have e : lexPS .string s = (finishToken s .string_escape (consume 2 s), consume 2 s) := by
        simp [lexPS, lexString, hs]
      rw [e]
      refine ⟨0, 1, ⟨?_, ?_, ?_, rfl, trivia_zero s⟩, ?_, ?_, ?_, ?_⟩
      · refine ⟨by simp [hs], by simp [consume, hs], by simp [consume, hs], by simp [consume, hs], rfl, fun _ h => .inl ?_, ?_⟩
        · simpa [consume, hs] using h
        · simp [consume, hs]
      · simp [finishToken, consume, hs, moveCur_offset]
      · simp [finishToken, moveCur]
      all_goals simp [finishToken]
    · obtain ⟨n, h1, h2, h3⟩ := lexString_out s hs
      refine ⟨0, n, fix h1, h2.mp, fun hk _ => ?_, fun _ => ?_, fun h => by cases h⟩
      · rcases Nat.eq_zero_or_pos n with h0 | h0
        · exact absurd (h2.mpr (h3.mp h0)) hk
        · exact h0
      · simp only [lexPS, lexString]
        split
        · simp [finishToken]
        · split <;> try split <;> try split
          all_goals simp [finishToken]
  | indString =>
    by_cases hs : s.rem = b!"''\\"
    · have e : lexPS .indString s = (finishToken s .string_escape (consume 1 (consume 1 (consume 2 s))),
          consume 1 (consume 1 (consume 2 s))) := by
        simp [lexPS, lexIndString, hs, peekPrefix, consume]
      rw [e]
      refine ⟨0, 3, ⟨?_, ?_, ?_, rfl, trivia_zero s⟩, ?_, ?_, ?_, ?_⟩
      · refine ⟨by simp [hs], by simp [consume, hs], by simp [consume, hs], by simp [consume, hs, moveCur], rfl,
          fun _ h => .inl ?_, ?_⟩
        · simpa [consume, hs] using h
        · simp [consume, hs]
      · simp [finishToken, consume, hs, moveCur_offset]
      · simp [finishToken, moveCur]
      all_goals simp [finishToken]
    · obtain ⟨n, h1, h2, h3⟩ := lexIndString_out s hs
      refine ⟨0, n, fix h1, h2.mp, fun hk _ => ?_, fun _ => ?_, fun h => by cases h⟩
      · rcases Nat.eq_zero_or_pos n with h0 | h0
        · exact absurd (h2.mpr (h3.mp h0)) hk
        · exact h0
      · simp only [lexPS, lexIndString]
        split
        · simp [finishToken]
        · split <;> try split <;> try split
          all_goals simp [finishToken]

theorem lexPath_kind {s l : St} (h : l.rem = s.rem) : (lexPath l).1.kind = (lexPath s).1.kind := by
  have hp : ∀ p, peekPrefix p l = peekPrefix p s := fun p => by simp only [peekPrefix, h]
  unfold lexPath
  simp only [h, hp]
  cases s.rem with
  | nil => rfl
  | cons c r =>
    dsimp only
    split
    · rfl
    · split
      · rfl
      · split <;> rfl

/-- A path token of the expression lexer is the start of a path for the path lexer. -/
theorem lex_path_start {s l : St} (h : (lex s).1.kind = .path_fragment) (hl : l.rem = (consumeTrivia s).rem) :
    (lexPath l).1.kind = .path_fragment := by
  rw [lexPath_kind hl]
  unfold lex at h
  simp only at h
  generalize consumeTrivia s = s1 at *
  unfold lexPath
  split at h
  · cases h
  · rename_i c r hr
    split at h
    · rename_i s' hps
      simp only
      split at hps
      · rename_i hc
        have h36 : c ≠ 36 := by rintro rfl; exact absurd hc (by decide)
        have hd : peekPrefix b!"${" s1 = false := by
          simp only [peekPrefix, hr, List.isPrefixOf]
          have : (36 == c) = false := by simpa using Ne.symm h36
          simp [this]
        rw [if_neg (by simp [hd])]
        split
        · rfl
        · rename_i hq
          by_cases h126 : c = 126
          · subst h126
            exfalso
            have hc1 : (consume 1 s1).rem = r := by simp [consume, hr]
            simp only [consumePathStart, hr, List.head?_cons, if_true, hc1] at hps
            by_cases h47 : r.head? = some 47
            · cases r with
              | nil => simp at h47
              | cons d r' =>
                simp at h47; subst h47
                simp [peekPrefix, hr, List.isPrefixOf] at hq
            · rw [if_neg h47] at hps; cases hps
          · have : (isPathChar c || c == 47) = true := by
              simp only [Bool.or_eq_true, beq_iff_eq] at hc ⊢
              rcases hc with (h | h) | h
              · exact .inl h
              · exact .inr h
              · exact absurd h h126
            rw [if_pos this]; rfl
      · cases hps
    · exfalso
      split at h
      · cases h
      · split at h
        · unfold lexNumbers at h; simp only at h; split at h <;> cases h
        · split at h
          · simp only [finishToken, maybeKW] at h
            rw [lookup_reserved] at h
            revert h
            cases hl : reserved.lookup _ with
            | none => simp
            | some k =>
              simp only [Option.getD_some]
              rintro rfl
              have : ∀ p ∈ reserved, p.2 ≠ TK.path_fragment := by decide
              have aux : ∀ (l : List (Bytes × TK)) (x : Bytes) (k : TK), l.lookup x = some k → ∃ p ∈ l, p.2 = k := by
                intro l x k
                induction l with
                | nil => intro h; cases h
                | cons p l ih =>
                  intro h
                  obtain ⟨a, b⟩ := p
                  simp only [List.lookup_cons] at h
                  split at h
                  · cases h; exact ⟨(a, _), by simp, rfl⟩
                  · obtain ⟨q, hq, hk⟩ := ih h; exact ⟨q, by simp [hq], hk⟩
              obtain ⟨p, hp, hk⟩ := aux _ _ _ hl
              exact this p hp hk
          · split at h
            · cases h
            · simp only [finishToken, lexOp] at h
              split at h
              · rename_i p k hf
                have : ∀ q ∈ opTable, q.2 ≠ TK.path_fragment := by decide
                exact this _ (List.mem_of_find?_eq_some hf) h
              · cases h

theorem lexString_kind (s : St) : (lexString s).1.kind ≠ .path_fragment ∧ (lexString s).1.kind ≠ .path_end := by
  simp only [lexString]
  split
  · simp [finishToken]
  · split <;> try split <;> try split
    all_goals simp [finishToken]

theorem lexIndString_kind (s : St) : (lexIndString s).1.kind ≠ .path_fragment ∧ (lexIndString s).1.kind ≠ .path_end := by
  simp only [lexIndString]
  split
  · simp [finishToken]
  · split <;> try split <;> try split
    all_goals simp [finishToken]

theorem lex_range_l (s : St) : (lex s).1.range.l = (consumeTrivia s).cur := by
  unfold lex
  simp only
  split
  · rfl
  · split
    · rfl
    · split
      · rfl
      · split
        · rfl
        · split
          · rfl
          · split <;> rfl

/-- Outside expressions a token starts at the cursor. -/
theorem lexPS_left (ps : PS) (h : ps ≠ .expr) (s : St) : (lexPS ps s).1.range.l = s.cur := by
  cases ps with
  | expr => exact absurd rfl h
  | path =>
    simp only [lexPS, lexPath]
    split
    · rfl
    · split
      · rfl
      · split
        · rfl
        · split <;> rfl
  | string =>
    simp only [lexPS, lexString]
    split
    · rfl
    · split <;> try split <;> try split
      all_goals rfl
  | indString =>
    simp only [lexPS, lexIndString]
    split
    · rfl
    · split <;> try split <;> try split
      all_goals rfl

theorem BufOk.snoc {src : Bytes} {lo hi : Nat} {buf : List Token} {t : Token} (h : BufOk src lo buf hi)
    (hg : Gap src hi t.range.l.offset) (ht : TokOk src t) : BufOk src lo (buf ++ [t]) t.range.r.offset := by
  induction buf generalizing lo with
  | nil => exact ⟨Gap.trans h hg, ht, fun _ => rfl, Gap.refl ht.atR.1⟩
  | cons u us ih => exact ⟨h.1, h.2.1, by simp, ih h.2.2.2⟩

/-- One call of the lexer from a sound state. -/
theorem lexPS_tok {src : Bytes} {l : St} (ps : PS) (hsrc : l.src = src) (hl : Sound l) :
    Sound (lexPS ps l).2 ∧ (lexPS ps l).2.src = src ∧ TokOk src (lexPS ps l).1 ∧
      Gap src l.cur.offset (lexPS ps l).1.range.l.offset ∧ (lexPS ps l).2.cur = (lexPS ps l).1.range.r ∧
      l.diags <+: (lexPS ps l).2.diags ∧ (ps ≠ .path → (lexPS ps l).1.kind ≠ .path_end) ∧
      (ps = .path → (lexPS ps l).1.kind ≠ .eof) := by
  obtain ⟨pre, n, h1, h2, h3, h4, h5⟩ := lexPS_out ps l
  have hs := hl.adv h1.adv
  have hle := h1.adv.le
  have hrem := hl.rem
  have hlen : l.rem.length = src.length - l.cur.offset := by rw [hrem, List.length_drop, hsrc]
  obtain ⟨a1, a2⟩ := At_move hl.at_ hl.rem (n := pre) (by omega)
  have hcl : l.cur.offset ≤ src.length := hsrc ▸ hl.at_.1
  have hr : (lexPS ps l).1.range.r = (lexPS ps l).2.cur := h1.right
  have hro : (lexPS ps l).1.range.r.offset = l.cur.offset + (pre + n) := by
    rw [hr]; exact h1.adv.offset
  have hlo : (lexPS ps l).1.range.l.offset = l.cur.offset + pre := by rw [h1.left]; exact a2
  have hsrc' : (lexPS ps l).2.src = src := h1.adv.src.trans hsrc
  have dropEq : ∀ k, l.rem.drop k = src.drop (l.cur.offset + k) := by
    intro k; rw [hrem, List.drop_drop, hsrc]
  refine ⟨⟨hs.at_, hs.rem, hs.diags⟩, hsrc', ⟨?_, ?_, by omega, ?_, ?_, ?_, ?_, ?_, ?_⟩, ⟨by omega, by omega, ?_⟩, hr.symm,
    h1.adv.grow, h4, h5⟩
  · rw [h1.left, ← hsrc]; exact a1
  · rw [hr, ← hsrc']; exact hs.at_
  · intro k1 k2; have := h3 k1 k2; omega
  · rw [h1.view, slice, hro, hlo, dropEq]; congr 1; omega
  · intro k
    have := h2 k
    have e := congrArg List.length this
    simp only [List.length_drop, List.length_nil] at e
    omega
  · intro k x hx
    cases ps with
    | expr =>
      obtain ⟨m, t1, -, -⟩ := consumeTrivia_adv l
      refine lex_path_start k ?_
      have hs1 := (hl.adv t1).rem
      have e : (lexPS .expr l).1.range.l = (consumeTrivia l).cur := lex_range_l l
      rw [hx, hs1, ← e, t1.src, hsrc]
    | path =>
      have e := lexPS_left .path (by simp) l
      rw [e, ← hsrc, ← hl.rem] at hx
      exact (lexPath_kind hx).trans k
    | string => exact absurd k (lexString_kind l).1
    | indString => exact absurd k (lexIndString_kind l).1
  · intro k x hx
    by_cases hps : ps = .path
    · subst hps
      obtain ⟨n', j1, j2, -, -⟩ := lexPath_out l
      have hn' := j2.mp k
      subst hn'
      have e2 : (lexPath l).2.cur.offset = l.cur.offset := j1.adv.offset
      have e3 : (lexPS .path l).1.range.r.offset = l.cur.offset := by rw [hr]; exact e2
      rw [e3, ← hsrc, ← hl.rem] at hx
      exact (lexPath_kind hx).trans k
    · exact absurd k (h4 hps)
  · cases ps with
    | expr => exact lex_shape l
    | path => exact lexPath_shape l
    | string => exact lexString_shape l
    | indString => exact lexIndString_shape l
  · have := h1.trivia
    rw [dropEq] at this
    rw [hlo, show l.cur.offset + pre - l.cur.offset = pre by omega]
    have e : l.rem = src.drop l.cur.offset := by rw [hrem, hsrc]
    rw [← e]; exact this

theorem pos_snoc {s s' : PState} {t : Token} (hb : s'.buf = s.buf ++ [t]) (hl : s.lex.cur.offset ≤ t.range.l.offset) :
    s.pos ≤ s'.pos := by
  unfold PState.pos
  rw [hb]
  cases h : s.buf with
  | nil => simpa using hl
  | cons u us => simp

/-- Reading one more token, if no token of the buffer starts a string. -/
theorem pullOne_step {src : Bytes} {s : PState} (hs : Inv src s) (hq : ∀ t ∈ s.buf, t.kind ≠ .dquote ∧ t.kind ≠ .quote2) :
    Step src s (pullOne s) ∧ (pullOne s).eaten = s.eaten ∧ (pullOne s).bad = s.bad ∧ (pullOne s).next = s.next ∧
      (pullOne s).buf = s.buf ++ [(lexPS (s.states.headD .expr) s.lex).1] := by
  obtain ⟨h1, h2, h3, h4, h5, h6, h7, h8⟩ := lexPS_tok (s.states.headD .expr) hs.srcEq hs.lex
  refine ⟨⟨⟨h2, h1, ?_, hs.eaten, ?_, ?_⟩, rfl, rfl, ?_, List.suffix_rfl, h6, Nat.le_refl _⟩, rfl, rfl, rfl, rfl⟩
  · have := hs.buf.snoc h4 h3
    simp only [pullOne, PState.endOff] at *
    rw [h5]; exact this
  · intro hn t ht
    simp only [pullOne, List.mem_append, List.mem_singleton] at ht
    rcases ht with ht | rfl
    · exact hs.kinds hn t ht
    · exact h7 hn
  · simp only [pullOne, List.dropLast_concat]
    exact hq
  · exact pos_snoc rfl h4.le

/-- The next token is `t`. -/
structure Front (src : Bytes) (t : Token) (s : PState) : Prop where
  buf : ∃ ts, s.buf = t :: ts
  ok : TokOk src t

theorem Front.pos {src : Bytes} {t : Token} {s : PState} (h : Front src t s) : s.pos = t.range.l.offset := by
  obtain ⟨ts, h⟩ := h.buf
  unfold PState.pos; rw [h]

theorem Front.kind {src : Bytes} {t : Token} {s : PState} (h : Front src t s) (hs : Inv src s) (hn : s.NP) :
    t.kind ≠ .path_end := by
  obtain ⟨ts, h⟩ := h.buf
  exact hs.kinds hn t (by rw [h]; simp)

theorem Front.of_buf {src : Bytes} {t : Token} {ts : List Token} {s : PState} (hs : Inv src s) (h : s.buf = t :: ts) :
    Front src t s := by
  refine ⟨⟨ts, h⟩, ?_⟩
  have := hs.buf
  rw [h] at this
  exact this.2.1

theorem Front.same {src : Bytes} {t : Token} {s s' : PState} (h : Front src t s) (hb : s'.buf = s.buf) : Front src t s' :=
  ⟨hb ▸ h.buf, h.ok⟩

theorem Front.unique {src : Bytes} {t u : Token} {s : PState} (h : Front src t s) (h' : Front src u s) : t = u := by
  obtain ⟨ts, h⟩ := h.buf
  obtain ⟨us, h'⟩ := h'.buf
  rw [h] at h'; simp at h'; exact h'.1

/-- Same tokens, position and counter. -/
structure Same (s s' : PState) : Prop where
  buf : s'.buf = s.buf
  cur : s'.lex.cur = s.lex.cur
  eaten : s'.eaten = s.eaten

theorem Same.pos {s s' : PState} (h : Same s s') : s'.pos = s.pos := by simp only [PState.pos, h.buf, h.cur]
theorem Same.endOff {s s' : PState} (h : Same s s') : s'.endOff = s.endOff := by simp only [PState.endOff, h.eaten]
theorem Same.front {src : Bytes} {t : Token} {s s' : PState} (h : Same s s') (hf : Front src t s) : Front src t s' := hf.same h.buf
theorem Same.refl (s : PState) : Same s s := ⟨rfl, rfl, rfl⟩

/-- Looking at the next token. -/
theorem peek0_spec {src : Bytes} {s : PState} (hs : Inv src s) :
    Spec src (peek 0) s (fun t s' => Front src t s' ∧ s'.endOff = s.endOff ∧ s'.next = s.next ∧ s'.bad = s.bad ∧
      s'.eaten = s.eaten ∧ (∀ u, Front src u s → s' = s ∧ t = u) ∧
      (s.buf = [] → s'.buf = [t] ∧ t = (lexPS (s.states.headD .expr) s.lex).1)) := by
  cases hb : s.buf with
  | nil =>
    obtain ⟨h1, h2, h3, h4, h5⟩ := pullOne_step hs (by simp [hb])
    have e : peek 0 s = some ((lexPS (s.states.headD .expr) s.lex).1, pullOne s) := by
      simp [peek, hb, pull, pullOne]
    rw [hb, List.nil_append] at h5
    refine ⟨_, _, e, h1, Front.of_buf h1.inv h5, by simp only [PState.endOff, h2], h4, h3, h2, ?_, fun _ => ⟨h5, rfl⟩⟩
    intro u hu
    obtain ⟨us, hu⟩ := hu.buf
    rw [hb] at hu; cases hu
  | cons t ts =>
    have e : peek 0 s = some (t, s) := by simp [peek, hb, pull]
    have hf := Front.of_buf hs hb
    exact ⟨_, _, e, .refl hs, hf, rfl, rfl, rfl, rfl, fun u hu => ⟨rfl, hf.unique hu⟩, by simp⟩

/-- Looking at a token ahead, if those before are in the buffer and start no string. -/
theorem peekN_spec {src : Bytes} (n : Nat) {s : PState} (hs : Inv src s) (hlen : n ≤ s.buf.length)
    (hq : n < s.buf.length ∨ ∀ t ∈ s.buf, t.kind ≠ .dquote ∧ t.kind ≠ .quote2) :
    Spec src (peek n) s (fun t s' => s'.buf[n]? = some t ∧ n < s'.buf.length ∧ s'.endOff = s.endOff ∧ s'.eaten = s.eaten ∧
      s'.next = s.next ∧ (∀ i, i < n → s'.buf[i]? = s.buf[i]?) ∧ (n = s.buf.length → s'.buf.length = n + 1)) := by
  by_cases h : n < s.buf.length
  · have e : peek n s = some (s.buf[n], s) := by
      have : n + 1 - s.buf.length = 0 := by omega
      simp [peek, this, pull, h]
    exact ⟨_, _, e, .refl hs, List.getElem?_eq_getElem h, h, rfl, rfl, rfl, fun _ _ => rfl, fun h' => by omega⟩
  · have hn : n = s.buf.length := by omega
    have hq := hq.resolve_left h
    obtain ⟨h1, h2, h3, h4, h5⟩ := pullOne_step hs hq
    have e : peek n s = some ((lexPS (s.states.headD .expr) s.lex).1, pullOne s) := by
      have : n + 1 - s.buf.length = 1 := by omega
      simp only [peek, this, pull, h5]
      simp [hn]
    refine ⟨_, _, e, h1, ?_, ?_, by simp only [PState.endOff, h2], h2, h4, ?_, ?_⟩
    · rw [h5, hn]; simp
    · rw [h5]; simp [hn]
    · intro i hi; rw [h5, List.getElem?_append_left (by omega)]
    · intro _; rw [h5]; simp [hn]

/-- Consuming the next token. -/
theorem pconsume_spec {src : Bytes} {t : Token} {s : PState} (hs : Inv src s) (h : Front src t s) :
    Spec src pconsume s (fun _ s' => s'.eaten = t :: s.eaten ∧ s'.endOff = t.range.r.offset ∧ t.range.r.offset ≤ s'.pos ∧
      s'.next = s.next ∧ s'.bad = s.bad ∧ s'.lex = s.lex ∧ s.buf = t :: s'.buf ∧
      (s'.buf = [] → s'.lex.cur.offset = s'.endOff)) := by
  obtain ⟨ts, hb⟩ := h.buf
  have e : pconsume s = some ((), { s with buf := ts, eaten := t :: s.eaten }) := by
    simp [pconsume, hb]
  have hbuf := hs.buf
  rw [hb] at hbuf
  have hi : Inv src { s with buf := ts, eaten := t :: s.eaten } := by
    refine ⟨hs.srcEq, hs.lex, hbuf.2.2.2, ⟨h.ok, hbuf.1, hs.eaten⟩, fun hn u hu => hs.kinds hn u ?_, fun u hu => hs.solo u ?_⟩
    · rw [hb]; simp [hu]
    · rw [hb]
      cases ts with
      | nil => simp at hu
      | cons v vs => simp only [List.dropLast_cons_cons, List.mem_cons]; exact .inr hu
  have hle := hi.end_le
  have hend : ({ s with buf := ts, eaten := t :: s.eaten } : PState).endOff = t.range.r.offset := rfl
  rw [hend] at hle
  refine ⟨_, _, e, ⟨hi, rfl, rfl, ?_, List.suffix_cons _ _, List.prefix_rfl, Nat.le_refl _⟩, rfl, rfl, hle, rfl, rfl, rfl, hb, ?_⟩
  · rw [h.pos]; have := h.ok.le; omega
  · intro hts; exact hbuf.2.2.1 hts

theorem lastR_spec {src : Bytes} {s : PState} (hs : Inv src s) :
    Spec src lastR s (fun c s' => At src c ∧ c.offset = s.endOff ∧ Same s s' ∧ s'.next = s.next ∧ s'.lex = s.lex ∧
      (s.eaten ≠ [] → s'.bad = s.bad)) := by
  cases he : s.eaten with
  | nil =>
    have e : lastR s = some (default, { s with bad := true }) := by simp [lastR, he]
    exact ⟨_, _, e, ⟨⟨hs.srcEq, hs.lex, hs.buf, hs.eaten, hs.kinds, hs.solo⟩, rfl, rfl, Nat.le_refl _, List.suffix_rfl,
      List.prefix_rfl, Nat.le_refl _⟩, atZero src, by simp only [PState.endOff, he]; rfl, ⟨rfl, rfl, rfl⟩, rfl, rfl,
      fun h => absurd rfl h⟩
  | cons t ts =>
    have e : lastR s = some (t.range.r, s) := by simp [lastR, he]
    have := hs.eaten
    rw [he] at this
    exact ⟨_, _, e, .refl hs, this.1.atR, by simp only [PState.endOff, he]; rfl, .refl s, rfl, rfl, fun _ => rfl⟩

/-- State changes outside the lexer's position, the buffer and the consumed tokens. -/
theorem Inv.same {src : Bytes} {s s' : PState} (hs : Inv src s) (h1 : s'.lex.src = s.lex.src) (h2 : s'.lex.rem = s.lex.rem)
    (h : Same s s') (h6 : s'.states = s.states) (h7 : ∀ d ∈ s'.lex.diags, ∀ c ∈ diagCursors d, At src c) : Inv src s' := by
  refine ⟨h1.trans hs.srcEq, ⟨?_, ?_, ?_⟩, ?_, ?_, ?_, ?_⟩
  · rw [h1, h.cur]; exact hs.lex.at_
  · rw [h1, h2, h.cur]; exact hs.lex.rem
  · rw [h1, hs.srcEq]; exact h7
  · rw [PState.endOff, h.cur, h.buf, h.eaten]; exact hs.buf
  · rw [h.eaten]; exact hs.eaten
  · rw [PState.NP, h.buf, h6]; exact hs.kinds
  · rw [h.buf]; exact hs.solo

theorem Inv.diags {src : Bytes} {s : PState} (hs : Inv src s) : ∀ d ∈ s.lex.diags, ∀ c ∈ diagCursors d, At src c := by
  have := hs.lex.diags
  rw [hs.srcEq] at this
  exact this

/-- The diagnostic added last was added after `s0`. -/
def FreshD (s0 s : PState) : Prop := ∃ ds d, s.lex.diags = ds ++ [d] ∧ s0.lex.diags <+: ds

theorem FreshD.of {s0 s1 s : PState} (h : FreshD s1 s) (h0 : s0.lex.diags <+: s1.lex.diags) : FreshD s0 s := by
  obtain ⟨ds, d, e, h⟩ := h
  exact ⟨ds, d, e, h0.trans h⟩

theorem emitD_spec {src : Bytes} {s : PState} {d : Diagnostic} (hs : Inv src s) (hd : ∀ c ∈ diagCursors d, At src c) :
    Spec src (emitD d) s (fun _ s' => Same s s' ∧ s'.next = s.next ∧ s'.bad = s.bad ∧ FreshD s s') := by
  refine ⟨(), _, rfl, ⟨hs.same rfl rfl ⟨rfl, rfl, rfl⟩ rfl ?_, rfl, rfl, Nat.le_refl _, List.suffix_rfl,
    List.prefix_append _ _, Nat.le_refl _⟩, ⟨rfl, rfl, rfl⟩, rfl, rfl, ⟨_, _, rfl, List.prefix_rfl⟩⟩
  intro e he c hc
  simp only [St.emit, List.mem_append, List.mem_singleton] at he
  rcases he with he | rfl
  · exact hs.diags e he c hc
  · exact hd c hc

theorem fresh_spec {src : Bytes} {s : PState} {r : CRange} (hs : Inv src s) :
    Spec src (fresh r) s (fun h s' => h = ⟨s.next, r⟩ ∧ Same s s' ∧ s'.next = s.next + 1 ∧ s'.bad = s.bad) :=
  ⟨_, _, rfl, ⟨⟨hs.srcEq, hs.lex, hs.buf, hs.eaten, hs.kinds, hs.solo⟩, rfl, rfl, Nat.le_refl _, List.suffix_rfl,
    List.prefix_rfl, Nat.le_succ _⟩, rfl, ⟨rfl, rfl, rfl⟩, rfl, rfl⟩

theorem setBad_spec {src : Bytes} {s : PState} {f : PState → Bool} (hs : Inv src s) :
    Spec src (PM.modify fun s => { s with bad := f s }) s (fun _ s' => Same s s') :=
  ⟨_, _, rfl, ⟨⟨hs.srcEq, hs.lex, hs.buf, hs.eaten, hs.kinds, hs.solo⟩, rfl, rfl, Nat.le_refl _, List.suffix_rfl,
    List.prefix_rfl, Nat.le_refl _⟩, ⟨rfl, rfl, rfl⟩⟩

/-- Changing the diagnostic added last. -/
theorem modLast {src : Bytes} {s0 s : PState} (g : Diagnostic → Diagnostic) (hs : Step src s0 s) (hf : FreshD s0 s)
    (hg : ∀ d, (∀ c ∈ diagCursors d, At src c) → ∀ c ∈ diagCursors (g d), At src c) :
    let s' : PState := { s with lex := { s.lex with diags := s.lex.diags.dropLast ++ (s.lex.diags.getLast?.map g).toList } }
    Step src s0 s' ∧ Same s s' ∧ FreshD s0 s' := by
  obtain ⟨ds, d, e, h⟩ := hf
  have e2 : s.lex.diags.dropLast ++ (s.lex.diags.getLast?.map g).toList = ds ++ [g d] := by rw [e]; simp
  intro s'
  have hds : s'.lex.diags = ds ++ [g d] := e2
  refine ⟨⟨hs.inv.same rfl rfl ⟨rfl, rfl, rfl⟩ rfl ?_, hs.states, hs.sync, hs.pos, hs.eaten, ?_, hs.next⟩, ⟨rfl, rfl, rfl⟩,
    ⟨ds, g d, hds, h⟩⟩
  · rw [hds]
    intro x hx
    have hall := hs.inv.diags
    rw [e] at hall
    simp only [List.mem_append, List.mem_singleton] at hx
    rcases hx with hx | rfl
    · exact hall x (by simp [hx])
    · exact hg d (hall d (by simp))
  · rw [hds]; exact h.trans (List.prefix_append _ _)

theorem SpecF.note {α : Type} {src : Bytes} {s0 s : PState} {n : Note} {f : Unit → PM α} {Q : α → PState → Prop}
    (hs : Step src s0 s) (hf : FreshD s0 s) (hn : AtR src n.range)
    (h : ∀ s', Step src s0 s' → Same s s' → FreshD s0 s' → SpecF src s0 (f ()) s' Q) :
    SpecF src s0 (noteLast n >>= f) s Q := by
  obtain ⟨h1, h2, h3⟩ := modLast (fun d => { d with notes := d.notes ++ [n] }) hs hf (by
    intro d hd c hc
    simp only [diagCursors, List.mem_append, List.mem_cons, List.not_mem_nil, or_false, List.mem_flatMap] at hc hd
    rcases hc with (hc | ⟨m, hm, hc⟩) | hc
    · exact hd c (.inl (.inl hc))
    · rcases hm with hm | rfl
      · exact hd c (.inl (.inr ⟨m, hm, hc⟩))
      · rcases hc with rfl | rfl
        · exact hn.l
        · exact hn.r
    · exact hd c (.inr hc))
  obtain ⟨a, s', k⟩ := h _ h1 h2 h3
  exact ⟨a, s', k⟩

theorem SpecF.fix {α : Type} {src : Bytes} {s0 s : PState} {x : Fix} {f : Unit → PM α} {Q : α → PState → Prop}
    (hs : Step src s0 s) (hf : FreshD s0 s) (hn : ∀ e ∈ x.edits, AtR src e.oldRange)
    (h : ∀ s', Step src s0 s' → Same s s' → FreshD s0 s' → SpecF src s0 (f ()) s' Q) :
    SpecF src s0 (fixLast x >>= f) s Q := by
  obtain ⟨h1, h2, h3⟩ := modLast (fun d => { d with fixes := d.fixes ++ [x] }) hs hf (by
    intro d hd c hc
    simp only [diagCursors, List.mem_append, List.mem_cons, List.not_mem_nil, or_false, List.mem_flatMap] at hc hd
    rcases hc with hc | ⟨m, hm, hc⟩
    · exact hd c (.inl hc)
    · rcases hm with hm | rfl
      · exact hd c (.inr ⟨m, hm, hc⟩)
      · obtain ⟨e, he, hc⟩ := hc
        rcases hc with rfl | rfl
        · exact (hn e he).l
        · exact (hn e he).r)
  obtain ⟨a, s', k⟩ := h _ h1 h2 h3
  exact ⟨a, s', k⟩

/-- Running a semantic action. -/
theorem sema_spec {α : Type} {src : Bytes} {s : PState} {f : Bytes → SemaSt → α × SemaSt} {P : α → Prop} (hs : Inv src s)
    (hf : ∃ a t, f src ⟨s.next, s.lex.diags, s.bad⟩ = (a, t) ∧ SStep src ⟨s.next, s.lex.diags, s.bad⟩ t ∧ P a) :
    Spec src (sema f) s (fun a s' => P a ∧ Same s s' ∧ s.next ≤ s'.next ∧ s'.lex.src = s.lex.src) := by
  obtain ⟨a, t, h1, h2, h3⟩ := hf
  have e : sema f s = some (a, { s with lex := { s.lex with diags := t.diags }, next := t.next, bad := t.bad }) := by
    simp only [sema, hs.srcEq, h1]
  refine ⟨_, _, e, ⟨hs.same rfl rfl ⟨rfl, rfl, rfl⟩ rfl ?_, rfl, rfl, Nat.le_refl _, List.suffix_rfl, h2.grow, h2.next⟩, h3,
    ⟨rfl, rfl, rfl⟩, h2.next, rfl⟩
  intro d hd
  rcases h2.at_ d hd with h | h
  · exact hs.diags d h
  · exact h

/-! ### States and synchronisation -/

theorem resetBuf_inv {src : Bytes} {s : PState} (hs : Inv src s) :
    (resetBuf s).lex.src = src ∧ Sound (resetBuf s).lex ∧ Gap src s.endOff (resetBuf s).lex.cur.offset ∧
      (resetBuf s).buf = [] ∧ (resetBuf s).lex.cur.offset = s.pos ∧ (resetBuf s).eaten = s.eaten ∧
      (resetBuf s).states = s.states ∧ (resetBuf s).sync = s.sync ∧ (resetBuf s).next = s.next ∧
      (resetBuf s).bad = s.bad ∧ (resetBuf s).lex.diags = s.lex.diags ∧
      (s.buf = [] → resetBuf s = s) ∧ (∀ t, Front src t s → (resetBuf s).lex.cur = t.range.l) := by
  unfold resetBuf
  cases hb : s.buf with
  | nil =>
    have hbuf := hs.buf
    rw [hb] at hbuf
    refine ⟨hs.srcEq, hs.lex, hbuf, hb, ?_, rfl, rfl, rfl, rfl, rfl, rfl, fun _ => rfl, fun t ht => ?_⟩
    · simp only [PState.pos, hb]
    · obtain ⟨ts, h⟩ := ht.buf; rw [hb] at h; cases h
  | cons t ts =>
    have hbuf := hs.buf
    rw [hb] at hbuf
    refine ⟨hs.srcEq, ⟨?_, rfl, hs.lex.diags⟩, hbuf.1, rfl, ?_, rfl, rfl, rfl, rfl, rfl, rfl, fun h => by simp at h, fun u hu => ?_⟩
    · show At s.lex.src t.range.l
      rw [hs.srcEq]; exact hbuf.2.1.atL
    · simp only [PState.pos, hb]; rfl
    · obtain ⟨us, h⟩ := hu.buf; rw [hb] at h; simp at h; rw [← h.1]; rfl

theorem resetBuf_states {src : Bytes} {s : PState} (hs : Inv src s) (st : List PS) :
    Inv src { resetBuf s with states := st } := by
  obtain ⟨h1, h2, h3, h4, h5, h6, -⟩ := resetBuf_inv hs
  refine ⟨h1, h2, ?_, ?_, ?_, ?_⟩
  · show BufOk src (endOf (resetBuf s).eaten) (resetBuf s).buf (resetBuf s).lex.cur.offset
    rw [h4, h6]; exact h3
  · show Eaten src (resetBuf s).eaten
    rw [h6]; exact hs.eaten
  · intro _ t ht
    simp only [h4] at ht; cases ht
  · intro t ht
    simp only [h4] at ht; cases ht

theorem withState_spec {α : Type} {src : Bytes} {st : PS} {m : PM α} {s : PState} {Q : α → PState → Prop}
    {Q' : α → PState → Prop} (hs : Inv src s)
    (h : ∀ s1, Inv src s1 → s1.states = st :: s.states → s1.sync = s.sync → s1.buf = [] → s1.lex.cur.offset = s.pos →
      s1.eaten = s.eaten → s1.next = s.next → (∀ t, Front src t s → s1.lex.cur = t.range.l) →
      (s.buf = [] → s1.lex = s.lex) → Spec src m s1 Q)
    (hQ : ∀ a s1 s2, Q a s1 → s2.endOff = s1.endOff → s2.pos = s1.pos → s2.next = s1.next → s2.buf = [] → Q' a s2) :
    Spec src (withState st m) s Q' := by
  obtain ⟨h1, h2, h3, h4, h5, h6, h7, h8, h9, h10, h11, h12, h13⟩ := resetBuf_inv hs
  obtain ⟨a, s2, k1, k2, k3⟩ := h { resetBuf s with states := st :: (resetBuf s).states }
    (resetBuf_states hs (st :: (resetBuf s).states)) (by simp [h7]) h8 h4 h5 h6 h9 h13 (fun hb => by rw [h12 hb])
  obtain ⟨j1, j2, j3, j4, j5, j6, j7, j8, j9, j10, j11, -⟩ := resetBuf_inv k2.inv
  have hpos0 : ({ resetBuf s with states := st :: (resetBuf s).states } : PState).pos = s.pos := by
    simp only [PState.pos, h4]; exact h5
  have hpos2 : ({ resetBuf s2 with states := (resetBuf s2).states.tail } : PState).pos = s2.pos := by
    simp only [PState.pos, j4]; exact j5
  refine ⟨a, { resetBuf s2 with states := (resetBuf s2).states.tail }, ?_, ⟨resetBuf_states k2.inv _, ?_, ?_, ?_, ?_, ?_, ?_⟩,
    hQ a s2 _ k3 ?_ hpos2 j9 j4⟩
  · show (PM.modify _ >>= fun _ => m >>= fun a => PM.modify _ >>= fun _ => pure a) s = _
    rw [PM.bind_def]
    show (m >>= fun a => PM.modify _ >>= fun _ => pure a) { resetBuf s with states := st :: (resetBuf s).states } = _
    rw [PM.bind_eq k1]
    rfl
  · show (resetBuf s2).states.tail = s.states
    rw [j7, k2.states]
    show (resetBuf s).states = s.states
    exact h7
  · show (resetBuf s2).sync = s.sync
    rw [j8, k2.sync]; exact h8
  · rw [hpos2, ← hpos0]; exact k2.pos
  · show s.eaten <:+ (resetBuf s2).eaten
    rw [j6, ← h6]; exact k2.eaten
  · show s.lex.diags <+: (resetBuf s2).lex.diags
    rw [j11, ← h11]; exact k2.diags
  · show s.next ≤ (resetBuf s2).next
    rw [j9, ← h9]; exact k2.next
  · show endOf (resetBuf s2).eaten = endOf s2.eaten
    rw [j6]

theorem withSync_spec {α : Type} {src : Bytes} {k : TK} {m : PM α} {s : PState} {Q : α → PState → Prop}
    {Q' : α → PState → Prop} (hs : Inv src s)
    (h : ∀ s1, s1 = { s with sync := k :: s.sync } → Inv src s1 → Spec src m s1 Q)
    (hQ : ∀ a s1 s2, Q a s1 → Same s1 s2 → s2.lex = s1.lex → Q' a s2) :
    Spec src (withSync k m) s Q' := by
  have hi : ∀ {s : PState} (l : List TK), Inv src s → Inv src { s with sync := l } := fun l hs =>
    ⟨hs.srcEq, hs.lex, hs.buf, hs.eaten, hs.kinds, hs.solo⟩
  obtain ⟨a, s2, k1, k2, k3⟩ := h { s with sync := k :: s.sync } rfl (hi _ hs)
  refine ⟨a, { s2 with sync := s2.sync.erase k }, ?_, ⟨hi _ k2.inv, k2.states, ?_, k2.pos, k2.eaten, k2.diags, k2.next⟩,
    hQ a s2 _ k3 ⟨rfl, rfl, rfl⟩ rfl⟩
  · show (PM.modify _ >>= fun _ => m >>= fun a => PM.modify _ >>= fun _ => pure a) s = _
    rw [PM.bind_def]
    show (m >>= fun a => PM.modify _ >>= fun _ => pure a) { s with sync := k :: s.sync } = _
    rw [PM.bind_eq k1]
    rfl
  · show s2.sync.erase k = s.sync
    rw [k2.sync]; simp

end Verif.Nixf
