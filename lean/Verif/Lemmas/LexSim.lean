import Verif.Spec.Syntax
import Verif.Lemmas.ParserInv
/-
The lexer depends on the rest of the source only.
-/
namespace Verif.Nixf.Syntax
open Lexical Strings

/-- The diagnostics of the lexer. -/
def isLexError : DK → Bool
  | .unterminatedBComment | .floatNoExp | .floatLeadingZero => true
  | _ => false

theorem lexError_syntax {k : DK} (h : isLexError k = true) : isSyntaxError k = true := by
  cases k <;> first | rfl | cases h

/-- The lexer has read the same text, in a source and on its own; `D` are the diagnostics before. -/
structure Sim (d : Nat) (D : List Diagnostic) (s t : St) : Prop where
  rem : s.rem = t.rem
  off : s.cur.offset = d + t.cur.offset
  diags : ∃ a, s.diags = D ++ a ∧ a.length = t.diags.length ∧ ∀ x ∈ a, isLexError x.kind = true

/-- The same for functions that may fail. -/
def SimO (d : Nat) (D : List Diagnostic) : Option St → Option St → Prop
  | some s, some t => Sim d D s t
  | none, none => True
  | _, _ => False

/-- The same for tokens. -/
structure SimT (d : Nat) (D : List Diagnostic) (a b : Token × St) : Prop where
  kind : a.1.kind = b.1.kind
  view : a.1.view = b.1.view
  left : a.1.range.l.offset = d + b.1.range.l.offset
  st : Sim d D a.2 b.2

variable {d : Nat} {D : List Diagnostic} {s t : St}

theorem Sim.consume (h : Sim d D s t) (n : Nat) : Sim d D (consume n s) (consume n t) := by
  obtain ⟨h1, h2, h3⟩ := h
  unfold Nixf.consume
  rw [h1]
  split
  · exact ⟨rfl, by simp only [moveCur_offset]; omega, h3⟩
  · exact ⟨rfl, by simp only [moveCur_offset]; omega, h3⟩

theorem Sim.consumeWhile (h : Sim d D s t) (p : UInt8 → Bool) : Sim d D (consumeWhile p s) (consumeWhile p t) := by
  unfold Nixf.consumeWhile; rw [h.rem]; exact h.consume _

theorem Sim.emit (h : Sim d D s t) {x y : Diagnostic} (hx : isLexError x.kind = true) : Sim d D (s.emit x) (t.emit y) := by
  obtain ⟨h1, h2, a, h3, h4, h5⟩ := h
  refine ⟨h1, h2, a ++ [x], by simp [St.emit, h3], by simp [St.emit, h4], ?_⟩
  intro z hz
  simp only [List.mem_append, List.mem_singleton] at hz
  rcases hz with hz | rfl
  · exact h5 z hz
  · exact hx

theorem Sim.peekPrefix (h : Sim d D s t) (p : Bytes) : peekPrefix p s = peekPrefix p t := by
  unfold Nixf.peekPrefix; rw [h.rem]

theorem Sim.comments (h : Sim d D s t) : SimO d D (consumeComments s) (consumeComments t) := by
  unfold consumeComments
  rw [h.peekPrefix, h.peekPrefix]
  split
  · have h1 := h.consume 2
    simp only
    rw [h1.rem]
    split
    · exact h1.consume _
    · exact (h1.consume _).emit rfl
  · split
    · have h1 := h.consume 1
      simp only [h1.rem]
      exact h1.consume _
    · trivial

theorem Sim.trivia (h : Sim d D s t) : Sim d D (consumeTrivia s) (consumeTrivia t) := by
  fun_induction consumeTrivia s generalizing t with
  | case1 s hs =>
    rw [consumeTrivia.eq_def t]
    split
    · exact h
    · rename_i hc; rw [← h.rem, hs] at hc; cases hc
  | case2 s c r hs hc ih =>
    rw [consumeTrivia.eq_def t]
    split
    · rename_i hc; rw [← h.rem, hs] at hc; cases hc
    · rename_i c' r' hr
      rw [← h.rem, hs] at hr; cases hr
      rw [dif_pos hc]
      exact ih (h.consumeWhile _)
  | case3 s c r hs hc s' hcm ih =>
    rw [consumeTrivia.eq_def t]
    split
    · rename_i hc; rw [← h.rem, hs] at hc; cases hc
    · rename_i c' r' hr
      rw [← h.rem, hs] at hr; cases hr
      rw [dif_neg hc]
      have := h.comments
      rw [hcm] at this
      split
      · rename_i t' ht; rw [ht] at this; exact ih this
      · rename_i ht; rw [ht] at this; exact this.elim
  | case4 s c r hs hc hcm =>
    rw [consumeTrivia.eq_def t]
    split
    · rename_i hc; rw [← h.rem, hs] at hc; cases hc
    · rename_i c' r' hr
      rw [← h.rem, hs] at hr; cases hr
      rw [dif_neg hc]
      have := h.comments
      rw [hcm] at this
      split
      · rename_i t' ht; rw [ht] at this; exact this.elim
      · exact h

theorem Sim.expSign (h : Sim d D s t) : Sim d D (expSign s) (expSign t) := by
  unfold Nixf.expSign
  rw [h.rem]
  split
  · exact h
  · split
    · exact h.consume 1
    · exact h

theorem Sim.floatExp (h : Sim d D s t) : Sim d D (lexFloatExp s) (lexFloatExp t) := by
  unfold lexFloatExp
  rw [h.rem]
  split
  · exact h
  · split
    · have h1 := (h.consume 1).expSign
      simp only [h1.rem]
      split
      · exact (h1.consumeWhile _).emit rfl
      · exact h1.consumeWhile _
    · exact h

theorem Sim.numbers (h : Sim d D s t) : (lexNumbers s).1 = (lexNumbers t).1 ∧ Sim d D (lexNumbers s).2 (lexNumbers t).2 := by
  unfold lexNumbers
  have h1 := h.consumeWhile isDigit
  simp only [h1.rem, h.rem]
  split
  · refine ⟨rfl, ?_⟩
    have h2 := ((h1.consume 1).consumeWhile isDigit).floatExp
    split
    · exact h2.emit rfl
    · exact h2
  · exact ⟨rfl, h1⟩

theorem Sim.pathContinues (h : Sim d D s t) : pathContinues s = pathContinues t := by
  unfold Nixf.pathContinues; rw [h.rem, h.peekPrefix]

theorem Sim.pathStart (h : Sim d D s t) : SimO d D (consumePathStart s) (consumePathStart t) := by
  unfold consumePathStart
  have h1 := h.consume 1
  have h2 := h.consumeWhile isPathChar
  simp only [h1.rem, h2.rem, h.rem, (h1.consume 1).pathContinues, (h2.consume 1).pathContinues]
  split
  · split
    · split
      · exact h1.consume 1
      · trivial
    · trivial
  · split
    · split
      · exact h2.consume 1
      · trivial
    · trivial

theorem Sim.uri (h : Sim d D s t) : SimO d D (consumeURI s) (consumeURI t) := by
  unfold consumeURI
  have h1 := h.consumeWhile isUriSchemeChar
  simp only [h1.rem, (h1.consume 1).rem]
  split
  · split
    · exact (h1.consume 1).consumeWhile _
    · trivial
  · trivial

theorem Sim.spath (h : Sim d D s t) : SimO d D (consumeSPath s) (consumeSPath t) := by
  unfold consumeSPath
  have h1 : Sim d D (if s.rem.head? = some 60 then Nixf.consume 1 s else s) (if t.rem.head? = some 60 then Nixf.consume 1 t else t) := by
    rw [h.rem]; split
    · exact h.consume 1
    · exact h
  revert h1
  generalize (if s.rem.head? = some 60 then Nixf.consume 1 s else s) = s1
  generalize (if t.rem.head? = some 60 then Nixf.consume 1 t else t) = t1
  intro h1
  have h2 := h1.consumeWhile isPathChar
  simp only [h1.rem, h2.rem]
  split
  · have h3 := h2.consume (spathSegments (Nixf.consumeWhile isPathChar t1).rem)
    rw [h3.rem]
    split
    · exact h3.consume 1
    · trivial
  · trivial

theorem Sim.tok {s' t' : St} (h : Sim d D s t) (h' : Sim d D s' t') (k : TK) : SimT d D (finishToken s k s', s') (finishToken t k t', t') := by
  refine ⟨rfl, ?_, h.off, h'⟩
  simp only [finishToken, h.rem]
  congr 1
  have := h.off
  have := h'.off
  omega

theorem Sim.lex (h : Sim d D s t) : SimT d D (lex s) (lex t) := by
  unfold Nixf.lex
  have h := h.trivia
  simp only
  revert h
  generalize consumeTrivia s = s
  generalize consumeTrivia t = t
  intro h
  rw [h.rem]
  split
  · exact h.tok h _
  · rename_i c r hr
    have hp : SimO d D (if isPathChar c || c == 47 || c == 126 then consumePathStart s else none)
        (if isPathChar c || c == 47 || c == 126 then consumePathStart t else none) := by
      split
      · exact h.pathStart
      · trivial
    revert hp
    generalize (if isPathChar c || c == 47 || c == 126 then consumePathStart s else none) = o1
    generalize (if isPathChar c || c == 47 || c == 126 then consumePathStart t else none) = o2
    intro hp
    cases o1 <;> cases o2 <;> simp only [SimO] at hp
    · simp only
      have hp : SimO d D (if isAlpha c then consumeURI s else none) (if isAlpha c then consumeURI t else none) := by
        split
        · exact h.uri
        · trivial
      revert hp
      generalize (if isAlpha c then consumeURI s else none) = o1
      generalize (if isAlpha c then consumeURI t else none) = o2
      intro hp
      cases o1 <;> cases o2 <;> simp only [SimO] at hp
      · simp only
        split
        · obtain ⟨h1, h2⟩ := h.numbers
          rw [h1]
          exact h.tok h2 _
        · split
          · have h1 : Sim d D (lexIdentifier s) (lexIdentifier t) := (h.consume 1).consumeWhile _
            rw [(h.tok h1 .id_).view]
            exact h.tok h1 _
          · have hp : SimO d D (if c == 60 then consumeSPath s else none) (if c == 60 then consumeSPath t else none) := by
              split
              · exact h.spath
              · trivial
            revert hp
            generalize (if c == 60 then consumeSPath s else none) = o1
            generalize (if c == 60 then consumeSPath t else none) = o2
            intro hp
            cases o1 <;> cases o2 <;> simp only [SimO] at hp
            · simp only [hr]
              exact h.tok (h.consume _) _
            · exact h.tok hp _
      · exact h.tok hp _
    · exact h.tok hp _

theorem Sim.lexPath (h : Sim d D s t) : SimT d D (lexPath s) (lexPath t) := by
  unfold Nixf.lexPath
  simp only [h.rem, h.peekPrefix]
  split
  · exact h.tok h _
  · split
    · exact h.tok (h.consume 2) _
    · split
      · exact h.tok ((h.consume 2).consumeWhile _) _
      · split
        · exact h.tok (h.consumeWhile _) _
        · exact h.tok h _

theorem Sim.lexString (h : Sim d D s t) : SimT d D (lexString s) (lexString t) := by
  unfold Nixf.lexString
  simp only [h.rem, h.peekPrefix]
  split
  · exact h.tok h _
  · split
    · exact h.tok (h.consume _) _
    · split
      · exact h.tok (h.consume 2) _
      · split
        · exact h.tok (h.consume _) _
        · rename_i hr _ _ _
          exact h.tok (h.consume _) _

theorem Sim.lexIndString (h : Sim d D s t) : SimT d D (lexIndString s) (lexIndString t) := by
  unfold Nixf.lexIndString
  simp only [h.rem, h.peekPrefix, (h.consume 2).peekPrefix]
  split
  · exact h.tok h _
  · split
    · split
      · exact h.tok ((h.consume 2).consume 1) _
      · split
        · exact h.tok (((h.consume 2).consume 1).consume 1) _
        · exact h.tok (h.consume 2) _
    · split
      · exact h.tok (h.consume 2) _
      · exact h.tok (h.consume _) _

theorem sim_init (s : St) : Sim s.cur.offset s.diags s (.init s.rem) :=
  ⟨rfl, rfl, [], by simp, rfl, by simp⟩

/-! ### Tokens -/

theorem Tok.eq {r v v' a a' : Bytes} {k k' : TK} (h : Tok r k v a) (h' : Tok r k' v' a') : k = k' ∧ v = v' ∧ a = a' := by
  obtain ⟨t, s, h1, rfl, rfl, rfl, -⟩ := h
  obtain ⟨t', s', h1', rfl, rfl, rfl, -⟩ := h'
  rw [h1] at h1'; cases h1'
  exact ⟨rfl, rfl, rfl⟩

theorem TokP.eq {r v v' a a' : Bytes} {k k' : TK} (h : TokP r k v a) (h' : TokP r k' v' a') : k = k' ∧ v = v' ∧ a = a' := by
  obtain ⟨t, s, h1, rfl, rfl, rfl⟩ := h
  obtain ⟨t', s', h1', rfl, rfl, rfl⟩ := h'
  rw [h1] at h1'; cases h1'
  exact ⟨rfl, rfl, rfl⟩

/-- The lexer in a source. -/
theorem lex_tok (s : St) (h : s.rem = s.src.drop s.cur.offset) :
    ∃ a, (lex s).2.diags = s.diags ++ a ∧ (∀ x ∈ a, isSyntaxError x.kind = true) ∧ (lex s).2.src = s.src ∧
      (lex s).2.rem = s.src.drop (lex s).2.cur.offset ∧
      (a = [] → Tok s.rem (lex s).1.kind (lex s).1.view (lex s).2.rem ∧ s.src.drop (lex s).1.range.l.offset = skip s.rem) ∧
      (∀ k v r', Tok s.rem k v r' → a = []) := by
  obtain ⟨hk, hv, hl, hr, ho, a, ha, hlen, hs⟩ := (sim_init s).lex
  obtain ⟨pre, n, ho, -⟩ := lex_out s
  obtain ⟨pre', n', ho', -⟩ := lex_out (.init s.rem)
  obtain ⟨p, hp, -, hq⟩ := consumeTrivia_adv (.init s.rem)
  refine ⟨a, ha, fun x hx => lexError_syntax (hs x hx), ho.adv.src, ?_, ?_, ?_⟩
  · rw [ho.adv.rem, h, List.drop_drop, ho.adv.offset]
  · rintro rfl
    have h0 : (lex (.init s.rem)).2.diags = [] := by
      cases h : (lex (.init s.rem)).2.diags with
      | nil => rfl
      | cons => rw [h] at hlen; cases hlen
    refine ⟨⟨_, _, rfl, hk.symm, hv.symm, hr.symm, h0⟩, ?_⟩
    rw [hl, ← List.drop_drop, ← h]
    have : (lex (.init s.rem)).1.range.l = (consumeTrivia (.init s.rem)).cur := by
      unfold lex
      simp only
      repeat' split
      all_goals rfl
    rw [this, hp.offset, skip, hp.rem]
    simp [St.init]
  · rintro k v r' ⟨t, s', h1, -, -, -, h2⟩
    rw [h1] at hlen
    rw [h2] at hlen
    exact List.eq_nil_of_length_eq_zero hlen

/-- The lexer inside of a path. -/
theorem lexPath_tok (s : St) (h : s.rem = s.src.drop s.cur.offset) :
    (lexPath s).2.diags = s.diags ∧ (lexPath s).2.src = s.src ∧ (lexPath s).2.rem = s.src.drop (lexPath s).2.cur.offset ∧
      TokP s.rem (lexPath s).1.kind (lexPath s).1.view (lexPath s).2.rem ∧ (lexPath s).1.range.l = s.cur := by
  obtain ⟨hk, hv, hl, hr, ho, a, ha, hlen, hs⟩ := (sim_init s).lexPath
  obtain ⟨n, ho, -⟩ := lexPath_out s
  have hd : ∀ u : St, (lexPath u).2.diags = u.diags := by
    intro u; unfold lexPath consumeWhile consume; simp only
    repeat' split
    all_goals rfl
  refine ⟨hd s, ho.adv.src, ?_, ⟨_, _, rfl, hk.symm, hv.symm, hr.symm⟩, ?_⟩
  · rw [ho.adv.rem, h, List.drop_drop, ho.adv.offset]
  · rw [ho.left]; rfl

theorem skip_skip (r : Bytes) : skip (skip r) = skip r := by
  obtain ⟨p, hp, -, hn⟩ := consumeTrivia_adv (.init r)
  have : consumeTrivia (.init (skip r)) = .init (skip r) := consumeTrivia_id (by rw [skip, hp.rem]; first | exact hn | (rw [← hp.rem]; exact hn))
  unfold skip at this ⊢
  rw [this]; rfl

theorem lex_trivia (s : St) : lex (consumeTrivia s) = lex s := by
  obtain ⟨p, hp, -, hn⟩ := consumeTrivia_adv s
  unfold lex
  rw [consumeTrivia_id hn]

/-- White space and comments in front of a token do not matter. -/
theorem Tok.skip {r v r' : Bytes} {k : TK} (h : Tok r k v r') : Tok (skip r) k v r' := by
  obtain ⟨t, s, h1, h2, h3, h4, h5⟩ := h
  rw [← lex_trivia] at h1
  obtain ⟨hk, hv, hl, hr, ho, a, ha, hlen, hs⟩ := (sim_init (consumeTrivia (.init r))).lex
  rw [h1] at hk hv hr ha
  simp only [h5] at ha
  obtain ⟨-, rfl⟩ := List.append_eq_nil_iff.mp ha.symm
  exact ⟨_, _, rfl, by rw [← h2]; exact hk.symm, by rw [← h3]; exact hv.symm, by rw [← h4]; exact hr.symm,
    List.eq_nil_of_length_eq_zero hlen.symm⟩

/-- A token without errors is a token after white space and comments without errors. -/
theorem Tok.of_skip {r v r' : Bytes} {k : TK} (h : Tok (Syntax.skip r) k v r') (h0 : (consumeTrivia (.init r)).diags = []) :
    Tok r k v r' := by
  obtain ⟨t, s, h1, h2, h3, h4, h5⟩ := h
  obtain ⟨hk, hv, hl, hr, ho, a, ha, hlen, hs⟩ := (sim_init (consumeTrivia (.init r))).lex
  unfold Syntax.skip at h1
  rw [lex_trivia] at hk hv hr ha
  rw [h1] at hk hv hr hlen
  simp only [h5] at hlen
  have := List.eq_nil_of_length_eq_zero hlen
  subst this
  refine ⟨(lex (.init r)).1, (lex (.init r)).2, rfl, by rw [← h2]; exact hk, by rw [← h3]; exact hv, by rw [← h4]; exact hr, by rw [ha, h0]; rfl⟩

theorem Tok.clean {r v r' : Bytes} {k : TK} (h : Tok r k v r') : (consumeTrivia (.init r)).diags = [] := by
  obtain ⟨t, s, h1, h2, h3, h4, h5⟩ := h
  rw [← lex_trivia] at h1
  obtain ⟨hk, hv, hl, hr, ho, a, ha, hlen, hs⟩ := (sim_init (consumeTrivia (.init r))).lex
  rw [h1] at ha
  simp only [h5] at ha
  exact (List.append_eq_nil_iff.mp ha.symm).1

end Verif.Nixf.Syntax
