import Verif.Lemmas.LexSim
import Verif.Lemmas.SynStr
import Verif.Props.Strings
/-
Texts that are tokens: for showing that a generated text is an expression of the grammar.
-/
namespace Verif.Nixf.Syntax
open Lexical Strings Props

theorem consumeWhile_rem (p : UInt8 → Bool) (s : St) : (consumeWhile p s).rem = s.rem.dropWhile p := by
  unfold consumeWhile consume
  have h : (s.rem.takeWhile p).length ≤ s.rem.length := (List.takeWhile_prefix p).length_le
  rw [if_pos h]
  simp only
  have e := congrArg (List.drop (s.rem.takeWhile p).length) (List.takeWhile_append_dropWhile (p := p) (l := s.rem))
  rw [List.drop_left] at e
  exact e.symm

theorem consumeWhile_diags (p : UInt8 → Bool) (s : St) : (consumeWhile p s).diags = s.diags := by
  unfold consumeWhile consume; split <;> rfl

theorem consumeWhile_off (p : UInt8 → Bool) (s : St) :
    (consumeWhile p s).cur.offset = s.cur.offset + (s.rem.takeWhile p).length := by
  unfold consumeWhile consume
  have h : (s.rem.takeWhile p).length ≤ s.rem.length := (List.takeWhile_prefix p).length_le
  rw [if_pos h]
  simp only [moveCur_offset, List.length_take]
  omega

theorem trivia_white (s : St) : consumeTrivia (consumeWhile isSpace s) = consumeTrivia s := by
  cases hs : s.rem with
  | nil =>
    have : consumeWhile isSpace s = s := by
      obtain ⟨a, b, c, d, e⟩ := s
      cases hs
      unfold consumeWhile consume; simp [moveCur]
    rw [this]
  | cons c r =>
    by_cases hc : isSpace c
    · conv => rhs; unfold consumeTrivia
      split
      · rename_i h; rw [hs] at h; cases h
      · rename_i c' r' h
        rw [hs] at h; cases h
        rw [dif_pos hc]
    · have : consumeWhile isSpace s = s := by
        obtain ⟨a, b, c, d, e⟩ := s
        cases hs
        unfold consumeWhile consume; simp [moveCur, hc]
      rw [this]

theorem lex_white (s : St) : lex (consumeWhile isSpace s) = lex s := by
  unfold lex; rw [trivia_white]

theorem tok_intro {r v r' : Bytes} {k : TK} (h1 : (lex (.init r)).1.kind = k) (h2 : (lex (.init r)).1.view = v)
    (h3 : (lex (.init r)).2.rem = r') (h4 : (lex (.init r)).2.diags = []) : Tok r k v r' :=
  ⟨(lex (.init r)).1, (lex (.init r)).2, rfl, h1, h2, h3, h4⟩

/-- White space in front of a token. -/
theorem Tok.ws {g r v r' : Bytes} {k : TK} (hg : ∀ c ∈ g, isSpace c = true) (h : Tok r k v r') : Tok (g ++ r) k v r' := by
  obtain ⟨t, s, h1, h2, h3, h4, h5⟩ := h
  have hw : (g ++ r).takeWhile isSpace = g ++ r.takeWhile isSpace := List.takeWhile_append_of_pos hg
  have sim : Sim g.length [] (consumeWhile isSpace (.init (g ++ r))) (consumeWhile isSpace (.init r)) := by
    refine ⟨?_, ?_, [], ?_, ?_, by simp⟩
    · simp only [consumeWhile_rem, St.init]; rw [List.dropWhile_append_of_pos hg]
    · simp only [consumeWhile_off, St.init, hw, List.length_append]; omega
    · simp [consumeWhile_diags, St.init]
    · simp [consumeWhile_diags, St.init]
  obtain ⟨hk, hv, -, hr, -, a, ha, hl, -⟩ := sim.lex
  rw [lex_white, lex_white, h1] at hk hv hr
  rw [lex_white] at ha
  rw [lex_white, h1] at hl
  refine tok_intro (hk.trans h2) (hv.trans h3) (hr.trans h4) ?_
  rw [ha, List.eq_nil_of_length_eq_zero (hl.trans (by rw [h5]; rfl))]; rfl

theorem Tok.sp {r v r' : Bytes} {k : TK} (h : Tok r k v r') : Tok (32 :: r) k v r' := h.ws (g := [32]) (by decide)

/-- The lexer has nothing to say about a token that is not a number. -/
theorem lex_diags (s : St) (h : (lex s).1.kind ≠ .float) : (lex s).2.diags = (consumeTrivia s).diags := by
  revert h
  unfold lex
  generalize consumeTrivia s = s
  simp only
  split
  · intro _; rfl
  · rename_i c r hc
    split
    · rename_i s' h; intro _
      split at h
      · revert h
        unfold consumePathStart consumeWhile consume; simp only
        repeat' split
        all_goals (intro h; cases h; try rfl)
      · cases h
    · split
      · rename_i s' h; intro _
        split at h
        · revert h
          unfold consumeURI consumeWhile consume; simp only
          repeat' split
          all_goals (intro h; cases h; try rfl)
        · cases h
      · split
        · intro h
          change (lexNumbers s).2.diags = _
          change (lexNumbers s).1 ≠ _ at h
          revert h
          unfold lexNumbers
          simp only
          split
          · intro h; exact absurd rfl h
          · intro _; exact consumeWhile_diags _ _
        · split
          · intro _
            unfold lexIdentifier
            rw [consumeWhile_diags]; unfold consume; split <;> rfl
          · split
            · rename_i s' h; intro _
              split at h
              · revert h
                unfold consumeSPath consumeWhile consume; simp only
                repeat' split
                all_goals (intro h; cases h; try rfl)
              · cases h
            · intro _
              change (consume _ s).diags = _
              unfold consume; split <;> rfl

theorem tok_of_lex {r v r' : Bytes} {k : TK} (hn : NoTrivia r) (hk : k ≠ .float)
    (h : (lex (.init r)).1.kind = k ∧ (lex (.init r)).1.view = v ∧ (lex (.init r)).2.rem = r') : Tok r k v r' := by
  refine tok_intro h.1 h.2.1 h.2.2 ?_
  rw [lex_diags _ (by rw [h.1]; exact hk), consumeTrivia_id hn]; rfl

theorem lookup_mem {l : List (Bytes × TK)} {w : Bytes} {k : TK} (h : l.lookup w = some k) : ∃ p ∈ l, p.1 = w ∧ p.2 = k := by
  induction l with
  | nil => cases h
  | cons q l ih =>
    rw [List.lookup_cons] at h
    split at h
    · rename_i he; cases h; exact ⟨q, by simp, (by simpa using he : w = q.1).symm, rfl⟩
    · obtain ⟨p, hp, h'⟩ := ih h; exact ⟨p, by simp [hp], h'⟩

/-- The text does not continue a word, a number, a path or a URI. -/
def Fresh (r : Bytes) : Prop := NotStarting (identChars ++ b!"+./:") r

theorem fresh_nil : Fresh [] := fun x hx => by cases hx
theorem fresh_cons {c : UInt8} {r : Bytes} (h : c ∉ identChars ++ b!"+./:") : Fresh (c :: r) := by
  intro x hx; simp at hx; exact hx ▸ h

/-- A slash cannot be reached over these characters. -/
theorem no_path {k rest : Bytes} (hk : ∀ x ∈ k, x ≠ 47 ∧ x ≠ 126) (hr : NotStarting (47 :: 126 :: pathChars) rest) : ¬ PathHere (k ++ rest) := by
  rintro ⟨v, t, e, hv, -⟩
  have key : ∀ (k v : Bytes), (∀ x ∈ k, x ≠ 47 ∧ x ≠ 126) → k ++ rest = v ++ 47 :: t → (v = [126] ∨ ∀ c ∈ v, c ∈ pathChars) → False := by
    intro k
    induction k with
    | nil =>
      intro v _ e hv
      simp only [List.nil_append] at e
      cases v with
      | nil => exact hr 47 (by rw [e]; rfl) (by simp)
      | cons y v =>
        refine hr y (by rw [e]; rfl) ?_
        rcases hv with h | h
        · cases h; simp
        · simp [h y (by simp)]
    | cons x k ih =>
      intro v hk e hv
      cases v with
      | nil => simp at e; exact (hk x (by simp)).1 e.1
      | cons y v =>
        simp only [List.cons_append, List.cons.injEq] at e
        rcases hv with h | h
        · cases h; exact (hk x (by simp)).2 e.1
        · exact ih v (fun x hx => hk x (by simp [hx])) e.2 (.inr fun c hc => h c (by simp [hc]))
  exact key k v hk e hv

theorem fresh_path {rest : Bytes} (h : Fresh rest) (h' : rest.head? ≠ some 126) : NotStarting (47 :: 126 :: pathChars) rest := by
  intro x hx hm
  have : ∀ x : UInt8, x ∈ 47 :: 126 :: pathChars → x = 126 ∨ x ∈ identChars ++ b!"+./:" := by
    apply forall_byte; decide +kernel
  rcases this x hm with rfl | h2
  · exact h' hx
  · exact h x hx h2

/-- A colon cannot be reached over these characters. -/
theorem no_uri {k rest : Bytes} (hk : ∀ x ∈ k, x ≠ 58) (hr : NotStarting (58 :: letters ++ schemeChars) rest) : ¬ UriHere (k ++ rest) := by
  rintro ⟨c, w, d, t, e, hc, hw, -⟩
  have key : ∀ (k v : Bytes), (∀ x ∈ k, x ≠ 58) → k ++ rest = v ++ 58 :: d :: t → (∀ c ∈ v, c ∈ letters ++ schemeChars) → False := by
    intro k
    induction k with
    | nil =>
      intro v _ e hv
      simp only [List.nil_append] at e
      cases v with
      | nil => exact hr 58 (by rw [e]; rfl) (by simp)
      | cons y v => exact hr y (by rw [e]; rfl) (List.mem_cons_of_mem _ (hv y (by simp)))
    | cons x k ih =>
      intro v hk e hv
      cases v with
      | nil => simp at e; exact hk x (by simp) e.1
      | cons y v =>
        simp only [List.cons_append, List.cons.injEq] at e
        exact ih v (fun x hx => hk x (by simp [hx])) e.2 (fun c hc => hv c (by simp [hc]))
  refine key k (c :: w) hk (by simpa using e) fun x hx => ?_
  rcases List.mem_cons.mp hx with rfl | hx
  · simp [hc]
  · simp [hw x hx]

/-- A word. -/
theorem tok_word {c : UInt8} {w rest : Bytes} (hc : c ∈ letters ∨ c = 95) (hw : ∀ x ∈ w, x ∈ identChars) (hr : Fresh rest)
    (h' : rest.head? ≠ some 126) : Tok (c :: w ++ rest) (wordKind (c :: w)) (c :: w) rest := by
  obtain ⟨f1, f2, f3, -⟩ := identStart_facts c hc
  have hn : NoTrivia (c :: w ++ rest) := noTrivia_of_head f1 f2 f3
  have sep : ∀ x : UInt8, (x ∈ letters ∨ x = 95) ∨ x ∈ identChars → x ≠ 47 ∧ x ≠ 126 ∧ x ≠ 58 := by
    apply forall_byte; decide +kernel
  have hs : ∀ x ∈ c :: w, x ≠ 47 ∧ x ≠ 126 ∧ x ≠ 58 := by
    intro x hx
    rcases List.mem_cons.mp hx with rfl | hx
    · exact sep _ (.inl hc)
    · exact sep _ (.inr (hw x hx))
  refine tok_of_lex hn ?_ (C15_word _ [] c w rest rfl (.nil _) hc hw (fun x hx hm => hr x hx (by simp [hm])) ?_ ?_)
  · unfold wordKind
    cases hl : reserved.lookup (c :: w) with
    | none => decide
    | some k =>
      obtain ⟨p, hp, hpe, rfl⟩ := lookup_mem hl
      have : ∀ p ∈ reserved, p.2 ≠ .float := by decide
      exact this p hp
  · exact no_path (fun x hx => ⟨(hs x hx).1, (hs x hx).2.1⟩) (fresh_path hr h')
  · refine no_uri (fun x hx => (hs x hx).2.2) fun x hx hm => ?_
    have : ∀ x : UInt8, x ∈ 58 :: letters ++ schemeChars → x ∈ identChars ++ b!"+./:" := by apply forall_byte; decide +kernel
    exact hr x hx (this x hm)

/-- A name. -/
theorem tok_name {w rest : Bytes} (hw : quoteNixAttrKey w = w) (hr : Fresh rest) (h' : rest.head? ≠ some 126) :
    Tok (w ++ rest) .id_ w rest := by
  obtain ⟨⟨c, w', rfl, hc, h1⟩, h2, -⟩ := (C35_unquoted_iff w).mp hw
  have := tok_word hc h1 hr h'
  have hk : wordKind (c :: w') = .id_ := by
    unfold wordKind
    cases hl : reserved.lookup (c :: w') with
    | none => rfl
    | some k =>
      obtain ⟨p, hp, hpe, -⟩ := lookup_mem hl
      exact absurd hpe.symm (h2 p hp)
  rwa [hk] at this

theorem digit_sep : ∀ x : UInt8, x ∈ digits → x ≠ 47 ∧ x ≠ 126 := by apply forall_byte; decide +kernel

/-- Digits. -/
theorem tok_int {d : UInt8} {ds rest : Bytes} (hd : ∀ x ∈ d :: ds, x ∈ digits) (hr : Fresh rest) (h' : rest.head? ≠ some 126) :
    Tok (d :: ds ++ rest) .int (d :: ds) rest := by
  obtain ⟨f1, f2, f3, f4, f5⟩ := digit_facts d (hd d (by simp))
  have hn : NoTrivia (d :: ds ++ rest) := noTrivia_of_head f1 f2 f3
  refine tok_of_lex hn (by decide) (C15_int _ [] _ _ rest rfl (.nil _) hd ?_ ?_)
  · intro x hx hm
    have : ∀ x : UInt8, x ∈ 46 :: digits → x ∈ identChars ++ b!"+./:" := by apply forall_byte; decide +kernel
    exact hr x hx (this x hm)
  · exact no_path (fun x hx => digit_sep x (hd x hx)) (fresh_path hr h')

theorem float_sep {d : UInt8} {ds fs e : Bytes} (hd : ∀ x ∈ d :: ds, x ∈ digits) (hf : ∀ x ∈ fs, x ∈ digits)
    (he : e = [] ∨ IsExponent e) : ∀ x ∈ d :: ds ++ 46 :: (fs ++ e), x ≠ 47 ∧ x ≠ 126 := by
  intro x hx
  simp only [List.mem_append, List.mem_cons] at hx
  rcases hx with (hx | hx) | hx | hx | hx
  · exact digit_sep x (hd x (by simp [hx]))
  · exact digit_sep x (hd x (by simp [hx]))
  · subst hx; decide
  · exact digit_sep x (hf x hx)
  · rcases he with rfl | he
    · cases hx
    · obtain ⟨m, sg, es, rfl, hm, hsg, -, hes⟩ := he
      simp only [List.cons_append, List.mem_cons, List.mem_append] at hx
      rcases hx with rfl | hx | hx
      · rcases hm with rfl | rfl <;> decide
      · rcases hsg with rfl | rfl | rfl
        · cases hx
        · simp at hx; subst hx; decide
        · simp at hx; subst hx; decide
      · exact digit_sep x (hes x hx)

/-- Digits with a dot and possibly an exponent. -/
theorem tok_float {d : UInt8} {ds fs e rest : Bytes} (hd : ∀ x ∈ d :: ds, x ∈ digits) (hf : ∀ x ∈ fs, x ∈ digits)
    (he : e = [] ∨ IsExponent e) (h0 : d = 48 → ds = []) (hr : Fresh rest) (h' : rest.head? ≠ some 126) :
    Tok (d :: ds ++ 46 :: (fs ++ e) ++ rest) .float (d :: ds ++ 46 :: (fs ++ e)) rest := by
  obtain ⟨f1, f2, f3, f4, f5⟩ := digit_facts d (hd d (by simp))
  have hn : NoTrivia (d :: ds ++ 46 :: (fs ++ (e ++ rest))) := noTrivia_of_head f1 f2 f3
  have hn' : NotStarting (69 :: 101 :: digits) rest := by
    intro x hx hm
    have : ∀ x : UInt8, x ∈ 69 :: 101 :: digits → x ∈ identChars ++ b!"+./:" := by apply forall_byte; decide +kernel
    exact hr x hx (this x hm)
  have hp : ¬ PathHere (d :: ds ++ 46 :: (fs ++ (e ++ rest))) := by
    have := no_path (k := d :: ds ++ 46 :: (fs ++ e)) (rest := rest) (float_sep hd hf he) (fresh_path hr h')
    simpa using this
  obtain ⟨k1, k2, k3, k4, k5⟩ := C15_float_partial (.init (d :: ds ++ 46 :: (fs ++ (e ++ rest)))) [] d ds fs e rest rfl (.nil _) hd hf
    (he.elim (fun h => .inl ⟨h, hn'⟩) (fun h => .inr ⟨h, fun x hx hm => hn' x hx (by simp [hm])⟩)) hp
  have hrw : d :: ds ++ 46 :: (fs ++ e) ++ rest = d :: ds ++ 46 :: (fs ++ (e ++ rest)) := by simp
  rw [hrw]
  refine tok_intro k1 k2 k3 ?_
  rw [consumeTrivia_id hn] at k4 k5
  rw [show (St.init (d :: ds ++ 46 :: (fs ++ (e ++ rest)))).diags.length = 0 from rfl, List.drop_zero] at k4 k5
  cases hl : (lex (.init (d :: ds ++ 46 :: (fs ++ (e ++ rest))))).2.diags with
  | nil => rfl
  | cons x l =>
    have hx := k5 x (by rw [hl]; simp)
    have := k4.mpr ⟨x, by rw [hl]; simp, hx⟩
    exact absurd (h0 this.1) this.2

/-- Punctuation. -/
theorem tok_op {c : UInt8} {r v r' : Bytes} {k : TK} (hc : isWhite c = false ∧ c ≠ 35 ∧ c ≠ 47 ∧ isAlpha c = false ∧ isDigit c = false ∧ c ≠ 95 ∧ c ≠ 60)
    (hp : ¬ PathHere (c :: r)) {n : Nat} (h : lexOp (c :: r) = (k, n)) (hk : k ≠ .float) (hv : (c :: r).take n = v) (hr : (c :: r).drop n = r')
    (hn : n ≤ (c :: r).length) :
    Tok (c :: r) k v r' := by
  have hnt : NoTrivia (c :: r) := noTrivia_of_head hc.1 hc.2.1 hc.2.2.1
  refine tok_of_lex hnt hk ?_
  rw [lex_at (s := .init (c :: r)) rfl hnt, pathTest_none c hp]
  have h' : lexOp (St.init (c :: r)).rem = (k, n) := h
  have e3 : (c == 95) = false := by simp [hc.2.2.2.2.2.1]
  have e4 : (c == 60) = false := by simp [hc.2.2.2.2.2.2]
  simp only [hc.2.2.2.1, hc.2.2.2.2.1, e3, e4, Bool.false_eq_true, if_false, Bool.or_false, h']
  subst hv hr
  have a : AdvN n (.init (c :: r)) (consume n (.init (c :: r))) := consume_adv hn
  refine ⟨rfl, finishToken_view a _, a.rem⟩

/-- Punctuation of one character. -/
theorem tok_char {c : UInt8} {r : Bytes} {k : TK} (hc : c ∈ b!"{}[]()\";,?@!*>")
    (h : lexOp (c :: r) = (k, 1)) (hk : k ≠ .float) : Tok (c :: r) k [c] r := by
  have f : ∀ c : UInt8, c ∈ b!"{}[]()\";,?@!*>" → (isWhite c = false ∧ c ≠ 35 ∧ c ≠ 47 ∧ isAlpha c = false ∧ isDigit c = false ∧ c ≠ 95 ∧ c ≠ 60) ∧ c ∉ 47 :: 126 :: pathChars := by
    apply forall_byte; decide +kernel
  refine tok_op (f c hc).1 ?_ h hk rfl rfl (by simp)
  exact no_path (k := []) (rest := c :: r) (by simp) (fun x hx => by simp at hx; exact hx ▸ (f c hc).2)

theorem tok_lcurly (r : Bytes) : Tok (123 :: r) .l_curly b!"{" r := tok_char (by decide) rfl (by decide)
theorem tok_rcurly (r : Bytes) : Tok (125 :: r) .r_curly b!"}" r := tok_char (by decide) rfl (by decide)
theorem tok_lbracket (r : Bytes) : Tok (91 :: r) .l_bracket b!"[" r := tok_char (by decide) rfl (by decide)
theorem tok_rbracket (r : Bytes) : Tok (93 :: r) .r_bracket b!"]" r := tok_char (by decide) rfl (by decide)
theorem tok_lparen (r : Bytes) : Tok (40 :: r) .l_paren b!"(" r := tok_char (by decide) rfl (by decide)
theorem tok_rparen (r : Bytes) : Tok (41 :: r) .r_paren b!")" r := tok_char (by decide) rfl (by decide)
theorem tok_semi (r : Bytes) : Tok (59 :: r) .semi_colon b!";" r := tok_char (by decide) rfl (by decide)
theorem tok_comma (r : Bytes) : Tok (44 :: r) .comma b!"," r := tok_char (by decide) rfl (by decide)
theorem tok_question (r : Bytes) : Tok (63 :: r) .question b!"?" r := tok_char (by decide) rfl (by decide)
theorem tok_quote (r : Bytes) : Tok (34 :: r) .dquote b!"\"" r := tok_char (by decide) rfl (by decide)

theorem tok_eq (r : Bytes) : Tok (61 :: 32 :: r) .eq b!"=" (32 :: r) :=
  tok_op (n := 1) (by decide) (no_path (k := []) (rest := 61 :: 32 :: r) (by simp) (fun x hx => by simp at hx; subst hx; decide)) rfl (by decide) rfl rfl (by simp)

theorem tok_minus {d : UInt8} {ds rest : Bytes} (hd : d ∈ digits) (hs : ∀ x ∈ d :: ds, x ≠ 47 ∧ x ≠ 126) (h : NotStarting (47 :: 126 :: pathChars) rest) :
    Tok (45 :: (d :: ds ++ rest)) .op_negate b!"-" (d :: ds ++ rest) := by
  refine tok_op (n := 1) (by decide) ?_ ?_ (by decide) rfl rfl (by simp)
  · refine no_path (k := 45 :: d :: ds) (rest := rest) ?_ h
    intro x hx
    rcases List.mem_cons.mp hx with rfl | hx
    · decide
    · exact hs x hx
  · have : d ≠ 62 := by rintro rfl; exact absurd hd (by decide)
    have h2 : (62 == d) = false := by simpa using Ne.symm this
    simp [lexOp, opTable, List.find?, List.isPrefixOf, h2]

theorem tok_eof : Tok [] .eof [] [] := tok_intro (by decide +kernel) (by decide +kernel) (by decide +kernel) (by decide +kernel)

/-! ### Strings -/

theorem codeDollars_one' {r : Bytes} (h1 : ¬ b!"${" <+: r) (h2 : ¬ [123] <+: r) : codeDollars (36 :: r) = 1 := by
  unfold codeDollars
  split <;> simp_all

/-- The inside of a generated string is read as the text. -/
theorem g_escape (t rest : Bytes) : G (.body dqCode) (escapeNixString t ++ 34 :: rest) (t.map .ch) (34 :: rest) := by
  generalize hn : t.length = n
  induction n using Nat.strongRecOn generalizing t with
  | ind n ih =>
  have hesc : ∀ (d : UInt8) (r : Bytes), r.length < n →
      G (.body dqCode) (92 :: d :: (escapeNixString r ++ 34 :: rest)) ((escaped d :: r).map .ch) (34 :: rest) := by
    intro d r hr
    exact .esc (R := dqCode) (n := 2) (t := [escaped d]) rfl (by simp) (ih r.length hr r rfl)
  cases t with
  | nil => exact .close ⟨rest, rfl⟩ rfl
  | cons c r =>
    simp only [List.length_cons] at hn
    by_cases c1 : c = 34
    · subst c1; exact hesc 34 r (by omega)
    by_cases c2 : c = 92
    · subst c2; exact hesc 92 r (by omega)
    by_cases c3 : c = 10
    · subst c3; exact hesc 110 r (by omega)
    by_cases c4 : c = 13
    · subst c4; exact hesc 114 r (by omega)
    by_cases c5 : c = 9
    · subst c5; exact hesc 116 r (by omega)
    by_cases c6 : c = 36
    · subst c6
      by_cases d1 : [123] <+: r
      · obtain ⟨q, rfl⟩ := d1
        have := ih q.length (by simp at hn; omega) q rfl
        have := G.char (R := dqCode) (c := 123) (by decide) (by simp [dqCode]) rfl this
        exact .esc (R := dqCode) (n := 2) (t := [36]) (r := 92 :: 36 :: 123 :: (escapeNixString q ++ 34 :: rest)) rfl (by simp) this
      · have e1 : escapeNixString (36 :: r) = 36 :: escapeNixString r :=
          escape_plain (by decide) (by decide) (by decide) (by decide) (by decide) (fun _ => d1)
        rw [e1]
        have hd : dqCode.dollar (36 :: (escapeNixString r ++ 34 :: rest)) = 1 := by
          refine codeDollars_one' ?_ (escape_head d1 (by decide) (by decide))
          rcases r with _ | ⟨d, r⟩
          · simp [escapeNixString]
          · intro hp
            by_cases d4 : d = 36
            · subst d4
              by_cases d5 : [123] <+: r
              · obtain ⟨q, rfl⟩ := d5
                simp [escapeNixString] at hp
              · rw [escape_plain (by decide) (by decide) (by decide) (by decide) (by decide) (fun _ => d5)] at hp
                refine escape_head (c := 123) (r := r) (q := rest) d5 (by decide) (by decide) ?_
                obtain ⟨q, hq⟩ := hp
                simp only [List.cons_append, List.nil_append, List.cons.injEq, true_and] at hq
                exact ⟨q, hq⟩
            · have := escape_head (c := 36) (r := d :: r) (q := rest) (by simpa using Ne.symm d4) (by decide) (by decide)
              exact this ((show [36] <+: b!"${" from ⟨[123], rfl⟩).trans hp)
        have := ih r.length (by omega) r rfl
        have := G.dollar (R := dqCode) (r := escapeNixString r ++ 34 :: rest) (by rw [hd]; simp) (by rw [hd]; exact this)
        rw [hd] at this
        exact this
    · rw [escape_plain c1 c2 c3 c4 c5 (fun h => absurd h c6)]
      exact .char (R := dqCode) c6 (by simpa [dqCode] using Ne.symm c1) (dqEsc_none c2) (ih r.length (by omega) r rfl)

end Verif.Nixf.Syntax
