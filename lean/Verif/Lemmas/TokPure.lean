import Verif.Lemmas.TokMake
import Mathlib.Data.List.TakeWhile
/-
The lexer as a function of the rest of the source.
-/
namespace Verif.Nixf.Syntax
open Lexical Strings Verif.Props

/-- A path character or `${` follows. -/
def contR (r : Bytes) : Bool := r.head?.any isPathChar || b!"${".isPrefixOf r

/-- `consumePathStart`: what is left. -/
def pathR (r : Bytes) : Option Bytes :=
  let u := if r.head? = some 126 then r.drop 1 else r.dropWhile isPathChar
  if u.head? = some 47 then (if contR (u.drop 1) then some (u.drop 1) else none) else none

/-- `consumeURI`: what is left. -/
def uriR (r : Bytes) : Option Bytes :=
  let u := r.dropWhile isUriSchemeChar
  if u.head? = some 58 then
    (if (u.drop 1).head?.any isUriPathChar then some ((u.drop 1).dropWhile isUriPathChar) else none)
  else none

/-- The optional sign. -/
def signR (r : Bytes) : Bytes := if r.head?.any (fun c => c == 43 || c == 45) then r.drop 1 else r

/-- `lexFloatExp`: what is left, and whether there is no error. -/
def expR (r : Bytes) : Bytes × Bool :=
  if r.head?.any (fun e => e == 69 || e == 101) then
    ((signR (r.drop 1)).dropWhile isDigit, (signR (r.drop 1)).head?.any isDigit)
  else (r, true)

/-- `lexNumbers`. -/
def numR (r : Bytes) : TK × Bytes × Bool :=
  let u := r.dropWhile isDigit
  if u.head? = some 46 then
    (.float, (expR ((u.drop 1).dropWhile isDigit)).1,
      (expR ((u.drop 1).dropWhile isDigit)).2 && !(b!"0".isPrefixOf (r.take 2) && r.take 2 != b!"0."))
  else (.int, u, true)

/-- `consumeSPath`. -/
def spathR (r : Bytes) : Option Bytes :=
  let u := r.drop 1
  if u.head?.any isPathChar then
    let w := u.dropWhile isPathChar
    let x := w.drop (spathSegments w)
    if x.head? = some 62 then some (x.drop 1) else none
  else none

/-- The token at the start of a rest without white space and comments: its kind, what is left, and whether it is correct. -/
def tokR (r : Bytes) : TK × Bytes × Bool :=
  match r with
  | [] => (.eof, [], true)
  | c :: t =>
    match (if isPathChar c || c == 47 || c == 126 then pathR (c :: t) else none) with
    | some u => (.path_fragment, u, true)
    | none =>
      match (if isAlpha c then uriR (c :: t) else none) with
      | some u => (.uri, u, true)
      | none =>
        if isDigit c then numR (c :: t)
        else if isAlpha c || c == 95 then
          let u := t.dropWhile isIdentifierChar
          (maybeKW ((c :: t).take ((c :: t).length - u.length)), u, true)
        else
          match (if c == 60 then spathR (c :: t) else none) with
          | some u => (.spath, u, true)
          | none => ((lexOp (c :: t)).1, (c :: t).drop (lexOp (c :: t)).2, true)

theorem consume_diags (n : Nat) (s : St) : (consume n s).diags = s.diags := by unfold consume; split <;> rfl

theorem pathStart_pure (s : St) : (consumePathStart s).map (·.rem) = pathR s.rem ∧ ∀ s', consumePathStart s = some s' → s'.diags = s.diags := by
  unfold consumePathStart pathR pathContinues peekPrefix contR
  simp only [consume_rem, consumeWhile_rem]
  split
  · split
    · split
      · exact ⟨by simp [consume_rem], fun s' h => by cases h; simp [consume_diags]⟩
      · exact ⟨rfl, nofun⟩
    · exact ⟨rfl, nofun⟩
  · split
    · split
      · exact ⟨by simp [consume_rem, consumeWhile_rem], fun s' h => by cases h; simp [consume_diags, consumeWhile_diags]⟩
      · exact ⟨rfl, nofun⟩
    · exact ⟨rfl, nofun⟩

theorem uri_pure (s : St) : (consumeURI s).map (·.rem) = uriR s.rem ∧ ∀ s', consumeURI s = some s' → s'.diags = s.diags := by
  unfold consumeURI uriR
  simp only [consume_rem, consumeWhile_rem]
  split
  · split
    · exact ⟨by simp [consume_rem, consumeWhile_rem], fun s' h => by cases h; simp [consume_diags, consumeWhile_diags]⟩
    · exact ⟨rfl, nofun⟩
  · exact ⟨rfl, nofun⟩

theorem sign_pure (s : St) : (expSign s).rem = signR s.rem ∧ (expSign s).diags = s.diags := by
  unfold expSign signR
  cases h : s.rem with
  | nil => simp [h]
  | cons c t =>
    simp only [List.head?_cons, Option.any_some]
    by_cases hc : (c == 43 || c == 45) = true
    · rw [if_pos hc]; exact ⟨by rw [consume_rem, h]; exact (if_pos hc).symm, consume_diags _ _⟩
    · rw [if_neg hc]; exact ⟨h.trans (if_neg hc).symm, rfl⟩

theorem head_take_digit (u : Bytes) : (u.takeWhile isDigit = []) ↔ u.head?.any isDigit = false := by
  cases u with
  | nil => simp
  | cons c t => cases h : isDigit c <;> simp [h]

theorem exp_pure (s : St) : (lexFloatExp s).rem = (expR s.rem).1 ∧ ((expR s.rem).2 = true → (lexFloatExp s).diags = s.diags) ∧
    ((expR s.rem).2 = false → (lexFloatExp s).diags.length = s.diags.length + 1) := by
  unfold lexFloatExp expR
  cases h : s.rem with
  | nil => simp [h]
  | cons c t =>
    simp only [List.head?_cons, Option.any_some, List.drop_succ_cons, List.drop_zero]
    have h1 := sign_pure (consume 1 s)
    rw [consume_rem, h, consume_diags] at h1
    simp only [List.drop_succ_cons, List.drop_zero] at h1
    by_cases hc : (c == 69 || c == 101) = true
    · rw [if_pos hc, if_pos hc]
      simp only [h1.1]
      by_cases hd : (signR t).takeWhile isDigit = []
      · rw [if_pos hd]
        have := (head_take_digit _).mp hd
        simp [St.emit, consumeWhile_rem, consumeWhile_diags, h1, this]
      · rw [if_neg hd]
        have : (signR t).head?.any isDigit = true := by
          by_contra hn
          exact hd ((head_take_digit _).mpr (by simpa using hn))
        simp [consumeWhile_rem, consumeWhile_diags, h1, this]
    · rw [if_neg hc, if_neg hc]; simp [h]

theorem num_pure (s : St) : (lexNumbers s).1 = (numR s.rem).1 ∧ (lexNumbers s).2.rem = (numR s.rem).2.1 ∧
    ((numR s.rem).2.2 = true → (lexNumbers s).2.diags = s.diags) ∧
    ((numR s.rem).2.2 = false → s.diags.length < (lexNumbers s).2.diags.length) := by
  unfold lexNumbers numR
  simp only [consumeWhile_rem]
  split
  · have h := exp_pure (consumeWhile isDigit (consume 1 (consumeWhile isDigit s)))
    simp only [consumeWhile_rem, consume_rem, consumeWhile_diags, consume_diags] at h
    obtain ⟨h1, h2, h3⟩ := h
    generalize (b!"0".isPrefixOf (s.rem.take 2) && s.rem.take 2 != b!"0.") = z
    cases hz : (expR (((s.rem.dropWhile isDigit).drop 1).dropWhile isDigit)).2 <;> cases z
    · have := h3 hz
      refine ⟨rfl, h1, nofun, fun _ => ?_⟩
      simp only [Bool.false_eq_true, if_false]; omega
    · have := h3 hz
      refine ⟨rfl, h1, nofun, fun _ => ?_⟩
      simp only [if_true, St.emit, List.length_append]; omega
    · exact ⟨rfl, h1, fun _ => h2 hz, nofun⟩
    · have := h2 hz
      refine ⟨rfl, h1, nofun, fun _ => ?_⟩
      simp only [if_true, St.emit, List.length_append, this]; simp
  · exact ⟨rfl, consumeWhile_rem _ _, fun _ => consumeWhile_diags _ _, nofun⟩

theorem spath_pure {s : St} (h : s.rem.head? = some 60) : (consumeSPath s).map (·.rem) = spathR s.rem ∧
    ∀ s', consumeSPath s = some s' → s'.diags = s.diags := by
  unfold consumeSPath spathR
  simp only [if_pos h, consume_rem, consumeWhile_rem]
  split
  · split
    · exact ⟨by simp [consume_rem, consumeWhile_rem], fun s' h => by cases h; simp [consume_diags, consumeWhile_diags]⟩
    · exact ⟨rfl, nofun⟩
  · exact ⟨rfl, nofun⟩

theorem opt_pure {o : Option St} {p : Option Bytes} {D : List Diagnostic} (h : o.map (·.rem) = p ∧ ∀ s', o = some s' → s'.diags = D) :
    (o = none ∧ p = none) ∨ ∃ s', o = some s' ∧ p = some s'.rem ∧ s'.diags = D := by
  cases o with
  | none => exact .inl ⟨rfl, h.1.symm⟩
  | some s' => exact .inr ⟨s', rfl, h.1.symm, h.2 _ rfl⟩

/-- The lexer on a rest without white space and comments in front. -/
theorem lex_pure {s : St} (h : NoTrivia s.rem) : (lex s).1.kind = (tokR s.rem).1 ∧ (lex s).2.rem = (tokR s.rem).2.1 ∧
    ((tokR s.rem).2.2 = true → (lex s).2.diags = s.diags) ∧ ((tokR s.rem).2.2 = false → s.diags.length < (lex s).2.diags.length) := by
  unfold lex
  rw [consumeTrivia_id h]
  simp only
  unfold tokR
  cases hr : s.rem with
  | nil => exact ⟨rfl, hr, fun _ => rfl, nofun⟩
  | cons c t =>
    simp only
    have e1 : ((if (isPathChar c || c == 47 || c == 126) = true then consumePathStart s else none).map (·.rem) =
        if (isPathChar c || c == 47 || c == 126) = true then pathR (c :: t) else none) ∧
        ∀ s', (if (isPathChar c || c == 47 || c == 126) = true then consumePathStart s else none) = some s' → s'.diags = s.diags := by
      split
      · rw [← hr]; exact pathStart_pure s
      · exact ⟨rfl, nofun⟩
    rcases opt_pure e1 with ⟨a, b⟩ | ⟨s', a, b, d⟩
    · rw [a, b]
      simp only
      have e1 : ((if isAlpha c = true then consumeURI s else none).map (·.rem) =
          if isAlpha c = true then uriR (c :: t) else none) ∧
          ∀ s', (if isAlpha c = true then consumeURI s else none) = some s' → s'.diags = s.diags := by
        split
        · rw [← hr]; exact uri_pure s
        · exact ⟨rfl, nofun⟩
      rcases opt_pure e1 with ⟨a, b⟩ | ⟨s', a, b, d⟩
      · rw [a, b]
        simp only
        split
        · have := num_pure s
          rw [hr] at this
          exact this
        · split
          · have hu : (lexIdentifier s).rem = t.dropWhile isIdentifierChar := by
              unfold lexIdentifier; rw [consumeWhile_rem, consume_rem, hr]; rfl
            have hd : (lexIdentifier s).diags = s.diags := by
              unfold lexIdentifier; rw [consumeWhile_diags, consume_diags]
            refine ⟨?_, hu, fun _ => hd, nofun⟩
            show maybeKW _ = maybeKW _
            congr 1
            show s.rem.take ((lexIdentifier s).cur.offset - s.cur.offset) = _
            rw [hr]
            congr 1
            have e : (lexIdentifier s).cur.offset = s.cur.offset + (1 + (t.takeWhile isIdentifierChar).length) := by
              unfold lexIdentifier
              rw [consumeWhile_off, consume_rem, hr]
              unfold consume
              rw [hr, if_pos (by simp)]
              simp only [moveCur_offset]
              simp; omega
            have h2 := congrArg List.length (List.takeWhile_append_dropWhile (p := isIdentifierChar) (l := t))
            simp only [List.length_append] at h2
            rw [e]; simp only [List.length_cons]; omega
          · have e1 : ((if (c == 60) = true then consumeSPath s else none).map (·.rem) =
                if (c == 60) = true then spathR (c :: t) else none) ∧
                ∀ s', (if (c == 60) = true then consumeSPath s else none) = some s' → s'.diags = s.diags := by
              split
              · rename_i h60
                rw [← hr]; exact spath_pure (by rw [hr]; simpa using h60)
              · exact ⟨rfl, nofun⟩
            rcases opt_pure e1 with ⟨a, b⟩ | ⟨s', a, b, d⟩
            · rw [a, b]
              exact ⟨rfl, by simp [consume_rem, hr], fun _ => consume_diags _ _, nofun⟩
            · rw [a, b]
              exact ⟨rfl, rfl, fun _ => d, nofun⟩
      · rw [a, b]
        exact ⟨rfl, rfl, fun _ => d, nofun⟩
    · rw [a, b]
      exact ⟨rfl, rfl, fun _ => d, nofun⟩

/-- There is no error in the white space and comments in front of the first token. -/
def CleanSkip (r : Bytes) : Prop := (consumeTrivia (.init r)).diags = []

theorem skip_noTrivia (r : Bytes) : NoTrivia (skip r) := by
  obtain ⟨_, -, -, h⟩ := consumeTrivia_adv (.init r); exact h

theorem lex_parts {r : Bytes} (hn : NoTrivia r) : ∃ n, (lex (.init r)).1.view = r.take n ∧ (lex (.init r)).2.rem = r.drop n := by
  have hl : (lex (.init r)).1.range.l.offset = 0 := by
    have : (lex (.init r)).1.range.l = (consumeTrivia (.init r)).cur := by
      unfold lex; simp only; repeat' split
      all_goals rfl
    rw [this, consumeTrivia_id (s := .init r) hn]; rfl
  obtain ⟨pre, n, ho, -⟩ := lex_out (.init r)
  have h6 := ho.left
  have h7 := congrArg Cursor.offset h6
  rw [moveCur_offset, hl] at h7
  have h8 := ho.adv.le
  have h9 : (St.init r).cur.offset = 0 := rfl
  have h10 : (St.init r).rem = r := rfl
  rw [h10] at h8
  rw [h9, h10, List.length_take] at h7
  have : pre = 0 := by omega
  subst this
  exact ⟨n, ho.view, by rw [ho.adv.rem, h10, Nat.zero_add]⟩

/-- Tokens in terms of the rest. -/
theorem tok_iff {r v r' : Bytes} {k : TK} : Tok r k v r' ↔ CleanSkip r ∧ tokR (skip r) = (k, r', true) ∧ skip r = v ++ r' := by
  have hn := skip_noTrivia r
  obtain ⟨a, b, c, d⟩ := lex_pure (s := .init (skip r)) hn
  obtain ⟨n, hv1, hv2⟩ := lex_parts hn
  have e : (St.init (skip r)).rem = skip r := rfl
  rw [e] at a b c d
  constructor
  · intro h
    have hc : CleanSkip r := h.clean
    obtain ⟨t, s, h1, h2, h3, h4, h5⟩ := h.skip
    rw [h1] at a b c d hv1 hv2
    refine ⟨hc, ?_, ?_⟩
    · have : (tokR (skip r)).2.2 = true := by
        by_contra hx
        have := d (by simpa using hx)
        rw [h5] at this; simp at this
      rw [← h2, ← h4, a, b, ← this]
    · rw [← h3, ← h4, hv1, hv2, List.take_append_drop]
  · rintro ⟨hc, ht, hv⟩
    rw [ht] at a b c
    refine Tok.of_skip (tok_intro a ?_ b (c rfl)) hc
    rw [b] at hv2
    have h8 := List.take_append_drop n (skip r)
    rw [← hv2, ← hv1] at h8
    rw [hv] at h8 ⊢
    exact List.append_cancel_right h8

end Verif.Nixf.Syntax
