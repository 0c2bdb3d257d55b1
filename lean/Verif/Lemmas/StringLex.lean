import Verif.Lemmas.ParserInv
/-
Tokens of strings and what they denote.
-/
namespace Verif.Nixf
open Lexical Strings

theorem chars_append (a b : Bytes) : chars (a ++ b) = chars a ++ chars b := by simp [chars]

theorem dqEsc_none {c : UInt8} {r : Bytes} (h : c ≠ 92) : dqEsc (c :: r) = none := by
  unfold dqEsc
  split <;> simp_all

theorem codeIndEsc_none {c : UInt8} {r : Bytes} (h : ¬ b!"''" <+: c :: r) : codeIndEsc (c :: r) = none := by
  unfold codeIndEsc
  split <;> simp_all

theorem codeDollars_one {r : Bytes} (h1 : ¬ b!"$${" <+: 36 :: r) (h2 : ¬ b!"${" <+: 36 :: r) : codeDollars (36 :: r) = 1 := by
  unfold codeDollars
  split <;> simp_all

theorem drop_next {src : Bytes} {o : Nat} {c : UInt8} {r : Bytes} (h : src.drop o = c :: r) : src.drop (o + 1) = r := by
  rw [← List.drop_drop, h]; rfl

theorem drop_more {src : Bytes} {o n : Nat} {a r : Bytes} (h : src.drop o = a ++ r) (hn : a.length = n) : src.drop (o + n) = r := by
  rw [← List.drop_drop, h, ← hn]; simp

theorem stringPart_body {src bs : Bytes} {o e : Nat} {l : List Piece} (h : src.drop o = bs)
    (hb : Body dqCode src (o + stringPart bs) l e) : Body dqCode src o (chars (bs.take (stringPart bs)) ++ l) e := by
  fun_induction stringPart bs generalizing o with
  | case1 | case2 | case3 | case5 => simpa [chars] using hb
  | case4 c r h1 h2 h3 ih =>
    obtain ⟨q, hq⟩ := List.isPrefixOf_iff_prefix.mp h3
    simp only [List.cons_append, List.nil_append, List.cons.injEq] at hq
    obtain ⟨rfl, rfl⟩ := hq
    have hd : dqCode.dollar (src.drop o) = 3 := by rw [h]; rfl
    have h' : src.drop (o + 3) = q := drop_more (a := b!"$${") (by simpa using h) rfl
    have := ih (o := o + 3) (by simpa using h') (by simpa [Nat.add_assoc] using hb)
    have := Body.dollar o _ _ e h (by rw [hd]; simp) (by rw [hd]; exact this)
    rw [hd, h] at this
    simpa [chars, Nat.add_comm 3] using this
  | case6 c r h1 h2 h3 h4 ih =>
    have h' := drop_next h
    have := ih h' (by rw [Nat.add_assoc]; exact hb)
    rw [Nat.add_comm 1, List.take_succ_cons]
    by_cases hc : c = 36
    · subst hc
      have hd : dqCode.dollar (src.drop o) = 1 := by
        rw [h]
        exact codeDollars_one (fun h => h3 (List.isPrefixOf_iff_prefix.mpr h)) (fun h => h4 (List.isPrefixOf_iff_prefix.mpr h))
      have := Body.dollar o _ _ e h (by rw [hd]; simp) (by rw [hd]; exact this)
      rw [hd, h] at this
      simpa [chars] using this
    · refine Body.char o c r _ e h hc ?_ ?_ this
      · rw [h]; intro hp; simp [dqCode] at hp; exact h2 hp.symm
      · rw [h]; exact dqEsc_none h1

theorem indStringPart_body {src bs : Bytes} {o e : Nat} {l : List Piece} (h : src.drop o = bs)
    (hb : Body indCode src (o + indStringPart bs) l e) : Body indCode src o (chars (bs.take (indStringPart bs)) ++ l) e := by
  fun_induction indStringPart bs generalizing o with
  | case1 | case2 | case4 => simpa [chars] using hb
  | case3 c r h1 h3 ih =>
    obtain ⟨q, hq⟩ := List.isPrefixOf_iff_prefix.mp h3
    simp only [List.cons_append, List.nil_append, List.cons.injEq] at hq
    obtain ⟨rfl, rfl⟩ := hq
    have hd : indCode.dollar (src.drop o) = 3 := by rw [h]; rfl
    have h' : src.drop (o + 3) = q := drop_more (a := b!"$${") (by simpa using h) rfl
    have := ih (o := o + 3) (by simpa using h') (by simpa [Nat.add_assoc] using hb)
    have := Body.dollar o _ _ e h (by rw [hd]; simp) (by rw [hd]; exact this)
    rw [hd, h] at this
    simpa [chars, Nat.add_comm 3] using this
  | case5 c r h1 h3 h4 ih =>
    have h' := drop_next h
    have := ih h' (by rw [Nat.add_assoc]; exact hb)
    rw [Nat.add_comm 1, List.take_succ_cons]
    have hq : ¬ b!"''" <+: c :: r := fun h => h1 (List.isPrefixOf_iff_prefix.mpr h)
    by_cases hc : c = 36
    · subst hc
      have hd : indCode.dollar (src.drop o) = 1 := by
        rw [h]
        exact codeDollars_one (fun h => h3 (List.isPrefixOf_iff_prefix.mpr h)) (fun h => h4 (List.isPrefixOf_iff_prefix.mpr h))
      have := Body.dollar o _ _ e h (by rw [hd]; simp) (by rw [hd]; exact this)
      rw [hd, h] at this
      simpa [chars] using this
    · refine Body.char o c r _ e h hc ?_ ?_ this
      · rw [h]; exact hq
      · rw [h]; exact codeIndEsc_none hq

/-- What a token of a string says about the string: its end, the start of an interpolation, or text. -/
inductive TokRead (R : Rules) (close : TK) (src : Bytes) (o : Nat) (t : Token) : Prop
  | eof (hk : t.kind = .eof) (h : src.drop o = [])
  | close (hk : t.kind = close) (h : R.quote <+: src.drop o) (h' : R.esc (src.drop o) = none)
  | interp (hk : t.kind = .dollar_curly) (r : Bytes) (h : src.drop o = 36 :: r) (h' : R.dollar (src.drop o) = 0)
  | esc (hk : t.kind = .string_escape)
      (h : ∀ l e, Body R src (o + t.view.length) l e → Body R src o (chars (unescape t.view) ++ l) e)
  | part (hk : t.kind = .string_part) (h : ∀ l e, Body R src (o + t.view.length) l e → Body R src o (chars t.view ++ l) e)

theorem clamp_view {n : Nat} {s : St} (k : TK) : (finishToken s k (consume n s)).view = s.rem.take n := by
  unfold finishToken consume
  split
  · simp only [moveCur_offset]
    rw [Nat.add_sub_cancel_left]
    simp only [List.length_take]
    rw [Nat.min_eq_left (by assumption)]
  · simp only [moveCur_offset]
    rw [Nat.add_sub_cancel_left, List.take_length, List.take_of_length_le (by omega)]

theorem lexString_read {src : Bytes} {s : St} {o : Nat} (h : s.rem = src.drop o) :
    TokRead dqCode .dquote src o (lexString s).1 := by
  unfold lexString
  split
  · rename_i hr; exact .eof rfl (by rw [← h, hr])
  · rename_i c t hr
    have hd : src.drop o = c :: t := by rw [← h, hr]
    simp only
    split
    · rename_i hc
      subst hc
      exact .close rfl (by rw [hd]; simp [dqCode]) (by rw [hd]; rfl)
    · rename_i h34
      split
      · rename_i h92
        subst h92
        refine .esc rfl ?_
        rw [clamp_view, hr]
        intro l e hb
        cases t with
        | nil => exact Body.esc o 1 [] l e (by rw [hd]; rfl) hb
        | cons c t =>
          refine Body.esc o 2 _ l e ?_ (by simpa using hb)
          rw [hd]
          show some (2, [escaped c]) = _
          unfold unescape escaped
          simp only [List.take_succ_cons, List.take_zero]
          split
          · rfl
          · split
            · rfl
            · split <;> rfl
      · rename_i h92
        split
        · rename_i hp
          obtain ⟨rfl, hp⟩ := hp
          refine .interp rfl t hd ?_
          unfold peekPrefix at hp
          obtain ⟨q, hq⟩ := List.isPrefixOf_iff_prefix.mp hp
          rw [← h, ← hq]; rfl
        · refine .part rfl ?_
          rw [clamp_view]
          intro l e hb
          refine stringPart_body h.symm ?_
          rw [List.length_take, Nat.min_eq_left (stringPart_le _)] at hb
          exact hb

theorem lexIndString_read {src : Bytes} {s : St} {o : Nat} (h : s.rem = src.drop o) :
    TokRead indCode .quote2 src o (lexIndString s).1 := by
  unfold lexIndString
  split
  · rename_i hr; exact .eof rfl (by rw [← h, hr])
  · rename_i c t hr
    have hd : src.drop o = c :: t := by rw [← h, hr]
    simp only
    split
    · rename_i hp
      obtain ⟨q, hq⟩ := List.isPrefixOf_iff_prefix.mp (show b!"''".isPrefixOf s.rem = true from hp)
      have e1 : (consume 2 s).rem = q := by
        have := (peek_adv hp).rem
        rw [← hq] at this
        exact this
      have hd' : src.drop o = 39 :: 39 :: q := by rw [← h, ← hq]; rfl
      unfold peekPrefix
      rw [e1]
      split
      · rename_i h2
        refine .esc rfl ?_
        have a := (peek_adv (p := b!"''") hp).trans (consume_adv (n := 1) (s := consume 2 s) (by
          rw [e1]; cases q with
          | nil => simp at h2
          | cons => simp))
        rw [finishToken_view a, ← hq]
        intro l e hb
        cases q with
        | nil => simp at h2
        | cons d q =>
          refine Body.esc o 3 b!"'" l e ?_ (by simpa using hb)
          rw [hd']
          simp at h2
          rcases h2 with rfl | rfl <;> rfl
      · rename_i h2
        split
        · rename_i h3
          cases q with
          | nil => simp at h3
          | cons d q =>
            simp at h3
            subst h3
            refine .esc rfl ?_
            have a := (peek_adv (p := b!"''") hp).trans (consume_adv (n := 1) (s := consume 2 s) (by rw [e1]; simp))
            have e2 : (consume 1 (consume 2 s)).rem = q := by
              have := a.rem
              rw [← hq] at this
              exact this
            cases q with
            | nil =>
              intro l e hb
              have hv : (finishToken s .string_escape (consume 1 (consume 1 (consume 2 s)))).view = [39, 39, 92] := by
                have e3 : (consume 1 (consume 1 (consume 2 s))).cur = (consume 1 (consume 2 s)).cur := by
                  generalize consume 1 (consume 2 s) = u at e2
                  unfold consume
                  rw [e2]; simp [moveCur]
                have e4 : (finishToken s .string_escape (consume 1 (consume 1 (consume 2 s)))).view =
                    (finishToken s .string_escape (consume 1 (consume 2 s))).view := by
                  simp only [finishToken, e3]
                rw [e4, finishToken_view a, ← hq]; rfl
              rw [hv] at hb ⊢
              exact Body.esc o 3 b!"'" l e (by rw [hd']; rfl) hb
            | cons d q =>
              have a2 := a.trans (consume_adv (n := 1) (s := consume 1 (consume 2 s)) (by rw [e2]; simp))
              rw [finishToken_view a2, ← hq]
              intro l e hb
              exact Body.esc o 4 b!"'" l e (by rw [hd']; rfl) (by simpa using hb)
        · rename_i h3
          refine .close rfl (by rw [hd']; simp [indCode]) ?_
          rw [hd']
          show codeIndEsc _ = none
          unfold codeIndEsc
          split <;> simp_all
    · rename_i h1
      split
      · rename_i hp
        unfold peekPrefix at hp
        obtain ⟨q, hq⟩ := List.isPrefixOf_iff_prefix.mp hp
        exact .interp rfl (123 :: q) (by rw [← h, ← hq]; rfl) (by rw [← h, ← hq]; rfl)
      · refine .part rfl ?_
        rw [clamp_view]
        intro l e hb
        refine indStringPart_body h.symm ?_
        rw [List.length_take, Nat.min_eq_left (indStringPart_le _)] at hb
        exact hb

end Verif.Nixf
