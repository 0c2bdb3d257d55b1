import Verif.Lemmas.TokSwap
/-
Replacing what comes after a token: at a place where a token must end.
-/
namespace Verif.Nixf.Syntax
open Lexical Strings Verif.Props

/-- Nothing that comes after these characters belongs to what is before them. -/
def hard (c : UInt8) : Bool := stops c && c != 125

/-- After the text `p`, `x` may be replaced by `y`. -/
def Edge (x y p : Bytes) : Prop := (Quiet' x y ∧ Apart x y p) ∨ ∀ c ∈ p.getLast?, hard c = true

/-- In front of white space, brackets, semicolons and quotes. -/
theorem Edge.stop {x y p : Bytes} (h : ∀ d ∈ y.head?, stops d = true ∧ (d = 123 → x.head? = some 123)) : Edge x y p :=
  .inl ⟨fun d hd => ⟨stops_soft (h d hd).1, (h d hd).2⟩, fun d hd hs => by rw [(h d hd).1] at hs; cases hs⟩

theorem Edge.suffix {x y p q : Bytes} (h : Edge x y p) (hq : q <:+ p) : Edge x y q := by
  refine h.imp (fun h => ⟨h.1, h.2.suffix hq⟩) fun h c hc => h c ?_
  obtain ⟨a, rfl⟩ := hq
  cases q using List.reverseRecOn with
  | nil => simp at hc
  | append_singleton q d => simpa using hc

theorem hard_facts : ∀ c : UInt8, hard c = true → stops c = true ∧ c ≠ 125 := by
  intro c h; simpa [hard] using h

theorem dropWhile_all {f : UInt8 → Bool} {w x : Bytes} (h : (w ++ x).dropWhile f = x) : ∀ c ∈ w, f c = true := by
  rcases dropWhile_cases f w with h1 | ⟨c, q, -, h1⟩
  · intro c hc
    by_contra hf
    obtain ⟨a, b, rfl⟩ := List.append_of_mem hc
    clear h
    have := h1 []
    induction a with
    | nil => simp [hf] at this
    | cons d a ih =>
      cases hd : f d with
      | true =>
        refine ih (fun z => ?_) (by simp) ?_
        · have := h1 z; simpa [hd] using this
        · have := h1 []; simpa [hd] using this
      | false =>
        have := h1 []; simp [hd] at this
  · rw [h1] at h
    have := congrArg List.length h
    simp at this; omega

theorem snoc_inj {a b x : Bytes} {c d : UInt8} (h : a ++ c :: x = b ++ d :: x) : c = d := by
  have : (a ++ [c]) ++ x = (b ++ [d]) ++ x := by simpa using h
  have := List.append_cancel_right this
  simpa using (List.append_inj_right' this rfl)

theorem dropWhile_last {f : UInt8 → Bool} {a x : Bytes} {c : UInt8} (h : (a ++ c :: x).dropWhile f = x) : f c = true :=
  dropWhile_all (w := a ++ [c]) (by simpa using h) c (by simp)

/-- Tokens that end with a bracket, a semicolon or a quote. -/
theorem punct_text {v0 x : Bytes} {c : UInt8} {k : TK} (hc : stops c = true) (h : tokR (v0 ++ c :: x) = (k, x, true)) :
    v0 = [] ∨ v0 = b!"$" ∧ c = 123 := by
  by_cases hv : v0 = []
  · exact .inl hv
  right
  obtain ⟨f1, f2, f3, f4, f5, f6, f7, f8, f9, f10, -⟩ := stops_facts c hc
  obtain ⟨d, v0, rfl⟩ := List.exists_cons_of_ne_nil hv
  unfold tokR at h
  simp only [List.cons_append] at h
  split at h
  · rename_i u hu
    exfalso
    simp only [Prod.mk.injEq, and_true] at h
    obtain ⟨-, rfl⟩ := h
    split at hu
    · have hs : ∃ a, d :: (v0 ++ c :: u) = a ++ 47 :: u := by
        unfold pathR at hu
        simp only at hu
        generalize hw : (if (d :: (v0 ++ c :: u)).head? = some 126 then (d :: (v0 ++ c :: u)).drop 1 else (d :: (v0 ++ c :: u)).dropWhile isPathChar) = w at hu
        have hws : w <:+ d :: (v0 ++ c :: u) := by
          rw [← hw]; split
          · exact List.drop_suffix _ _
          · exact dropWhile_suffix _ _
        split at hu
        · rename_i h47
          split at hu
          · obtain ⟨a, ha⟩ := hws
            refine ⟨a, ?_⟩
            rw [← ha]
            cases w with
            | nil => cases h47
            | cons e w => simp at h47 hu; rw [h47, hu]
          · cases hu
        · cases hu
      obtain ⟨a, ha⟩ := hs
      exact f6 (snoc_inj (a := d :: v0) (b := a) (by simpa using ha))
    · cases hu
  · split at h
    · rename_i u hu
      exfalso
      simp only [Prod.mk.injEq, and_true] at h
      obtain ⟨-, rfl⟩ := h
      split at hu
      · unfold uriR at hu
        simp only at hu
        split at hu
        · split at hu
          · rename_i hh
            simp only [Option.some.injEq] at hu
            have hsuf : ((d :: (v0 ++ c :: u)).dropWhile isUriSchemeChar).drop 1 <:+ (d :: v0 ++ [c]) ++ u := by
              have : (d :: v0 ++ [c]) ++ u = d :: (v0 ++ c :: u) := by simp
              rw [this]
              exact (List.drop_suffix _ _).trans (dropWhile_suffix _ _)
            obtain ⟨w, hw⟩ := suffix_split hsuf (by
              have := (dropWhile_suffix isUriPathChar (((d :: (v0 ++ c :: u)).dropWhile isUriSchemeChar).drop 1)).length_le
              rw [hu] at this; exact this)
            cases w using List.reverseRecOn with
            | nil =>
              rw [hw, List.nil_append] at hu hh
              cases u with
              | nil => simp at hh
              | cons e u =>
                simp only [List.head?_cons, Option.any_some] at hh
                rw [List.dropWhile_cons_of_pos hh] at hu
                have := (dropWhile_suffix isUriPathChar u).length_le
                rw [hu] at this; simp at this; omega
            | append_singleton w e =>
              rw [hw] at hu hsuf
              have he := dropWhile_all hu e (by simp)
              obtain ⟨a, ha⟩ := hsuf
              have : e = c := snoc_inj (a := a ++ w) (b := d :: v0) (x := u) (by simpa using ha)
              rw [this, f3] at he; cases he
          · cases hu
        · cases hu
      · cases hu
    · split at h
      · exfalso
        unfold numR at h
        simp only at h
        split at h
        · rename_i h46
          simp only [Prod.mk.injEq, Bool.and_eq_true] at h
          obtain ⟨-, h1, h2, -⟩ := h
          generalize hw1 : (d :: (v0 ++ c :: x)).dropWhile isDigit = w1 at h46 h1 h2
          have hs1 : w1 <:+ d :: (v0 ++ c :: x) := by rw [← hw1]; exact dropWhile_suffix _ _
          cases w1 with
          | nil => cases h46
          | cons e w1 =>
            simp only [List.head?_cons, Option.some.injEq] at h46
            subst h46
            simp only [List.drop_succ_cons, List.drop_zero] at h1 h2
            -- the rest after the digits
            obtain ⟨a, ha⟩ := hs1
            have key : ∀ (b : Bytes), b ++ w1 = d :: (v0 ++ c :: x) → b.getLast? = some 46 → False := by
              intro b hb hl
              generalize hw2 : w1.dropWhile isDigit = w2 at h1 h2
              obtain ⟨g, hg⟩ : w2 <:+ w1 := by rw [← hw2]; exact dropWhile_suffix _ _
              have hall : ∀ c ∈ g, isDigit c = true := dropWhile_all (x := w2) (by rw [hg, hw2])
              unfold expR at h1 h2
              split at h1
              · rename_i he
                rw [if_pos he] at h2
                simp only at h1 h2
                have hss : signR (w2.drop 1) <:+ w2 := by
                  unfold signR; split
                  · exact (List.drop_suffix _ _).trans (List.drop_suffix _ _)
                  · exact List.drop_suffix _ _
                generalize signR (w2.drop 1) = w3 at h1 h2 hss
                obtain ⟨i, hi⟩ := hss
                obtain ⟨j, hj⟩ := dropWhile_suffix isDigit w3
                rw [h1] at hj
                cases j using List.reverseRecOn with
                | nil =>
                  rw [← hj, List.nil_append] at h1 h2
                  cases x with
                  | nil => simp at h2
                  | cons e x =>
                    simp only [List.head?_cons, Option.any_some] at h2
                    rw [List.dropWhile_cons_of_pos h2] at h1
                    have := (dropWhile_suffix isDigit x).length_le
                    rw [h1] at this; simp at this; omega
                | append_singleton j e =>
                  have hd := dropWhile_all (w := j ++ [e]) (x := x) (by rw [hj, h1]) e (by simp)
                  have : e = c := by
                    refine snoc_inj (a := b ++ g ++ i ++ j) (b := d :: v0) (x := x) ?_
                    rw [List.cons_append, ← hb, ← hg, ← hi, ← hj]; simp
                  rw [this, f4] at hd; cases hd
              · simp only at h1
                subst h1
                cases g using List.reverseRecOn with
                | nil =>
                  rw [List.nil_append] at hg
                  obtain ⟨b', rfl⟩ : ∃ b', b = b' ++ [46] := by
                    cases b using List.reverseRecOn with
                    | nil => simp at hl
                    | append_singleton b' e => simp at hl; exact ⟨b', by rw [hl]⟩
                  refine f8 (snoc_inj (a := d :: v0) (b := b') (x := w2) ?_)
                  rw [List.cons_append, ← hb, ← hg]; simp
                | append_singleton g e =>
                  have hd := hall e (by simp)
                  have : e = c := by
                    refine snoc_inj (a := b ++ g) (b := d :: v0) (x := w2) ?_
                    rw [List.cons_append, ← hb, ← hg]; simp
                  rw [this, f4] at hd; cases hd
            exact key (a ++ [46]) (by rw [← ha]; simp) (by simp)
        · simp only [Prod.mk.injEq, and_true] at h
          have := dropWhile_last (a := d :: v0) h.2
          rw [f4] at this; cases this
      · split at h
        · exfalso
          simp only [Prod.mk.injEq, and_true] at h
          have := dropWhile_last h.2
          rw [f5] at this; cases this
        · split at h
          · rename_i u hu
            exfalso
            simp only [Prod.mk.injEq, and_true] at h
            obtain ⟨-, rfl⟩ := h
            split at hu
            · unfold spathR at hu
              simp only at hu
              split at hu
              · split at hu
                · rename_i h62
                  generalize hw : (((d :: (v0 ++ c :: u)).drop 1).dropWhile isPathChar).drop (spathSegments (((d :: (v0 ++ c :: u)).drop 1).dropWhile isPathChar)) = w at hu h62
                  have hws : w <:+ d :: (v0 ++ c :: u) := by
                    rw [← hw]
                    exact (List.drop_suffix _ _).trans ((dropWhile_suffix _ _).trans (List.drop_suffix _ _))
                  obtain ⟨a, ha⟩ := hws
                  cases w with
                  | nil => cases h62
                  | cons e w =>
                    simp at h62 hu
                    subst h62 hu
                    exact f9 (snoc_inj (a := d :: v0) (b := a) (by simpa using ha.symm))
                · cases hu
              · cases hu
            · cases hu
          · simp only [Prod.mk.injEq, and_true] at h
            have h := h.2
            unfold lexOp at h
            cases hf : opTable.find? (fun w => w.1.isPrefixOf (d :: (v0 ++ c :: x))) with
            | none =>
              rw [hf] at h
              exfalso
              have := congrArg List.length h
              simp at this; omega
            | some w =>
              rw [hf] at h
              simp only at h
              have hpre := List.isPrefixOf_iff_prefix.mp (List.find?_some (p := fun w : Bytes × TK => w.1.isPrefixOf (d :: (v0 ++ c :: x))) hf)
              have hw : w.1 = d :: v0 ++ [c] := by
                obtain ⟨t, ht⟩ := hpre
                rw [← ht] at h
                simp at h
                subst h
                have : w.1 ++ t = (d :: v0 ++ [c]) ++ t := by rw [ht]; simp
                exact List.append_cancel_right this
              have := table_stop w (List.mem_of_find?_eq_some hf) c (by rw [hw]; simp) (stops_soft hc)
              rw [hw] at this
              cases v0 with
              | nil => simp at this; exact ⟨by rw [this.1], this.2⟩
              | cons e v0 =>
                have := congrArg List.length this
                simp at this

theorem punct_char : ∀ c : UInt8, stops c = true → isSpace c = false → c ∈ b!"{}[]()\";,?@!*>" := by
  apply forall_byte; decide +kernel

theorem lexOp_char {c : UInt8} (hc : stops c = true) (hs : isSpace c = false) (x y : Bytes) : ∃ k, k ≠ .float ∧ lexOp (c :: x) = (k, 1) ∧ lexOp (c :: y) = (k, 1) := by
  have : c ∈ b!"()[]{};\"" := by
    simp only [stops, hs, Bool.false_or] at hc
    simpa using hc
  simp only [List.mem_cons, List.not_mem_nil, or_false] at this
  rcases this with rfl | rfl | rfl | rfl | rfl | rfl | rfl | rfl
  all_goals exact ⟨_, by decide, rfl, rfl⟩

/-- A token that ends with a bracket, a semicolon or a quote does not depend on what comes after it. -/
theorem punct_swap {v0 x y : Bytes} {c : UInt8} {k : TK} (hc : stops c = true) (hn : NoTrivia (v0 ++ c :: x))
    (h : tokR (v0 ++ c :: x) = (k, x, true)) : Tok (v0 ++ c :: y) k (v0 ++ [c]) y := by
  have ht : Tok (v0 ++ c :: x) k (v0 ++ [c]) x := by
    have hs : skip (v0 ++ c :: x) = v0 ++ c :: x := by
      unfold skip; rw [consumeTrivia_id (s := .init _) hn]; rfl
    rw [tok_iff]
    refine ⟨?_, by rw [hs]; exact h, by rw [hs]; simp⟩
    unfold CleanSkip; rw [consumeTrivia_id (s := .init _) hn]; rfl
  rcases punct_text hc h with rfl | ⟨rfl, rfl⟩
  · have hsp : isSpace c = false := by
      rw [isSpace_eq_isWhite]
      exact (noTrivia_cons hn).1
    obtain ⟨k', h1, h2, h3⟩ := lexOp_char hc hsp x y
    have g1 := tok_char (punct_char c hc hsp) h2 h1
    have g2 := tok_char (punct_char c hc hsp) h3 h1
    obtain ⟨rfl, -⟩ := ht.eq g1
    exact g2
  · have g : ∀ z : Bytes, Tok (36 :: 123 :: z) .dollar_curly [36, 123] z := by
      intro z
      refine tok_op (k := .dollar_curly) (n := 2) (by decide) ?_ rfl (by decide) rfl rfl (by simp)
      exact no_path (k := []) (rest := 36 :: 123 :: z) (by simp) (fun x hx => by simp at hx; exact hx ▸ (by decide))
    obtain ⟨rfl, -⟩ := ht.eq (g x)
    exact g y

/-- What comes after a token may be replaced. -/
theorem Tok.edge {x y p p' v : Bytes} {k : TK} (hy : Edge x y p) (h : Tok (p ++ x) k v (p' ++ x)) (hk : k ≠ .eof)
    (hq : k = .path_fragment → contR (p' ++ y) = true) : Tok (p ++ y) k v (p' ++ y) := by
  rcases hy with hy | hy
  · exact h.swap hy.1 hy.2 hk hq
  have htext := h.text
  have hv := h.ne hk
  have hsuf : v ++ (p' ++ x) <:+ p ++ x := by rw [← htext]; exact trivia_suffix _
  cases p using List.reverseRecOn with
  | nil =>
    have := hsuf.length_le
    have h0 : 0 < v.length := List.length_pos_iff.mpr hv
    simp at this; omega
  | append_singleton p c =>
    have hc := (hard_facts c (hy c (by simp))).1
    have hQ : Quiet' (c :: x) (c :: y) := by
      intro d hd
      simp only [List.head?_cons, Option.mem_def, Option.some.injEq] at hd
      subst hd
      exact ⟨stops_soft hc, fun h => by simp [h]⟩
    have e : ∀ z : Bytes, p ++ [c] ++ z = p ++ c :: z := fun z => by simp
    rw [e] at h htext hsuf ⊢
    cases p' using List.reverseRecOn with
    | nil =>
      simp only [List.nil_append] at h htext hsuf ⊢
      -- the text of the token ends with `c`
      obtain ⟨v0, rfl⟩ : ∃ v0, v = v0 ++ [c] := by
        cases v using List.reverseRecOn with
        | nil => exact absurd rfl hv
        | append_singleton v0 d =>
          obtain ⟨a, ha⟩ := hsuf
          have : d = c := snoc_inj (a := a ++ v0) (b := p) (x := x) (by simpa using ha)
          exact ⟨v0, by rw [this]⟩
      have h2 := tok_iff.mp h
      obtain ⟨a, ha⟩ := hsuf
      have hpa : p = a ++ v0 := by
        have : (a ++ v0) ++ c :: x = p ++ c :: x := by simpa using ha
        exact (List.append_cancel_right this).symm
      subst hpa
      by_cases hv0 : v0 = []
      · -- the whole token is `c`
        subst hv0
        simp only [List.nil_append, List.append_nil] at h h2 htext ⊢
        have hn := skip_noTrivia (a ++ c :: x)
        rw [htext] at hn h2
        have ht := punct_swap (v0 := []) (y := y) hc hn h2.2.1
        have hcl : Syntax.skip (a ++ c :: y) = c :: y ∧ CleanSkip (a ++ c :: y) := by
          exact skip_hard y hc h2.1 (by simpa using htext)
        exact Tok.of_skip (by rw [hcl.1]; exact ht) hcl.2
      · have hs := skip_swap (p := a ++ v0) (q := v0) hQ h2.1 (by rw [htext]; simp) hv0
        have hn := skip_noTrivia (a ++ v0 ++ c :: x)
        have e2 : v0 ++ [c] ++ x = v0 ++ c :: x := by simp
        rw [htext, e2] at hn h2
        exact Tok.of_skip (by rw [hs.1]; exact punct_swap hc hn h2.2.1) hs.2
    | append_singleton p' d =>
      have : d = c := by
        obtain ⟨a, ha⟩ := hsuf
        exact snoc_inj (a := a ++ v ++ p') (b := p) (x := x) (by simpa using ha)
      subst this
      have e' : ∀ z : Bytes, p' ++ [d] ++ z = p' ++ d :: z := fun z => by simp
      rw [e'] at h ⊢
      exact h.swap hQ (apart_stop hc _ _ _) hk (by rw [← e']; exact hq)

end Verif.Nixf.Syntax
