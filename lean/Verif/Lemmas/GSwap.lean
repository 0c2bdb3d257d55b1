import Verif.Lemmas.TokEdge
/-
What comes after a phrase of the grammar may be replaced.
-/
namespace Verif.Nixf.Syntax
open Lexical Strings Verif.Props

/-! ### Tokens of paths -/

def isFrag (c : UInt8) : Bool := isPathChar c || c == 47

/-- `lexPath` as a function of the rest of the source. -/
def ptokR (r : Bytes) : TK × Bytes :=
  match r with
  | [] => (.path_end, [])
  | c :: t =>
    if b!"${".isPrefixOf (c :: t) then (.dollar_curly, (c :: t).drop 2)
    else if b!"~/".isPrefixOf (c :: t) then (.path_fragment, ((c :: t).drop 2).dropWhile isFrag)
    else if isFrag c then (.path_fragment, (c :: t).dropWhile isFrag)
    else (.path_end, c :: t)

theorem tokP_pure {r v r' : Bytes} {k : TK} : TokP r k v r' ↔ ptokR r = (k, r') ∧ r = v ++ r' := by
  have h1 : (lexPath (.init r)).1.kind = (ptokR r).1 ∧ (lexPath (.init r)).2.rem = (ptokR r).2 := by
    unfold lexPath ptokR
    cases r with
    | nil => exact ⟨rfl, rfl⟩
    | cons c t =>
      have e : (St.init (c :: t)).rem = c :: t := rfl
      simp only [e, peekPrefix]
      by_cases m1 : b!"${".isPrefixOf (c :: t) = true
      · simp only [if_pos m1]
        exact ⟨rfl, by simp only [consume_rem, e]⟩
      · simp only [if_neg m1]
        by_cases m2 : b!"~/".isPrefixOf (c :: t) = true
        · simp only [if_pos m2]
          exact ⟨rfl, by simp only [consumeWhile_rem, consume_rem, e]; rfl⟩
        · simp only [if_neg m2]
          by_cases m3 : isFrag c = true
          · have m3' : (isPathChar c || c == 47) = true := m3
            simp only [if_pos m3, if_pos m3']
            exact ⟨rfl, by simp only [consumeWhile_rem, e]; rfl⟩
          · have m3' : ¬ (isPathChar c || c == 47) = true := m3
            simp only [if_neg m3, if_neg m3']
            exact ⟨rfl, rfl⟩
  obtain ⟨n, ho, -⟩ := lexPath_out (.init r)
  have hv := ho.view
  have hr := ho.adv.rem
  simp only [Nat.zero_add, List.drop_zero] at hv hr
  have e : (St.init r).rem = r := rfl
  rw [e] at hv hr
  constructor
  · rintro ⟨t, s, h2, h3, h4, h5⟩
    rw [h2] at h1 hv hr
    refine ⟨Prod.ext (h1.1.symm.trans h3) (h1.2.symm.trans h5), ?_⟩
    rw [← h4, ← h5, hv, hr, List.take_append_drop]
  · rintro ⟨h2, h3⟩
    rw [h2] at h1
    refine ⟨(lexPath (.init r)).1, (lexPath (.init r)).2, rfl, h1.1, ?_, h1.2⟩
    rw [hv]
    rw [h1.2] at hr
    have hr : r' = r.drop n := hr
    have h4 : r.take n ++ r' = v ++ r' := ((congrArg (r.take n ++ ·) hr).trans (List.take_append_drop n r)).trans h3
    exact List.append_cancel_right h4

theorem stops_frag : ∀ d : UInt8, soft d = true → isFrag d = false ∧ d ≠ 36 ∧ d ≠ 126 ∧ d ≠ 39 ∧ d ≠ 92 := by
  apply forall_byte; decide +kernel

theorem ptokR_swap {x y p p' v : Bytes} {k : TK} (hy : Quiet' x y) (h : TokP (p ++ x) k v (p' ++ x)) : TokP (p ++ y) k v (p' ++ y) := by
  rw [tokP_pure] at h ⊢
  obtain ⟨h1, h2⟩ := h
  have hv : p = v ++ p' := List.append_cancel_right (by simpa using h2)
  refine ⟨?_, by rw [hv]; simp⟩
  have hfs : ∀ d ∈ y.head?, isFrag d = false := fun d hd => (stops_frag d (hy d hd).1).1
  cases p with
  | nil =>
    have : v = [] ∧ p' = [] := by simpa using hv.symm
    obtain ⟨rfl, rfl⟩ := this
    simp only [List.nil_append] at h1 ⊢
    have hx : (ptokR x).1 = .path_end := by
      unfold ptokR at h1 ⊢
      cases x with
      | nil => rfl
      | cons c t =>
        simp only at h1 ⊢
        split at h1
        · have := congrArg (fun z => z.2.length) h1; simp only [List.length_drop, List.length_cons] at this; omega
        · rename_i n1; rw [if_neg n1]
          split at h1
          · have := congrArg (fun z => z.2.length) h1
            have h3 := (dropWhile_suffix isFrag ((c :: t).drop 2)).length_le
            simp at this h3; omega
          · rename_i n2; rw [if_neg n2]
            split at h1
            · rename_i hc
              have := congrArg (fun z => z.2.length) h1
              rw [List.dropWhile_cons_of_pos hc] at this
              have h3 := (dropWhile_suffix isFrag t).length_le
              simp at this h3; omega
            · rename_i n3; rw [if_neg n3]
    have hk : k = .path_end := by rw [← hx, h1]
    subst hk
    unfold ptokR
    cases hyc : y with
    | nil => rfl
    | cons d t =>
      obtain ⟨a, b, c, -⟩ := stops_frag d (hy d (by simp [hyc])).1
      have n1 : ¬ b!"${".isPrefixOf (d :: t) = true := by
        intro h; simp only [List.isPrefixOf, Bool.and_eq_true, beq_iff_eq] at h; exact b h.1.symm
      have n2 : ¬ b!"~/".isPrefixOf (d :: t) = true := by
        intro h; simp only [List.isPrefixOf, Bool.and_eq_true, beq_iff_eq] at h; exact c h.1.symm
      simp only [if_neg n1, if_neg n2, a, Bool.false_eq_true, if_false]
  | cons c p =>
    have two : ∀ (a b : UInt8), (∀ d ∈ y.head?, d = b → x.head? = some b) → [a, b].isPrefixOf (c :: (p ++ y)) = true → [a, b].isPrefixOf (c :: (p ++ x)) = true := by
      intro a b hb h
      cases p with
      | nil =>
        cases hyc : y with
        | nil => rw [hyc] at h; simp [List.isPrefixOf] at h
        | cons d t =>
          rw [hyc] at h
          simp only [List.nil_append, List.isPrefixOf, Bool.and_true, Bool.and_eq_true, beq_iff_eq] at h
          have := hb d (by simp [hyc]) h.2.symm
          cases x with
          | nil => cases this
          | cons e s => simp at this; subst this; simp [List.isPrefixOf, h.1]
      | cons d p => simpa [List.isPrefixOf] using h
    have h36 : ∀ d ∈ y.head?, d = 123 → x.head? = some 123 := fun d hd h => (hy d hd).2 h
    have h47 : ∀ d ∈ y.head?, d = 47 → x.head? = some 47 := fun d hd h => by
      have := (soft_facts d (hy d hd).1).2.2.2.2.2.1; exact absurd h this
    unfold ptokR at h1 ⊢
    simp only [List.cons_append] at h1 ⊢
    split at h1
    · rename_i m1
      simp only [Prod.mk.injEq] at h1
      obtain ⟨rfl, h1⟩ := h1
      have hl : 2 ≤ (c :: p).length := by
        have := congrArg List.length h1
        have hl2 := (List.isPrefixOf_iff_prefix.mp m1).length_le
        simp at this hl2 ⊢; omega
      have := prefix_of_longer (p := c :: p) (by rw [List.cons_append]; exact m1) (by simpa using hl) y
      rw [List.cons_append] at this
      rw [if_pos this]
      rw [← List.cons_append, List.drop_append_of_le_length hl] at h1
      rw [← List.cons_append, List.drop_append_of_le_length hl, List.append_cancel_right h1]
    · rename_i n1
      have n1' := fun h => n1 (two 36 123 h36 h)
      rw [if_neg n1']
      split at h1
      · rename_i m2
        simp only [Prod.mk.injEq] at h1
        obtain ⟨rfl, h1⟩ := h1
        have hl : 2 ≤ (c :: p).length := by
          have h3 := (dropWhile_suffix isFrag ((c :: (p ++ x)).drop 2)).length_le
          rw [h1] at h3
          have hl2 := (List.isPrefixOf_iff_prefix.mp m2).length_le
          simp at h3 hl2 ⊢; omega
        have := prefix_of_longer (p := c :: p) (by rw [List.cons_append]; exact m2) (by simpa using hl) y
        rw [List.cons_append] at this
        rw [if_pos this]
        rw [← List.cons_append, List.drop_append_of_le_length hl] at h1
        rw [← List.cons_append, List.drop_append_of_le_length hl, dropWhile_swap hfs h1]
      · rename_i n2
        have n2' := fun h => n2 (two 126 47 h47 h)
        rw [if_neg n2']
        split at h1
        · rename_i hc
          simp only [Prod.mk.injEq] at h1
          obtain ⟨rfl, h1⟩ := h1
          rw [if_pos hc, ← List.cons_append, dropWhile_swap (p := c :: p) hfs h1]
        · rename_i hc
          rw [if_neg hc]
          simp only [Prod.mk.injEq] at h1
          obtain ⟨rfl, h1⟩ := h1
          rw [← List.cons_append] at h1
          rw [← List.cons_append, List.append_cancel_right h1]

/-- The last character of a token of a path. -/
theorem ptok_last {r v : Bytes} {c : UInt8} {k : TK} {r' : Bytes} (h : TokP r k (v ++ [c]) r') : isFrag c = true ∨ v = b!"$" ∧ c = 123 := by
  rw [tokP_pure] at h
  obtain ⟨h1, h2⟩ := h
  unfold ptokR at h1
  cases r with
  | nil => simp at h2
  | cons a t =>
    simp only at h1
    split at h1
    · rename_i m
      simp only [Prod.mk.injEq] at h1
      obtain ⟨u, hu⟩ := List.isPrefixOf_iff_prefix.mp m
      rw [← hu] at h1 h2
      simp at h1
      rw [h1.2] at h2
      have h3 : ([36, 123] : Bytes) = v ++ [c] := List.append_cancel_right h2
      cases v with
      | nil => simp at h3
      | cons b v =>
        cases v with
        | nil => simp at h3; exact .inr ⟨by simp [← h3.1], h3.2.symm⟩
        | cons d v => have := congrArg List.length h3; simp at this
    · split at h1
      · rename_i m
        simp only [Prod.mk.injEq] at h1
        obtain ⟨u, hu⟩ := List.isPrefixOf_iff_prefix.mp m
        rw [← hu] at h1 h2
        simp at h1
        left
        obtain ⟨w, hw⟩ := dropWhile_suffix isFrag u
        have hw' := hw
        rw [h1.2] at hw
        rw [← hw, ← List.append_assoc] at h2
        have h3 := List.append_cancel_right h2
        cases w using List.reverseRecOn with
        | nil =>
          have : v ++ [c] = [126] ++ [47] := by rw [← h3]; rfl
          have := (List.append_inj_right' this rfl)
          simp at this; subst this; decide
        | append_singleton w d =>
          have : v ++ [c] = ([126, 47] ++ w) ++ [d] := by rw [← h3]; simp
          have := (List.append_inj_right' this rfl)
          simp at this; subst this
          exact dropWhile_all (w := w ++ [c]) (x := r') (by rw [hw]; exact h1.2) c (by simp)
      · split at h1
        · simp only [Prod.mk.injEq] at h1
          left
          have h3 := h1.2
          rw [h2] at h3
          exact dropWhile_all h3 c (by simp)
        · simp only [Prod.mk.injEq] at h1
          rw [h1.2] at h2
          have := congrArg List.length h2
          simp only [List.length_append, List.length_cons] at this
          omega

theorem TokP.edge {x y p p' v : Bytes} {k : TK} (hy : Edge x y p) (h : TokP (p ++ x) k v (p' ++ x)) (hp : p = [] → Quiet' x y) : TokP (p ++ y) k v (p' ++ y) := by
  rcases hy with hy | hy
  · exact ptokR_swap hy.1 h
  cases p using List.reverseRecOn with
  | nil => exact ptokR_swap (hp rfl) h
  | append_singleton p c =>
    have hc := (hard_facts c (hy c (by simp))).1
    have hQ : Quiet' (c :: x) (c :: y) := by
      intro d hd
      simp only [List.head?_cons, Option.mem_def, Option.some.injEq] at hd
      subst hd
      exact ⟨stops_soft hc, fun h => by simp [h]⟩
    have ht := (tokP_pure.mp h).2
    cases p' using List.reverseRecOn with
    | append_singleton p' d =>
      have : d = c := snoc_inj (a := v ++ p') (b := p) (x := x) (by simpa using ht.symm)
      subst this
      have e : ∀ q z : Bytes, q ++ [d] ++ z = q ++ d :: z := fun q z => by simp
      rw [e, e] at h ⊢
      exact ptokR_swap hQ h
    | nil =>
      have hv : v = p ++ [c] := by
        have : (p ++ [c]) ++ x = v ++ x := by simpa using ht
        exact (List.append_cancel_right this).symm
      subst hv
      rcases ptok_last h with hl | ⟨rfl, rfl⟩
      · rw [(stops_frag c (stops_soft hc)).1] at hl; cases hl
      · have : k = .dollar_curly := by
          have := (tokP_pure.mp h).1
          unfold ptokR at this
          simp only [List.cons_append, List.nil_append] at this
          rw [if_pos (by simp [List.isPrefixOf])] at this
          exact (Prod.ext_iff.mp this).1.symm
        subst this
        rw [tokP_pure]
        refine ⟨?_, rfl⟩
        unfold ptokR
        simp only [List.cons_append, List.nil_append]
        rw [if_pos (by simp [List.isPrefixOf])]
        rfl

/-! ### The rest gets shorter -/

theorem Tok.suf {r v r' : Bytes} {k : TK} (h : Tok r k v r') : r' <:+ r := by
  have : r' <:+ Syntax.skip r := by rw [h.text]; exact List.suffix_append _ _
  exact this.trans (trivia_suffix _)

theorem TokP.suf {r v r' : Bytes} {k : TK} (h : TokP r k v r') : r' <:+ r := by
  rw [(tokP_pure.mp h).2]; exact List.suffix_append _ _

theorem skip_suf (r : Bytes) : skip r <:+ r := trivia_suffix _

/-- Steps along suffixes. -/
macro "suf" : tactic => `(tactic| with_reducible repeat first
  | exact List.suffix_refl _
  | assumption
  | refine List.IsSuffix.trans ?_ (Tok.suf (by assumption))
  | refine List.IsSuffix.trans ?_ (TokP.suf (by assumption))
  | refine List.IsSuffix.trans ?_ (skip_suf _)
  | refine List.IsSuffix.trans ?_ (List.drop_suffix _ _)
  | refine List.IsSuffix.trans ?_ (List.suffix_cons _ _))

set_option maxHeartbeats 2000000 in
theorem G.suf {nt : NT} {r r' : Bytes} {l : List Syn} (h : G nt r l r') : r' <:+ r := by
  induction h with
  | str _ _ ih => exact ((List.suffix_cons _ _).trans ih).trans (Tok.suf (by assumption))
  | ind _ _ ih => exact (((List.suffix_cons _ _).trans (List.suffix_cons _ _)).trans ih).trans (Tok.suf (by assumption))
  | strName _ _ ih => exact ((List.suffix_cons _ _).trans ih).trans (Tok.suf (by assumption))
  | pathLit _ _ ih => exact ih.trans (skip_suf _)
  | esc _ _ _ ih => exact ih.trans (List.drop_suffix _ _)
  | char _ _ _ _ ih => exact ih.trans (List.suffix_cons _ _)
  | dollar _ _ ih => exact ih.trans (List.drop_suffix _ _)
  | interp _ _ _ _ ih1 ih2 => exact (ih2.trans ((Tok.suf (by assumption)).trans ih1)).trans ((List.suffix_cons _ _).trans (List.suffix_cons _ _))
  | _ => with_reducible repeat first
      | exact List.suffix_refl _
      | assumption
      | refine List.IsSuffix.trans ?_ (Tok.suf (by assumption))
      | refine List.IsSuffix.trans ?_ (TokP.suf (by assumption))
      | refine List.IsSuffix.trans ?_ (by assumption)

/-! ### Oddities -/

mutual
/-- The expression has a `?` without an attribute path, or a path with the text `${`. Neither is allowed in Nix. -/
def odd : Syn → Bool
  | .hole => false
  | .ch _ => false
  | .interp e => odd e
  | .var _ => false
  | .int _ => false
  | .float _ => false
  | .spath _ => false
  | .str ps => oddL ps
  | .path ps => oddL ps || dollarIn ps
  | .paren e => odd e
  | .list es => oddL es
  | .set _ bs => oddL bs
  | .select e ns => odd e || oddL ns
  | .selectOr e ns d => odd e || oddL ns || odd d
  | .call f as => odd f || oddL as
  | .un _ e => odd e
  | .bin _ l r => odd l || odd r
  | .has e ns => ns.isEmpty || odd e || oddL ns
  | .lambda a b => odd a || odd b
  | .ite c t e => odd c || odd t || odd e
  | .assert c e => odd c || odd e
  | .let_ bs e => oddL bs || odd e
  | .legacyLet bs => oddL bs
  | .with_ w e => odd w || odd e
  | .name _ => false
  | .strName ps => oddL ps
  | .interpName e => odd e
  | .binding ns e => oddL ns || odd e
  | .inherit ns => oddL ns
  | .inheritFrom e ns => odd e || oddL ns
  | .formal _ _ => false
  | .formalOr _ _ d => odd d
  | .ellipsis _ => false
  | .comma => false
  | .argName _ => false
  | .argSet fs => oddL fs
  | .argBoth _ fs => oddL fs
def oddL : List Syn → Bool
  | [] => false
  | s :: l => odd s || oddL l
/-- The text has a dollar sign. -/
def dollarIn : List Syn → Bool
  | [] => false
  | .ch c :: l => c == 36 || dollarIn l
  | _ :: l => dollarIn l
end

theorem oddL_append (a b : List Syn) : oddL (a ++ b) = (oddL a || oddL b) := by
  induction a with
  | nil => simp [oddL]
  | cons x a ih => simp [oddL, ih, Bool.or_assoc]

theorem dollarIn_append (a b : List Syn) : dollarIn (a ++ b) = (dollarIn a || dollarIn b) := by
  induction a with
  | nil => simp [dollarIn]
  | cons x a ih => cases x <;> simp [dollarIn, ih, Bool.or_assoc]

theorem dollarIn_chars (v : Bytes) : dollarIn (v.map .ch) = v.contains 36 := by
  induction v with
  | nil => rfl
  | cons c v ih => simp only [List.map_cons, dollarIn, ih, List.contains_cons]; rw [BEq.comm (a := c)]

theorem oddL_chars (v : Bytes) : oddL (v.map .ch) = false := by
  induction v with
  | nil => rfl
  | cons c v ih => simp [oddL, odd, ih]

theorem tail_odd {nt : NT} {r r' : Bytes} {l : List Syn} (h : G nt r l r') : ∀ {p t}, nt = .tail p t → odd t = true → oddL l = true := by
  induction h with
  | stop => rintro _ _ ⟨⟩ h; simp [oddL, h]
  | bin _ _ _ _ _ _ _ ih => rintro _ _ ⟨⟩ h; exact ih rfl (by simp [odd, h])
  | has _ _ _ _ _ ih => rintro _ _ ⟨⟩ h; exact ih rfl (by simp [odd, h])
  | hasNone _ _ _ _ ih => rintro _ _ ⟨⟩ h; exact ih rfl (by simp [odd, h])
  | _ => rintro _ _ ⟨⟩

/-! ### Another rest -/

section
variable {x y P : Bytes}

/-- `r` with `y` at its end instead of `x`. -/
def sw (x y r : Bytes) : Bytes := r.take (r.length - x.length) ++ y

theorem sw_app (x y p : Bytes) : sw x y (p ++ x) = p ++ y := by simp [sw]

theorem sw_self (x y : Bytes) : sw x y x = y := by simp [sw]

theorem sw_cons {x y r : Bytes} (c : UInt8) (h : x <:+ r) : sw x y (c :: r) = c :: sw x y r := by
  obtain ⟨p, rfl⟩ := h
  rw [← List.cons_append, sw_app, sw_app]; rfl

theorem suf_cancel {p P x : Bytes} (h : p ++ x <:+ P ++ x) : p <:+ P := by
  obtain ⟨a, ha⟩ := h
  rw [← List.append_assoc] at ha
  exact ⟨a, List.append_cancel_right ha⟩

theorem swT {r r' v : Bytes} {k : TK} (hy : Edge x y P) (t : Tok r k v r') (hx : x <:+ r') (hr : r <:+ P ++ x) (h1 : k ≠ .eof) (h2 : k ≠ .path_fragment) :
    Tok (sw x y r) k v (sw x y r') := by
  obtain ⟨p, rfl⟩ := hx.trans t.suf
  obtain ⟨p', rfl⟩ := hx
  rw [sw_app, sw_app]
  exact t.edge (hy.suffix (suf_cancel hr)) h1 (fun h => absurd h h2)

theorem swP {r r' v : Bytes} {k : TK} (hy : Edge x y P) (t : TokP r k v r') (hx : x <:+ r') (hr : r <:+ P ++ x) (h1 : r ≠ x ∨ Quiet' x y) :
    TokP (sw x y r) k v (sw x y r') := by
  obtain ⟨p, rfl⟩ := hx.trans t.suf
  obtain ⟨p', rfl⟩ := hx
  rw [sw_app, sw_app]
  refine t.edge (hy.suffix (suf_cancel hr)) ?_
  rintro rfl
  exact h1.resolve_left (fun h => h rfl)

/-- Nothing hard in front of the rest: it is a quiet place. -/
theorem edge_soft {c : UInt8} {w : Bytes} (hy : Edge x y P) (h : w ++ c :: x <:+ P ++ x) (hc : hard c = false) : Quiet' x y := by
  refine (hy.resolve_right fun h1 => ?_).1
  have h2 : w ++ [c] <:+ P := suf_cancel (x := x) (by simpa using h)
  obtain ⟨a, rfl⟩ := h2
  rw [h1 c (by simp)] at hc
  cases hc

/-- Where a token comes from. -/
theorem tokR_cases {c : UInt8} {t r' : Bytes} {k : TK} {b : Bool} (h : tokR (c :: t) = (k, r', b)) :
    (k = .path_fragment ∧ pathR (c :: t) = some r' ∧ (isPathChar c || c == 47 || c == 126) = true) ∨
    k ∈ [.uri, .int, .float, .spath, .unknown] ∨ (∃ v, k = maybeKW v) ∨ ∃ w, (w, k) ∈ opTable ∧ c :: t = w ++ r' := by
  unfold tokR at h
  simp only at h
  split at h
  · rename_i u hu
    split at hu
    · rename_i hc
      simp only [Prod.mk.injEq] at h
      exact .inl ⟨h.1.symm, h.2.1 ▸ hu, hc⟩
    · cases hu
  · right
    split at h
    · simp only [Prod.mk.injEq] at h; simp [← h.1]
    · split at h
      · unfold numR at h
        simp only at h
        split at h <;> (simp only [Prod.mk.injEq] at h; simp [← h.1])
      · split at h
        · simp only [Prod.mk.injEq] at h
          exact .inr (.inl ⟨_, h.1.symm⟩)
        · split at h
          · simp only [Prod.mk.injEq] at h; simp [← h.1]
          · unfold lexOp at h
            split at h
            · rename_i w k' hf
              simp only [Prod.mk.injEq] at h
              obtain ⟨rfl, h, -⟩ := h
              refine .inr (.inr ⟨w, List.mem_of_find?_eq_some hf, ?_⟩)
              have hq := List.find?_some hf
              obtain ⟨q, hq⟩ := List.isPrefixOf_iff_prefix.mp hq
              simp only at hq
              rw [← hq] at h ⊢
              simp at h
              rw [h]
            · simp only [Prod.mk.injEq] at h; simp [← h.1]

theorem maybeKW_mem (v : Bytes) : maybeKW v = .id_ ∨ maybeKW v ∈ keywords.map (·.2) := by
  unfold maybeKW
  cases h : keywords.lookup v with
  | none => exact .inl rfl
  | some k =>
    right
    have aux : ∀ (l : List (Bytes × TK)), l.lookup v = some k → k ∈ l.map (·.2) := by
      intro l
      induction l with
      | nil => intro h; cases h
      | cons p l ih =>
        intro h
        obtain ⟨a, b⟩ := p
        simp only [List.lookup_cons] at h
        split at h
        · cases h; simp
        · simp only [List.map_cons, List.mem_cons]; exact .inr (ih h)
    exact aux _ h

/-- The text of punctuation. -/
theorem Tok.punct {r v r' : Bytes} {k : TK} {w : Bytes} (t : Tok r k v r') (h1 : k ∉ [.path_fragment, .uri, .int, .float, .spath, .unknown, .id_, .eof])
    (h2 : k ∉ keywords.map (·.2)) (h3 : ∀ q ∈ opTable, q.2 = k → q.1 = w) : v = w := by
  obtain ⟨-, h, hv⟩ := tok_iff.mp t
  generalize Syntax.skip r = s at h hv
  cases s with
  | nil => simp only [tokR, Prod.mk.injEq] at h; rw [← h.1] at h1; simp at h1
  | cons c t =>
    rcases tokR_cases h with ⟨h, -⟩ | h | ⟨u, h⟩ | ⟨u, h, hu⟩
    · simp [h] at h1
    · exact absurd (by revert h; simp; tauto) h1
    · rcases maybeKW_mem u with h4 | h4
      · rw [← h] at h4; simp [h4] at h1
      · rw [← h] at h4; exact absurd h4 h2
    · rw [← h3 _ h rfl]
      rw [hv] at hu
      exact List.append_cancel_right hu

theorem Tok.r_curly {r v r' : Bytes} (t : Tok r .r_curly v r') : v = b!"}" := t.punct (by decide) (by decide) (by decide)

/-- The start of a path. -/
theorem path_start {r v r1 : Bytes} (t : Tok r .path_fragment v r1) :
    contR r1 = true ∧ ∀ {k w rp}, TokP (skip r) k w rp → rp = r1.dropWhile isFrag := by
  obtain ⟨-, h, -⟩ := tok_iff.mp t
  generalize skip r = s at h
  cases s with
  | nil => simp [tokR] at h
  | cons c t =>
    rcases tokR_cases h with ⟨-, hp, hc⟩ | h | ⟨u, h⟩ | ⟨u, h, hu⟩
    · unfold pathR at hp
      simp only at hp
      have key : ∀ u : Bytes, (if u.head? = some 47 then (if contR (u.drop 1) then some (u.drop 1) else none) else none) = some r1 → u = 47 :: r1 ∧ contR r1 = true := by
        intro u hu
        split at hu
        · rename_i h47
          split at hu
          · cases hu
            cases u with
            | nil => simp at h47
            | cons a u => simp at h47; subst h47; exact ⟨rfl, by assumption⟩
          · cases hu
        · cases hu
      obtain ⟨h1, h2⟩ := key _ hp
      refine ⟨h2, fun ht => ?_⟩
      have ht := (tokP_pure.mp ht).1
      unfold ptokR at ht
      simp only at ht
      split at h1
      · rename_i h126
        simp only [List.head?_cons, Option.some.injEq] at h126
        subst h126
        simp only [List.drop_succ_cons, List.drop_zero] at h1
        subst h1
        rw [if_neg (by simp [List.isPrefixOf]), if_pos (by simp [List.isPrefixOf])] at ht
        simp only [Prod.mk.injEq] at ht
        exact ht.2.symm
      · rename_i h126
        simp only [List.head?_cons, Option.some.injEq] at h126
        have hc' : isFrag c = true := by
          simp only [Bool.or_eq_true, beq_iff_eq, h126, or_false] at hc
          simp only [isFrag, Bool.or_eq_true, beq_iff_eq, hc]
        have hne : ∀ c : UInt8, isFrag c = true → c ≠ 36 := by apply forall_byte; decide +kernel
        rw [if_neg (by simp only [List.isPrefixOf, Bool.and_eq_true, beq_iff_eq]; exact fun h => hne c hc' h.1.symm),
          if_neg (by simp only [List.isPrefixOf, Bool.and_eq_true, beq_iff_eq]; exact fun h => h126 h.1.symm), if_pos hc'] at ht
        simp only [Prod.mk.injEq] at ht
        rw [← ht.2]
        obtain ⟨w, hw⟩ := dropWhile_suffix isPathChar (c :: t)
        rw [h1] at hw
        have hall : ∀ a ∈ w, isPathChar a = true := by
          have : (w ++ 47 :: r1).dropWhile isPathChar = 47 :: r1 := by rw [hw]; exact h1
          exact dropWhile_all this
        rw [← hw]
        clear hw ht h1 hp
        induction w with
        | nil => rw [List.nil_append, List.dropWhile_cons_of_pos (by decide)]
        | cons a w ih =>
          rw [List.cons_append, List.dropWhile_cons_of_pos (by simp [isFrag, hall a (by simp)])]
          exact ih (fun b hb => hall b (by simp [hb]))
    · simp at h
    · rcases maybeKW_mem u with h4 | h4
      · rw [← h] at h4; cases h4
      · rw [← h] at h4; exact absurd h4 (by decide)
    · exact absurd rfl ((by decide : ∀ q ∈ opTable, q.2 ≠ TK.path_fragment) _ h)

/-- A body of a path starts with a token. -/
theorem pbody_first {r r' : Bytes} {l : List Syn} (h : G .pbody r l r') : ∃ k v r1, TokP r k v r1 ∧ r' <:+ r1 := by
  cases h with
  | pend h => exact ⟨_, _, _, h, List.suffix_refl _⟩
  | pinterp h h1 g t g2 => exact ⟨_, _, _, h, (((g2.suf.trans t.suf).trans g.suf).trans h1.suf)⟩
  | ptext h h1 _ _ g => exact ⟨_, _, _, h, g.suf⟩

theorem ptokR_kind (r : Bytes) : (ptokR r).1 = .path_end ∧ (ptokR r).2 = r ∨ (ptokR r).1 = .dollar_curly ∧ b!"${" ++ (ptokR r).2 = r ∨
    (ptokR r).1 = .path_fragment ∧ (ptokR r).2.length < r.length := by
  unfold ptokR
  cases r with
  | nil => exact .inl ⟨rfl, rfl⟩
  | cons c t =>
    simp only
    split
    · rename_i h
      obtain ⟨q, hq⟩ := List.isPrefixOf_iff_prefix.mp h
      exact .inr (.inl ⟨rfl, by rw [← hq]; rfl⟩)
    · split
      · right; right
        have h3 := (dropWhile_suffix isFrag ((c :: t).drop 2)).length_le
        refine ⟨rfl, ?_⟩
        simp at h3 ⊢; omega
      · split
        · rename_i hc
          right; right
          refine ⟨rfl, ?_⟩
          simp only
          rw [List.dropWhile_cons_of_pos hc]
          have h3 := (dropWhile_suffix isFrag t).length_le
          simp; omega
        · exact .inl ⟨rfl, rfl⟩

theorem TokP.ne {r v r' : Bytes} {k : TK} (h : TokP r k v r') (hk : k ≠ .path_end) : r'.length < r.length := by
  have h1 := (tokP_pure.mp h).1
  have := ptokR_kind r
  rw [h1] at this
  rcases this with h | h | h
  · exact absurd h.1 hk
  · rw [← h.2]; simp; omega
  · exact h.2

theorem TokP.dollar {r v r' : Bytes} (h : TokP r .dollar_curly v r') : v = b!"${" := by
  have h1 := tokP_pure.mp h
  have := ptokR_kind r
  rw [h1.1] at this
  rcases this with h | h | h
  · cases h.1
  · have := h1.2; rw [← h.2] at this; exact (List.append_cancel_right this).symm
  · cases h.1

/-- A path remains one. -/
theorem swPath {r v r1 r' : Bytes} {ps : List Syn} (hy : Edge x y P) (t : Tok r .path_fragment v r1) (g : G .pbody (skip r) ps r') (hx : x <:+ r')
    (hr : r <:+ P ++ x) : Tok (sw x y r) .path_fragment v (sw x y r1) ∧ x <:+ r1 := by
  obtain ⟨h1, h2⟩ := path_start t
  obtain ⟨k, w, rp, h3, h4⟩ := pbody_first g
  have h5 := h2 h3
  have hx1 : x <:+ r1 := (hx.trans h4).trans (h5 ▸ dropWhile_suffix isFrag r1)
  refine ⟨?_, hx1⟩
  have hc : contR (sw x y r1) = true := by
    unfold contR at h1
    simp only [Bool.or_eq_true] at h1
    obtain ⟨p1, rfl⟩ := hx1
    rw [sw_app]
    rcases h1 with h1 | h1
    · cases p1 with
      | nil =>
        exfalso
        cases x with
        | nil => simp at h1
        | cons c x =>
          simp at h1
          rw [List.nil_append, List.dropWhile_cons_of_pos (by simp [isFrag, h1])] at h5
          have := ((hx.trans h4).trans (h5 ▸ dropWhile_suffix isFrag x)).length_le
          simp at this
          omega
      | cons c p1 => simp at h1; simp [contR, h1]
    · obtain ⟨q, hq⟩ := List.isPrefixOf_iff_prefix.mp h1
      have h6 : rp = p1 ++ x := by
        rw [h5, ← hq]
        show List.dropWhile isFrag (36 :: _) = _
        rw [List.dropWhile_cons_of_neg (by decide)]
        rfl
      have h7 : TokP (p1 ++ x) .dollar_curly b!"${" q := by
        rw [tokP_pure]
        refine ⟨?_, hq.symm⟩
        rw [← hq]
        rfl
      subst h6
      have h8 : x <:+ q := by
        cases g with
        | pend a b => have := (TokP.eq h3 a).2.2; subst this; have := (TokP.eq h7 b).1; cases this
        | pinterp a b g t g2 =>
          have := (TokP.eq h3 a).2.2; subst this
          have := (TokP.eq h7 b).2.2; subst this
          exact hx.trans ((g2.suf.trans t.suf).trans g.suf)
        | ptext a b n1 n2 g => have := (TokP.eq h3 a).2.2; subst this; exact absurd (TokP.eq h7 b).1.symm n2
      obtain ⟨q, rfl⟩ := h8
      have : p1 = b!"${" ++ q := by
        rw [← List.append_assoc] at hq
        exact (List.append_cancel_right hq).symm
      subst this
      simp [contR, List.isPrefixOf]
  obtain ⟨p, rfl⟩ := hx1.trans t.suf
  obtain ⟨p', rfl⟩ := hx1
  rw [sw_app] at hc
  rw [sw_app, sw_app]
  exact t.edge (hy.suffix (suf_cancel hr)) (by decide) (fun _ => hc)
/-! ### Bodies of strings -/

/-- The rules of one of the two kinds of strings. -/
def Known (R : Rules) : Prop := R = dqCode ∨ R = indCode

theorem esc_swap {R : Rules} (hR : Known R) {p : Bytes} {n : Nat} {t : Bytes} (h : R.esc (p ++ x) = some (n, t)) (hn : n + 1 ≤ p.length) (y : Bytes) :
    R.esc (p ++ y) = some (n, t) := by
  rcases hR with rfl | rfl
  · show dqEsc _ = _
    change dqEsc _ = _ at h
    match p, hn with
    | [], hn => simp at hn
    | [c], hn =>
      simp at hn
      subst hn
      unfold dqEsc at h
      split at h <;> simp_all
    | c :: d :: p, hn =>
      simp only [List.cons_append] at h ⊢
      unfold dqEsc at h ⊢
      split at h
      · rename_i h1; simp only [List.cons.injEq] at h1; obtain ⟨rfl, rfl, -⟩ := h1; exact h
      · rename_i h1; simp at h1
      · cases h
  · show codeIndEsc _ = _
    change codeIndEsc _ = _ at h
    match p, hn with
    | [], hn => simp at hn
    | [a], hn => simp at hn; subst hn; unfold codeIndEsc at h; split at h <;> simp_all
    | [a, b], hn => unfold codeIndEsc at h; split at h <;> simp_all <;> omega
    | [a, b, c], hn => unfold codeIndEsc at h; split at h <;> simp_all <;> omega
    | a :: b :: c :: d :: p, hn =>
      simp only [List.cons_append] at h ⊢
      unfold codeIndEsc at h ⊢
      split at h
      · rename_i h1; simp only [List.cons.injEq] at h1; obtain ⟨rfl, rfl, rfl, -⟩ := h1; exact h
      · rename_i h1; simp only [List.cons.injEq] at h1; obtain ⟨rfl, rfl, rfl, -⟩ := h1; exact h
      · rename_i h1; simp only [List.cons.injEq] at h1; obtain ⟨rfl, rfl, rfl, rfl, -⟩ := h1; exact h
      · rename_i h1; simp at h1
      · cases h

theorem char_swap {R : Rules} (hR : Known R) {c : UInt8} {p : Bytes} (h1 : ¬ R.quote <+: c :: (p ++ x)) (h2 : R.esc (c :: (p ++ x)) = none)
    (hp : R.quote.length ≤ p.length) (y : Bytes) : ¬ R.quote <+: c :: (p ++ y) ∧ R.esc (c :: (p ++ y)) = none := by
  rcases hR with rfl | rfl
  · change ¬ [34] <+: c :: (p ++ x) at h1
    change dqEsc (c :: (p ++ x)) = none at h2
    show ¬ [34] <+: c :: (p ++ y) ∧ dqEsc (c :: (p ++ y)) = none
    match p, hp with
    | d :: p, _ =>
      refine ⟨fun h => h1 ?_, ?_⟩
      · rw [List.cons_prefix_cons] at h ⊢; exact ⟨h.1, List.nil_prefix⟩
      · unfold dqEsc at h2 ⊢
        simp only [List.cons_append] at h2 ⊢
        split at h2
        · cases h2
        · cases h2
        · rename_i n1 n2
          split
          · rename_i h; simp only [List.cons.injEq] at h; exact absurd (by rw [h.1]) (n1 d (p ++ x))
          · rename_i h; simp at h
          · rfl
  · change ¬ [39, 39] <+: c :: (p ++ x) at h1
    show ¬ [39, 39] <+: c :: (p ++ y) ∧ codeIndEsc (c :: (p ++ y)) = none
    match p, hp with
    | d :: p, _ =>
      have h3 : ¬ (c = 39 ∧ d = 39) := by
        rintro ⟨rfl, rfl⟩
        exact h1 ⟨p ++ x, rfl⟩
      refine ⟨fun h => h3 ?_, ?_⟩
      · simp only [List.cons_append, List.cons_prefix_cons] at h
        exact ⟨h.1.symm, h.2.1.symm⟩
      · unfold codeIndEsc
        simp only [List.cons_append]
        split
        all_goals first | rfl | skip
        all_goals rename_i h; simp only [List.cons.injEq] at h; exact absurd ⟨h.1, h.2.1⟩ h3

theorem dollar_swap {R : Rules} (hR : Known R) {p a q : Bytes} (hp : p = a ++ R.quote ++ q) (y : Bytes)
    (h0 : R.dollar (36 :: (p ++ x)) ≤ a.length + 1) : R.dollar (36 :: (p ++ y)) = R.dollar (36 :: (p ++ x)) := by
  have hd : R.dollar = codeDollars := by rcases hR with rfl | rfl <;> rfl
  rw [hd] at h0 ⊢
  match p, hp with
  | [], hp => rcases hR with rfl | rfl <;> simp [dqCode, indCode] at hp
  | [d], hp =>
    have : d ≠ 36 := by
      rintro rfl
      rcases hR with rfl | rfl
      · have : [36] = a ++ [34] ++ q := hp
        cases a with
        | nil => simp at this
        | cons b a => simp at this
      · have := congrArg List.length hp
        have h2 : (indCode.quote).length = 2 := rfl
        simp only [List.length_append, h2, List.length_cons, List.length_nil] at this
        omega
    simp only [List.cons_append, List.nil_append]
    by_cases h : d = 123
    · subst h; rfl
    · have e : ∀ z : Bytes, codeDollars (36 :: d :: z) = 1 := by
        intro z
        unfold codeDollars
        split
        · rename_i h1; simp only [List.cons.injEq] at h1; exact absurd h1.2.1 this
        · rename_i h1; simp only [List.cons.injEq] at h1; exact absurd h1.2.1 h
        · rfl
      rw [e, e]
  | d :: e :: p, hp =>
    simp only [List.cons_append]
    unfold codeDollars
    split
    · rename_i h1
      simp only [List.cons.injEq] at h1
      obtain ⟨-, rfl, rfl, -⟩ := h1
      rfl
    · rename_i h1
      simp only [List.cons.injEq] at h1
      obtain ⟨-, rfl, -⟩ := h1
      rfl
    · rename_i n1 n2
      split
      · rename_i h1
        simp only [List.cons.injEq] at h1
        obtain ⟨-, rfl, rfl, -⟩ := h1
        first | exact absurd rfl (n1 (p ++ x)) | exact absurd rfl (n1 (p ++ y))
      · rename_i h1
        simp only [List.cons.injEq] at h1
        obtain ⟨-, rfl, -⟩ := h1
        first | exact absurd rfl (n2 (e :: (p ++ x))) | exact absurd rfl (n2 (e :: (p ++ y)))
      · rfl

theorem close_swap {R : Rules} (hR : Known R) {q : Bytes} (hy : Edge x y P) (hr : R.quote ++ (q ++ x) <:+ P ++ x) (h : R.esc (R.quote ++ (q ++ x)) = none) :
    R.esc (R.quote ++ (q ++ y)) = none := by
  rcases hR with rfl | rfl
  · show dqEsc (34 :: (q ++ y)) = none
    unfold dqEsc
    split
    · rename_i h; simp at h
    · rename_i h; simp at h
    · rfl
  · change [39, 39] ++ (q ++ x) <:+ P ++ x at hr
    change codeIndEsc (39 :: 39 :: (q ++ x)) = none at h
    show codeIndEsc (39 :: 39 :: (q ++ y)) = none
    have key : ∀ z : Bytes, (∀ d ∈ z.head?, d ≠ 36 ∧ d ≠ 39 ∧ d ≠ 92) → codeIndEsc (39 :: 39 :: z) = none := by
      intro z hz
      unfold codeIndEsc
      split
      all_goals first | rfl | skip
      all_goals
        rename_i h
        simp only [List.cons.injEq, true_and] at h
        first
          | (have := hz _ (by rw [h]; rfl); simp at this; done)
    cases q with
    | nil =>
      have hq : Quiet' x y := edge_soft (w := [39]) (c := 39) hy (by simpa using hr) (by decide)
      exact key _ fun d hd => by
        have := stops_frag d (hq d hd).1
        exact ⟨this.2.1, this.2.2.2.1, this.2.2.2.2⟩
    | cons c q =>
      refine key _ fun d hd => ?_
      simp only [List.cons_append, List.head?_cons, Option.mem_def, Option.some.injEq] at hd
      subst hd
      refine ⟨?_, ?_, ?_⟩
      · rintro rfl; cases h
      · rintro rfl; cases h
      · rintro rfl
        cases hq : q ++ x with
        | nil => rw [List.cons_append, hq] at h; cases h
        | cons a b => rw [List.cons_append, hq] at h; cases h

/-! ### Phrases -/

set_option hygiene false in
/-- Suffixes, along the phrase. -/
macro "walk'" : tactic => `(tactic| with_reducible repeat first
  | exact List.suffix_refl _
  | exact hx
  | refine List.IsSuffix.trans ?_ (Tok.suf (by assumption))
  | refine List.IsSuffix.trans ?_ (TokP.suf (by assumption))
  | refine List.IsSuffix.trans ?_ (G.suf (by assumption)))

set_option hygiene false in
macro "T!" t:ident : term => `(swT hy $t (by refine hx.trans ?_; walk') (by refine List.IsSuffix.trans ?_ hr; walk') (by first | decide | assumption) (by first | decide | assumption))

set_option hygiene false in
macro "I!" t:ident : term => `($t (by refine hx.trans ?_; walk') (by refine List.IsSuffix.trans ?_ hr; walk') (by simp [odd, oddL, oddL_append, ho]) nofun nofun)

theorem unPower_ne {k : TK} {p : Nat} (h : unPower k = some p) : k ≠ .eof ∧ k ≠ .path_fragment := by
  constructor <;> (rintro rfl; cases h)
theorem powers_ne {k : TK} {p : Nat × Nat} (h : powers k = some p) : k ≠ .eof ∧ k ≠ .path_fragment := by
  constructor <;> (rintro rfl; cases h)

set_option maxHeartbeats 4000000 in
theorem G.swap (hy : Edge x y P) {nt : NT} {r r' : Bytes} {l : List Syn} (h : G nt r l r') : x <:+ r' → r <:+ P ++ x → oddL l = false →
    (∀ R, nt = .body R → Known R ∧ ∃ q, r' = R.quote ++ (q ++ x)) → (nt = .pbody → dollarIn l = false ∧ (r ≠ x ∨ Quiet' x y)) →
    G nt (sw x y r) l (sw x y r') := by
  induction h with
  | op _ i => intro hx hr ho hb hp; simp [odd, oddL] at ho; exact .op (I! i)
  | lambda _ t _ i1 i2 => intro hx hr ho hb hp; simp [odd, oddL] at ho; exact .lambda (I! i1) (T! t) (I! i2)
  | ite t1 _ t2 _ t3 _ i1 i2 i3 => intro hx hr ho hb hp; simp [odd, oddL] at ho; exact .ite (T! t1) (I! i1) (T! t2) (I! i2) (T! t3) (I! i3)
  | assert t1 _ t2 _ i1 i2 => intro hx hr ho hb hp; simp [odd, oddL] at ho; exact .assert (T! t1) (I! i1) (T! t2) (I! i2)
  | with_ t1 _ t2 _ i1 i2 => intro hx hr ho hb hp; simp [odd, oddL] at ho; exact .with_ (T! t1) (I! i1) (T! t2) (I! i2)
  | let_ t1 _ t2 _ i1 i2 => intro hx hr ho hb hp; simp [odd, oddL] at ho; exact .let_ (T! t1) (I! i1) (T! t2) (I! i2)
  | legacyLet t1 t2 _ t3 i => intro hx hr ho hb hp; simp [odd, oddL] at ho; exact .legacyLet (T! t1) (T! t2) (I! i) (T! t3)
  | opr g1 g2 i1 i2 =>
    intro hx hr ho hb hp
    rename_i p _ a _ _ _
    have ha : odd a = false := by
      cases h : odd a with
      | false => rfl
      | true => rw [tail_odd g2 rfl h] at ho; cases ho
    simp [odd, oddL] at ho
    exact .opr (i1 (by refine hx.trans ?_; walk') (by refine List.IsSuffix.trans ?_ hr; walk') (by simp [oddL, ha]) nofun nofun) (I! i2)
  | app _ i => intro hx hr ho hb hp; simp [odd, oddL] at ho; exact .app (I! i)
  | un t h _ i =>
    intro hx hr ho hb hp; simp [odd, oddL] at ho
    have ⟨h1, h2⟩ := unPower_ne h
    exact .un (T! t) h (I! i)
  | stop => intro hx hr ho hb hp; exact .stop
  | bin t h h1 h2 g1 g2 i1 i2 =>
    intro hx hr ho hb hp
    rename_i p l k pl pr _ _ _ e _ _ _
    have ha : odd (.bin k l e) = false := by
      cases h : odd (.bin k l e) with
      | false => rfl
      | true => rw [tail_odd g2 rfl h] at ho; cases ho
    simp [odd] at ha
    simp [odd, oddL] at ho
    have ⟨n1, n2⟩ := powers_ne h
    exact .bin (T! t) h h1 h2 (i1 (by refine hx.trans ?_; walk') (by refine List.IsSuffix.trans ?_ hr; walk') (by simp [oddL, ha]) nofun nofun) (I! i2)
  | has t h g1 g2 i1 i2 =>
    intro hx hr ho hb hp
    rename_i p l _ _ _ ns _ _ _
    have ha : odd (.has l ns) = false := by
      cases h : odd (.has l ns) with
      | false => rfl
      | true => rw [tail_odd g2 rfl h] at ho; cases ho
    simp [odd] at ha
    simp [odd, oddL] at ho
    exact .has (T! t) h (i1 (by refine hx.trans ?_; walk') (by refine List.IsSuffix.trans ?_ hr; walk') (by simp [ha]) nofun nofun) (I! i2)
  | hasNone t h1 h2 g i =>
    intro hx hr ho hb hp
    rw [tail_odd g rfl (by simp [odd])] at ho
    cases ho
  | one _ i => intro hx hr ho hb hp; simp [odd, oddL] at ho; exact .one (I! i)
  | call _ h _ i1 i2 => intro hx hr ho hb hp; simp [odd, oddL] at ho; exact .call (I! i1) h (I! i2)
  | lastArg _ i => intro hx hr ho hb hp; simp [odd, oddL] at ho; exact .lastArg (I! i)
  | moreArgs _ _ i1 i2 => intro hx hr ho hb hp; simp [odd, oddL] at ho; exact .moreArgs (I! i1) (I! i2)
  | simple _ i => intro hx hr ho hb hp; simp [odd, oddL] at ho; exact .simple (I! i)
  | select _ t _ i1 i2 => intro hx hr ho hb hp; simp [odd, oddL] at ho; exact .select (I! i1) (T! t) (I! i2)
  | selectOr _ t1 _ t2 _ i1 i2 i3 => intro hx hr ho hb hp; simp [odd, oddL] at ho; exact .selectOr (I! i1) (T! t1) (I! i2) (T! t2) (I! i3)
  | var t => intro hx hr ho hb hp; exact .var (T! t)
  | int t h => intro hx hr ho hb hp; exact .int (T! t) h
  | float t => intro hx hr ho hb hp; exact .float (T! t)
  | spath t => intro hx hr ho hb hp; exact .spath (T! t)
  | uri t => intro hx hr ho hb hp; exact .uri (T! t)
  | str t g i =>
    intro hx hr ho hb hp
    simp [odd, oddL] at ho
    obtain ⟨q, rfl⟩ := hx
    have hx : x <:+ 34 :: (q ++ x) := (List.suffix_append q x).trans (List.suffix_cons _ _)
    refine .str (T! t) ?_
    have := i hx (t.suf.trans hr) ho (fun R h => by cases h; exact ⟨.inl rfl, q, rfl⟩) nofun
    rwa [sw_cons _ (List.suffix_append q x)] at this
  | ind t g i =>
    intro hx hr ho hb hp
    simp [odd, oddL] at ho
    obtain ⟨q, rfl⟩ := hx
    have hx : x <:+ 39 :: 39 :: (q ++ x) := (List.suffix_append q x).trans ((List.suffix_cons _ _).trans (List.suffix_cons _ _))
    refine .ind (T! t) ?_
    have := i hx (t.suf.trans hr) ho (fun R h => by cases h; exact ⟨.inr rfl, q, rfl⟩) nofun
    rwa [sw_cons _ ((List.suffix_append q x).trans (List.suffix_cons _ _)), sw_cons _ (List.suffix_append q x)] at this
  | pathLit t g i =>
    intro hx hr ho hb hp
    simp [odd, oddL] at ho
    obtain ⟨h1, h2⟩ := swPath hy t g hx hr
    refine .pathLit h1 ?_
    rename_i r0 _ _ _ _
    have h3 : skip (sw x y r0) = sw x y (skip r0) := by
      rw [h1.text, t.text]
      obtain ⟨p, rfl⟩ := h2
      rw [← List.append_assoc, sw_app, sw_app, List.append_assoc]
    rw [h3]
    refine i hx ((skip_suf _).trans hr) ho.1 nofun (fun _ => ⟨ho.2, .inl ?_⟩)
    intro h4
    have h5 := t.text
    rw [h4] at h5
    have := congrArg List.length h5
    have h6 := h2.length_le
    have h7 := List.length_pos_of_ne_nil (t.ne (by decide))
    rw [List.length_append] at this
    omega
  | paren t1 _ t2 i => intro hx hr ho hb hp; simp [odd, oddL] at ho; exact .paren (T! t1) (I! i) (T! t2)
  | list t1 _ t2 i => intro hx hr ho hb hp; simp [odd, oddL] at ho; exact .list (T! t1) (I! i) (T! t2)
  | set t1 _ t2 i => intro hx hr ho hb hp; simp [odd, oddL] at ho; exact .set (T! t1) (I! i) (T! t2)
  | recSet t0 t1 _ t2 i => intro hx hr ho hb hp; simp [odd, oddL] at ho; exact .recSet (T! t0) (T! t1) (I! i) (T! t2)
  | noElem => intro hx hr ho hb hp; exact .noElem
  | elem _ _ i1 i2 => intro hx hr ho hb hp; simp [odd, oddL] at ho; exact .elem (I! i1) (I! i2)
  | name t => intro hx hr ho hb hp; exact .name (T! t)
  | orName t => intro hx hr ho hb hp; exact .orName (T! t)
  | strName t g i =>
    intro hx hr ho hb hp
    simp [odd, oddL] at ho
    obtain ⟨q, rfl⟩ := hx
    have hx : x <:+ 34 :: (q ++ x) := (List.suffix_append q x).trans (List.suffix_cons _ _)
    refine .strName (T! t) ?_
    have := i hx (t.suf.trans hr) ho (fun R h => by cases h; exact ⟨.inl rfl, q, rfl⟩) nofun
    rwa [sw_cons _ (List.suffix_append q x)] at this
  | interpName t1 _ t2 i => intro hx hr ho hb hp; simp [odd, oddL] at ho; exact .interpName (T! t1) (I! i) (T! t2)
  | path _ _ i1 i2 => intro hx hr ho hb hp; simp [odd, oddL] at ho; exact .path (I! i1) (I! i2)
  | noDot => intro hx hr ho hb hp; exact .noDot
  | dot t _ _ i1 i2 => intro hx hr ho hb hp; simp [odd, oddL] at ho; exact .dot (T! t) (I! i1) (I! i2)
  | noName => intro hx hr ho hb hp; exact .noName
  | names _ _ i1 i2 => intro hx hr ho hb hp; simp [odd, oddL] at ho; exact .names (I! i1) (I! i2)
  | noBind => intro hx hr ho hb hp; exact .noBind
  | binding _ t1 _ t2 _ i1 i2 i3 => intro hx hr ho hb hp; simp [odd, oddL] at ho; exact .binding (I! i1) (T! t1) (I! i2) (T! t2) (I! i3)
  | inherit t1 _ t2 _ i1 i2 => intro hx hr ho hb hp; simp [odd, oddL] at ho; exact .inherit (T! t1) (I! i1) (T! t2) (I! i2)
  | inheritFrom t1 t2 _ t3 _ t4 _ i1 i2 i3 =>
    intro hx hr ho hb hp; simp [odd, oddL] at ho; exact .inheritFrom (T! t1) (T! t2) (I! i1) (T! t3) (I! i2) (T! t4) (I! i3)
  | argName t => intro hx hr ho hb hp; exact .argName (T! t)
  | argAt t1 t2 _ i => intro hx hr ho hb hp; simp [odd, oddL] at ho; exact .argAt (T! t1) (T! t2) (I! i)
  | argSet _ h i => intro hx hr ho hb hp; simp [odd, oddL] at ho; exact .argSet (I! i) h
  | atArg _ h t1 t2 i => intro hx hr ho hb hp; simp [odd, oddL] at ho; exact .atArg (I! i) h (T! t1) (T! t2)
  | formals t1 _ t2 h i => intro hx hr ho hb hp; exact .formals (T! t1) (I! i) (T! t2) h
  | noMember => intro hx hr ho hb hp; exact .noMember
  | members _ _ i1 i2 => intro hx hr ho hb hp; simp [odd, oddL] at ho; exact .members (I! i1) (I! i2)
  | plain _ h i => intro hx hr ho hb hp; simp [odd, oddL] at ho; exact .plain (I! i) h
  | comma t _ i => intro hx hr ho hb hp; simp [odd, oddL] at ho; exact .comma (T! t) (I! i)
  | formal t => intro hx hr ho hb hp; exact .formal (T! t)
  | formalOr t1 t2 _ i => intro hx hr ho hb hp; simp [odd, oddL] at ho; exact .formalOr (T! t1) (T! t2) (I! i)
  | ellipsis t => intro hx hr ho hb hp; exact .ellipsis (T! t)
  | lone => intro hx hr ho hb hp; exact .lone
  | close h1 h2 =>
    intro hx hr ho hb hp
    obtain ⟨hR, q, rfl⟩ := hb _ rfl
    rw [← List.append_assoc, sw_app, List.append_assoc]
    exact .close (List.prefix_append _ _) (close_swap hR hy hr h2)
  | esc h1 h2 g i =>
    intro hx hr ho hb hp
    rename_i R r n t l r'
    obtain ⟨hR, q, rfl⟩ := hb _ rfl
    rw [oddL_append] at ho
    simp at ho
    obtain ⟨a, ha⟩ := g.suf
    have hq : 1 ≤ R.quote.length := by rcases hR with rfl | rfl <;> decide
    have he : r = (r.take n ++ a ++ R.quote ++ q) ++ x := by
      conv_lhs => rw [← List.take_append_drop n r, ← ha]
      simp
    have hl : n ≤ (r.take n ++ a ++ R.quote ++ q).length := by
      simp only [List.length_append, List.length_take]; omega
    have hs : sw x y r = (r.take n ++ a ++ R.quote ++ q) ++ y := by
      conv_lhs => rw [he]
      rw [sw_app]
    have h3 := esc_swap hR (p := r.take n ++ a ++ R.quote ++ q) (x := x) (n := n) (t := t) (by rw [← he]; exact h1)
      (by simp only [List.length_append, List.length_take]; omega) y
    have h4 := i hx ((List.drop_suffix _ _).trans hr) ho.2 (fun R h => by cases h; exact ⟨hR, q, rfl⟩) nofun
    rw [hs]
    refine .esc h3 (by rw [List.length_append]; omega) ?_
    have h5 : sw x y (r.drop n) = List.drop n (r.take n ++ a ++ R.quote ++ q ++ y) := by
      rw [← ha]
      have : a ++ (R.quote ++ (q ++ x)) = (a ++ R.quote ++ q) ++ x := by simp
      rw [this, sw_app]
      have : r.take n ++ a ++ R.quote ++ q ++ y = r.take n ++ (a ++ R.quote ++ q ++ y) := by simp
      rw [this, List.drop_left' (by simp; omega)]
    rw [← h5]
    exact h4
  | char h1 h2 h3 g i =>
    intro hx hr ho hb hp
    obtain ⟨hR, q, rfl⟩ := hb _ rfl
    simp [odd, oddL] at ho
    obtain ⟨a, rfl⟩ := g.suf
    rename_i R c l
    have e : a ++ (R.quote ++ (q ++ x)) = (a ++ R.quote ++ q) ++ x := by simp
    have h4 := i hx ((List.suffix_cons _ _).trans hr) ho (fun R h => by cases h; exact ⟨hR, q, rfl⟩) nofun
    rw [sw_cons _ (by rw [e]; exact List.suffix_append _ _)]
    rw [e] at h2 h3 h4 ⊢
    rw [sw_app] at h4 ⊢
    obtain ⟨h5, h6⟩ := char_swap hR h2 h3 (by simp; omega) y
    exact .char h1 h5 h6 h4
  | dollar h1 g i =>
    intro hx hr ho hb hp
    obtain ⟨hR, q, rfl⟩ := hb _ rfl
    rename_i R r l
    rw [oddL_append] at ho
    simp at ho
    have hd := h1
    generalize hD : R.dollar (36 :: r) = d at h1 g i
    obtain ⟨a, ha⟩ := g.suf
    have hq : 1 ≤ R.quote.length := by rcases hR with rfl | rfl <;> decide
    obtain ⟨d, rfl⟩ : ∃ n, d = n + 1 := ⟨d - 1, by omega⟩
    rw [List.drop_succ_cons] at ha g i
    have hl : d ≤ r.length := by
      have := congrArg List.length ha
      simp only [List.length_append, List.length_drop] at this
      omega
    have he : r = (r.take d ++ a ++ R.quote ++ q) ++ x := by
      conv_lhs => rw [← List.take_append_drop d r, ← ha]
      simp
    have hD' := dollar_swap hR (p := r.take d ++ a ++ R.quote ++ q) (a := r.take d ++ a) (q := q) (x := x) rfl y
      (by rw [← he, hD]; simp; omega)
    rw [← he, hD] at hD'
    have h4 := i hx (((List.drop_suffix _ _).trans (List.suffix_cons _ _)).trans hr) ho.2 (fun R h => by cases h; exact ⟨hR, q, rfl⟩) nofun
    have hs : sw x y (36 :: r) = 36 :: ((r.take d ++ a ++ R.quote ++ q) ++ y) := by
      rw [sw_cons _ (by rw [he]; exact List.suffix_append _ _)]
      conv_lhs => rw [he]
      rw [sw_app]
    rw [hs]
    have h5 : sw x y (r.drop d) = List.drop d (r.take d ++ a ++ R.quote ++ q ++ y) := by
      rw [← ha]
      have : a ++ (R.quote ++ (q ++ x)) = (a ++ R.quote ++ q) ++ x := by simp
      rw [this, sw_app]
      have : r.take d ++ a ++ R.quote ++ q ++ y = r.take d ++ (a ++ R.quote ++ q ++ y) := by simp
      rw [this, List.drop_left' (by simp; omega)]
    have h6 : List.take d r = List.take d (r.take d ++ a ++ R.quote ++ q ++ y) := by
      have : r.take d ++ a ++ R.quote ++ q ++ y = r.take d ++ (a ++ R.quote ++ q ++ y) := by simp
      rw [this, List.take_left' (by simp; omega)]
    have h7 := G.dollar (R := R) (r := r.take d ++ a ++ R.quote ++ q ++ y) (l := l) (r' := sw x y (R.quote ++ (q ++ x))) (by rw [hD']; omega)
      (by rw [hD', List.drop_succ_cons, ← h5]; exact h4)
    rw [hD', List.take_succ_cons, ← h6] at h7
    rw [List.take_succ_cons]
    exact h7
  | interp h1 g t g2 i1 i2 =>
    intro hx hr ho hb hp
    obtain ⟨hR, q, rfl⟩ := hb _ rfl
    rename_i R r e r1 v r2 l
    simp [odd, oddL] at ho
    have hxr : x <:+ r := by refine hx.trans ?_; walk'
    have hrr : r <:+ P ++ x := ((List.suffix_cons _ _).trans (List.suffix_cons _ _)).trans hr
    rw [sw_cons _ (hxr.trans (List.suffix_cons _ _)), sw_cons _ hxr]
    have hr := hrr
    refine .interp (by rcases hR with rfl | rfl <;> rfl) (I! i1) (T! t) (i2 hx (by refine List.IsSuffix.trans ?_ hr; walk') ho.2 (fun R h => by cases h; exact ⟨hR, q, rfl⟩) nofun)
  | pend t1 t2 =>
    intro hx hr ho hb hp
    obtain ⟨hd, hq⟩ := hp rfl
    rw [dollarIn_chars] at hd
    refine .pend (swP hy t1 hx hr hq) (swP hy t2 hx (t1.suf.trans hr) ?_)
    rename_i r k v r1
    by_cases h : r1 = x
    · right
      subst h
      have hv := (tokP_pure.mp t1).2
      cases v using List.reverseRecOn with
      | nil => exact hq.resolve_left (fun h => h hv)
      | append_singleton v c =>
        refine edge_soft (w := v) (c := c) hy (by rw [hv] at hr; simpa using hr) ?_
        rcases ptok_last t1 with hl | ⟨rfl, rfl⟩
        · cases hc : hard c with
          | false => rfl
          | true => rw [(stops_frag c (stops_soft (hard_facts c hc).1)).1] at hl; cases hl
        · simp at hd
    · exact .inl h
  | pinterp t1 t2 g1 t3 g2 i1 i2 =>
    intro hx hr ho hb hp
    obtain ⟨hd, hq⟩ := hp rfl
    rw [dollarIn_append] at hd
    simp [dollarIn] at hd
    rw [oddL_append] at ho
    simp [odd, oddL] at ho
    rename_i r k v r1 v1 r2 e r3 v2 r4 l r'
    have hx2 : x <:+ r2 := by refine hx.trans ?_; walk'
    have hlen := t2.ne (by decide)
    have hne : r1 ≠ x := by rintro rfl; have := hx2.length_le; omega
    refine .pinterp (swP hy t1 (hx2.trans t2.suf) hr hq) (swP hy t2 hx2 (t1.suf.trans hr) (.inl hne)) (I! i1) (T! t3)
      (i2 hx (by refine List.IsSuffix.trans ?_ hr; walk') ho.2.2 nofun (fun _ => ⟨hd.2, ?_⟩))
    by_cases h : r4 = x
    · right
      subst h
      have hv := t3.text
      rw [t3.r_curly] at hv
      refine edge_soft (w := []) (c := 125) hy ?_ (by decide)
      have h1 : skip r3 <:+ P ++ r4 := (skip_suf _).trans ((by walk' : r3 <:+ r).trans hr)
      rw [hv] at h1
      exact h1
    · exact .inl h
  | ptext t1 t2 n1 n2 g i =>
    intro hx hr ho hb hp
    obtain ⟨hd, hq⟩ := hp rfl
    rw [dollarIn_append] at hd
    simp at hd
    rw [oddL_append] at ho
    simp at ho
    rename_i r k v r1 k1 v1 r2 l r'
    obtain ⟨k', v', r2', t2', hs⟩ := pbody_first g
    have := (TokP.eq t2 t2').2.2
    subst this
    have hx2 : x <:+ r2 := hx.trans hs
    have hlen := t2.ne n1
    have hne : r1 ≠ x := by rintro rfl; have := hx2.length_le; omega
    exact .ptext (swP hy t1 (hx2.trans t2.suf) hr hq) (swP hy t2 hx2 (t1.suf.trans hr) (.inl hne)) n1 n2
      (i hx (t1.suf.trans hr) ho.2 nofun (fun _ => ⟨hd.2, .inl hne⟩))

/-- What comes after a phrase may be replaced. -/
theorem G.rest (hy : Edge x y P) {nt : NT} {p : Bytes} {l : List Syn} (h : G nt (P ++ x) l (p ++ x)) (ho : oddL l = false)
    (hn : ∀ R, nt ≠ .body R) (hp : nt ≠ .pbody) : G nt (P ++ y) l (p ++ y) := by
  have := h.swap hy (List.suffix_append _ _) (List.suffix_refl _) ho (fun R h => absurd h (hn R)) (fun h => absurd h hp)
  rwa [sw_app, sw_app] at this

end

end Verif.Nixf.Syntax
