import Verif.Spec.Json
import Verif.Lemmas.TokMake
import Verif.Props.Syntax
/-
Property C36: conversion of JSON to Nix.
-/
namespace Verif.Props
open Nixf Lexical Strings Syntax SourceCode Server

/-! ### Limits -/

theorem intText_ne (n : Int) : intText n ≠ [] := by
  have h : ∀ n, natText n ≠ [] := by intro n; unfold natText; split <;> simp
  unfold intText; split
  · simp
  · exact h _

theorem withinDepth_ne {depth : Nat} {out : Bytes} : withinDepth depth out ≠ [] ↔ depth ≤ 100 ∧ out ≠ [] := by
  unfold withinDepth maxJsonDepth
  split
  · simp; omega
  · simp; omega

theorem container_ne {o e c : Bytes} {size indent : Nat} {inner : Option Bytes} (he : e ≠ []) :
    container o e c size indent inner ≠ [] ↔ size ≤ 10000 ∧ (size = 0 ∨ inner ≠ none) := by
  unfold container maxJsonWidth
  split
  · simp; omega
  · split
    · rename_i h1 h2; simp [he]; omega
    · rename_i h1 h2
      cases inner with
      | none => simp [h2]
      | some x => simp; omega

mutual
theorem json_limits (v : Json) (indent depth : Nat) (h : WF v) :
    jsonToNix indent depth v ≠ [] ↔ depth + level v ≤ 100 ∧ Narrow v := by
  cases v with
  | null => simp only [jsonToNix, withinDepth_ne, level, Narrow]; simp
  | bool b => simp only [jsonToNix, withinDepth_ne, level, Narrow]; cases b <;> simp
  | int n => simp only [jsonToNix, withinDepth_ne, level, Narrow]; simp [intText_ne]
  | dbl t => simp only [jsonToNix, withinDepth_ne, level, Narrow]; simp only [WF] at h; simp [h]
  | str s => simp only [jsonToNix, withinDepth_ne, level, Narrow]; simp
  | arr es =>
    simp only [WF] at h
    have ih := elems_limits es (indent + 1) (depth + 1) h
    rw [jsonToNix, withinDepth_ne, container_ne (by simp), ih]
    simp only [level, Narrow]
    cases es with
    | nil => simp [levelL, NarrowL]
    | cons e es =>
      have : depth ≤ 100 ∧ depth + 1 + levelL (e :: es) ≤ 101 ↔ depth + levelL (e :: es) ≤ 100 := by omega
      simp only [reduceCtorEq, List.length_cons, Nat.succ_ne_zero, false_or, ← this]
      exact ⟨fun ⟨a, b, c, d⟩ => ⟨⟨a, c⟩, b, d⟩, fun ⟨⟨a, c⟩, b, d⟩ => ⟨a, b, c, d⟩⟩
  | obj ms =>
    simp only [WF] at h
    have ih := members_limits ms (indent + 1) (depth + 1) h.1
    rw [jsonToNix, withinDepth_ne, container_ne (by simp), ih]
    simp only [level, Narrow]
    cases ms with
    | nil => simp [levelM, NarrowM]
    | cons m ms =>
      have : depth ≤ 100 ∧ depth + 1 + levelM (m :: ms) ≤ 101 ↔ depth + levelM (m :: ms) ≤ 100 := by omega
      simp only [reduceCtorEq, List.length_cons, Nat.succ_ne_zero, false_or, ← this]
      exact ⟨fun ⟨a, b, c, d⟩ => ⟨⟨a, c⟩, b, d⟩, fun ⟨⟨a, c⟩, b, d⟩ => ⟨a, b, c, d⟩⟩
theorem elems_limits (es : List Json) (indent depth : Nat) (h : WFL es) :
    jsonElems indent depth es ≠ none ↔ (es = [] ∨ depth + levelL es ≤ 101) ∧ NarrowL es := by
  cases es with
  | nil => simp [jsonElems, NarrowL]
  | cons e es =>
    simp only [WFL] at h
    have h1 := json_limits e indent depth h.1
    have h2 := elems_limits es indent depth h.2
    have e1 : jsonElems indent depth (e :: es) ≠ none ↔ jsonToNix indent depth e ≠ [] ∧ jsonElems indent depth es ≠ none := by
      rw [jsonElems]
      split
      · rename_i h; simp [h]
      · rename_i h; simp [h]
    rw [e1, h1, h2]
    simp only [levelL, NarrowL, reduceCtorEq, false_or]
    have : (depth + level e ≤ 100 ∧ (es = [] ∨ depth + levelL es ≤ 101)) ↔ depth + max (level e + 1) (levelL es) ≤ 101 := by
      cases es with
      | nil => simp [levelL]; omega
      | cons e' es => simp only [reduceCtorEq, false_or]; omega
    rw [← this]; exact and_and_and_comm
theorem member_limits (m : Member) (indent depth : Nat) (h : WF1 m) :
    jsonMember indent depth m ≠ none ↔ depth + level1 m ≤ 101 ∧ Narrow1 m := by
  cases m with
  | mk k v =>
    simp only [WF1] at h
    have h1 := json_limits v indent depth h
    have e1 : jsonMember indent depth (.mk k v) ≠ none ↔ jsonToNix indent depth v ≠ [] := by
      rw [jsonMember]
      split
      · rename_i h; simp [h]
      · rename_i h; simp [h]
    rw [e1, h1]
    simp only [level1, Narrow1]
    have : depth + level v ≤ 100 ↔ depth + (level v + 1) ≤ 101 := by omega
    rw [this]
theorem members_limits (ms : List Member) (indent depth : Nat) (h : WFM ms) :
    jsonMembers indent depth ms ≠ none ↔ (ms = [] ∨ depth + levelM ms ≤ 101) ∧ NarrowM ms := by
  cases ms with
  | nil => simp [jsonMembers, NarrowM]
  | cons m ms =>
    simp only [WFM] at h
    have h1 := member_limits m indent depth h.1
    have h2 := members_limits ms indent depth h.2
    have e1 : jsonMembers indent depth (m :: ms) ≠ none ↔ jsonMember indent depth m ≠ none ∧ jsonMembers indent depth ms ≠ none := by
      rw [jsonMembers]
      split
      · rename_i h; simp [h]
      · rename_i h; simp [h]
    rw [e1, h1, h2]
    simp only [levelM, NarrowM, reduceCtorEq, false_or]
    have : (depth + level1 m ≤ 101 ∧ (ms = [] ∨ depth + levelM ms ≤ 101)) ↔ depth + max (level1 m) (levelM ms) ≤ 101 := by
      cases ms with
      | nil => simp [levelM]
      | cons e' es => simp only [reduceCtorEq, false_or]; omega
    rw [← this]; exact and_and_and_comm
end

/-! ### Meaning -/

theorem natText_digits (n : Nat) : ∀ x ∈ natText n, x ∈ digits := by
  induction n using Nat.strongRecOn with
  | ind n ih =>
  have hd : ∀ k < 10, UInt8.ofNat (48 + k) ∈ digits := by decide
  unfold natText
  split
  · rename_i h; intro x hx; rw [List.mem_singleton.mp hx]; exact hd n h
  · intro x hx
    rcases List.mem_append.mp hx with hx | hx
    · exact ih _ (by omega) x hx
    · rw [List.mem_singleton.mp hx]; exact hd _ (by omega)

theorem natText_value (n : Nat) : (natText n).foldl (fun (a : Nat) (c : UInt8) => a * 10 + (c.toNat - 48)) 0 = n := by
  induction n using Nat.strongRecOn with
  | ind n ih =>
  have hd : ∀ k < 10, (UInt8.ofNat (48 + k)).toNat - 48 = k := by decide
  unfold natText
  split
  · rename_i h
    simp only [List.foldl_cons, List.foldl_nil]
    rw [hd n h]; omega
  · rw [List.foldl_append, ih _ (by omega)]
    simp only [List.foldl_cons, List.foldl_nil]
    rw [hd _ (by omega)]
    omega

theorem decode_natText {n : Nat} (h : n < 2 ^ 63) : decodeInt (natText n) = some (n : Int) := by
  unfold decodeInt
  simp only [natText_value]
  rw [if_pos h]; rfl

/-- A number may end here. -/
def Ends (r : Bytes) : Prop := Fresh r ∧ r.head? ≠ some 126

theorem ends_nil : Ends [] := ⟨fresh_nil, by simp⟩
theorem ends_nl (r : Bytes) : Ends (10 :: r) := ⟨fresh_cons (by decide), by simp⟩
theorem ends_semi (r : Bytes) : Ends (59 :: r) := ⟨fresh_cons (by decide), by simp⟩
theorem ends_sp (r : Bytes) : Ends (32 :: r) := ⟨fresh_cons (by decide), by simp⟩

theorem indent_white (n : Nat) : ∀ c ∈ indentText n, isSpace c = true := by
  intro c hc
  rw [List.eq_of_mem_replicate hc]; rfl

theorem white_append {a b : Bytes} (ha : ∀ c ∈ a, isSpace c = true) (hb : ∀ c ∈ b, isSpace c = true) :
    ∀ c ∈ a ++ b, isSpace c = true := by
  intro c hc
  rcases List.mem_append.mp hc with h | h
  · exact ha c h
  · exact hb c h

theorem expr_of_simple {r r' : Bytes} {e : Syn} (h : G .simple r [e] r') : G .expr r [e] r' :=
  .op (.opr (.app (.one (.simple h))) .stop)

theorem within_eq {depth : Nat} {out : Bytes} (h : withinDepth depth out ≠ []) : withinDepth depth out = out := by
  unfold withinDepth at *
  split
  · rename_i hd; rw [if_pos hd] at h; exact absurd rfl h
  · rfl

/-- The literals `null`, `true` and `false`. -/
theorem g_const {g w rest : Bytes} (hg : ∀ c ∈ g, isSpace c = true) (hr : Ends rest)
    (hw : w = b!"null" ∨ w = b!"true" ∨ w = b!"false") : G .simple (g ++ (w ++ rest)) [.var w] rest := by
  refine .var (.ws hg ?_)
  rcases hw with rfl | rfl | rfl
  · exact tok_word (c := 110) (w := b!"ull") (by decide) (by decide) hr.1 hr.2
  · exact tok_word (c := 116) (w := b!"rue") (by decide) (by decide) hr.1 hr.2
  · exact tok_word (c := 102) (w := b!"alse") (by decide) (by decide) hr.1 hr.2

theorem g_nat {g rest : Bytes} {n : Nat} (hg : ∀ c ∈ g, isSpace c = true) (hr : Ends rest) (hn : n < 2 ^ 63) :
    G .simple (g ++ (natText n ++ rest)) [.int n] rest := by
  refine .int (.ws hg ?_) (decode_natText hn)
  have := natText_digits n
  cases h : natText n with
  | nil => unfold natText at h; split at h <;> simp at h
  | cons d ds => rw [h] at this; exact tok_int this hr.1 hr.2

theorem g_float {g t rest : Bytes} (hg : ∀ c ∈ g, isSpace c = true) (hr : Ends rest) (ht : FloatText t) :
    G .simple (g ++ (t ++ rest)) [.float t] rest := by
  obtain ⟨d, ds, fs, e, rfl, h1, h2, h3, h4⟩ := ht
  exact .float (.ws hg (tok_float h1 h2 h3 h4 hr.1 hr.2))

/-- A generated string. -/
theorem g_string {g s rest : Bytes} (hg : ∀ c ∈ g, isSpace c = true) :
    G .simple (g ++ (b!"\"" ++ escapeNixString s ++ b!"\"" ++ rest)) [.str (chs s)] rest := by
  have := g_escape s rest
  refine .str (.ws hg (tok_quote _)) ?_
  simpa [chs] using this

/-- A generated name. -/
theorem g_name (k : Bytes) : ∃ n, NameIs n k ∧ ∀ g rest, (∀ c ∈ g, isSpace c = true) → Ends rest →
    G .name (g ++ (quoteNixAttrKey k ++ rest)) [n] rest := by
  by_cases hk : quoteNixAttrKey k = k
  · refine ⟨_, .id k, fun g rest hg hr => .name (.ws hg ?_)⟩
    rw [hk]
    exact tok_name hk hr.1 hr.2
  · refine ⟨_, .str k, fun g rest hg hr => ?_⟩
    have : quoteNixAttrKey k = b!"\"" ++ escapeNixString k ++ b!"\"" := by
      unfold quoteNixAttrKey at *
      split
      · rename_i h; rw [if_pos h] at hk; exact absurd rfl hk
      · rfl
    rw [this]
    refine .strName (.ws hg (tok_quote _)) ?_
    have := g_escape k rest
    simpa [chs] using this

mutual
theorem json_simple (v : Json) (indent depth : Nat) (hw : WF v) (hp : Plain v) (hn : ¬ negative v) (ho : jsonToNix indent depth v ≠ []) :
    ∃ t, Denotes t v ∧ ∀ g rest, (∀ c ∈ g, isSpace c = true) → (emptyJson v = true ∨ level v ≠ 0 ∨ Ends rest) →
      G .simple (g ++ (jsonToNix indent depth v ++ rest)) [t] rest := by
  cases v with
  | null =>
    rw [jsonToNix] at ho ⊢; rw [within_eq ho]
    refine ⟨_, .null, fun g rest hg hr => g_const hg ?_ (.inl rfl)⟩
    simpa [emptyJson, level] using hr
  | bool b =>
    rw [jsonToNix] at ho ⊢; rw [within_eq ho]
    cases b with
    | true =>
      refine ⟨_, .true_, fun g rest hg hr => g_const hg ?_ (.inr (.inl rfl))⟩
      simpa [emptyJson, level] using hr
    | false =>
      refine ⟨_, .false_, fun g rest hg hr => g_const hg ?_ (.inr (.inr rfl))⟩
      simpa [emptyJson, level] using hr
  | int n =>
    rw [jsonToNix] at ho ⊢; rw [within_eq ho]
    simp only [negative] at hn
    simp only [WF] at hw
    refine ⟨_, .int n, fun g rest hg hr => ?_⟩
    have hr : Ends rest := by simpa [emptyJson, level] using hr
    unfold intText
    rw [if_neg hn]
    have := g_nat (n := n.natAbs) hg hr (by omega)
    rwa [Int.natAbs_of_nonneg (by omega)] at this
  | dbl t =>
    rw [jsonToNix] at ho ⊢; rw [within_eq ho]
    simp only [negative] at hn
    simp only [Plain] at hp
    refine ⟨_, .float t, fun g rest hg hr => ?_⟩
    have hr : Ends rest := by simpa [emptyJson, level] using hr
    rcases hp with hp | ⟨t', rfl, -⟩
    · exact g_float hg hr hp
    · exact absurd rfl hn
  | str s =>
    rw [jsonToNix] at ho ⊢; rw [within_eq ho]
    exact ⟨_, .str s, fun g rest hg hr => g_string hg⟩
  | arr es =>
    rw [jsonToNix] at ho ⊢; rw [within_eq ho]; rw [within_eq ho] at ho
    simp only [WF] at hw
    simp only [Plain] at hp
    cases es with
    | nil =>
      refine ⟨_, .list [] [] .nil, fun g rest hg hr => ?_⟩
      exact .list (.ws hg (tok_lbracket _)) .noElem (.sp (tok_rbracket _))
    | cons e es =>
      have h1 := ((container_ne (by simp)).mp ho)
      obtain ⟨x, hx⟩ := Option.ne_none_iff_exists'.mp (h1.2.resolve_left (by simp))
      obtain ⟨l, hl, hG⟩ := json_elems (e :: es) (indent + 1) (depth + 1) hw hp hx
      refine ⟨_, .list l _ hl, fun g rest hg hr => ?_⟩
      unfold container
      rw [if_neg (by have := h1.1; unfold maxJsonWidth; omega), if_neg (by simp), hx]
      simp only
      obtain ⟨g', hg', hG⟩ := hG b!"\n" (b!"\n" ++ indentText indent ++ b!"]" ++ rest) (by decide) (ends_nl _)
      refine .list (v1 := b!"[") (v2 := b!"]") (r1 := b!"\n" ++ (x ++ (b!"\n" ++ indentText indent ++ b!"]" ++ rest))) (.ws hg ?_) hG ?_
      · have := tok_lbracket (b!"\n" ++ (x ++ (b!"\n" ++ indentText indent ++ b!"]" ++ rest)))
        simpa using this
      · have := (tok_rbracket rest).ws (white_append hg' (white_append (a := b!"\n") (by decide) (indent_white indent)))
        simpa using this
  | obj ms =>
    rw [jsonToNix] at ho ⊢; rw [within_eq ho]; rw [within_eq ho] at ho
    simp only [WF] at hw
    simp only [Plain] at hp
    cases ms with
    | nil =>
      refine ⟨_, .set [] [] .nil (by simp), fun g rest hg hr => ?_⟩
      exact .set (.ws hg (tok_lcurly _)) .noBind (.sp (tok_rcurly _))
    | cons m ms =>
      have h1 := ((container_ne (by simp)).mp ho)
      obtain ⟨x, hx⟩ := Option.ne_none_iff_exists'.mp (h1.2.resolve_left (by simp))
      obtain ⟨l, hl, hG⟩ := json_members (m :: ms) (indent + 1) (depth + 1) hw.1 hp hx
      refine ⟨_, .set l _ hl hw.2, fun g rest hg hr => ?_⟩
      unfold container
      rw [if_neg (by have := h1.1; unfold maxJsonWidth; omega), if_neg (by simp), hx]
      simp only
      obtain ⟨g', hg', hG⟩ := hG b!"\n" (b!"\n" ++ indentText indent ++ b!"}" ++ rest) (by decide)
      refine .set (v1 := b!"{") (v2 := b!"}") (r1 := b!"\n" ++ (x ++ (b!"\n" ++ indentText indent ++ b!"}" ++ rest))) (.ws hg ?_) hG ?_
      · have := tok_lcurly (b!"\n" ++ (x ++ (b!"\n" ++ indentText indent ++ b!"}" ++ rest)))
        simpa using this
      · have := (tok_rcurly rest).ws (white_append hg' (white_append (a := b!"\n") (by decide) (indent_white indent)))
        simpa using this
theorem json_elems (es : List Json) (indent depth : Nat) (hw : WFL es) (hp : PlainL es) {x : Bytes} (ho : jsonElems indent depth es = some x) :
    ∃ l, DenotesL l es ∧ ∀ g rest, (∀ c ∈ g, isSpace c = true) → Ends rest →
      ∃ g', (∀ c ∈ g', isSpace c = true) ∧ G .elems (g ++ (x ++ rest)) l (g' ++ rest) := by
  cases es with
  | nil =>
    simp only [jsonElems] at ho; cases ho
    exact ⟨_, .nil, fun g rest hg hr => ⟨g, hg, .noElem⟩⟩
  | cons e es =>
    simp only [WFL] at hw
    simp only [PlainL] at hp
    rw [jsonElems] at ho
    split at ho
    · cases ho
    · rename_i h1
      obtain ⟨r, h2, rfl⟩ := Option.map_eq_some_iff.mp ho
      obtain ⟨t, ht, hG⟩ := json_simple e indent depth hw.1 hp.1 hp.2.1 h1
      obtain ⟨l, hl, hG'⟩ := json_elems es indent depth hw.2 hp.2.2 h2
      refine ⟨_, .cons t e l es ht hl, fun g rest hg hr => ?_⟩
      obtain ⟨g', hg', hG'⟩ := hG' (if es.isEmpty then [] else b!"\n") rest (by split <;> decide) hr
      refine ⟨g', hg', ?_⟩
      have := hG (g ++ indentText indent) ((if es.isEmpty then [] else b!"\n") ++ (r ++ rest)) (white_append hg (indent_white indent)) (.inr (.inr ?_))
      · have := G.elem (.simple this) hG'
        simpa using this
      · cases es with
        | nil => simp only [jsonElems] at h2; cases h2; exact hr
        | cons => exact ends_nl _
theorem json_member (m : Member) (indent depth : Nat) (hw : WF1 m) (hp : Plain1 m) {x : Bytes} (ho : jsonMember indent depth m = some x) :
    ∃ n k e v, m = .mk k v ∧ NameIs n k ∧ Denotes e v ∧ ∀ g rest l r', (∀ c ∈ g, isSpace c = true) → G .binds rest l r' →
      G .binds (g ++ (x ++ rest)) (.binding [n] e :: l) r' := by
  cases m with
  | mk k v =>
    simp only [WF1] at hw
    simp only [Plain1] at hp
    rw [jsonMember] at ho
    split at ho
    · cases ho
    · rename_i h1
      cases ho
      have hv : ∃ t, Denotes t v ∧ ∀ rest, G .expr (32 :: (jsonToNix indent depth v ++ 59 :: rest)) [t] (59 :: rest) := by
        by_cases hn : negative v
        · cases v with
          | int n =>
            simp only [negative] at hn
            simp only [WF] at hw
            simp only [Plain] at hp
            have h0 : n.natAbs < 2 ^ 63 := by omega
            refine ⟨_, (show Denotes (.un .op_negate (.int (n.natAbs : Int))) (.int n) from ?_), fun rest => ?_⟩
            · have := Denotes.neg (n.natAbs : Int)
              rwa [show -(n.natAbs : Int) = n by omega] at this
            · rw [jsonToNix] at h1 ⊢; rw [within_eq h1]
              unfold intText
              rw [if_pos hn]
              have hnat := g_nat (g := []) (n := n.natAbs) (rest := 59 :: rest) (by simp) (ends_semi _) h0
              have hd := natText_digits n.natAbs
              refine .op (.opr (.un (v := b!"-") (.sp ?_) rfl (.opr (.app (.one (.simple hnat))) .stop)) .stop)
              cases h : natText n.natAbs with
              | nil => unfold natText at h; split at h <;> simp at h
              | cons d ds =>
                rw [h] at hd
                exact tok_minus (hd d (by simp)) (fun x hx => digit_sep x (hd x hx)) (fresh_path (ends_semi _).1 (ends_semi _).2)
          | dbl t =>
            simp only [negative] at hn
            simp only [Plain] at hp
            rcases hp with ⟨d, ds, fs, e, rfl, hd, -⟩ | ⟨t', rfl, ht⟩
            · simp at hn
              subst hn
              exact absurd (hd 45 (by simp)) (by decide)
            · refine ⟨_, .negFloat t', fun rest => ?_⟩
              rw [jsonToNix] at h1 ⊢; rw [within_eq h1]
              have hf := g_float (g := []) (rest := 59 :: rest) (by simp) (ends_semi _) ht
              refine .op (.opr (.un (v := b!"-") (.sp ?_) rfl (.opr (.app (.one (.simple hf))) .stop)) .stop)
              obtain ⟨d, ds, fs, e, rfl, h2, h3, h4, -⟩ := ht
              exact tok_minus (h2 d (by simp)) (float_sep h2 h3 h4) (fresh_path (ends_semi _).1 (ends_semi _).2)
          | null => cases hn
          | bool => cases hn
          | str => cases hn
          | arr => cases hn
          | obj => cases hn
        · obtain ⟨t, ht, hG⟩ := json_simple v indent depth hw hp hn h1
          exact ⟨t, ht, fun rest => expr_of_simple (hG b!" " (59 :: rest) (by decide) (.inr (.inr (ends_semi _))))⟩
      obtain ⟨e, he, hG⟩ := hv
      obtain ⟨n, hn, hN⟩ := g_name k
      refine ⟨n, k, e, v, rfl, hn, he, fun g rest l r' hg hb => ?_⟩
      have h2 := hN (g ++ indentText indent) (32 :: 61 :: 32 :: (jsonToNix indent depth v ++ 59 :: rest)) (white_append hg (indent_white indent)) (ends_sp _)
      have := G.binding (.path h2 .noDot) (.sp (tok_eq _)) (hG rest) (tok_semi rest) hb
      simpa using this
theorem json_members (ms : List Member) (indent depth : Nat) (hw : WFM ms) (hp : PlainM ms) {x : Bytes} (ho : jsonMembers indent depth ms = some x) :
    ∃ l, DenotesM l ms ∧ ∀ g rest, (∀ c ∈ g, isSpace c = true) →
      ∃ g', (∀ c ∈ g', isSpace c = true) ∧ G .binds (g ++ (x ++ rest)) l (g' ++ rest) := by
  cases ms with
  | nil =>
    simp only [jsonMembers] at ho; cases ho
    exact ⟨_, .nil, fun g rest hg => ⟨g, hg, .noBind⟩⟩
  | cons m ms =>
    simp only [WFM] at hw
    simp only [PlainM] at hp
    rw [jsonMembers] at ho
    split at ho
    · cases ho
    · rename_i y h1
      obtain ⟨r, h2, rfl⟩ := Option.map_eq_some_iff.mp ho
      obtain ⟨n, k, e, v, rfl, hn, he, hG⟩ := json_member m indent depth hw.1 hp.1 h1
      obtain ⟨l, hl, hG'⟩ := json_members ms indent depth hw.2 hp.2 h2
      refine ⟨_, .cons n k e v l ms hn he hl, fun g rest hg => ?_⟩
      obtain ⟨g', hg', hG'⟩ := hG' (if ms.isEmpty then [] else b!"\n") rest (by split <;> decide)
      refine ⟨g', hg', ?_⟩
      have := hG g _ _ _ hg hG'
      simpa using this
end

/-! ### C36 -/

/-- There is a result exactly if arrays and objects are not nested more than 100 times and have at most 10000 elements. -/
theorem C36_limits (v : Json) (h : WF v) : jsonToNix 0 0 v ≠ [] ↔ level v ≤ 100 ∧ Narrow v := by
  have := json_limits v 0 0 h
  rwa [Nat.zero_add] at this

/-- The result is an expression of the grammar that denotes the JSON value, whatever comes after it, and nixd parses it
without syntax errors. Missing: see `Plain` and the violations below. -/
theorem C36_partial (v : Json) (hw : WF v) (hp : Plain v) (hv : (∃ es, v = .arr es) ∨ ∃ ms, v = .obj ms) (ho : jsonToNix 0 0 v ≠ []) :
    ∃ t, Denotes t v ∧ (∀ rest, G .simple (jsonToNix 0 0 v ++ rest) [t] rest) ∧ Accepts (jsonToNix 0 0 v) t ∧
      ∃ a s, parse (jsonToNix 0 0 v) = some (a, s) ∧ (∀ d ∈ s.lex.diags, isSyntaxError d.kind = false) ∧ syn a = t := by
  have hn : ¬ negative v := by rcases hv with ⟨_, rfl⟩ | ⟨_, rfl⟩ <;> simp [negative]
  have hc : emptyJson v = true ∨ level v ≠ 0 := by
    rcases hv with ⟨es, rfl⟩ | ⟨ms, rfl⟩
    · cases es with
      | nil => exact .inl rfl
      | cons e es => right; simp only [level, levelL]; omega
    · cases ms with
      | nil => exact .inl rfl
      | cons m ms => cases m; right; simp only [level, levelM, level1]; omega
  obtain ⟨t, ht, hG⟩ := json_simple v 0 0 hw hp hn ho
  have hG' : ∀ rest, G .simple (jsonToNix 0 0 v ++ rest) [t] rest := fun rest =>
    hG [] rest (by simp) (hc.elim .inl fun h => .inr (.inl h))
  have ha : Accepts (jsonToNix 0 0 v) t := by
    have := hG' []
    rw [List.append_nil] at this
    exact ⟨[], [], expr_of_simple this, tok_eof⟩
  obtain ⟨a, s, h1, h2, -, h3⟩ := C68_complete ha
  exact ⟨t, ht, hG', ha, a, s, h1, h2, h3⟩

/-- When the action is offered, it replaces the selected text, which is a JSON array or object within the limits, by the
result of the conversion; if the value is within the limits and there is a selection, it is offered. -/
theorem C36_offered (parseJson : Bytes → Option Json) (hparse : ∀ t v, parseJson t = some v → WF v) (src : Bytes)
    (start stop : Position) (out : Bytes) :
    addJsonToNixAction parseJson src start stop = some out ↔
      ∃ a b v, positionToOffset src start true = .ok a ∧ positionToOffset src stop true = .ok b ∧ a + 2 ≤ b ∧ b ≤ src.length ∧
        (((src.drop a).take (b - a)).head? = some 123 ∨ ((src.drop a).take (b - a)).head? = some 91) ∧
        parseJson ((src.drop a).take (b - a)) = some v ∧ emptyJson v = false ∧ level v ≤ 100 ∧ Narrow v ∧ out = jsonToNix 0 0 v := by
  unfold addJsonToNixAction
  cases ha : positionToOffset src start true with
  | error e => simp
  | ok a =>
    cases hb : positionToOffset src stop true with
    | error e => simp
    | ok b =>
      have hlen : ((src.drop a).take (b - a)).length = min (b - a) (src.length - a) := by simp
      simp only [hlen]
      constructor
      · intro h
        split at h
        · cases h
        · rename_i h1
          split at h
          · cases h
          · rename_i h2
            split at h
            · cases h
            · rename_i h3
              cases hv : parseJson ((src.drop a).take (b - a)) with
              | none => rw [hv] at h; cases h
              | some v =>
                rw [hv] at h
                simp only at h
                split at h
                · cases h
                · rename_i h4
                  split at h
                  · cases h
                  · rename_i h5
                    cases h
                    obtain ⟨h6, h7⟩ := (C36_limits v (hparse _ _ hv)).mp h5
                    refine ⟨a, b, v, rfl, rfl, by omega, by omega, ?_, hv, by simpa using h4, h6, h7, rfl⟩
                    by_contra hc
                    exact h3 (by simpa [not_or] using hc)
      · rintro ⟨a', b', v, ea, eb, h1, h2, h3, hv, h4, h5, h6, rfl⟩
        cases ea; cases eb
        rw [if_neg (by omega), if_neg (by omega), if_neg (by rcases h3 with h3 | h3 <;> simp [h3]), hv]
        simp only
        rw [if_neg (by simp [h4]), if_neg ((C36_limits v (hparse _ _ hv)).mpr ⟨h5, h6⟩)]

/-- A document with a syntax error is not an expression of the grammar. -/
theorem not_accepted {src : Bytes} (h : syntaxOf src = none) : ¬ ∃ t, Accepts src t := by
  rintro ⟨t, ht⟩
  obtain ⟨a, s, e, hc, -⟩ := C68_complete ht
  unfold syntaxOf at h
  rw [e] at h
  simp only at h
  rw [if_pos] at h
  · cases h
  · rw [List.all_eq_true]; intro d hd; simp [hc d hd]

/-- A value with everything in it: nested, with names that need quotes and a string with escapes. -/
def someJson : Json :=
  .obj [.mk b!"a" (.arr [.int 1, .dbl b!"0.5", .null, .str b!"x${\n"]), .mk b!"a b" (.int (-7)), .mk b!"or" (.obj []),
    .mk b!"f" (.dbl b!"-1.5e-07"), .mk b!"t" (.bool true)]

theorem someJson_ok : WF someJson ∧ Plain someJson ∧ level someJson = 2 ∧ Narrow someJson := by
  refine ⟨?_, ?_, ?_, ?_⟩
  · simp [someJson, WF, WFM, WF1, WFL]
  · simp only [someJson, Plain, PlainM, Plain1, PlainL, negative]
    refine ⟨⟨by decide, by decide, .inl ⟨48, [], b!"5", [], rfl, by decide, by decide, .inl rfl, by simp⟩, by decide, ?_⟩, by decide, trivial,
      .inr ⟨_, rfl, 49, [], b!"5", b!"e-07", rfl, by decide, by decide, .inr ⟨101, b!"-", b!"07", rfl, .inr rfl, .inr (.inr rfl), by decide, by decide⟩, by decide⟩, ?_⟩
    all_goals simp
  · decide
  · simp [someJson, Narrow, NarrowM, Narrow1, NarrowL]

example : jsonToNix 0 0 someJson = b!"{\n  a = [\n    1\n    0.5\n    null\n    \"x\\${\\n\"\n  ];\n  \"a b\" = -7;\n  \"or\" = { };\n  f = -1.5e-07;\n  t = true;\n}" := by
  decide +kernel
example : ∃ t, Denotes t someJson ∧ Accepts (jsonToNix 0 0 someJson) t := by
  have h := someJson_ok
  obtain ⟨t, h1, -, h2, -⟩ := C36_partial someJson h.1 h.2.1 (.inr ⟨_, rfl⟩) ((C36_limits _ h.1).mpr ⟨by rw [h.2.2.1]; decide, h.2.2.2⟩)
  exact ⟨t, h1, h2⟩
example : addJsonToNixAction (fun _ => some someJson) b!"x = {..}" ⟨0, 4⟩ ⟨0, 8⟩ = some (jsonToNix 0 0 someJson) := by decide +kernel

/-- A negative number in an array: the result is not an expression. -/
theorem C36_negative_violated : WF (.arr [.int (-1)]) ∧ jsonToNix 0 0 (.arr [.int (-1)]) = b!"[\n  -1\n]" ∧
    ¬ ∃ t, Accepts (jsonToNix 0 0 (.arr [.int (-1)])) t :=
  ⟨by simp [WF, WFL], by decide +kernel, not_accepted (by decide +kernel)⟩

/-- The smallest integer: the result is not an expression, as the number without its sign does not fit into 64 bits. -/
theorem C36_smallest_violated : WF (.obj [.mk b!"a" (.int (-2 ^ 63))]) ∧
    jsonToNix 0 0 (.obj [.mk b!"a" (.int (-2 ^ 63))]) = b!"{\n  a = -9223372036854775808;\n}" ∧
    ¬ ∃ t, Accepts (jsonToNix 0 0 (.obj [.mk b!"a" (.int (-2 ^ 63))])) t :=
  ⟨by simp [WF, WFM, WF1], by decide +kernel, not_accepted (by decide +kernel)⟩

/-- A large number whose 17 digits end with zeros, such as `1e22`, is written without a dot; this is not a float of Nix, and
the result is not an expression. -/
theorem C36_exponent_violated : WF (.obj [.mk b!"a" (.dbl b!"1e+22")]) ∧ jsonToNix 0 0 (.obj [.mk b!"a" (.dbl b!"1e+22")]) = b!"{\n  a = 1e+22;\n}" ∧
    ¬ ∃ t, Accepts (jsonToNix 0 0 (.obj [.mk b!"a" (.dbl b!"1e+22")])) t :=
  ⟨by simp [WF, WFM, WF1], by decide +kernel, not_accepted (by decide +kernel)⟩

/-- A number that is too large is infinite, and written as a variable. -/
theorem C36_infinite_violated : syntaxOf (jsonToNix 0 0 (.obj [.mk b!"a" (.dbl b!"inf")])) = some b!"(set (= a inf))" := by decide +kernel

end Verif.Props
