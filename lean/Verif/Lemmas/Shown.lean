import Verif.Model.SemanticTokens
import Verif.Spec.SemanticTokens
import Verif.Lemmas.IdsParse
/-
The traversal of the semantic tokens reaches what `Shown` says.
-/
namespace Verif.Nixf.SemanticTokens
open Scoping Node Server SourceCode

theorem attrFromInherit_iff {a : Node} : attrFromInherit a = false ↔ attrKind a = .plain := by
  cases a with
  | attr n k v kind => cases kind <;> simp [attrFromInherit, attrKind]
  | _ => simp [attrFromInherit, attrKind]

theorem shownAttrs_parts {p : Bool × Node} (r : Bool) (st dy : List Node) (hp : p ∈ shownAttrs r st dy) : p ∈ attrParts r st dy := by
  unfold shownAttrs at hp
  unfold attrParts
  simp only [List.mem_append, List.mem_map, List.mem_filter, Bool.and_eq_true, beq_iff_eq, List.mem_flatMap] at hp ⊢
  rcases hp with ⟨a, ⟨h1, h2, h3⟩, rfl⟩ | ⟨a, ⟨h1, h2⟩, rfl⟩
  · exact .inl ⟨a, ⟨h1, h3⟩, by rw [h2]; simp⟩
  · exact .inr ⟨a, ⟨h1, h2⟩, by simp⟩

/-- The parts are those of `Scoping.parts`. -/
theorem shown_parts {n : Node} (h : SetInv n) {p : Bool × Node} (hp : p ∈ shownParts n) : p ∈ parts n := by
  cases n
  case exprLambda hh a e =>
    obtain ⟨h', i, f, rfl, -⟩ := h
    simp only [shownParts, inScope] at hp
    simp only [Scoping.parts]
    split at hp
    · cases hp
    · rename_i hn
      rw [if_neg hn]
      exact List.mem_append_right _ hp
  case exprSelect hh e o p' d b =>
    simp only [shownParts, List.mem_map, List.mem_filter, List.mem_cons, List.not_mem_nil, or_false] at hp
    simp only [Scoping.parts, List.mem_map]
    obtain ⟨c, ⟨h1, h2⟩, rfl⟩ := hp
    refine ⟨c, ?_, rfl⟩
    simp only [Node.children, List.mem_filter, List.mem_cons, List.not_mem_nil, or_false]
    refine ⟨?_, h2⟩
    tauto
  case exprAttrs hh b r st dy => exact shownAttrs_parts _ _ _ hp
  case exprLet hh kl ki e a =>
    obtain ⟨-, -, rfl | ⟨h', b, r, st, dy, rfl, -⟩⟩ := h
    · exact hp
    · simp only [shownParts, List.mem_append] at hp
      simp only [Scoping.parts, List.mem_append]
      exact hp.imp (shownAttrs_parts _ _ _) id
  case exprLegacyLet hh kl a =>
    obtain ⟨-, h', b, r, st, dy, rfl⟩ := h
    exact hp
  case exprString => cases hp
  all_goals exact hp

theorem shown_size {n : Node} (h : SetInv n) {p : Bool × Node} (hp : p ∈ shownParts n) : sizeOf p.2 < sizeOf n :=
  parts_size (shown_parts h hp)

theorem shownAttrs_flag {r : Bool} (r' : Bool) {st dy : List Node} {p : Bool × Node} (hp : p ∈ shownAttrs r st dy) :
    ∃ q ∈ shownAttrs r' st dy, q.2 = p.2 := by
  unfold shownAttrs at hp ⊢
  simp only [List.mem_append, List.mem_map] at hp ⊢
  rcases hp with ⟨a, h, rfl⟩ | ⟨a, h, rfl⟩
  · exact ⟨_, .inl ⟨a, h, rfl⟩, rfl⟩
  · exact ⟨_, .inr ⟨a, h, rfl⟩, rfl⟩

theorem shown_iff {n : Node} {Q : List Frame → Node → Prop} (hQ : ∀ Δ Δ' m, Q Δ m → Q Δ' m) :
    (∃ Δ m, Shown n Δ m ∧ Q Δ m) ↔ Q [] n ∨ ∃ p ∈ shownParts n, ∃ Δ m, Shown p.2 Δ m ∧ Q Δ m := by
  constructor
  · rintro ⟨Δ, m, h, hq⟩
    cases h with
    | here => exact .inl hq
    | outer _ c _ _ hc h => exact .inr ⟨_, hc, _, _, h, hq⟩
    | inner _ c Δ' _ hc h => exact .inr ⟨_, hc, _, _, h, hQ _ _ _ hq⟩
  · rintro (hq | ⟨⟨b, c⟩, hc, Δ, m, h, hq⟩)
    · exact ⟨_, _, .here _, hq⟩
    · cases b with
      | false => exact ⟨_, _, .outer _ _ _ _ hc h, hq⟩
      | true => exact ⟨_, _, .inner _ _ _ _ hc h, hQ _ _ _ hq⟩

/-- What is shown is part of the program. -/
theorem shown_inside {n m : Node} {Δ : List Frame} (hg : ∀ Δ m, Inside n Δ m → SetInv m) (h : Shown n Δ m) : Inside n Δ m := by
  induction h with
  | here => exact .here _
  | outer n c Δ m hc _ ih =>
    have := shown_parts (hg _ _ (.here _)) hc
    exact .outer _ _ _ _ this (ih fun Δ m hm => hg _ _ (.outer _ _ _ _ this hm))
  | inner n c Δ m hc _ ih =>
    have := shown_parts (hg _ _ (.here _)) hc
    exact .inner _ _ _ _ this (ih fun Δ m hm => hg _ _ (.inner _ _ _ _ this hm))

/-- The tokens of a node itself. -/
def own (vl : VL) (src : Bytes) (n : Node) : List Raw :=
  match n with
  | .exprString .. => if isLiteralString n then add src n .string 0 else []
  | .exprVar _ i => add src n (varType vl n i.name).1 (varType vl n i.name).2
  | .exprSelect _ _ _ p _ _ => (pathNames p).flatMap (selectName src)
  | .exprLambda _ arg _ => lambdaArgTokens src arg
  | n => (staticOf n).flatMap fun a =>
      if (attrValue a).isNull then [] else if attrFromInherit a then [] else add src (attrKey a) .attrName 0

theorem tokensF_nonnode (vl : VL) (src : Bytes) (k : Nat) {n : Node} (h : n.isNode = false) : tokensF vl src k n = [] := by
  cases k with
  | zero => rfl
  | succ k =>
    cases n <;> first | (cases h; done) | rfl

theorem tokensF_null (vl : VL) (src : Bytes) (k : Nat) {n : Node} (h : n.isNull = true) : tokensF vl src k n = [] := by
  cases n <;> first | (cases h; done) | exact tokensF_nonnode _ _ _ rfl

theorem tokensF_leaf (vl : VL) (src : Bytes) (k : Nat) {n : Node} (h : Leaf n) : tokensF vl src k n = [] := by
  rcases h with rfl | ⟨h, rfl⟩
  · exact tokensF_null _ _ _ rfl
  · cases k <;> rfl

theorem mem_tokens_attrs (vl : VL) (src : Bytes) (k : Nat) (r : Bool) (st dy : List Node) (t : Raw) :
    t ∈ (st.flatMap (fun a =>
        if (attrValue a).isNull then []
        else if attrFromInherit a then []
        else add src (attrKey a) .attrName 0 ++ tokensF vl src k (attrValue a)) ++
      dy.flatMap (fun a => tokensF vl src k (attrValue a))) ↔
    t ∈ st.flatMap (fun a => if (attrValue a).isNull then [] else if attrFromInherit a then [] else add src (attrKey a) .attrName 0) ∨
    ∃ p ∈ shownAttrs r st dy, t ∈ tokensF vl src k p.2 := by
  unfold shownAttrs
  simp only [List.mem_append, List.mem_flatMap, List.mem_map, List.mem_filter, Bool.and_eq_true, beq_iff_eq, Bool.not_eq_true']
  constructor
  · rintro (⟨a, ha, ht⟩ | ⟨a, ha, ht⟩)
    · split at ht
      · cases ht
      · split at ht
        · cases ht
        · rename_i h1 h2
          rcases List.mem_append.mp ht with ht | ht
          · exact .inl ⟨a, ha, by rw [if_neg h1, if_neg h2]; exact ht⟩
          · exact .inr ⟨_, .inl ⟨a, ⟨ha, attrFromInherit_iff.mp (by simpa using h2), by simpa using h1⟩, rfl⟩, ht⟩
    · refine .inr ⟨_, .inr ⟨a, ⟨ha, ?_⟩, rfl⟩, ht⟩
      rw [Bool.eq_false_iff]
      intro hc
      rw [tokensF_null _ _ _ hc] at ht
      cases ht
  · rintro (⟨a, ha, ht⟩ | ⟨p, ⟨a, ⟨h1, h2, h3⟩, rfl⟩ | ⟨a, ⟨h1, h2⟩, rfl⟩, ht⟩)
    · refine .inl ⟨a, ha, ?_⟩
      split at ht
      · cases ht
      · split at ht
        · cases ht
        · rename_i h1 h2
          rw [if_neg h1, if_neg h2]
          exact List.mem_append_left _ ht
    · refine .inl ⟨a, h1, ?_⟩
      rw [if_neg (by simp [h3]), if_neg (by simp [attrFromInherit_iff.mpr h2])]
      exact List.mem_append_right _ ht
    · exact .inr ⟨a, h1, ht⟩

theorem mem_inScope_tokens {vl : VL} {src : Bytes} {k : Nat} {e : Node} {t : Raw} :
    (∃ p ∈ inScope e, t ∈ tokensF vl src k p.2) ↔ t ∈ tokensF vl src k e := by
  unfold inScope
  split
  · rename_i h
    rw [tokensF_null _ _ _ h]
    simp
  · simp

/-- The tokens of a node are its own and those of the parts that are shown. -/
theorem tokens_step (vl : VL) (src : Bytes) {n : Node} (hg : SetInv n) {k : Nat} (hk : sizeOf n ≤ k) (t : Raw)
    (hind : ∀ p ∈ shownParts n, ∀ j j', sizeOf p.2 ≤ j → sizeOf p.2 ≤ j' → (t ∈ tokensF vl src j p.2 ↔ t ∈ tokensF vl src j' p.2)) :
    t ∈ tokensF vl src k n ↔ t ∈ own vl src n ∨ ∃ p ∈ shownParts n, t ∈ tokensF vl src (sizeOf p.2) p.2 := by
  have hreg' : ∀ k, (∀ p ∈ shownParts n, sizeOf p.2 ≤ k) → ((∃ p ∈ shownParts n, t ∈ tokensF vl src (sizeOf p.2) p.2) ↔ ∃ p ∈ shownParts n, t ∈ tokensF vl src k p.2) := by
    intro k hk
    constructor <;> rintro ⟨p, hp, ht⟩ <;> refine ⟨p, hp, ?_⟩ <;> have := hk p hp
    · exact (hind p hp _ _ (Nat.le_refl _) (by omega)).mp ht
    · exact (hind p hp _ _ (Nat.le_refl _) (by omega)).mpr ht
  have hreg := fun k (hk : sizeOf n ≤ k + 1) => hreg' k fun p hp => by have := shown_size hg hp; omega
  cases k with
  | zero => exfalso; cases n <;> simp at hk
  | succ k =>
    cases n
    case exprLambda h a e =>
      rw [hreg k hk]
      simp only [tokensF, own, List.mem_append, shownParts, mem_inScope_tokens]
    case exprString h p => simp [tokensF, own, shownParts]
    case exprVar h i => simp [tokensF, own, shownParts]
    case exprSelect h e o p d b =>
      rw [hreg k hk]
      have : ∀ c, (t ∈ tokensF vl src k c) ↔ (c.isNode = true ∧ t ∈ tokensF vl src k c) := by
        intro c
        refine ⟨fun hc => ⟨?_, hc⟩, fun hc => hc.2⟩
        cases hn : c.isNode with
        | true => rfl
        | false => rw [tokensF_nonnode _ _ _ hn] at hc; cases hc
      simp only [tokensF, own, List.mem_append, shownParts]
      rw [this e, this d]
      constructor
      · rintro ((⟨h1, h2⟩ | ⟨h1, h2⟩) | h)
        · exact .inr ⟨(false, e), by simp [h1], h2⟩
        · exact .inr ⟨(false, d), by simp [h1], h2⟩
        · exact .inl h
      · rintro (h | ⟨q, hq, ht⟩)
        · exact .inr h
        · simp only [List.mem_map, List.mem_filter, List.mem_cons, List.not_mem_nil, or_false] at hq
          obtain ⟨c, ⟨rfl | rfl, h2⟩, rfl⟩ := hq
          · exact .inl (.inl ⟨h2, ht⟩)
          · exact .inl (.inr ⟨h2, ht⟩)
    case exprAttrs h b r st dy =>
      rw [hreg k hk]
      exact mem_tokens_attrs vl src k _ st dy t
    case exprLet h kl ki e a =>
      obtain ⟨l1, l2, hat⟩ := hg
      have hch : t ∈ tokensF vl src (k + 1) (.exprLet h kl ki e a) ↔ t ∈ tokensF vl src k a ∨ t ∈ tokensF vl src k e := by
        have hn : ∀ c, t ∈ tokensF vl src k c → c.isNode = true := fun c hc => by
          cases hn : c.isNode with
          | true => rfl
          | false => rw [tokensF_nonnode _ _ _ hn] at hc; cases hc
        simp only [tokensF, Node.children, List.mem_flatMap, List.mem_filter, List.mem_cons, List.not_mem_nil, or_false]
        constructor
        · rintro ⟨c, ⟨rfl | rfl | rfl | rfl, _⟩, hc⟩
          · rw [tokensF_leaf _ _ _ l1] at hc; cases hc
          · exact .inl hc
          · rw [tokensF_leaf _ _ _ l2] at hc; cases hc
          · exact .inr hc
        · rintro (hc | hc)
          · exact ⟨_, ⟨.inr (.inl rfl), hn _ hc⟩, hc⟩
          · exact ⟨_, ⟨.inr (.inr (.inr rfl)), hn _ hc⟩, hc⟩
      rw [hch]
      rcases hat with rfl | ⟨h', b, r, st, dy, rfl, -⟩
      · rw [hreg k hk, tokensF_null _ _ _ rfl]
        simp only [own, staticOf, shownParts, mem_inScope_tokens]
        simp
      · cases k with
        | zero => exfalso; simp at hk; omega
        | succ k =>
          rw [hreg' k (by
            intro p hp
            rcases List.mem_append.mp (show p ∈ shownAttrs true st dy ++ inScope e from hp) with hp | hp
            · obtain ⟨q, hq, hqe⟩ := shownAttrs_flag (!r.isNull) hp
              have := parts_size (n := .exprAttrs h' b r st dy) (shownAttrs_parts _ _ _ hq)
              rw [hqe] at this
              simp at hk this
              omega
            · unfold inScope at hp
              split at hp
              · cases hp
              · simp at hp
                subst hp
                simp at hk ⊢
                omega)]
          have h1 : t ∈ tokensF vl src (k + 1) (.exprAttrs h' b r st dy) ↔ _ := mem_tokens_attrs vl src k true st dy t
          rw [h1]
          have he : t ∈ tokensF vl src (k + 1) e ↔ t ∈ tokensF vl src k e := by
            by_cases hn : e.isNull = true
            · rw [tokensF_null _ _ _ hn, tokensF_null _ _ _ hn]
            · exact hind (true, e) (by
                show (true, e) ∈ shownAttrs true st dy ++ inScope e
                refine List.mem_append_right _ ?_
                unfold inScope
                rw [if_neg hn]
                simp) _ _ (by simp at hk ⊢; omega) (by simp at hk ⊢; omega)
          rw [he]
          simp only [own, staticOf, shownParts, List.mem_append, or_and_right, exists_or, mem_inScope_tokens]
          exact or_assoc
    case exprLegacyLet h kl a =>
      rw [hreg k hk]
      obtain ⟨l1, h', b, r, st, dy, rfl⟩ := hg
      simp [tokensF, own, staticOf, shownParts, Node.children, List.filter_cons, Node.isNode, Node.hd?, Node.isNull]
      rcases l1 with rfl | ⟨h2, rfl⟩
      · simp
      · have := tokensF_leaf vl src k (n := .misc h2) (.inr ⟨h2, rfl⟩)
        simp [this]
    case exprWith h kw semi w e =>
      rw [hreg k hk]
      obtain ⟨l1, l2⟩ := hg
      have hn : ∀ c, t ∈ tokensF vl src k c → c.isNode = true := fun c hc => by
        cases hn : c.isNode with
        | true => rfl
        | false => rw [tokensF_nonnode _ _ _ hn] at hc; cases hc
      have hw : (∃ p ∈ (if w.isNull then [] else [(false, w)] : List (Bool × Node)), t ∈ tokensF vl src k p.2) ↔ t ∈ tokensF vl src k w := by
        split
        · rename_i h; rw [tokensF_null _ _ _ h]; simp
        · simp
      have hr : (∃ p ∈ shownParts (.exprWith h kw semi w e), t ∈ tokensF vl src k p.2) ↔ t ∈ tokensF vl src k w ∨ t ∈ tokensF vl src k e := by
        simp only [shownParts, List.mem_append, or_and_right, exists_or, mem_inScope_tokens, hw]
      rw [hr]
      simp only [tokensF, Node.children, List.mem_flatMap, List.mem_filter, List.mem_cons, List.not_mem_nil, or_false, own, staticOf,
        List.flatMap_nil, false_or]
      constructor
      · rintro ⟨c, ⟨rfl | rfl | rfl | rfl, _⟩, hc⟩
        · rw [tokensF_leaf _ _ _ l1] at hc; cases hc
        · rw [tokensF_leaf _ _ _ l2] at hc; cases hc
        · exact .inl hc
        · exact .inr hc
      · rintro (hc | hc)
        · exact ⟨_, ⟨.inr (.inr (.inl rfl)), hn _ hc⟩, hc⟩
        · exact ⟨_, ⟨.inr (.inr (.inr rfl)), hn _ hc⟩, hc⟩
    all_goals
      rw [hreg k hk]
      simp only [tokensF, own, staticOf, shownParts, List.flatMap_nil, List.not_mem_nil, false_or, List.mem_flatMap, List.mem_map,
        exists_exists_and_eq_and]

/-- The tokens of a tree are those of the nodes that are shown. -/
theorem mem_tokens (vl : VL) (src : Bytes) (t : Raw) : ∀ (j : Nat) (n : Node), sizeOf n ≤ j → (∀ Δ m, Inside n Δ m → SetInv m) →
    ∀ k, sizeOf n ≤ k → (t ∈ tokensF vl src k n ↔ ∃ Δ m, Shown n Δ m ∧ t ∈ own vl src m) := by
  intro j
  induction j with
  | zero => intro n hn; exfalso; cases n <;> simp at hn
  | succ j ih =>
    intro n hn hg k hk
    have hgn := hg _ _ (.here n)
    have hsub : ∀ p ∈ shownParts n, ∀ k, sizeOf p.2 ≤ k → (t ∈ tokensF vl src k p.2 ↔ ∃ Δ m, Shown p.2 Δ m ∧ t ∈ own vl src m) := by
      intro p hp
      refine ih p.2 (by have := shown_size hgn hp; omega) fun Δ m hm => hg _ _ (inside_part (shown_parts hgn hp) hm)
    rw [tokens_step vl src hgn hk t fun p hp j j' h h' => by rw [hsub p hp j h, hsub p hp j' h'],
      shown_iff (Q := fun _ m => t ∈ own vl src m) fun _ _ _ h => h]
    refine or_congr Iff.rfl ⟨?_, ?_⟩
    · rintro ⟨p, hp, ht⟩
      exact ⟨p, hp, (hsub p hp _ (Nat.le_refl _)).mp ht⟩
    · rintro ⟨p, hp, ht⟩
      exact ⟨p, hp, (hsub p hp _ (Nat.le_refl _)).mpr ht⟩

end Verif.Nixf.SemanticTokens
