import Verif.Props.PackOffered
import Verif.Props.WithToLetText
/-
C37: what the text is read as that packing recursively writes.
-/
namespace Verif.Props
open Verif.Nixf Verif.Nixf.Syntax Node

/-- An attribute that is not inherited, with a value of the document or a set of such attributes, at most `k` sets deep. -/
inductive Packable (root : Node) : Nat → Node → Prop
  | value {k : Nat} {a : Node} : isKind .ExprAttrs (attrValue a) = false → Part root (attrValue a) → (attrValue a).isExpr = true → Packable root k a
  | set {k : Nat} {x : Bytes} {key : Node} {h : Hd} {b rc : Node} {st : List Node} : (∀ a ∈ st, Packable root k a) →
      Packable root (k + 1) (.attr x key (.exprAttrs h b rc st []) .plain)

/-- The binding `t` has the name of the attribute `a` and its value, or a set of such bindings if that is a set. -/
inductive Packed : Node → Syn → Prop
  | value {a : Node} {n : Syn} : isKind .ExprAttrs (attrValue a) = false → NameIs n (attrName a) → Packed a (.binding [n] (syn (attrValue a)))
  | set {x : Bytes} {key : Node} {h : Hd} {b rc : Node} {st : List Node} {n : Syn} {ts : List Syn} : NameIs n x → List.Forall₂ Packed st ts →
      Packed (.attr x key (.exprAttrs h b rc st []) .plain) (.binding [n] (.set false ts))

/-- A value followed by a semicolon. -/
def Val (w : Bytes) (t : Syn) : Prop := odd t = false ∧ ∀ y, G .expr (w ++ 59 :: y) [t] (59 :: y)

theorem bind_onto {k w : Bytes} {t : Syn} (h : Val w t) : ∃ n, NameIs n k ∧ odd (.binding [n] t) = false ∧
    ∀ y l r', G .binds y l r' → G .binds (quoteNixAttrKey k ++ b!" = " ++ w ++ b!";" ++ y) (.binding [n] t :: l) r' := by
  obtain ⟨n, h1, h2, h3⟩ := g_key k
  refine ⟨n, h1, by simp [odd, oddL, h2, h.1], fun y l r' hy => ?_⟩
  have e : quoteNixAttrKey k ++ b!" = " ++ w ++ b!";" ++ y = quoteNixAttrKey k ++ 32 :: 61 :: 32 :: (w ++ 59 :: y) := by simp
  rw [e]
  exact .binding (.path (h3 _ (fun c hc => by simp at hc; subst hc; decide) ⟨[], _, rfl, nofun, fun c hc => by simp at hc; subst hc; decide, fun c hc => by simp at hc; subst hc; decide⟩) .noDot) (.ws (g := [32]) (by decide) (tok_eq _))
    (G.lead (one_space _) (h.2 y) rfl) (tok_semi _) hy

theorem spaced_onto {f : Node → Bytes} {st : List Node} (h : ∀ a ∈ st, ∃ t, Packed a t ∧ odd t = false ∧
      ∀ y l r', G .binds y l r' → G .binds (f a ++ y) (t :: l) r') :
    ∃ ts, List.Forall₂ Packed st ts ∧ oddL ts = false ∧ ∀ y, G .binds (spaced (st.map f) ++ 32 :: 125 :: y) ts (32 :: 125 :: y) := by
  induction st with
  | nil => exact ⟨[], .nil, rfl, fun y => .noBind⟩
  | cons a st ih =>
    obtain ⟨ts, h1, h2, h3⟩ := ih fun b hb => h b (.tail _ hb)
    obtain ⟨t, g1, g2, g3⟩ := h a (.head _)
    refine ⟨t :: ts, .cons g1 h1, by simp [oddL, g2, h2], fun y => ?_⟩
    cases st with
    | nil => cases h1; exact g3 _ _ _ .noBind
    | cons b st =>
      cases h1
      show G .binds ((f a ++ b!" " ++ spaced ((b :: st).map f)) ++ _) _ _
      rw [List.append_assoc, List.append_assoc]
      exact g3 _ _ _ (G.lead_binds (one_space _) (h3 y))

/-- **C37.** In a document without syntax errors, the text that packing recursively writes for the attributes of a set is read as a set of exactly these
attributes, with their names and values, as far as they are not inherited or dynamic, and not nested too deep. -/
theorem C37_nested {src : Bytes} {root : Node} {s : PState} {k : Nat} {st : List Node} (h : parse src = some (root, s)) (hc : NoErrors s)
    (ho : odd (syn root) = false) (hst : ∀ a ∈ st, Packable root k a) :
    ∃ ts, List.Forall₂ Packed st ts ∧ Text .simple (nestedText src (k + 1) st) (.set false ts) := by
  suffices H : ∃ ts, List.Forall₂ Packed st ts ∧ oddL ts = false ∧ ∀ y, G .simple (nestedText src (k + 1) st ++ y) [.set false ts] y by
    obtain ⟨ts, h1, h2, h3⟩ := H
    refine ⟨ts, h1, ?_, by simpa [odd] using h2⟩
    have := h3 []
    rwa [List.append_nil] at this
  have leaf : ∀ (f : List Node → Bytes) (a : Node), isKind .ExprAttrs (attrValue a) = false → Part root (attrValue a) → (attrValue a).isExpr = true →
      ∃ t, Packed a t ∧ odd t = false ∧ ∀ y l r', G .binds y l r' →
        G .binds (quoteNixAttrKey (attrName a) ++ b!" = " ++ nestedValue f src a ++ b!";" ++ y) (t :: l) r' := by
    intro f a h1 h2 h3
    have hv : nestedValue f src a = (attrValue a).src src := by
      unfold nestedValue valueSrc
      have : (attrValue a).isNull = false := by cases hx : attrValue a <;> rw [hx] at h3 <;> first | rfl | cases h3
      rw [h1, this]; rfl
    have e1 : ∀ y, Edge (src.drop (attrValue a).rCur.offset) (59 :: y) ((attrValue a).src src) := fun y =>
      Edge.stop fun d hd => by simp at hd; subst hd; exact ⟨by decide, fun h => absurd h (by decide)⟩
    obtain ⟨n, n1, n2, n3⟩ := bind_onto (k := attrName a) (w := (attrValue a).src src) (t := syn (attrValue a))
      ⟨(expr_onto h hc ho h2 h3 (e1 [])).2, fun y => (expr_onto h hc ho h2 h3 (e1 y)).1⟩
    exact ⟨_, .value h1 n1, n2, by rw [hv]; exact n3⟩
  have wrap : ∀ (k : Nat) (st : List Node), (∀ a ∈ st, ∃ t, Packed a t ∧ odd t = false ∧ ∀ y l r', G .binds y l r' →
        G .binds (quoteNixAttrKey (attrName a) ++ b!" = " ++ nestedValue (nestedText src k) src a ++ b!";" ++ y) (t :: l) r') →
      ∃ ts, List.Forall₂ Packed st ts ∧ oddL ts = false ∧ ∀ y, G .simple (nestedText src (k + 1) st ++ y) [.set false ts] y := by
    intro k st hst
    obtain ⟨ts, h1, h2, h3⟩ := spaced_onto hst
    refine ⟨ts, h1, h2, fun y => ?_⟩
    have e : nestedText src (k + 1) st ++ y =
        123 :: 32 :: (spaced (st.map fun a => quoteNixAttrKey (attrName a) ++ b!" = " ++ nestedValue (nestedText src k) src a ++ b!";") ++ 32 :: 125 :: y) := by
      simp [nestedText]
    rw [e]
    cases ts with
    | nil =>
      cases h1
      exact .set (tok_lcurly _) .noBind (.ws (g := [32, 32]) (by decide) (tok_rcurly _))
    | cons t ts => exact .set (tok_lcurly _) (G.lead_binds (one_space _) (h3 y)) (.ws (g := [32]) (by decide) (tok_rcurly _))
  induction k generalizing st with
  | zero =>
    refine wrap 0 st fun a ha => ?_
    cases hst a ha with
    | value h1 h2 h3 => exact leaf _ a h1 h2 h3
  | succ k ih =>
    refine wrap (k + 1) st fun a ha => ?_
    cases hst a ha with
    | value h1 h2 h3 => exact leaf _ a h1 h2 h3
    | @set _ x key hd b rc st' h1 =>
      obtain ⟨ts, g1, g2, g3⟩ := ih h1
      have hv : nestedValue (nestedText src (k + 1)) src (.attr x key (.exprAttrs hd b rc st' []) .plain) = nestedText src (k + 1) st' := rfl
      obtain ⟨n, n1, n2, n3⟩ := bind_onto (k := x) (w := nestedText src (k + 1) st') (t := .set false ts)
        ⟨by simpa [odd] using g2, fun y => G.ofSelect (.simple (g3 _))⟩
      exact ⟨_, .set n1 g1, n2, by rw [hv]; exact n3⟩

example : (afterPack b!"{ a.\"b c\" = f x; a.d.e = 2; }" 3)[2]? = some b!"{ a = { \"b c\" = f x; d = { e = 2; }; }; }" ∧
    syntaxOf b!"{ a = { \"b c\" = f x; d = { e = 2; }; }; }" = some b!"(set (= a (set (= \"b c\" (call f x)) (= d (set (= e 2))))))" := by decide +kernel

/-- A path of `n + 1` names `x`. -/
def longPath : Nat → Bytes
  | 0 => b!"x"
  | n + 1 => b!"x." ++ longPath n

/-- A document with a binding of a long path. -/
def longDoc (n : Nat) : Bytes := b!"{ a." ++ longPath n ++ b!" = 1; a.y = 2; }"

/-- **C37**, violated: packing recursively drops what is nested more than a hundred sets deep. The last action is to pack recursively. -/
theorem C37_depth_violated :
    ((afterPack (longDoc 101) 3)[2]?.bind fun t => atPath t (b!"a" :: List.replicate 102 b!"x")) = none ∧
    atPath (longDoc 101) (b!"a" :: List.replicate 102 b!"x") = some .ExprInt ∧
    ((afterPack (longDoc 101) 3)[2]?.map fun t => syntaxOf t |>.isSome) = some true ∧
    ((afterPack (longDoc 100) 3)[2]?.bind fun t => atPath t (b!"a" :: List.replicate 101 b!"x")) = some .ExprInt := by
  decide +kernel


end Verif.Props
