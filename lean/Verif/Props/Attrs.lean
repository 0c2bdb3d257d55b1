import Verif.Lemmas.Attrs
import Verif.Props.Formals
/-
Attribute sets: which value each path has, and which duplicates are reported.
-/
namespace Verif.Props

open Nixf Nixf.Attrs

/-- Every set of a parsed tree is made by the semantic action for sets. -/
theorem set_ok {root : Node} (ht : ∀ m, Reach root m → Typed m) (k : Nat) : ∀ m, sizeOf m ≤ k → Reach root m → SetOk m := by
  induction k with
  | zero => intro m hm; cases m <;> simp at hm
  | succ k ih =>
    intro m hm hr
    rcases isSet_cases m with h | ⟨h, b, r, st, dy, rfl⟩
    · exact .leaf _ h
    · obtain ⟨-, -, s, hs⟩ := ht _ hr
      by_cases hb : ∃ hb bs, b = .binds hb bs
      · obtain ⟨hb, bs, rfl⟩ := hb
        simp only [onExprAttrs, Node.exprAttrs.injEq] at hs
        obtain ⟨-, -, -, h1, -⟩ := hs
        rw [← h1]
        refine ((lowerBinds_chain {} bs s .nil fun b hbm => ?_).1).set _ _ _ _
        cases b
        case binding h' p e v =>
          simp only [bindingValue]
          rcases isSet_cases v with hv | ⟨h2, b2, r2, st2, dy2, rfl⟩
          · exact .leaf _ hv
          · have r1 : Reach (.exprAttrs h (.binds hb bs) r st dy) (.exprAttrs h2 b2 r2 st2 dy2) := by
              refine .down _ _ _ (mem_children (c := .binds hb bs) (ns := [.binds hb bs, r]) rfl (by simp) rfl) ?_
              refine .down _ _ _ (mem_children (ns := bs) rfl hbm rfl) ?_
              exact .down _ _ _ (mem_children (ns := [p, e, .exprAttrs h2 b2 r2 st2 dy2]) rfl (by simp) rfl) (.here _)
            refine ih _ ?_ (hr.trans r1)
            have h3 : sizeOf (Node.binding h' p e (.exprAttrs h2 b2 r2 st2 dy2)) < sizeOf bs := List.sizeOf_lt_of_mem hbm
            simp only [Node.binding.sizeOf_spec, Node.exprAttrs.sizeOf_spec, Node.binds.sizeOf_spec] at h3 hm ⊢
            omega
        all_goals exact .leaf _ (by simp only [bindingValue]; exact nofun)
      · have : onExprAttrs h.range b r s = (.exprAttrs ⟨s.next, h.range⟩ b r [] [], { s with next := s.next + 1 }) := by
          unfold onExprAttrs
          cases b
          case binds => exact absurd ⟨_, _, rfl⟩ hb
          all_goals rfl
        rw [this] at hs
        simp only [Node.exprAttrs.injEq] at hs
        rw [← hs.2.2.2.1]
        exact StOk.nil.set _ _ _ _

theorem parsed_values {src : Bytes} {n : Node} {s : PState} (hp : parse src = some (n, s)) {h hb : Hd} {r : Node} {bs st dy : List Node}
    (hr : Reach n (.exprAttrs h (.binds hb bs) r st dy)) : ∀ b ∈ bs, SetOk (bindingValue b) := by
  intro b hbm
  have ht := (parse_ids hp).up.2
  cases b
  case binding h' p e v =>
    simp only [bindingValue]
    rcases isSet_cases v with hv | ⟨h2, b2, r2, st2, dy2, rfl⟩
    · exact .leaf _ hv
    · refine set_ok ht _ _ (Nat.le_refl _) (hr.trans ?_)
      refine .down _ _ _ (mem_children (c := .binds hb bs) (ns := [.binds hb bs, r]) rfl (by simp) rfl) ?_
      refine .down _ _ _ (mem_children (ns := bs) rfl hbm rfl) ?_
      exact .down _ _ _ (mem_children (ns := [p, e, .exprAttrs h2 b2 r2 st2 dy2]) rfl (by simp) rfl) (.here _)
  all_goals exact .leaf _ (by simp only [bindingValue]; exact nofun)

/-- The bindings of a set of a parsed tree are lowered one by one, with any state before. -/
theorem parsed_chain {src : Bytes} {n : Node} {s : PState} (hp : parse src = some (n, s)) {h hb : Hd} {r : Node} {bs st dy : List Node}
    (hr : Reach n (.exprAttrs h (.binds hb bs) r st dy)) (s0 : SemaSt) :
    ∃ ds, (onExprAttrs h.range (.binds hb bs) r s0).2.diags = s0.diags ++ ds ∧
      Chain (content []) (items bs) ds (content (statics (onExprAttrs h.range (.binds hb bs) r s0).1)) := by
  exact (lowerBinds_chain {} bs s0 .nil (parsed_values hp hr)).2


/-- The same for the state in which the set was made. -/
theorem parsed_content {src : Bytes} {n : Node} {s : PState} (hp : parse src = some (n, s)) {h hb : Hd} {r : Node} {bs st dy : List Node}
    (hr : Reach n (.exprAttrs h (.binds hb bs) r st dy)) : ∃ ds, Chain (content []) (items bs) ds (content st) := by
  obtain ⟨-, -, s0, h0⟩ := (parse_ids hp).up.2 _ hr
  obtain ⟨ds, -, hc⟩ := parsed_chain hp hr s0
  rw [h0] at hc
  exact ⟨ds, hc⟩

theorem has_empty : Has (content []) = Joint [] := by
  funext q e
  rw [Has, content_empty]
  simp [Joint]

/-- **C19.** In every set of every parsed file, the entries at static paths are exactly those its bindings give together: each
binding adds its path and what is below it, except for what was there before and for what clashes with it. -/
theorem C19_exact {src : Bytes} {n : Node} {s : PState} (hp : parse src = some (n, s)) {h hb : Hd} {r : Node} {bs st dy : List Node}
    (hr : Reach n (.exprAttrs h (.binds hb bs) r st dy)) (q : List Bytes) (e : Entry) :
    content st q = some e ↔ Joint (items bs).reverse q e := by
  obtain ⟨ds, hc⟩ := parsed_content hp hr
  have := hc.union has_empty
  rw [List.append_nil] at this
  rw [← this]
  rfl

/-- **C19.** If no binding clashes with an earlier one, each path has what the first binding for it gives, and nothing else is in
the set. -/
theorem C19_first {src : Bytes} {n : Node} {s : PState} (hp : parse src = some (n, s)) {h hb : Hd} {r : Node} {bs st dy : List Node}
    (hr : Reach n (.exprAttrs h (.binds hb bs) r st dy))
    (hc : ∀ a it b, items bs = a ++ it :: b → ∀ it' ∈ a, ∀ x k p q, ¬ Clash (Gives it') it x k p q) (q : List Bytes) (e : Entry) :
    content st q = some e ↔ ∃ a it b, items bs = a ++ it :: b ∧ Gives it q e ∧ ∀ it' ∈ a, ∀ e', ¬ Gives it' q e' := by
  obtain ⟨ds, hch⟩ := parsed_content hp hr
  refine hch.first (fun d hd hk => ?_) q e
  obtain ⟨a, it, b, h1, it', h2, x, k, p, q, h3⟩ := hch.pairwise.mp ⟨d, hd, hk⟩
  exact hc a it b h1 it' h2 x k p q h3

/-- **C19.** No binding without clashes is lost, whatever the others are: if it gives an entry at a path where it does not clash, the
path has this entry, or both are sets. -/
theorem C19_complete {src : Bytes} {n : Node} {s : PState} (hp : parse src = some (n, s)) {h hb : Hd} {r : Node} {bs st dy : List Node}
    (hr : Reach n (.exprAttrs h (.binds hb bs) r st dy)) {a b : List Item} {it : Item} (hi : items bs = a ++ it :: b) {q : List Bytes} {e : Entry}
    (hg : Gives it q e) (hc : ∀ x k p, ¬ Clash (Joint a.reverse) it x k p q) : ∃ e', content st q = some e' ∧ (e' = e ∨ (e'.isSet ∧ e.isSet)) := by
  obtain ⟨ds, hch⟩ := parsed_content hp hr
  rw [hi] at hch
  obtain ⟨C1, C2, d1, d2, d3, k1, k2, k3, -⟩ := hch.split
  have hu := k1.union has_empty
  rw [List.append_nil] at hu
  obtain ⟨e', h1, h2⟩ := k2.full q e hg (by rw [hu]; exact hc)
  exact ⟨e', k3.keep h1, h2⟩

/-- **C19.** Bindings whose path begins with a dynamic name are all kept, in their order. -/
theorem C19_dynamic {src : Bytes} {n : Node} {s : PState} (hp : parse src = some (n, s)) {h hb : Hd} {r : Node} {bs st dy : List Node}
    (hr : Reach n (.exprAttrs h (.binds hb bs) r st dy)) : List.Forall₂ DynAttr ((items bs).filter Item.isDyn) dy := by
  obtain ⟨-, -, s0, h0⟩ := (parse_ids hp).up.2 _ hr
  obtain ⟨l, h1, h2⟩ := lowerBinds_dynamic {} bs s0 (parsed_values hp hr)
  simp only [onExprAttrs, Node.exprAttrs.injEq] at h0
  rw [← h0.2.2.2.2, h1]
  exact h2

/-- **C19.** A set without bindings is empty. -/
theorem C19_empty {src : Bytes} {n : Node} {s : PState} (hp : parse src = some (n, s)) {h : Hd} {b r : Node} {st dy : List Node}
    (hr : Reach n (.exprAttrs h b r st dy)) (hb : ∀ hb bs, b ≠ .binds hb bs) : st = [] ∧ dy = [] := by
  obtain ⟨-, -, s0, h0⟩ := (parse_ids hp).up.2 _ hr
  have : onExprAttrs h.range b r s0 = (.exprAttrs ⟨s0.next, h.range⟩ b r [] [], { s0 with next := s0.next + 1 }) := by
    unfold onExprAttrs
    cases b
    case binds => exact absurd rfl (hb _ _)
    all_goals rfl
  rw [this] at h0
  simp only [Node.exprAttrs.injEq] at h0
  exact ⟨h0.2.2.2.1.symm, h0.2.2.2.2.symm⟩

/-- **C20.** For every set of a parsed file, the semantic action reports a duplicate exactly for every clash of a binding with what is
bound before it; the error is at the name, with a note at the previous one. -/
theorem C20_exact {src : Bytes} {n : Node} {s : PState} (hp : parse src = some (n, s)) {h hb : Hd} {r : Node} {bs st dy : List Node}
    (hr : Reach n (.exprAttrs h (.binds hb bs) r st dy)) (s0 : SemaSt) :
    ∃ ds, (onExprAttrs h.range (.binds hb bs) r s0).2.diags = s0.diags ++ ds ∧ ∀ d, (d ∈ ds ∧ d.kind = .duplicatedAttrName) ↔
      ∃ a it b, items bs = a ++ it :: b ∧ ∃ x k p q, Clash (Joint a.reverse) it x k p q ∧
        d = { kind := .duplicatedAttrName, range := k.range, args := [x], notes := [{ kind := .prevDeclared, range := p.range }] } := by
  obtain ⟨ds, h1, hc⟩ := parsed_chain hp hr s0
  refine ⟨ds, h1, fun d => ?_⟩
  have := hc.diags has_empty d
  simp only [List.append_nil] at this
  exact this

/-- **C20.** A duplicate is reported if and only if a binding clashes with another one before it. -/
theorem C20_pairwise {src : Bytes} {n : Node} {s : PState} (hp : parse src = some (n, s)) {h hb : Hd} {r : Node} {bs st dy : List Node}
    (hr : Reach n (.exprAttrs h (.binds hb bs) r st dy)) (s0 : SemaSt) :
    ∃ ds, (onExprAttrs h.range (.binds hb bs) r s0).2.diags = s0.diags ++ ds ∧ ((∃ d ∈ ds, d.kind = .duplicatedAttrName) ↔
      ∃ a it b, items bs = a ++ it :: b ∧ ∃ it' ∈ a, ∃ x k p q, Clash (Gives it') it x k p q) := by
  obtain ⟨ds, h1, hc⟩ := parsed_chain hp hr s0
  exact ⟨ds, h1, hc.pairwise⟩

/-- **C20.** Merging a recursive with another set is reported exactly if it happens. -/
theorem C20_merge_rec {src : Bytes} {n : Node} {s : PState} (hp : parse src = some (n, s)) {h hb : Hd} {r : Node} {bs st dy : List Node}
    (hr : Reach n (.exprAttrs h (.binds hb bs) r st dy)) (s0 : SemaSt) :
    ∃ ds, (onExprAttrs h.range (.binds hb bs) r s0).2.diags = s0.diags ++ ds ∧ ((∃ d ∈ ds, d.kind = .mergeDiffRec) ↔
      ∃ a it b, items bs = a ++ it :: b ∧ MixedRec (Joint a.reverse) it) := by
  obtain ⟨ds, h1, hc⟩ := parsed_chain hp hr s0
  refine ⟨ds, h1, ?_⟩
  have := hc.recs has_empty
  simp only [List.append_nil] at this
  exact this

/-! ### Examples -/

/-- The content of the set that is the whole file at a path: the column of the name, and if it is a set. -/
def pathAt (src : Bytes) (q : List Bytes) : Option (Nat × Bool) :=
  match parse src with
  | some (.exprAttrs _ _ _ st _, _) =>
    (content st q).map fun e => (e.key.range.l.column, match e.val with | .set _ => true | _ => false)
  | _ => none

example : pathAt b!"{ a.b = 1; a.c = 2; a = { d = 3; b = 4; }; }" [b!"a"] = some (2, true) := by decide +kernel
example : pathAt b!"{ a.b = 1; a.c = 2; a = { d = 3; b = 4; }; }" [b!"a", b!"b"] = some (4, false) := by decide +kernel
example : pathAt b!"{ a.b = 1; a.c = 2; a = { d = 3; b = 4; }; }" [b!"a", b!"d"] = some (26, false) := by decide +kernel
example : pathAt b!"{ a.b = 1; a.b.c = 2; }" [b!"a", b!"b", b!"c"] = none := by decide +kernel
example : parseDiags b!"{ a.b = 1; a.c = 2; a = { d = 3; b = 4; }; a.b.e = 5; inherit x; x = 1; }" =
    [(.duplicatedAttrName, 33, [4]), (.duplicatedAttrName, 45, [4]), (.duplicatedAttrName, 65, [62])] := by decide +kernel
example : parseDiags b!"{ a.b = { x = 1; }; a.b = { y = 1; }; a.c = 2; inherit x; }" = [] := by decide +kernel
example : parseDiags b!"{ a = rec { x = 1; }; a = { y = 1; }; }" = [(.mergeDiffRec, 6, [6, 26])] := by decide +kernel

/-- The names of the one-name bindings of the file, as Nix reads them. -/
def nixNames (src : Bytes) : List (Option Bytes) :=
  match parse src with
  | some (.exprAttrs _ (.binds _ bs) _ _ _, _) => (items bs).map fun it => if it.dirs.isEmpty then nixName it.last else none
  | _ => []

/-- **C20** does not hold for all names Nix considers static: the empty name and names in `${}` count as dynamic, and duplicates of
them are not reported. -/
theorem C20_dynamic_names_violated :
    (nixNames b!"{ \"\" = 1; \"\" = 2; }" = [some [], some []] ∧ parseDiags b!"{ \"\" = 1; \"\" = 2; }" = []) ∧
    (nixNames b!"{ ${\"a\"} = 1; a = 2; }" = [some b!"a", some b!"a"] ∧ parseDiags b!"{ ${\"a\"} = 1; a = 2; }" = []) := by
  decide +kernel

/-- For other names both agree: what the code considers static is static in Nix, with the same name. -/
theorem C20_static_names {n : Node} {x : Bytes} (h : n.staticName? = some x) : nixName n = some x := by
  unfold Node.staticName? at h
  split at h
  · exact h
  · rename_i p
    unfold Node.literal? at h
    split at h
    · cases h
      simp [nixName, stringText]
    · cases h
  · cases h

end Verif.Props
