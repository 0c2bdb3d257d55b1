import Verif.Spec.Subst
import Verif.Spec.Parents
import Verif.Spec.Grammar
/-
The phrases among the nodes of a tree are parts of it.
-/
namespace Verif.Nixf.Syntax
open Grammar

/-- Nodes that only hold other ones. -/
def elements : Node → Option (List Node)
  | .parts _ fs => some fs
  | .attrPath _ ns _ => some ns
  | .binds _ bs => some bs
  | .formals _ fs => some fs
  | _ => none

/-- The string that an attribute name is written as, and the set that the bindings of a `let` are kept in. -/
def Hidden (q n : Node) : Prop :=
  (IsString n ∧ ∃ h, q = .attrNameString h n) ∨ IsSet n ∧ ((∃ h k i e, q = .exprLet h k i e n) ∨ ∃ h k, q = .exprLegacyLet h k n)

/-- Nodes without phrases below them. -/
def isLeaf : Node → Bool
  | .null | .text _ | .attr .. | .misc _ | .dot .. | .identifier .. | .op .. => true
  | _ => false

theorem Reach.leaf {m n : Node} (h : Reach m n) (hl : isLeaf m = true) : n = m := by
  cases h with
  | here => rfl
  | down _ c _ hc _ => exact absurd hc (by cases m <;> first | (cases hl; done) | simp [Node.children])

theorem Reach.child {x m c : Node} (h : Reach x m) (hc : c ∈ m.children) : Reach x c := by
  induction h with
  | here => exact .down _ _ _ hc (.here _)
  | down _ _ _ h1 _ ih => exact .down _ _ _ h1 (ih hc)

/-- `n` is a part of `m`, or hidden in one, a node of the tree `x`. -/
def Within (x m n : Node) : Prop := Part m n ∨ ∃ q, Part m q ∧ Reach x q ∧ Hidden q n

theorem Within.down {x m c n : Node} (hc : c ∈ inner m) (h : Within x c n) : Within x m n := by
  rcases h with h | ⟨q, h1, h5, h2⟩
  · exact .inl (.down hc h)
  · exact .inr ⟨q, .down hc h1, h5, h2⟩

theorem Within.split {x m n : Node} (h : Within x m n) : n = m ∨ Hidden m n ∨ ∃ c ∈ inner m, Within x c n := by
  rcases h with h | ⟨q, h1, h5, h2⟩
  · cases h with
    | here => exact .inl rfl
    | down h1 h2 => exact .inr (.inr ⟨_, h1, .inl h2⟩)
  · cases h1 with
    | here => exact .inr (.inl h2)
    | down h3 h4 => exact .inr (.inr ⟨_, h3, .inr ⟨q, h4, h5, h2⟩⟩)

theorem isExpr_elements {n : Node} (h : n.isExpr = true) : elements n = none := by
  cases n <;> first | rfl | cases h

theorem Reach.within {x m n : Node} (h : Reach m n) (hn : phrase n = true) (hf : ∀ k, Reach m k → Fits k) (hx : Reach x m) :
    (∀ l, elements m = some l → ∃ c ∈ l, Within x c n) ∧ (elements m = none → Within x m n) := by
  induction h with
  | here n => exact ⟨fun l hl => (by cases n <;> first | (cases hl; done) | (cases hn; done)), fun _ => .inl .here⟩
  | down m c n hc h ih =>
    have hm := hf m (.here m)
    have hfc := hf c (.down _ _ _ hc (.here c))
    have ih := ih hn fun k hk => hf k (.down _ _ _ hc hk)
    have ih := ih (Reach.child hx hc)
    have hleaf : isLeaf c = true → False := by
      intro hl
      have := Reach.leaf h hl
      subst this
      cases n <;> first | (cases hl; done) | (cases hn; done)
    have hI : c ∈ inner m → elements c = none → Within x m n := fun h1 h2 => (ih.2 h2).down h1
    have hE : ∀ l, elements c = some l → l ⊆ inner m → Within x m n := by
      intro l h1 h2
      obtain ⟨c', h3, h4⟩ := ih.1 l h1
      exact h4.down (h2 h3)
    have hX : c ∈ inner m → Opt IsExpr c → Within x m n := by
      intro h1 h2
      rcases h2 with rfl | h2
      · exact (hleaf rfl).elim
      · exact hI h1 (isExpr_elements h2)
    have hM : ∀ {x}, c = x → Opt IsMisc x → False := by
      rintro x rfl (rfl | ⟨h, rfl⟩) <;> exact hleaf rfl
    have hO : ∀ {x}, c = x → IsOp x → False := by
      rintro x rfl ⟨h, k, rfl⟩; exact hleaf rfl
    have hD : ∀ {x}, c = x → Opt Grammar.IsIdent x → False := by
      rintro x rfl (rfl | ⟨h, k, rfl⟩) <;> exact hleaf rfl
    cases m with
    | parts hd fs =>
      simp only [Node.children, List.mem_filter] at hc
      refine ⟨fun l hl => ?_, fun h => (by cases h)⟩
      cases hl
      refine ⟨c, hc.1, ?_⟩
      rcases hm c hc.1 with ⟨t, rfl⟩ | ⟨h', e, rfl⟩
      · exact (hleaf rfl).elim
      · exact ih.2 rfl
    | attrPath hd ns ds =>
      simp only [Node.children, List.mem_filter, List.mem_append] at hc
      refine ⟨fun l hl => ?_, fun h => (by cases h)⟩
      cases hl
      rcases hc.1 with h1 | h1
      · refine ⟨c, h1, ih.2 ?_⟩
        have := hm.2.1 c h1
        cases c <;> first | rfl | cases this
      · obtain ⟨h', p, q, rfl, -⟩ := hm.2.2 c h1
        exact (hleaf rfl).elim
    | binds hd bs =>
      simp only [Node.children, List.mem_filter] at hc
      refine ⟨fun l hl => ?_, fun h => (by cases h)⟩
      cases hl
      refine ⟨c, hc.1, ih.2 ?_⟩
      have := hm.2 c hc.1
      cases c <;> first | rfl | cases this
    | formals hd fs =>
      simp only [Node.children, List.mem_filter] at hc
      refine ⟨fun l hl => ?_, fun h => (by cases h)⟩
      cases hl
      refine ⟨c, hc.1, ih.2 ?_⟩
      obtain ⟨_, _, _, _, _, rfl⟩ := hm c hc.1
      rfl
    | null | text _ | attr _ _ _ _ | misc _ | dot _ _ _ | identifier _ _ | op _ _ | exprInt _ _ | exprFloat _ _ | exprSPath _ _ =>
      simp [Node.children] at hc
    | interpolation hd e =>
      refine ⟨fun l hl => (by cases hl), fun _ => ?_⟩
      simp only [Node.children, List.mem_filter, List.mem_cons, List.mem_append, List.not_mem_nil, or_false] at hc
      exact hX (by simp [inner, hc.1]) (by rw [hc.1]; exact hm)
    | attrNameID hd i =>
      refine ⟨fun l hl => (by cases hl), fun _ => ?_⟩
      simp only [Node.children, List.mem_filter, List.mem_cons, List.mem_append, List.not_mem_nil, or_false] at hc
      exact (hD hc.1 (.inr hm)).elim
    | attrNameString hd st =>
      refine ⟨fun l hl => (by cases hl), fun _ => ?_⟩
      simp only [Node.children, List.mem_filter, List.mem_cons, List.mem_append, List.not_mem_nil, or_false] at hc
      obtain ⟨h1, p, rfl⟩ : IsString st := hm
      obtain ⟨rfl, -⟩ := hc
      obtain ⟨h2, fs, rfl⟩ : IsParts p := hfc
      rcases (ih.2 rfl).split with rfl | hh | ⟨c', h3, h4⟩
      · exact .inr ⟨_, .here, hx, .inl ⟨⟨_, _, rfl⟩, _, rfl⟩⟩
      · rcases hh with ⟨_, _, hh⟩ | ⟨_, ⟨_, _, _, _, hh⟩ | ⟨_, _, hh⟩⟩ <;> cases hh
      · exact h4.down h3
    | attrNameInterp hd i =>
      refine ⟨fun l hl => (by cases hl), fun _ => ?_⟩
      simp only [Node.children, List.mem_filter, List.mem_cons, List.mem_append, List.not_mem_nil, or_false] at hc
      obtain ⟨h1, e, rfl⟩ : IsInterp i := hm
      obtain ⟨rfl, -⟩ := hc
      rcases (ih.2 rfl).split with rfl | hh | ⟨c', h3, h4⟩
      · cases hn
      · rcases hh with ⟨_, _, hh⟩ | ⟨_, ⟨_, _, _, _, hh⟩ | ⟨_, _, hh⟩⟩ <;> cases hh
      · exact h4.down h3
    | binding hd p eq v =>
      refine ⟨fun l hl => (by cases hl), fun _ => ?_⟩
      simp only [Node.children, List.mem_filter, List.mem_cons, List.mem_append, List.not_mem_nil, or_false] at hc
      obtain ⟨⟨h1, ns, ds, rfl⟩, h2, h3⟩ := hm
      rcases hc.1 with rfl | h | h
      · exact hE ns rfl (by simp [inner])
      · exact (hM h h2).elim
      · exact hX (by simp [inner, h]) (by rw [h]; exact h3)
    | inherit hd ns e =>
      refine ⟨fun l hl => (by cases hl), fun _ => ?_⟩
      simp only [Node.children, List.mem_filter, List.mem_cons, List.mem_append, List.not_mem_nil, or_false] at hc
      rcases hc.1 with h | h
      · have := hm.1 c h
        exact hI (by simp [inner, h]) (by cases c <;> first | rfl | cases this)
      · exact hX (by simp [inner, h]) (by rw [h]; exact hm.2)
    | formal hd cm i d e =>
      refine ⟨fun l hl => (by cases hl), fun _ => ?_⟩
      simp only [Node.children, List.mem_filter] at hc
      obtain ⟨h1, h2, h3, h4⟩ := hm
      split at hc
      · simp only [List.mem_cons, List.not_mem_nil, or_false] at hc
        rcases hc.1 with h | h
        · exact (hD h h2).elim
        · refine hX ?_ (by rw [h]; exact h3)
          rcases h2 with rfl | ⟨_, _, rfl⟩ <;> simp [inner, h]
      · simp only [List.mem_cons, List.not_mem_nil, or_false] at hc
        exact (hM hc.1 h4).elim
    | lambdaArg hd i f =>
      refine ⟨fun l hl => (by cases hl), fun _ => ?_⟩
      simp only [Node.children, List.mem_filter, List.mem_cons, List.mem_append, List.not_mem_nil, or_false] at hc
      rcases hc.1 with h | h
      · exact (hD h hm.1).elim
      · rcases hm.2 with rfl | ⟨h1, fs, rfl⟩
        · subst h; exact (hleaf rfl).elim
        · subst h; exact hE fs rfl (by simp [inner])
    | exprVar hd i =>
      refine ⟨fun l hl => (by cases hl), fun _ => ?_⟩
      simp only [Node.children, List.mem_filter, List.mem_cons, List.mem_append, List.not_mem_nil, or_false] at hc
      exact (hD hc.1 (.inr hm)).elim
    | exprString hd p =>
      refine ⟨fun l hl => (by cases hl), fun _ => ?_⟩
      simp only [Node.children, List.mem_filter, List.mem_cons, List.mem_append, List.not_mem_nil, or_false] at hc
      obtain ⟨h1, fs, rfl⟩ : IsParts p := hm
      obtain ⟨rfl, -⟩ := hc
      exact hE fs rfl (by simp [inner])
    | exprPath hd p =>
      refine ⟨fun l hl => (by cases hl), fun _ => ?_⟩
      simp only [Node.children, List.mem_filter, List.mem_cons, List.mem_append, List.not_mem_nil, or_false] at hc
      obtain ⟨h1, fs, rfl⟩ : IsParts p := hm
      obtain ⟨rfl, -⟩ := hc
      exact hE fs rfl (by simp [inner])
    | exprParen hd e l r =>
      refine ⟨fun l hl => (by cases hl), fun _ => ?_⟩
      simp only [Node.children, List.mem_filter, List.mem_cons, List.mem_append, List.not_mem_nil, or_false] at hc
      rcases hc.1 with h | h | h
      · exact hX (by simp [inner, h]) (by rw [h]; exact hm.1)
      · exact (hM h (.inr hm.2.1)).elim
      · exact (hM h hm.2.2).elim
    | exprAttrs hd b r st dy =>
      refine ⟨fun l hl => (by cases hl), fun _ => ?_⟩
      simp only [Node.children, List.mem_filter, List.mem_cons, List.mem_append, List.not_mem_nil, or_false] at hc
      rcases hc.1 with h | h
      · rcases hm.1 with rfl | ⟨h1, bs, rfl⟩
        · subst h; exact (hleaf rfl).elim
        · subst h; exact hE bs rfl (by simp [inner])
      · exact (hM h hm.2).elim
    | exprSelect hd e dt p d x =>
      refine ⟨fun l hl => (by cases hl), fun _ => ?_⟩
      simp only [Node.children, List.mem_filter, List.mem_cons, List.mem_append, List.not_mem_nil, or_false] at hc
      obtain ⟨h1, h2, h3⟩ := hm
      rcases h2 with rfl | ⟨hp, ns, ds, rfl⟩
      · rcases hc.1 with h | h | h
        · exact hX (by simp [inner, h]) (by rw [h]; exact .inr h1)
        · subst h; exact (hleaf rfl).elim
        · exact hX (by simp [inner, h]) (by rw [h]; exact h3)
      · rcases hc.1 with h | h | h
        · exact hX (by simp [inner, h]) (by rw [h]; exact .inr h1)
        · subst h; exact hE ns rfl (by intro x hx; simp [inner, hx])
        · exact hX (by simp [inner, h]) (by rw [h]; exact h3)
    | exprCall hd f as =>
      refine ⟨fun l hl => (by cases hl), fun _ => ?_⟩
      simp only [Node.children, List.mem_filter, List.mem_cons, List.mem_append, List.not_mem_nil, or_false] at hc
      rcases hc.1 with h | h
      · exact hX (by simp [inner, h]) (by rw [h]; exact .inr hm.1)
      · exact hX (by simp [inner, h]) (.inr (hm.2.2 c h))
    | exprList hd es =>
      refine ⟨fun l hl => (by cases hl), fun _ => ?_⟩
      simp only [Node.children, List.mem_filter, List.mem_cons, List.mem_append, List.not_mem_nil, or_false] at hc
      exact hX (by simp [inner, hc.1]) (.inr (hm c hc.1))
    | exprLambda hd a b =>
      refine ⟨fun l hl => (by cases hl), fun _ => ?_⟩
      simp only [Node.children, List.mem_filter, List.mem_cons, List.mem_append, List.not_mem_nil, or_false] at hc
      obtain ⟨⟨h1, i, f, rfl⟩, h2⟩ := hm
      rcases hc.1 with h | h
      · exact hI (by simp [inner, h]) (by rw [h]; rfl)
      · exact hX (by simp [inner, h]) (by rw [h]; exact h2)
    | exprBinOp hd o l r =>
      refine ⟨fun l hl => (by cases hl), fun _ => ?_⟩
      simp only [Node.children, List.mem_filter, List.mem_cons, List.mem_append, List.not_mem_nil, or_false] at hc
      rcases hc.1 with h | h | h
      · exact (hO h hm.1).elim
      · exact hX (by simp [inner, h]) (by rw [h]; exact .inr hm.2.1)
      · exact hX (by simp [inner, h]) (by rw [h]; exact .inr hm.2.2)
    | exprUnaryOp hd o e =>
      refine ⟨fun l hl => (by cases hl), fun _ => ?_⟩
      simp only [Node.children, List.mem_filter, List.mem_cons, List.mem_append, List.not_mem_nil, or_false] at hc
      rcases hc.1 with h | h
      · exact (hO h hm.1).elim
      · exact hX (by simp [inner, h]) (by rw [h]; exact hm.2)
    | exprOpHasAttr hd o e p =>
      refine ⟨fun l hl => (by cases hl), fun _ => ?_⟩
      simp only [Node.children, List.mem_filter, List.mem_cons, List.mem_append, List.not_mem_nil, or_false] at hc
      obtain ⟨h1, h2, h3⟩ := hm
      rcases h3 with rfl | ⟨hp, ns, ds, rfl⟩
      · rcases hc.1 with h | h
        · exact hX (by simp [inner, h]) (by rw [h]; exact .inr h2)
        · subst h; exact (hleaf rfl).elim
      · rcases hc.1 with h | h
        · exact hX (by simp [inner, h]) (by rw [h]; exact .inr h2)
        · subst h; exact hE ns rfl (by intro x hx; simp [inner, hx])
    | exprIf hd x y z =>
      refine ⟨fun l hl => (by cases hl), fun _ => ?_⟩
      simp only [Node.children, List.mem_filter, List.mem_cons, List.mem_append, List.not_mem_nil, or_false] at hc
      rcases hc.1 with h | h | h
      · exact hX (by simp [inner, h]) (by rw [h]; exact hm.1)
      · exact hX (by simp [inner, h]) (by rw [h]; exact hm.2.1)
      · exact hX (by simp [inner, h]) (by rw [h]; exact hm.2.2)
    | exprAssert hd x y =>
      refine ⟨fun l hl => (by cases hl), fun _ => ?_⟩
      simp only [Node.children, List.mem_filter, List.mem_cons, List.mem_append, List.not_mem_nil, or_false] at hc
      rcases hc.1 with h | h
      · exact hX (by simp [inner, h]) (by rw [h]; exact hm.1)
      · exact hX (by simp [inner, h]) (by rw [h]; exact hm.2)
    | exprLet hd k i e a =>
      refine ⟨fun l hl => (by cases hl), fun _ => ?_⟩
      simp only [Node.children, List.mem_filter, List.mem_cons, List.mem_append, List.not_mem_nil, or_false] at hc
      obtain ⟨h1, h2, h3, h4⟩ := hm
      rcases hc.1 with h | h | h | h
      · exact (hM h (.inr h1)).elim
      · rcases h4 with rfl | ⟨h5, b, r, st, dy, rfl⟩
        · subst h; exact (hleaf rfl).elim
        · subst h
          rcases (ih.2 rfl).split with rfl | hh | ⟨c', h3, h4⟩
          · exact .inr ⟨_, .here, hx, .inr ⟨⟨_, _, _, _, _, rfl⟩, .inl ⟨_, _, _, _, rfl⟩⟩⟩
          · rcases hh with ⟨_, _, hh⟩ | ⟨_, ⟨_, _, _, _, hh⟩ | ⟨_, _, hh⟩⟩ <;> cases hh
          · refine h4.down ?_
            rcases hfc.1 with rfl | ⟨_, bs, rfl⟩
            · simp [inner] at h3
            · simp only [inner] at h3; simp [inner, h3]
      · exact (hM h h2).elim
      · refine hX ?_ (by rw [h]; exact h3)
        rcases h4 with rfl | ⟨h5, b, r, st, dy, rfl⟩
        · simp [inner, h]
        · have := hf (.exprAttrs h5 b r st dy) (.down _ _ _ (by simp [Node.children, Node.isNode, Node.hd?]) (.here _))
          rcases this.1 with rfl | ⟨_, bs, rfl⟩ <;> simp [inner, h]
    | exprLegacyLet hd k a =>
      refine ⟨fun l hl => (by cases hl), fun _ => ?_⟩
      simp only [Node.children, List.mem_filter, List.mem_cons, List.mem_append, List.not_mem_nil, or_false] at hc
      obtain ⟨h1, h5, b, r, st, dy, rfl⟩ := hm
      rcases hc.1 with h | h
      · exact (hM h (.inr h1)).elim
      · subst h
        rcases (ih.2 rfl).split with rfl | hh | ⟨c', h3, h4⟩
        · exact .inr ⟨_, .here, hx, .inr ⟨⟨_, _, _, _, _, rfl⟩, .inr ⟨_, _, rfl⟩⟩⟩
        · rcases hh with ⟨_, _, hh⟩ | ⟨_, ⟨_, _, _, _, hh⟩ | ⟨_, _, hh⟩⟩ <;> cases hh
        · refine h4.down ?_
          rcases hfc.1 with rfl | ⟨_, bs, rfl⟩
          · simp [inner] at h3
          · simp only [inner] at h3; simp [inner, h3]
    | exprWith hd k sc w e =>
      refine ⟨fun l hl => (by cases hl), fun _ => ?_⟩
      simp only [Node.children, List.mem_filter, List.mem_cons, List.mem_append, List.not_mem_nil, or_false] at hc
      obtain ⟨h1, h2, h3, h4⟩ := hm
      rcases hc.1 with h | h | h | h
      · exact (hM h (.inr h1)).elim
      · exact (hM h h2).elim
      · exact hX (by simp [inner, h]) (by rw [h]; exact h3)
      · exact hX (by simp [inner, h]) (by rw [h]; exact h4)

end Verif.Nixf.Syntax
