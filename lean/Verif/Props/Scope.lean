import Verif.Lemmas.IdsParse
/-
Properties C22 (variables resolve to the innermost binder), C23 (`with`), C24 (undefined variables), C25 (unused
definitions) and C51 (needless `rec`). The theorems are about the trees made by the parser, with any fuel that is at
least the size of the tree.
-/
namespace Verif.Props
open Nixf Scoping

/-- The trees of programs are well formed. -/
theorem parse_wellFormed {src : Bytes} {root : Node} {st : PState} (h : parse src = some (root, st)) : WellFormed root :=
  fun Δ m hm => ((parse_ids h).vok.2 Δ m hm).1

/-- In the tree of a program, a node has one identity and one place. -/
theorem parse_faithful {src : Bytes} {root : Node} {st : PState} (h : parse src = some (root, st)) : Faithful root :=
  (parse_ids h).vok.1

/-- The lookup result of a variable. -/
theorem query_ok {P : PrimOps} {root : Node} {s : VL} (h : Run P root s) (hf : Faithful root) {Δ : List Frame} {v : Node} (hv : Occurs root Δ v)
    {r : LookupResult} (hq : s.query v = some r) : ResOk P s (full P Δ, v) r := by
  have hm : (v.id, r) ∈ s.results := ptrFind_mem hq
  obtain ⟨Δ', v', hv', hid, hr⟩ := h.resSound _ hm
  obtain ⟨rfl, rfl⟩ := hf _ _ _ _ hv'.1 hv.1 hid
  exact hr

theorem query_some {P : PrimOps} {root : Node} {s : VL} (h : Run P root s) {Δ : List Frame} {v : Node} (hv : Occurs root Δ v)
    (hi : internalUse P (full P Δ, v) = false) : ∃ r, s.query v = some r := by
  obtain ⟨r, hr⟩ := h.resAll Δ v hv hi
  exact ptrFind_some_of_mem hr

theorem internalUse_iff {P : PrimOps} {Δ : List Frame} {v : Node} (hv : isVar v = true) : internalUse P (full P Δ, v) = true ↔
    Free Δ (varName v) ∧ ¬ Global P (varName v) ∧ withsOf Δ = [] ∧ lookupPrimOp P (varName v) = .found := by
  unfold internalUse
  simp only [hv, Bool.true_and, Bool.and_eq_true, free_full, withsOf_full, List.isEmpty_iff, decide_eq_true_eq, and_assoc]

theorem lookup_found {P : PrimOps} {x : Bytes} : lookupPrimOp P x = .found ↔ ∃ b, (x, b) ∈ P := by
  unfold lookupPrimOp
  by_cases h : P.any (fun p => p.1 == x) = true
  · rw [if_pos h]
    obtain ⟨p, hp, he⟩ := List.any_eq_true.mp h
    simp only [beq_iff_eq] at he
    subst he
    simp only [true_iff]
    exact ⟨p.2, hp⟩
  · rw [if_neg h]
    constructor
    · split <;> intro h' <;> cases h'
    · rintro ⟨b, hb⟩
      exact absurd (List.any_eq_true.mpr ⟨_, hb, by simp⟩) h

theorem lookup_notFound {P : PrimOps} {x : Bytes} :
    lookupPrimOp P x = .notFound ↔ (∀ b, (x, b) ∉ P) ∧ ∀ b, (b!"__" ++ x, b) ∉ P := by
  have h1 := lookup_found (P := P) (x := x)
  have h2 := lookup_found (P := P) (x := b!"__" ++ x)
  unfold lookupPrimOp at h1 h2 ⊢
  by_cases h : P.any (fun p => p.1 == x) = true
  · rw [if_pos h] at h1 ⊢
    obtain ⟨b, hb⟩ := h1.mp rfl
    simp only [reduceCtorEq, false_iff, not_and]
    intro h; exact absurd hb (h b)
  · rw [if_neg h] at h1 ⊢
    have h1 : ∀ b, (x, b) ∉ P := by
      intro b hb
      have := h1.mpr ⟨b, hb⟩
      split at this <;> cases this
    by_cases h' : P.any (fun p => p.1 == b!"__" ++ x) = true
    · rw [if_pos h'] at h2 ⊢
      obtain ⟨b, hb⟩ := h2.mp rfl
      simp only [reduceCtorEq, false_iff, not_and]
      intro _ h; exact absurd hb (h b)
    · rw [if_neg h'] at h2 ⊢
      simp only [true_iff]
      refine ⟨h1, fun b hb => ?_⟩
      have := h2.mpr ⟨b, hb⟩
      split at this <;> cases this

theorem lookup_prefixed {P : PrimOps} {x : Bytes} :
    lookupPrimOp P x = .prefixedFound ↔ (∀ b, (x, b) ∉ P) ∧ ∃ b, (b!"__" ++ x, b) ∈ P := by
  have h1 := lookup_found (P := P) (x := x)
  have h2 := lookup_notFound (P := P) (x := x)
  rcases h : lookupPrimOp P x with _ | _ | _
  · simp only [reduceCtorEq, false_iff, not_and]
    obtain ⟨b, hb⟩ := h1.mp h
    intro h; exact absurd hb (h b)
  · simp only [true_iff]
    rw [h] at h1 h2
    have ha : ∀ b, (x, b) ∉ P := fun b hb => by cases h1.mpr ⟨b, hb⟩
    refine ⟨ha, ?_⟩
    apply Classical.byContradiction
    intro hc
    cases h2.mpr ⟨ha, fun b hb => hc ⟨b, hb⟩⟩
  · simp only [reduceCtorEq, false_iff, not_and]
    rintro _ ⟨b, hb⟩
    exact (h2.mp h).2 b hb

section C22
variable (P : PrimOps) {src : Bytes} {root : Node} {st : PState} (hp : parse src = some (root, st)) {fuel : Nat}
  (hfuel : sizeOf root ≤ fuel)
include hp hfuel

/-- C22. The analysis finishes: the bound on the depth of the recursion is not reached. -/
theorem C22_terminates : (runVL P fuel root).deep = false :=
  (run_ok P hfuel (parse_wellFormed hp)).deep

/-- C22. A variable with an enclosing binder is resolved to the innermost one: the definition has its node and kind, and
knows of the use. -/
theorem C22_innermost_binder {Δ : List Frame} {v : Node} (hv : Occurs root Δ v) {n : Node} {kind : DefSource}
    (hr : resolve Δ (varName v) = some (n, kind)) :
    ∃ d, (runVL P fuel root).query v = some ⟨.defined, some d⟩ ∧ ((runVL P fuel root).get d).syntax_ = n ∧
      ((runVL P fuel root).get d).source = kind ∧ v ∈ ((runVL P fuel root).get d).uses := by
  have h := run_ok P hfuel (parse_wellFormed hp)
  generalize runVL P fuel root = s at h
  have hnf : ¬ Free Δ (varName v) := by rw [← free_iff, free_iff_resolve, hr]; simp
  obtain ⟨r, hq⟩ := query_some h hv (by
    rw [Bool.eq_false_iff]
    intro hc
    exact hnf ((internalUse_iff hv.2).mp hc).1)
  have ho := query_ok h (parse_faithful hp) hv hq
  obtain ⟨k, d⟩ := r
  cases k
  · exact absurd (free_full.mp ho.1).1 hnf
  · exact absurd (free_full.mp ho.1).1 hnf
  · obtain ⟨d', rfl, h1, h2, h3, h4⟩ := ho
    refine ⟨d', hq, ?_⟩
    rcases resolve_full.mp h2 with h2 | h2
    · simp only at h2
      rw [hr] at h2
      cases h2
      exact ⟨rfl, rfl, h4⟩
    · simp only at h2
      rw [hr] at h2
      cases h2.1

/-- C22. A variable without enclosing binder is resolved to a builtin of its name, if there is one. -/
theorem C22_builtin_otherwise {Δ : List Frame} {v : Node} (hv : Occurs root Δ v) (hr : Free Δ (varName v)) (hg : Global P (varName v)) :
    ∃ d, (runVL P fuel root).query v = some ⟨.defined, some d⟩ ∧ ((runVL P fuel root).get d).source = .builtin ∧
      v ∈ ((runVL P fuel root).get d).uses := by
  have h := run_ok P hfuel (parse_wellFormed hp)
  generalize runVL P fuel root = s at h
  obtain ⟨r, hq⟩ := query_some h hv (by
    rw [Bool.eq_false_iff]
    intro hc
    exact ((internalUse_iff hv.2).mp hc).2.1 hg)
  have ho := query_ok h (parse_faithful hp) hv hq
  obtain ⟨k, d⟩ := r
  cases k
  · exact absurd hg (free_full.mp ho.1).2
  · exact absurd hg (free_full.mp ho.1).2
  · obtain ⟨d', rfl, h1, h2, h3, h4⟩ := ho
    refine ⟨d', hq, ?_, h4⟩
    rcases resolve_full.mp h2 with h2 | h2
    · rw [← free_iff, free_iff_resolve] at hr
      simp only at h2
      rw [hr] at h2
      cases h2
    · exact h2.2.2.2

/-- C22. Only these variables have a definition. -/
theorem C22_defined_only {Δ : List Frame} {v : Node} (hv : Occurs root Δ v) {d : Option Nat}
    (hq : (runVL P fuel root).query v = some ⟨.defined, d⟩) :
    (∃ p, resolve Δ (varName v) = some p) ∨ (Free Δ (varName v) ∧ Global P (varName v)) := by
  have h := run_ok P hfuel (parse_wellFormed hp)
  obtain ⟨d', rfl, h1, h2, h3, h4⟩ := query_ok h (parse_faithful hp) hv hq
  rcases resolve_full.mp h2 with h2 | h2
  · exact .inl ⟨_, h2⟩
  · exact .inr ⟨by rw [← free_iff, free_iff_resolve]; exact h2.1, h2.2.1⟩

end C22

/-- C22. The uses recorded for a definition are exactly the variables that refer to it. -/
theorem C22_uses_exact (P : PrimOps) {src : Bytes} {root : Node} {st : PState} (hp : parse src = some (root, st)) {fuel : Nat}
    (hfuel : sizeOf root ≤ fuel) {d : Nat}
    (hd : d < (runVL P fuel root).store.length) (h1 : ((runVL P fuel root).get d).source ≠ .with_)
    (h2 : ((runVL P fuel root).get d).source ≠ .builtin) :
    ∃ Δ m x, Inside root Δ m ∧
      (frameOf m).binds x = some (((runVL P fuel root).get d).syntax_, ((runVL P fuel root).get d).source) ∧
      ∀ v, v ∈ ((runVL P fuel root).get d).uses ↔ RefersTo m x v := by
  obtain ⟨Δ, m, x, h3, h4, h5⟩ := (run_ok P hfuel (parse_wellFormed hp)).defs d hd h1 h2
  exact ⟨Δ, m, x, h3, h4, fun v => by rw [h5, mem_usesIn]⟩

section C23
variable (P : PrimOps) {src : Bytes} {root : Node} {st : PState} (hp : parse src = some (root, st)) {fuel : Nat}
  (hfuel : sizeOf root ≤ fuel)
include hp hfuel

/-- C23. A variable is reported as coming from a `with` iff there is an enclosing `with`, and neither a binder nor Nix itself
defines the name. -/
theorem C23_from_with_iff {Δ : List Frame} {v : Node} (hv : Occurs root Δ v) :
    (∃ d, (runVL P fuel root).query v = some ⟨.fromWith, d⟩) ↔
      Free Δ (varName v) ∧ ¬ Global P (varName v) ∧ withsOf Δ ≠ [] := by
  have h := run_ok P hfuel (parse_wellFormed hp)
  generalize runVL P fuel root = s at h
  constructor
  · rintro ⟨d, hq⟩
    obtain ⟨h1, w, d', h2, -⟩ := query_ok h (parse_faithful hp) hv hq
    have h1 := free_full.mp h1
    refine ⟨h1.1, h1.2, fun hc => ?_⟩
    rw [withsOf_full] at h2
    rw [hc] at h2
    cases h2
  · rintro ⟨h1, h2, h3⟩
    obtain ⟨r, hq⟩ := query_some h hv (by
      rw [Bool.eq_false_iff]
      intro hc
      exact h3 ((internalUse_iff hv.2).mp hc).2.2.1)
    have ho := query_ok h (parse_faithful hp) hv hq
    obtain ⟨k, d⟩ := r
    cases k
    · have := ho.2.1
      rw [withsOf_full] at this
      exact absurd this h3
    · exact ⟨d, hq⟩
    · obtain ⟨d', rfl, h4, h5, -⟩ := ho
      have := free_full.mpr ⟨h1, h2⟩
      rw [free_iff_resolve, h5] at this
      cases this

/-- C23. All enclosing `with`s are its candidates, innermost first. -/
theorem C23_candidates {Δ : List Frame} {v : Node} (hv : Occurs root Δ v) (h1 : Free Δ (varName v)) (h2 : ¬ Global P (varName v)) :
    (runVL P fuel root).withScopesOf v = (withsOf Δ).map Node.id := by
  have h := run_ok P hfuel (parse_wellFormed hp)
  generalize runVL P fuel root = s at h
  unfold VL.withScopesOf
  rcases hq : ptrFind v.id s.withScopes with _ | l
  · rcases hwl : withsOf Δ with _ | ⟨w, ws⟩
    · rfl
    · obtain ⟨l, hl⟩ := h.wsAll Δ v hv h1 h2 (by rw [hwl]; simp)
      exact absurd rfl (ptrFind_none.mp hq _ hl)
  · obtain ⟨Δ', v', hv', hid, -, -, -, h6⟩ := h.wsSound _ (ptrFind_mem hq)
    obtain ⟨rfl, rfl⟩ := parse_faithful hp _ _ _ _ hv'.1 hv.1 hid
    exact h6

/-- C23. Other variables have no candidates. -/
theorem C23_no_candidates {Δ : List Frame} {v : Node} (hv : Occurs root Δ v) (hn : ¬ (Free Δ (varName v) ∧ ¬ Global P (varName v))) :
    (runVL P fuel root).withScopesOf v = [] := by
  have h := run_ok P hfuel (parse_wellFormed hp)
  generalize runVL P fuel root = s at h
  unfold VL.withScopesOf
  rcases hq : ptrFind v.id s.withScopes with _ | l
  · rfl
  · obtain ⟨Δ', v', hv', hid, h3, h4, -⟩ := h.wsSound _ (ptrFind_mem hq)
    obtain ⟨rfl, rfl⟩ := parse_faithful hp _ _ _ _ hv'.1 hv.1 hid
    exact absurd ⟨h3, h4⟩ hn

/-- C23. The single definition that is reported is the one of the outermost `with`, although the innermost one has
precedence. -/
theorem C23_definition_is_outermost {Δ : List Frame} {v : Node} (hv : Occurs root Δ v) {d : Option Nat}
    (hq : (runVL P fuel root).query v = some ⟨.fromWith, d⟩) :
    ∃ w d', (withsOf Δ).getLast? = some w ∧ d = some d' ∧ ptrFind w.id (runVL P fuel root).withDefs = some d' := by
  have h := run_ok P hfuel (parse_wellFormed hp)
  obtain ⟨h1, w, d', h2, h3, h4⟩ := query_ok h (parse_faithful hp) hv hq
  rw [withsOf_full] at h2
  exact ⟨w, d', h2, h3, h4⟩

end C23

section C24
variable (P : PrimOps) {src : Bytes} {root : Node} {st : PState} (hp : parse src = some (root, st)) {fuel : Nat}
  (hfuel : sizeOf root ≤ fuel)
include hp hfuel

/-- C24. The undefined-variable diagnostics are those of the variables that no binder, no `with` and no builtin defines. -/
theorem C24_undefined_exact (g : Diagnostic) : (g ∈ (runVL P fuel root).diags ∧ g.kind = .undefinedVariable) ↔
    ∃ Δ v, Occurs root Δ v ∧ Free Δ (varName v) ∧ withsOf Δ = [] ∧ ¬ Global P (varName v) ∧
      (∀ b, (varName v, b) ∉ P) ∧ (∀ b, (b!"__" ++ varName v, b) ∉ P) ∧
      g = { kind := .undefinedVariable, range := v.range, args := [varName v] } := by
  have h := run_ok P hfuel (parse_wellFormed hp)
  generalize runVL P fuel root = s at h
  constructor
  · rintro ⟨hg, hk⟩
    obtain ⟨Δ, v, hi, ho⟩ := (h.diags g (by rw [hk]; simp)).mp hg
    have hv := ownDiags_var (.inl hk) ho
    unfold varDiags at hv
    split at hv
    · rename_i hc
      simp only [Bool.and_eq_true, free_full, withsOf_full, List.isEmpty_iff] at hc
      obtain ⟨⟨c1, c2, c3⟩, c4⟩ := hc
      split at hv
      · cases hv
      · simp only [List.mem_cons, List.not_mem_nil, or_false] at hv
        subst hv
        cases hk
      · rename_i hl
        simp only [List.mem_cons, List.not_mem_nil, or_false] at hv
        have := lookup_notFound.mp hl
        exact ⟨Δ, v, ⟨hi, c1⟩, c2, c4, c3, this.1, this.2, hv⟩
    · cases hv
  · rintro ⟨Δ, v, ⟨hi, hv⟩, h1, h2, h3, h4, h5, rfl⟩
    refine ⟨(h.diags _ (by simp)).mpr ⟨Δ, v, hi, ?_⟩, rfl⟩
    refine List.mem_append_right _ ?_
    unfold varDiags
    rw [if_pos (by simp only [Bool.and_eq_true, free_full, withsOf_full, List.isEmpty_iff]; exact ⟨⟨hv, h1, h3⟩, h2⟩),
      lookup_notFound.mpr ⟨h4, h5⟩]
    simp [undefinedDiag]

/-- C24. The other diagnostic for a variable that nothing defines: a builtin of this name has to be written with prefix. -/
theorem C24_needs_prefix_exact (g : Diagnostic) : (g ∈ (runVL P fuel root).diags ∧ g.kind = .primOpNeedsPrefix) ↔
    ∃ Δ v, Occurs root Δ v ∧ Free Δ (varName v) ∧ withsOf Δ = [] ∧ ¬ Global P (varName v) ∧
      (∀ b, (varName v, b) ∉ P) ∧ (∃ b, (b!"__" ++ varName v, b) ∈ P) ∧
      g = { kind := .primOpNeedsPrefix, range := v.range,
            fixes := [{ message := b!"use `builtins.` prefix", edits := [⟨⟨v.lCur, v.lCur⟩, b!"builtins."⟩] }] } := by
  have h := run_ok P hfuel (parse_wellFormed hp)
  generalize runVL P fuel root = s at h
  constructor
  · rintro ⟨hg, hk⟩
    obtain ⟨Δ, v, hi, ho⟩ := (h.diags g (by rw [hk]; simp)).mp hg
    have hv := ownDiags_var (.inr hk) ho
    unfold varDiags at hv
    split at hv
    · rename_i hc
      simp only [Bool.and_eq_true, free_full, withsOf_full, List.isEmpty_iff] at hc
      obtain ⟨⟨c1, c2, c3⟩, c4⟩ := hc
      split at hv
      · cases hv
      · rename_i hl
        simp only [List.mem_cons, List.not_mem_nil, or_false] at hv
        have := lookup_prefixed.mp hl
        exact ⟨Δ, v, ⟨hi, c1⟩, c2, c4, c3, this.1, this.2, hv⟩
      · simp only [List.mem_cons, List.not_mem_nil, or_false] at hv
        subst hv
        cases hk
    · cases hv
  · rintro ⟨Δ, v, ⟨hi, hv⟩, h1, h2, h3, h4, h5, rfl⟩
    refine ⟨(h.diags _ (by simp)).mpr ⟨Δ, v, hi, ?_⟩, rfl⟩
    refine List.mem_append_right _ ?_
    unfold varDiags
    rw [if_pos (by simp only [Bool.and_eq_true, free_full, withsOf_full, List.isEmpty_iff]; exact ⟨⟨hv, h1, h3⟩, h2⟩),
      lookup_prefixed.mpr ⟨h4, h5⟩]
    simp [needsPrefixDiag]

/-- C24. The assertions of variable lookup fail exactly if a variable has the name of an internal builtin, and nothing
else defines it. (The names defined by Nix are distinct.) -/
theorem C24_assertions (hn : (globalNames P).Nodup) : (runVL P fuel root).bad = true ↔
    ∃ Δ v, Occurs root Δ v ∧ Free Δ (varName v) ∧ withsOf Δ = [] ∧ ¬ Global P (varName v) ∧ (varName v, true) ∈ P := by
  have h := run_ok P hfuel (parse_wellFormed hp)
  rw [h.bad hn]
  constructor
  · rintro ⟨Δ, v, hi, hu⟩
    have hv : isVar v = true := by
      unfold internalUse at hu
      simp only [Bool.and_eq_true] at hu
      exact hu.1.1.1
    obtain ⟨h1, h2, h3, h4⟩ := (internalUse_iff hv).mp hu
    obtain ⟨b, hb⟩ := lookup_found.mp h4
    cases b
    · exact absurd (.inl hb) h2
    · exact ⟨Δ, v, ⟨hi, hv⟩, h1, h3, h2, hb⟩
  · rintro ⟨Δ, v, ⟨hi, hv⟩, h1, h2, h3, h4⟩
    exact ⟨Δ, v, hi, (internalUse_iff hv).mpr ⟨h1, h3, h2, lookup_found.mpr ⟨_, h4⟩⟩⟩

end C24

section C25
variable (P : PrimOps) {src : Bytes} {root : Node} {st : PState} (hp : parse src = some (root, st)) {fuel : Nat}
  (hfuel : sizeOf root ≤ fuel)
include hp hfuel

/-- The definitions that are reported when unused, with the kind of the diagnostic. -/
def reported : List (DefSource × DK) :=
  [(.let_, .unusedDefLet), (.lambdaNoArgFormal, .unusedDefLambdaNoArg_Formal),
    (.lambdaWithArgFormal, .unusedDefLambdaWithArg_Formal), (.lambdaWithArgArg, .unusedDefLambdaWithArg_Arg)]

/-- C25. A definition that is reported as unused is not used: no variable refers to it. -/
theorem C25_unused_sound {ds : DefSource} {k : DK} (hs : (ds, k) ∈ reported) {g : Diagnostic}
    (hg : g ∈ (runVL P fuel root).diags) (hk : g.kind = k) :
    ∃ Δ m x n, Inside root Δ m ∧ (frameOf m).binds x = some (n, ds) ∧ (∀ v, ¬ RefersTo m x v) ∧
      g.range = n.range ∧ g.args = [x] := by
  have h := run_ok P hfuel (parse_wellFormed hp)
  have hs := unusedKind_of hs
  have hne : g.kind ≠ .extraWith := by
    rw [hk]; intro hc; rw [hc] at hs
    exact absurd (unusedKind_cases hs) (by simp)
  obtain ⟨Δ, m, hi, ho⟩ := (h.diags g hne).mp hg
  obtain ⟨e, he, hd, rfl⟩ := ownDiags_unused hs hk ho
  refine ⟨Δ, m, e.1, e.2.1, hi, ((entsOk (parse_wellFormed hp _ _ hi)).binds _ _ _).mpr ⟨e, he, rfl, rfl, rfl⟩, ?_⟩
  unfold unusedDiag at hd
  split at hd
  · rename_i hu
    split at hd
    · cases hd
      refine ⟨fun v hv => ?_, rfl, rfl⟩
      rw [← mem_usesIn, List.isEmpty_iff.mp hu] at hv
      cases hv
    · cases hd
  · cases hd

/-- C25. Every unused definition of a `let`, formal or argument with formals is reported. -/
theorem C25_unused_complete {ds : DefSource} {k : DK} (hs : (ds, k) ∈ reported) {Δ : List Frame} {m n : Node} {x : Bytes}
    (hi : Inside root Δ m) (hb : (frameOf m).binds x = some (n, ds)) (hu : ∀ v, ¬ RefersTo m x v) :
    ∃ g ∈ (runVL P fuel root).diags, g.kind = k ∧ g.range = n.range ∧ g.args = [x] ∧ g.tags = [.faded] := by
  have h := run_ok P hfuel (parse_wellFormed hp)
  have hs := unusedKind_of hs
  obtain ⟨e, he, h1, h2, h3⟩ := ((entsOk (parse_wellFormed hp _ _ hi)).binds _ _ _).mp hb
  have hemp : (usesIn m e.1).isEmpty = true := by
    rw [List.isEmpty_iff, List.eq_nil_iff_forall_not_mem, h1]
    intro v hv
    exact hu v (mem_usesIn.mp hv)
  have hne : k ≠ .extraWith := by
    intro hc; rw [hc] at hs
    exact absurd (unusedKind_cases hs) (by simp)
  have hud : unusedDiag m e = some ⟨k, n.range, [x], [], if ds = .let_ then unusedLetFix n.range m else [], [.faded]⟩ := by
    unfold unusedDiag
    rw [if_pos hemp, h3, hs, h1, h2]
  refine ⟨⟨k, n.range, [x], [], if ds = .let_ then unusedLetFix n.range m else [], [.faded]⟩,
    (h.diags _ hne).mpr ⟨Δ, m, hi, ?_⟩, rfl, rfl, rfl, rfl⟩
  refine List.mem_append_left _ (List.mem_append_right _ ?_)
  have hlist : postDiags P m = (entsOf m).filterMap (unusedDiag m) := by
    cases m
    case exprLambda => rfl
    case exprLet => rfl
    case exprAttrs h' b r st dy =>
      exfalso
      simp only [entsOf] at he
      split at he
      · cases he
      · obtain ⟨a, -, rfl⟩ := List.mem_map.mp he
        simp only at h3
        rw [← h3] at hs
        cases hs
    all_goals cases he
  rw [hlist]
  exact List.mem_filterMap.mpr ⟨e, he, hud⟩

/-- C25. A `with` is reported iff no variable may come from it. -/
theorem C25_with_exact (g : Diagnostic) : (g ∈ (runVL P fuel root).diags ∧ g.kind = .extraWith) ↔
    ∃ Δ h kw semi w e, Inside root Δ (.exprWith h kw semi w e) ∧ (∀ v, ¬ MayComeFrom P Δ (.exprWith h kw semi w e) v) ∧
      g = { kind := .extraWith, range := kw.range,
            fixes := [{ message := b!"remove `with` expression",
                        edits := [⟨kw.range, []⟩] ++ (if semi.isNull then [] else [⟨semi.range, []⟩]) ++
                          (if w.isNull then [] else [⟨w.range, []⟩]) }] } := by
  have h := run_ok P hfuel (parse_wellFormed hp)
  constructor
  · rintro ⟨hg, hk⟩
    obtain ⟨Δ, m, h1, h2, h3, h4⟩ := h.withSound g hk hg
    cases m
    case exprWith => exact ⟨_, _, _, _, _, _, h1, h4, h3⟩
    all_goals cases h2
  · rintro ⟨Δ, h', kw, semi, w, e, h1, h2, rfl⟩
    exact ⟨h.withAll _ _ h1 rfl ((wuses_nil h (parse_faithful hp) h1).mpr (.inr h2)), rfl⟩

/-- C51. The keyword `rec` is reported iff no variable refers to an attribute of the set. -/
theorem C51_extra_rec_exact (g : Diagnostic) : (g ∈ (runVL P fuel root).diags ∧ g.kind = .extraRecursive) ↔
    ∃ Δ h b r st dy, Inside root Δ (.exprAttrs h b r st dy) ∧ r.isNull = false ∧
      (∀ a ∈ st, ∀ v, ¬ RefersTo (.exprAttrs h b r st dy) (attrName a) v) ∧
      g = { kind := .extraRecursive, range := r.range, tags := [.faded],
            fixes := [{ message := b!"remove `rec` keyword", edits := [⟨r.range, []⟩] }] } := by
  have h := run_ok P hfuel (parse_wellFormed hp)
  constructor
  · rintro ⟨hg, hk⟩
    obtain ⟨Δ, m, hi, ho⟩ := (h.diags g (by rw [hk]; simp)).mp hg
    obtain ⟨h', b, r, st, dy, rfl, hr, hu, hg⟩ := ownDiags_extraRec hk ho
    refine ⟨Δ, h', b, r, st, dy, hi, hr, ?_, hg⟩
    intro a ha v hv
    have : entsOf (.exprAttrs h' b r st dy) = setEnts st .rec_ := by simp [entsOf, hr]
    have := hu (attrName a, attrKey a, .rec_, checkInheritedFromBuiltin a) (by rw [this]; exact List.mem_map.mpr ⟨a, ha, rfl⟩)
    rw [← mem_usesIn, this] at hv
    cases hv
  · rintro ⟨Δ, h', b, r, st, dy, hi, hr, hu, rfl⟩
    refine ⟨(h.diags _ (by simp)).mpr ⟨Δ, _, hi, ?_⟩, rfl⟩
    refine List.mem_append_left _ (List.mem_append_right _ ?_)
    have hents : entsOf (.exprAttrs h' b r st dy) = setEnts st .rec_ := by simp [entsOf, hr]
    simp only [postDiags]
    rw [if_neg (by simp [hr]), if_neg]
    · simp [extraRecDiag]
    · rw [hents]
      intro hc
      obtain ⟨e, he, hc⟩ := List.any_eq_true.mp hc
      obtain ⟨a, ha, rfl⟩ := List.mem_map.mp he
      simp only [Bool.not_eq_true', List.isEmpty_eq_false_iff] at hc
      obtain ⟨v, hv⟩ := List.exists_mem_of_ne_nil _ hc
      exact hu a ha v (mem_usesIn.mp hv)

end C25

/-! ### Examples -/

/-- The part of a node that is reached by taking the given parts. -/
def walk : List Nat → Node → Option (List Frame × Node)
  | [], n => some ([], n)
  | i :: is, n => do
    let p ← (Scoping.parts n)[i]?
    let q ← walk is p.2
    pure (if p.1 then q.1 ++ [frameOf n] else q.1, q.2)

theorem walk_inside {is : List Nat} {n m : Node} {Δ : List Frame} (h : walk is n = some (Δ, m)) : Inside n Δ m := by
  induction is generalizing n Δ with
  | nil => cases h; exact .here _
  | cons i is ih =>
    rw [walk] at h
    cases hp : (Scoping.parts n)[i]? with
    | none => rw [hp] at h; cases h
    | some p =>
      cases hq : walk is p.2 with
      | none => rw [hp] at h; simp only [Option.bind_eq_bind, Option.bind_some, hq, Option.bind_none] at h; cases h
      | some q =>
        rw [hp] at h
        simp only [Option.bind_eq_bind, Option.bind_some, hq, Option.pure_def, Option.some.injEq, Prod.mk.injEq] at h
        obtain ⟨h1, h2⟩ := h
        have hm := List.mem_of_getElem? hp
        obtain ⟨b, c⟩ := p
        have := ih (n := c) (Δ := q.1) (by rw [hq, ← h2])
        cases b
        · simp only [Bool.false_eq_true, if_false] at h1
          subst h1
          exact .outer _ _ _ _ hm this
        · simp only [if_true] at h1
          subst h1
          exact .inner _ _ _ _ hm this

/-- A variable of a program with a decidable property. -/
theorem occurs_of_check {src : Bytes} {is : List Nat} (p : Node → List Frame → Node → Bool)
    (h : (match parse src with
      | some (root, _) => match walk is root with
        | some (Δ, v) => isVar v && p root Δ v
        | none => false
      | none => false) = true) : ∃ root st Δ v, parse src = some (root, st) ∧ Occurs root Δ v ∧ p root Δ v = true := by
  split at h
  · rename_i root st hp
    split at h
    · rename_i Δ v hw
      simp only [Bool.and_eq_true] at h
      exact ⟨root, st, Δ, v, hp, ⟨walk_inside hw, h.1⟩, h.2⟩
    · cases h
  · cases h

/-- The second `x` is bound by the inner `let`. -/
example : ∃ root st Δ v, parse b!"let x = 1; in let x = 2; in x" = some (root, st) ∧ Occurs root Δ v ∧
    ((resolve Δ (varName v)).map fun p => (p.1.range.l.offset, p.2)) = some (18, .let_) := by
  obtain ⟨root, st, Δ, v, h1, h2, h3⟩ := occurs_of_check (src := b!"let x = 1; in let x = 2; in x") (is := [1, 1])
    (fun _ Δ v => decide (((resolve Δ (varName v)).map fun p => (p.1.range.l.offset, p.2)) = some (18, .let_))) (by decide +kernel)
  exact ⟨root, st, Δ, v, h1, h2, by simpa using h3⟩

/-- `true` is a builtin. -/
example : ∃ root st Δ v, parse b!"x: true" = some (root, st) ∧ Occurs root Δ v ∧ Free Δ (varName v) ∧ Global [] (varName v) := by
  obtain ⟨root, st, Δ, v, h1, h2, h3⟩ := occurs_of_check (src := b!"x: true") (is := [0])
    (fun _ Δ v => free Δ (varName v) && decide (varName v = b!"true")) (by decide +kernel)
  simp only [Bool.and_eq_true, decide_eq_true_eq] at h3
  exact ⟨root, st, Δ, v, h1, h2, free_iff.mp h3.1, by rw [h3.2]; exact .inr (.inl (by decide))⟩

/-- `y` may come from two `with`s. -/
example : ∃ root st Δ v, parse b!"with a; x: with b; y" = some (root, st) ∧ Occurs root Δ v ∧ Free Δ (varName v) ∧
    ¬ Global [] (varName v) ∧ (withsOf Δ).length = 2 := by
  obtain ⟨root, st, Δ, v, h1, h2, h3⟩ := occurs_of_check (src := b!"with a; x: with b; y") (is := [1, 0, 1])
    (fun _ Δ v => free Δ (varName v) && decide (varName v = b!"y") && decide ((withsOf Δ).length = 2)) (by decide +kernel)
  simp only [Bool.and_eq_true, decide_eq_true_eq] at h3
  exact ⟨root, st, Δ, v, h1, h2, free_iff.mp h3.1.1, by rw [h3.1.2]; unfold Global; decide, h3.2⟩

/-- The diagnostics of variable lookup for a program. -/
def vlDiags (P : PrimOps) (src : Bytes) : List (DK × Nat × List Bytes) :=
  match parse src with
  | some (root, _) => (runVL P 100000 root).diags.map fun g => (g.kind, g.range.l.offset, g.args)
  | none => []

example : vlDiags [] b!"a: b" = [(.undefinedVariable, 3, [b!"b"])] := by decide +kernel
example : vlDiags [(b!"__add", false)] b!"a: add" = [(.primOpNeedsPrefix, 3, [])] := by decide +kernel
example : vlDiags [] b!"let x = 1; y = x; in 2" = [(.unusedDefLet, 11, [b!"y"])] := by decide +kernel
example : vlDiags [] b!"{ a, b }@c: a" = [(.unusedDefLambdaWithArg_Formal, 5, [b!"b"]), (.unusedDefLambdaWithArg_Arg, 9, [b!"c"])] := by
  decide +kernel
example : vlDiags [] b!"with { }; 1" = [(.extraWith, 0, [])] := by decide +kernel
example : vlDiags [] b!"with { }; x" = [] := by decide +kernel
example : vlDiags [] b!"rec { x = 1; }" = [(.extraRecursive, 0, [])] := by decide +kernel
example : vlDiags [] b!"rec { x = 1; y = x; }" = [] := by decide +kernel

/-! ### Violations -/

/-- C24. The name of an internal builtin makes an assertion fail. -/
theorem C24_internal_builtin_violated : ∃ root st, parse b!"fetchFinalTree" = some (root, st) ∧
    ∀ fuel, sizeOf root ≤ fuel → (runVL [(b!"fetchFinalTree", true)] fuel root).bad = true := by
  obtain ⟨root, st, Δ, v, h1, h2, h3⟩ := occurs_of_check (src := b!"fetchFinalTree") (is := [])
    (fun _ Δ v => free Δ (varName v) && decide (varName v = b!"fetchFinalTree") && (withsOf Δ).isEmpty) (by decide +kernel)
  simp only [Bool.and_eq_true, decide_eq_true_eq, List.isEmpty_iff] at h3
  refine ⟨root, st, h1, fun fuel hf => (C24_assertions _ h1 hf (by decide +kernel)).mpr ⟨Δ, v, h2, free_iff.mp h3.1.1, h3.2, ?_, ?_⟩⟩
  · rw [h3.1.2]; unfold Global; decide
  · rw [h3.1.2]; decide

/-- C25. The unused argument of `x: 1` is not reported. -/
theorem C25_lambda_arg_violated : ∃ root st i, parse b!"x: 1" = some (root, st) ∧ (frameOf root).binds b!"x" = some (i, .lambdaArg) ∧
    (∀ v, ¬ RefersTo root b!"x" v) ∧ ∃ fuel, sizeOf root ≤ fuel ∧ (runVL [] fuel root).diags = [] := by
  have key : (match parse b!"x: 1" with
    | some (.exprLambda h (.lambdaArg h' i .null) (.exprInt h'' k), _) =>
      decide (i.name = b!"x") && !i.isNull && decide (sizeOf (Node.exprLambda h (.lambdaArg h' i .null) (.exprInt h'' k)) ≤ 100000) &&
        (runVL [] 100000 (.exprLambda h (.lambdaArg h' i .null) (.exprInt h'' k))).diags.isEmpty
    | _ => false) = true := by decide +kernel
  split at key
  · rename_i h h' i h'' k st hp
    simp only [Bool.and_eq_true, decide_eq_true_eq, List.isEmpty_iff, Bool.not_eq_true'] at key
    obtain ⟨⟨⟨k1, k2⟩, k3⟩, k4⟩ := key
    refine ⟨_, st, i, hp, ?_, ?_, 100000, k3, k4⟩
    · simp [frameOf, lambdaFrame, formalMembers, Frame.binds, k1, k2]
      rfl
    · rintro v ⟨c, Δ, hc, ⟨ho, hv⟩, -⟩
      simp only [Scoping.parts, formalMembers, Node.isNull, Bool.false_eq_true, if_false, List.flatMap_nil, List.nil_append,
        List.mem_singleton, Prod.mk.injEq, true_and] at hc
      subst hc
      rcases inside_cases ho with ⟨-, rfl⟩ | ⟨p, hp', -⟩
      · cases hv
      · simp [Scoping.parts, Node.children] at hp'
  · cases key

/-- C51. In a legacy `let`, the keyword reported as needless `rec` is `let`, and the fix removes it. -/
theorem C51_legacy_let_violated : ∃ root st h h' a, parse b!"let { body = 1; }" = some (root, st) ∧ root = .exprLegacyLet h (.misc h') a ∧
    ∃ fuel, sizeOf root ≤ fuel ∧ ∃ g ∈ (runVL [] fuel root).diags, g.kind = .extraRecursive ∧ g.range = h'.range ∧
      g.fixes = [{ message := b!"remove `rec` keyword", edits := [⟨h'.range, []⟩] }] := by
  have key : (match parse b!"let { body = 1; }" with
    | some (.exprLegacyLet h (.misc h') a, _) =>
      decide (sizeOf (Node.exprLegacyLet h (.misc h') a) ≤ 100000) &&
        (runVL [] 100000 (.exprLegacyLet h (.misc h') a)).diags.any fun g => decide (g.kind = .extraRecursive ∧ g.range = h'.range ∧
          g.fixes = [{ message := b!"remove `rec` keyword", edits := [⟨h'.range, []⟩] }])
    | _ => false) = true := by decide +kernel
  split at key
  · rename_i h h' a st hp
    simp only [Bool.and_eq_true, decide_eq_true_eq, List.any_eq_true] at key
    obtain ⟨k1, g, k2, k3⟩ := key
    exact ⟨_, st, h, h', a, hp, rfl, 100000, k1, g, k2, k3⟩
  · cases key

/-- C24. A value that is dropped as a duplicate is not looked at: `b` is not reported as undefined. -/
example : vlDiags [] b!"let a = 1; a = b; in a" = [] := by decide +kernel

end Verif.Props
