import Verif.Props.Scope
/-
C52: diagnostics about builtins. C25: the fix for an unused `let` binding.
-/
namespace Verif.Props
open Verif.Nixf Verif.Nixf.Scoping

/-- The attribute is written `inherit (builtins) ..`. -/
def FromBuiltins (a : Node) : Prop :=
  ∃ h k h' hv i d p df ds, a = .attr h k (.exprSelect h' (.exprVar hv i) d p df ds) .inheritFrom ∧ i.name = b!"builtins"

/-- The name `x` that `m` binds is inherited from `builtins`. -/
def BoundFromBuiltins (m : Node) (x : Bytes) : Prop :=
  match m with
  | .exprAttrs _ _ _ st _ => ∃ a ∈ st, attrName a = x ∧ FromBuiltins a
  | .exprLet _ _ _ _ (.exprAttrs _ _ _ st _) => ∃ a ∈ st, attrName a = x ∧ FromBuiltins a
  | _ => False

theorem fromBuiltins_iff {a : Node} : checkInheritedFromBuiltin a = true ↔ FromBuiltins a := by
  unfold checkInheritedFromBuiltin
  constructor
  · intro h
    split at h
    · exact ⟨_, _, _, _, _, _, _, _, _, rfl, by simpa using h⟩
    · cases h
  · rintro ⟨h, k, h', hv, i, d, p, df, ds, rfl, hi⟩
    simpa using hi

theorem nodup_find {α β : Type} {f : α → β} {l : List α} (h : (l.map f).Nodup) {a b : α} (ha : a ∈ l) (hb : b ∈ l) (e : f a = f b) : a = b := by
  induction l with
  | nil => cases ha
  | cons x l ih =>
    rw [List.map_cons, List.nodup_cons] at h
    rcases List.mem_cons.mp ha with h1 | h1 <;> rcases List.mem_cons.mp hb with h2 | h2
    · rw [h1, h2]
    · exact absurd (List.mem_map.mpr ⟨b, h2, by rw [← e, h1]⟩) h.1
    · exact absurd (List.mem_map.mpr ⟨a, h1, by rw [e, h2]⟩) h.1
    · exact ih h.2 h1 h2

/-- The flag of a definition. -/
theorem ent_flag {m : Node} (h : Shape m) {e : Ent} (he : e ∈ entsOf m) : e.2.2.2 = true ↔ BoundFromBuiltins m e.1 := by
  have hset : ∀ {st : List Node} {src : DefSource}, GoodSet st → e ∈ setEnts st src →
      (e.2.2.2 = true ↔ ∃ a ∈ st, attrName a = e.1 ∧ FromBuiltins a) := by
    intro st src hg he
    obtain ⟨a, ha, rfl⟩ := List.mem_map.mp he
    dsimp only
    rw [fromBuiltins_iff]
    exact ⟨fun h => ⟨a, ha, rfl, h⟩, fun ⟨b, hb, h1, h2⟩ => by rw [nodup_find hg.1 ha hb h1.symm]; exact h2⟩
  cases m
  case exprLambda h' arg body =>
    cases arg
    case lambdaArg h2 i f =>
      simp only [entsOf] at he
      split at he
      · cases he
      · simp only [BoundFromBuiltins, iff_false]
        simp only [lambdaEnts, List.mem_append] at he
        rcases he with he | he
        · split at he
          · cases he
          · split at he
            · rw [List.mem_singleton.mp he]; simp
            · split at he
              · cases he
              · rw [List.mem_singleton.mp he]; simp
        · split at he
          · cases he
          · obtain ⟨p, -, rfl⟩ := List.mem_map.mp he
            simp
    all_goals cases he
  case exprAttrs h' b r st dy =>
    simp only [entsOf] at he
    split at he
    · cases he
    · exact hset h he
  case exprLet h' k k' e' a =>
    cases a
    case exprAttrs => exact hset h.2 he
    all_goals cases he
  all_goals cases he

theorem mem_addDiags {P : PrimOps} {e : Ent} {g : Diagnostic} : g ∈ addDiags P e ↔
    ((∃ b, (e.1, b) ∈ P) ∧ e.2.2.2 = false ∧ g = { kind := .primOpOverridden, range := e.2.1.range, args := [e.1] }) ∨
    (e.1 ∈ constants ∧ g = { kind := .constantOverridden, range := e.2.1.range, args := [e.1] }) := by
  unfold addDiags
  rw [List.mem_append]
  refine or_congr ?_ ?_
  · rw [← lookup_found]
    split
    · rename_i h; simp [h]
    · rename_i h
      constructor
      · rintro ⟨⟩
      · rintro ⟨h1, h2, -⟩; exact absurd ⟨h1, h2⟩ h
  · split
    · rename_i h; simp at h; simp [h]
    · rename_i h
      constructor
      · rintro ⟨⟩
      · rintro ⟨h1, -⟩; simp at h; exact absurd h1 h

/-- The diagnostics of the definitions of a node. -/
theorem ownDiags_add {P : PrimOps} {Δ : List Frame} {m : Node} {g : Diagnostic}
    (hk : g.kind = .primOpOverridden ∨ g.kind = .constantOverridden) : g ∈ ownDiags P (Δ, m) ↔ ∃ e ∈ entsOf m, g ∈ addDiags P e := by
  constructor
  · intro h
    rcases List.mem_append.mp h with h | h
    · rcases List.mem_append.mp h with h | h
      · unfold preDiags at h
        rcases List.mem_append.mp h with h | h
        · exfalso
          split at h
          · rw [(checkLetInherit_eq P _ {}).2 g h] at hk
            rcases hk with hk | hk <;> cases hk
          · cases h
        · exact List.mem_flatMap.mp h
      · exfalso
        rcases postDiags_kind h with ⟨e, -, -, h⟩ | h | h | ⟨h, -⟩
        · have := unusedKind_cases h
          rcases hk with hk | hk <;> rw [hk] at this <;> simp at this
        all_goals rw [h] at hk; rcases hk with hk | hk <;> cases hk
    · exfalso
      rcases varDiags_kind h with h | h <;> rw [h] at hk <;> rcases hk with hk | hk <;> cases hk
  · rintro ⟨e, he, hg⟩
    exact List.mem_append_left _ (List.mem_append_left _ (List.mem_append_right _ (List.mem_flatMap.mpr ⟨e, he, hg⟩)))

/-- The diagnostic for a needless `inherit (builtins) x`; the fix removes `x`. -/
def inheritDiag (a : Node) : Diagnostic :=
  { kind := .primOpRemovablePrefix, range := (attrKey a).range,
    fixes := [{ message := b!"remove unnecessary inherit", edits := [⟨(attrKey a).range, []⟩] }] }

/-- The diagnostic for a needless `builtins.`; the fix removes it. -/
def prefixDiag (r : CRange) (dot : Node) : Diagnostic :=
  { kind := .primOpRemovablePrefix, range := r,
    fixes := [{ message := b!"remove `builtins.` prefix",
                edits := [⟨r, []⟩] ++ (if dot.isNull then [] else [⟨dot.range, []⟩]) }] }

theorem mem_letInherit {P : PrimOps} {st : List Node} {g : Diagnostic} : g ∈ (checkLetInheritBuiltins P st {}).diags ↔
    ∃ a ∈ st, FromBuiltins a ∧ (∃ b, (attrName a, b) ∈ P) ∧
      g = inheritDiag a := by
  have : ∀ (st : List Node) (s : VL), g ∈ (checkLetInheritBuiltins P st s).diags ↔ g ∈ s.diags ∨ ∃ a ∈ st, FromBuiltins a ∧
      (∃ b, (attrName a, b) ∈ P) ∧ g = inheritDiag a := by
    intro st
    unfold checkLetInheritBuiltins
    induction st with
    | nil => simp
    | cons a st ih =>
      intro s
      rw [List.foldl_cons, ih, List.exists_mem_cons_iff, ← or_assoc, ← fromBuiltins_iff, ← lookup_found, ← and_assoc]
      refine or_congr ?_ Iff.rfl
      split
      · rename_i h; simp [VL.emit, h, inheritDiag]
      · rename_i h; simp [h]
  rw [this]
  simp

theorem mem_checkBuiltins {P : PrimOps} {n : Node} {g : Diagnostic} : g ∈ (checkBuiltins P n {}).diags ↔
    ∃ h hv i dot hp first dt df x, n = .exprSelect h (.exprVar hv i) dot (.attrPath hp [first] dt) df false ∧ i.name = b!"builtins" ∧
      first.staticName? = some x ∧
      (((∃ b, (x, b) ∈ P) ∧ g = prefixDiag hv.range dot) ∨
       (((∀ b, (x, b) ∉ P) ∧ ∀ b, (b!"__" ++ x, b) ∉ P) ∧ isBuiltinConstant x = false ∧
          g = { kind := .primOpUnknown, range := first.range, args := [x] })) := by
  unfold checkBuiltins
  constructor
  · intro hg
    split at hg
    · rename_i h hv i dot hp first dt df
      split at hg
      · rename_i hi
        split at hg
        · cases hg
        · rename_i x hx
          refine ⟨h, hv, i, dot, hp, first, dt, df, x, rfl, by simpa using hi, hx, ?_⟩
          split at hg
          · rename_i hl
            simp only [VL.emit, List.nil_append, List.mem_singleton] at hg
            exact .inl ⟨lookup_found.mp hl, hg⟩
          · cases hg
          · rename_i hl
            split at hg
            · cases hg
            · rename_i hc
              simp only [VL.emit, List.nil_append, List.mem_singleton] at hg
              exact .inr ⟨lookup_notFound.mp hl, by simpa using hc, hg⟩
      · cases hg
    · cases hg
  · rintro ⟨h, hv, i, dot, hp, first, dt, df, x, rfl, hi, hx, hg⟩
    simp only [hi, hx, BEq.rfl, if_true]
    rcases hg with ⟨hl, rfl⟩ | ⟨hl, hc, rfl⟩
    · rw [lookup_found.mpr hl]
      simp [VL.emit, prefixDiag]
    · rw [lookup_notFound.mpr hl]
      simp [VL.emit, hc]

/-- The diagnostics about `builtins.`. -/
theorem ownDiags_prefix {P : PrimOps} {Δ : List Frame} {m : Node} {g : Diagnostic}
    (hk : g.kind = .primOpRemovablePrefix ∨ g.kind = .primOpUnknown) : g ∈ ownDiags P (Δ, m) ↔
      (∃ h k k' e h' b r st dy, m = .exprLet h k k' e (.exprAttrs h' b r st dy) ∧ g ∈ (checkLetInheritBuiltins P st {}).diags) ∨
      g ∈ (checkBuiltins P m {}).diags := by
  constructor
  · intro h
    rcases List.mem_append.mp h with h | h
    · rcases List.mem_append.mp h with h | h
      · unfold preDiags at h
        rcases List.mem_append.mp h with h | h
        · split at h
          · rename_i heq
            exact .inl ⟨_, _, _, _, _, _, _, _, _, heq, h⟩
          · cases h
        · exfalso
          obtain ⟨e, -, he⟩ := List.mem_flatMap.mp h
          rcases mem_addDiags.mp he with ⟨-, -, rfl⟩ | ⟨-, rfl⟩ <;> rcases hk with hk | hk <;> cases hk
      · have hun : ∀ e : Ent, unusedKind e.2.2.1 = some g.kind → False := fun e h => by
          have := unusedKind_cases h
          rcases hk with hk | hk <;> rw [hk] at this <;> simp at this
        have hu : ¬ g ∈ (entsOf m).filterMap (unusedDiag m) := by
          intro h
          obtain ⟨e, he, hg⟩ := List.mem_filterMap.mp h
          unfold unusedDiag at hg
          split at hg
          · split at hg
            · rename_i k hk'
              cases hg
              exact hun e hk'
            · cases hg
          · cases hg
        unfold postDiags at h
        split at h
        · exact absurd h hu
        · exact absurd h hu
        · exfalso
          split at h
          · cases h
          · split at h
            · cases h
            · rw [List.mem_singleton.mp h] at hk
              rcases hk with hk | hk <;> cases hk
        · exact .inr h
        · cases h
    · exfalso
      rcases varDiags_kind h with h | h <;> rw [h] at hk <;> rcases hk with hk | hk <;> cases hk
  · rintro (⟨h, k, k', e, h', b, r, st, dy, rfl, hg⟩ | hg)
    · exact List.mem_append_left _ (List.mem_append_left _ (List.mem_append_left _ hg))
    · refine List.mem_append_left _ (List.mem_append_right _ ?_)
      cases m
      case exprSelect => exact hg
      all_goals cases hg

section C52
variable (P : PrimOps) {src : Bytes} {root : Node} {st : PState} (hp : parse src = some (root, st)) {fuel : Nat}
  (hfuel : sizeOf root ≤ fuel)
include hp hfuel

/-- C52. A definition is reported as overriding a builtin iff it has the name of one and is not inherited from `builtins`. -/
theorem C52_overridden_exact (g : Diagnostic) : (g ∈ (runVL P fuel root).diags ∧ g.kind = .primOpOverridden) ↔
    ∃ Δ m x n ds, Inside root Δ m ∧ (frameOf m).binds x = some (n, ds) ∧ (∃ b, (x, b) ∈ P) ∧ ¬ BoundFromBuiltins m x ∧
      g = { kind := .primOpOverridden, range := n.range, args := [x] } := by
  have h := run_ok P hfuel (parse_wellFormed hp)
  constructor
  · rintro ⟨hg, hk⟩
    obtain ⟨Δ, m, hi, ho⟩ := (h.diags g (by rw [hk]; simp)).mp hg
    obtain ⟨e, he, hge⟩ := (ownDiags_add (.inl hk)).mp ho
    rcases mem_addDiags.mp hge with ⟨h1, h2, h3⟩ | ⟨-, h3⟩
    · refine ⟨Δ, m, e.1, e.2.1, e.2.2.1, hi, ((entsOk (parse_wellFormed hp _ _ hi)).binds _ _ _).mpr ⟨e, he, rfl, rfl, rfl⟩, h1, ?_, h3⟩
      rw [← ent_flag (parse_wellFormed hp _ _ hi) he, h2]
      simp
    · rw [h3] at hk; cases hk
  · rintro ⟨Δ, m, x, n, ds, hi, hb, h1, h2, rfl⟩
    refine ⟨(h.diags _ (by simp)).mpr ⟨Δ, m, hi, (ownDiags_add (.inl rfl)).mpr ?_⟩, rfl⟩
    obtain ⟨e, he, rfl, rfl, rfl⟩ := ((entsOk (parse_wellFormed hp _ _ hi)).binds _ _ _).mp hb
    rw [← ent_flag (parse_wellFormed hp _ _ hi) he] at h2
    exact ⟨e, he, mem_addDiags.mpr (.inl ⟨h1, by simpa using h2, rfl⟩)⟩

/-- C52. A definition is reported as overriding a constant iff it has the name of one. -/
theorem C52_constant_exact (g : Diagnostic) : (g ∈ (runVL P fuel root).diags ∧ g.kind = .constantOverridden) ↔
    ∃ Δ m x n ds, Inside root Δ m ∧ (frameOf m).binds x = some (n, ds) ∧ x ∈ constants ∧
      g = { kind := .constantOverridden, range := n.range, args := [x] } := by
  have h := run_ok P hfuel (parse_wellFormed hp)
  constructor
  · rintro ⟨hg, hk⟩
    obtain ⟨Δ, m, hi, ho⟩ := (h.diags g (by rw [hk]; simp)).mp hg
    obtain ⟨e, he, hge⟩ := (ownDiags_add (.inr hk)).mp ho
    rcases mem_addDiags.mp hge with ⟨h1, h2, h3⟩ | ⟨h1, h3⟩
    · rw [h3] at hk; cases hk
    · exact ⟨Δ, m, e.1, e.2.1, e.2.2.1, hi, ((entsOk (parse_wellFormed hp _ _ hi)).binds _ _ _).mpr ⟨e, he, rfl, rfl, rfl⟩, h1, h3⟩
  · rintro ⟨Δ, m, x, n, ds, hi, hb, h1, rfl⟩
    refine ⟨(h.diags _ (by simp)).mpr ⟨Δ, m, hi, (ownDiags_add (.inr rfl)).mpr ?_⟩, rfl⟩
    obtain ⟨e, he, rfl, rfl, rfl⟩ := ((entsOk (parse_wellFormed hp _ _ hi)).binds _ _ _).mp hb
    exact ⟨e, he, mem_addDiags.mpr (.inr ⟨h1, rfl⟩)⟩

/-- C52. `builtins.x` is reported as unknown iff there is no builtin or constant `x` or `__x`. -/
theorem C52_unknown_exact (g : Diagnostic) : (g ∈ (runVL P fuel root).diags ∧ g.kind = .primOpUnknown) ↔
    ∃ Δ h hv i dot hp first dt df x, Inside root Δ (.exprSelect h (.exprVar hv i) dot (.attrPath hp [first] dt) df false) ∧
      i.name = b!"builtins" ∧ first.staticName? = some x ∧ (∀ b, (x, b) ∉ P) ∧ (∀ b, (b!"__" ++ x, b) ∉ P) ∧
      (b!"_" <+: x ∨ x ∉ constants ∧ b!"__" ++ x ∉ constants) ∧ g = { kind := .primOpUnknown, range := first.range, args := [x] } := by
  have h := run_ok P hfuel (parse_wellFormed hp)
  have hcon : ∀ x, isBuiltinConstant x = false ↔ (b!"_" <+: x ∨ x ∉ constants ∧ b!"__" ++ x ∉ constants) := by
    intro x
    unfold isBuiltinConstant
    split
    · rename_i h; simp [List.isPrefixOf_iff_prefix.mp h]
    · rename_i h
      rw [List.isPrefixOf_iff_prefix] at h
      simp [h]
  constructor
  · rintro ⟨hg, hk⟩
    obtain ⟨Δ, m, hi, ho⟩ := (h.diags g (by rw [hk]; simp)).mp hg
    rcases (ownDiags_prefix (.inr hk)).mp ho with ⟨_, _, _, _, _, _, _, st, _, rfl, hg⟩ | hg
    · obtain ⟨a, -, -, -, rfl⟩ := mem_letInherit.mp hg
      cases hk
    · obtain ⟨h', hv, i, dot, hp, first, dt, df, x, rfl, h1, h2, ⟨-, h3⟩ | ⟨⟨h3, h4⟩, h5, h6⟩⟩ := mem_checkBuiltins.mp hg
      · rw [h3] at hk; cases hk
      · exact ⟨Δ, h', hv, i, dot, hp, first, dt, df, x, hi, h1, h2, h3, h4, (hcon x).mp h5, h6⟩
  · rintro ⟨Δ, h', hv, i, dot, hp, first, dt, df, x, hi, h1, h2, h3, h4, h5, rfl⟩
    exact ⟨(h.diags _ (by simp)).mpr ⟨Δ, _, hi, (ownDiags_prefix (.inr rfl)).mpr (.inr (mem_checkBuiltins.mpr
      ⟨h', hv, i, dot, hp, first, dt, df, x, rfl, h1, h2, .inr ⟨⟨h3, h4⟩, (hcon x).mpr h5, rfl⟩⟩))⟩, rfl⟩

/-- C52. A reference to a builtin that is also available without prefix is reported iff it is written `builtins.x`, or
inherited from `builtins` in a `let`. -/
theorem C52_removable_exact (g : Diagnostic) : (g ∈ (runVL P fuel root).diags ∧ g.kind = .primOpRemovablePrefix) ↔
    (∃ Δ h hv i dot hp first dt df x, Inside root Δ (.exprSelect h (.exprVar hv i) dot (.attrPath hp [first] dt) df false) ∧
      i.name = b!"builtins" ∧ first.staticName? = some x ∧ (∃ b, (x, b) ∈ P) ∧
      g = prefixDiag hv.range dot) ∨
    ∃ Δ h k k' e h' b r st dy, Inside root Δ (.exprLet h k k' e (.exprAttrs h' b r st dy)) ∧
      ∃ a ∈ st, FromBuiltins a ∧ (∃ b, (attrName a, b) ∈ P) ∧
        g = inheritDiag a := by
  have h := run_ok P hfuel (parse_wellFormed hp)
  constructor
  · rintro ⟨hg, hk⟩
    obtain ⟨Δ, m, hi, ho⟩ := (h.diags g (by rw [hk]; simp)).mp hg
    rcases (ownDiags_prefix (.inl hk)).mp ho with ⟨_, _, _, _, _, _, _, st, _, rfl, hg⟩ | hg
    · exact .inr ⟨Δ, _, _, _, _, _, _, _, _, _, hi, mem_letInherit.mp hg⟩
    · obtain ⟨h', hv, i, dot, hp, first, dt, df, x, rfl, h1, h2, ⟨h3, h4⟩ | ⟨-, -, h6⟩⟩ := mem_checkBuiltins.mp hg
      · exact .inl ⟨Δ, h', hv, i, dot, hp, first, dt, df, x, hi, h1, h2, h3, h4⟩
      · rw [h6] at hk; cases hk
  · rintro (⟨Δ, h', hv, i, dot, hp, first, dt, df, x, hi, h1, h2, h3, rfl⟩ | ⟨Δ, h', k, k', e, h2, b, r, st, dy, hi, a, h3, h4, h5, rfl⟩)
    · exact ⟨(h.diags _ (by simp [prefixDiag])).mpr ⟨Δ, _, hi, (ownDiags_prefix (.inl rfl)).mpr (.inr (mem_checkBuiltins.mpr
        ⟨h', hv, i, dot, hp, first, dt, df, x, rfl, h1, h2, .inl ⟨h3, rfl⟩⟩))⟩, rfl⟩
    · exact ⟨(h.diags _ (by simp [inheritDiag])).mpr ⟨Δ, _, hi, (ownDiags_prefix (.inl rfl)).mpr (.inl
        ⟨_, _, _, _, _, _, _, _, _, rfl, mem_letInherit.mpr ⟨a, h3, h4, h5, rfl⟩⟩)⟩, rfl⟩

/-- C25. The fix of an unused `let` binding removes a binding of this `let` that starts with the unused name, and
nothing else. No other definition has a fix. -/
theorem C25_fix {ds : DefSource} {k : DK} (hs : (ds, k) ∈ reported) {g : Diagnostic}
    (hg : g ∈ (runVL P fuel root).diags) (hk : g.kind = k) : g.fixes = [] ∨
    ∃ Δ h kl ki e h' hb bs r st dy x n, Inside root Δ (.exprLet h kl ki e (.exprAttrs h' (.binds hb bs) r st dy)) ∧
      ds = .let_ ∧ (setFrame st .let_).binds x = some (n, .let_) ∧ g.range = n.range ∧
      ∃ b ∈ bs, (∃ h1 h2 first rest dt eq v, b = .binding h1 (.attrPath h2 (first :: rest) dt) eq v ∧ first.range = n.range) ∧
        g.fixes = [{ message := b!"remove unused binding", edits := [⟨b.range, []⟩] }] := by
  have h := run_ok P hfuel (parse_wellFormed hp)
  have hs' := unusedKind_of hs
  have hne : g.kind ≠ .extraWith := by
    rw [hk]; intro hc; rw [hc] at hs'
    exact absurd (unusedKind_cases hs') (by simp)
  obtain ⟨Δ, m, hi, ho⟩ := (h.diags g hne).mp hg
  obtain ⟨e, he, hd, hsrc⟩ := ownDiags_unused hs' hk ho
  have hb := ((entsOk (parse_wellFormed hp _ _ hi)).binds _ _ _).mpr ⟨e, he, rfl, rfl, hsrc⟩
  unfold unusedDiag at hd
  split at hd
  · split at hd
    · cases hd
      dsimp only
      split
      · rename_i hl
        unfold unusedLetFix
        split
        · rename_i attrs
          split
          · rename_i b hbf
            right
            have h1 := List.find?_some hbf
            have h2 := List.mem_of_find?_eq_some hbf
            unfold bindings at h2
            split at h2
            · refine ⟨Δ, _, _, _, _, _, _, _, _, _, _, e.1, e.2.1, hi, by rw [← hsrc, hl], ?_, rfl, b, h2, ?_, rfl⟩
              · rw [← hl, hsrc]
                rw [hsrc] at hl
                rw [hl] at hb ⊢
                exact hb
              · split at h1
                · rename_i h1' h2' first rest dt eq v
                  simp only [Bool.and_eq_true, beq_iff_eq, Bool.not_eq_true'] at h1
                  refine ⟨_, _, first, rest, dt, eq, v, rfl, ?_⟩
                  cases hr : first.range
                  cases hr' : e.2.1.range
                  rw [hr, hr'] at h1
                  simp only at h1
                  rw [h1.1.2, h1.2]
                · cases h1
            · cases h2
          · exact .inl rfl
        · exact .inl rfl
      · exact .inl rfl
    · cases hd
  · cases hd

/-- C25. There is a fix if a binding of the `let` starts with the unused name. -/
theorem C25_fix_complete {Δ : List Frame} {h h' hb : Hd} {kl ki e r : Node} {bs sta dy : List Node} {x : Bytes} {n : Node}
    (hi : Inside root Δ (.exprLet h kl ki e (.exprAttrs h' (.binds hb bs) r sta dy)))
    (hx : (setFrame sta .let_).binds x = some (n, .let_))
    (hu : ∀ v, ¬ RefersTo (.exprLet h kl ki e (.exprAttrs h' (.binds hb bs) r sta dy)) x v)
    {b : Node} (hbs : b ∈ bs) {h1 h2 : Hd} {first eq v : Node} {rest dt : List Node}
    (hbd : b = .binding h1 (.attrPath h2 (first :: rest) dt) eq v) (hfi : first.isNull = false) (hr : first.range = n.range) :
    ∃ g ∈ (runVL P fuel root).diags, g.kind = .unusedDefLet ∧ g.range = n.range ∧ g.args = [x] ∧ g.fixes ≠ [] := by
  have hrun := run_ok P hfuel (parse_wellFormed hp)
  obtain ⟨en, he, h3, h4, h5⟩ := ((entsOk (parse_wellFormed hp _ _ hi)).binds x n .let_).mp hx
  refine ⟨⟨.unusedDefLet, n.range, [x], [], unusedLetFix n.range (.exprLet h kl ki e (.exprAttrs h' (.binds hb bs) r sta dy)), [.faded]⟩, (hrun.diags _ (by simp)).mpr ⟨Δ, _, hi, ?_⟩, rfl, rfl, rfl, ?_⟩
  · refine List.mem_append_left _ (List.mem_append_right _ (List.mem_filterMap.mpr ⟨en, he, ?_⟩))
    unfold unusedDiag
    have hemp : (usesIn (.exprLet h kl ki e (.exprAttrs h' (.binds hb bs) r sta dy)) en.1).isEmpty = true := by
      rw [List.isEmpty_iff, List.eq_nil_iff_forall_not_mem, h3]
      intro v hv
      exact hu v (mem_usesIn.mp hv)
    rw [if_pos hemp, h5, h3, h4]
    rfl
  · simp only [unusedLetFix, bindings]
    split
    · simp
    · rename_i hn
      have := List.find?_eq_none.mp hn b hbs
      rw [hbd] at this
      simp [hfi, hr] at this

end C52

/-- The fixes of the diagnostics of variable lookup. -/
def vlFixes (P : PrimOps) (src : Bytes) : List (List (List (Nat × Nat × Bytes))) :=
  match parse src with
  | some (n, _) => (runVL P 1000 n).diags.map fun g =>
      g.fixes.map fun f => f.edits.map fun e => (e.oldRange.l.offset, e.oldRange.r.offset, e.newText)
  | none => []

example : vlFixes [] b!"let a.b = 1; in 2" = [[[(4, 12, [])]]] := by decide +kernel
example : vlDiags [(b!"map", false)] b!"let map = 1; in map" = [(.primOpOverridden, 4, [b!"map"])] := by decide +kernel
example : vlDiags [(b!"map", false)] b!"let inherit (builtins) map; in map" = [(.primOpRemovablePrefix, 23, [])] := by decide +kernel
example : vlDiags [] b!"let true = 1; in true" = [(.constantOverridden, 4, [b!"true"])] := by decide +kernel
example : vlDiags [(b!"map", false)] b!"builtins.map" = [(.primOpRemovablePrefix, 0, [])] := by decide +kernel
example : vlDiags [(b!"__add", false)] b!"builtins.add" = [] := by decide +kernel
example : vlDiags [] b!"builtins.foo" = [(.primOpUnknown, 9, [b!"foo"])] := by decide +kernel
example : vlDiags [] b!"builtins.nixVersion" = [] := by decide +kernel

/-- C52. An attribute of a variable that is called `builtins` but bound in the program is reported as unknown. -/
theorem C52_shadowed_violated : vlDiags [] b!"builtins: builtins.foo" = [(.primOpUnknown, 19, [b!"foo"])] := by decide +kernel

/-- C52. The prefix is reported as removable even where the name is bound in the program, so that the fix changes the
meaning: `builtins.map` becomes the argument `map`. -/
theorem C52_captured_violated : vlDiags [(b!"map", false)] b!"map: builtins.map" =
    [(.primOpOverridden, 0, [b!"map"]), (.primOpRemovablePrefix, 5, [])] := by decide +kernel

end Verif.Props
