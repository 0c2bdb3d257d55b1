import Verif.Props.Rewrites
import Verif.Spec.Attrs
/-
C37: when the actions that pack and flatten attribute sets are offered.
-/
namespace Verif.Props
open Verif.Nixf Verif.Nixf.Syntax Node

/-- The path consists of names that are known without evaluation. -/
def Known (p : Node) : Prop := ∃ q, Attrs.StaticPath (pathNames p) q

theorem allStatic_iff {p : Node} : allStatic p = true ↔ Known p := by
  unfold allStatic Known Attrs.StaticPath
  generalize pathNames p = l
  induction l with
  | nil => exact ⟨fun _ => ⟨[], rfl⟩, fun _ => rfl⟩
  | cons a as ih =>
    simp only [List.all_cons, Bool.and_eq_true, ih]
    constructor
    · rintro ⟨h1, q, h2⟩
      obtain ⟨x, hx⟩ := Option.isSome_iff_exists.mp h1
      exact ⟨x :: q, by simp [hx, h2]⟩
    · rintro ⟨q, h⟩
      cases q with
      | nil => cases h
      | cons x q =>
        simp only [List.map_cons, List.cons.injEq] at h
        exact ⟨by rw [h.1]; rfl, q, h.2⟩

theorem plainStatic_iff {c : Node} : plainStatic c = true ↔ ∃ h p eq v, c = .binding h p eq v ∧ Known p := by
  cases c <;> simp [plainStatic, allStatic_iff]

/-- Flattening is offered exactly for bindings of a set that is not recursive and has bindings, all of them with known names, and no `inherit`. -/
theorem C37_flatten_when {src : Bytes} {b : Node} : flattenBinding src b ≠ [] ↔
    ∃ h p eq ha hb bs st dy, b = .binding h p eq (.exprAttrs ha (.binds hb bs) .null st dy) ∧ bs ≠ [] ∧ Known p ∧
      ∀ c ∈ bs, ∃ h p eq v, c = .binding h p eq v ∧ Known p := by
  constructor
  · intro hne
    unfold flattenBinding at hne
    split at hne
    · rename_i h p eq v
      split at hne
      · exact absurd rfl hne
      · rename_i bs hbs
        split at hne
        · rename_i hs
          unfold flattenable at hbs
          split at hbs
          · rename_i ha hb cs rc st dy
            split at hbs
            · rename_i hc
              simp only [Bool.and_eq_true, List.all_eq_true] at hc
              have hrc : rc = .null := by
                have := hc.1
                cases rc <;> first | rfl | cases this
              subst hrc
              exact ⟨h, p, eq, ha, hb, cs, st, dy, rfl, hbs, allStatic_iff.mp hs, fun c hcs => plainStatic_iff.mp (hc.2 c hcs)⟩
            · exact absurd rfl hbs
          · exact absurd rfl hbs
        · exact absurd rfl hne
    · exact absurd rfl hne
  · rintro ⟨h, p, eq, ha, hb, bs, st, dy, rfl, h1, h2, h3⟩
    have hf : flattenable (.exprAttrs ha (.binds hb bs) .null st dy) = bs := by
      show (if _ then bs else []) = bs
      rw [if_pos]
      simp only [Node.isNull, Bool.true_and, List.all_eq_true]
      exact fun c hc => plainStatic_iff.mpr (h3 c hc)
    unfold flattenBinding
    simp only [hf]
    cases bs with
    | nil => exact absurd rfl h1
    | cons c cs => simp [allStatic_iff.mpr h2]

/-- The attributes of the nested set that the first name of a path stands for, if all of them are known. -/
def Nested (parent : Node) (first : Bytes) (l : List Node) : Prop :=
  ∃ h hb b rc st dy a h' b' rc', parent = .exprAttrs h (.binds hb b) rc st dy ∧ a ∈ st ∧ attrName a = first ∧ attrValue a = .exprAttrs h' b' rc' l []

/-- Packing is offered exactly for bindings with two names or more, all of them known, in a set that is not recursive, if the nested set has known
attributes only; packing all bindings of the first name is offered if there are two attributes or more. -/
theorem C37_pack_when {src : Bytes} {hd hs hb : Hd} {p eq v rc : Node} {bs st dy : List Node} {first : Bytes} {x y : Node} {xs : List Node}
    (hu : ∀ a ∈ st, ∀ b ∈ st, attrName a = attrName b → a = b)
    (hp : pathNames p = x :: y :: xs) (hx : x.staticName? = some first) (ho : p.rCur.offset ≥ y.lCur.offset) :
    ((∃ act ∈ packBinding src (.binding hd p eq v) (.binds hb bs) (.exprAttrs hs (.binds hb bs) rc st dy), act.title = b!"Pack dotted path to nested set") ↔
      Known p ∧ rc = .null ∧ ∃ l, Nested (.exprAttrs hs (.binds hb bs) rc st dy) first l ∧ 1 ≤ l.length) ∧
    ((∃ act ∈ packBinding src (.binding hd p eq v) (.binds hb bs) (.exprAttrs hs (.binds hb bs) rc st dy), act.title = b!"Pack all '" ++ first ++ b!"' bindings to nested set") ↔
      Known p ∧ rc = .null ∧ ∃ l, Nested (.exprAttrs hs (.binds hb bs) rc st dy) first l ∧ 2 ≤ l.length) := by
  have hN : ∀ l, Nested (.exprAttrs hs (.binds hb bs) rc st dy) first l ↔
      ∃ h' b' rc', nestedOf first (.exprAttrs hs (.binds hb bs) rc st dy) = some (.exprAttrs h' b' rc' l []) := by
    intro l
    constructor
    · rintro ⟨_, _, _, _, _, _, a, h', b', rc', he, ha, hn, hv⟩
      cases he
      have hf : findStatic first st = some a := by
        unfold findStatic
        rcases hfind : st.find? (fun a => attrName a == first) with _ | c
        · have := List.find?_eq_none.mp hfind a ha
          simp [hn] at this
        · have h1 := List.mem_of_find?_eq_some hfind
          have h2 := List.find?_some hfind
          rw [hu c h1 a ha (by rw [hn]; simpa using h2)]
      exact ⟨h', b', rc', by unfold nestedOf; simp only [semaStatic, hf]; rw [hv]; rfl⟩
    · rintro ⟨h', b', rc', h⟩
      unfold nestedOf at h
      split at h
      · cases h
      · rename_i a ha
        split at h
        · have h1 := List.mem_of_find?_eq_some ha
          have h2 := List.find?_some ha
          exact ⟨_, _, _, _, _, _, a, h', b', rc', rfl, h1, by simpa using h2, Option.some.inj h⟩
        · cases h
  have hcount : ∀ k, 1 ≤ k → (k ≤ siblingCount first (.exprAttrs hs (.binds hb bs) rc st dy) ↔
      ∃ l, Nested (.exprAttrs hs (.binds hb bs) rc st dy) first l ∧ k ≤ l.length) := by
    intro k hk
    unfold siblingCount
    constructor
    · intro h
      split at h
      · omega
      · rename_i a ha
        split at h
        · rename_i hd'
          have hka : isKind .ExprAttrs a = true := by
            unfold nestedOf at ha
            split at ha
            · cases ha
            · split at ha
              · rename_i hkk; cases ha; exact hkk
              · cases ha
          cases a <;> try cases hka
          rename_i h' b' rc' l d'
          have : d' = [] := by simpa [semaDynamic] using hd'
          subst this
          exact ⟨l, (hN l).mpr ⟨h', b', rc', ha⟩, h⟩
        · omega
    · rintro ⟨l, hl, hlen⟩
      obtain ⟨h', b', rc', ha⟩ := (hN l).mp hl
      rw [ha]
      simpa [semaDynamic, semaStatic] using hlen
  have hone : packOne src hd p v ≠ [] ∧ ∀ act ∈ packOne src hd p v, act.title = b!"Pack dotted path to nested set" := by
    have : (packOneText src p v).isEmpty = false := by
      unfold packOneText
      rw [hp]
      simp only
      rw [if_neg (by omega)]
      simp
    unfold packOne
    simp only [this]
    simp
  have hmain : packBinding src (.binding hd p eq v) (.binds hb bs) (.exprAttrs hs (.binds hb bs) rc st dy) =
      if allStatic p = false ∨ rc.isNull = false then []
      else if siblingCount first (.exprAttrs hs (.binds hb bs) rc st dy) = 0 then []
      else if siblingCount first (.exprAttrs hs (.binds hb bs) rc st dy) = 1 then packOne src hd p v
      else
        match nestedOf first (.exprAttrs hs (.binds hb bs) rc st dy) with
        | none => []
        | some nested =>
          packOne src hd p v ++
            [⟨b!"Pack all '" ++ first ++ b!"' bindings to nested set", siblingsRange first hd.range bs,
              quoteNixAttrKey first ++ b!" = " ++ shallowText src first bs ++ b!";"⟩,
             ⟨b!"Recursively pack all '" ++ first ++ b!"' bindings to nested set", siblingsRange first hd.range bs,
              quoteNixAttrKey first ++ b!" = " ++ nestedText src 101 (semaStatic nested) ++ b!";"⟩] := by
    unfold packBinding
    simp only [hp]
    rw [hx]
    rfl
  have hrc : rc.isNull = true ↔ rc = .null := by cases rc <;> simp [Node.isNull]
  have c1 := hcount 1 (le_refl _)
  have c2 := hcount 2 (by omega)
  rw [hmain, ← c1, ← c2, ← allStatic_iff, ← hrc]
  generalize siblingCount first _ = cnt at *
  by_cases h1 : allStatic p = false ∨ rc.isNull = false
  · rw [if_pos h1]
    constructor
    · constructor
      · rintro ⟨_, h, _⟩; cases h
      · rintro ⟨h2, h3, _⟩; rcases h1 with h1 | h1 <;> simp_all
    · constructor
      · rintro ⟨_, h, _⟩; cases h
      · rintro ⟨h2, h3, _⟩; rcases h1 with h1 | h1 <;> simp_all
  rw [if_neg h1]
  have h1' : allStatic p = true ∧ rc.isNull = true := by
    constructor
    · by_contra h; exact h1 (.inl (by simpa using h))
    · by_contra h; exact h1 (.inr (by simpa using h))
  obtain ⟨act, hact⟩ := List.exists_mem_of_ne_nil _ hone.1
  by_cases h2 : cnt = 0
  · rw [if_pos h2]
    refine ⟨⟨fun ⟨_, h, _⟩ => (nomatch h), fun h => by omega⟩, ⟨fun ⟨_, h, _⟩ => (nomatch h), fun h => by omega⟩⟩
  rw [if_neg h2]
  by_cases h3 : cnt = 1
  · rw [if_pos h3]
    refine ⟨⟨fun _ => ⟨h1'.1, h1'.2, by omega⟩, fun _ => ⟨act, hact, hone.2 act hact⟩⟩, ⟨fun ⟨a, h, ht⟩ => ?_, fun h => by omega⟩⟩
    rw [hone.2 a h] at ht
    simp at ht
  rw [if_neg h3]
  have hsome : ∃ nested, nestedOf first (.exprAttrs hs (.binds hb bs) rc st dy) = some nested := by
    obtain ⟨l, hl, -⟩ := c2.mp (by omega)
    obtain ⟨h', b', rc', ha⟩ := (hN l).mp hl
    exact ⟨_, ha⟩
  obtain ⟨nested, hn⟩ := hsome
  rw [hn]
  refine ⟨⟨fun _ => ⟨h1'.1, h1'.2, by omega⟩, fun _ => ⟨act, List.mem_append_left _ hact, hone.2 act hact⟩⟩,
    ⟨fun _ => ⟨h1'.1, h1'.2, by omega⟩, fun _ => ⟨_, List.mem_append_right _ List.mem_cons_self, rfl⟩⟩⟩

/-- The titles of the actions on a set. -/
noncomputable def titles (f : Bytes → PMap → Nat → Node → Option (List Action)) (src : Bytes) (column : Nat) : List Bytes :=
  (actionsAt (fun pm _ fuel n => f src pm fuel n) src column).map fun a => a.title

example : titles addFlattenAttrsAction b!"{ a = { b = 1; c.d = 2; }; }" 3 = [b!"Flatten nested attribute set"] ∧
    titles addFlattenAttrsAction b!"{ a = { }; }" 3 = [] ∧ titles addFlattenAttrsAction b!"{ a = rec { b = 1; }; }" 3 = [] ∧
    titles addFlattenAttrsAction b!"x: { a = { ${x} = 1; }; }" 6 = [] ∧ titles addFlattenAttrsAction b!"x: { ${x} = { a = 1; }; }" 9 = [] ∧
    titles addFlattenAttrsAction b!"x: { a = { inherit x; }; }" 6 = [] := by decide +kernel
example : titles addPackAttrsAction b!"{ a.b = 1; }" 3 = [b!"Pack dotted path to nested set"] ∧
    titles addPackAttrsAction b!"{ a.b = 1; a.c = 2; }" 3 = [b!"Pack dotted path to nested set", b!"Pack all 'a' bindings to nested set",
      b!"Recursively pack all 'a' bindings to nested set"] ∧
    titles addPackAttrsAction b!"x: { a.b = 1; a.${x} = 2; }" 6 = [] ∧ titles addPackAttrsAction b!"rec { a.b = 1; }" 7 = [] ∧
    titles addPackAttrsAction b!"{ a = 1; }" 3 = [] := by decide +kernel

end Verif.Props
