import Verif.Spec.Scope
import Verif.Lemmas.SemaAt
/-
Definitions of a scope, visited nodes, and the maps of variable lookup.
-/
namespace Verif.Nixf.Scoping

/-! ### Maps -/

theorem keyFind_cons {α : Type} {x : Bytes} {p : Bytes × α} {m : List (Bytes × α)} :
    keyFind x (p :: m) = if p.1 = x then some p.2 else keyFind x m := by
  unfold keyFind
  rw [List.find?_cons]
  by_cases h : p.1 = x
  · simp [h]
  · rw [beq_eq_false_iff_ne.mpr h]
    simp [h]

theorem keyFind_nil {α : Type} {x : Bytes} : keyFind x ([] : List (Bytes × α)) = none := rfl

theorem keyFind_none {α : Type} {x : Bytes} {m : List (Bytes × α)} : keyFind x m = none ↔ ∀ p ∈ m, p.1 ≠ x := by
  unfold keyFind
  simp

theorem keyFind_mem {α : Type} {x : Bytes} {d : α} {m : List (Bytes × α)} (h : keyFind x m = some d) : (x, d) ∈ m := by
  unfold keyFind at h
  rcases hf : m.find? (fun p => p.1 == x) with _ | p
  · simp [hf] at h
  · simp [hf] at h
    have h1 := List.find?_some hf
    have h2 := List.mem_of_find?_eq_some hf
    simp at h1
    rw [← h1, ← h]
    exact h2

theorem keyFind_insertKey {α : Type} {x : Bytes} {p : Bytes × α} {m : List (Bytes × α)} (hp : keyFind p.1 m = none) :
    keyFind x (insertKey p m) = if p.1 = x then some p.2 else keyFind x m := by
  induction m with
  | nil => simp [insertKey, keyFind_cons]
  | cons q qs ih =>
    rw [insertKey]
    rw [keyFind_cons] at hp
    split at hp
    · cases hp
    · rename_i hq
      split
      · rw [keyFind_cons]
      · rw [keyFind_cons, ih hp, keyFind_cons]
        by_cases h1 : p.1 = x
        · rw [h1] at hq
          simp [h1, hq]
        · simp [h1]

theorem any_key {α : Type} {x : Bytes} {m : List (Bytes × α)} :
    m.any (fun p => p.1 == x) = (keyFind x m).isSome := by
  unfold keyFind
  rw [Option.isSome_map, Bool.eq_iff_iff]
  simp

theorem ptrFind_mem {α : Type} {i : Nat} {d : α} {m : List (Nat × α)} (h : ptrFind i m = some d) : (i, d) ∈ m := by
  unfold ptrFind at h
  rcases hf : m.find? (fun p => p.1 == i) with _ | p
  · simp [hf] at h
  · simp [hf] at h
    have h1 := List.find?_some hf
    have h2 := List.mem_of_find?_eq_some hf
    simp at h1
    rw [← h1, ← h]
    exact h2

theorem ptrFind_none {α : Type} {i : Nat} {m : List (Nat × α)} : ptrFind i m = none ↔ ∀ p ∈ m, p.1 ≠ i := by
  unfold ptrFind
  simp

theorem ptrFind_some_of_mem {α : Type} {i : Nat} {d : α} {m : List (Nat × α)} (h : (i, d) ∈ m) :
    ∃ e, ptrFind i m = some e := by
  rcases hf : ptrFind i m with _ | e
  · exact absurd rfl (ptrFind_none.mp hf _ h)
  · exact ⟨e, rfl⟩

theorem ptrFind_append {α : Type} {i : Nat} {m l : List (Nat × α)} :
    ptrFind i (m ++ l) = (ptrFind i m).or (ptrFind i l) := by
  unfold ptrFind
  rw [List.find?_append]
  cases m.find? (fun p => p.1 == i) <;> simp

theorem ptrFind_assign {α : Type} {i j : Nat} {d : α} {m : List (Nat × α)} :
    ptrFind i (ptrAssign j d m) = if j = i then some d else ptrFind i m := by
  unfold ptrFind ptrAssign
  rw [List.find?_cons]
  by_cases h : j = i
  · simp [h]
  · have : (List.filter (fun p => p.1 != j) m).find? (fun p => p.1 == i) = m.find? (fun p => p.1 == i) := by
      rw [List.find?_filter]
      congr 1
      funext p
      by_cases hp : p.1 = i
      · simp [hp, Ne.symm h]
      · simp [hp]
    rw [beq_eq_false_iff_ne.mpr h]
    simp [h, this]

theorem mem_ptrInsert {α : Type} {k : Nat} {v : α} {m : List (Nat × α)} {p : Nat × α} (h : p ∈ ptrInsert k v m) :
    p ∈ m ∨ p = (k, v) := by
  unfold ptrInsert at h
  split at h
  · exact .inl h
  · simpa using h

theorem ptrInsert_sub {α : Type} {k : Nat} {v : α} {m : List (Nat × α)} {p : Nat × α} (h : p ∈ m) : p ∈ ptrInsert k v m := by
  unfold ptrInsert
  split
  · exact h
  · exact List.mem_append_left _ h

theorem ptrInsert_has {α : Type} (k : Nat) (v : α) (m : List (Nat × α)) : ∃ w, (k, w) ∈ ptrInsert k v m := by
  unfold ptrInsert
  split
  · rename_i h
    obtain ⟨p, hp, he⟩ := List.any_eq_true.mp h
    simp at he
    exact ⟨p.2, he ▸ hp⟩
  · exact ⟨v, by simp⟩

/-! ### Visited nodes -/

theorem attrValue_size (a : Node) : sizeOf (attrValue a) < 1 + sizeOf a := by
  cases a <;> simp [attrValue] <;> omega
theorem attrKey_size (a : Node) : sizeOf (attrKey a) < 1 + sizeOf a := by
  cases a <;> simp [attrKey] <;> omega
theorem formalDefault_size (a : Node) : sizeOf (formalDefault a) < 1 + sizeOf a := by
  cases a <;> simp [formalDefault] <;> omega

theorem mem_size {a : Node} {l : List Node} (h : a ∈ l) : sizeOf a < sizeOf l := List.sizeOf_lt_of_mem h

theorem formalMembers_size {f m : Node} (h : m ∈ formalMembers f) : sizeOf m < sizeOf f := by
  unfold formalMembers at h
  split at h
  · have := mem_size h
    simp
    omega
  · cases h

theorem attrParts_size {r : Bool} {st dy : List Node} {p : Bool × Node} (h : p ∈ attrParts r st dy) :
    sizeOf p.2 < 1 + sizeOf st ∨ sizeOf p.2 < 1 + sizeOf dy := by
  unfold attrParts at h
  rw [List.mem_append] at h
  rcases h with h | h
  · simp only [List.mem_map, List.mem_filter] at h
    obtain ⟨a, ⟨h1, -⟩, rfl⟩ := h
    have := mem_size h1
    have := attrValue_size a
    simp
    omega
  · simp only [List.mem_flatMap, List.mem_filter] at h
    obtain ⟨a, ⟨h1, -⟩, h⟩ := h
    have h2 := mem_size h1
    have := attrValue_size a
    have := attrKey_size a
    simp only [List.mem_cons, List.not_mem_nil, or_false] at h
    rcases h with rfl | rfl <;> simp <;> omega

theorem inScope_mem {e : Node} {p : Bool × Node} : p ∈ inScope e ↔ e.isNull = false ∧ p = (true, e) := by
  unfold inScope
  cases e.isNull <;> simp

theorem children_size {n c : Node} (h : c ∈ n.children) : sizeOf c < sizeOf n := by
  unfold Node.children at h
  have h := List.mem_of_mem_filter h
  cases n <;> simp at h
  case parts | binds | formals | exprList => have := mem_size h; simp; omega
  case attrPath =>
    rcases h with h | h <;> have := mem_size h <;> simp <;> omega
  case inherit =>
    rcases h with h | h
    · have := mem_size h; simp; omega
    · simp [h]; omega
  case exprCall =>
    rcases h with h | h
    · simp [h]; omega
    · have := mem_size h; simp; omega
  case formal h' a i d e =>
    split at h
    · simp at h
      rcases h with rfl | rfl <;> simp <;> omega
    · simp at h
      subst h
      simp
      omega
  all_goals first
    | (subst h; simp <;> omega)
    | (rcases h with rfl | rfl <;> simp <;> omega)
    | (rcases h with rfl | rfl | rfl <;> simp <;> omega)
    | (rcases h with rfl | rfl | rfl | rfl <;> simp <;> omega)

theorem parts_size {n : Node} {p : Bool × Node} (h : p ∈ parts n) : sizeOf p.2 < sizeOf n := by
  unfold parts at h
  split at h
  · cases h
  · split at h
    · cases h
    · rename_i hh h1 i f e he
      rw [List.mem_append] at h
      rcases h with h | h
      · obtain ⟨m, hm, h⟩ := List.mem_flatMap.mp h
        obtain ⟨-, rfl⟩ := inScope_mem.mp h
        have := formalMembers_size hm
        have := formalDefault_size m
        simp
        omega
      · simp at h
        subst h
        simp
        omega
  · cases h
  · rcases attrParts_size h with h | h <;> simp <;> omega
  · rw [List.mem_append] at h
    rcases h with h | h
    · rcases attrParts_size h with h | h <;> simp <;> omega
    · obtain ⟨-, rfl⟩ := inScope_mem.mp h
      simp
      omega
  · obtain ⟨-, rfl⟩ := inScope_mem.mp h
    simp
    omega
  · simp at h
    subst h
    simp
    omega
  · cases h
  · rw [List.mem_append] at h
    rcases h with h | h
    · split at h
      · cases h
      · simp at h
        subst h
        simp
        omega
    · obtain ⟨-, rfl⟩ := inScope_mem.mp h
      simp
      omega
  · obtain ⟨c, hc, rfl⟩ := List.mem_map.mp h
    exact children_size hc

/-- The nodes visited below a node, with the binders in between, in order. -/
def vis (n : Node) : List (List Frame × Node) :=
  ([], n) :: (parts n).attach.flatMap fun p =>
    (vis p.1.2).map fun q => (if p.1.1 then q.1 ++ [frameOf n] else q.1, q.2)
termination_by sizeOf n
decreasing_by exact parts_size p.2

theorem vis_eq (n : Node) : vis n = ([], n) :: (parts n).flatMap fun p =>
    (vis p.2).map fun q => (if p.1 then q.1 ++ [frameOf n] else q.1, q.2) := by
  rw [vis]
  congr 1
  conv_rhs => rw [← List.attach_map_subtype_val (parts n), List.flatMap_map]

theorem mem_vis_of_inside {n m : Node} {Δ : List Frame} (h : Inside n Δ m) : (Δ, m) ∈ vis n := by
  induction h with
  | here n => rw [vis_eq]; exact List.mem_cons_self
  | outer n c Δ m hc _ ih =>
    rw [vis_eq]
    refine List.mem_cons_of_mem _ (List.mem_flatMap.mpr ⟨_, hc, List.mem_map.mpr ⟨_, ih, ?_⟩⟩)
    simp
  | inner n c Δ m hc _ ih =>
    rw [vis_eq]
    refine List.mem_cons_of_mem _ (List.mem_flatMap.mpr ⟨_, hc, List.mem_map.mpr ⟨_, ih, ?_⟩⟩)
    simp

theorem inside_of_mem_vis : ∀ {n m : Node} {Δ : List Frame}, (Δ, m) ∈ vis n → Inside n Δ m := by
  intro n
  induction hk : sizeOf n using Nat.strongRecOn generalizing n with
  | _ k ih =>
    intro m Δ h
    rw [vis_eq, List.mem_cons] at h
    rcases h with h | h
    · cases h
      exact .here _
    · obtain ⟨⟨b, c⟩, hc, h⟩ := List.mem_flatMap.mp h
      obtain ⟨⟨Δ', m'⟩, hm, he⟩ := List.mem_map.mp h
      have hi := ih (sizeOf c) (hk ▸ parts_size hc) rfl hm
      cases b
      · simp at he
        obtain ⟨rfl, rfl⟩ := he
        exact .outer _ _ _ _ hc hi
      · simp at he
        obtain ⟨rfl, rfl⟩ := he
        exact .inner _ _ _ _ hc hi

theorem mem_vis {n m : Node} {Δ : List Frame} : (Δ, m) ∈ vis n ↔ Inside n Δ m := ⟨inside_of_mem_vis, mem_vis_of_inside⟩

/-- `Free` as a test. -/
def free (Δ : List Frame) (x : Bytes) : Bool := Δ.all fun f => (f.binds x).isNone

theorem free_iff {Δ : List Frame} {x : Bytes} : free Δ x = true ↔ Free Δ x := by
  unfold free Free
  simp

theorem free_append {Δ Γ : List Frame} {x : Bytes} : free (Δ ++ Γ) x = (free Δ x && free Γ x) := by
  unfold free
  rw [List.all_append]

theorem free_iff_resolve {Δ : List Frame} {x : Bytes} : free Δ x = true ↔ resolve Δ x = none := by
  unfold free resolve
  simp

/-- The nodes in the scope of a binder. -/
def inner (n : Node) : List (List Frame × Node) := (parts n).flatMap fun p => if p.1 then vis p.2 else []

/-- The uses of a name bound by a node. -/
def usesIn (n : Node) (x : Bytes) : List Node :=
  (inner n).filterMap fun p => if isVar p.2 && varName p.2 == x && free p.1 x then some p.2 else none

theorem mem_usesIn {n v : Node} {x : Bytes} : v ∈ usesIn n x ↔ RefersTo n x v := by
  unfold usesIn inner RefersTo Occurs
  simp only [List.mem_filterMap, List.mem_flatMap]
  constructor
  · rintro ⟨⟨Δ, m⟩, ⟨⟨b, c⟩, hc, h⟩, he⟩
    cases b
    · simp at h
    · simp at h
      simp only [Option.ite_none_right_eq_some, Bool.and_eq_true, beq_iff_eq, Option.some.injEq] at he
      obtain ⟨⟨⟨h1, h2⟩, h3⟩, rfl⟩ := he
      exact ⟨c, Δ, hc, ⟨mem_vis.mp h, h1⟩, h2, free_iff.mp h3⟩
  · rintro ⟨c, Δ, hc, ⟨hi, h1⟩, h2, h3⟩
    refine ⟨(Δ, v), ⟨(true, c), hc, by simpa using mem_vis.mpr hi⟩, ?_⟩
    simp [h1, h2, free_iff.mpr h3]

/-! ### The definitions of a scope -/

/-- A definition to be made: name, node, source, and whether it is inherited from `builtins`. -/
abbrev Ent := Bytes × Node × DefSource × Bool

def lambdaEnts (i f : Node) : List Ent :=
  (if i.isNull then []
    else if f.isNull then [(i.name, i, .lambdaArg, false)]
    else if (dedup (formalMembers f)).any (fun p => p.1 == i.name) then []
    else [(i.name, i, .lambdaWithArgArg, false)]) ++
  (if f.isNull then []
    else (dedup (formalMembers f)).map fun p =>
      (p.1, formalID p.2, if i.isNull then .lambdaNoArgFormal else .lambdaWithArgFormal, false))

def setEnts (st : List Node) (src : DefSource) : List Ent :=
  st.map fun a => (attrName a, attrKey a, src, checkInheritedFromBuiltin a)

/-- The definitions made by a node. -/
def entsOf : Node → List Ent
  | .exprLambda _ (.lambdaArg _ i f) e => if e.isNull then [] else lambdaEnts i f
  | .exprAttrs _ _ r st _ => if r.isNull then [] else setEnts st .rec_
  | .exprLet _ _ _ _ (.exprAttrs _ _ _ st _) => setEnts st .let_
  | _ => []

/-- `addDef` for a list. -/
def addAll (P : PrimOps) (L : List Ent) (ms : List (Bytes × Nat) × VL) : List (Bytes × Nat) × VL :=
  L.foldl (fun ms e => addDef P e.1 e.2.1 e.2.2.1 e.2.2.2 ms.1 ms.2) ms

theorem lambdaDefs_eq (P : PrimOps) (i f : Node) (s : VL) : lambdaDefs P i f s = addAll P (lambdaEnts i f) ([], s) := by
  unfold lambdaDefs lambdaEnts addAll
  rw [List.foldl_append]
  by_cases hi : i.isNull = true <;> by_cases hf : f.isNull = true <;> simp [hi, hf, List.foldl_map]
  split <;> simp

theorem attrsDefs_eq (P : PrimOps) (st : List Node) (src : DefSource) (s : VL) :
    attrsDefs P st src s = addAll P (setEnts st src) ([], s) := by
  unfold attrsDefs setEnts addAll
  rw [List.foldl_map]

/-- The diagnostics of one definition. -/
def addDiags (P : PrimOps) (e : Ent) : List Diagnostic :=
  (if lookupPrimOp P e.1 = .found ∧ e.2.2.2 = false then
    [{ kind := .primOpOverridden, range := e.2.1.range, args := [e.1] }] else []) ++
  (if constants.contains e.1 then [{ kind := .constantOverridden, range := e.2.1.range, args := [e.1] }] else [])

/-- The effect of `addAll`. -/
structure Added (P : PrimOps) (L : List Ent) (m : List (Bytes × Nat)) (s : VL) (m' : List (Bytes × Nat)) (s' : VL) : Prop where
  store : s'.store = s.store ++ L.map fun e => ⟨e.2.1, e.2.2.1, []⟩
  find : ∀ x d, keyFind x m' = some d ↔
    keyFind x m = some d ∨ ∃ i e, L[i]? = some e ∧ e.1 = x ∧ d = s.store.length + i
  mem : ∀ x d, (x, d) ∈ m' ↔ (x, d) ∈ m ∨ ∃ i e, L[i]? = some e ∧ e.1 = x ∧ d = s.store.length + i
  diags : s'.diags = s.diags ++ L.flatMap (addDiags P)
  toDefFrom : ∀ j, ptrFind j s'.toDef = ptrFind j s.toDef ∨
    ∃ i e, L[i]? = some e ∧ e.2.1.id = j ∧ ptrFind j s'.toDef = some (s.store.length + i)
  toDefHas : ∀ e ∈ L, ∃ d, ptrFind e.2.1.id s'.toDef = some d
  rest : s'.withDefs = s.withDefs ∧ s'.results = s.results ∧ s'.withScopes = s.withScopes ∧ s'.bad = s.bad ∧
    s'.deep = s.deep ∧ s'.envs = s.envs

theorem addDef_added {P : PrimOps} {e : Ent} {m : List (Bytes × Nat)} {s : VL} (h : keyFind e.1 m = none) :
    Added P [e] m s (addDef P e.1 e.2.1 e.2.2.1 e.2.2.2 m s).1 (addDef P e.1 e.2.1 e.2.2.1 e.2.2.2 m s).2 := by
  have hd : m.any (fun p => p.1 == e.1) = false := by rw [any_key, h]; rfl
  have hs : ∀ s : VL, s.store = s.store := fun _ => rfl
  obtain ⟨x, n, src, fb⟩ := e
  simp only at h hd
  unfold addDef
  simp only [hd, Bool.or_false]
  constructor
  · simp only [VL.alloc, VL.emit]
    split <;> split <;> simp
  · intro y d
    rw [show (if false = true then m else insertKey (x, _) m) = insertKey (x, _) m from rfl, keyFind_insertKey h]
    have : (∃ i e, [((x, n, src, fb) : Ent)][i]? = some e ∧ e.1 = y ∧ d = s.store.length + i) ↔ x = y ∧ d = s.store.length := by
      constructor
      · rintro ⟨i, e, h1, h2, h3⟩
        rw [List.getElem?_singleton] at h1
        split at h1
        · rename_i hi
          subst hi
          cases h1
          exact ⟨h2, h3⟩
        · cases h1
      · rintro ⟨rfl, rfl⟩
        exact ⟨0, _, rfl, rfl, rfl⟩
    rw [this]
    have hl : ∀ (a b : Prop) [Decidable a] [Decidable b] (f g : VL → VL), (∀ s, (f s).store = s.store) → (∀ s, (g s).store = s.store) →
        (if b then g (if a then f s else s) else (if a then f s else s)).store.length = s.store.length := by
      intro a b _ _ f g hf hg
      split <;> split <;> simp [hf, hg]
    rw [hl _ _ (fun s => s.emit _) (fun s => s.emit _) (fun _ => rfl) (fun _ => rfl)]
    by_cases hxy : x = y
    · subst hxy
      simp [h, eq_comm]
    · simp [hxy]
  · intro y d
    rw [show (if false = true then m else insertKey (x, _) m) = insertKey (x, _) m from rfl, mem_insertKey]
    have hl : ∀ (a b : Prop) [Decidable a] [Decidable b] (f g : VL → VL), (∀ s, (f s).store = s.store) → (∀ s, (g s).store = s.store) →
        (if b then g (if a then f s else s) else (if a then f s else s)).store.length = s.store.length := by
      intro a b _ _ f g hf hg
      split <;> split <;> simp [hf, hg]
    rw [hl _ _ (fun s => s.emit _) (fun s => s.emit _) (fun _ => rfl) (fun _ => rfl)]
    constructor
    · rintro (h | h)
      · cases h
        exact .inr ⟨0, _, rfl, rfl, rfl⟩
      · exact .inl h
    · rintro (h | ⟨i, e, h1, h2, h3⟩)
      · exact .inr h
      · rw [List.getElem?_singleton] at h1
        split at h1
        · rename_i hi
          subst hi
          cases h1
          left
          rw [← h2, h3]
          rfl
        · cases h1
  · simp only [VL.alloc, VL.emit, addDiags, List.flatMap_cons, List.flatMap_nil, List.append_nil]
    split <;> split <;> simp
  · intro j
    have hl : ∀ (a b : Prop) [Decidable a] [Decidable b] (f g : VL → VL), (∀ s, (f s).store = s.store) → (∀ s, (g s).store = s.store) →
        (if b then g (if a then f s else s) else (if a then f s else s)).store.length = s.store.length := by
      intro a b _ _ f g hf hg
      split <;> split <;> simp [hf, hg]
    rw [hl _ _ (fun s => s.emit _) (fun s => s.emit _) (fun _ => rfl) (fun _ => rfl)]
    simp only [ptrFind_assign]
    by_cases hj : n.id = j
    · right
      refine ⟨0, _, rfl, hj, ?_⟩
      rw [if_pos hj]
      rfl
    · left
      rw [if_neg hj]
      simp only [VL.emit]
      split <;> split <;> rfl
  · intro e he
    simp at he
    subst he
    simp only [ptrFind_assign, if_true]
    exact ⟨_, rfl⟩
  · simp only [VL.alloc, VL.emit]
    split <;> split <;> simp

theorem addAll_added {P : PrimOps} : ∀ {L : List Ent} {m : List (Bytes × Nat)} {s : VL}, (L.map (·.1)).Nodup →
    (∀ e ∈ L, keyFind e.1 m = none) → Added P L m s (addAll P L (m, s)).1 (addAll P L (m, s)).2 := by
  intro L
  induction L with
  | nil =>
    intro m s _ _
    simp only [addAll, List.foldl_nil]
    exact ⟨by simp, by simp, by simp, by simp, fun j => .inl rfl, by simp, ⟨rfl, rfl, rfl, rfl, rfl, rfl⟩⟩
  | cons e L ih =>
    intro m s hn hm
    have ha := addDef_added (P := P) (s := s) (hm e List.mem_cons_self)
    rw [List.map_cons, List.nodup_cons] at hn
    show Added P (e :: L) m s (addAll P L (addDef P e.1 e.2.1 e.2.2.1 e.2.2.2 m s)).1 (addAll P L (addDef P e.1 e.2.1 e.2.2.1 e.2.2.2 m s)).2
    generalize addDef P e.1 e.2.1 e.2.2.1 e.2.2.2 m s = ms at ha
    obtain ⟨m1, s1⟩ := ms
    simp only at ha
    have hm1 : ∀ e' ∈ L, keyFind e'.1 m1 = none := by
      intro e' he'
      rcases hk : keyFind e'.1 m1 with _ | d
      · rfl
      · exfalso
        rcases (ha.find _ _).mp hk with h | ⟨i, e2, h1, h2, h3⟩
        · rw [hm e' (List.mem_cons_of_mem _ he')] at h
          cases h
        · rw [List.getElem?_singleton] at h1
          split at h1
          · cases h1
            exact hn.1 (h2 ▸ List.mem_map_of_mem he')
          · cases h1
    have hi := ih (s := s1) hn.2 hm1
    generalize addAll P L (m1, s1) = ms2 at hi
    obtain ⟨m2, s2⟩ := ms2
    simp only at hi ⊢
    have hl : s1.store.length = s.store.length + 1 := by rw [ha.store]; simp
    have hx : ∀ (Q : Ent → Prop) (d : Nat), (∃ i e', (e :: L)[i]? = some e' ∧ Q e' ∧ d = s.store.length + i) ↔
        (∃ i e', [e][i]? = some e' ∧ Q e' ∧ d = s.store.length + i) ∨ ∃ i e', L[i]? = some e' ∧ Q e' ∧ d = s1.store.length + i := by
      intro Q d
      constructor
      · rintro ⟨i, e', h1, h2, h3⟩
        cases i with
        | zero => exact .inl ⟨0, e', h1, h2, h3⟩
        | succ i => exact .inr ⟨i, e', by simpa using h1, h2, by omega⟩
      · rintro (⟨i, e', h1, h2, h3⟩ | ⟨i, e', h1, h2, h3⟩)
        · rw [List.getElem?_singleton] at h1
          split at h1
          · rename_i hi0
            subst hi0
            exact ⟨0, e', h1, h2, h3⟩
          · cases h1
        · exact ⟨i + 1, e', by simpa using h1, h2, by omega⟩
    constructor
    · rw [hi.store, ha.store]
      simp
    · intro x d
      rw [hi.find, ha.find, hx (fun e' => e'.1 = x), or_assoc]
    · intro x d
      rw [hi.mem, ha.mem, hx (fun e' => e'.1 = x), or_assoc]
    · rw [hi.diags, ha.diags]
      simp
    · intro j
      rcases hi.toDefFrom j with h | ⟨i, e', h1, h2, h3⟩
      · rcases ha.toDefFrom j with h' | ⟨i, e', h1, h2, h3⟩
        · exact .inl (h.trans h')
        · obtain ⟨i', e2, h1', h2', h3'⟩ := (hx (fun e' => e'.2.1.id = j) (s.store.length + i)).mpr (.inl ⟨i, e', h1, h2, rfl⟩)
          exact .inr ⟨i', e2, h1', h2', by rw [h, h3, h3']⟩
      · obtain ⟨i', e2, h1', h2', h3'⟩ := (hx (fun e' => e'.2.1.id = j) (s1.store.length + i)).mpr (.inr ⟨i, e', h1, h2, rfl⟩)
        exact .inr ⟨i', e2, h1', h2', by rw [h3, h3']⟩
    · intro e' he'
      rcases List.mem_cons.mp he' with rfl | he'
      · rcases hi.toDefFrom e'.2.1.id with h | ⟨_, _, _, _, h⟩
        · rw [h]
          exact ha.toDefHas _ (by simp)
        · exact ⟨_, h⟩
      · exact hi.toDefHas _ he'
    · obtain ⟨a1, a2, a3, a4, a5, a6⟩ := ha.rest
      obtain ⟨b1, b2, b3, b4, b5, b6⟩ := hi.rest
      exact ⟨b1.trans a1, b2.trans a2, b3.trans a3, b4.trans a4, b5.trans a5, b6.trans a6⟩

end Verif.Nixf.Scoping
