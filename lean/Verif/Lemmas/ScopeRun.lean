import Verif.Lemmas.ScopeMain
/-
A run of variable lookup.
-/
namespace Verif.Nixf.Scoping

/-- The outermost frame. -/
def globalFrame (P : PrimOps) : Frame :=
  .names fun x => if globalNames P |>.contains x then some (.null, .builtin) else none

theorem mem_globalNames {P : PrimOps} {x : Bytes} : x ∈ globalNames P ↔ Global P x := by
  unfold globalNames Global
  simp only [List.mem_append, List.mem_map, List.mem_filter, List.mem_cons, List.not_mem_nil, or_false]
  constructor
  · rintro ((⟨⟨a, b⟩, ⟨h1, h2⟩, rfl⟩ | h) | h)
    · cases b
      · exact .inl h1
      · cases h2
    · exact .inr (.inl h)
    · exact .inr (.inr h)
  · rintro (h | h | h)
    · exact .inl (.inl ⟨(x, false), ⟨h, rfl⟩, rfl⟩)
    · exact .inl (.inr h)
    · exact .inr h

theorem globalFrame_none {P : PrimOps} {x : Bytes} : (globalFrame P).binds x = none ↔ ¬ Global P x := by
  rw [← mem_globalNames]
  simp [globalFrame, Frame.binds]

theorem globalFrame_some {P : PrimOps} {x : Bytes} (h : Global P x) : (globalFrame P).binds x = some (.null, .builtin) := by
  rw [← mem_globalNames] at h
  simp [globalFrame, Frame.binds, h]

/-- What is known of the initial state. -/
structure Init (ns : List Bytes) (m : List (Bytes × Nat)) (s : VL) : Prop where
  none : ∀ x, keyFind x m = none ↔ x ∉ ns
  some : ∀ x d, keyFind x m = some d → d < s.store.length
  store : ∀ d < s.store.length, s.get d = ⟨.null, .builtin, []⟩
  fields : s.diags = [] ∧ s.withDefs = [] ∧ s.toDef = [] ∧ s.results = [] ∧ s.withScopes = [] ∧ s.deep = false ∧ s.envs = []
  bad : ns.Nodup → s.bad = false
  mem : ∀ x d d', keyFind x m = Option.some d → (x, d') ∈ m → d' = d

theorem init_globals (ns : List Bytes) : Init ns (globalDefs ns [] {}).1 (globalDefs ns [] {}).2 := by
  have key : ∀ (l ns : List Bytes) (m : List (Bytes × Nat)) (s : VL), Init ns m s →
      Init (ns ++ l) (globalDefs l m s).1 (globalDefs l m s).2 := by
    intro l
    induction l with
    | nil =>
      intro ns m s h
      rw [List.append_nil]
      exact h
    | cons x l ih =>
      intro ns m s h
      have : ns ++ x :: l = (ns ++ [x]) ++ l := by simp
      rw [this]
      refine ih (ns ++ [x]) _ _ ⟨?_, ?_, ?_, ?_, ?_, ?_⟩
      · intro y
        by_cases hd : m.any (fun p => p.1 == x) = true
        · simp only [hd, if_true]
          rw [any_key, Option.isSome_iff_ne_none, Ne, h.none, Decidable.not_not] at hd
          rw [h.none]
          constructor
          · intro hy hc
            rcases List.mem_append.mp hc with hc | hc
            · exact hy hc
            · simp at hc
              subst hc
              exact hy hd
          · intro hy hc
            exact hy (List.mem_append_left _ hc)
        · simp only [hd]
          rw [any_key] at hd
          have hx : keyFind x m = Option.none := by simpa using hd
          rw [if_neg (by simp), keyFind_insertKey (p := (x, s.store.length)) hx]
          by_cases hxy : x = y
          · subst hxy; simp
          · rw [if_neg hxy, h.none]
            simp only [List.mem_append, List.mem_cons, List.not_mem_nil, or_false, not_or]
            exact ⟨fun a => ⟨a, fun b => hxy b.symm⟩, fun a => a.1⟩
      · intro y d hf
        have hl : (s.alloc ⟨.null, .builtin, []⟩).store.length = s.store.length + 1 := by simp [VL.alloc]
        show d < (s.alloc ⟨.null, .builtin, []⟩).store.length
        rw [hl]
        simp only at hf
        by_cases hd : m.any (fun p => p.1 == x) = true
        · rw [if_pos hd] at hf
          have := h.some y d hf
          omega
        · rw [if_neg hd] at hf
          rw [any_key] at hd
          have hx : keyFind x m = Option.none := by simpa using hd
          rw [keyFind_insertKey (p := (x, s.store.length)) hx] at hf
          split at hf
          · cases hf; simp
          · have := h.some y d hf
            omega
      · intro d hd
        have hs : (s.alloc ⟨.null, .builtin, []⟩).store = s.store ++ [⟨.null, .builtin, []⟩] := rfl
        show (s.alloc ⟨.null, .builtin, []⟩).store.getD d _ = _
        have hd : d < (s.alloc ⟨.null, .builtin, []⟩).store.length := hd
        rw [hs] at hd ⊢
        simp only [List.length_append, List.length_cons, List.length_nil, Nat.zero_add] at hd
        by_cases hlt : d < s.store.length
        · rw [List.getD_eq_getElem?_getD, List.getElem?_append_left hlt, ← List.getD_eq_getElem?_getD]
          exact h.store d hlt
        · have : d = s.store.length := by omega
          subst this
          rw [List.getD_eq_getElem?_getD, List.getElem?_append_right (Nat.le_refl _)]
          simp
      · exact h.fields
      · intro hn
        obtain ⟨h1, h2, h3⟩ := List.nodup_append.mp hn
        show (s.bad || m.any (fun p => p.1 == x)) = false
        rw [h.bad h1, any_key, Bool.false_or]
        have : keyFind x m = Option.none := (h.none x).mpr fun hx => h3 x hx x (by simp) rfl
        rw [this]
        rfl
      · intro y d d' hf hm
        simp only at hf hm
        by_cases hd : m.any (fun p => p.1 == x) = true
        · rw [if_pos hd] at hf hm
          exact h.mem y d d' hf hm
        · rw [if_neg hd] at hf hm
          rw [any_key] at hd
          have hx : keyFind x m = Option.none := by simpa using hd
          rw [keyFind_insertKey (p := (x, s.store.length)) hx] at hf
          rcases mem_insertKey.mp hm with hm | hm
          · cases hm
            rw [if_pos rfl] at hf
            cases hf
            rfl
          · rw [if_neg (fun hxy => keyFind_none.mp hx _ hm hxy.symm)] at hf
            exact h.mem y d d' hf hm
  have := key ns [] [] {} ⟨by simp [keyFind_nil], by simp [keyFind_nil], by simp, ⟨rfl, rfl, rfl, rfl, rfl, rfl, rfl⟩, fun _ => rfl, by simp⟩
  rw [List.nil_append] at this
  exact this

theorem resolve_append {Δ Γ : List Frame} {x : Bytes} : resolve (Δ ++ Γ) x = (resolve Δ x).or (resolve Γ x) := by
  unfold resolve
  rw [List.findSome?_append]

theorem withsOf_append {Δ Γ : List Frame} : withsOf (Δ ++ Γ) = withsOf Δ ++ withsOf Γ := by
  unfold withsOf
  rw [List.filterMap_append]

/-- The frames around a node that is below `Δ`. -/
abbrev full (P : PrimOps) (Δ : List Frame) : List Frame := Δ ++ [globalFrame P]

theorem withsOf_full {P : PrimOps} {Δ : List Frame} : withsOf (full P Δ) = withsOf Δ := by
  rw [withsOf_append]
  simp [withsOf, globalFrame]

theorem free_full {P : PrimOps} {Δ : List Frame} {x : Bytes} : free (full P Δ) x = true ↔ Free Δ x ∧ ¬ Global P x := by
  rw [free_append, Bool.and_eq_true, free_iff, free_iff]
  unfold Free
  simp only [List.mem_cons, List.not_mem_nil, or_false, forall_eq]
  rw [globalFrame_none]

theorem resolve_full {P : PrimOps} {Δ : List Frame} {x : Bytes} {n : Node} {src : DefSource} :
    resolve (full P Δ) x = some (n, src) ↔
      resolve Δ x = some (n, src) ∨ (resolve Δ x = none ∧ Global P x ∧ n = .null ∧ src = .builtin) := by
  rw [resolve_append]
  rcases hr : resolve Δ x with _ | ⟨a, b⟩
  · simp only [Option.none_or, resolve, List.findSome?_cons, List.findSome?_nil]
    by_cases hg : Global P x
    · rw [globalFrame_some hg]
      simp [hg, eq_comm]
    · rw [globalFrame_none.mpr hg]
      simp [hg]
  · simp

/-- Everything known about a run. -/
structure Run (P : PrimOps) (root : Node) (s : VL) : Prop where
  wdef : ∀ p ∈ s.withDefs, (s.get p.2).source = .with_
  winj : ∀ p ∈ s.withDefs, ∀ q ∈ s.withDefs, p.2 = q.2 → p.1 = q.1
  defs : ∀ d < s.store.length, (s.get d).source ≠ .with_ → (s.get d).source ≠ .builtin →
    ∃ Δ m x, Inside root Δ m ∧ (frameOf m).binds x = some ((s.get d).syntax_, (s.get d).source) ∧ (s.get d).uses = usesIn m x
  wuses : ∀ id, wuses s id = (vis root).flatMap fun q => wuseOf id (full P q.1, q.2)
  resSound : ∀ q ∈ s.results, ∃ Δ v, Occurs root Δ v ∧ v.id = q.1 ∧ ResOk P s (full P Δ, v) q.2
  resAll : ∀ Δ v, Occurs root Δ v → internalUse P (full P Δ, v) = false → ∃ r, (v.id, r) ∈ s.results
  wsSound : ∀ q ∈ s.withScopes, ∃ Δ v, Occurs root Δ v ∧ v.id = q.1 ∧ Free Δ (varName v) ∧ ¬ Global P (varName v) ∧
    withsOf Δ ≠ [] ∧ q.2 = (withsOf Δ).map Node.id
  wsAll : ∀ Δ v, Occurs root Δ v → Free Δ (varName v) → ¬ Global P (varName v) → withsOf Δ ≠ [] →
    ∃ l, (v.id, l) ∈ s.withScopes
  diags : ∀ g, g.kind ≠ .extraWith → (g ∈ s.diags ↔ ∃ Δ m, Inside root Δ m ∧ g ∈ ownDiags P (full P Δ, m))
  withSound : ∀ g, g.kind = .extraWith → g ∈ s.diags → ∃ Δ m, Inside root Δ m ∧ isWithN m = true ∧ g = withDiag m ∧
    ∀ v, ¬ MayComeFrom P Δ m v
  withAll : ∀ Δ m, Inside root Δ m → isWithN m = true → Scoping.wuses s m.id = [] → withDiag m ∈ s.diags
  bad : (globalNames P).Nodup → (s.bad = true ↔ ∃ Δ v, Inside root Δ v ∧ internalUse P (full P Δ, v) = true)
  deep : s.deep = false
  toDefFrom : ∀ j d, ptrFind j s.toDef = some d → d < s.store.length ∧ (s.get d).syntax_.id = j ∧ (s.get d).source ≠ .builtin
  toDefHas : ∀ d, d < s.store.length → (s.get d).source ≠ .builtin → ∃ d', ptrFind (s.get d).syntax_.id s.toDef = some d'
  defAll : ∀ Δ m x q, Inside root Δ m → (frameOf m).binds x = some q →
    ∃ d, d < s.store.length ∧ q = ((s.get d).syntax_, (s.get d).source) ∧ q.2 ≠ .with_ ∧ q.2 ≠ .builtin
  wsyn : ∀ d, d < s.store.length → (s.get d).source = .with_ → ∃ Δ m, Inside root Δ m ∧ ptrFind m.id s.withDefs = some d ∧ ∃ h sm w e, m = .exprWith h (s.get d).syntax_ sm w e
  envSound : ∀ q ∈ s.envs, ∃ Δ m, Inside root Δ m ∧ m.id = q.1 ∧ EnvOk s (full P Δ) q.2
  envAll : ∀ Δ v, Occurs root Δ v → ∃ e, (v.id, e) ∈ s.envs
  wdefSyn : ∀ q ∈ s.withDefs, ∃ Δ m, Inside root Δ m ∧ m.id = q.1 ∧ ∃ h sm w e, m = .exprWith h (s.get q.2).syntax_ sm w e

theorem binds_kind {m : Node} {x : Bytes} {q : Node × DefSource} (h : (frameOf m).binds x = some q) : q.2 ≠ .with_ ∧ q.2 ≠ .builtin := by
  unfold frameOf at h
  split at h
  · split at h
    · cases h
    · unfold lambdaFrame at h
      simp only [Frame.binds] at h
      split at h
      · cases h; dsimp only; split <;> simp
      · split at h
        · cases h; dsimp only; split <;> simp
        · cases h
  · split at h
    · cases h
    · simp only [setFrame, Frame.binds, Option.map_eq_some_iff] at h
      obtain ⟨a, -, rfl⟩ := h
      simp
  · simp only [setFrame, Frame.binds, Option.map_eq_some_iff] at h
    obtain ⟨a, -, rfl⟩ := h
    simp
  · cases h
  · cases h

theorem run_ok (P : PrimOps) {fuel : Nat} {root : Node} (hf : sizeOf root ≤ fuel) (hw : WellFormed root) : Run P root (runVL P fuel root) := by
  unfold runVL
  have hinit := init_globals (globalNames P)
  generalize globalDefs (globalNames P) [] {} = ms at hinit
  obtain ⟨m, s0⟩ := ms
  simp only at hinit ⊢
  obtain ⟨f1, f2, f3, f4, f5, f6, f7⟩ := hinit.fields
  have hi : Inv s0 := ⟨by rw [f2]; simp, by rw [f2]; simp⟩
  have he : EnvOk s0 [globalFrame P] [⟨m, .null⟩] := by
    refine ⟨⟨rfl, ?_, ?_⟩, trivial⟩
    · intro x
      rw [hinit.none x]
      simp
    · intro x d hd
      have hlt := hinit.some x d hd
      rw [hinit.store d hlt]
      refine ⟨hlt, ?_, by simp, fun d' hd' => hinit.mem x d d' hd hd'⟩
      have : x ∈ globalNames P := by
        apply Classical.byContradiction
        intro hc
        rw [← hinit.none, hd] at hc
        cases hc
      simp [this]
  have h := dfs_eff P fuel root [globalFrame P] [⟨m, .null⟩] s0 hf (fun q hq => hw q.1 q.2 (mem_vis.mp hq)) he hi
  generalize dfs P fuel root [⟨m, .null⟩] s0 = s at h
  have hT : (nodeEv [globalFrame P] [⟨m, .null⟩] root).map Ev.key = (vis root).map fun q => (full P q.1, q.2) := by
    unfold nodeEv
    rw [List.map_map]
    rfl
  have hmem : ∀ p, p ∈ (nodeEv [globalFrame P] [⟨m, .null⟩] root).map Ev.key ↔ ∃ Δ n, Inside root Δ n ∧ p = (full P Δ, n) := by
    intro p
    rw [hT, List.mem_map]
    constructor
    · rintro ⟨⟨Δ, n⟩, hq, rfl⟩
      exact ⟨Δ, n, mem_vis.mp hq, rfl⟩
    · rintro ⟨Δ, n, hi, rfl⟩
      exact ⟨(Δ, n), mem_vis.mpr hi, rfl⟩
  have hold : ∀ d < s0.store.length, (s.get d).source = .builtin := fun d hd => by
    rw [(h.ext.keep d hd).2, hinit.store d hd]
  have hnew : ∀ d, s0.store.length ≤ d → d < s.store.length → (s.get d).source ≠ .builtin := by
    intro d h1 h2 hb
    obtain ⟨p, hp, x, hx, -⟩ := h.new d h1 h2 (by rw [hb]; simp)
    obtain ⟨Δ, n, hn, rfl⟩ := (hmem p).mp hp
    obtain ⟨e, hem, -, -, he3⟩ := ((entsOk (hw _ _ hn)).binds _ _ _).mp hx
    exact ((entsOk (hw _ _ hn)).source e hem).2 (by rw [he3, hb])
  refine ⟨fun p hp => (h.inv.src p hp).2, h.inv.inj, ?_, ?_, ?_, ?_, ?_, ?_, ?_, ?_, ?_, ?_, ?_, ?_, ?_, ?_, ?_, ?_, ?_, ?_⟩
  · intro d hd hs hb
    have hlt : s0.store.length ≤ d := by
      apply Classical.byContradiction
      intro hc
      exact hb (hold d (by omega))
    obtain ⟨p, hp, x, hx, hu⟩ := h.new d hlt hd hs
    obtain ⟨Δ, n, hn, rfl⟩ := (hmem p).mp hp
    exact ⟨Δ, n, x, hn, hx, hu⟩
  · intro id
    rw [h.wuses id, hT, List.flatMap_map]
    have : Scoping.wuses s0 id = [] := by
      unfold Scoping.wuses
      rw [f2]
      rfl
    rw [this]
    rfl
  · intro q hq
    rcases h.resSound q hq with hc | ⟨p, hp, h1, h2, h3⟩
    · rw [f4] at hc; cases hc
    · obtain ⟨Δ, n, hn, rfl⟩ := (hmem p).mp hp
      exact ⟨Δ, n, ⟨hn, h1⟩, h2, h3⟩
  · intro Δ v hv hint
    exact h.resAll _ ((hmem _).mpr ⟨Δ, v, hv.1, rfl⟩) hv.2 hint
  · intro q hq
    rcases h.wsSound q hq with hc | ⟨p, hp, h1, h2, h3, h4, h5⟩
    · rw [f5] at hc; cases hc
    · obtain ⟨Δ, n, hn, rfl⟩ := (hmem p).mp hp
      rw [withsOf_full] at h4 h5
      have := free_full.mp h3
      exact ⟨Δ, n, ⟨hn, h1⟩, h2, this.1, this.2, h4, h5⟩
  · intro Δ v hv hfr hg hne
    exact h.wsAll _ ((hmem _).mpr ⟨Δ, v, hv.1, rfl⟩) hv.2 (free_full.mpr ⟨hfr, hg⟩) (by rw [withsOf_full]; exact hne)
  · intro g hg
    rw [h.diags g hg, f1]
    simp only [List.not_mem_nil, false_or]
    constructor
    · rintro ⟨p, hp, hgp⟩
      obtain ⟨Δ, n, hn, rfl⟩ := (hmem p).mp hp
      exact ⟨Δ, n, hn, hgp⟩
    · rintro ⟨Δ, n, hn, hgp⟩
      exact ⟨_, (hmem _).mpr ⟨Δ, n, hn, rfl⟩, hgp⟩
  · intro g hg hgs
    rcases h.withSound g hg hgs with hc | ⟨p, hp, h1, h2, h3⟩
    · rw [f1] at hc; cases hc
    · obtain ⟨Δ, n, hn, rfl⟩ := (hmem p).mp hp
      refine ⟨Δ, n, hn, h1, h2, ?_⟩
      rintro v ⟨c, Δ', hc, ⟨ho, hv⟩, hfr, hng⟩
      have := h3 (Δ', v) (List.mem_flatMap.mpr ⟨(true, c), hc, mem_vis.mpr ho⟩) hv
      dsimp only at this
      rw [← List.append_assoc, free_full.mpr ⟨hfr, hng⟩] at this
      cases this
  · intro Δ n hn hwn hu
    exact h.withAll _ ((hmem _).mpr ⟨Δ, n, hn, rfl⟩) hwn hu
  · intro hnd
    rw [h.bad, hinit.bad hnd, Bool.false_or, List.any_eq_true]
    constructor
    · rintro ⟨p, hp, hpi⟩
      obtain ⟨Δ, n, hn, rfl⟩ := (hmem p).mp hp
      exact ⟨Δ, n, hn, hpi⟩
    · rintro ⟨Δ, n, hn, hpi⟩
      exact ⟨_, (hmem _).mpr ⟨Δ, n, hn, rfl⟩, hpi⟩
  · rw [h.deep, f6]
  · intro j d hj
    rcases h.toDefFrom j with hc | ⟨d', h1, h2, h3, h4⟩
    · rw [hc, f3] at hj
      cases hj
    · rw [h4] at hj
      cases hj
      exact ⟨h2, h3, hnew d h1 h2⟩
  · intro d hd hb
    exact h.toDefHas d (by
      apply Classical.byContradiction
      intro hc
      exact hb (hold d (by omega))) hd
  · intro Δ m x q hm hx
    obtain ⟨d, h1, h2, h3⟩ := h.defAll _ ((hmem _).mpr ⟨Δ, m, hm, rfl⟩) x q hx
    exact ⟨d, h2, h3, binds_kind hx⟩
  · intro d hd hs
    have : s0.store.length ≤ d := by
      apply Classical.byContradiction
      intro hc
      rw [hold d (by omega)] at hs
      cases hs
    obtain ⟨p, hp, hw⟩ := h.wsyn d this hd hs
    obtain ⟨Δ, n, hn, rfl⟩ := (hmem p).mp hp
    exact ⟨Δ, n, hn, hw⟩
  · intro q hq
    rcases h.envSound q hq with hc | ⟨p, hp, h1, h2⟩
    · rw [f7] at hc; cases hc
    · obtain ⟨Δ, n, hn, rfl⟩ := (hmem p).mp hp
      exact ⟨Δ, n, hn, h1, h2⟩
  · intro Δ v hv
    exact h.envAll _ ((hmem _).mpr ⟨Δ, v, hv.1, rfl⟩) hv.2
  · intro q hq
    rcases h.wdef q hq with hc | ⟨p, hp, h1, h2⟩
    · rw [f2] at hc; cases hc
    · obtain ⟨Δ, n, hn, rfl⟩ := (hmem p).mp hp
      exact ⟨Δ, n, hn, h1, h2⟩

theorem inside_trans {root m v : Node} {Δ Δ' : List Frame} (h : Inside root Δ m) (h' : Inside m Δ' v) : Inside root (Δ' ++ Δ) v := by
  induction h with
  | here n => rw [List.append_nil]; exact h'
  | outer n c Δ m hc _ ih => exact .outer n c _ _ hc (ih h')
  | inner n c Δ m hc _ ih =>
    rw [← List.append_assoc]
    exact .inner n c _ _ hc (ih h')

/-- A `with` around a node is a node. -/
theorem inside_with {root v w : Node} {Δ : List Frame} (h : Inside root Δ v) (hw : Frame.with_ w ∈ Δ) :
    ∃ Δ1 Δ2 c, Δ = Δ1 ++ .with_ w :: Δ2 ∧ Inside root Δ2 w ∧ (true, c) ∈ parts w ∧ Inside c Δ1 v ∧ isWithN w = true := by
  induction h with
  | here n => cases hw
  | outer n c Δ m hc hi ih =>
    obtain ⟨Δ1, Δ2, c', h1, h2, h3, h4⟩ := ih hw
    exact ⟨Δ1, Δ2, c', h1, .outer n c _ _ hc h2, h3, h4⟩
  | inner n c Δ m hc hi ih =>
    rcases List.mem_append.mp hw with hw | hw
    · obtain ⟨Δ1, Δ2, c', h1, h2, h3, h4⟩ := ih hw
      exact ⟨Δ1, Δ2 ++ [frameOf n], c', by rw [h1]; simp, .inner n c _ _ hc h2, h3, h4⟩
    · simp only [List.mem_cons, List.not_mem_nil, or_false] at hw
      have hn : n = w := by
        unfold frameOf at hw
        split at hw
        · split at hw <;> cases hw
        · split at hw <;> cases hw
        · cases hw
        · cases hw; rfl
        · cases hw
      subst hn
      refine ⟨Δ, [], c, by rw [hw], .here n, hc, hi, ?_⟩
      cases n <;> first | rfl | skip
      all_goals
        exfalso
        unfold frameOf at hw
        split at hw
        all_goals first | cases hw | (split at hw <;> cases hw)

theorem mem_withsOf {Δ : List Frame} {w : Node} : w ∈ withsOf Δ ↔ Frame.with_ w ∈ Δ := by
  unfold withsOf
  rw [List.mem_filterMap]
  constructor
  · rintro ⟨f, hf, he⟩
    cases f with
    | names b => cases he
    | with_ w' => cases he; exact hf
  · intro h
    exact ⟨_, h, rfl⟩

theorem wuses_nil {P : PrimOps} {root : Node} {s : VL} (h : Run P root s) (hf : Faithful root) {Δ : List Frame} {m : Node}
    (hm : Inside root Δ m) : wuses s m.id = [] ↔ isWithN m = false ∨ ∀ v, ¬ MayComeFrom P Δ m v := by
  rw [h.wuses, List.flatMap_eq_nil_iff]
  constructor
  · intro hall
    rcases hmw : isWithN m with _ | _
    · exact .inl rfl
    right
    rintro v ⟨c, Δ', hc, ⟨ho, hv⟩, hfr, hng⟩
    have hfm : frameOf m = .with_ m := by
      cases m <;> first | rfl | cases hmw
    have hins : ∃ Δ'', Inside root Δ'' v ∧ Δ'' = Δ' ++ .with_ m :: Δ := by
      have h1 : Inside m (Δ' ++ [frameOf m]) v := .inner m c _ _ hc ho
      rw [hfm] at h1
      exact ⟨_, inside_trans hm h1, by simp⟩
    obtain ⟨Δ'', h2, rfl⟩ := hins
    have := hall _ (mem_vis.mpr h2)
    unfold wuseOf at this
    rw [if_pos (by simp only [Bool.and_eq_true]; exact ⟨hv, free_full.mpr ⟨by
      intro f hf'
      rcases List.mem_append.mp hf' with hf' | hf'
      · exact hfr f (List.mem_append_left _ hf')
      · rcases List.mem_cons.mp hf' with rfl | hf'
        · rfl
        · exact hfr f (List.mem_append_right _ hf'), hng⟩⟩)] at this
    rw [List.filterMap_eq_nil_iff] at this
    have := this m (by rw [withsOf_full, mem_withsOf]; simp)
    simp at this
  · intro hor q hq
    unfold wuseOf
    split
    · rename_i hc
      simp only [Bool.and_eq_true] at hc
      obtain ⟨hv, hfree⟩ := hc
      rw [List.filterMap_eq_nil_iff]
      intro w hw
      rw [withsOf_full, mem_withsOf] at hw
      split
      · rename_i hid
        exfalso
        have hid : w.id = m.id := by simpa using hid
        obtain ⟨Δ1, Δ2, c, h1, h2, h3, h4, hfm⟩ := inside_with (mem_vis.mp hq) hw
        obtain ⟨rfl, rfl⟩ := hf _ _ _ _ h2 hm hid
        rcases hor with hn | hn
        · rw [hfm] at hn; cases hn
        · have := free_full.mp hfree
          refine hn q.2 ⟨c, Δ1, h3, ⟨h4, hv⟩, ?_, this.2⟩
          intro f hf'
          apply this.1 f
          rw [h1]
          rcases List.mem_append.mp hf' with hf' | hf'
          · exact List.mem_append_left _ hf'
          · exact List.mem_append_right _ (List.mem_cons_of_mem _ hf')
      · rfl
    · rfl

theorem preDiags_kind {P : PrimOps} {n : Node} {g : Diagnostic} (h : g ∈ preDiags P n) :
    g.kind = .primOpRemovablePrefix ∨ g.kind = .primOpOverridden ∨ g.kind = .constantOverridden := by
  unfold preDiags at h
  rcases List.mem_append.mp h with h | h
  · split at h
    · exact .inl ((checkLetInherit_eq P _ {}).2 g h)
    · cases h
  · obtain ⟨e, -, he⟩ := List.mem_flatMap.mp h
    unfold addDiags at he
    rcases List.mem_append.mp he with he | he <;> split at he <;> simp at he <;> subst he <;> simp

theorem postDiags_kind {P : PrimOps} {n : Node} {g : Diagnostic} (h : g ∈ postDiags P n) :
    (∃ e ∈ entsOf n, unusedDiag n e = some g ∧ unusedKind e.2.2.1 = some g.kind) ∨ g.kind = .primOpRemovablePrefix ∨ g.kind = .primOpUnknown ∨
      (g.kind = .extraRecursive ∧ ∃ h b r st dy, n = .exprAttrs h b r st dy ∧ r.isNull = false ∧
        (∀ e ∈ entsOf n, usesIn n e.1 = []) ∧ g = extraRecDiag r) := by
  have hu : g ∈ (entsOf n).filterMap (unusedDiag n) → ∃ e ∈ entsOf n, unusedDiag n e = some g ∧ unusedKind e.2.2.1 = some g.kind := by
    intro h
    obtain ⟨e, he, hg⟩ := List.mem_filterMap.mp h
    refine ⟨e, he, hg, ?_⟩
    unfold unusedDiag at hg
    split at hg
    · split at hg
      · rename_i k hk
        cases hg
        exact hk
      · cases hg
    · cases hg
  unfold postDiags at h
  split at h
  · exact .inl (hu h)
  · exact .inl (hu h)
  · rename_i h' b r st dy
    split at h
    · cases h
    · rename_i hr
      split at h
      · cases h
      · rename_i ha
        simp only [List.mem_cons, List.not_mem_nil, or_false] at h
        refine .inr (.inr (.inr ⟨by rw [h]; rfl, _, _, _, _, _, rfl, by simpa using hr, ?_, h⟩))
        intro e he
        apply Classical.byContradiction
        intro hc
        refine ha (List.any_eq_true.mpr ⟨e, he, ?_⟩)
        simpa using hc
  · rcases (checkBuiltins_eq P _ {}).2 g h with h | h
    · exact .inr (.inl h)
    · exact .inr (.inr (.inl h))
  · cases h

theorem varDiags_kind {P : PrimOps} {Γ : List Frame} {v : Node} {g : Diagnostic} (h : g ∈ varDiags P Γ v) :
    g.kind = .undefinedVariable ∨ g.kind = .primOpNeedsPrefix := by
  unfold varDiags at h
  split at h
  · split at h <;> simp at h <;> subst h
    · exact .inr rfl
    · exact .inl rfl
  · cases h

theorem unusedKind_cases {src : DefSource} {k : DK} (h : unusedKind src = some k) :
    (src, k) ∈ [(DefSource.let_, DK.unusedDefLet), (.lambdaNoArgFormal, .unusedDefLambdaNoArg_Formal),
      (.lambdaWithArgFormal, .unusedDefLambdaWithArg_Formal), (.lambdaWithArgArg, .unusedDefLambdaWithArg_Arg)] := by
  cases src <;> simp [unusedKind] at h <;> subst h <;> simp

theorem unusedKind_of {src : DefSource} {k : DK} (h : (src, k) ∈ [(DefSource.let_, DK.unusedDefLet), (.lambdaNoArgFormal, .unusedDefLambdaNoArg_Formal),
      (.lambdaWithArgFormal, .unusedDefLambdaWithArg_Formal), (.lambdaWithArgArg, .unusedDefLambdaWithArg_Arg)]) : unusedKind src = some k := by
  simp at h
  rcases h with ⟨rfl, rfl⟩ | ⟨rfl, rfl⟩ | ⟨rfl, rfl⟩ | ⟨rfl, rfl⟩ <;> rfl

/-- The diagnostics of variables. -/
theorem ownDiags_var {P : PrimOps} {Δ : List Frame} {m : Node} {g : Diagnostic}
    (hk : g.kind = .undefinedVariable ∨ g.kind = .primOpNeedsPrefix) (h : g ∈ ownDiags P (Δ, m)) : g ∈ varDiags P Δ m := by
  rcases List.mem_append.mp h with h | h
  · exfalso
    rcases List.mem_append.mp h with h | h
    · rcases preDiags_kind h with h | h | h <;> rw [h] at hk <;> rcases hk with hk | hk <;> cases hk
    · rcases postDiags_kind h with ⟨e, -, -, h⟩ | h | h | ⟨h, -⟩
      · have := unusedKind_cases h
        simp at this
        rcases this with ⟨-, h⟩ | ⟨-, h⟩ | ⟨-, h⟩ | ⟨-, h⟩ <;> rw [h] at hk <;> rcases hk with hk | hk <;> cases hk
      all_goals rw [h] at hk; rcases hk with hk | hk <;> cases hk
  · exact h

/-- The diagnostics of unused definitions. -/
theorem ownDiags_unused {P : PrimOps} {Δ : List Frame} {m : Node} {g : Diagnostic} {src : DefSource} {k : DK}
    (hs : unusedKind src = some k) (hk : g.kind = k) (h : g ∈ ownDiags P (Δ, m)) :
    ∃ e ∈ entsOf m, unusedDiag m e = some g ∧ e.2.2.1 = src := by
  have hk' : (src, g.kind) ∈ [(DefSource.let_, DK.unusedDefLet), (.lambdaNoArgFormal, .unusedDefLambdaNoArg_Formal),
      (.lambdaWithArgFormal, .unusedDefLambdaWithArg_Formal), (.lambdaWithArgArg, .unusedDefLambdaWithArg_Arg)] := by
    rw [hk]; exact unusedKind_cases hs
  simp at hk'
  rcases List.mem_append.mp h with h | h
  · rcases List.mem_append.mp h with h | h
    · exfalso
      rcases preDiags_kind h with h | h | h <;> rw [h] at hk' <;> simp at hk'
    · rcases postDiags_kind h with ⟨e, he, hg, h⟩ | h | h | ⟨h, -⟩
      · refine ⟨e, he, hg, ?_⟩
        have := unusedKind_cases h
        simp at this
        rcases this with ⟨h1, h⟩ | ⟨h1, h⟩ | ⟨h1, h⟩ | ⟨h1, h⟩ <;> rw [h] at hk' <;> simp at hk' <;> rw [h1, hk']
      all_goals
        exfalso
        rw [h] at hk'
        simp at hk'
  · exfalso
    rcases varDiags_kind h with h | h <;> rw [h] at hk' <;> simp at hk'

theorem ownDiags_extraRec {P : PrimOps} {Δ : List Frame} {m : Node} {g : Diagnostic} (hk : g.kind = .extraRecursive) (h : g ∈ ownDiags P (Δ, m)) :
    ∃ h b r st dy, m = .exprAttrs h b r st dy ∧ r.isNull = false ∧ (∀ e ∈ entsOf m, usesIn m e.1 = []) ∧ g = extraRecDiag r := by
  rcases List.mem_append.mp h with h | h
  · rcases List.mem_append.mp h with h | h
    · exfalso
      rcases preDiags_kind h with h | h | h <;> rw [h] at hk <;> cases hk
    · rcases postDiags_kind h with ⟨e, he, hg, h⟩ | h | h | ⟨-, h⟩
      · exfalso
        have := unusedKind_cases h
        rw [hk] at this
        simp at this
      · rw [h] at hk; cases hk
      · rw [h] at hk; cases hk
      · exact h
  · exfalso
    rcases varDiags_kind h with h | h <;> rw [h] at hk <;> cases hk

end Verif.Nixf.Scoping
