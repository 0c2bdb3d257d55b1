import Verif.Lemmas.ScopeEff
/-
The effect of `dfs`.
-/
namespace Verif.Nixf.Scoping

theorem foldl_flatMap' {α β γ : Type} (g : α → List β) (f : γ → β → γ) : ∀ (l : List α) (s : γ),
    (l.flatMap g).foldl f s = l.foldl (fun s a => (g a).foldl f s) s := by
  intro l
  induction l with
  | nil => intro s; rfl
  | cons a l ih => intro s; rw [List.flatMap_cons, List.foldl_append, List.foldl_cons, ih]

/-! ### Variables -/

theorem get_usedBy (s : VL) (d : Nat) (v : Node) (d' : Nat) : ((s.usedBy d v).get d').syntax_ = (s.get d').syntax_ ∧
    ((s.usedBy d v).get d').source = (s.get d').source ∧
    (d' < s.store.length → ((s.usedBy d v).get d').uses = (s.get d').uses ++ if d = d' then [v] else []) := by
  unfold VL.usedBy VL.get
  simp only [List.getD_eq_getElem?_getD, List.getElem?_modify]
  rcases h : s.store[d']? with _ | x
  · simp only [Option.map_eq_map, Option.map_none, Option.getD_none, true_and]
    intro hd
    rw [List.getElem?_eq_none_iff] at h
    omega
  · by_cases hd : d = d' <;> simp [hd]

theorem usedBy_rest (s : VL) (d : Nat) (v : Node) : (s.usedBy d v).store.length = s.store.length ∧
    (s.usedBy d v).withDefs = s.withDefs ∧ (s.usedBy d v).results = s.results ∧ (s.usedBy d v).withScopes = s.withScopes ∧
    (s.usedBy d v).diags = s.diags ∧ (s.usedBy d v).bad = s.bad ∧ (s.usedBy d v).deep = s.deep ∧
    (s.usedBy d v).toDef = s.toDef ∧ (s.usedBy d v).envs = s.envs := by
  unfold VL.usedBy
  simp

theorem foldl_usedBy (v : Node) : ∀ (ds : List Nat) (s : VL),
    (∀ d', ((ds.foldl (fun s d => s.usedBy d v) s).get d').syntax_ = (s.get d').syntax_ ∧
      ((ds.foldl (fun s d => s.usedBy d v) s).get d').source = (s.get d').source ∧
      (d' < s.store.length → ((ds.foldl (fun s d => s.usedBy d v) s).get d').uses =
        (s.get d').uses ++ ds.filterMap fun d => if d = d' then some v else none)) ∧
    (ds.foldl (fun s d => s.usedBy d v) s).store.length = s.store.length ∧
    (ds.foldl (fun s d => s.usedBy d v) s).withDefs = s.withDefs ∧
    (ds.foldl (fun s d => s.usedBy d v) s).results = s.results ∧
    (ds.foldl (fun s d => s.usedBy d v) s).withScopes = s.withScopes ∧
    (ds.foldl (fun s d => s.usedBy d v) s).diags = s.diags ∧ (ds.foldl (fun s d => s.usedBy d v) s).bad = s.bad ∧
    (ds.foldl (fun s d => s.usedBy d v) s).deep = s.deep ∧
    (ds.foldl (fun s d => s.usedBy d v) s).toDef = s.toDef ∧
    (ds.foldl (fun s d => s.usedBy d v) s).envs = s.envs := by
  intro ds
  induction ds with
  | nil => intro s; simp
  | cons d ds ih =>
    intro s
    obtain ⟨h1, h2, h3, h4, h5, h6, h7, h8, h9, h10⟩ := ih (s.usedBy d v)
    obtain ⟨k1, k2, k3, k4, k5, k6, k7, k8, k9⟩ := usedBy_rest s d v
    rw [List.foldl_cons]
    refine ⟨fun d' => ?_, h2.trans k1, h3.trans k2, h4.trans k3, h5.trans k4, h6.trans k5, h7.trans k6, h8.trans k7, h9.trans k8, h10.trans k9⟩
    obtain ⟨a1, a2, a3⟩ := h1 d'
    obtain ⟨b1, b2, b3⟩ := get_usedBy s d v d'
    refine ⟨a1.trans b1, a2.trans b2, fun hd => ?_⟩
    rw [a3 (by rw [k1]; exact hd), b3 hd, List.filterMap_cons]
    by_cases h : d = d' <;> simp [h]

theorem vis_var {v : Node} (hv : isVar v = true) : vis v = [([], v)] := by
  cases v <;> simp [isVar] at hv
  rw [vis_eq]
  rfl

theorem own_var {P : PrimOps} {Γ : List Frame} {v : Node} (hv : isVar v = true) : ownDiags P (Γ, v) = varDiags P Γ v := by
  cases v <;> simp [isVar] at hv
  rfl

theorem isWithN_var {v : Node} (hv : isVar v = true) : isWithN v = false := by
  cases v <;> simp [isVar] at hv
  rfl

/-- `lookupVar` with the name. -/
def lookupVarN (P : PrimOps) (name : Bytes) (v : Node) (env : Env) (s : VL) : VL :=
  match findDef name env with
  | some d => { s.usedBy d v with results := ptrInsert v.id ⟨.defined, some d⟩ s.results }
  | none =>
    let withs := env.filter isWith
    if withs.isEmpty = false then
      let ds := withs.map fun sc => (ptrFind sc.syntax_.id s.withDefs).getD 0
      let s := ds.foldl (fun s d => s.usedBy d v) s
      { s with
        withScopes := ptrInsert v.id (withs.map (·.syntax_.id)) s.withScopes
        results := ptrInsert v.id ⟨.fromWith, ds.getLast?⟩ s.results }
    else
      match lookupPrimOp P name with
      | .found => { s with bad := true }
      | .prefixedFound =>
        { s.emit { kind := .primOpNeedsPrefix, range := v.range,
                   fixes := [{ message := b!"use `builtins.` prefix", edits := [⟨⟨v.lCur, v.lCur⟩, b!"builtins."⟩] }] } with
          results := ptrInsert v.id ⟨.undefined, none⟩ s.results }
      | .notFound =>
        { s.emit { kind := .undefinedVariable, range := v.range, args := [name] } with
          results := ptrInsert v.id ⟨.undefined, none⟩ s.results }

theorem lookupVar_eq (P : PrimOps) (v : Node) (env : Env) (s : VL) : lookupVar P v env s = lookupVarN P (varName v) v env s := by
  cases v <;> rfl

theorem lookupVar_eff {P : PrimOps} {v : Node} (hv : isVar v = true) {Γ : List Frame} {env : Env} {s : VL}
    (he : EnvOk s Γ env) (hi : Inv s) (hin : ∃ e, (v.id, e) ∈ s.envs) : Eff P (nodeEv Γ env v) s (lookupVar P v env s) := by
  have hnode : nodeEv Γ env v = [⟨[], Γ, env, v⟩] := by unfold nodeEv; rw [vis_var hv]; rfl
  have hkey : (nodeEv Γ env v).map Ev.key = [(Γ, v)] := by rw [hnode]; rfl
  have huse : ∀ d, (nodeEv Γ env v).filterMap (useOf d) = if findDef (varName v) env = some d then [v] else [] := by
    intro d
    rw [hnode]
    simp only [List.filterMap_cons, List.filterMap_nil, useOf, hv, free, List.all_nil, Bool.and_self, Bool.true_and, beq_iff_eq]
    by_cases h : findDef (varName v) env = some d <;> simp [h]
  have hnw := isWithN_var hv
  have hdef : ∀ s' : VL, ∀ p ∈ (nodeEv Γ env v).map Ev.key, ∀ x q, (frameOf p.2).binds x = some q →
      ∃ d, s.store.length ≤ d ∧ d < s'.store.length ∧ q = ((s'.get d).syntax_, (s'.get d).source) := by
    intro s' p hp x q hx
    rw [hkey, List.mem_singleton] at hp
    subst hp
    cases v <;> first | (cases hv; done) | cases hx
  have hwsyn : ∀ s' : VL, s'.store.length ≤ s.store.length → ∀ d, s.store.length ≤ d → d < s'.store.length → (s'.get d).source = .with_ →
      ∃ p ∈ (nodeEv Γ env v).map Ev.key, ptrFind p.2.id s'.withDefs = some d ∧ ∃ h sm w e, p.2 = .exprWith h (s'.get d).syntax_ sm w e := by
    intro s' h d h1 h2
    omega
  have henvS : ∀ s' : VL, s'.envs = s.envs →
      ∀ q ∈ s'.envs, q ∈ s.envs ∨ ∃ p ∈ (nodeEv Γ env v).map Ev.key, p.2.id = q.1 ∧ EnvOk s' p.1 q.2 :=
    fun s' h q hq => .inl (h ▸ hq)
  have henvM : ∀ s' : VL, s'.envs = s.envs → ∀ q ∈ s.envs, q ∈ s'.envs := fun s' h q hq => by rw [h]; exact hq
  have henvA : ∀ s' : VL, s'.envs = s.envs → ∀ p ∈ (nodeEv Γ env v).map Ev.key, isVar p.2 = true → ∃ e, (p.2.id, e) ∈ s'.envs := by
    intro s' h p hp _
    rw [hkey, List.mem_singleton] at hp
    rw [hp, h]
    exact hin
  have hwdef : ∀ s' : VL, s'.withDefs = s.withDefs → ∀ q ∈ s'.withDefs, q ∈ s.withDefs ∨
      ∃ p ∈ (nodeEv Γ env v).map Ev.key, p.2.id = q.1 ∧ ∃ h sm w e, p.2 = .exprWith h (s'.get q.2).syntax_ sm w e :=
    fun s' h q hq => .inl (h ▸ hq)
  rw [lookupVar_eq]
  unfold lookupVarN
  rcases hf : findDef (varName v) env with _ | d
  · have hfree := (envOk_none he).mp hf
    obtain ⟨hws, hwd⟩ := envOk_withs he
    have huse0 : ∀ d, (nodeEv Γ env v).filterMap (useOf d) = [] := by intro d; rw [huse, hf]; simp
    dsimp only
    by_cases hw : (env.filter isWith).isEmpty = false
    · rw [if_pos hw]
      have hne : withsOf Γ ≠ [] := by
        rw [← hws]
        intro h
        rw [List.map_eq_nil_iff] at h
        rw [h] at hw
        cases hw
      have hvd : varDiags P Γ v = [] := by
        unfold varDiags
        have : (withsOf Γ).isEmpty = false := by
          cases h : withsOf Γ with
          | nil => exact absurd h hne
          | cons => rfl
        simp [this]
      have hiu : internalUse P (Γ, v) = false := by
        unfold internalUse
        have : (withsOf Γ).isEmpty = false := by
          cases h : withsOf Γ with
          | nil => exact absurd h hne
          | cons => rfl
        simp [this]
      generalize hds : ((env.filter isWith).map fun sc => (ptrFind sc.syntax_.id s.withDefs).getD 0) = ds
      obtain ⟨h1, h2, h3, h4, h5, h6, h7, h8, h9, h10⟩ := foldl_usedBy v ds s
      generalize hs' : ds.foldl (fun s d => s.usedBy d v) s = s' at h1 h2 h3 h4 h5 h6 h7 h8 h9 h10
      have hdsw : ds = (withsOf Γ).map fun w => (ptrFind w.id s.withDefs).getD 0 := by
        rw [← hds, ← hws, List.map_map]
        rfl
      have hfound : ∀ w ∈ withsOf Γ, ∃ d, ptrFind w.id s.withDefs = some d := by
        intro w hw
        rw [← hws] at hw
        obtain ⟨sc, hsc, rfl⟩ := List.mem_map.mp hw
        exact hwd sc hsc
      have hnotd : ∀ d, (s.get d).source ≠ .with_ → (ds.filterMap fun x => if x = d then some v else none) = [] := by
        intro d hd
        rw [List.filterMap_eq_nil_iff]
        intro x hx
        rw [hdsw] at hx
        obtain ⟨w, hw, rfl⟩ := List.mem_map.mp hx
        obtain ⟨d', hd'⟩ := hfound w hw
        rw [hd']
        have := (hi.src _ (ptrFind_mem hd')).2
        by_cases hdd : (some d').getD 0 = d
        · simp at hdd
          subst hdd
          exact absurd this hd
        · rw [if_neg hdd]
      have hwuse : ∀ id, wuses s' id = wuses s id ++ wuseOf id (Γ, v) := by
        intro id
        unfold wuses wuseOf
        rw [h3]
        simp only [hv, hfree, Bool.and_self, if_true]
        rcases hp : ptrFind id s.withDefs with _ | d0
        · simp only [List.nil_append]
          symm
          rw [List.filterMap_eq_nil_iff]
          intro w hw
          obtain ⟨d', hd'⟩ := hfound w hw
          by_cases hid : w.id = id
          · rw [hid, hp] at hd'; cases hd'
          · simp [hid]
        · simp only
          have hm := ptrFind_mem hp
          rw [(h1 d0).2.2 (hi.src _ hm).1, hdsw, List.filterMap_map]
          congr 1
          apply List.filterMap_congr
          intro w hw
          obtain ⟨d', hd'⟩ := hfound w hw
          simp only [Function.comp, hd', Option.getD_some, beq_iff_eq]
          by_cases hid : w.id = id
          · rw [hid, hp] at hd'
            cases hd'
            simp [hid]
          · have : d' ≠ d0 := fun h => hid (hi.inj _ (ptrFind_mem hd') _ hm h)
            simp [hid, this]
      have hlast : ∃ w d, (withsOf Γ).getLast? = some w ∧ ds.getLast? = some d ∧ ptrFind w.id s.withDefs = some d := by
        rcases hl : (withsOf Γ).getLast? with _ | w
        · rw [List.getLast?_eq_none_iff] at hl
          exact absurd hl hne
        · obtain ⟨d, hd⟩ := hfound w (List.mem_of_getLast? hl)
          exact ⟨w, d, rfl, by rw [hdsw, List.getLast?_map, hl]; simp [hd], hd⟩
      have hget : ∀ d, s'.get d = s'.get d := fun _ => rfl
      refine ⟨⟨?_, ?_, ?_, ?_⟩, ⟨?_, ?_⟩, ?_, ?_, ?_, ?_, ?_, ?_, ?_, ?_, ?_, ?_, ?_, ?_, ?_, ?_, ?_, ?_, ?_, hdef _, hwsyn _ (Nat.le_of_eq h2), henvS _ h10, henvM _ h10, henvA _ h10, hwdef _ h3⟩
      · exact Nat.le_of_eq h2.symm
      · exact fun d _ => ⟨(h1 d).1, (h1 d).2.1⟩
      · show s.withDefs <+: s'.withDefs
        rw [h3]; exact List.prefix_refl _
      · intro d hd
        show _ <+: (s'.get d).uses
        rw [(h1 d).2.2 hd]
        exact List.prefix_append _ _
      · intro p hp
        have hp : p ∈ s.withDefs := by rw [← h3]; exact hp
        have := hi.src p hp
        exact ⟨by show _ < s'.store.length; rw [h2]; exact this.1, (h1 _).2.1.trans this.2⟩
      · intro p hp q hq
        have hp : p ∈ s.withDefs := by rw [← h3]; exact hp
        have hq : q ∈ s.withDefs := by rw [← h3]; exact hq
        exact hi.inj p hp q hq
      · intro d hd hs
        show (s'.get d).uses = _
        rw [(h1 d).2.2 hd, hnotd d hs, huse0]
      · intro d hd hd'
        have hd' : d < s'.store.length := hd'
        omega
      · intro id
        rw [hkey]
        simp only [List.flatMap_cons, List.flatMap_nil, List.append_nil]
        exact hwuse id
      · intro q hq
        rw [hkey]
        rcases mem_ptrInsert hq with hq | rfl
        · left; rw [← h4]; exact hq
        · refine .inr ⟨_, List.mem_cons_self, hv, rfl, hfree, ?_⟩
          obtain ⟨w, d, hw1, hw2, hw3⟩ := hlast
          exact ⟨w, d, hw1, hw2, by show ptrFind _ s'.withDefs = _; rw [h3]; exact hw3⟩
      · intro q hq
        exact ptrInsert_sub (by rw [h4]; exact hq)
      · intro p hp _ _
        rw [hkey] at hp
        simp at hp
        subst hp
        exact ptrInsert_has ..
      · intro q hq
        rw [hkey]
        rcases mem_ptrInsert hq with hq | rfl
        · left; rw [← h5]; exact hq
        · refine .inr ⟨_, List.mem_cons_self, hv, rfl, hfree, hne, ?_⟩
          simp only [← hws, List.map_map]
          rfl
      · intro q hq
        exact ptrInsert_sub (by rw [h5]; exact hq)
      · intro p hp _ _ _
        rw [hkey] at hp
        simp at hp
        subst hp
        exact ptrInsert_has ..
      · intro g _
        rw [hkey]
        simp only [List.mem_cons, List.not_mem_nil, or_false, exists_eq_left, own_var hv, hvd]
        show g ∈ s'.diags ↔ _
        rw [h6]
      · intro g hg
        show g ∈ s'.diags
        rw [h6]; exact hg
      · intro g _ hg
        left
        rw [← h6]; exact hg
      · intro p hp hw'
        rw [hkey] at hp
        simp at hp
        subst hp
        rw [hnw] at hw'
        cases hw'
      · rw [hkey]
        simp only [List.any_cons, List.any_nil, hiu, Bool.or_false]
        exact h7
      · exact h8
      · intro j
        left
        show ptrFind j s'.toDef = _
        rw [h9]
      · intro d hd hd'
        have hd' : d < s'.store.length := hd'
        omega
    · rw [if_neg hw]
      have hw0 : withsOf Γ = [] := by
        rw [← hws, List.map_eq_nil_iff]
        simpa using hw
      have hvd : varDiags P Γ v = match lookupPrimOp P (varName v) with
          | .found => []
          | .prefixedFound => [needsPrefixDiag v]
          | .notFound => [undefinedDiag v] := by
        unfold varDiags
        simp only [hv, hfree, hw0, List.isEmpty_nil, Bool.and_self, if_true]
        cases lookupPrimOp P (varName v) <;> rfl
      have hiu : internalUse P (Γ, v) = decide (lookupPrimOp P (varName v) = .found) := by
        unfold internalUse
        simp [hv, hfree, hw0]
      have hwuse : ∀ id, wuseOf id (Γ, v) = [] := by
        intro id
        unfold wuseOf
        simp [hw0]
      -- all three cases
      have gen : ∀ s' : VL, s'.store = s.store → s'.withDefs = s.withDefs → s'.withScopes = s.withScopes → s'.deep = s.deep →
          s'.toDef = s.toDef → s'.diags = s.diags ++ varDiags P Γ v → s'.bad = (s.bad || internalUse P (Γ, v)) →
          (s'.results = s.results ∧ internalUse P (Γ, v) = true ∨
            s'.results = ptrInsert v.id ⟨.undefined, none⟩ s.results ∧ lookupPrimOp P (varName v) ≠ .found) →
          s'.envs = s.envs → Eff P (nodeEv Γ env v) s s' := by
        intro s' h1 h2 h3 h4 h5 h6 h7 h8 h9
        have hg := get_of_store h1
        have hvk : ∀ g ∈ varDiags P Γ v, g.kind ≠ .extraWith := by
          intro g hg
          rw [hvd] at hg
          split at hg
          · cases hg
          · simp at hg; subst hg; simp [needsPrefixDiag]
          · simp at hg; subst hg; simp [undefinedDiag]
        refine ⟨⟨?_, ?_, ?_, ?_⟩, ⟨?_, ?_⟩, ?_, ?_, ?_, ?_, ?_, ?_, ?_, ?_, ?_, ?_, ?_, ?_, ?_, ?_, ?_, ?_, ?_, hdef _, hwsyn _ (by rw [h1]; exact Nat.le_refl _), henvS _ h9, henvM _ h9, henvA _ h9, hwdef _ h2⟩
        · rw [h1]; exact Nat.le_refl _
        · intro d _; rw [hg]; exact ⟨rfl, rfl⟩
        · rw [h2]; exact List.prefix_refl _
        · intro d _; rw [hg]; exact List.prefix_refl _
        · intro p hp; rw [h2] at hp; rw [h1, hg]; exact hi.src p hp
        · intro p hp q hq; rw [h2] at hp hq; exact hi.inj p hp q hq
        · intro d _ _; rw [hg, huse0, List.append_nil]
        · intro d hd hd'; rw [h1] at hd'; omega
        · intro id
          rw [wuses_of_eq h1 h2, hkey]
          simp [hwuse]
        · intro q hq
          rcases h8 with ⟨h8, -⟩ | ⟨h8, h8'⟩
          · rw [h8] at hq; exact .inl hq
          · rw [h8] at hq
            rw [hkey]
            rcases mem_ptrInsert hq with hq | rfl
            · exact .inl hq
            · exact .inr ⟨_, List.mem_cons_self, hv, rfl, hfree, hw0, rfl, h8'⟩
        · intro q hq
          rcases h8 with ⟨h8, -⟩ | ⟨h8, -⟩
          · rw [h8]; exact hq
          · rw [h8]; exact ptrInsert_sub hq
        · intro p hp _ hni
          rw [hkey] at hp
          simp at hp
          subst hp
          rcases h8 with ⟨-, h8⟩ | ⟨h8, -⟩
          · rw [h8] at hni; cases hni
          · rw [h8]; exact ptrInsert_has ..
        · intro q hq; rw [h3] at hq; exact .inl hq
        · intro q hq; rw [h3]; exact hq
        · intro p hp _ _ hne
          rw [hkey] at hp
          simp at hp
          subst hp
          exact absurd hw0 hne
        · intro g _
          rw [hkey, h6]
          simp only [List.mem_cons, List.not_mem_nil, or_false, exists_eq_left, own_var hv, List.mem_append]
        · intro g hg; rw [h6]; exact List.mem_append_left _ hg
        · intro g hk hg
          rw [h6] at hg
          rcases List.mem_append.mp hg with hg | hg
          · exact .inl hg
          · exact absurd hk (hvk g hg)
        · intro p hp hw'
          rw [hkey] at hp
          simp at hp
          subst hp
          rw [hnw] at hw'
          cases hw'
        · rw [hkey, h7]; simp
        · exact h4
        · intro j; left; rw [h5]
        · intro d hd hd'; rw [h1] at hd'; omega
      rcases hl : lookupPrimOp P (varName v) with _ | _ | _
      · refine gen _ rfl rfl rfl rfl rfl ?_ ?_ (.inl ⟨rfl, ?_⟩) rfl
        · rw [hvd, hl]; simp
        · rw [hiu, hl]; simp
        · rw [hiu, hl]; rfl
      · refine gen _ rfl rfl rfl rfl rfl ?_ ?_ (.inr ⟨rfl, ?_⟩) rfl
        · rw [hvd, hl]; rfl
        · rw [hiu, hl]; simp [VL.emit]
        · rw [hl]; simp
      · refine gen _ rfl rfl rfl rfl rfl ?_ ?_ (.inr ⟨rfl, ?_⟩) rfl
        · rw [hvd, hl]; rfl
        · rw [hiu, hl]; simp [VL.emit]
        · rw [hl]; simp
  · obtain ⟨hd1, hd2, hd3⟩ := envOk_some he hf
    have hfree : free Γ (varName v) = false := by
      rcases h : free Γ (varName v) with _ | _
      · rfl
      · rw [(envOk_none he).mpr h] at hf
        cases hf
    have hvd : varDiags P Γ v = [] := by unfold varDiags; simp [hfree]
    have hiu : internalUse P (Γ, v) = false := by unfold internalUse; simp [hfree]
    have hwuse : ∀ id, wuseOf id (Γ, v) = [] := by intro id; unfold wuseOf; simp [hfree]
    have h1 := get_usedBy s d v
    obtain ⟨h2, h3, h4, h5, h6, h7, h8, h9, h10⟩ := usedBy_rest s d v
    dsimp only
    generalize s.usedBy d v = s' at h1 h2 h3 h4 h5 h6 h7 h8 h9 h10
    have hext : Ext s { s' with results := ptrInsert v.id ⟨.defined, some d⟩ s.results } := by
      refine ⟨Nat.le_of_eq h2.symm, fun d _ => ⟨(h1 d).1, (h1 d).2.1⟩, ?_, fun d' hd' => ?_⟩
      · show s.withDefs <+: s'.withDefs
        rw [h3]; exact List.prefix_refl _
      · show _ <+: (s'.get d').uses
        rw [(h1 d').2.2 hd']
        exact List.prefix_append _ _
    refine ⟨hext, ⟨?_, ?_⟩, ?_, ?_, ?_, ?_, ?_, ?_, ?_, ?_, ?_, ?_, ?_, ?_, ?_, ?_, ?_, ?_, ?_, hdef _, hwsyn _ (Nat.le_of_eq h2), henvS _ h10, henvM _ h10, henvA _ h10, hwdef _ h3⟩
    · intro p hp
      have hp : p ∈ s.withDefs := by rw [← h3]; exact hp
      have := hi.src p hp
      exact ⟨by show _ < s'.store.length; rw [h2]; exact this.1, (h1 _).2.1.trans this.2⟩
    · intro p hp q hq
      have hp : p ∈ s.withDefs := by rw [← h3]; exact hp
      have hq : q ∈ s.withDefs := by rw [← h3]; exact hq
      exact hi.inj p hp q hq
    · intro d' hd' _
      show (s'.get d').uses = _
      rw [(h1 d').2.2 hd', huse, hf]
      simp
    · intro d' hd hd'
      have hd' : d' < s'.store.length := hd'
      omega
    · intro id
      rw [hkey]
      simp only [List.flatMap_cons, List.flatMap_nil, hwuse, List.append_nil]
      unfold wuses
      show (match ptrFind id s'.withDefs with | some d => (s'.get d).uses | none => []) = _
      rw [h3]
      rcases hp : ptrFind id s.withDefs with _ | d0
      · rfl
      · have hm := hi.src _ (ptrFind_mem hp)
        show (s'.get d0).uses = _
        rw [(h1 d0).2.2 hm.1]
        have : d ≠ d0 := by rintro rfl; exact hd3 hm.2
        simp [this]
    · intro q hq
      rw [hkey]
      rcases mem_ptrInsert hq with hq | rfl
      · exact .inl hq
      · refine .inr ⟨_, List.mem_cons_self, hv, rfl, d, rfl, ?_, ?_, ?_, ?_⟩
        · show d < s'.store.length
          omega
        · show resolve Γ _ = some ((s'.get d).syntax_, (s'.get d).source)
          rw [(h1 d).1, (h1 d).2.1]; exact hd2
        · show (s'.get d).source ≠ _
          rw [(h1 d).2.1]; exact hd3
        · show v ∈ (s'.get d).uses
          rw [(h1 d).2.2 hd1]; simp
    · intro q hq
      exact ptrInsert_sub hq
    · intro p hp _ _
      rw [hkey] at hp
      simp at hp
      subst hp
      exact ptrInsert_has ..
    · intro q hq
      left; rw [← h5]; exact hq
    · intro q hq
      show q ∈ s'.withScopes
      rw [h5]; exact hq
    · intro p hp _ hfr
      rw [hkey] at hp
      simp at hp
      subst hp
      rw [hfree] at hfr
      cases hfr
    · intro g _
      rw [hkey]
      simp only [List.mem_cons, List.not_mem_nil, or_false, exists_eq_left, own_var hv, hvd]
      show g ∈ s'.diags ↔ _
      rw [h6]
    · intro g hg
      show g ∈ s'.diags
      rw [h6]; exact hg
    · intro g _ hg
      left
      rw [← h6]; exact hg
    · intro p hp hw'
      rw [hkey] at hp
      simp at hp
      subst hp
      rw [hnw] at hw'
      cases hw'
    · rw [hkey]
      simp only [List.any_cons, List.any_nil, hiu, Bool.or_false]
      exact h7
    · exact h8
    · intro j
      left
      show ptrFind j s'.toDef = _
      rw [h9]
    · intro d' hd hd'
      have hd' : d' < s'.store.length := hd'
      omega

/-! ### Parts -/

/-- What is to be proved about a recursive call. -/
def Good (P : PrimOps) (rec : Dfs) (k : Nat) : Prop := ∀ n Γ env s, sizeOf n ≤ k → (∀ q ∈ vis n, Shape q.2) → EnvOk s Γ env → Inv s →
    Eff P (nodeEv Γ env n) s (rec n env s)

/-- Visiting a part. -/
def step (rec : Dfs) (sc : Scope) (env : Env) (s : VL) (p : Bool × Node) : VL := rec p.2 (if p.1 then sc :: env else env) s

theorem below_parts {s : VL} {Γ : List Frame} {env : Env} {f : Frame} {sc : Scope} (he : EnvOk s Γ env) (hs : ScopeOk s f sc)
    (L : List (Bool × Node)) : Below s.store.length (L.flatMap (partEv Γ env f sc)) := by
  intro e hm x d hd
  obtain ⟨p, _, hp⟩ := List.mem_flatMap.mp hm
  unfold partEv at hp
  obtain ⟨q, _, rfl⟩ := List.mem_map.mp hp
  dsimp only at hd
  have h2 : EnvOk s (f :: Γ) (sc :: env) := ⟨hs, he⟩
  split at hd
  · exact (envOk_some h2 hd).1
  · exact (envOk_some he hd).1

theorem fold_eff {P : PrimOps} {rec : Dfs} {k : Nat} (ih : Good P rec k) {Γ : List Frame} {env : Env} {f : Frame} {sc : Scope} :
    ∀ (L : List (Bool × Node)) (s : VL), (∀ p ∈ L, sizeOf p.2 ≤ k ∧ ∀ q ∈ vis p.2, Shape q.2) → EnvOk s Γ env → ScopeOk s f sc →
      Inv s → Eff P (L.flatMap (partEv Γ env f sc)) s (L.foldl (step rec sc env) s) := by
  intro L
  induction L with
  | nil => intro s _ _ _ hi; exact .nil hi
  | cons p L ihL =>
    intro s hL he hs hi
    obtain ⟨h1, h2⟩ := hL p List.mem_cons_self
    have hp : Eff P (partEv Γ env f sc p) s (step rec sc env s p) := by
      have h3 : EnvOk s (if p.1 then f :: Γ else Γ) (if p.1 then sc :: env else env) := by
        split
        · exact ⟨hs, he⟩
        · exact he
      exact ih p.2 _ _ s h1 h2 h3 hi
    rw [List.flatMap_cons, List.foldl_cons]
    exact hp.trans (ihL _ (fun q hq => hL q (List.mem_cons_of_mem _ hq)) (he.mono hp.ext) (hs.mono hp.ext) hp.inv)
      (below_parts he hs L)

theorem parts_good {n : Node} {k : Nat} (hk : sizeOf n ≤ k + 1) (hs : ∀ q ∈ vis n, Shape q.2) :
    ∀ p ∈ parts n, sizeOf p.2 ≤ k ∧ ∀ q ∈ vis p.2, Shape q.2 := by
  intro p hp
  refine ⟨by have := parts_size hp; omega, fun q hq => ?_⟩
  have : ((if p.1 then q.1 ++ [frameOf n] else q.1, q.2) : List Frame × Node) ∈ vis n := by
    rw [vis_eq]
    exact List.mem_cons_of_mem _ (List.mem_flatMap.mpr ⟨p, hp, List.mem_map.mpr ⟨q, hq, rfl⟩⟩)
  have := hs _ this
  exact this

theorem shape_self {n : Node} (hs : ∀ q ∈ vis n, Shape q.2) : Shape n := hs ([], n) (by rw [vis_eq]; exact List.mem_cons_self)

/-! ### Before and after the parts -/

/-- Nothing is defined. -/
theorem pre_nil {P : PrimOps} {n : Node} {s : VL} (h1 : preDiags P n = []) (h2 : frameOf n = .names fun _ => none) (hi : Inv s)
    {sc : Scope} (hsc : sc.defs = []) (hw : isWith sc = false) : Pre P n s sc s where
  store := ⟨[], by simp, by simp⟩
  scope := by rw [h2]; exact ⟨hw, by simp [hsc, keyFind_nil], by simp [hsc, keyFind_nil]⟩
  find_ge := by simp [hsc, keyFind_nil]
  find_inj := by simp [hsc, keyFind_nil]
  own d h h' := by omega
  wdefs := List.prefix_refl _
  inv := hi
  wuses _ := rfl
  diags := by simp [h1]
  kinds := by simp [h1]
  results := rfl
  withScopes := rfl
  bad := rfl
  deep := rfl
  toDefFrom j := .inl rfl
  toDefHas d h h' := by omega
  wsyn d h h' := by omega
  envs := rfl
  wdef q hq := .inl hq

theorem get_append_left {s s' : VL} {L : List Def} (h : s'.store = s.store ++ L) {d : Nat} (hd : d < s.store.length) :
    s'.get d = s.get d := by
  unfold VL.get
  rw [h, List.getD_eq_getElem?_getD, List.getD_eq_getElem?_getD, List.getElem?_append_left hd]

theorem get_append_right {s s' : VL} {L : List Def} (h : s'.store = s.store ++ L) {i : Nat} {x : Def} (hx : L[i]? = some x) :
    s'.get (s.store.length + i) = x := by
  unfold VL.get
  rw [h, List.getD_eq_getElem?_getD, List.getElem?_append_right (by omega), Nat.add_sub_cancel_left, hx]
  rfl

theorem addDiags_kind {P : PrimOps} {e : Ent} {g : Diagnostic} (h : g ∈ addDiags P e) : g.kind ≠ .extraWith := by
  unfold addDiags at h
  rcases List.mem_append.mp h with h | h <;> split at h <;> simp at h <;> subst h <;> simp

/-- The definitions of a node are made. -/
theorem pre_names {P : PrimOps} {n : Node} {s s0 s1 : VL} {m : List (Bytes × Nat)} {extra : List Diagnostic} (hs : Shape n)
    (hfr : ∃ b, frameOf n = .names b) (hw : isWithN n = false) (hi : Inv s)
    (h0 : s0 = { s with diags := s.diags ++ extra }) (ha : Added P (entsOf n) [] s0 m s1)
    (hp : preDiags P n = extra ++ (entsOf n).flatMap (addDiags P)) (hk : ∀ g ∈ extra, g.kind ≠ .extraWith) :
    Pre P n s ⟨m, n⟩ s1 := by
  have he := entsOk hs
  have hst : s1.store = s.store ++ (entsOf n).map fun e => ⟨e.2.1, e.2.2.1, []⟩ := by rw [ha.store, h0]
  have hl0 : s0.store.length = s.store.length := by rw [h0]
  have hlen : s1.store.length = s.store.length + (entsOf n).length := by rw [hst]; simp
  have hget : ∀ i e, (entsOf n)[i]? = some e → s1.get (s.store.length + i) = ⟨e.2.1, e.2.2.1, []⟩ := by
    intro i e hie
    exact get_append_right hst (by rw [List.getElem?_map, hie]; rfl)
  have hlt : ∀ i e, (entsOf n)[i]? = some e → i < (entsOf n).length := by
    intro i e hie
    exact (List.getElem?_eq_some_iff.mp hie).1
  have hfind : ∀ x d, keyFind x m = some d ↔ ∃ i e, (entsOf n)[i]? = some e ∧ e.1 = x ∧ d = s.store.length + i := by
    intro x d
    rw [ha.find, keyFind_nil, hl0]
    simp
  have hidx : ∀ d, s.store.length ≤ d → d < s1.store.length → ∃ i e, (entsOf n)[i]? = some e ∧ d = s.store.length + i := by
    intro d hd hd'
    have hi' : d - s.store.length < (entsOf n).length := by omega
    exact ⟨d - s.store.length, _, List.getElem?_eq_getElem hi', by omega⟩
  obtain ⟨hr1, hr2, hr3, hr4, hr5, hr6⟩ := ha.rest
  have hwd : s1.withDefs = s.withDefs := by rw [hr1, h0]
  refine ⟨⟨_, hst, ?_⟩, ?_, ?_, ?_, ?_, ?_, ?_, ?_, ?_, ?_, ?_, ?_, ?_, ?_, ?_, ?_, ?_, ?_, ?_⟩
  · intro x hx
    obtain ⟨e, _, rfl⟩ := List.mem_map.mp hx
    rfl
  · obtain ⟨b, hb⟩ := hfr
    have hbinds := he.binds
    rw [hb] at hbinds
    rw [hb]
    refine ⟨?_, ?_, ?_⟩
    · unfold isWith isWithN at *
      exact hw
    · intro x
      constructor
      · intro hkf
        rcases hbx : b x with _ | ⟨k, src⟩
        · rfl
        · obtain ⟨e, hem, h1, -, -⟩ := (hbinds x k src).mp hbx
          obtain ⟨i, hie⟩ := List.getElem?_of_mem hem
          rw [(hfind x _).mpr ⟨i, e, hie, h1, rfl⟩] at hkf
          cases hkf
      · intro hbx
        rcases hkf : keyFind x m with _ | d
        · rfl
        · obtain ⟨i, e, hie, h1, -⟩ := (hfind x d).mp hkf
          have := (hbinds x e.2.1 e.2.2.1).mpr ⟨e, List.mem_of_getElem? hie, h1, rfl, rfl⟩
          rw [Frame.binds, hbx] at this
          cases this
    · intro x d hkf
      obtain ⟨i, e, hie, h1, rfl⟩ := (hfind x d).mp hkf
      rw [hget i e hie]
      have := hlt i e hie
      refine ⟨by omega, (hbinds x e.2.1 e.2.2.1).mpr ⟨e, List.mem_of_getElem? hie, h1, rfl, rfl⟩,
        (he.source e (List.mem_of_getElem? hie)).1, fun d' hd' => ?_⟩
      have := (hfind x d').mpr (by simpa [hl0] using (ha.mem x d').mp hd')
      rw [hkf] at this
      cases this
      rfl
  · intro x d h
    obtain ⟨i, e, _, _, rfl⟩ := (hfind x d).mp h
    omega
  · intro x y d hx hy
    obtain ⟨i, e, hie, h1, h2⟩ := (hfind x d).mp hx
    obtain ⟨j, e', hje, h3, h4⟩ := (hfind y d).mp hy
    have : i = j := by omega
    subst this
    rw [hie] at hje
    cases hje
    exact h1.symm.trans h3
  · intro d hd hd' _
    obtain ⟨i, e, hie, rfl⟩ := hidx d hd hd'
    exact ⟨e.1, (hfind _ _).mpr ⟨i, e, hie, rfl, rfl⟩⟩
  · rw [hwd]; exact List.prefix_refl _
  · constructor
    · intro p hp
      rw [hwd] at hp
      have := hi.src p hp
      rw [get_append_left hst this.1]
      exact ⟨by omega, this.2⟩
    · rw [hwd]; exact hi.inj
  · intro id
    unfold wuses
    rw [hwd]
    split
    · rename_i d hd
      rw [get_append_left hst (hi.src _ (ptrFind_mem hd)).1]
    · rfl
  · intro g
    rw [ha.diags, hp, h0]
    simp only [List.mem_append, or_assoc]
  · intro g hg
    rw [hp] at hg
    rcases List.mem_append.mp hg with hg | hg
    · exact hk g hg
    · obtain ⟨e, _, hg⟩ := List.mem_flatMap.mp hg
      exact addDiags_kind hg
  · rw [hr2, h0]
  · rw [hr3, h0]
  · rw [hr4, h0]
  · rw [hr5, h0]
  · intro j
    rcases ha.toDefFrom j with h | ⟨i, e, hie, h1, h2⟩
    · left; rw [h, h0]
    · right
      have := hlt i e hie
      exact ⟨s.store.length + i, by omega, by omega, by rw [hget i e hie]; exact h1, by rw [h2, hl0]⟩
  · intro d hd hd'
    obtain ⟨i, e, hie, rfl⟩ := hidx d hd hd'
    rw [hget i e hie]
    exact ha.toDefHas e (List.mem_of_getElem? hie)
  · intro d hd hd' hs
    obtain ⟨i, e, hie, rfl⟩ := hidx d hd hd'
    rw [hget i e hie] at hs
    exact absurd hs (he.source e (List.mem_of_getElem? hie)).1
  · rw [hr6, h0]
  · intro q hq
    rw [hwd] at hq
    exact .inl hq

/-- The definitions of a node after its parts have been visited. -/
theorem own_defs {P : PrimOps} {n : Node} {Γ : List Frame} {env : Env} {s s0 s1 s2 : VL} {m : List (Bytes × Nat)}
    (hl : s0.store.length = s.store.length) (he : EnvOk s Γ env) (ha : Added P (entsOf n) [] s0 m s1)
    (pre : Pre P n s ⟨m, n⟩ s1) (fold : Eff P ((parts n).flatMap (partEv Γ env (frameOf n) ⟨m, n⟩)) s1 s2) :
    (∀ p ∈ m, ∃ e ∈ entsOf n, e.1 = p.1 ∧ (s2.get p.2).syntax_ = e.2.1 ∧ (s2.get p.2).source = e.2.2.1 ∧
      (s2.get p.2).uses = usesIn n e.1) ∧
    (∀ e ∈ entsOf n, ∃ d, (e.1, d) ∈ m ∧ (s2.get d).syntax_ = e.2.1 ∧ (s2.get d).source = e.2.2.1 ∧
      (s2.get d).uses = usesIn n e.1) := by
  have key : ∀ i e, (entsOf n)[i]? = some e → (e.1, s.store.length + i) ∈ m ∧ (s2.get (s.store.length + i)).syntax_ = e.2.1 ∧
      (s2.get (s.store.length + i)).source = e.2.2.1 ∧ (s2.get (s.store.length + i)).uses = usesIn n e.1 := by
    intro i e hie
    have hk : keyFind e.1 m = some (s.store.length + i) := (ha.find _ _).mpr (.inr ⟨i, e, hie, rfl, by rw [hl]⟩)
    have hf := scopeOk_find pre.scope hk
    have hget : s1.get (s.store.length + i) = ⟨e.2.1, e.2.2.1, []⟩ := by
      rw [← hl]
      exact get_append_right ha.store (by rw [List.getElem?_map, hie]; rfl)
    have hkeep := fold.ext.keep _ hf.1
    refine ⟨keyFind_mem hk, by rw [hkeep.1, hget], by rw [hkeep.2, hget], ?_⟩
    rw [fold.uses _ hf.1 hf.2.2, hget, List.nil_append]
    exact uses_own (N := s.store.length) (fun x d h => (envOk_some he h).1) (by omega) hk pre.find_inj
  constructor
  · rintro ⟨x, d⟩ hp
    rcases (ha.mem x d).mp hp with hp | ⟨i, e, hie, h1, h2⟩
    · cases hp
    · rw [hl] at h2
      subst h2
      exact ⟨e, List.mem_of_getElem? hie, h1, (key i e hie).2⟩
  · intro e hem
    obtain ⟨i, hie⟩ := List.getElem?_of_mem hem
    exact ⟨_, key i e hie⟩

/-- The diagnostics of one definition in `emitEnvLivenessWarning`. -/
def livDiags (sc : Scope) (s : VL) (p : Bytes × Nat) : List Diagnostic :=
  if (s.get p.2).source = .lambdaArg then []
  else if (s.get p.2).syntax_.isNull then []
  else if (s.get p.2).uses.isEmpty then
    match unusedKind (s.get p.2).source with
    | none => []
    | some k =>
      [{ kind := k, range := (s.get p.2).syntax_.range, args := [p.1], tags := [.faded],
         fixes := if (s.get p.2).source = .let_ then unusedLetFix (s.get p.2).syntax_.range sc.syntax_ else [] }]
  else []

theorem liveness_eq {sc : Scope} {s : VL} (h : ∀ p ∈ sc.defs, (s.get p.2).source = .lambdaArg ∨ unusedKind (s.get p.2).source ≠ none) :
    emitEnvLivenessWarning sc s = { s with diags := s.diags ++ sc.defs.flatMap (livDiags sc s) } := by
  unfold emitEnvLivenessWarning
  have : ∀ (L : List (Bytes × Nat)) (t : VL), t.store = s.store → (∀ p ∈ L, p ∈ sc.defs) →
      L.foldl (livenessOne sc) t = { t with diags := t.diags ++ L.flatMap (livDiags sc s) } := by
    intro L
    induction L with
    | nil => intro t _ _; simp
    | cons p L ih =>
      intro t ht hL
      have h1 : livenessOne sc t p = { t with diags := t.diags ++ livDiags sc s p } := by
        unfold livenessOne livDiags
        simp only [get_of_store ht]
        split
        · simp
        · split
          · simp
          · split
            · rcases h p (hL p List.mem_cons_self) with h | h
              · contradiction
              · rcases hk : unusedKind (s.get p.2).source with _ | k
                · exact absurd hk h
                · rfl
            · simp
      rw [List.foldl_cons, h1, ih { t with diags := t.diags ++ livDiags sc s p } ht fun q hq => hL q (List.mem_cons_of_mem _ hq)]
      simp
  exact this sc.defs s rfl fun _ h => h

theorem unusedKind_ne {d : DefSource} {k : DK} (h : unusedKind d = some k) : k ≠ .extraWith := by
  cases d <;> simp [unusedKind] at h <;> subst h <;> simp

/-- Unused definitions are reported. -/
theorem post_liveness {P : PrimOps} {n : Node} {s2 : VL} {m : List (Bytes × Nat)} (hs : Shape n)
    (hsrc : ∀ e ∈ entsOf n, e.2.2.1 = .lambdaArg ∨ unusedKind e.2.2.1 ≠ none)
    (hp : postDiags P n = (entsOf n).filterMap (unusedDiag n)) (hw : isWithN n = false)
    (hown : (∀ p ∈ m, ∃ e ∈ entsOf n, e.1 = p.1 ∧ (s2.get p.2).syntax_ = e.2.1 ∧ (s2.get p.2).source = e.2.2.1 ∧
      (s2.get p.2).uses = usesIn n e.1) ∧
    (∀ e ∈ entsOf n, ∃ d, (e.1, d) ∈ m ∧ (s2.get d).syntax_ = e.2.1 ∧ (s2.get d).source = e.2.2.1 ∧
      (s2.get d).uses = usesIn n e.1)) : Post P n s2 (emitEnvLivenessWarning ⟨m, n⟩ s2) := by
  have hkey := (entsOk hs).key
  have hone : ∀ (p : Bytes × Nat) (e : Ent), e ∈ entsOf n → e.1 = p.1 → (s2.get p.2).syntax_ = e.2.1 →
      (s2.get p.2).source = e.2.2.1 → (s2.get p.2).uses = usesIn n e.1 →
      livDiags ⟨m, n⟩ s2 p = (unusedDiag n e).toList := by
    intro p e hem h1 h2 h3 h4
    unfold livDiags unusedDiag
    rw [h2, h3, h4, ← h1, hkey e hem]
    simp only [Bool.false_eq_true, if_false]
    by_cases hla : e.2.2.1 = .lambdaArg
    · simp [hla, unusedKind]
    · rw [if_neg hla]
      split
      · rcases hsrc e hem with h | h
        · exact absurd h hla
        · rcases hk : unusedKind e.2.2.1 with _ | k
          · exact absurd hk h
          · rfl
      · rfl
  have hmem : ∀ g, g ∈ m.flatMap (livDiags ⟨m, n⟩ s2) ↔ g ∈ postDiags P n := by
    intro g
    rw [hp]
    simp only [List.mem_flatMap, List.mem_filterMap]
    constructor
    · rintro ⟨p, hpm, hg⟩
      obtain ⟨e, hem, h1, h2, h3, h4⟩ := hown.1 p hpm
      rw [hone p e hem h1 h2 h3 h4] at hg
      exact ⟨e, hem, by simpa using hg⟩
    · rintro ⟨e, hem, hg⟩
      obtain ⟨d, hd, h2, h3, h4⟩ := hown.2 e hem
      exact ⟨(e.1, d), hd, by rw [hone (e.1, d) e hem rfl h2 h3 h4]; simpa using hg⟩
  have hk : ∀ g ∈ postDiags P n, g.kind ≠ .extraWith := by
    intro g hg
    rw [hp] at hg
    obtain ⟨e, _, hg⟩ := List.mem_filterMap.mp hg
    unfold unusedDiag at hg
    split at hg
    · split at hg
      · rename_i k hk
        cases hg
        exact unusedKind_ne hk
      · cases hg
    · cases hg
  rw [liveness_eq]
  · refine ⟨rfl, rfl, rfl, rfl, rfl, rfl, rfl, ?_, ?_, ?_, ?_, rfl⟩
    · intro g hg; exact List.mem_append_left _ hg
    · intro g _
      simp only [List.mem_append, hmem]
    · intro g hgk hg
      rcases List.mem_append.mp hg with hg | hg
      · exact .inl hg
      · exact absurd hgk (hk g ((hmem g).mp hg))
    · intro h; rw [hw] at h; cases h
  · intro p hp
    obtain ⟨e, hem, _, _, h3, _⟩ := hown.1 p hp
    rw [h3]
    exact hsrc e hem

/-- Only diagnostics are added. -/
theorem post_emit {P : PrimOps} {n : Node} {s2 : VL} {ds : List Diagnostic} (hp : postDiags P n = ds) (hw : isWithN n = false)
    (hk : ∀ g ∈ ds, g.kind ≠ .extraWith) : Post P n s2 { s2 with diags := s2.diags ++ ds } := by
  refine ⟨rfl, rfl, rfl, rfl, rfl, rfl, rfl, ?_, ?_, ?_, ?_, rfl⟩
  · intro g hg; exact List.mem_append_left _ hg
  · intro g _
    rw [hp]
    simp only [List.mem_append]
  · intro g hgk hg
    rcases List.mem_append.mp hg with hg | hg
    · exact .inl hg
    · exact absurd hgk (hk g hg)
  · intro h; rw [hw] at h; cases h

theorem post_nil {P : PrimOps} {n : Node} {s2 : VL} (hp : postDiags P n = []) (hw : isWithN n = false) : Post P n s2 s2 := by
  have h := post_emit (s2 := s2) hp hw (by simp)
  rw [List.append_nil] at h
  exact h

/-! ### Nodes -/

theorem EnvOk.of_envs {s : VL} {x : List (Nat × Env)} {Γ : List Frame} {env : Env} (h : EnvOk s Γ env) : EnvOk { s with envs := x } Γ env :=
  EnvOk.mono (s := s) (s' := { s with envs := x }) ⟨Nat.le_refl _, fun _ _ => ⟨rfl, rfl⟩, List.prefix_refl _, fun _ _ => List.prefix_refl _⟩ h

theorem Inv.of_envs {s : VL} {x : List (Nat × Env)} (h : Inv s) : Inv { s with envs := x } := ⟨h.src, h.inj⟩

/-- The environment of the node is recorded first. -/
theorem Eff.of_envs {P : PrimOps} {n : Node} {Γ : List Frame} {env : Env} {s s' : VL} (he : EnvOk s Γ env)
    (h : Eff P (nodeEv Γ env n) { s with envs := ptrInsert n.id env s.envs } s') : Eff P (nodeEv Γ env n) s s' := by
  have hext : Ext s s' := ⟨h.ext.len, h.ext.keep, h.ext.wdefs, h.ext.mono⟩
  refine ⟨hext, h.inv, h.uses, h.new, h.wuses, h.resSound, h.resMono, h.resAll, h.wsSound, h.wsMono,
    h.wsAll, h.diags, h.diagsMono, h.withSound, h.withAll, h.bad, h.deep, h.toDefFrom, h.toDefHas, h.defAll, h.wsyn, ?_, ?_, h.envAll, h.wdef⟩
  · intro q hq
    rcases h.envSound q hq with hq | hq
    · rcases mem_ptrInsert hq with hq | hq
      · exact .inl hq
      · refine .inr ⟨(Γ, n), ?_, by rw [hq], by rw [hq]; exact he.mono hext⟩
        rw [nodeEv_key Γ env ⟨[], .null⟩]
        exact List.mem_cons_self
    · exact .inr hq
  · exact fun q hq => h.envMono q (ptrInsert_sub hq)

/-- Nodes that are no binders. -/
theorem trivial_eff {P : PrimOps} {rec : Dfs} {k : Nat} (ih : Good P rec k) {n : Node} {Γ : List Frame} {env : Env} {s s3 : VL}
    (hk : sizeOf n ≤ k + 1) (hs : ∀ q ∈ vis n, Shape q.2) (he : EnvOk s Γ env) (hi : Inv s) (hv : isVar n = false) (hw : isWithN n = false)
    (hp : parts n = n.children.map fun c => (false, c)) (h1 : preDiags P n = []) (h2 : frameOf n = .names fun _ => none)
    (post : Post P n (trivialDispatch rec n env s) s3) : Eff P (nodeEv Γ env n) s s3 := by
  have pre : Pre P n s ⟨[], .null⟩ s := pre_nil h1 h2 hi rfl rfl
  refine node_eff hv he pre (fold_eff ih _ _ (parts_good hk hs) he pre.scope hi) (by rw [hw]; intro h; cases h) ?_
  have : (parts n).foldl (step rec ⟨[], .null⟩ env) s = trivialDispatch rec n env s := by
    rw [hp, List.foldl_map]
    rfl
  rw [this]
  exact post

theorem attrParts_fold {rec : Dfs} {sc : Scope} {env : Env} {st dy : List Node} {s : VL} {r : Bool} :
    (attrParts r st dy).foldl (step rec sc env) s =
      dfsDynamicAttrs rec dy (if r then sc :: env else env) (st.foldl (fun s a =>
        if (attrValue a).isNull then s
        else if r && attrKind a != .inherit then rec (attrValue a) (sc :: env) s else rec (attrValue a) env s) s) := by
  unfold attrParts dfsDynamicAttrs
  rw [List.foldl_append, List.foldl_map, foldl_flatMap', List.foldl_filter, List.foldl_filter]
  congr 1
  · funext s a
    cases (attrValue a).isNull <;> cases r <;> rfl
  · congr 1
    funext s a
    cases (attrValue a).isNull <;> cases r <;> cases attrKind a <;> rfl

theorem checkLetInherit_eq (P : PrimOps) (st : List Node) (s : VL) :
    checkLetInheritBuiltins P st s = { s with diags := s.diags ++ (checkLetInheritBuiltins P st {}).diags } ∧
      ∀ g ∈ (checkLetInheritBuiltins P st {}).diags, g.kind = .primOpRemovablePrefix := by
  have : ∀ (st : List Node) (s : VL), ∃ ds : List Diagnostic, (∀ g ∈ ds, g.kind = .primOpRemovablePrefix) ∧
      ∀ s : VL, checkLetInheritBuiltins P st s = { s with diags := s.diags ++ ds } := by
    intro st s
    unfold checkLetInheritBuiltins
    induction st with
    | nil => exact ⟨[], by simp, by simp⟩
    | cons a st ih =>
      obtain ⟨ds, h1, h2⟩ := ih
      by_cases hc : checkInheritedFromBuiltin a = true ∧ lookupPrimOp P (attrName a) = .found
      · refine ⟨{ kind := .primOpRemovablePrefix, range := (attrKey a).range,
                  fixes := [{ message := b!"remove unnecessary inherit", edits := [⟨(attrKey a).range, []⟩] }] } :: ds, ?_, fun s => ?_⟩
        · intro g hg
          rcases List.mem_cons.mp hg with rfl | hg
          · exact rfl
          · exact h1 g hg
        · rw [List.foldl_cons, if_pos hc, h2]
          simp [VL.emit]
      · refine ⟨ds, h1, fun s => ?_⟩
        rw [List.foldl_cons, if_neg hc, h2]
  obtain ⟨ds, h1, h2⟩ := this st s
  have hds : (checkLetInheritBuiltins P st {}).diags = ds := by rw [h2]; rfl
  rw [hds]
  exact ⟨h2 s, h1⟩

theorem checkBuiltins_eq (P : PrimOps) (n : Node) (s : VL) :
    checkBuiltins P n s = { s with diags := s.diags ++ (checkBuiltins P n {}).diags } ∧
      ∀ g ∈ (checkBuiltins P n {}).diags, g.kind = .primOpRemovablePrefix ∨ g.kind = .primOpUnknown := by
  unfold checkBuiltins
  split
  · split
    · split
      · simp
      · split
        · simp [VL.emit]
        · simp
        · split
          · simp
          · simp [VL.emit]
    · simp
  · simp

/-- Attribute sets. -/
theorem attrs_eff {P : PrimOps} {rec : Dfs} {k : Nat} (ih : Good P rec k) {h : Hd} {b r : Node} {st dy : List Node} {Γ : List Frame} {env : Env}
    {s : VL} (hk : sizeOf (Node.exprAttrs h b r st dy) ≤ k + 1) (hs : ∀ q ∈ vis (.exprAttrs h b r st dy), Shape q.2) (he : EnvOk s Γ env)
    (hi : Inv s) : Eff P (nodeEv Γ env (.exprAttrs h b r st dy)) s (dfsExprAttrs P rec (.exprAttrs h b r st dy) r st dy env s) := by
  have hsh := shape_self hs
  unfold dfsExprAttrs dfsAttrs
  by_cases hr : r.isNull = true
  · rw [if_pos hr]
    dsimp only
    have pre : Pre P (.exprAttrs h b r st dy) s ⟨[], .null⟩ s :=
      pre_nil (by simp [preDiags, entsOf, hr]) (by simp [frameOf, hr]) hi rfl rfl
    refine node_eff rfl he pre (fold_eff ih _ _ (parts_good hk hs) he pre.scope hi) (by intro h; cases h) ?_
    have : (parts (.exprAttrs h b r st dy)).foldl (step rec ⟨[], .null⟩ env) s =
        dfsDynamicAttrs rec dy env (st.foldl (fun s a => if (attrValue a).isNull then s else rec (attrValue a) env s) s) := by
      show (attrParts (!r.isNull) st dy).foldl _ _ = _
      rw [attrParts_fold, hr]
      rfl
    rw [this]
    exact post_nil (by simp [postDiags, hr]) rfl
  · have hr' : r.isNull = false := by simpa using hr
    rw [if_neg hr, attrsDefs_eq]
    have hents : entsOf (.exprAttrs h b r st dy) = setEnts st .rec_ := by simp [entsOf, hr']
    have ha : Added P (entsOf (.exprAttrs h b r st dy)) [] s (addAll P (setEnts st .rec_) ([], s)).1 (addAll P (setEnts st .rec_) ([], s)).2 := by
      rw [← hents]
      exact addAll_added (entsOk hsh).nodup (by simp [keyFind_nil])
    generalize addAll P (setEnts st .rec_) ([], s) = ms at ha
    obtain ⟨m, s1⟩ := ms
    simp only at ha ⊢
    have pre : Pre P (.exprAttrs h b r st dy) s ⟨m, .exprAttrs h b r st dy⟩ s1 :=
      pre_names (extra := []) hsh ⟨_, by simp [frameOf, hr', setFrame]; rfl⟩ rfl hi (by simp) ha (by simp [preDiags]) (by simp)
    have fold := fold_eff ih (f := frameOf (.exprAttrs h b r st dy)) (sc := ⟨m, .exprAttrs h b r st dy⟩) (parts (.exprAttrs h b r st dy)) s1
      (parts_good hk hs) (he.mono pre.ext) pre.scope pre.inv
    have hfold : (parts (.exprAttrs h b r st dy)).foldl (step rec ⟨m, .exprAttrs h b r st dy⟩ env) s1 =
        dfsDynamicAttrs rec dy (⟨m, .exprAttrs h b r st dy⟩ :: env) (st.foldl (fun s a => if (attrValue a).isNull then s
          else if attrKind a = .inherit then rec (attrValue a) env s else rec (attrValue a) (⟨m, .exprAttrs h b r st dy⟩ :: env) s) s1) := by
      show (attrParts (!r.isNull) st dy).foldl _ _ = _
      rw [attrParts_fold, hr']
      simp only [Bool.not_false, Bool.true_and, if_true]
      congr 2
      funext s a
      cases attrKind a <;> rfl
    rw [hfold] at fold
    generalize dfsDynamicAttrs rec dy (⟨m, .exprAttrs h b r st dy⟩ :: env) _ = s2 at fold
    have hown := own_defs rfl he ha pre fold
    refine node_eff rfl he pre fold (by intro h; cases h) ?_
    have hlive : isLive ⟨m, .exprAttrs h b r st dy⟩ s2 = (entsOf (.exprAttrs h b r st dy)).any (fun e => !(usesIn (.exprAttrs h b r st dy) e.1).isEmpty) := by
      unfold isLive
      rw [Bool.eq_iff_iff, List.any_eq_true, List.any_eq_true]
      constructor
      · rintro ⟨p, hp, hu⟩
        obtain ⟨e, hem, -, -, -, h4⟩ := hown.1 p hp
        exact ⟨e, hem, by rw [← h4]; exact hu⟩
      · rintro ⟨e, hem, hu⟩
        obtain ⟨d, hd, -, -, h4⟩ := hown.2 e hem
        exact ⟨(e.1, d), hd, by rw [h4]; exact hu⟩
    rw [hlive]
    split
    · rename_i hl
      exact post_nil (by simp only [postDiags]; rw [if_neg hr, if_pos hl]) rfl
    · rename_i hl
      exact post_emit (by simp only [postDiags]; rw [if_neg hr, if_neg hl]; rfl) rfl (by simp)

/-- Lambdas. -/
theorem lambda_eff {P : PrimOps} {rec : Dfs} {k : Nat} (ih : Good P rec k) {h : Hd} {a e : Node} {Γ : List Frame} {env : Env}
    {s : VL} (hk : sizeOf (Node.exprLambda h a e) ≤ k + 1) (hs : ∀ q ∈ vis (.exprLambda h a e), Shape q.2) (he : EnvOk s Γ env)
    (hi : Inv s) : Eff P (nodeEv Γ env (.exprLambda h a e)) s (dfsLambda P rec (.exprLambda h a e) a e env s) := by
  have hsh := shape_self hs
  unfold dfsLambda
  by_cases hn : e.isNull = true
  · rw [if_pos hn]
    have hfr : frameOf (.exprLambda h a e) = .names fun _ => none := by cases a <;> simp [frameOf, hn]
    have hent : entsOf (.exprLambda h a e) = [] := by cases a <;> simp [entsOf, hn]
    have hparts : parts (.exprLambda h a e) = [] := by cases a <;> simp [parts, hn]
    have pre : Pre P (.exprLambda h a e) s ⟨[], .null⟩ s := pre_nil (by simp [preDiags, hent]) hfr hi rfl rfl
    refine node_eff rfl he pre (fold_eff ih _ _ (parts_good hk hs) he pre.scope hi) (by intro h; cases h) ?_
    rw [hparts]
    exact post_nil (by simp [postDiags, hent]) rfl
  · rw [if_neg hn]
    have hn' : e.isNull = false := by simpa using hn
    cases a
    case lambdaArg h1 i f =>
      dsimp only
      rw [lambdaDefs_eq]
      have hents : entsOf (.exprLambda h (.lambdaArg h1 i f) e) = lambdaEnts i f := by simp [entsOf, hn']
      have ha : Added P (entsOf (.exprLambda h (.lambdaArg h1 i f) e)) [] s (addAll P (lambdaEnts i f) ([], s)).1 (addAll P (lambdaEnts i f) ([], s)).2 := by
        rw [← hents]
        exact addAll_added (entsOk hsh).nodup (by simp [keyFind_nil])
      have hsrc : ∀ e' ∈ entsOf (.exprLambda h (.lambdaArg h1 i f) e), e'.2.2.1 = .lambdaArg ∨ unusedKind e'.2.2.1 ≠ none := by
        rw [hents]
        intro e' he'
        unfold lambdaEnts at he'
        rcases List.mem_append.mp he' with he' | he'
        · split at he'
          · cases he'
          · split at he'
            · simp at he'; subst he'; simp
            · split at he'
              · cases he'
              · simp at he'; subst he'; simp [unusedKind]
        · split at he'
          · cases he'
          · obtain ⟨p, _, rfl⟩ := List.mem_map.mp he'
            right
            dsimp only
            split <;> simp [unusedKind]
      generalize addAll P (lambdaEnts i f) ([], s) = ms at ha
      obtain ⟨m, s1⟩ := ms
      simp only at ha ⊢
      have pre : Pre P (.exprLambda h (.lambdaArg h1 i f) e) s ⟨m, .exprLambda h (.lambdaArg h1 i f) e⟩ s1 :=
        pre_names (extra := []) hsh ⟨_, by simp [frameOf, hn', lambdaFrame]; rfl⟩ rfl hi (by simp) ha (by simp [preDiags]) (by simp)
      have fold := fold_eff ih (f := frameOf (.exprLambda h (.lambdaArg h1 i f) e)) (sc := ⟨m, .exprLambda h (.lambdaArg h1 i f) e⟩)
        (parts (.exprLambda h (.lambdaArg h1 i f) e)) s1 (parts_good hk hs) (he.mono pre.ext) pre.scope pre.inv
      have hfold : (parts (.exprLambda h (.lambdaArg h1 i f) e)).foldl (step rec ⟨m, .exprLambda h (.lambdaArg h1 i f) e⟩ env) s1 =
          rec e (⟨m, .exprLambda h (.lambdaArg h1 i f) e⟩ :: env) ((if f.isNull then [] else formalMembers f).foldl (fun s x =>
            if (formalDefault x).isNull then s else rec (formalDefault x) (⟨m, .exprLambda h (.lambdaArg h1 i f) e⟩ :: env) s) s1) := by
        have hf : (if f.isNull then [] else formalMembers f) = formalMembers f := by
          cases f <;> rfl
        simp only [parts, hn', Bool.false_eq_true, if_false]
        rw [hf, List.foldl_append, foldl_flatMap']
        simp only [List.foldl_cons, List.foldl_nil, step, if_true]
        congr 2
        funext s x
        unfold inScope
        cases (formalDefault x).isNull <;> rfl
      rw [hfold] at fold
      generalize rec e _ _ = s2 at fold
      have hown := own_defs rfl he ha pre fold
      exact node_eff rfl he pre fold (by intro h; cases h) (post_liveness hsh hsrc rfl rfl hown)
    all_goals
      exfalso
      simp only [Shape] at hsh
      exact hn hsh

/-- `let .. in ..`. -/
theorem let_eff {P : PrimOps} {rec : Dfs} {k : Nat} (ih : Good P rec k) {h : Hd} {kl ki e a : Node} {Γ : List Frame} {env : Env}
    {s : VL} (hk : sizeOf (Node.exprLet h kl ki e a) ≤ k + 1) (hs : ∀ q ∈ vis (.exprLet h kl ki e a), Shape q.2) (he : EnvOk s Γ env)
    (hi : Inv s) : Eff P (nodeEv Γ env (.exprLet h kl ki e a)) s (dfsLet P rec (.exprLet h kl ki e a) e a env s) := by
  have hsh := shape_self hs
  unfold dfsLet
  split
  · rename_i h1 b r st dy
    obtain ⟨hr, hg⟩ := hsh
    have hsh := shape_self hs
    obtain ⟨hc1, hc2⟩ := checkLetInherit_eq P st s
    have hbad : ({ s with bad := s.bad || r.isNull } : VL) = s := by rw [hr, Bool.or_false]
    dsimp only
    rw [hbad, hc1]
    unfold dfsAttrs
    rw [if_neg (by simp [hr]), attrsDefs_eq]
    generalize hs0 : ({ s with diags := s.diags ++ (checkLetInheritBuiltins P st {}).diags } : VL) = s0
    have hents : entsOf (.exprLet h kl ki e (.exprAttrs h1 b r st dy)) = setEnts st .let_ := rfl
    have ha : Added P (entsOf (.exprLet h kl ki e (.exprAttrs h1 b r st dy))) [] s0 (addAll P (setEnts st .let_) ([], s0)).1
        (addAll P (setEnts st .let_) ([], s0)).2 := by
      rw [← hents]
      exact addAll_added (entsOk hsh).nodup (by simp [keyFind_nil])
    generalize addAll P (setEnts st .let_) ([], s0) = ms at ha
    obtain ⟨m, s1⟩ := ms
    simp only at ha ⊢
    have pre : Pre P (.exprLet h kl ki e (.exprAttrs h1 b r st dy)) s ⟨m, .exprLet h kl ki e (.exprAttrs h1 b r st dy)⟩ s1 :=
      pre_names hsh ⟨_, rfl⟩ rfl hi hs0.symm ha rfl (fun g hg => by rw [hc2 g hg]; simp)
    have fold := fold_eff ih (f := frameOf (.exprLet h kl ki e (.exprAttrs h1 b r st dy)))
      (sc := ⟨m, .exprLet h kl ki e (.exprAttrs h1 b r st dy)⟩)
      (parts (.exprLet h kl ki e (.exprAttrs h1 b r st dy))) s1 (parts_good hk hs) (he.mono pre.ext) pre.scope pre.inv
    have hfold : ∀ sc : Scope, (parts (.exprLet h kl ki e (.exprAttrs h1 b r st dy))).foldl (step rec sc env) s1 =
        (if e.isNull then dfsDynamicAttrs rec dy (sc :: env) (st.foldl (fun s a => if (attrValue a).isNull then s
          else if attrKind a = .inherit then rec (attrValue a) env s else rec (attrValue a) (sc :: env) s) s1)
        else rec e (sc :: env) (dfsDynamicAttrs rec dy (sc :: env) (st.foldl (fun s a => if (attrValue a).isNull then s
          else if attrKind a = .inherit then rec (attrValue a) env s else rec (attrValue a) (sc :: env) s) s1))) := by
      intro sc
      show (attrParts true st dy ++ inScope e).foldl _ _ = _
      rw [List.foldl_append, attrParts_fold]
      simp only [Bool.true_and, if_true]
      have : (fun (s : VL) a => if (attrValue a).isNull = true then s else if (attrKind a != AttrKind.inherit) = true then rec (attrValue a) (sc :: env) s
          else rec (attrValue a) env s) = fun (s : VL) a => if (attrValue a).isNull = true then s
          else if attrKind a = .inherit then rec (attrValue a) env s else rec (attrValue a) (sc :: env) s := by
        funext s a
        cases attrKind a <;> rfl
      rw [this]
      unfold inScope
      cases e.isNull <;> rfl
    rw [hfold] at fold
    generalize hs2 : (if e.isNull then _ else _ : VL) = s2 at fold ⊢
    have hl0 : s0.store.length = s.store.length := by rw [← hs0]
    have hown := own_defs hl0 he ha pre fold
    refine node_eff rfl he pre fold (by intro h; cases h) (post_liveness hsh ?_ rfl rfl hown)
    intro e' he'
    rw [hents] at he'
    obtain ⟨x, _, rfl⟩ := List.mem_map.mp he'
    right
    simp [unusedKind]
  · rename_i ha
    have hfr : frameOf (.exprLet h kl ki e a) = .names fun _ => none := by
      cases a <;> first | rfl | exact absurd rfl (ha _ _ _ _ _)
    have hent : entsOf (.exprLet h kl ki e a) = [] := by
      cases a <;> first | rfl | exact absurd rfl (ha _ _ _ _ _)
    have hpre : preDiags P (.exprLet h kl ki e a) = [] := by
      cases a <;> first | rfl | exact absurd rfl (ha _ _ _ _ _)
    have hparts : parts (.exprLet h kl ki e a) = inScope e := by
      cases a <;> first | rfl | exact absurd rfl (ha _ _ _ _ _)
    have pre : Pre P (.exprLet h kl ki e a) s ⟨[], .exprLet h kl ki e a⟩ s := pre_nil hpre hfr hi rfl rfl
    refine node_eff rfl he pre (fold_eff ih _ _ (parts_good hk hs) he pre.scope hi) (by intro h; cases h) ?_
    have : (parts (.exprLet h kl ki e a)).foldl (step rec ⟨[], .exprLet h kl ki e a⟩ env) s =
        if e.isNull then s else rec e (⟨[], .exprLet h kl ki e a⟩ :: env) s := by
      rw [hparts]
      unfold inScope
      cases e.isNull <;> rfl
    rw [this]
    exact post_nil (by simp [postDiags, hent]) rfl

/-- `with`. -/
theorem with_eff {P : PrimOps} {rec : Dfs} {k : Nat} (ih : Good P rec k) {h : Hd} {kw semi w e : Node} {Γ : List Frame} {env : Env}
    {s : VL} (hk : sizeOf (Node.exprWith h kw semi w e) ≤ k + 1) (hs : ∀ q ∈ vis (.exprWith h kw semi w e), Shape q.2) (he : EnvOk s Γ env)
    (hi : Inv s) : Eff P (nodeEv Γ env (.exprWith h kw semi w e)) s (dfsWith rec (.exprWith h kw semi w e) kw semi w e env s) := by
  unfold dfsWith
  generalize hn : Node.exprWith h kw semi w e = n at *
  have hv : isVar n = false := by rw [← hn]; rfl
  have hw : isWithN n = true := by rw [← hn]; rfl
  have hfr : frameOf n = .with_ n := by rw [← hn]; rfl
  have hpd : preDiags P n = [] := by rw [← hn]; rfl
  have hqd : postDiags P n = [] := by rw [← hn]; rfl
  have hsw : isWith ⟨[], n⟩ = true := by rw [← hn]; rfl
  have hwd : withDiag n = ⟨.extraWith, kw.range, [], [], [⟨b!"remove `with` expression", [⟨kw.range, []⟩] ++
      (if semi.isNull then [] else [⟨semi.range, []⟩]) ++ (if w.isNull then [] else [⟨w.range, []⟩])⟩], []⟩ := by rw [← hn]; rfl
  have hparts : parts n = (if w.isNull then [] else [(false, w)]) ++ inScope e := by rw [← hn]; rfl
  dsimp only
  generalize hs1 : (if s.withDefs.any (fun p => p.1 == n.id) = true then s else _ : VL) = s1
  have pre : Pre P n s ⟨[], n⟩ s1 ∧ ∃ d, ptrFind n.id s1.withDefs = some d := by
    by_cases hin : s.withDefs.any (fun p => p.1 == n.id) = true
    · rw [if_pos hin] at hs1
      subst hs1
      have hf : ∃ d, ptrFind n.id s.withDefs = some d := by
        obtain ⟨p, hp, hpe⟩ := List.any_eq_true.mp hin
        simp at hpe
        exact ptrFind_some_of_mem (d := p.2) (hpe ▸ hp)
      refine ⟨⟨⟨[], by simp, by simp⟩, by rw [hfr]; exact ⟨hsw, rfl, rfl, hf⟩, by simp [keyFind_nil], by simp [keyFind_nil],
        fun d h h' => by omega, List.prefix_refl _, hi, fun _ => rfl, by simp [hpd], by simp [hpd], rfl, rfl, rfl, rfl, fun j => .inl rfl,
        fun d h h' => by omega, fun d h h' => by omega, rfl, fun q hq => .inl hq⟩, hf⟩
    · rw [if_neg hin] at hs1
      have hnone : ptrFind n.id s.withDefs = none := by
        rw [ptrFind_none]
        intro p hp hpe
        exact hin (List.any_eq_true.mpr ⟨p, hp, by simpa using hpe⟩)
      have h1 : s1.store = s.store ++ [⟨kw, .with_, []⟩] := by rw [← hs1]; rfl
      have h2 : s1.withDefs = s.withDefs ++ [(n.id, s.store.length)] := by rw [← hs1]
      have h3 : s1.toDef = ptrAssign kw.id s.store.length s.toDef := by rw [← hs1]
      have hf : ptrFind n.id s1.withDefs = some s.store.length := by
        rw [h2, ptrFind_append, hnone]
        simp [ptrFind]
      have hget : s1.get s.store.length = ⟨kw, .with_, []⟩ := get_append_right (i := 0) h1 rfl
      have hlen : s1.store.length = s.store.length + 1 := by rw [h1]; simp
      refine ⟨⟨⟨_, h1, by simp⟩, by rw [hfr]; exact ⟨hsw, rfl, rfl, _, hf⟩, by simp [keyFind_nil], by simp [keyFind_nil], ?_,
        ⟨_, h2.symm⟩, ⟨?_, ?_⟩, ?_, by rw [← hs1]; simp [hpd, VL.alloc], by simp [hpd], by rw [← hs1]; rfl, by rw [← hs1]; rfl, by rw [← hs1]; rfl,
        by rw [← hs1]; rfl, ?_, ?_, ?_, by rw [← hs1]; rfl, ?_⟩, _, hf⟩
      · intro d hd hd' hsrc
        have : d = s.store.length := by omega
        subst this
        rw [hget] at hsrc
        exact absurd rfl hsrc
      · intro p hp
        rw [h2] at hp
        rcases List.mem_append.mp hp with hp | hp
        · have := hi.src p hp
          rw [get_append_left h1 this.1]
          exact ⟨by omega, this.2⟩
        · simp at hp
          subst hp
          rw [hget]
          exact ⟨by omega, rfl⟩
      · intro p hp q hq hpq
        rw [h2] at hp hq
        rcases List.mem_append.mp hp with hp | hp <;> rcases List.mem_append.mp hq with hq | hq
        · exact hi.inj p hp q hq hpq
        · simp at hq
          subst hq
          have := (hi.src p hp).1
          simp only at hpq
          omega
        · simp at hp
          subst hp
          have := (hi.src q hq).1
          simp only at hpq
          omega
        · simp at hp hq
          rw [hp, hq]
      · intro id
        unfold wuses
        rw [h2, ptrFind_append]
        rcases hp : ptrFind id s.withDefs with _ | d
        · simp only [Option.none_or]
          by_cases hid : n.id = id
          · simp [ptrFind, hid, hget]
          · simp [ptrFind, hid]
        · simp only [Option.some_or]
          rw [get_append_left h1 (hi.src _ (ptrFind_mem hp)).1]
      · intro j
        rw [h3, ptrFind_assign]
        by_cases hj : kw.id = j
        · exact .inr ⟨s.store.length, Nat.le_refl _, by omega, by rw [hget]; exact hj, by rw [if_pos hj]⟩
        · left; rw [if_neg hj]
      · intro d hd hd'
        have : d = s.store.length := by omega
        subst this
        rw [hget, h3, ptrFind_assign, if_pos rfl]
        exact ⟨_, rfl⟩
      · intro d hd hd' _
        have : d = s.store.length := by omega
        subst this
        rw [hget]
        exact ⟨hf, h, semi, w, e, hn.symm⟩
      · intro q hq
        rw [h2] at hq
        rcases List.mem_append.mp hq with hq | hq
        · exact .inl hq
        · simp at hq
          subst hq
          rw [hget]
          exact .inr ⟨rfl, h, semi, w, e, hn.symm⟩
  obtain ⟨pre, dw, hdw⟩ := pre
  have fold := fold_eff ih (f := frameOf n) (sc := ⟨[], n⟩) (parts n) s1 (parts_good hk hs) (he.mono pre.ext) pre.scope pre.inv
  have hfold : (parts n).foldl (step rec ⟨[], n⟩ env) s1 =
      if e.isNull then (if w.isNull then s1 else rec w env s1) else rec e (⟨[], n⟩ :: env) (if w.isNull then s1 else rec w env s1) := by
    rw [hparts, List.foldl_append]
    unfold inScope
    cases e.isNull <;> cases w.isNull <;> rfl
  rw [hfold] at fold
  generalize (if e.isNull then _ else _ : VL) = s2 at fold ⊢
  refine node_eff hv he pre fold (fun _ => hfr) ?_
  have hdw2 : ptrFind n.id s2.withDefs = some dw := ptrFind_ext fold.ext hdw
  have hwu : wuses s2 n.id = (s2.get ((ptrFind n.id s2.withDefs).getD 0)).uses := by
    unfold wuses
    rw [hdw2]
    rfl
  rw [← hwu]
  split
  · rename_i hemp
    have hemp : wuses s2 n.id = [] := by simpa using hemp
    refine ⟨rfl, rfl, rfl, rfl, rfl, rfl, rfl, ?_, ?_, ?_, ?_, rfl⟩
    · intro g hg; exact List.mem_append_left _ hg
    · intro g hgk
      rw [hqd]
      simp only [VL.emit, List.mem_append, List.not_mem_nil, or_false, List.mem_cons]
      constructor
      · rintro (h | h)
        · exact h
        · subst h; exact absurd rfl hgk
      · exact .inl
    · intro g hgk hg
      simp only [VL.emit, List.mem_append, List.mem_cons, List.not_mem_nil, or_false] at hg
      rcases hg with hg | hg
      · exact .inl hg
      · exact .inr ⟨hw, by rw [hwd]; exact hg, hemp⟩
    · intro _ _
      rw [hwd]
      simp [VL.emit]
  · rename_i hemp
    have hemp : wuses s2 n.id ≠ [] := by simpa using hemp
    exact ⟨rfl, rfl, rfl, rfl, rfl, rfl, rfl, fun g hg => hg, by simp [hqd], fun g _ hg => .inl hg, fun _ h => absurd h hemp, rfl⟩

/-- `let { .. }`. -/
theorem legacy_eff {P : PrimOps} {n c : Node} {Γ : List Frame} {env : Env} {s s' : VL}
    (hv : isVar n = false) (hw : isWithN n = false) (he : EnvOk s Γ env) (hi : Inv s) (hp : parts n = [(false, c)])
    (h1 : preDiags P n = []) (h2 : frameOf n = .names fun _ => none) (h3 : postDiags P n = []) (h : Eff P (nodeEv Γ env c) s s') :
    Eff P (nodeEv Γ env n) s s' := by
  have pre : Pre P n s ⟨[], .null⟩ s := pre_nil h1 h2 hi rfl rfl
  refine node_eff hv he pre (s2 := s') ?_ (by rw [hw]; intro h; cases h) (post_nil h3 hw)
  rw [hp]
  simp only [List.flatMap_cons, List.flatMap_nil, List.append_nil]
  exact h

theorem dfs_eff (P : PrimOps) : ∀ k, Good P (dfs P k) k := by
  intro k
  induction k with
  | zero =>
    intro n Γ env s hk
    cases n <;> simp at hk
  | succ k ih =>
    intro n Γ env s hk hs he hi
    refine Eff.of_envs he ?_
    unfold dfs
    dsimp only
    have hin : ∃ e, (n.id, e) ∈ ({ s with envs := ptrInsert n.id env s.envs } : VL).envs := ptrInsert_has ..
    replace he : EnvOk { s with envs := ptrInsert n.id env s.envs } Γ env := he.of_envs
    replace hi : Inv { s with envs := ptrInsert n.id env s.envs } := hi.of_envs
    generalize ({ s with envs := ptrInsert n.id env s.envs } : VL) = s at he hi hin
    cases n
    case exprVar => exact lookupVar_eff rfl he hi hin
    case exprLambda => exact lambda_eff ih hk hs he hi
    case exprAttrs => exact attrs_eff ih hk hs he hi
    case exprLet => exact let_eff ih hk hs he hi
    case exprWith => exact with_eff ih hk hs he hi
    case exprLegacyLet h kl a =>
      cases a
      case exprAttrs h1 b r st dy =>
        dsimp only
        refine legacy_eff rfl rfl he hi rfl rfl rfl rfl (attrs_eff ih ?_ ?_ he hi)
        · have := parts_size (n := .exprLegacyLet h kl (.exprAttrs h1 b r st dy)) (p := (false, .exprAttrs h1 b r st dy)) List.mem_cons_self
          simp only at this
          omega
        · exact ((parts_good hk hs) (false, .exprAttrs h1 b r st dy) List.mem_cons_self).2
      all_goals
        refine node_eff (n := .exprLegacyLet h kl _) rfl he (sc := ⟨[], .null⟩) (s1 := s) (s2 := s) (pre_nil rfl rfl hi rfl rfl) (.nil hi) (by intro h; cases h) ?_
        exact post_nil rfl rfl
    case exprSelect h e d p df ds =>
      dsimp only
      refine trivial_eff ih hk hs he hi rfl rfl rfl rfl rfl ?_
      obtain ⟨h1, h2⟩ := checkBuiltins_eq P (.exprSelect h e d p df ds) (trivialDispatch (dfs P k) (.exprSelect h e d p df ds) env s)
      rw [h1]
      exact post_emit rfl rfl (fun g hg => by rcases h2 g hg with h | h <;> rw [h] <;> simp)
    all_goals exact trivial_eff ih hk hs he hi rfl rfl rfl rfl rfl (post_nil rfl rfl)

end Verif.Nixf.Scoping
