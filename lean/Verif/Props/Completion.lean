import Verif.Lemmas.Completion
import Verif.Props.Rename
import Verif.Props.SemanticTokens
import Verif.Props.AttrPath
/-
C32, C62, C63, C64: completion.
-/
namespace Verif.Props
open Nixf Node Scoping Idioms Complete

theorem idName_eq (v : Node) : idName v = varName v := by cases v <;> rfl

theorem inside_outer {root n c : Node} {Δ : List Frame} (h : Inside root Δ n) (hc : (false, c) ∈ Scoping.parts n) : Inside root Δ c := by
  have := inside_trans h (.outer n c [] c hc (.here c))
  simpa using this

theorem names_texts {root : Node} {src : Bytes} {st : PState} (hp : parse src = some (root, st)) : ∀ (ns : List Node) (sel : List Bytes),
    (∀ n ∈ ns, Reach root n ∧ Grammar.IsName n) →
    pathSelector ns sel = match ns.mapM AttrPaths.textOf with
      | some ts => .ok (sel ++ ts)
      | none => .error .dynamicName
  | [], sel, _ => by simp [pathSelector]
  | n :: ns, sel, h => by
    rw [pathSelector, static_text hp (h n (.head _)).1 (h n (.head _)).2, List.mapM_cons]
    rcases ht : AttrPaths.textOf n with _ | t
    · rfl
    · show pathSelector ns (sel ++ [t]) = _
      rw [names_texts hp ns (sel ++ [t]) fun m hm => h m (.tail _ hm)]
      rcases ns.mapM AttrPaths.textOf with _ | ts
      · rfl
      · simp

section
variable (P : PrimOps) {src : Bytes} {root : Node} {st : PState} (hp : parse src = some (root, st)) {fuel : Nat}
  (hfuel : sizeOf root ≤ fuel)
include hp hfuel

theorem env_at {Δ : List Frame} {v : Node} (hv : Occurs root Δ v) :
    ∃ env, ptrFind v.id (runVL P fuel root).envs = some env ∧ EnvOk (runVL P fuel root) (full P Δ) env := by
  have h := run_ok P hfuel (parse_wellFormed hp)
  obtain ⟨e, he⟩ := h.envAll Δ v hv
  obtain ⟨env, henv⟩ := ptrFind_some_of_mem he
  obtain ⟨Δ', m, hm, hid, hok⟩ := h.envSound _ (ptrFind_mem henv)
  obtain ⟨rfl, rfl⟩ := parse_faithful hp _ _ _ _ hm hv.1 hid
  exact ⟨env, henv, hok⟩

omit hp hfuel in
theorem inScope_iff {Δ : List Frame} {x : Bytes} : ¬ InScope P Δ x ↔ Free Δ x ∧ ¬ Global P x := by
  unfold InScope Free
  constructor
  · intro h
    exact ⟨fun f hf => Classical.byContradiction fun hc => h (.inr ⟨f, hf, hc⟩), fun hg => h (.inl hg)⟩
  · rintro ⟨h1, h2⟩ (h | ⟨f, hf, h⟩)
    · exact h2 h
    · exact h (h1 f hf)

/-- A variable that does not come from a `with` is looked at once. -/
theorem sel_one {Δ : List Frame} {v : Node} (hv : Occurs root Δ v) (hd : InScope P Δ (varName v) ∨ withsOf Δ = []) (m : PMap) (k : Nat) :
    (Plain P Δ (varName v) → mkVarSelector (runVL P fuel root) m (k + 1) v = varSelector v) ∧
    (¬ Plain P Δ (varName v) → mkVarSelector (runVL P fuel root) m (k + 1) v = .error .noSuchVar) := by
  have h := run_ok P hfuel (parse_wellFormed hp)
  have hw : ∀ d, (runVL P fuel root).query v ≠ some ⟨.fromWith, d⟩ := by
    intro d hc
    have := (C23_from_with_iff P hp hfuel hv).mp ⟨d, hc⟩
    rcases hd with hd | hd
    · exact (inScope_iff P).mpr ⟨this.1, this.2.1⟩ hd
    · exact this.2.2 hd
  have hq : ∀ r, (runVL P fuel root).query v = some r → mkVarSelector (runVL P fuel root) m (k + 1) v = varSelector v := by
    intro r hr
    have hr' : ptrFind v.id (runVL P fuel root).results = some r := hr
    obtain ⟨kd, d⟩ := r
    unfold mkVarSelector
    rw [hr']
    cases kd
    · rfl
    · exact absurd hr (hw d)
    · rfl
  constructor
  · intro hpl
    obtain ⟨r, hr⟩ := query_some h hv (by
      rw [Bool.eq_false_iff]
      intro hc
      obtain ⟨c1, c2, c3, c4⟩ := (internalUse_iff hv.2).mp hc
      rcases hpl with hpl | ⟨-, hpl⟩
      · exact (inScope_iff P).mpr ⟨c1, c2⟩ hpl
      · obtain ⟨b, hb⟩ := lookup_found.mp c4
        exact hpl b hb)
    exact hq r hr
  · intro hnp
    have hns : ¬ InScope P Δ (varName v) := fun hc => hnp (.inl hc)
    have hnw : withsOf Δ = [] := hd.resolve_left hns
    rcases hr : (runVL P fuel root).query v with _ | ⟨kd, d⟩
    · have hr' : ptrFind v.id (runVL P fuel root).results = none := hr
      unfold mkVarSelector
      rw [hr']
    · exfalso
      cases kd
      · exact hnp (.inr ⟨hnw, fun b hb => (query_ok h (parse_faithful hp) hv hr).2.2.2 (lookup_found.mpr ⟨b, hb⟩)⟩)
      · exact hw d hr
      · rcases C22_defined_only P hp hfuel hv hr with ⟨q, hq⟩ | hq
        · obtain ⟨f, hf, he⟩ := resolve_binds hq
          exact hns (.inr ⟨f, hf, by rw [he]; simp⟩)
        · exact hns (.inl hq.2)

omit hp hfuel in
theorem denotes_one {Δ : List Frame} {v : Node} (hd : InScope P Δ (varName v) ∨ withsOf Δ = []) (l : List Bytes) :
    Denotes P root Δ v l ↔ Plain P Δ (varName v) ∧ varSelector v = .ok l := by
  constructor
  · intro h
    cases h with
    | lib _ _ h1 h2 => exact ⟨h1, by unfold varSelector; rw [idName_eq, h2]; rfl⟩
    | pkgs _ _ h1 h2 => exact ⟨h1, by unfold varSelector; rw [idName_eq, h2]; rfl⟩
    | withVar _ _ _ _ _ _ _ _ _ h1 h2 =>
      rcases hd with hd | hd
      · exact absurd hd h1
      · rw [hd] at h2; cases h2
    | withSelect _ _ _ _ _ _ _ _ _ _ _ _ _ _ _ h1 h2 =>
      rcases hd with hd | hd
      · exact absurd hd h1
      · rw [hd] at h2; cases h2
  · rintro ⟨h1, h2⟩
    unfold varSelector at h2
    rw [idName_eq] at h2
    split at h2
    · cases h2
      exact .lib _ _ h1 (beq_iff_eq.mp ‹_›)
    · split at h2
      · cases h2
        exact .pkgs _ _ h1 (beq_iff_eq.mp ‹_›)
      · cases h2

/-- The selector of a variable. -/
theorem sel_ok {Δ : List Frame} {v : Node} (hv : Occurs root Δ v) (k : Nat) :
    (∀ l, mkVarSelector (runVL P fuel root) (runPM root) (k + 2) v = .ok l ↔ Denotes P root Δ v l) ∧
    mkVarSelector (runVL P fuel root) (runPM root) (k + 2) v ≠ .error .assert_ ∧
    mkVarSelector (runVL P fuel root) (runPM root) (k + 2) v ≠ .error .fuel := by
  have one : ∀ {Δ v}, Occurs root Δ v → (InScope P Δ (varName v) ∨ withsOf Δ = []) → ∀ k,
      (∀ l, mkVarSelector (runVL P fuel root) (runPM root) (k + 1) v = .ok l ↔ Denotes P root Δ v l) ∧
      mkVarSelector (runVL P fuel root) (runPM root) (k + 1) v ≠ .error .assert_ ∧
      mkVarSelector (runVL P fuel root) (runPM root) (k + 1) v ≠ .error .fuel := by
    intro Δ v hv hd k
    obtain ⟨h1, h2⟩ := sel_one P hp hfuel hv hd (runPM root) k
    by_cases hpl : Plain P Δ (varName v)
    · rw [h1 hpl]
      refine ⟨fun l => ?_, ?_, ?_⟩
      · rw [denotes_one P hd]
        exact ⟨fun h => ⟨hpl, h⟩, fun h => h.2⟩
      all_goals
        unfold varSelector
        split
        · nofun
        · split <;> nofun
    · rw [h2 hpl]
      refine ⟨fun l => ?_, nofun, nofun⟩
      rw [denotes_one P hd]
      exact ⟨nofun, fun h => absurd h.1 hpl⟩
  by_cases hd : InScope P Δ (varName v) ∨ withsOf Δ = []
  · exact one hv hd (k + 1)
  have hns : ¬ InScope P Δ (varName v) := fun h => hd (.inl h)
  have hnw : withsOf Δ ≠ [] := fun h => hd (.inr h)
  obtain ⟨hfr, hng⟩ := (inScope_iff P).mp hns
  have hrun := run_ok P hfuel (parse_wellFormed hp)
  have hfaith := parse_faithful hp
  obtain ⟨d, hq⟩ := (C23_from_with_iff P hp hfuel hv).mpr ⟨hfr, hng, hnw⟩
  obtain ⟨w, d, hlast, rfl, hwd⟩ := C23_definition_is_outermost P hp hfuel hv hq
  have hwmem : Frame.with_ w ∈ Δ := by
    have := List.mem_of_getLast? hlast
    unfold withsOf at this
    obtain ⟨f, hf, he⟩ := List.mem_filterMap.mp this
    cases f
    · cases he
    · cases he; exact hf
  obtain ⟨Δ1, Δ2, c, rfl, hin, hpart, hinc, hwith⟩ := inside_with hv.1 hwmem
  have hout : withsOf Δ2 = [] := by
    rcases hl : withsOf Δ2 with _ | ⟨a, as⟩
    · rfl
    · exfalso
      have hlast2 : (withsOf Δ2).getLast? = some w := by
        rw [withsOf_append] at hlast
        have e : withsOf (Frame.with_ w :: Δ2) = w :: withsOf Δ2 := rfl
        rw [e, hl, List.getLast?_append_of_ne_nil _ (by simp), List.getLast?_cons_cons] at hlast
        rw [hl]
        exact hlast
      have hm2 : Frame.with_ w ∈ Δ2 := by
        have := List.mem_of_getLast? hlast2
        unfold withsOf at this
        obtain ⟨f, hf, he⟩ := List.mem_filterMap.mp this
        cases f
        · cases he
        · cases he; exact hf
      obtain ⟨Γ1, Γ2, c', e, hin', -⟩ := inside_with hin hm2
      have := (hfaith _ _ _ _ hin hin' rfl).2
      rw [e] at this
      have := congrArg List.length this
      simp at this
      omega
  obtain ⟨Γ, m, hm, hid, h', sm, w', e', hme⟩ := hrun.wdefSyn _ (ptrFind_mem hwd)
  obtain ⟨rfl, rfl⟩ := hfaith _ _ _ _ hm hin hid
  generalize hkw : ((runVL P fuel root).get d).syntax_ = kw at hme
  subst hme
  have hreach : Reach root (.exprWith h' kw sm w' e') :=
    ((parse_ids hp).vok.2 Γ _ hin).2.2 _ (by simp [keysOf])
  have hfits := at_fits hp hreach
  have hkn : kw.isNull = false ∧ kw.isNode = true := by
    have := hfits.1
    cases kw <;> first | exact ⟨rfl, rfl⟩ | exact absurd this (by simp [Grammar.IsMisc])
  have hkc : kw ∈ (Node.exprWith h' kw sm w' e').children := List.mem_filter.mpr ⟨by simp, hkn.2⟩
  have hpar : (runPM root).query kw = some (.exprWith h' kw sm w' e') := by
    refine (C26_parent hp kw _ (reach_child hreach hkc) (child_ne hreach hkc)).mpr ⟨hreach, hkc, ?_⟩
    rintro q - ⟨_, _, _, _, he, -⟩
    cases he
  have hq' : ptrFind v.id (runVL P fuel root).results = some ⟨.fromWith, some d⟩ := hq
  have hsel : mkVarSelector (runVL P fuel root) (runPM root) (k + 2) v = (do
      let sel ← match w' with
        | .exprVar h i => mkVarSelector (runVL P fuel root) (runPM root) (k + 1) (.exprVar h i)
        | .exprSelect _ e _ p _ _ =>
          match e with
          | .exprVar h i => do
            let base ← mkVarSelector (runVL P fuel root) (runPM root) (k + 1) (.exprVar h i)
            selectSelector p base
          | _ => .error .notVariableSelect
        | _ => .error .notAnIdiom
      .ok (sel ++ [idName v])) := by
    rw [mkVarSelector]
    simp only [hq', hkw, hkn.1, hpar]
    rfl
  rw [hsel, idName_eq]
  have hwin : w'.isNull = false → Inside root Γ w' := by
    intro hn
    exact inside_outer hin (by simp [Scoping.parts, hn])
  clear hsel hq' hq hwd hm hkw
  have key : ∀ l, Denotes P root (Δ1 ++ Frame.with_ (.exprWith h' kw sm w' e') :: Γ) v l ↔
      (∃ l', Occurs root Γ w' ∧ Denotes P root Γ w' l' ∧ l = l' ++ [varName v]) ∨
      (∃ hs b d p f x l' ts, w' = .exprSelect hs b d p f x ∧ Occurs root Γ b ∧ Denotes P root Γ b l' ∧ pathTexts p = some ts ∧
        l = l' ++ ts ++ [varName v]) := by
    intro l
    constructor
    · intro hden
      cases hden with
      | lib _ _ h1 h2 => exact absurd (h1.resolve_left hns).1 hnw
      | pkgs _ _ h1 h2 => exact absurd (h1.resolve_left hns).1 hnw
      | withVar _ _ _ _ _ _ _ Γ' l' h1 h2 h3 h4 =>
        rw [hlast] at h2
        cases h2
        obtain ⟨-, rfl⟩ := hfaith _ _ _ _ h3.1 (hwin (by cases w' <;> first | rfl | cases h3.2)) rfl
        exact .inl ⟨l', h3, h4, rfl⟩
      | withSelect _ _ _ _ _ hs b dd p f x _ Γ' l' ts h1 h2 h3 h4 h5 =>
        rw [hlast] at h2
        cases h2
        have hb : Inside root Γ b := by
          have hbn : b.isNode = true := by cases b <;> first | rfl | cases h3.2
          exact inside_outer (hwin rfl) (by simp [Scoping.parts, Node.children, hbn])
        obtain ⟨-, rfl⟩ := hfaith _ _ _ _ h3.1 hb rfl
        exact .inr ⟨_, _, _, _, _, _, l', ts, rfl, h3, h4, h5, rfl⟩
    · rintro (⟨l', h3, h4, rfl⟩ | ⟨hs, b, dd, p, f, x, l', ts, rfl, h3, h4, h5, rfl⟩)
      · exact .withVar _ _ _ _ _ _ _ _ _ hns hlast h3 h4
      · exact .withSelect _ _ _ _ _ _ _ _ _ _ _ _ _ _ _ hns hlast h3 h4 h5
  cases w'
  case exprVar h1 i1 =>
    have hocc : Occurs root Γ (.exprVar h1 i1) := ⟨hwin rfl, rfl⟩
    obtain ⟨o1, o2, o3⟩ := one hocc (.inr hout) k
    simp only
    rcases hr : mkVarSelector (runVL P fuel root) (runPM root) (k + 1) (.exprVar h1 i1) with er | l'
    · rw [hr] at o1 o2 o3
      refine ⟨fun l => ?_, ?_, ?_⟩
      · rw [key]
        constructor
        · nofun
        · rintro (⟨l', -, h4, rfl⟩ | ⟨_, _, _, _, _, _, _, _, h, _⟩)
          · cases (o1 l').mpr h4
          · cases h
      · intro hc; cases hc; exact o2 rfl
      · intro hc; cases hc; exact o3 rfl
    · rw [hr] at o1
      refine ⟨fun l => ?_, nofun, nofun⟩
      rw [key]
      constructor
      · intro hl
        cases hl
        exact .inl ⟨l', hocc, (o1 l').mp rfl, rfl⟩
      · rintro (⟨l'', -, h4, rfl⟩ | ⟨_, _, _, _, _, _, _, _, h, _⟩)
        · cases (o1 l'').mpr h4
          rfl
        · cases h
  case exprSelect hs b dd p f x =>
    have hwr : Reach root (.exprSelect hs b dd p f x) := reach_child hreach (List.mem_filter.mpr ⟨by simp, rfl⟩)
    have hsf := at_fits hp hwr
    have hps : ∀ base, selectSelector p base = match pathTexts p with
        | some ts => .ok (base ++ ts)
        | none => .error .dynamicName := by
      intro base
      rcases hsf.2.1 with rfl | ⟨hpp, ns, ds, rfl⟩
      · simp [selectSelector, pathTexts]
      · have hpr : Reach root (.attrPath hpp ns ds) := reach_child hwr (List.mem_filter.mpr ⟨by simp, rfl⟩)
        have hpf := at_fits hp hpr
        exact names_texts hp ns base fun n hn => ⟨reach_child hpr
          (List.mem_filter.mpr ⟨List.mem_append_left _ hn, name_node (hpf.2.1 n hn)⟩), hpf.2.1 n hn⟩
    cases b
    case exprVar h1 i1 =>
      have hocc : Occurs root Γ (.exprVar h1 i1) := by
        exact ⟨inside_outer (hwin rfl) (List.mem_map.mpr ⟨_, List.mem_filter.mpr ⟨.head _, rfl⟩, rfl⟩), rfl⟩
      obtain ⟨o1, o2, o3⟩ := one hocc (.inr hout) k
      simp only
      rcases hr : mkVarSelector (runVL P fuel root) (runPM root) (k + 1) (.exprVar h1 i1) with er | l'
      · rw [hr] at o1 o2 o3
        refine ⟨fun l => ?_, ?_, ?_⟩
        · rw [key]
          constructor
          · nofun
          · rintro (⟨l', h3, -⟩ | ⟨_, _, _, _, _, _, l', ts, h, h3, h4, -⟩)
            · cases h3.2
            · cases h
              cases (o1 l').mpr h4
        · intro hc; cases hc; exact o2 rfl
        · intro hc; cases hc; exact o3 rfl
      · rw [hr] at o1
        have e : (do
            let base ← (Except.ok l' : Except Err (List Bytes))
            let sel ← selectSelector p base
            Except.ok (sel ++ [varName v])) = (do
            let sel ← selectSelector p l'
            Except.ok (sel ++ [varName v])) := rfl
        rw [e, hps]
        rcases hts : pathTexts p with _ | ts
        · refine ⟨fun l => ?_, nofun, nofun⟩
          rw [key]
          constructor
          · nofun
          · rintro (⟨l', h3, -⟩ | ⟨_, _, _, _, _, _, l', ts, h, h3, h4, h5, -⟩)
            · cases h3.2
            · cases h
              rw [hts] at h5
              cases h5
        · refine ⟨fun l => ?_, nofun, nofun⟩
          rw [key]
          constructor
          · intro hl
            cases hl
            exact .inr ⟨_, _, _, _, _, _, l', ts, rfl, hocc, (o1 l').mp rfl, hts, rfl⟩
          · rintro (⟨l', h3, -⟩ | ⟨_, _, _, _, _, _, l'', ts', h, h3, h4, h5, rfl⟩)
            · cases h3.2
            · cases h
              rw [hts] at h5
              cases h5
              cases (o1 l'').mpr h4
              rfl
    all_goals
      refine ⟨fun l => ?_, nofun, nofun⟩
      rw [key]
      constructor
      · nofun
      · rintro (⟨l', h3, -⟩ | ⟨_, _, _, _, _, _, l', ts, h, h3, h4, h5, -⟩)
        · cases h3.2
        · cases h
          cases h3.2
  all_goals
    refine ⟨fun l => ?_, nofun, nofun⟩
    rw [key]
    constructor
    · nofun
    · rintro (⟨l', h3, -⟩ | ⟨_, _, _, _, _, _, l', ts, h, -⟩)
      · cases h3.2
      · cases h

omit hp hfuel in
theorem var_size {Δ : List Frame} {v : Node} (hv : Occurs root Δ v) (hr : Reach root v) : 2 ≤ sizeOf root := by
  have h1 : sizeOf v ≤ sizeOf root := reach_size hr
  have h2 : 2 ≤ sizeOf v := by
    have := hv.2
    cases v <;> first | cases this | skip
    case exprVar h i =>
      have : 1 ≤ sizeOf i := by cases i <;> simp <;> omega
      simp
      omega
  omega

omit hp hfuel in
theorem cand_mem {s : VL} (pfx : Bytes) : ∀ {Γ : List Frame} {env : Env}, EnvOk s Γ env → ∀ i,
    i ∈ cands s pfx env ↔ ∃ f ∈ Γ, ∃ x n src, f.binds x = some (n, src) ∧ Matching pfx x ∧
      i = { label := x, kind := if src = .builtin then .keyword else .variable_ }
  | [], [], _, i => by simp [cands]
  | f :: Γ, sc :: env, hs, i => by
    rw [cands, List.mem_append, cand_mem pfx hs.2 i]
    have hhead : i ∈ sc.defs.filterMap (defItem s pfx) ↔ ∃ x n src, f.binds x = some (n, src) ∧ Matching pfx x ∧
        i = { label := x, kind := if src = .builtin then .keyword else .variable_ } := by
      rw [List.mem_filterMap]
      constructor
      · rintro ⟨⟨x, d⟩, hm, hd⟩
        rcases hk : keyFind x sc.defs with _ | d'
        · exact absurd rfl (keyFind_none.mp hk _ hm)
        · have he : d = d' := by
            cases f with
            | names b => exact (hs.1.2.2 x d' hk).2.2.2 d hm
            | with_ w => rw [hs.1.2.2.1] at hm; cases hm
          subst he
          obtain ⟨-, hb, -⟩ := scopeOk_find hs.1 hk
          unfold defItem at hd
          split at hd
          · cases hd
          · split at hd
            · rename_i h1 h2
              cases hd
              exact ⟨x, _, _, hb, ⟨List.isPrefixOf_iff_prefix.mp h2, fun hc => h1 (List.isPrefixOf_iff_prefix.mpr hc)⟩, rfl⟩
            · cases hd
      · rintro ⟨x, n, src, hb, ⟨h1, h2⟩, rfl⟩
        rcases hk : keyFind x sc.defs with _ | d
        · rw [(scopeOk_binds hs.1 x).mp hk] at hb
          cases hb
        · obtain ⟨-, hb', -⟩ := scopeOk_find hs.1 hk
          rw [hb] at hb'
          cases hb'
          refine ⟨_, keyFind_mem hk, ?_⟩
          unfold defItem
          rw [if_neg (fun hc => h2 (List.isPrefixOf_iff_prefix.mp hc)), if_pos (List.isPrefixOf_iff_prefix.mpr h1)]
    rw [hhead]
    simp only [List.mem_cons, exists_eq_or_imp]
    exact Or.comm

omit hp hfuel in
theorem names_offered {s : VL} {Δ : List Frame} {v : Node} (hv : Occurs root Δ v) {pfx : Bytes} {env : Env} (he : EnvOk s (full P Δ) env) :
    NamesOffered P Δ pfx (cands s pfx env) := by
  have hkind : ∀ f ∈ Δ, ∀ x q, f.binds x = some q → q.2 ≠ .builtin := by
    intro f hf x q hq
    obtain ⟨c, rfl⟩ := inside_frames hv.1 f hf
    exact (binds_kind hq).2
  refine ⟨fun x => ?_, fun x => ?_, fun i hi => ?_⟩
  · rw [cand_mem pfx he]
    constructor
    · rintro ⟨f, hf, y, n, src, hb, hm, hi⟩
      have hxy : x = y := congrArg Item.label hi
      subst hxy
      have hk := congrArg Item.kind hi
      simp only at hk
      rcases List.mem_append.mp hf with hf | hf
      · exact ⟨⟨f, hf, by rw [hb]; simp⟩, hm⟩
      · simp only [List.mem_cons, List.not_mem_nil, or_false] at hf
        subst hf
        exfalso
        have hg : Global P x := Classical.byContradiction fun hc => by
          rw [globalFrame_none.mpr hc] at hb
          cases hb
        rw [globalFrame_some hg] at hb
        cases hb
        cases hk
    · rintro ⟨⟨f, hf, hb⟩, hm⟩
      rcases hq : f.binds x with _ | ⟨n, src⟩
      · exact absurd hq hb
      · refine ⟨f, List.mem_append_left _ hf, x, n, src, hq, hm, ?_⟩
        rw [if_neg (hkind f hf x _ hq)]
  · rw [cand_mem pfx he]
    constructor
    · rintro ⟨f, hf, y, n, src, hb, hm, hi⟩
      have hxy : x = y := congrArg Item.label hi
      subst hxy
      have hk := congrArg Item.kind hi
      simp only at hk
      rcases List.mem_append.mp hf with hf | hf
      · rw [if_neg (hkind f hf x _ hb)] at hk
        cases hk
      · simp only [List.mem_cons, List.not_mem_nil, or_false] at hf
        subst hf
        refine ⟨Classical.byContradiction fun hc => ?_, hm⟩
        rw [globalFrame_none.mpr hc] at hb
        cases hb
    · rintro ⟨hg, hm⟩
      exact ⟨globalFrame P, by simp, x, _, _, globalFrame_some hg, hm, rfl⟩
  · obtain ⟨f, hf, y, n, src, hb, hm, rfl⟩ := (cand_mem pfx he i).mp hi
    by_cases hs : src = .builtin
    · exact ⟨y, .inr (by rw [if_pos hs])⟩
    · exact ⟨y, .inl (by rw [if_neg hs])⟩

omit hp hfuel in
theorem packages_eq (worker : List Bytes → Option (List Bytes)) (edit : Server.LRange) (p : Params) (items : List Item)
    (h : items.length ≤ maxSize) : completePackages worker edit p items = capped (items ++ attrsOffered worker edit p.scope p.pfx) := by
  rw [completePackages_eq _ _ _ _ h]
  unfold attrsOffered
  congr 4
  funext x
  rw [Bool.eq_iff_iff]
  simp

omit hp hfuel in
theorem sent_eq (L : List Item) : Outcome.of (capped L) = sent L := rfl

/-- The completion of a variable. -/
theorem completeVar_ok {Δ : List Frame} {v : Node} (hv : Occurs root Δ v) (hr : Reach root v)
    (worker : List Bytes → Option (List Bytes)) (edit : Server.LRange) :
    ∃ L M, NamesOffered P Δ (varName v) L ∧ PackagesOffered P root Δ v worker edit M ∧
      completeVarName (runVL P fuel root) (runPM root) fuel edit v worker = sent (L ++ M) := by
  obtain ⟨env, he1, he2⟩ := env_at P hp hfuel hv
  have hsz := var_size hv hr
  obtain ⟨k, rfl⟩ : ∃ k, fuel = k + 2 := ⟨fuel - 2, by omega⟩
  obtain ⟨s1, s2, s3⟩ := sel_ok P hp hfuel hv k
  have hup : upEnv (runVL P (k + 2) root) (runPM root) (k + 2) v = some (some env) := by
    rw [upEnv, he1]
  unfold completeVarName
  simp only [hup, Option.getD_some, collectDef_eq, idName_eq]
  generalize hL : cands (runVL P (k + 2) root) (varName v) env = L
  have hnames : NamesOffered P Δ (varName v) L := hL ▸ names_offered P hv he2
  clear hL
  have hM : ∃ M, PackagesOffered P root Δ v worker edit M := by
    by_cases hex : ∃ path pfx, Denotes P root Δ v (path ++ [pfx])
    · obtain ⟨path, pfx, hd⟩ := hex
      exact ⟨_, .attrs path pfx hd⟩
    · exact ⟨_, .nothing fun path pfx hd => hex ⟨path, pfx, hd⟩⟩
  rcases hb : (capped L).2 with _ | _
  · have hc : capped L = ((capped L).1, false) := by rw [← hb]
    have hl : L.length ≤ maxSize := by
      have := of_decide_eq_false hb
      omega
    have e1 : (capped L).1 = L := List.take_of_length_le hl
    rw [hc]
    simp only
    rw [e1] at hc ⊢
    rcases hsel : mkVarSelector (runVL P (k + 2) root) (runPM root) (k + 2) v with er | sel
    · refine ⟨L, [], hnames, .nothing fun path pfx hd => ?_, ?_⟩
      · have := (s1 _).mpr hd
        rw [hsel] at this
        cases this
      · rw [List.append_nil, ← sent_eq, hc]
        rw [hsel] at s2 s3
        cases er <;> first | rfl | exact absurd rfl s2 | exact absurd rfl s3
    · have hden := (s1 sel).mp hsel
      rcases List.eq_nil_or_concat sel with rfl | ⟨path, pfx, rfl⟩
      · refine ⟨L, [], hnames, .nothing fun path pfx hd => ?_, ?_⟩
        · have := (s1 _).mpr hd
          rw [hsel] at this
          have := (Except.ok.inj this)
          simp at this
        · rw [List.append_nil, ← sent_eq, hc]
          rfl
      · rw [List.concat_eq_append] at hsel hden ⊢
        refine ⟨L, _, hnames, .attrs path pfx hden, ?_⟩
        have hne : (path ++ [pfx]).isEmpty = false := by simp
        show Outcome.of (if (path ++ [pfx]).isEmpty = true then _ else _) = _
        rw [hne, if_neg (by simp), packages_eq _ _ _ _ hl]
        simp [mkParams, sent_eq]
  · obtain ⟨M, hM⟩ := hM
    refine ⟨L, M, hnames, hM, ?_⟩
    have hc : capped L = ((capped L).1, true) := by rw [← hb]
    rw [← sent_eq, capped_stop hb, hc]
    rfl

/-- C62. At an identifier of a variable the candidates are the names in scope, and the attributes of nixpkgs next to the
one that the variable is taken for. The first 30 are sent, marked as incomplete if there are more. -/
theorem C62_variable {Δ : List Frame} {v n : Node} (hv : Occurs root Δ v) (hr : Reach root v) (hn : n ∈ v.children) {w : World}
    {worker : List Bytes → Option (List Bytes)} (hw : w.nixpkgs = some worker) :
    ∃ L M, NamesOffered P Δ (varName v) L ∧ PackagesOffered P root Δ v worker (editRange src n) M ∧
      completeNode src (runVL P fuel root) (runPM root) fuel w n = sent (L ++ M) := by
  obtain ⟨L, M, h1, h2, h3⟩ := completeVar_ok P hp hfuel hv hr worker (editRange src n)
  refine ⟨L, M, h1, h2, ?_⟩
  rw [← h3]
  obtain ⟨l, t, hl, hlt, hnv, hnr⟩ := var_ancestors hp hfuel hv.2 hr (.inr hn)
  obtain ⟨l', hl', hup⟩ := C26_upExpr hp n hnr
  rw [anc_unique hp hl' hl] at hup
  have hfit := at_fits hp hr
  cases v <;> first | cases hv.2 | skip
  case exprVar h i =>
    have hni : n = i := by
      simp only [Node.children, List.mem_filter, List.mem_cons, List.not_mem_nil, or_false] at hn
      exact hn.1
    subst hni
    obtain ⟨h', x, rfl⟩ := hfit
    have hf : l.find? Node.isExpr = some (.exprVar h (.identifier h' x)) := by
      rcases hlt with rfl | rfl
      · obtain ⟨t', ht'⟩ := ancestors_head hl
        cases ht'
      · rfl
    unfold completeNode
    rw [if_pos (show canCompleteAt (.identifier h' x) = true from rfl), hup fuel hfuel, hf]
    simp only [hw]

/-- C32. The list for a variable has at most 30 items, all of them candidates; it has all of them unless it is marked as
incomplete, and 30 if it is. -/
theorem C32_variable {Δ : List Frame} {v n : Node} (hv : Occurs root Δ v) (hr : Reach root v) (hn : n ∈ v.children) {w : World}
    {worker : List Bytes → Option (List Bytes)} (hw : w.nixpkgs = some worker) :
    ∃ items incomplete M, completeNode src (runVL P fuel root) (runPM root) fuel w n = .list items incomplete ∧
      PackagesOffered P root Δ v worker (editRange src n) M ∧
      (∀ i ∈ items, (i.kind = .keyword → Global P i.label ∧ Matching (varName v) i.label) ∧
        (i.kind = .variable_ → (∃ f ∈ Δ, f.binds i.label ≠ none) ∧ Matching (varName v) i.label) ∧
        (i.kind ≠ .keyword → i.kind ≠ .variable_ → i ∈ M)) ∧
      (incomplete = false → (∀ x, InScope P Δ x → Matching (varName v) x → ∃ i ∈ items, i.label = x) ∧ ∀ i ∈ M, i ∈ items) ∧
      items.length ≤ 30 ∧ (incomplete = true → items.length = 30) := by
  obtain ⟨L, M, h1, h2, h3⟩ := C62_variable P hp hfuel hv hr hn hw
  have hkM : ∀ i ∈ M, i.kind = .field := by
    intro i hi
    cases h2 with
    | attrs path pfx h =>
      unfold attrsOffered at hi
      obtain ⟨x, -, rfl⟩ := List.mem_map.mp hi
      rfl
    | nothing => cases hi
  refine ⟨_, _, M, h3, h2, fun i hi => ?_, fun hinc => ?_, ?_, fun hinc => ?_⟩
  · rcases List.mem_append.mp (List.mem_of_mem_take hi) with hL | hM
    · obtain ⟨x, rfl | rfl⟩ := h1.only i hL
      · exact ⟨nofun, fun _ => (h1.variables x).mp hL, fun _ h => absurd rfl h⟩
      · exact ⟨fun _ => (h1.globals x).mp hL, nofun, fun h => absurd rfl h⟩
    · have := hkM i hM
      exact ⟨fun h => (by rw [this] at h; cases h), fun h => (by rw [this] at h; cases h), fun _ _ => hM⟩
  · have hlen : (L ++ M).length ≤ 30 := by
      have := of_decide_eq_false hinc
      omega
    rw [List.take_of_length_le hlen]
    refine ⟨fun x hx hm => ?_, fun i hi => List.mem_append_right _ hi⟩
    rcases hx with hx | hx
    · exact ⟨_, List.mem_append_left _ ((h1.globals x).mpr ⟨hx, hm⟩), rfl⟩
    · exact ⟨_, List.mem_append_left _ ((h1.variables x).mpr ⟨hx, hm⟩), rfl⟩
  · rw [List.length_take]
    omega
  · rw [List.length_take]
    have := of_decide_eq_true hinc
    omega

/-- C63. The selector of a variable is what it denotes. -/
theorem C63_selector {Δ : List Frame} {v : Node} (hv : Occurs root Δ v) (hr : Reach root v) (l : List Bytes) :
    mkVarSelector (runVL P fuel root) (runPM root) fuel v = .ok l ↔ Denotes P root Δ v l := by
  have hsz := var_size hv hr
  obtain ⟨k, rfl⟩ : ∃ k, fuel = k + 2 := ⟨fuel - 2, by omega⟩
  exact (sel_ok P hp hfuel hv k).1 l

/-- C63. No `assert` of the idioms fails, and they terminate. -/
theorem C63_total {Δ : List Frame} {v : Node} (hv : Occurs root Δ v) (hr : Reach root v) :
    mkVarSelector (runVL P fuel root) (runPM root) fuel v ≠ .error .assert_ ∧
      mkVarSelector (runVL P fuel root) (runPM root) fuel v ≠ .error .fuel := by
  have hsz := var_size hv hr
  obtain ⟨k, rfl⟩ : ∃ k, fuel = k + 2 := ⟨fuel - 2, by omega⟩
  exact (sel_ok P hp hfuel hv k).2

/-! ### Select expressions -/

/-- What completion in a select expression of a variable makes. -/
theorem completeSelect_ok {Δ : List Frame} {b p : Node} (hv : Occurs root Δ b) (hr : Reach root b) (hpr : p = .null ∨ Grammar.IsPath p ∧ Reach root p)
    (worker : List Bytes → Option (List Bytes)) (edit : Server.LRange) (dot : Bool) :
    (∀ l ts, Denotes P root Δ b l → pathTexts p = some ts →
      completeSelect (runVL P fuel root) (runPM root) fuel edit b p dot worker =
        sent (attrsOffered worker edit (mkParams (l ++ ts) dot).scope (mkParams (l ++ ts) dot).pfx)) ∧
    ((∀ l, ¬ Denotes P root Δ b l) ∨ pathTexts p = none →
      completeSelect (runVL P fuel root) (runPM root) fuel edit b p dot worker = .list [] false) := by
  have hsz := var_size hv hr
  obtain ⟨k, rfl⟩ : ∃ k, fuel = k + 2 := ⟨fuel - 2, by omega⟩
  obtain ⟨s1, s2, s3⟩ := sel_ok P hp hfuel hv k
  have hps : ∀ base, selectSelector p base = match pathTexts p with
      | some ts => .ok (base ++ ts)
      | none => .error .dynamicName := by
    intro base
    rcases hpr with rfl | ⟨⟨hpp, ns, ds, rfl⟩, hpr⟩
    · simp [selectSelector, pathTexts]
    · have hpf := at_fits hp hpr
      exact names_texts hp ns base fun n hn => ⟨reach_child hpr
        (List.mem_filter.mpr ⟨List.mem_append_left _ hn, name_node (hpf.2.1 n hn)⟩), hpf.2.1 n hn⟩
  cases b <;> first | cases hv.2 | skip
  case exprVar h i =>
    unfold completeSelect
    simp only
    constructor
    · intro l ts hd hts
      rw [(s1 l).mpr hd]
      show withSelector (selectSelector p l) _ _ = _
      rw [hps, hts]
      show Outcome.of (completePackages _ _ _ _) = _
      rw [packages_eq _ _ _ _ (Nat.zero_le _), List.nil_append]
      rfl
    · intro hno
      rcases hsel : mkVarSelector (runVL P (k + 2) root) (runPM root) (k + 2) (.exprVar h i) with er | l
      · rw [hsel] at s2 s3
        show withSelector (Except.error er) _ _ = _
        cases er <;> first | rfl | exact absurd rfl s2 | exact absurd rfl s3
      · have hno := hno.resolve_left fun h => h l ((s1 l).mp hsel)
        show withSelector (selectSelector p l) _ _ = _
        rw [hps, hno]
        rfl

/-- The node is a name of the path, or the identifier of one, or a dot. -/
theorem up_select {hs : Hd} {b d p dd : Node} {f : Bool} {k n : Node} (hr : Reach root (.exprSelect hs b d p dd f)) (hpn : p.isNode = true)
    (hk : k ∈ p.children) (hkm : k.isExpr = false) (hkx : ¬ Grammar.IsMisc k) (hn : n = k ∨ (n ∈ k.children ∧ n.isExpr = false ∧ ¬ Grammar.IsMisc n)) :
    (runPM root).upExpr fuel n = some (some (.exprSelect hs b d p dd f)) := by
  have hpc : p ∈ (Node.exprSelect hs b d p dd f).children := List.mem_filter.mpr ⟨by simp, hpn⟩
  have hpp : p.isExpr = false ∧ ¬ Grammar.IsMisc p := by
    rcases (at_fits hp hr).2.1 with rfl | ⟨_, _, _, rfl⟩
    · cases hpn
    · exact ⟨rfl, nofun⟩
  have hpr := reach_child hr hpc
  have hkr := reach_child hpr hk
  obtain ⟨l, hl, -⟩ := C26_up hp (fun _ => true) _ hr
  have h1 : Ancestors root p (p :: l) := .child _ _ _ (parent_mk hp hr hpc hpp.2) hl
  have h2 : Ancestors root k (k :: p :: l) := .child _ _ _ (parent_mk hp hpr hk hkx) h1
  obtain ⟨t, rfl⟩ := ancestors_head hl
  rcases hn with rfl | ⟨hn, hne, hnm⟩
  · obtain ⟨l', hl', hu⟩ := C26_upExpr hp _ hkr
    rw [hu fuel hfuel, anc_unique hp hl' h2]
    simp only [List.find?_cons, hkm, hpp.1]
    rfl
  · have hnr := reach_child hkr hn
    have h3 : Ancestors root n (n :: k :: p :: _ :: t) := .child _ _ _ (parent_mk hp hkr hn hnm) h2
    obtain ⟨l', hl', hu⟩ := C26_upExpr hp _ hnr
    rw [hu fuel hfuel, anc_unique hp hl' h3]
    simp only [List.find?_cons, hkm, hpp.1, hne]
    rfl

/-- C65. At the identifier of the last name of a select expression the candidates are the attributes of what is before it that
begin with this name. -/
theorem C65_last {Δ : List Frame} {hs hpp hk hi : Hd} {b d dd : Node} {f : Bool} {pre ds : List Node} {x : Bytes}
    (hr : Reach root (.exprSelect hs b d (.attrPath hpp (pre ++ [.attrNameID hk (.identifier hi x)]) ds) dd f)) (hv : Occurs root Δ b)
    {w : World} {worker : List Bytes → Option (List Bytes)} (hw : w.nixpkgs = some worker) :
    (∀ l ts, Denotes P root Δ b l → pre.mapM AttrPaths.textOf = some ts →
      completeNode src (runVL P fuel root) (runPM root) fuel w (.identifier hi x) =
        sent (attrsOffered worker (editRange src (.identifier hi x)) (l ++ ts) x)) ∧
    ((∀ l, ¬ Denotes P root Δ b l) ∨ pre.mapM AttrPaths.textOf = none →
      completeNode src (runVL P fuel root) (runPM root) fuel w (.identifier hi x) = sent []) := by
  have hbn : b.isNode = true := by cases b <;> first | rfl | cases hv.2
  have hbr : Reach root b := reach_child hr (List.mem_filter.mpr ⟨by simp, hbn⟩)
  have hpr := reach_child hr (show Node.attrPath hpp (pre ++ [.attrNameID hk (.identifier hi x)]) ds ∈ _ from
    List.mem_filter.mpr ⟨by simp, rfl⟩)
  have hup := up_select hp hfuel (k := .attrNameID hk (.identifier hi x)) (n := .identifier hi x) hr rfl
    (List.mem_filter.mpr ⟨by simp, rfl⟩) rfl nofun (.inr ⟨List.mem_filter.mpr ⟨.head _, rfl⟩, rfl, nofun⟩)
  obtain ⟨h1, h2⟩ := completeSelect_ok P hp hfuel hv hbr (.inr ⟨⟨_, _, _, rfl⟩, hpr⟩) worker (editRange src (.identifier hi x)) false
  have hc : completeNode src (runVL P fuel root) (runPM root) fuel w (.identifier hi x) =
      completeSelect (runVL P fuel root) (runPM root) fuel (editRange src (.identifier hi x)) b
        (.attrPath hpp (pre ++ [.attrNameID hk (.identifier hi x)]) ds) false worker := by
    unfold completeNode
    rw [if_pos (show canCompleteAt (.identifier hi x) = true from rfl), hup]
    simp only [hw]
    rfl
  have ht : pathTexts (.attrPath hpp (pre ++ [.attrNameID hk (.identifier hi x)]) ds) = (pre.mapM AttrPaths.textOf).map (· ++ [x]) := by
    show (pre ++ [_]).mapM AttrPaths.textOf = _
    rw [List.mapM_append]
    rcases pre.mapM AttrPaths.textOf with _ | ts <;> rfl
  rw [hc]
  constructor
  · intro l ts hd hts
    rw [h1 l (ts ++ [x]) hd (by rw [ht, hts]; rfl)]
    have e : mkParams (l ++ (ts ++ [x])) false = ⟨l ++ ts, x⟩ := by
      rw [← List.append_assoc]
      simp [mkParams]
    rw [e]
  · intro hno
    exact h2 (hno.imp id fun h => by rw [ht, h]; rfl)

/-- C65. At a dot after the last name the candidates are all attributes of what is before it. -/
theorem C65_trailing_dot {Δ : List Frame} {hs hpp hd : Hd} {b d dd : Node} {f : Bool} {ns ds : List Node} {q : Nat}
    (hr : Reach root (.exprSelect hs b d (.attrPath hpp ns ds) dd f)) (hm : .dot hd q none ∈ ds) (hv : Occurs root Δ b)
    {w : World} {worker : List Bytes → Option (List Bytes)} (hw : w.nixpkgs = some worker) :
    (∀ l ts, Denotes P root Δ b l → ns.mapM AttrPaths.textOf = some ts →
      completeNode src (runVL P fuel root) (runPM root) fuel w (.dot hd q none) =
        sent (attrsOffered worker (editRange src (.dot hd q none)) (l ++ ts) [])) ∧
    ((∀ l, ¬ Denotes P root Δ b l) ∨ ns.mapM AttrPaths.textOf = none →
      completeNode src (runVL P fuel root) (runPM root) fuel w (.dot hd q none) = sent []) := by
  have hbn : b.isNode = true := by cases b <;> first | rfl | cases hv.2
  have hbr : Reach root b := reach_child hr (List.mem_filter.mpr ⟨by simp, hbn⟩)
  have hpr := reach_child hr (show Node.attrPath hpp ns ds ∈ _ from List.mem_filter.mpr ⟨by simp, rfl⟩)
  have hup := up_select hp hfuel (k := .dot hd q none) (n := .dot hd q none) hr rfl
    (List.mem_filter.mpr ⟨List.mem_append_right _ hm, rfl⟩) rfl nofun (.inl rfl)
  obtain ⟨h1, h2⟩ := completeSelect_ok P hp hfuel hv hbr (.inr ⟨⟨_, _, _, rfl⟩, hpr⟩) worker (editRange src (.dot hd q none)) true
  have hc : completeNode src (runVL P fuel root) (runPM root) fuel w (.dot hd q none) =
      completeSelect (runVL P fuel root) (runPM root) fuel (editRange src (.dot hd q none)) b (.attrPath hpp ns ds) true worker := by
    unfold completeNode
    rw [if_pos (show canCompleteAt (.dot hd q none) = true from rfl), hup]
    simp only [hw]
    rfl
  rw [hc]
  constructor
  · intro l ts hd hts
    rw [h1 l ts hd hts]
    simp [mkParams]
  · intro hno
    exact h2 hno

end

/-! ### Bounds -/

theorem collect_length (vl : VL) (pfx : Bytes) (env : Env) : (collectDef vl pfx env []).1.length ≤ 30 := by
  rw [collectDef_eq]
  exact capped_length

theorem attrName_length (edit : Server.LRange) (p : Params) (sn : Bool) : ∀ (os : List (Bytes × Option OptWorker)) (items : List Item),
    items.length ≤ maxSize → (completeAttrName edit p sn os items).1.length ≤ maxSize
  | [], items, h => h
  | (_, none) :: os, items, h => attrName_length edit p sn os items h
  | (name, some w) :: os, items, h => by
    rw [completeAttrName]
    have := addItems_length ((optionFields w p).flatMap (fieldItems name sn edit p.pfx)) items h
    revert this
    rcases addItems items ((optionFields w p).flatMap (fieldItems name sn edit p.pfx)) with ⟨a, b⟩
    intro this
    cases b
    · exact attrName_length edit p sn os a this
    · exact this

/-- C32. A list never has more than 30 items. -/
theorem C32_bound (P : PrimOps) (src : Bytes) (root : Node) (w : World) (pos : Pos) {items : List Item} {b : Bool}
    (h : onCompletion P src root w pos = .list items b) : items.length ≤ 30 := by
  unfold onCompletion at h
  have hpk : ∀ worker edit p (items : List Item), items.length ≤ 30 → (completePackages worker edit p items).1.length ≤ 30 := by
    intro worker edit p items hi
    exact addItems_length _ _ hi
  have hws : ∀ r (its : List Item) f, its.length ≤ 30 → (∀ sel, (f sel).1.length ≤ 30) → ∀ {items b}, withSelector r its f = .list items b →
      items.length ≤ 30 := by
    intro r its f h1 h2 items b he
    unfold withSelector at he
    split at he
    · unfold Outcome.of at he
      cases he
      exact h2 _
    · cases he
    · cases he
    · cases he
      exact h1
  split at h
  · cases h
    exact Nat.zero_le _
  · unfold completeNode at h
    split at h
    · split at h
      · cases h
      · cases h
        exact Nat.zero_le _
      · split at h
        · cases h
        · unfold completeVarName at h
          split at h
          · cases h
          · rename_i env _
            have hc := collect_length (runVL P (sizeOf root) root) (idName (.exprVar ‹_› ‹_›)) (env.getD [])
            split at h
            · rename_i he
              rw [he] at hc
              cases h
              exact hc
            · rename_i he
              rw [he] at hc
              refine hws _ _ _ hc (fun sel => ?_) h
              split
              · exact hc
              · exact hpk _ _ _ _ hc
      · split at h
        · cases h
        · unfold completeSelect at h
          split at h
          · exact hws _ _ _ (Nat.zero_le _) (fun sel => hpk _ _ _ _ (Nat.zero_le _)) h
          · cases h
            exact Nat.zero_le _
      · unfold completeAttrPath at h
        split at h
        · split at h
          · cases h
          · unfold Outcome.of at h
            cases h
            exact attrName_length _ _ _ _ _ (Nat.zero_le _)
        · cases h
          exact Nat.zero_le _
        · cases h
        · cases h
      · cases h
        exact Nat.zero_le _
    · cases h
      exact Nat.zero_le _

/-! ### Options -/

/-- A provider has at most 30 names with the prefix, and their evaluation does not fail. -/
def Small (p : Params) (wk : OptWorker) : Prop :=
  ∃ names, wk p.scope = some names ∧ (names.filter fun q => decide (p.pfx <+: q.1)).length ≤ 30 ∧
    ∀ q ∈ names, p.pfx <+: q.1 → q.2 ≠ none

/-- The items of all options at the path that begin with the prefix. -/
def optionsOffered (edit : Server.LRange) (p : Params) (sn : Bool) (os : List (Bytes × Option OptWorker)) : List Item :=
  os.flatMap fun o => match o.2 with
    | none => []
    | some wk => (((wk p.scope).getD []).filter fun q => decide (p.pfx <+: q.1)).flatMap fun q =>
      fieldItems o.1 sn edit p.pfx (q.1, q.2.getD none)

theorem optionNames_cons (pfx : Bytes) (acc : List (Bytes × Option OptDesc)) (name : Bytes) (d : Option (Option OptDesc))
    (L : List (Bytes × Option (Option OptDesc))) : optionNames pfx acc ((name, d) :: L) =
      if pfx.isPrefixOf name then d.bind fun d =>
        if (acc ++ [(name, d)]).length ≥ maxSize then some (acc ++ [(name, d)]) else optionNames pfx (acc ++ [(name, d)]) L
      else optionNames pfx acc L := by
  cases d <;> simp [optionNames]

theorem optionNames_ok (pfx : Bytes) : ∀ (L : List (Bytes × Option (Option OptDesc))) (acc : List (Bytes × Option OptDesc)),
    acc.length < maxSize → acc.length + (L.filter fun q => decide (pfx <+: q.1)).length ≤ maxSize →
    (∀ q ∈ L, pfx <+: q.1 → q.2 ≠ none) →
    optionNames pfx acc L = some (acc ++ (L.filter fun q => decide (pfx <+: q.1)).map fun q => (q.1, q.2.getD none))
  | [], acc, _, _, _ => by simp [optionNames]
  | (name, d) :: L, acc, h1, h2, h3 => by
    rw [optionNames_cons]
    by_cases hp : pfx <+: name
    · rw [if_pos (List.isPrefixOf_iff_prefix.mpr hp)]
      rw [List.filter_cons_of_pos (by simpa using hp)] at h2 ⊢
      rcases d with _ | d
      · exact absurd rfl (h3 _ (.head _) hp)
      · simp only [List.length_cons] at h2
        by_cases hl : (acc ++ [(name, d)]).length ≥ maxSize
        · have hnil : (L.filter fun q => decide (pfx <+: q.1)) = [] := by
            rw [List.length_append, List.length_cons, List.length_nil] at hl
            exact List.eq_nil_of_length_eq_zero (by omega)
          rw [hnil, Option.bind_some, if_pos hl]
          rfl
        · rw [Option.bind_some, if_neg hl, optionNames_ok pfx L _ (by omega) (by rw [List.length_append, List.length_cons, List.length_nil]; omega)
            fun q hq => h3 q (.tail _ hq)]
          simp
    · rw [if_neg fun hc => hp (List.isPrefixOf_iff_prefix.mp hc)]
      rw [List.filter_cons_of_neg (by simpa using hp)] at h2 ⊢
      exact optionNames_ok pfx L acc h1 h2 fun q hq => h3 q (.tail _ hq)

theorem attrName_ok (edit : Server.LRange) (p : Params) (sn : Bool) : ∀ (os : List (Bytes × Option OptWorker)),
    (∀ o ∈ os, ∀ wk, o.2 = some wk → Small p wk) → ∀ L : List Item, (capped L).2 = false →
    completeAttrName edit p sn os (capped L).1 = capped (L ++ optionsOffered edit p sn os)
  | [], _, L, hL => by
    simp only [completeAttrName, optionsOffered, List.flatMap_nil, List.append_nil]
    rw [← hL]
  | (name, none) :: os, h, L, hL => by
    rw [completeAttrName, attrName_ok edit p sn os (fun o ho => h o (.tail _ ho)) L hL]
    rfl
  | (name, some wk) :: os, h, L, hL => by
    have hf : (optionFields wk p).flatMap (fieldItems name sn edit p.pfx) =
        (((wk p.scope).getD []).filter fun q => decide (p.pfx <+: q.1)).flatMap fun q =>
          fieldItems name sn edit p.pfx (q.1, q.2.getD none) := by
      obtain ⟨names, h1, h2, h3⟩ := h _ (.head _) wk rfl
      unfold optionFields
      rw [h1]
      simp only
      rw [optionNames_ok p.pfx names [] (by decide) (by rw [List.length_nil, Nat.zero_add]; exact h2) h3]
      simp [List.flatMap_map]
    rw [completeAttrName, hf, capped_append hL]
    have e : optionsOffered edit p sn ((name, some wk) :: os) =
      ((((wk p.scope).getD []).filter fun q => decide (p.pfx <+: q.1)).flatMap fun q =>
          fieldItems name sn edit p.pfx (q.1, q.2.getD none)) ++ optionsOffered edit p sn os := by
      simp [optionsOffered]
    rw [e]
    generalize ((((wk p.scope).getD []).filter fun q => decide (p.pfx <+: q.1)).flatMap fun q =>
          fieldItems name sn edit p.pfx (q.1, q.2.getD none)) = M
    rw [← List.append_assoc]
    rcases hb : (capped (L ++ M)).2 with _ | _
    · rw [show capped (L ++ M) = ((capped (L ++ M)).1, false) by rw [← hb]]
      exact attrName_ok edit p sn os (fun o ho => h o (.tail _ ho)) (L ++ M) hb
    · rw [capped_stop hb, show capped (L ++ M) = ((capped (L ++ M)).1, true) by rw [← hb]]

/-- C32, for options. If no provider has more than 30 names with the prefix, the candidates are all options of all
providers; the first 30 items are sent, marked as incomplete if there are more. What is missing: see
`C32_options_violated`. -/
theorem C32_options_partial (m : PMap) (fuel : Nat) (edit : Server.LRange) (n : Node) (w : World) {path : List Bytes} {pfx : Bytes}
    (hpath : AttrPaths.forOptions m fuel n = .ok (.ok, path ++ [pfx]))
    (hs : ∀ o ∈ w.options, ∀ wk, o.2 = some wk → Small ⟨path, pfx⟩ wk) :
    completeAttrPath m fuel edit n w = sent (optionsOffered edit ⟨path, pfx⟩ w.snippets w.options) := by
  unfold completeAttrPath
  rw [hpath]
  simp only [List.getLast?_append, List.getLast?_singleton, Option.some_or, List.dropLast_concat]
  have := attrName_ok edit ⟨path, pfx⟩ w.snippets w.options hs [] rfl
  rw [List.nil_append] at this
  rw [← sent_eq, ← this]
  rfl

/-! ### Snippets -/

theorem placeholder_escape (rest : Bytes) : ∀ v : Bytes, placeholder (escapeCharacters v ++ 125 :: rest) = some (v, rest)
  | [] => rfl
  | c :: v => by
    rw [escapeCharacters]
    by_cases hc : (c == 92 || c == 36 || c == 125) = true
    · rw [if_pos hc]
      have hc' : c = 36 ∨ c = 125 ∨ c = 92 := by
        simp only [Bool.or_eq_true, beq_iff_eq] at hc
        rcases hc with (h | h) | h
        · exact .inr (.inr h)
        · exact .inl h
        · exact .inr (.inl h)
      show placeholder (92 :: c :: (escapeCharacters v ++ 125 :: rest)) = _
      rw [placeholder, if_pos hc', placeholder_escape rest v]
      rfl
    · rw [if_neg hc]
      simp only [Bool.or_eq_true, beq_iff_eq, not_or] at hc
      show placeholder (c :: (escapeCharacters v ++ 125 :: rest)) = _
      rw [placeholder, if_neg hc.2, if_neg hc.1.2, placeholder_escape rest v]
      · rfl
      · intro _ _ h _
        exact hc.1.1 h

theorem expand_cons (k : Nat) {c : UInt8} (s : Bytes) (h1 : c ≠ 36) (h2 : c ≠ 92) : expand (k + 1) (c :: s) = (expand k s).map (c :: ·) := by
  rw [expand.eq_def]
  split
  · rename_i heq
    cases heq
  · rename_i heq
    cases heq
  · rename_i heq
    injection heq with e1 e2
    exact absurd e1 h1
  · rename_i heq0 heq
    cases heq0
    cases heq
    rw [if_neg h1, if_neg h2]

theorem expand_plain (k : Nat) (rest : Bytes) : ∀ name : Bytes, (∀ c ∈ name, c ≠ 36 ∧ c ≠ 92) →
    expand (name.length + k) (name ++ rest) = (expand k rest).map (name ++ ·)
  | [], _ => by simp
  | c :: name, h => by
    have hc := h c (.head _)
    have e : (c :: name).length + k = (name.length + k) + 1 := by simp; omega
    rw [e, List.cons_append, expand_cons _ _ hc.1 hc.2, expand_plain k rest name fun d hd => h d (.tail _ hd)]
    cases expand k rest <;> rfl

/-- C64. Accepting an option inserts a binding of its name: without snippets always, with snippets if the name has no
characters that are special in them. What is missing: see `C64_snippet_violated` and `C64_quote_violated`. -/
theorem C64_text_partial (name value : Bytes) (i : Item) :
    (fillInsertText false name value i).insertText = name ++ b!" = " ++ value ++ b!";" ∧
    ((∀ c ∈ name, c ≠ 36 ∧ c ≠ 92) → ∃ k, expand k (fillInsertText true name value i).insertText = some (name ++ b!" = " ++ value ++ b!";")) := by
  refine ⟨rfl, fun h => ⟨(name.length + (3 + 3)), ?_⟩⟩
  show expand _ (name ++ b!" = " ++ (b!"${1:" ++ escapeCharacters value ++ b!"}") ++ b!";") = _
  have e : name ++ b!" = " ++ (b!"${1:" ++ escapeCharacters value ++ b!"}") ++ b!";" =
      name ++ (b!" = " ++ (b!"${1:" ++ (escapeCharacters value ++ 125 :: b!";"))) := by simp
  have e2 : expand 3 (b!"${1:" ++ (escapeCharacters value ++ 125 :: b!";")) = some (value ++ b!";") := by
    show (placeholder (escapeCharacters value ++ 125 :: b!";")).bind _ = _
    rw [placeholder_escape]
    rfl
  have e3 := expand_plain 3 (b!"${1:" ++ (escapeCharacters value ++ 125 :: b!";")) b!" = " (by decide)
  rw [e2] at e3
  rw [e, expand_plain _ _ _ h, show 3 + 3 = (b!" = ").length + 3 from rfl, e3]
  simp

example : expand 20 (fillInsertText true b!"a.b" b!"${x}\\" { label := [], kind := .field }).insertText = some b!"a.b = ${x}\\;" := by
  decide +kernel

/-- C64. A name with a dollar sign is not escaped: the editor reads `$1` as a place for the cursor. -/
theorem C64_snippet_violated : ∃ name value, ∀ i, (fillInsertText true name value i).insertText = b!"a$1 = ${1:x};" ∧
    ∀ k, expand k (fillInsertText true name value i).insertText ≠ some (name ++ b!" = " ++ value ++ b!";") := by
  refine ⟨b!"a$1", b!"x", fun i => ⟨rfl, fun k => ?_⟩⟩
  rcases k with _ | _ | k
  · nofun
  · nofun
  · show expand (k + 2) (97 :: b!"$1 = ${1:x};") ≠ _
    rw [expand_cons _ _ (by decide) (by decide), show expand (k + 1) b!"$1 = ${1:x};" = none from rfl]
    nofun

/-- C64. A name that needs quotes is inserted without them: what results is not a binding. -/
theorem C64_quote_violated : ∀ i, (fillInsertText false b!"a b" b!"1" i).insertText = b!"a b = 1;" ∧
    parseDiags b!"{ a b = 1; }" ≠ [] ∧ parseDiags b!"{ \"a b\" = 1; }" = [] := by
  intro i
  exact ⟨rfl, by decide +kernel, by decide +kernel⟩

/-! ### Programs -/

/-- Some attributes of nixpkgs and some options, for examples. -/
def someWorld : World where
  nixpkgs := some fun p => if p = [] then some [b!"bar", b!"foo"] else if p = [b!"foo"] then some [b!"abc", b!"bar", b!"baz"]
    else if p = [b!"lib"] then some [b!"map", b!"mapAttrs"] else if p = [b!"foo", b!"bar"] then some [b!"q"] else none
  options := [(b!"nixos", some fun p => if p = [] then
    some [(b!"ab", some (some ⟨none, some b!"1", some b!"2", none⟩)), (b!"ac", some none)] else none), (b!"dead", none)]
  snippets := false

/-- The labels and kinds offered for a program, for examples. -/
noncomputable def completeAt (P : PrimOps) (src : Bytes) (w : World) (pos : Pos) : Option (List (Bytes × ItemKind) × Bool) :=
  match parse src with
  | some (root, _) => match onCompletion P src root w pos with
    | .list items b => some (items.map fun i => (i.label, i.kind), b)
    | _ => none
  | none => none

/-- The names in scope. -/
example : completeAt [(b!"map", false), (b!"mul", true)] b!"mq: {mr ? 1}: let ms = 2; __m = 3; in m" someWorld ⟨0, 39⟩ =
    some ([(b!"map", .keyword), (b!"mq", .variable_), (b!"mr", .variable_), (b!"ms", .variable_)], false) := by decide +kernel
/-- With the attributes of nixpkgs. -/
example : completeAt [] b!"fq: with pkgs.foo; b" someWorld ⟨0, 20⟩ =
    some ([(b!"builtins", .keyword), (b!"bar", .field), (b!"baz", .field)], false) := by decide +kernel
example : completeAt [] b!"lib.map" someWorld ⟨0, 6⟩ = some ([(b!"map", .field), (b!"mapAttrs", .field)], false) := by decide +kernel
example : completeAt [] b!"pkgs.foo." someWorld ⟨0, 9⟩ = some ([(b!"abc", .field), (b!"bar", .field), (b!"baz", .field)], false) := by
  decide +kernel
example : completeAt [] b!"{ a = 1; }" someWorld ⟨0, 2⟩ =
    some ([(b!"ab (example)", .constructor_), (b!"ab (default)", .constructor_), (b!"ac", .class_)], false) := by decide +kernel

/-- The theorems on variables are not vacuous. -/
example : ∃ root st Δ v n, parse b!"m: m" = some (root, st) ∧ Occurs root Δ v ∧ Reach root v ∧ n ∈ v.children ∧
    ∃ f ∈ Δ, f.binds (varName v) ≠ none := by
  have h : (match parse b!"m: m" with
    | some (.exprLambda h (.lambdaArg ha ia .null) (.exprVar hv (.identifier hi x)), _) =>
      ((frameOf (.exprLambda h (.lambdaArg ha ia .null) (.exprVar hv (.identifier hi x)))).binds x).isSome
    | _ => false) = true := by decide +kernel
  split at h
  · rename_i hd ha ia hv hi x st hp
    refine ⟨_, _, _, _, .identifier hi x, hp, ⟨.inner _ (.exprVar hv (.identifier hi x)) [] _ ?_ (.here _), rfl⟩,
      .down _ _ _ (List.mem_filter.mpr ⟨.tail _ (.head _), rfl⟩) (.here _), .head _, _, .head _, ?_⟩
    · simp [Scoping.parts, formalMembers, Node.isNull]
    · intro hc
      rw [varName, Node.name] at hc
      rw [hc] at h
      cases h
  · cases h

/-- A variable of which the innermost `with` is `with lib`. -/
def innermostLib (Δ : List Frame) : Bool :=
  match withsOf Δ with
  | .exprWith _ _ _ (.exprVar _ i) _ :: _ => i.name == b!"lib"
  | _ => false

/-- C63. Of nested `with`s the outermost is taken, although the innermost has precedence: here `x` is taken for `pkgs.x`. -/
theorem C63_innermost_violated : ∃ root st Δ v, parse b!"with pkgs; with lib; x" = some (root, st) ∧ Occurs root Δ v ∧
    innermostLib Δ = true ∧ mkVarSelector (runVL [] (sizeOf root) root) (runPM root) (sizeOf root) v = .ok [b!"x"] := by
  obtain ⟨root, st, Δ, v, h1, h2, h3⟩ := occurs_of_check (src := b!"with pkgs; with lib; x") (is := [1, 1])
    (fun root Δ v => innermostLib Δ && match mkVarSelector (runVL [] (sizeOf root) root) (runPM root) (sizeOf root) v with
      | .ok l => decide (l = [b!"x"])
      | .error _ => false) (by decide +kernel)
  rw [Bool.and_eq_true] at h3
  refine ⟨root, st, Δ, v, h1, h2, h3.1, ?_⟩
  have h3 := h3.2
  split at h3
  · rename_i l hl
    rw [hl, of_decide_eq_true h3]
  · cases h3

/-- C62. A name that is bound twice is offered twice. -/
theorem C62_once_violated : completeAt [] b!"m: m: m" someWorld ⟨0, 7⟩ = some ([(b!"m", .variable_), (b!"m", .variable_)], false) := by
  decide +kernel

/-- C65. In the middle of a path, the attributes below it are offered as replacements: here `bar` for `foo` in `pkgs.foo.bar`. -/
theorem C65_middle_violated : completeAt [] b!"pkgs.foo.bar" someWorld ⟨0, 6⟩ = some ([(b!"bar", .field)], false) ∧
    completeAt [] b!"pkgs.foo" someWorld ⟨0, 6⟩ = some ([(b!"foo", .field)], false) := by
  decide +kernel

/-- C65. After a dot before the last name, the attributes of the whole are offered: here `q` of `pkgs.foo.bar`. -/
theorem C65_inner_dot_violated : completeAt [] b!"pkgs.foo. bar" someWorld ⟨0, 9⟩ = some ([(b!"q", .field)], false) := by
  decide +kernel

/-- C65. Nothing is offered after the first dot. -/
theorem C65_first_dot_violated : completeAt [] b!"pkgs." someWorld ⟨0, 5⟩ = some ([], false) ∧
    (someWorld.nixpkgs.bind fun w => w []) = some [b!"bar", b!"foo"] := by
  decide +kernel

/-- C32. Without a worker for nixpkgs, completing a variable dereferences a null pointer. -/
theorem C32_no_worker_violated : ∃ root st, parse b!"m: m" = some (root, st) ∧
    onCompletion [] b!"m: m" root { someWorld with nixpkgs := none } ⟨0, 4⟩ = .undefined := by
  have h : (match parse b!"m: m" with
    | some (root, _) => decide (onCompletion [] b!"m: m" root { someWorld with nixpkgs := none } ⟨0, 4⟩ = .undefined)
    | none => false) = true := by decide +kernel
  split at h
  · rename_i root st hp
    exact ⟨root, st, hp, of_decide_eq_true h⟩
  · cases h

/-- C32. At `config`, which is removed from the path, the last element of an empty path is taken. -/
theorem C32_config_violated : ∃ root st, parse b!"{ config = 1; }" = some (root, st) ∧
    onCompletion [] b!"{ config = 1; }" root someWorld ⟨0, 4⟩ = .undefined := by
  have h : (match parse b!"{ config = 1; }" with
    | some (root, _) => decide (onCompletion [] b!"{ config = 1; }" root someWorld ⟨0, 4⟩ = .undefined)
    | none => false) = true := by decide +kernel
  split at h
  · rename_i root st hp
    exact ⟨root, st, hp, of_decide_eq_true h⟩
  · cases h

/-- Options with names of one letter more than fits: `a0`, `a1`, ... -/
def manyOptions : OptWorker := fun _ => some ((List.range 31).map fun i => ([97, 48 + UInt8.ofNat i], some none))

/-- C32. Of 31 options 30 are sent, and the list is not marked as incomplete. -/
theorem C32_options_violated : ∃ items, completeAttrName ⟨⟨0, 0⟩, ⟨0, 1⟩⟩ ⟨[], b!"a"⟩ false [(b!"nixos", some manyOptions)] [] = (items, false) ∧
    items.length = 30 ∧ (optionsOffered ⟨⟨0, 0⟩, ⟨0, 1⟩⟩ ⟨[], b!"a"⟩ false [(b!"nixos", some manyOptions)]).length = 31 := by
  refine ⟨(completeAttrName ⟨⟨0, 0⟩, ⟨0, 1⟩⟩ ⟨[], b!"a"⟩ false [(b!"nixos", some manyOptions)] []).1, ?_, ?_, ?_⟩
  · have h : (completeAttrName ⟨⟨0, 0⟩, ⟨0, 1⟩⟩ ⟨[], b!"a"⟩ false [(b!"nixos", some manyOptions)] []).2 = false := by decide +kernel
    exact Prod.ext rfl h
  · decide +kernel
  · decide +kernel

/-- 31 names in scope: 30 are sent, marked as incomplete. -/
example : ((completeAt ((List.range 31).map fun i => ([97, 48 + UInt8.ofNat i], false)) b!"a" someWorld ⟨0, 1⟩).map fun r => (r.1.length, r.2)) =
    some (30, true) := by decide +kernel

end Verif.Props
