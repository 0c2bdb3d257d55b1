import Verif.Props.CodeAction
import Verif.Props.Completion
/-
The conversion of `with` into `let inherit` (C38): which names are inherited, when the action is offered, and what happens to
the meaning of variables. The remaining differences are exactly the two violations: names also looked up in outer `with`s, and
variables of the set that are captured.
-/
namespace Verif.Props
open Nixf Node Scoping Server SourceCode

/-- Names kept by a `std::set<std::string>`. -/
theorem mem_setInsert (x y : Bytes) (l : List Bytes) : y ∈ setInsert x l ↔ y = x ∨ y ∈ l := by
  induction l with
  | nil => simp [setInsert]
  | cons z zs ih =>
    unfold setInsert
    split
    · simp
    · split
      · rename_i h; subst h; simp
      · simp only [List.mem_cons, ih]
        constructor <;> rintro (h | h | h) <;> simp [h]

theorem mem_foldInsert (f : Node → Bytes) (us : List Node) (l : List Bytes) (y : Bytes) :
    y ∈ us.foldl (fun m v => setInsert (f v) m) l ↔ y ∈ l ∨ ∃ v ∈ us, f v = y := by
  induction us generalizing l with
  | nil => simp
  | cons u us ih =>
    rw [List.foldl_cons, ih, mem_setInsert]
    constructor
    · rintro ((rfl | h) | ⟨v, h, rfl⟩)
      · exact .inr ⟨u, by simp, rfl⟩
      · exact .inl h
      · exact .inr ⟨v, by simp [h], rfl⟩
    · rintro (h | ⟨v, h, rfl⟩)
      · exact .inl (.inr h)
      · rcases List.mem_cons.mp h with rfl | h
        · exact .inl (.inl rfl)
        · exact .inr ⟨v, h, rfl⟩

theorem bytesLt_irrefl (a : Bytes) : bytesLt a a = false := by
  induction a with
  | nil => rfl
  | cons x xs ih => simp [bytesLt, ih]

theorem bytesLt_trans {a b c : Bytes} (h1 : bytesLt a b = true) (h2 : bytesLt b c = true) : bytesLt a c = true := by
  induction a generalizing b c with
  | nil =>
    cases c with
    | nil => cases b <;> cases h2
    | cons z zs => rfl
  | cons x xs ih =>
    cases b with
    | nil => cases h1
    | cons y ys =>
      cases c with
      | nil => cases h2
      | cons z zs =>
        simp only [bytesLt, Bool.or_eq_true, decide_eq_true_eq, Bool.and_eq_true, beq_iff_eq] at h1 h2 ⊢
        rcases h1 with h1 | ⟨rfl, h1⟩
        · rcases h2 with h2 | ⟨rfl, -⟩
          · exact .inl (UInt8.lt_trans h1 h2)
          · exact .inl h1
        · rcases h2 with h2 | ⟨rfl, h2⟩
          · exact .inl h2
          · exact .inr ⟨rfl, ih h1 h2⟩

theorem bytesLt_total (a b : Bytes) : bytesLt a b = true ∨ a = b ∨ bytesLt b a = true := by
  induction a generalizing b with
  | nil => cases b <;> simp [bytesLt]
  | cons x xs ih =>
    cases b with
    | nil => simp [bytesLt]
    | cons y ys =>
      simp only [bytesLt, Bool.or_eq_true, decide_eq_true_eq, Bool.and_eq_true, beq_iff_eq, List.cons.injEq]
      by_cases hxy : x = y
      · subst hxy
        rcases ih ys with h | h | h
        · exact .inl (.inr ⟨rfl, h⟩)
        · exact .inr (.inl ⟨rfl, h⟩)
        · exact .inr (.inr (.inr ⟨rfl, h⟩))
      · rcases Nat.lt_or_gt_of_ne (fun hc => hxy (UInt8.toNat_inj.mp hc)) with h | h
        · exact .inl (.inl h)
        · exact .inr (.inr (.inl h))

/-- A `std::set` is sorted and has no duplicates. -/
theorem setInsert_sorted (x : Bytes) {l : List Bytes} (h : l.Pairwise fun a b => bytesLt a b = true) :
    (setInsert x l).Pairwise fun a b => bytesLt a b = true := by
  induction l with
  | nil => simp [setInsert]
  | cons y ys ih =>
    rw [List.pairwise_cons] at h
    unfold setInsert
    split
    · rename_i hxy
      refine List.pairwise_cons.mpr ⟨fun z hz => ?_, List.pairwise_cons.mpr h⟩
      rcases List.mem_cons.mp hz with rfl | hz
      · exact hxy
      · exact bytesLt_trans hxy (h.1 z hz)
    · rename_i hxy
      split
      · exact List.pairwise_cons.mpr h
      · rename_i hne
        refine List.pairwise_cons.mpr ⟨fun z hz => ?_, ih h.2⟩
        rcases (mem_setInsert ..).mp hz with rfl | hz
        · rcases bytesLt_total z y with hc | hc | hc
          · exact absurd hc hxy
          · exact absurd hc hne
          · exact hc
        · exact h.1 z hz

theorem foldInsert_sorted (f : Node → Bytes) (us : List Node) {l : List Bytes} (h : l.Pairwise fun a b => bytesLt a b = true) :
    (us.foldl (fun m v => setInsert (f v) m) l).Pairwise fun a b => bytesLt a b = true := by
  induction us generalizing l with
  | nil => exact h
  | cons u us ih => exact ih (setInsert_sorted _ h)

theorem sorted_nodup {l : List Bytes} (h : l.Pairwise fun a b => bytesLt a b = true) : l.Nodup :=
  h.imp fun {a b} hab e => by rw [e, bytesLt_irrefl] at hab; cases hab

section
variable (P : PrimOps) {src : Bytes} {root : Node} {st : PState} (hp : parse src = some (root, st)) {fuel : Nat}
  (hfuel : sizeOf root ≤ fuel)
include hp

/-- What defines a name is not a keyword. -/
theorem binds_named {Γ : List Frame} {m k : Node} {x : Bytes} {ds : DefSource} (hm : Inside root Γ m)
    (hb : (frameOf m).binds x = some (k, ds)) : ¬ Grammar.IsMisc k := by
  have hg := (parse_ids hp).vok.2 Γ m hm
  have key : ∀ {st : List Node} {a : Node}, (∀ x ∈ st, (attrKey x).staticName? = some (attrName x)) → a ∈ st → ¬ Grammar.IsMisc (attrKey a) := by
    rintro st a hs ha ⟨h, e⟩
    have := hs a ha
    rw [e] at this
    cases this
  unfold frameOf at hb
  split at hb
  · rename_i h ha i f e
    split at hb
    · cases hb
    · have hr := hg.2.2 (.exprLambda h (.lambdaArg ha i f) e) (by simp [keysOf])
      have hra : Reach root (.lambdaArg ha i f) := reach_child hr (List.mem_filter.mpr ⟨by simp, rfl⟩)
      have hfa := at_fits hp hra
      simp only [lambdaFrame, Frame.binds] at hb
      split at hb
      · rename_i m' hf
        cases hb
        have hmem := List.mem_of_find?_eq_some hf
        have hnn := List.find?_some hf
        simp only [Bool.and_eq_true, Bool.not_eq_true'] at hnn
        have : ∃ hf' ms, f = .formals hf' ms := by
          cases f <;> first | exact ⟨_, _, rfl⟩ | cases hmem
        obtain ⟨hf', ms, rfl⟩ := this
        have hrf : Reach root (.formals hf' ms) := reach_child hra (List.mem_filter.mpr ⟨by simp, rfl⟩)
        have hff := at_fits hp hrf
        obtain ⟨hh, c, i', d, e', rfl⟩ := hff m' hmem
        have hrm : Reach root (.formal hh c i' d e') := reach_child hrf (List.mem_filter.mpr ⟨hmem, rfl⟩)
        have := (at_fits hp hrm).2.1
        rcases this with h | h
        · rw [show formalID (.formal hh c i' d e') = i' from rfl, h] at hnn
          cases hnn.1
        · rintro ⟨_, h'⟩
          rw [show formalID (.formal hh c i' d e') = i' from rfl] at h'
          rw [h'] at h
          obtain ⟨_, _, h⟩ := h
          cases h
      · split at hb
        · rename_i hc
          simp only [Bool.and_eq_true, Bool.not_eq_true'] at hc
          cases hb
          rcases hfa.1 with h | h
          · rw [h] at hc; cases hc.1
          · rintro ⟨_, h'⟩
            rw [h'] at h
            obtain ⟨_, _, h⟩ := h
            cases h
        · cases hb
  · split at hb
    · cases hb
    · simp only [setFrame, Frame.binds, Option.map_eq_some_iff] at hb
      obtain ⟨a, ha, hb⟩ := hb
      cases hb
      exact key hg.2.1.1.static (List.mem_of_find?_eq_some ha)
  · simp only [setFrame, Frame.binds, Option.map_eq_some_iff] at hb
    obtain ⟨a, ha, hb⟩ := hb
    cases hb
    obtain ⟨-, -, h3 | ⟨_, _, _, _, _, h3, h4⟩⟩ := hg.2.1
    · cases h3
    · cases h3
      exact key h4.static (List.mem_of_find?_eq_some ha)
  · cases hb
  · cases hb

include hfuel

/-- What is known of a `with` of the program: its definition has the uses of the `with`. -/
theorem with_uses {Γ : List Frame} {h : Hd} {kw semi w e : Node} (hw : Inside root Γ (.exprWith h kw semi w e)) (v : Node) :
    (∃ d, (runVL P fuel root).toDefOf kw = some d ∧ v ∈ d.uses) ↔ MayComeFrom P Γ (.exprWith h kw semi w e) v := by
  have hrun := run_ok P hfuel (parse_wellFormed hp)
  have hfaith := parse_faithful hp
  have hreach : Reach root (.exprWith h kw semi w e) := ((parse_ids hp).vok.2 Γ _ hw).2.2 _ (by simp [keysOf])
  have hmisc := (at_fits hp hreach).1
  have hkn : kw.isNode = true := by obtain ⟨_, rfl⟩ := hmisc; rfl
  have hrk : Reach root kw := reach_child hreach (List.mem_filter.mpr ⟨by simp, hkn⟩)
  -- the definition is that of the `with`
  have hdef : ∀ d, ptrFind kw.id (runVL P fuel root).toDef = some d → ptrFind h.id (runVL P fuel root).withDefs = some d := by
    intro d hd
    obtain ⟨h1, h2, h3⟩ := hrun.toDefFrom _ _ hd
    by_cases h4 : ((runVL P fuel root).get d).source = .with_
    · obtain ⟨Δ, m, hm, hq, h', sm, w', e', he⟩ := hrun.wsyn d h1 h4
      generalize hkw : ((runVL P fuel root).get d).syntax_ = kw' at he h2
      subst he
      have hreach' : Reach root (.exprWith h' kw' sm w' e') := ((parse_ids hp).vok.2 Δ _ hm).2.2 _ (by simp [keysOf])
      have hmisc' := (at_fits hp hreach').1
      have hkn' : kw'.isNode = true := by obtain ⟨_, rfl⟩ := hmisc'; rfl
      have hc : kw ∈ (Node.exprWith h kw semi w e).children := List.mem_filter.mpr ⟨by simp, hkn⟩
      have hc' : kw' ∈ (Node.exprWith h' kw' sm w' e').children := List.mem_filter.mpr ⟨by simp, hkn'⟩
      have heq := (parse_ids hp).cinj _ _ (reach_child hreach' hc') hrk h2
      subst heq
      rcases (parse_ids hp).up.1 _ _ _ hreach hreach' hc hc' with hh | ⟨_, _, _, _, hh, -⟩ | ⟨_, _, _, _, hh, -⟩
      · cases hh
        exact hq
      · cases hh
      · cases hh
    · obtain ⟨Δ, m, x, h5, h6, -⟩ := hrun.defs d h1 h4 h3
      have h7 := (parse_ids hp).cinj _ _ (binds_reach hp h5 h6) hrk h2
      rw [h7] at h6
      exact absurd hmisc (binds_named hp h5 h6)
  have hmem : v ∈ wuses (runVL P fuel root) h.id ↔ MayComeFrom P Γ (.exprWith h kw semi w e) v := by
    rw [hrun.wuses, List.mem_flatMap]
    constructor
    · rintro ⟨q, hq, hv⟩
      unfold wuseOf at hv
      split at hv
      · rename_i hc
        simp only [Bool.and_eq_true] at hc
        obtain ⟨w', hw', hv⟩ := List.mem_filterMap.mp hv
        rw [withsOf_full, mem_withsOf] at hw'
        split at hv
        · rename_i hid
          cases hv
          have hid : w'.id = h.id := by simpa using hid
          obtain ⟨Δ1, Δ2, c, h1, h2, h3, h4, -⟩ := inside_with (mem_vis.mp hq) hw'
          obtain ⟨rfl, rfl⟩ := hfaith _ _ _ _ h2 hw hid
          have := free_full.mp hc.2
          refine ⟨c, Δ1, h3, ⟨h4, hc.1⟩, ?_, this.2⟩
          intro f hf'
          apply this.1 f
          rw [h1]
          rcases List.mem_append.mp hf' with hf' | hf'
          · exact List.mem_append_left _ hf'
          · exact List.mem_append_right _ (List.mem_cons_of_mem _ hf')
        · cases hv
      · cases hv
    · rintro ⟨c, Δ, hc, ⟨ho, hv⟩, hfr, hng⟩
      have h1 : Inside root (Δ ++ .with_ (.exprWith h kw semi w e) :: Γ) v := by
        have := inside_trans hw (.inner _ c _ _ hc ho)
        rw [List.append_assoc] at this
        exact this
      refine ⟨_, mem_vis.mpr h1, ?_⟩
      unfold wuseOf
      rw [if_pos (by
        simp only [Bool.and_eq_true]
        refine ⟨hv, free_full.mpr ⟨fun f hf' => ?_, hng⟩⟩
        rcases List.mem_append.mp hf' with hf' | hf'
        · exact hfr f (List.mem_append_left _ hf')
        · rcases List.mem_cons.mp hf' with rfl | hf'
          · rfl
          · exact hfr f (List.mem_append_right _ hf'))]
      refine List.mem_filterMap.mpr ⟨.exprWith h kw semi w e, ?_, ?_⟩
      · rw [withsOf_full, mem_withsOf]; simp
      · rw [if_pos (by exact beq_self_eq_true _)]
  rw [← hmem]
  unfold VL.toDefOf wuses
  constructor
  · rintro ⟨d, hd, hv⟩
    rcases hf : ptrFind kw.id (runVL P fuel root).toDef with _ | j
    · rw [hf] at hd; cases hd
    · rw [hf] at hd
      cases hd
      rw [hdef _ hf]
      exact hv
  · intro hv
    split at hv
    · rename_i j hj
      obtain ⟨Δ, m, hm, hid, h', sm, w', e', he⟩ := hrun.wdefSyn _ (ptrFind_mem hj)
      obtain ⟨rfl, rfl⟩ := hfaith _ _ _ _ hm hw hid
      have hs := hrun.wdef _ (ptrFind_mem hj)
      have hlt : j < (runVL P fuel root).store.length := by
        apply Classical.byContradiction
        intro hc
        simp only [VL.get] at hs
        rw [List.getD_eq_getElem?_getD, List.getElem?_eq_none (Nat.not_lt.mp hc)] at hs
        cases hs
      obtain ⟨d', hd'⟩ := hrun.toDefHas j hlt (by rw [hs]; nofun)
      have hkw : ((runVL P fuel root).get j).syntax_ = kw := by cases he; rfl
      rw [hkw] at hd'
      have := hdef _ hd'
      rw [hj] at this
      cases this
      exact ⟨_, by rw [hd']; rfl, hv⟩
    · cases hv

/-- The names in the list are those of the variables that may come from the `with`. -/
theorem mem_withVariables {Γ : List Frame} {h : Hd} {kw semi w e : Node} (hw : Inside root Γ (.exprWith h kw semi w e)) (x : Bytes) :
    x ∈ withVariables (runVL P fuel root) kw ↔ ∃ v, MayComeFrom P Γ (.exprWith h kw semi w e) v ∧ varName v = x := by
  have hu := with_uses P hp hfuel hw
  have hn : ∀ v, useName v = varName v := fun v => by cases v <;> rfl
  unfold withVariables
  constructor
  · intro hx
    split at hx
    · cases hx
    · rename_i d hd
      rw [mem_foldInsert] at hx
      rcases hx with hx | ⟨v, hv, rfl⟩
      · cases hx
      · exact ⟨v, (hu v).mp ⟨d, hd, hv⟩, (hn v).symm⟩
  · rintro ⟨v, hv, rfl⟩
    obtain ⟨d, hd, hv⟩ := (hu v).mpr hv
    rw [hd]
    exact (mem_foldInsert ..).mpr (.inr ⟨v, hv, hn v⟩)

/-- A nested `with` gets in the way of a variable. -/
theorem nested_iff {Γ : List Frame} {h : Hd} {kw semi w e : Node} (hw : Inside root Γ (.exprWith h kw semi w e)) :
    hasNestedWithScope (runVL P fuel root) (.exprWith h kw semi w e) kw = true ↔
      ∃ c Δ v, (true, c) ∈ Scoping.parts (.exprWith h kw semi w e) ∧ Occurs c Δ v ∧ Free (Δ ++ Γ) (varName v) ∧ ¬ Global P (varName v) ∧
        withsOf Δ ≠ [] := by
  have hu := with_uses P hp hfuel hw
  have hfaith := parse_faithful hp
  have cand : ∀ c Δ v, (true, c) ∈ Scoping.parts (.exprWith h kw semi w e) → Occurs c Δ v → Free (Δ ++ Γ) (varName v) →
      ¬ Global P (varName v) → (runVL P fuel root).withScopesOf v = (withsOf Δ).map Node.id ++ h.id :: (withsOf Γ).map Node.id ∧
        ∀ w' ∈ withsOf Δ, w'.id ≠ h.id := by
    intro c Δ v hc ho hfr hng
    have h1 : Inside root (Δ ++ .with_ (.exprWith h kw semi w e) :: Γ) v := by
      have := inside_trans hw (.inner _ c _ _ hc ho.1)
      rw [List.append_assoc] at this
      exact this
    refine ⟨?_, ?_⟩
    · rw [C23_candidates P hp hfuel ⟨h1, ho.2⟩ (by
        intro f hf'
        rcases List.mem_append.mp hf' with hf' | hf'
        · exact hfr f (List.mem_append_left _ hf')
        · rcases List.mem_cons.mp hf' with rfl | hf'
          · rfl
          · exact hfr f (List.mem_append_right _ hf')) hng]
      unfold withsOf
      rw [List.filterMap_append, List.map_append]
      rfl
    · intro w' hw' hid
      rw [mem_withsOf] at hw'
      obtain ⟨Δ1, Δ2, c', e1, h2, -⟩ := inside_with ho.1 hw'
      have h3 : Inside root (Δ2 ++ .with_ (.exprWith h kw semi w e) :: Γ) w' := by
        have := inside_trans hw (.inner _ c _ _ hc h2)
        rw [List.append_assoc] at this
        exact this
      have := congrArg List.length (hfaith _ _ _ _ h3 hw hid).2
      rw [List.length_append, List.length_cons] at this
      omega
  unfold hasNestedWithScope
  constructor
  · intro hn
    split at hn
    · cases hn
    · rename_i d hd
      obtain ⟨v, hv, hn⟩ := List.any_eq_true.mp hn
      obtain ⟨c, Δ, hc, ho, hfr, hng⟩ := (hu v).mp ⟨d, hd, hv⟩
      refine ⟨c, Δ, v, hc, ho, hfr, hng, fun he => ?_⟩
      rw [(cand c Δ v hc ho hfr hng).1, he] at hn
      simp [Node.id, Node.hd?, Node.hd] at hn
  · rintro ⟨c, Δ, v, hc, ho, hfr, hng, hne⟩
    obtain ⟨d, hd, hv⟩ := (hu v).mpr ⟨c, Δ, hc, ho, hfr, hng⟩
    rw [hd]
    refine List.any_eq_true.mpr ⟨v, hv, ?_⟩
    obtain ⟨k1, k2⟩ := cand c Δ v hc ho hfr hng
    rw [k1]
    obtain ⟨w', ws, he⟩ := List.exists_cons_of_ne_nil hne
    rw [he] at k2 ⊢
    have := k2 w' (by simp)
    simp only [List.map_cons, List.cons_append, List.length_cons, List.length_append, List.length_map, Bool.and_eq_true,
      decide_eq_true_eq, List.head?_cons, bne_iff_ne, ne_eq, Option.some.injEq]
    exact ⟨by omega, this⟩

/-- **C38.** The action is offered exactly if the cursor touches the keyword, some variable may come from the `with`, and none of
these variables has a nested `with` that gets in the way. -/
theorem C38_offered {Γ : List Frame} {h : Hd} {kw semi w e : Node} (hw : Inside root Γ (.exprWith h kw semi w e)) (n : Node) :
    withToLet src (runVL P fuel root) n (.exprWith h kw semi w e) ≠ [] ↔
      n.lCur.offset ≤ kw.rCur.offset ∧ kw.lCur.offset ≤ n.rCur.offset ∧ w ≠ .null ∧
      (∃ v, MayComeFrom P Γ (.exprWith h kw semi w e) v) ∧
      ∀ Δ v, Occurs e Δ v → Free (Δ ++ Γ) (varName v) → ¬ Global P (varName v) → withsOf Δ = [] := by
  have hpt : ∀ c, (true, c) ∈ Scoping.parts (.exprWith h kw semi w e) ↔ c = e ∧ e.isNull = false := by
    intro c
    simp only [Scoping.parts, inScope]
    constructor
    · intro hc
      rcases List.mem_append.mp hc with hc | hc
      · split at hc <;> simp at hc
      · split at hc
        · cases hc
        · rename_i he; simp at hc he; exact ⟨hc, he⟩
    · rintro ⟨rfl, he⟩
      rw [he]
      exact List.mem_append_right _ (by simp)
  have hnull : ∀ m : Node, m.isNull = true ↔ m = .null := fun m => by cases m <;> simp [Node.isNull]
  have hne := nested_iff P hp hfuel hw
  have hmv := mem_withVariables P hp hfuel hw
  have hemp : (withVariables (runVL P fuel root) kw).isEmpty = true ↔ ¬ ∃ v, MayComeFrom P Γ (.exprWith h kw semi w e) v := by
    rw [List.isEmpty_iff, List.eq_nil_iff_forall_not_mem]
    constructor
    · rintro hall ⟨v, hv⟩
      exact hall _ ((hmv _).mpr ⟨v, hv, rfl⟩)
    · intro hall x hx
      obtain ⟨v, hv, -⟩ := (hmv x).mp hx
      exact hall ⟨v, hv⟩
  have hinner : hasNestedWithScope (runVL P fuel root) (.exprWith h kw semi w e) kw = false ↔
      ∀ Δ v, Occurs e Δ v → Free (Δ ++ Γ) (varName v) → ¬ Global P (varName v) → withsOf Δ = [] := by
    rw [← Bool.not_eq_true, hne]
    constructor
    · intro hall Δ v ho hf hg
      apply Classical.byContradiction
      intro hc
      refine hall ⟨e, Δ, v, (hpt e).mpr ⟨rfl, ?_⟩, ho, hf, hg, hc⟩
      cases he : e.isNull
      · rfl
      · rw [hnull] at he
        subst he
        obtain ⟨-, rfl⟩ := inside_null ho.1
        cases ho.2
    · rintro hall ⟨c, Δ, v, hc, ho, hf, hg, hw'⟩
      obtain ⟨rfl, -⟩ := (hpt c).mp hc
      exact hw' (hall Δ v ho hf hg)
  rw [withToLet]
  constructor
  · intro ha
    split at ha
    · exact absurd rfl ha
    rename_i h1
    split at ha
    · exact absurd rfl ha
    rename_i h2
    split at ha
    · exact absurd rfl ha
    rename_i h3
    split at ha
    · exact absurd rfl ha
    rename_i h4
    simp only [onKeyword, Bool.not_eq_false, Bool.and_eq_true, decide_eq_true_eq] at h1
    rw [Bool.not_eq_true, hinner] at h2
    rw [hemp, Classical.not_not] at h3
    exact ⟨h1.1, h1.2, fun hc => h4 (.inl ((hnull w).mpr hc)), h3, h2⟩
  · rintro ⟨h1, h1', h2, h3, h4⟩
    rw [if_neg (by simp [onKeyword, h1, h1']), if_neg (by rw [hinner.mpr h4]; simp), if_neg (by rw [hemp, Classical.not_not]; exact h3),
      if_neg (by
        rintro (hc | hc)
        · exact h2 ((hnull w).mp hc)
        · obtain ⟨v, c, _, hcp, -⟩ := h3
          rw [((hpt c).mp hcp).2] at hc
          cases hc)]
    simp

/-- **C38.** The edit replaces the `with` by a `let` that inherits, from the same set, each name that may come from the `with`,
once, and nothing else. -/
theorem C38_edit {Γ : List Frame} {h : Hd} {kw semi w e : Node} (hw : Inside root Γ (.exprWith h kw semi w e)) {n : Node} {a : Action}
    (ha : a ∈ withToLet src (runVL P fuel root) n (.exprWith h kw semi w e)) :
    ∃ names : List Bytes, names.Nodup ∧ (∀ x, x ∈ names ↔ ∃ v, MayComeFrom P Γ (.exprWith h kw semi w e) v ∧ varName v = x) ∧
      a.range = h.range ∧
      a.newText = b!"let inherit (" ++ w.src src ++ b!")" ++ (names.flatMap fun x => b!" " ++ x) ++ b!"; in " ++ e.src src := by
  refine ⟨withVariables (runVL P fuel root) kw, ?_, mem_withVariables P hp hfuel hw, ?_⟩
  · unfold withVariables
    split
    · exact .nil
    · exact sorted_nodup (foldInsert_sorted _ _ .nil)
  · rw [withToLet] at ha
    split at ha
    · cases ha
    split at ha
    · cases ha
    split at ha
    · cases ha
    split at ha
    · cases ha
    cases List.mem_singleton.mp ha
    exact ⟨rfl, rfl⟩

end

/-- The `let` that takes the place of the `with`: it defines the names, by the nodes `k`. -/
def letFrame (names : List Bytes) (k : Bytes → Node) : Frame :=
  .names fun x => if x ∈ names then some (k x, .let_) else none

/-- **C38.** After the edit, each variable in the body of the `with` that may have come from it (and no nested `with` gets in the
way) refers to the inherited name, and every other variable in the body refers to what it did before. So the body keeps its
meaning, except that the names are no longer looked up in `withsOf Γ`, the outer `with`s. -/
theorem C38_body_partial (P : PrimOps) {Γ : List Frame} {h : Hd} {kw semi w e : Node} {names : List Bytes}
    (hnames : ∀ x, x ∈ names ↔ ∃ v, MayComeFrom P Γ (.exprWith h kw semi w e) v ∧ varName v = x) (he : e ≠ .null) (k : Bytes → Node)
    {Δ : List Frame} {v : Node} (hv : Occurs e Δ v) :
    (MayComeFrom P Γ (.exprWith h kw semi w e) v ∧ resolve (Δ ++ .with_ (.exprWith h kw semi w e) :: Γ) (varName v) = none ∧
        resolve (Δ ++ letFrame names k :: Γ) (varName v) = some (k (varName v), .let_)) ∨
      ((resolve (Δ ++ .with_ (.exprWith h kw semi w e) :: Γ) (varName v) ≠ none ∨ Global P (varName v)) ∧
        resolve (Δ ++ letFrame names k :: Γ) (varName v) = resolve (Δ ++ .with_ (.exprWith h kw semi w e) :: Γ) (varName v)) := by
  have hskip : ∀ x, resolve (Δ ++ .with_ (.exprWith h kw semi w e) :: Γ) x = resolve (Δ ++ Γ) x := fun x => by
    unfold resolve
    rw [List.findSome?_append, List.findSome?_append, List.findSome?_cons]
    rfl
  have hpt : (true, e) ∈ Scoping.parts (.exprWith h kw semi w e) := by
    simp only [Scoping.parts, inScope]
    refine List.mem_append_right _ ?_
    cases e <;> first | exact absurd rfl he | simp [Node.isNull]
  have hnone : ∀ (L : List Frame) x, resolve L x = none ↔ Free L x := fun L x => List.findSome?_eq_none_iff
  have hlet : ∀ x, resolve (Δ ++ letFrame names k :: Γ) x =
      (resolve Δ x).or (if x ∈ names then some (k x, .let_) else resolve Γ x) := by
    intro x
    unfold resolve
    rw [List.findSome?_append, List.findSome?_cons]
    congr 1
    by_cases hx : x ∈ names <;> simp [letFrame, Frame.binds, hx]
  have happ : ∀ x, resolve (Δ ++ Γ) x = (resolve Δ x).or (resolve Γ x) := fun x => List.findSome?_append
  rw [hskip]
  have hin : varName v ∈ names → Free Γ (varName v) ∧ ¬ Global P (varName v) := by
    intro hx
    obtain ⟨u, ⟨c, Δ', -, -, hf, hg⟩, hn⟩ := (hnames _).mp hx
    rw [hn] at hf hg
    exact ⟨fun f h => hf f (List.mem_append_right _ h), hg⟩
  by_cases hm : Free (Δ ++ Γ) (varName v) ∧ ¬ Global P (varName v)
  · left
    have hfrom : MayComeFrom P Γ (.exprWith h kw semi w e) v := ⟨e, Δ, hpt, hv, hm.1, hm.2⟩
    refine ⟨hfrom, (hnone _ _).mpr hm.1, ?_⟩
    rw [hlet, if_pos ((hnames _).mpr ⟨v, hfrom, rfl⟩), (hnone Δ _).mpr fun f h => hm.1 f (List.mem_append_left _ h)]
    rfl
  · right
    refine ⟨?_, ?_⟩
    · by_cases hg : Global P (varName v)
      · exact .inr hg
      · exact .inl fun hc => hm ⟨(hnone _ _).mp hc, hg⟩
    · rw [hlet, happ]
      by_cases hx : varName v ∈ names
      · obtain ⟨h1, h2⟩ := hin hx
        rcases hr : resolve Δ (varName v) with _ | q
        · exfalso
          refine hm ⟨fun f hf => ?_, h2⟩
          rcases List.mem_append.mp hf with hf | hf
          · exact (hnone _ _).mp hr f hf
          · exact h1 f hf
        · rfl
      · rw [if_neg hx]

/-- **C38.** The set is now in the scope of the names it gives: a variable of the set refers to what it did before exactly if it is
bound inside of the set or its name is not among those inherited. -/
theorem C38_set_partial (P : PrimOps) {Γ : List Frame} {h : Hd} {kw semi w e : Node} {names : List Bytes}
    (hnames : ∀ x, x ∈ names ↔ ∃ v, MayComeFrom P Γ (.exprWith h kw semi w e) v ∧ varName v = x) (k : Bytes → Node)
    {Δ : List Frame} {v : Node} :
    resolve (Δ ++ letFrame names k :: Γ) (varName v) = resolve (Δ ++ Γ) (varName v) ↔
      ¬ Free Δ (varName v) ∨ ¬ ∃ u, MayComeFrom P Γ (.exprWith h kw semi w e) u ∧ varName u = varName v := by
  have hnone : ∀ (L : List Frame) x, resolve L x = none ↔ Free L x := fun L x => List.findSome?_eq_none_iff
  rw [← hnames]
  have hlet : resolve (Δ ++ letFrame names k :: Γ) (varName v) =
      (resolve Δ (varName v)).or (if varName v ∈ names then some (k (varName v), .let_) else resolve Γ (varName v)) := by
    unfold resolve
    rw [List.findSome?_append, List.findSome?_cons]
    congr 1
    by_cases hx : varName v ∈ names <;> simp [letFrame, Frame.binds, hx]
  have happ : resolve (Δ ++ Γ) (varName v) = (resolve Δ (varName v)).or (resolve Γ (varName v)) := List.findSome?_append
  rw [hlet, happ, ← hnone]
  rcases hr : resolve Δ (varName v) with _ | q
  · by_cases hx : varName v ∈ names
    · obtain ⟨u, ⟨c, Δ', -, -, hf, hg⟩, hn⟩ := (hnames _).mp hx
      rw [hn] at hf
      rw [if_pos hx, (hnone Γ _).mpr fun f h => hf f (List.mem_append_right _ h)]
      simp [hx]
    · simp [hx]
  · simp

/-- The parts of `with a; b`. -/
def withParts (src : Bytes) : Option (Bytes × Bytes) :=
  match parse src with
  | some (.exprWith _ _ _ (.exprVar _ i) (.exprVar _ j), _) => some (i.name, j.name)
  | _ => none

example : ∃ root st, parse b!"with a; b" = some (root, st) ∧ ∃ h kw semi w e, Inside root [] (.exprWith h kw semi w e) ∧
    e ≠ .null ∧ ∃ v, MayComeFrom [] [] (.exprWith h kw semi w e) v := by
  have h : withParts b!"with a; b" = some (b!"a", b!"b") := by decide +kernel
  unfold withParts at h
  split at h
  · rename_i h1 kw semi h2 i h3 j st' hp
    refine ⟨_, _, hp, h1, kw, semi, _, _, .here _, nofun, .exprVar h3 j, .exprVar h3 j, [], ?_, ⟨.here _, rfl⟩, nofun, ?_⟩
    · simp [Scoping.parts, inScope, Node.isNull]
    · have hj : j.name = b!"b" := congrArg (·.2) (Option.some.inj h)
      rw [show varName (.exprVar h3 j) = j.name from rfl, hj]
      unfold Global
      decide
  · cases h

end Verif.Props
