import Verif.Lemmas.ScopeBase
/-
The names bound by a node (`frameOf`) are the definitions that are made for it (`entsOf`).
-/
namespace Verif.Nixf.Scoping

theorem keyFind_append {α : Type} {x : Bytes} {m l : List (Bytes × α)} :
    keyFind x (m ++ l) = (keyFind x m).or (keyFind x l) := by
  unfold keyFind
  rw [List.find?_append]
  cases m.find? (fun p => p.1 == x) <;> simp

theorem keyFind_of_mem {α : Type} {x : Bytes} {d : α} {m : List (Bytes × α)} (hn : (m.map (·.1)).Nodup)
    (h : (x, d) ∈ m) : keyFind x m = some d := by
  induction m with
  | nil => cases h
  | cons p m ih =>
    rw [List.map_cons, List.nodup_cons] at hn
    rw [keyFind_cons]
    rcases List.mem_cons.mp h with rfl | h
    · simp
    · have : p.1 ≠ x := fun hp => hn.1 (hp ▸ List.mem_map_of_mem h)
      rw [if_neg this]
      exact ih hn.2 h

theorem firstFormals_find {x : Bytes} : ∀ (fs : List Node) (acc : List (Bytes × Node)),
    keyFind x (firstFormals fs acc) =
      (keyFind x acc).or (fs.find? fun m => !(formalID m).isNull && (formalID m).name == x) := by
  intro fs
  induction fs with
  | nil => intro acc; simp [firstFormals]
  | cons f fs ih =>
    intro acc
    rw [firstFormals, List.find?_cons]
    by_cases hn : (formalID f).isNull = true
    · simp [hn, ih]
    · rw [if_neg hn, any_key]
      rcases hk : keyFind (formalID f).name acc with _ | d
      · simp only [Option.isSome_none, Bool.false_eq_true, if_false]
        rw [ih, keyFind_append, keyFind_cons, keyFind_nil]
        by_cases hx : (formalID f).name = x
        · rw [hx] at hk
          simp [hx, hk, hn]
        · rw [beq_eq_false_iff_ne.mpr hx]
          simp [hx]
      · simp only [Option.isSome_some, if_true]
        rw [ih]
        by_cases hx : (formalID f).name = x
        · rw [hx] at hk
          simp [hk]
        · rw [beq_eq_false_iff_ne.mpr hx]
          simp

theorem firstFormals_nodup : ∀ (fs : List Node) (acc : List (Bytes × Node)), (acc.map (·.1)).Nodup →
    ((firstFormals fs acc).map (·.1)).Nodup := by
  intro fs
  induction fs with
  | nil => intro acc h; exact h
  | cons f fs ih =>
    intro acc h
    rw [firstFormals]
    split
    · exact ih _ h
    · split
      · exact ih _ h
      · rename_i ha
        refine ih _ ?_
        rw [List.map_append, List.nodup_append]
        refine ⟨h, by simp, ?_⟩
        intro a ha1 b hb
        simp at hb
        subst hb
        rintro rfl
        obtain ⟨p, hp, he⟩ := List.mem_map.mp ha1
        exact ha (List.any_eq_true.mpr ⟨p, hp, by simpa using he⟩)

theorem insertKey_perm {α : Type} (p : Bytes × α) (m : List (Bytes × α)) : (insertKey p m).Perm (p :: m) := by
  induction m with
  | nil => exact .refl _
  | cons q qs ih =>
    rw [insertKey]
    split
    · exact .refl _
    · exact (List.Perm.cons q ih).trans (.swap _ _ _)

theorem dedup_perm (fs : List Node) : (dedup fs).Perm (firstFormals fs []) := by
  have : ∀ (l m : List (Bytes × Node)), (l.foldl (fun m p => insertKey p m) m).Perm (l ++ m) := by
    intro l
    induction l with
    | nil => intro m; exact .refl _
    | cons a l ih =>
      intro m
      rw [List.foldl_cons]
      exact (ih _).trans (((insertKey_perm a m).append_left l).trans List.perm_middle)
  simpa [dedup] using this (firstFormals fs []) []

theorem dedup_nodup (fs : List Node) : ((dedup fs).map (·.1)).Nodup :=
  (((dedup_perm fs).map (·.1)).nodup_iff).mpr (firstFormals_nodup fs [] (by simp))

theorem dedup_find {x : Bytes} (fs : List Node) :
    keyFind x (dedup fs) = fs.find? fun m => !(formalID m).isNull && (formalID m).name == x := by
  have h1 := firstFormals_find (x := x) fs []
  rw [keyFind_nil, Option.none_or] at h1
  rw [← h1]
  rcases hk : keyFind x (dedup fs) with _ | m
  · rcases hk2 : keyFind x (firstFormals fs []) with _ | m
    · rfl
    · exact absurd rfl (keyFind_none.mp hk _ ((dedup_perm fs).mem_iff.mpr (keyFind_mem hk2)))
  · exact (keyFind_of_mem (firstFormals_nodup fs [] (by simp)) ((dedup_perm fs).mem_iff.mp (keyFind_mem hk))).symm

/-- Properties of the definitions of a node. -/
structure EntsOk (n : Node) : Prop where
  nodup : ((entsOf n).map (·.1)).Nodup
  binds : ∀ x m src, (frameOf n).binds x = some (m, src) ↔ ∃ e ∈ entsOf n, e.1 = x ∧ e.2.1 = m ∧ e.2.2.1 = src
  source : ∀ e ∈ entsOf n, e.2.2.1 ≠ .with_ ∧ e.2.2.1 ≠ .builtin
  key : ∀ e ∈ entsOf n, e.2.1.isNull = false

theorem setEnts_ok {st : List Node} {src : DefSource} (h : GoodSet st) (hs : src ≠ .with_ ∧ src ≠ .builtin) :
    ((setEnts st src).map (·.1)).Nodup ∧
    (∀ x m s, (setFrame st src).binds x = some (m, s) ↔ ∃ e ∈ setEnts st src, e.1 = x ∧ e.2.1 = m ∧ e.2.2.1 = s) ∧
    (∀ e ∈ setEnts st src, e.2.2.1 ≠ .with_ ∧ e.2.2.1 ≠ .builtin) ∧ ∀ e ∈ setEnts st src, e.2.1.isNull = false := by
  obtain ⟨hn, hk⟩ := h
  unfold setEnts
  refine ⟨by rw [List.map_map]; exact hn, ?_, ?_, ?_⟩
  · intro x m s
    simp only [setFrame, Frame.binds, Option.map_eq_some_iff, Prod.mk.injEq]
    constructor
    · rintro ⟨a, ha, rfl, rfl⟩
      have h1 := List.find?_some ha
      simp at h1
      exact ⟨_, List.mem_map.mpr ⟨a, List.mem_of_find?_eq_some ha, rfl⟩, h1, rfl, rfl⟩
    · rintro ⟨e, he, rfl, rfl, rfl⟩
      obtain ⟨a, ha, rfl⟩ := List.mem_map.mp he
      refine ⟨a, ?_, rfl, rfl⟩
      have : keyFind (attrName a) (st.map fun a => (attrName a, a)) = some a :=
        keyFind_of_mem (by rw [List.map_map]; exact hn) (List.mem_map.mpr ⟨a, ha, rfl⟩)
      unfold keyFind at this
      rw [List.find?_map] at this
      simpa [Function.comp_def] using this
  · intro e he
    obtain ⟨a, ha, rfl⟩ := List.mem_map.mp he
    exact hs
  · intro e he
    obtain ⟨a, ha, rfl⟩ := List.mem_map.mp he
    exact hk a ha

theorem lambdaEnts_ok (i f : Node) :
    ((lambdaEnts i f).map (·.1)).Nodup ∧
    (∀ x m s, (lambdaFrame i f).binds x = some (m, s) ↔ ∃ e ∈ lambdaEnts i f, e.1 = x ∧ e.2.1 = m ∧ e.2.2.1 = s) ∧
    (∀ e ∈ lambdaEnts i f, e.2.2.1 ≠ .with_ ∧ e.2.2.1 ≠ .builtin) ∧ ∀ e ∈ lambdaEnts i f, e.2.1.isNull = false := by
  have hd := dedup_nodup (formalMembers f)
  have hfind : ∀ x m, keyFind x (dedup (formalMembers f)) = some m → (formalID m).isNull = false := by
    intro x m h
    rw [dedup_find] at h
    have := List.find?_some h
    simp at this
    exact this.1
  have hmem : ∀ p : Bytes × Node, p ∈ dedup (formalMembers f) ↔ keyFind p.1 (dedup (formalMembers f)) = some p.2 :=
    fun p => ⟨fun h => keyFind_of_mem hd h, fun h => keyFind_mem h⟩
  have hnil : f.isNull = true → dedup (formalMembers f) = [] := by
    intro h
    cases f <;> simp [Node.isNull] at h
    rfl
  -- the formals
  have hform : ∀ (src : DefSource) (x : Bytes) (m : Node) (s : DefSource),
      (∃ e ∈ (dedup (formalMembers f)).map fun p => ((p.1, formalID p.2, src, false) : Ent), e.1 = x ∧ e.2.1 = m ∧ e.2.2.1 = s) ↔
        ∃ g, keyFind x (dedup (formalMembers f)) = some g ∧ formalID g = m ∧ src = s := by
    intro src x m s
    constructor
    · rintro ⟨e, he, rfl, rfl, rfl⟩
      obtain ⟨p, hp, rfl⟩ := List.mem_map.mp he
      exact ⟨p.2, (hmem p).mp hp, rfl, rfl⟩
    · rintro ⟨g, hg, rfl, rfl⟩
      exact ⟨_, List.mem_map.mpr ⟨(x, g), (hmem _).mpr hg, rfl⟩, rfl, rfl, rfl⟩
  unfold lambdaEnts
  refine ⟨?_, ?_, ?_, ?_⟩
  · rw [List.map_append, List.nodup_append]
    refine ⟨?_, ?_, ?_⟩
    · split
      · simp
      · split
        · simp
        · split <;> simp
    · split
      · simp
      · rw [List.map_map]
        exact hd
    · intro a ha b hb
      split at hb
      · simp at hb
      · rename_i hf
        rw [List.map_map] at hb
        split at ha
        · simp at ha
        · split at ha
          · simp at ha
          · rename_i hany
            simp at ha
            subst ha
            rintro rfl
            obtain ⟨p, hp, he⟩ := List.mem_map.mp hb
            exact hany (List.any_eq_true.mpr ⟨p, hp, by simpa using he⟩)
  · intro x m s
    simp only [lambdaFrame, Frame.binds]
    rw [← dedup_find, any_key]
    simp only [List.mem_append, or_and_right, exists_or]
    rcases hk : keyFind x (dedup (formalMembers f)) with _ | g
    · by_cases hf : f.isNull = true
      · by_cases hi : i.isNull = true
        · simp [hf, hi]
        · simp [hf, hi]
      · have hf' : f.isNull = false := by simpa using hf
        simp only [hf', Bool.false_eq_true, if_false]
        rw [hform]
        by_cases hi : i.isNull = true
        · simp [hi, hk]
        · by_cases hx : i.name = x
          · subst hx
            simp [hf, hi, hk]
          · simp only [hi, hf, hk]
            rcases hk2 : keyFind i.name (dedup (formalMembers f)) with _ | g2 <;> simp [hx]
    · by_cases hf : f.isNull = true
      · rw [hnil hf] at hk
        cases hk
      · have hf' : f.isNull = false := by simpa using hf
        simp only [hf', Bool.false_eq_true, if_false]
        rw [hform]
        by_cases hi : i.isNull = true
        · simp [hi, hk]
        · by_cases hx : i.name = x
          · subst hx
            simp [hf, hi, hk]
          · simp only [hi, hf, hk]
            rcases hk2 : keyFind i.name (dedup (formalMembers f)) with _ | g2 <;> simp [hx]
  · intro e he
    rcases List.mem_append.mp he with he | he
    · split at he
      · cases he
      · split at he
        · simp at he
          subst he
          simp
        · split at he
          · cases he
          · simp at he
            subst he
            simp
    · split at he
      · cases he
      · obtain ⟨p, hp, rfl⟩ := List.mem_map.mp he
        split <;> simp
  · intro e he
    rcases List.mem_append.mp he with he | he
    · split at he
      · cases he
      · rename_i hi
        split at he
        · simp at he
          subst he
          simpa using hi
        · split at he
          · cases he
          · simp at he
            subst he
            simpa using hi
    · split at he
      · cases he
      · obtain ⟨p, hp, rfl⟩ := List.mem_map.mp he
        exact hfind _ _ ((hmem p).mp hp)

theorem entsOk_nil {n : Node} (h1 : entsOf n = []) (h2 : ∀ x, (frameOf n).binds x = none) : EntsOk n := by
  constructor <;> simp [h1, h2]

theorem entsOk {n : Node} (h : Shape n) : EntsOk n := by
  cases n
  case exprLambda hh a e =>
    cases a
    case lambdaArg h1 i f =>
      by_cases he : e.isNull = true
      · exact entsOk_nil (by simp [entsOf, he]) (by simp [frameOf, he, Frame.binds])
      · obtain ⟨h1, h2, h3, h4⟩ := lambdaEnts_ok i f
        constructor <;> simp only [entsOf, frameOf, if_neg he] <;> assumption
    all_goals exact entsOk_nil rfl (by simp [frameOf, Frame.binds])
  case exprAttrs hh b r st dy =>
    by_cases he : r.isNull = true
    · exact entsOk_nil (by simp [entsOf, he]) (by simp [frameOf, he, Frame.binds])
    · obtain ⟨h1, h2, h3, h4⟩ := setEnts_ok (src := .rec_) h (by simp)
      constructor <;> simp only [entsOf, frameOf, if_neg he] <;> assumption
  case exprLet hh k i e a =>
    cases a
    case exprAttrs h1 b r st dy =>
      obtain ⟨h1, h2, h3, h4⟩ := setEnts_ok (src := .let_) h.2 (by simp)
      constructor <;> simp only [entsOf, frameOf] <;> assumption
    all_goals exact entsOk_nil rfl (by simp [frameOf, Frame.binds])
  all_goals exact entsOk_nil rfl (by simp [frameOf, Frame.binds])

end Verif.Nixf.Scoping
