import Verif.Spec.Options
/-
C47: selecting options.
-/
namespace Verif.Props
open Nixt

theorem fld_iff {v : Val} {x : Bytes} {l : Loc} : selectAttr v x = .ok l ↔ Fld v x l := by
  unfold selectAttr Fld
  cases v with
  | attrs as => cases h : as.lookup x <;> simp [h]
  | _ => simp

theorem fld_unique {v : Val} {x : Bytes} {l m : Loc} (h : Fld v x l) (h' : Fld v x m) : l = m := by
  rw [← fld_iff] at h h'
  rw [h] at h'
  cases h'
  rfl

theorem check_iff {H : Heap} {v : Val} {x p : Bytes} : checkField H v x p = true ↔ ∃ n, Fld v x n ∧ H n = .str p := by
  unfold checkField getFieldString getField Fld
  cases v with
  | attrs as =>
    cases h : as.lookup x with
    | none => simp [h]
    | some l =>
      have hu : (∃ n, (∃ as', Val.attrs as = .attrs as' ∧ as'.lookup x = some n) ∧ H n = .str p) ↔ H l = .str p := by
        constructor
        · rintro ⟨n, ⟨as', e, hn⟩, hp⟩
          cases e
          rw [h] at hn
          cases hn
          exact hp
        · exact fun hp => ⟨l, ⟨as, rfl, h⟩, hp⟩
      rw [hu]
      simp only [h, Option.map_some]
      cases H l <;> simp
  | _ => simp

theorem sub_iff {H : Heap} {t w : Val} : getSubOptions H t = .ok w ↔ SubOptions H t w := by
  unfold getSubOptions SubOptions
  cases h : selectAttr t b!"getSubOptions" with
  | error e =>
    simp only [reduceCtorEq, false_iff]
    rintro ⟨g, r, hg, -⟩
    rw [← fld_iff, h] at hg
    cases hg
  | ok g =>
    rw [fld_iff] at h
    constructor
    · intro he
      cases hg : H g <;> simp only [hg, reduceCtorEq] at he
      cases he
      exact ⟨g, _, h, hg, rfl⟩
    · rintro ⟨g', r, hg', hr, rfl⟩
      cases fld_unique h hg'
      simp [hr]

theorem submodule_iff {H : Heap} {v : Val} {t : Loc} : tryGetSubmoduleType H v = some t ↔ Submodule H v t := by
  unfold tryGetSubmoduleType trySelectAttr Submodule isTypeSubmodule
  cases h : selectAttr v b!"type" with
  | error e =>
    simp only [reduceCtorEq, false_iff]
    rintro ⟨hf, -⟩
    rw [← fld_iff, h] at hf
    cases hf
  | ok t' =>
    rw [fld_iff] at h
    simp only
    split
    · rename_i hc
      rw [check_iff] at hc
      constructor
      · intro e; cases e; exact ⟨h, hc⟩
      · rintro ⟨hf, -⟩; rw [fld_unique h hf]
    · rename_i hc
      simp only [reduceCtorEq, false_iff]
      rintro ⟨hf, hn⟩
      cases fld_unique h hf
      exact hc (check_iff.mpr hn)

/-- The heap after some queries: cells are as before, or were replaced by the options of the submodule. -/
def Inv (H0 H : Heap) : Prop := ∀ l, H l = H0 l ∨ ∃ t, Submodule H0 (H0 l) t ∧ SubOptions H0 (H0 t) (H l)

section
variable {H0 H : Heap} (hs : Sane H0) (hi : Inv H0 H)
include hs hi

theorem cell_not_attrs {l : Loc} {v : Val} (hv : ∀ as, v ≠ .attrs as) : H l = v ↔ H0 l = v := by
  rcases hi l with e | ⟨t, h1, h2⟩
  · rw [e]
  · obtain ⟨as, e⟩ := (hs.sub t _ h1.2 h2).1
    obtain ⟨as', e', -⟩ := h1.1
    rw [e, e']
    exact ⟨fun h => absurd h.symm (hv _), fun h => absurd h.symm (hv _)⟩

theorem named_val {v : Val} {x : Bytes} : Named H v x ↔ Named H0 v x := by
  unfold Named
  simp only [cell_not_attrs hs hi (v := .str x) (by simp)]

theorem named_cell {t : Loc} {x : Bytes} : Named H (H t) x ↔ Named H0 (H0 t) x := by
  rw [named_val hs hi]
  rcases hi t with e | ⟨t', h1, h2⟩
  · rw [e]
  · exact ⟨fun h => absurd h ((hs.sub t' _ h1.2 h2).2.2 x), fun h => absurd h (hs.opt t t' h1 x)⟩

theorem named_same {t : Loc} {x : Bytes} (h : Named H0 (H0 t) x) : H t = H0 t := by
  rcases hi t with e | ⟨t', h1, h2⟩
  · exact e
  · exact absurd h (hs.opt t t' h1 x)

theorem submodule_val {v : Val} {t : Loc} : Submodule H v t ↔ Submodule H0 v t := by
  unfold Submodule
  rw [named_cell hs hi]

theorem sub_cell {t : Loc} {w : Val} (h : Named H0 (H0 t) b!"submodule") : SubOptions H (H t) w ↔ SubOptions H0 (H0 t) w := by
  rw [named_same hs hi h]
  constructor
  · rintro ⟨g, r, hg, hf, rfl⟩
    rw [cell_not_attrs hs hi (by simp)] at hf
    rcases hi r with e | ⟨t', h1, -⟩
    · exact ⟨g, r, hg, hf, e.symm⟩
    · exact absurd h1 ((hs.sub t _ h ⟨g, r, hg, hf, rfl⟩).2.1 t')
  · rintro ⟨g, r, hg, hf, rfl⟩
    rcases hi r with e | ⟨t', h1, -⟩
    · exact ⟨g, r, hg, (cell_not_attrs hs hi (by simp)).mpr hf, e⟩
    · exact absurd h1 ((hs.sub t _ h ⟨g, r, hg, hf, rfl⟩).2.1 t')

theorem option_val {v : Val} : IsOption H v ↔ IsOption H0 v := by
  unfold IsOption
  simp only [cell_not_attrs hs hi (v := .str b!"option") (by simp)]

theorem attrsOf_val {v : Val} {et : Loc} : AttrsOf H v et ↔ AttrsOf H0 v et := by
  have key : ∀ t nt, Named H0 (H0 t) b!"attrsOf" → Fld (H0 t) b!"nestedTypes" nt → H nt = H0 nt := fun t nt h1 h2 => by
    rcases hi nt with e | ⟨t', h3, -⟩
    · exact e
    · exact absurd h3 (hs.nested t _ nt h1 h2 t')
  constructor
  · rintro ⟨t, nt, h1, h2, h3, h4⟩
    rw [named_cell hs hi] at h2
    rw [named_same hs hi h2] at h3
    rw [key t nt h2 h3] at h4
    exact ⟨t, nt, h1, h2, h3, h4⟩
  · rintro ⟨t, nt, h1, h2, h3, h4⟩
    refine ⟨t, nt, h1, (named_cell hs hi).mpr h2, ?_, ?_⟩
    · rw [named_same hs hi h2]; exact h3
    · rw [key t nt h2 h3]; exact h4

theorem plain_val {v : Val} : Plain H v ↔ Plain H0 v := by
  unfold Plain
  simp only [option_val hs hi, named_cell hs hi, attrsOf_val hs hi]

/-- What `V` is before it is entered. -/
def Refers (H0 H : Heap) (r : Ref) (v : Val) : Prop :=
  match r with
  | .cell l => v = H0 l
  | .temp w => v = w

theorem enter_ok {r : Ref} {v : Val} (hr : Refers H0 H r v) :
    (∀ w, (∃ r', (enter H r).1 = .ok r' ∧ r'.get (enter H r).2 = w) ↔ Entered H0 v w) ∧ Inv H0 (enter H r).2 := by
  unfold enter
  cases ht : tryGetSubmoduleType H (r.get H) with
  | none =>
    refine ⟨fun w => ?_, hi⟩
    have hn : ∀ t, ¬ Submodule H0 (r.get H) t := fun t h => by
      rw [← submodule_val hs hi, ← submodule_iff, ht] at h
      cases h
    have hg : Entered H0 v (r.get H) := by
      cases r with
      | temp u => cases hr; exact .plain _ hn
      | cell l =>
        cases hr
        rcases hi l with e | ⟨t, h1, h2⟩
        · simp only [Ref.get, e] at hn ⊢
          exact .plain _ hn
        · exact .submodule _ t _ h1 h2
    have huniq : ∀ w, Entered H0 v w → w = r.get H := fun w hw => by
      cases hw with
      | plain h =>
        cases hg with
        | plain => rfl
        | submodule t _ h1 => exact absurd h1 (h t)
      | submodule t _ h1 h2 =>
        cases hg with
        | plain h => exact absurd h1 (h t)
        | submodule t' _ h1' h2' =>
          cases fld_unique h1.1 h1'.1
          rw [← sub_iff] at h2 h2'
          rw [h2] at h2'
          exact Except.ok.inj h2'
    constructor
    · rintro ⟨r', h1, h2⟩
      cases h1
      rw [← h2]
      exact hg
    · intro hw
      exact ⟨r, rfl, (huniq w hw).symm⟩
  | some t =>
    rw [submodule_iff, submodule_val hs hi] at ht
    have hv : r.get H = v := by
      cases r with
      | temp u => exact hr.symm
      | cell l =>
        cases hr
        rcases hi l with e | ⟨t', h1, h2⟩
        · exact e
        · exact absurd ht ((hs.sub t' _ h1.2 h2).2.1 t)
    rw [hv] at ht
    cases hsub : getSubOptions H (H t) with
    | error e =>
      simp only [hsub]
      refine ⟨fun w => ?_, hi⟩
      simp only [reduceCtorEq, false_and, exists_false, false_iff]
      intro hw
      cases hw with
      | plain h => exact h _ ht
      | submodule t' _ h1 h2 =>
        cases fld_unique ht.1 h1.1
        rw [← sub_cell hs hi ht.2, ← sub_iff, hsub] at h2
        cases h2
    | ok u =>
      have hu := hsub
      rw [sub_iff, sub_cell hs hi ht.2] at hu
      have huniq : ∀ w, Entered H0 v w ↔ u = w := fun w => by
        constructor
        · intro hw
          cases hw with
          | plain h => exact absurd ht (h _)
          | submodule t' _ h1 h2 =>
            cases fld_unique ht.1 h1.1
            rw [← sub_iff] at h2 hu
            rw [h2] at hu
            exact (Except.ok.inj hu).symm
        · rintro rfl
          exact .submodule _ _ _ ht hu
      cases r with
      | temp u' =>
        simp only [hsub]
        refine ⟨fun w => ?_, hi⟩
        rw [huniq]
        simp [Ref.set, Ref.get]
      | cell l =>
        simp only [hsub]
        refine ⟨fun w => ?_, ?_⟩
        · rw [huniq]
          simp [Ref.set, Ref.get]
        · intro m
          simp only [Ref.set]
          by_cases hm : m = l
          · subst hm
            cases hr
            exact .inr ⟨t, ht, by simpa using hu⟩
          · simpa [hm] using hi m

theorem elem_some {v w : Val} : elemOptions H v = .ok (some w) ↔
    IsOption H0 v ∧ ∃ et, AttrsOf H0 v et ∧ Named H0 (H0 et) b!"submodule" ∧ SubOptions H0 (H0 et) w := by
  unfold elemOptions
  by_cases ho : isOption H v = true
  · rw [if_pos ho]
    have ho' : IsOption H0 v := by rw [← option_val hs hi]; exact check_iff.mp ho
    have step : ∀ et, AttrsOf H0 v et → (∃ et, AttrsOf H0 v et ∧ Named H0 (H0 et) b!"submodule" ∧ SubOptions H0 (H0 et) w) →
        Named H0 (H0 et) b!"submodule" ∧ SubOptions H0 (H0 et) w := by
      rintro et ⟨t, nt, h1, h2, h3, h4⟩ ⟨et', ⟨t', nt', h1', h2', h3', h4'⟩, h5, h6⟩
      cases fld_unique h1 h1'
      cases fld_unique h3 h3'
      cases fld_unique h4 h4'
      exact ⟨h5, h6⟩
    cases ht : selectAttr v b!"type" with
    | error e =>
      simp only [reduceCtorEq, false_iff]
      rintro ⟨-, et, ⟨t, nt, h1, -⟩, -⟩
      rw [← fld_iff, ht] at h1
      cases h1
    | ok t =>
      simp only
      by_cases hc : checkField H (H t) b!"name" b!"attrsOf" = true
      · rw [if_pos hc]
        rw [check_iff] at hc
        have hc' : Named H0 (H0 t) b!"attrsOf" := (named_cell hs hi).mp hc
        cases hnt : selectAttr (H t) b!"nestedTypes" with
        | error e =>
          simp only [reduceCtorEq, false_iff]
          rintro ⟨-, et, ⟨t', nt, h1, h2, h3, -⟩, -⟩
          rw [fld_iff] at ht
          cases fld_unique ht h1
          rw [← named_same hs hi h2, ← fld_iff, hnt] at h3
          cases h3
        | ok nt =>
          simp only
          cases het : selectAttr (H nt) b!"elemType" with
          | error e =>
            simp only [reduceCtorEq, false_iff]
            rintro ⟨-, et, ha, -⟩
            rw [← attrsOf_val hs hi] at ha
            obtain ⟨t', nt', h1, h2, h3, h4⟩ := ha
            rw [fld_iff] at ht hnt
            cases fld_unique ht h1
            cases fld_unique hnt h3
            rw [← fld_iff, het] at h4
            cases h4
          | ok et =>
            rw [fld_iff] at ht hnt het
            have ha : AttrsOf H0 v et := (attrsOf_val hs hi).mp ⟨t, nt, ht, hc, hnt, het⟩
            simp only
            by_cases hsm : isTypeSubmodule H (H et) = true
            · rw [if_pos hsm]
              have hsm' : Named H0 (H0 et) b!"submodule" := (named_cell hs hi).mp (check_iff.mp hsm)
              cases hsub : getSubOptions H (H et) with
              | error e =>
                simp only [reduceCtorEq, false_iff]
                rintro ⟨-, hx⟩
                have := (step et ha hx).2
                rw [← sub_cell hs hi hsm', ← sub_iff, hsub] at this
                cases this
              | ok u =>
                simp only [Except.ok.injEq, Option.some.injEq]
                constructor
                · rintro rfl
                  exact ⟨ho', et, ha, hsm', (sub_cell hs hi hsm').mp (sub_iff.mp hsub)⟩
                · rintro ⟨-, hx⟩
                  have := (step et ha hx).2
                  rw [← sub_cell hs hi hsm', ← sub_iff, hsub] at this
                  exact Except.ok.inj this
            · rw [if_neg hsm]
              simp only [Except.ok.injEq, reduceCtorEq, false_iff]
              rintro ⟨-, hx⟩
              exact hsm (check_iff.mpr ((named_cell hs hi).mpr (step et ha hx).1))
      · rw [if_neg hc]
        simp only [Except.ok.injEq, reduceCtorEq, false_iff]
        rintro ⟨-, et, ⟨t', nt, h1, h2, -⟩, -⟩
        rw [fld_iff] at ht
        cases fld_unique ht h1
        exact hc (check_iff.mpr ((named_cell hs hi).mpr h2))
  · rw [if_neg ho]
    simp only [Except.ok.injEq, reduceCtorEq, false_iff]
    rintro ⟨h, -⟩
    rw [← option_val hs hi] at h
    exact ho (check_iff.mpr h)

theorem elem_none {v : Val} : elemOptions H v = .ok none ↔ Plain H0 v := by
  rw [← plain_val hs hi]
  unfold elemOptions Plain
  by_cases ho : isOption H v = true
  · rw [if_pos ho]
    have ho' : IsOption H v := check_iff.mp ho
    simp only [ho', forall_const]
    cases ht : selectAttr v b!"type" with
    | error e =>
      simp only [reduceCtorEq, false_iff]
      rintro ⟨t, h1, -⟩
      rw [← fld_iff, ht] at h1
      cases h1
    | ok t =>
      rw [fld_iff] at ht
      simp only
      have hT : (∃ t, Fld v b!"type" t ∧ (Named H (H t) b!"attrsOf" → ∃ et, AttrsOf H v et ∧ ¬ Named H (H et) b!"submodule")) ↔
          (Named H (H t) b!"attrsOf" → ∃ et, AttrsOf H v et ∧ ¬ Named H (H et) b!"submodule") := by
        constructor
        · rintro ⟨t', h1, h2⟩
          cases fld_unique ht h1
          exact h2
        · exact fun h => ⟨t, ht, h⟩
      rw [hT]
      by_cases hc : checkField H (H t) b!"name" b!"attrsOf" = true
      · rw [if_pos hc]
        rw [check_iff] at hc
        have hc' : Named H (H t) b!"attrsOf" := hc
        simp only [hc', forall_const]
        cases hnt : selectAttr (H t) b!"nestedTypes" with
        | error e =>
          simp only [reduceCtorEq, false_iff]
          rintro ⟨et, ⟨t', nt, h1, h2, h3, -⟩, -⟩
          cases fld_unique ht h1
          rw [← fld_iff, hnt] at h3
          cases h3
        | ok nt =>
          simp only
          cases het : selectAttr (H nt) b!"elemType" with
          | error e =>
            simp only [reduceCtorEq, false_iff]
            rintro ⟨et, ⟨t', nt', h1, h2, h3, h4⟩, -⟩
            rw [fld_iff] at hnt
            cases fld_unique ht h1
            cases fld_unique hnt h3
            rw [← fld_iff, het] at h4
            cases h4
          | ok et =>
            rw [fld_iff] at hnt het
            have ha : AttrsOf H v et := ⟨t, nt, ht, hc, hnt, het⟩
            have huniq : ∀ et', AttrsOf H v et' → et' = et := by
              rintro et' ⟨t', nt', h1', h2', h3', h4'⟩
              cases fld_unique ht h1'
              cases fld_unique hnt h3'
              exact fld_unique h4' het
            simp only
            by_cases hsm : isTypeSubmodule H (H et) = true
            · rw [if_pos hsm]
              have hsm' : Named H (H et) b!"submodule" := check_iff.mp hsm
              constructor
              · intro h
                cases hsub : getSubOptions H (H et) <;> simp [hsub] at h
              · rintro ⟨et', h1, h2⟩
                rw [huniq et' h1] at h2
                exact absurd hsm' h2
            · rw [if_neg hsm]
              simp only [true_iff]
              exact ⟨et, ha, fun h => hsm (check_iff.mpr h)⟩
      · rw [if_neg hc]
        simp only [true_iff]
        exact fun h => absurd (check_iff.mpr h) hc
  · rw [if_neg ho]
    simp only [true_iff]
    exact fun h => absurd (check_iff.mpr h) ho

end

theorem entered_unique {H : Heap} {v w w' : Val} (h : Entered H v w) (h' : Entered H v w') : w = w' := by
  cases h with
  | plain h =>
    cases h' with
    | plain => rfl
    | submodule t _ h1 => exact absurd h1 (h t)
  | submodule t _ h1 h2 =>
    cases h' with
    | plain h => exact absurd h1 (h t)
    | submodule t' _ h1' h2' =>
      cases fld_unique h1.1 h1'.1
      rw [← sub_iff] at h2 h2'
      rw [h2] at h2'
      exact Except.ok.inj h2'

theorem select_ok_iff {H0 : Heap} (hs : Sane H0) (path : List Bytes) : ∀ {H : Heap} {r : Ref} {v : Val}, Inv H0 H → Refers H0 H r v →
    (∀ w, (selectOptions path H r).1 = .ok w ↔ Leads H0 v path w) ∧ Inv H0 (selectOptions path H r).2 := by
  induction path with
  | nil =>
    intro H r v hi hr
    obtain ⟨h1, h2⟩ := enter_ok hs hi hr
    unfold selectOptions
    rcases he : enter H r with ⟨_ | r', H'⟩
    · rw [he] at h1 h2
      refine ⟨fun w => ?_, h2⟩
      have := h1 w
      simp only [reduceCtorEq, false_and, exists_false, false_iff] at this ⊢
      intro hl
      cases hl with
      | here _ _ h => exact this h
    · rw [he] at h1 h2
      refine ⟨fun w => ?_, h2⟩
      have := h1 w
      simp only [Except.ok.injEq, exists_eq_left'] at this ⊢
      rw [this]
      exact ⟨fun h => .here _ _ h, fun h => by cases h with | here _ _ h => exact h⟩
  | cons p ps ih =>
    intro H r v hi hr
    obtain ⟨h1, h2⟩ := enter_ok hs hi hr
    unfold selectOptions
    rcases he : enter H r with ⟨_ | r', H'⟩
    · rw [he] at h1 h2
      refine ⟨fun w => ?_, h2⟩
      simp only [reduceCtorEq, false_and, exists_false, false_iff] at h1 ⊢
      intro hl
      cases hl with
      | elem _ u _ _ _ _ _ h => exact h1 _ h
      | attr _ u _ _ _ _ h => exact h1 _ h
    · rw [he] at h1 h2
      simp only at h2
      have hent : Entered H0 v (r'.get H') := (h1 _).mp ⟨r', rfl, rfl⟩
      simp only
      cases hel : elemOptions H' (r'.get H') with
      | error e =>
        refine ⟨fun w => ?_, h2⟩
        simp only [reduceCtorEq, false_iff]
        intro hl
        cases hl with
        | elem _ u et w' _ _ _ h ho ha hn hsub =>
          cases entered_unique hent h
          have := (elem_some hs h2).mpr ⟨ho, et, ha, hn, hsub⟩
          rw [hel] at this
          cases this
        | attr _ u _ _ _ _ h hp =>
          cases entered_unique hent h
          have := (elem_none hs h2).mpr hp
          rw [hel] at this
          cases this
      | ok o =>
        cases o with
        | some w' =>
          obtain ⟨ih1, ih2⟩ := ih h2 (r := .temp w') (v := w') rfl
          refine ⟨fun w => ?_, ih2⟩
          simp only
          rw [ih1]
          obtain ⟨ho, et, ha, hn, hsub⟩ := (elem_some hs h2).mp hel
          constructor
          · exact fun h => .elem _ _ _ _ _ _ _ hent ho ha hn hsub h
          · intro hl
            cases hl with
            | elem _ u et' w'' _ _ _ h ho' ha' hn' hsub' hl =>
              cases entered_unique hent h
              have := (elem_some hs h2).mpr ⟨ho', et', ha', hn', hsub'⟩
              rw [hel] at this
              cases this
              exact hl
            | attr _ u _ _ _ _ h hp =>
              cases entered_unique hent h
              have := (elem_none hs h2).mpr hp
              rw [hel] at this
              cases this
        | none =>
          have hp := (elem_none hs h2).mp hel
          have noElem : ∀ {et w'}, IsOption H0 (r'.get H') → AttrsOf H0 (r'.get H') et → Named H0 (H0 et) b!"submodule" →
              ¬ SubOptions H0 (H0 et) w' := fun h1 h3 h4 h5 => by
            have := (elem_some hs h2).mpr ⟨h1, _, h3, h4, h5⟩
            rw [hel] at this
            cases this
          simp only
          cases hl : selectAttr (r'.get H') p with
          | error e =>
            refine ⟨fun w => ?_, h2⟩
            simp only [reduceCtorEq, false_iff]
            intro hL
            cases hL with
            | elem _ u et w' _ _ _ h ho ha hn hsub =>
              cases entered_unique hent h
              exact noElem ho ha hn hsub
            | attr _ u l _ _ _ h _ hf =>
              cases entered_unique hent h
              rw [← fld_iff, hl] at hf
              cases hf
          | ok l =>
            obtain ⟨ih1, ih2⟩ := ih h2 (r := .cell l) (v := H0 l) rfl
            rw [fld_iff] at hl
            refine ⟨fun w => ?_, ih2⟩
            simp only
            rw [ih1]
            constructor
            · exact fun h => .attr _ _ _ _ _ _ hent hp hl h
            · intro hL
              cases hL with
              | elem _ u et w' _ _ _ h ho ha hn hsub =>
                cases entered_unique hent h
                exact absurd hsub (noElem ho ha hn)
              | attr _ u l' _ _ _ h _ hf hL =>
                cases entered_unique hent h
                cases fld_unique hl hf
                exact hL

/-- The answer to a query is what the path leads to in the tree of options. -/
theorem C47_exact_partial {H0 : Heap} (hs : Sane H0) (root : Loc) (path : List Bytes) (w : Val) :
    (selectOptions path H0 (.cell root)).1 = .ok w ↔ Leads H0 (H0 root) path w :=
  (select_ok_iff hs path (H := H0) (r := .cell root) (v := H0 root) (fun _ => .inl rfl) rfl).1 w

/-- All answers in a row are what the paths lead to in the tree at the beginning: queries before do not matter, though they
assign to values of the tree. -/
theorem C47_queries_partial {H0 : Heap} (hs : Sane H0) (root : Loc) (paths : List (List Bytes)) (i : Nat) (p : List Bytes)
    (hp : paths[i]? = some p) (w : Val) : (queries root paths H0).1[i]? = some (.ok w) ↔ Leads H0 (H0 root) p w := by
  have : ∀ (paths : List (List Bytes)) (H : Heap) (i : Nat) (p : List Bytes), Inv H0 H → paths[i]? = some p → ((queries root paths H).1[i]? = some (.ok w) ↔ Leads H0 (H0 root) p w) := by
    intro paths
    induction paths with
    | nil => intro H i p _ h; simp at h
    | cons q qs ih =>
      intro H i p hi hp
      obtain ⟨h1, h2⟩ := select_ok_iff hs q (r := .cell root) hi rfl
      cases i with
      | zero =>
        simp only [List.getElem?_cons_zero, Option.some.injEq] at hp
        subst hp
        simp only [queries, List.getElem?_cons_zero, Option.some.injEq]
        exact h1 w
      | succ i =>
        simp only [List.getElem?_cons_succ] at hp
        simp only [queries, List.getElem?_cons_succ]
        exact ih _ i p h2 hp
  exact this paths H0 i p (fun _ => .inl rfl) hp

/-- A heap with finitely many cells. -/
def heapOf (L : List Val) : Heap := fun l => L.getD l .other

/-- `Sane`, checked on the cells. -/
def saneCheck (L : List Val) : Bool :=
  let H := heapOf L
  L.all fun v =>
    (if isTypeSubmodule H v then
      match getSubOptions H v with
      | .ok w => (w matches .attrs _) && (tryGetSubmoduleType H w).isNone && (getFieldString H w b!"name").isNone
      | .error _ => true
    else true) &&
    (if (tryGetSubmoduleType H v).isSome then (getFieldString H v b!"name").isNone else true) &&
    (if (getFieldString H v b!"name").isSome then
      match selectAttr v b!"nestedTypes" with
      | .ok nt => (tryGetSubmoduleType H (H nt)).isNone
      | .error _ => true
    else true)

theorem field_of_named {H : Heap} {v : Val} {x : Bytes} (h : Named H v x) : getFieldString H v b!"name" = some x := by
  have := check_iff.mpr h
  unfold checkField at this
  simpa using this

theorem sane_of {L : List Val} (h : saneCheck L = true) : Sane (heapOf L) := by
  have hmem : ∀ l, (∃ as, heapOf L l = .attrs as) → heapOf L l ∈ L := fun l ⟨as, e⟩ => by
    unfold heapOf at e ⊢
    rw [List.getD_eq_getElem?_getD] at e ⊢
    cases hl : L[l]? with
    | none => rw [hl] at e; cases e
    | some v => exact List.mem_of_getElem? hl
  simp only [saneCheck, List.all_eq_true, Bool.and_eq_true] at h
  have noSub : ∀ w, (tryGetSubmoduleType (heapOf L) w).isNone = true → ∀ t', ¬ Submodule (heapOf L) w t' := fun w hw t' ht => by
    rw [submodule_iff.mpr ht] at hw
    cases hw
  refine ⟨fun t w hn hs => ?_, fun l t hs x hn => ?_, fun t x nt hn hf t' => ?_⟩
  · have hm := hmem t (by obtain ⟨_, ⟨as, e, -⟩, -⟩ := hn; exact ⟨as, e⟩)
    have := ((h _ hm).1).1
    rw [if_pos (show isTypeSubmodule (heapOf L) _ = true from check_iff.mpr hn), sub_iff.mpr hs] at this
    simp only [Bool.and_eq_true] at this
    refine ⟨?_, noSub w this.1.2, fun x hx => ?_⟩
    · cases w with
      | attrs as => exact ⟨as, rfl⟩
      | _ => cases this.1.1
    · rw [field_of_named hx] at this
      cases this.2
  · have hm := hmem l (by obtain ⟨⟨as, e, -⟩, -⟩ := hs; exact ⟨as, e⟩)
    have := ((h _ hm).1).2
    rw [submodule_iff.mpr hs, field_of_named hn] at this
    cases this
  · have hm := hmem t (by obtain ⟨_, ⟨as, e, -⟩, -⟩ := hn; exact ⟨as, e⟩)
    have := (h _ hm).2
    rw [field_of_named hn, fld_iff.mpr hf] at this
    exact noSub _ this t'

/-- `{ users = attrsOf (submodule { options.shell = str; }); nixvim = submodule { options.shell = str; }; }`. -/
def optionTree : List Val :=
  [.attrs [(b!"users", 1), (b!"nixvim", 2)],
   .attrs [(b!"_type", 3), (b!"type", 4)],
   .attrs [(b!"_type", 3), (b!"type", 5)],
   .str b!"option",
   .attrs [(b!"name", 6), (b!"nestedTypes", 7)],
   .attrs [(b!"name", 8), (b!"getSubOptions", 9)],
   .str b!"attrsOf",
   .attrs [(b!"elemType", 5)],
   .str b!"submodule",
   .fn 10,
   .attrs [(b!"shell", 11)],
   .attrs [(b!"_type", 3), (b!"type", 12)],
   .attrs [(b!"name", 13)],
   .str b!"str"]

example : Sane (heapOf optionTree) := sane_of (by decide +kernel)

/-- Both `users.me.shell` and `nixvim.shell` lead to the option, also the second time. -/
example : (queries 0 [[b!"users", b!"me", b!"shell"], [b!"nixvim", b!"shell"], [b!"nixvim"], [b!"nixvim", b!"shell"], [b!"shell"]] (heapOf optionTree)).1.map
      (fun | .ok v => some v | .error _ => none) =
    [some (.attrs [(b!"_type", 3), (b!"type", 12)]), some (.attrs [(b!"_type", 3), (b!"type", 12)]), some (.attrs [(b!"shell", 11)]),
      some (.attrs [(b!"_type", 3), (b!"type", 12)]), none] := by decide +kernel

/-- Entering a submodule replaces the option. If the options of a submodule have themselves the shape of a submodule, the second answer
differs from the first. -/
theorem C47_repeated_violated : ∃ (H : Heap) (root : Loc) (p : List Bytes) (v w : Val),
    (queries root [p, p] H).1 = [.ok v, .ok w] ∧ v ≠ w := by
  refine ⟨heapOf [.attrs [(b!"a", 1)], .attrs [(b!"type", 2)], .attrs [(b!"name", 3), (b!"getSubOptions", 4)], .str b!"submodule", .fn 5,
    .attrs [(b!"type", 6)], .attrs [(b!"name", 3), (b!"getSubOptions", 7)], .fn 8, .attrs []], 0, [b!"a"],
    .attrs [(b!"type", 6)], .attrs [], ?_, by decide⟩
  rfl

end Verif.Props
