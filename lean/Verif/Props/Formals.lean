import Verif.Spec.Formals
import Verif.Model.Parser
import Verif.Lemmas.ScopeEnts
/-
C21: formal parameters.
-/
namespace Verif.Props
open Nixf Scoping

/-! ### The map of formals -/

theorem firstFormals_spec (fs : List Node) (acc : List (Bytes × Node)) (x : Bytes) (f : Node) :
    (x, f) ∈ firstFormals fs acc ↔ (x, f) ∈ acc ∨ ((∀ p ∈ acc, p.1 ≠ x) ∧ FirstOf fs x f) := by
  induction fs generalizing acc with
  | nil =>
    simp only [firstFormals]
    refine ⟨.inl, ?_⟩
    rintro (h | ⟨-, pre, post, h, -⟩)
    · exact h
    · simp at h
  | cons g fs ih =>
    have hno : ¬ HasName g x → (FirstOf (g :: fs) x f ↔ FirstOf fs x f) := by
      intro hg
      constructor
      · rintro ⟨pre, post, h1, h2, h3⟩
        cases pre with
        | nil => cases h1; exact absurd h2 hg
        | cons a pre => cases h1; exact ⟨pre, post, rfl, h2, fun b hb => h3 b (List.mem_cons_of_mem _ hb)⟩
      · rintro ⟨pre, post, rfl, h2, h3⟩
        refine ⟨g :: pre, post, rfl, h2, fun b hb => ?_⟩
        rcases List.mem_cons.mp hb with rfl | hb
        · exact hg
        · exact h3 b hb
    have hyes : HasName g x → (FirstOf (g :: fs) x f ↔ f = g) := by
      intro hg
      constructor
      · rintro ⟨pre, post, h1, h2, h3⟩
        cases pre with
        | nil => cases h1; rfl
        | cons a pre => cases h1; exact absurd hg (h3 _ List.mem_cons_self)
      · rintro rfl
        exact ⟨[], fs, rfl, hg, nofun⟩
    simp only [firstFormals]
    split
    · rename_i hn
      rw [ih, hno (fun h => by rw [h.1] at hn; cases hn)]
    · rename_i hn
      rw [Bool.not_eq_true] at hn
      split
      · rename_i ha
        obtain ⟨p, hp, hpn⟩ := List.any_eq_true.mp ha
        rw [beq_iff_eq] at hpn
        rw [ih]
        by_cases hx : (formalID g).name = x
        · have : ¬ ∀ p ∈ acc, p.1 ≠ x := fun h => h p hp (hpn.trans hx)
          simp only [this, false_and, or_false]
        · rw [hno (fun h => hx h.2)]
      · rename_i ha
        have ha' : ∀ p ∈ acc, p.1 ≠ (formalID g).name := by
          intro p hp he
          exact ha (List.any_eq_true.mpr ⟨p, hp, beq_iff_eq.mpr he⟩)
        rw [ih]
        by_cases hx : (formalID g).name = x
        · subst hx
          rw [hyes ⟨hn, rfl⟩]
          constructor
          · rintro (h | ⟨h, -⟩)
            · rcases List.mem_append.mp h with h | h
              · exact .inl h
              · rw [List.mem_singleton, Prod.mk.injEq] at h
                exact .inr ⟨ha', h.2⟩
            · exact absurd rfl (h _ (List.mem_append_right _ List.mem_cons_self))
          · rintro (h | ⟨-, rfl⟩)
            · exact .inl (List.mem_append_left _ h)
            · exact .inl (List.mem_append_right _ List.mem_cons_self)
        · rw [hno (fun h => hx h.2)]
          constructor
          · rintro (h | ⟨h, h'⟩)
            · rcases List.mem_append.mp h with h | h
              · exact .inl h
              · rw [List.mem_singleton, Prod.mk.injEq] at h
                exact absurd h.1.symm hx
            · exact .inr ⟨fun p hp => h p (List.mem_append_left _ hp), h'⟩
          · rintro (h | ⟨h, h'⟩)
            · exact .inl (List.mem_append_left _ h)
            · refine .inr ⟨fun p hp => ?_, h'⟩
              rcases List.mem_append.mp hp with hp | hp
              · exact h p hp
              · rw [List.mem_singleton.mp hp]; exact hx

theorem firstFormals_distinct (fs : List Node) (acc : List (Bytes × Node)) (h : acc.Pairwise (·.1 ≠ ·.1)) :
    (firstFormals fs acc).Pairwise (·.1 ≠ ·.1) := by
  induction fs generalizing acc with
  | nil => exact h
  | cons g fs ih =>
    simp only [firstFormals]
    split
    · exact ih _ h
    · split
      · exact ih _ h
      · rename_i ha
        refine ih _ (List.pairwise_append.mpr ⟨h, List.pairwise_singleton _ _, ?_⟩)
        intro p hp q hq he
        rw [List.mem_singleton.mp hq] at he
        exact ha (List.any_eq_true.mpr ⟨p, hp, beq_iff_eq.mpr he⟩)

theorem firstFormals_append (a b : List Node) (acc : List (Bytes × Node)) :
    firstFormals (a ++ b) acc = firstFormals b (firstFormals a acc) := by
  induction a generalizing acc with
  | nil => rfl
  | cons g a ih =>
    simp only [List.cons_append, firstFormals]
    split
    · exact ih _
    · split <;> exact ih _

/-- C21. The map of the formals has each name once, with its first formal. -/
theorem C21_kept_once (fv : List Node) : (dedup fv).Pairwise (·.1 ≠ ·.1) ∧ ∀ x f, (x, f) ∈ dedup fv ↔ FirstOf fv x f := by
  refine ⟨?_, fun x f => ?_⟩
  · exact (List.Perm.pairwise_iff (fun h => Ne.symm h) (dedup_perm fv)).mpr (firstFormals_distinct fv [] .nil)
  · rw [(dedup_perm fv).mem_iff, firstFormals_spec]
    simp

/-! ### Diagnostics -/

theorem dedupDiags_spec (pre fs : List Node) (s : SemaSt) :
    ∃ ds, (dedupDiags fs (firstFormals pre []) s).diags = s.diags ++ ds ∧ reports DuplicateRule pre fs ds := by
  induction fs generalizing pre s with
  | nil => exact ⟨[], by simp [dedupDiags], rfl⟩
  | cons f fs ih =>
    have hd := firstFormals_distinct pre [] .nil
    have hstep : firstFormals (pre ++ [f]) [] = firstFormals [f] (firstFormals pre []) := firstFormals_append _ _ _
    simp only [dedupDiags]
    split
    · rename_i hn
      have he : firstFormals (pre ++ [f]) [] = firstFormals pre [] := by rw [hstep]; simp only [firstFormals, hn, if_true]
      obtain ⟨ds, h1, h2⟩ := ih (pre ++ [f]) s
      rw [he] at h1
      refine ⟨ds, h1, .inr ⟨?_, h2⟩⟩
      rintro d ⟨x, first, h, -⟩
      rw [h.1] at hn
      cases hn
    · rename_i hn
      split
      · rename_i p hp
        have hpm := List.mem_of_find?_eq_some hp
        have hpn := List.find?_some hp
        have he : firstFormals (pre ++ [f]) [] = firstFormals pre [] := by
          rw [hstep]
          simp only [firstFormals]
          rw [if_neg hn, if_pos (List.any_eq_true.mpr ⟨p, hpm, hpn⟩)]
        rw [beq_iff_eq] at hpn
        obtain ⟨ds, h1, h2⟩ := ih (pre ++ [f]) (s.emit
          { kind := .duplicatedFormal, range := (formalID f).range,
            notes := [{ kind := .duplicateFormal, range := (formalID p.2).range }] })
        rw [he] at h1
        refine ⟨_ :: ds, h1.trans (List.append_assoc _ [_] _), .inl ⟨_, ds, ⟨p.1, p.2, ⟨by simpa using hn, hpn.symm⟩, ?_, rfl⟩, rfl, h2⟩⟩
        have := (firstFormals_spec pre [] p.1 p.2).mp hpm
        simpa using this
      · rename_i hp
        have he : firstFormals (pre ++ [f]) [] = firstFormals pre [] ++ [((formalID f).name, f)] := by
          rw [hstep]
          simp only [firstFormals]
          rw [if_neg hn, if_neg]
          intro ha
          obtain ⟨p, h1, h2⟩ := List.any_eq_true.mp ha
          exact List.find?_eq_none.mp hp p h1 h2
        obtain ⟨ds, h1, h2⟩ := ih (pre ++ [f]) s
        rw [he] at h1
        refine ⟨ds, h1, .inr ⟨?_, h2⟩⟩
        rintro d ⟨x, first, h, h3, -⟩
        have := (firstFormals_spec pre [] x first).mpr (.inr ⟨nofun, h3⟩)
        refine List.find?_eq_none.mp hp _ this ?_
        rw [beq_iff_eq]
        exact h.2.symm

/-- The kind and range of a diagnostic. -/
def brief (d : Diagnostic) : DK × CRange := (d.kind, d.range)

theorem checkFormalSep_spec (fv : List Node) (s : SemaSt) :
    ∃ ds, (checkFormalSep fv s).diags = s.diags ++ ds ∧ reports SeparatorRule [] fv (ds.map brief) := by
  have key : ∀ (fs pre : List Node) (s : SemaSt), pre ≠ [] → ∃ ds, (fs.foldl (fun s f =>
      if (formalComma f).isNull then
        s.emit { kind := .formalMissingComma, range := f.range,
                 fixes := [{ message := b!"insert ,", edits := [⟨⟨f.lCur, f.lCur⟩, b!","⟩] }] }
      else s) s).diags = s.diags ++ ds ∧ reports SeparatorRule pre fs (ds.map brief) := by
    intro fs
    induction fs with
    | nil => exact fun pre s _ => ⟨[], by simp, rfl⟩
    | cons f fs ih =>
      intro pre s hp
      rw [List.foldl_cons]
      split
      · rename_i hc
        obtain ⟨ds, h1, h2⟩ := ih (pre ++ [f]) (s.emit { kind := .formalMissingComma, range := f.range, fixes := [{ message := b!"insert ,", edits := [⟨⟨f.lCur, f.lCur⟩, b!","⟩] }] }) (by simp)
        exact ⟨_ :: ds, h1.trans (List.append_assoc _ [_] _), .inl ⟨_, _, ⟨hp, hc, rfl⟩, rfl, h2⟩⟩
      · rename_i hc
        obtain ⟨ds, h1, h2⟩ := ih (pre ++ [f]) s (by simp)
        exact ⟨ds, h1, .inr ⟨fun d h => hc h.2.1, h2⟩⟩
  cases fv with
  | nil => exact ⟨[], by simp [checkFormalSep], rfl⟩
  | cons f fs =>
    obtain ⟨ds, h1, h2⟩ := key fs [f] s (by simp)
    exact ⟨ds, h1, .inr ⟨fun d h => h.1 rfl, h2⟩⟩

theorem checkFormalEmpty_spec (fv : List Node) (s : SemaSt) :
    ∃ ds, (checkFormalEmpty fv s).diags = s.diags ++ ds ∧ reports EmptyRule [] fv (ds.map brief) := by
  have key : ∀ (fs pre : List Node) (s : SemaSt), ∃ ds, (fs.dropLast.foldl (fun s f =>
    if !(formalComma f).isNull && (formalID f).isNull && !formalIsEllipsis f then
      s.emit { kind := .emptyFormal, range := f.range, tags := [.faded],
               fixes := [{ message := b!"remove empty formal", edits := [⟨f.range, []⟩] }] }
    else s) s).diags = s.diags ++ ds ∧ reports EmptyRule pre fs (ds.map brief) := by
    intro fs
    induction fs with
    | nil => exact fun pre s => ⟨[], by simp, rfl⟩
    | cons f fs ih =>
      intro pre s
      cases fs with
      | nil => exact ⟨[], by simp, .inr ⟨fun d h => h.1 rfl, rfl⟩⟩
      | cons g gs =>
        rw [List.dropLast_cons_of_ne_nil (by simp), List.foldl_cons]
        split
        · rename_i hc
          simp only [Bool.and_eq_true, Bool.not_eq_true'] at hc
          obtain ⟨ds, h1, h2⟩ := ih (pre ++ [f]) (s.emit { kind := .emptyFormal, range := f.range, tags := [.faded], fixes := [{ message := b!"remove empty formal", edits := [⟨f.range, []⟩] }] })
          exact ⟨_ :: ds, h1.trans (List.append_assoc _ [_] _), .inl ⟨_, _, ⟨by simp, hc.1.1, hc.1.2, hc.2, rfl⟩, rfl, h2⟩⟩
        · rename_i hc
          obtain ⟨ds, h1, h2⟩ := ih (pre ++ [f]) s
          exact ⟨ds, h1, .inr ⟨fun d h => hc (by simp [h.2.1, h.2.2.1, h.2.2.2.1]), h2⟩⟩
  exact key fv [] s

theorem checkFormalEllipsis_spec (src : Bytes) (fv : List Node) (s : SemaSt) :
    ∃ ds, (checkFormalEllipsis src fv s).diags = s.diags ++ ds ∧ reports EllipsisRule [] fv (ds.map brief) := by
  unfold checkFormalEllipsis
  rcases hl : fv.getLast? with _ | last
  · rw [List.getLast?_eq_none_iff] at hl
    subst hl
    exact ⟨[], by simp, rfl⟩
  · have key : ∀ (fs pre : List Node) (k : Nat) (s : SemaSt), fs.getLast? = some last → ∃ ds, ((fs.dropLast.zipIdx k).foldl (fun s p =>
        if formalIsEllipsis p.1 then s.emit (ellipsisDiag src fv last p.2 p.1) else s) s).diags = s.diags ++ ds ∧
        reports EllipsisRule pre fs (ds.map brief) := by
      intro fs
      induction fs with
      | nil => exact fun pre k s h => by cases h
      | cons f fs ih =>
        intro pre k s hf
        cases fs with
        | nil =>
          refine ⟨[], by simp, .inr ⟨?_, rfl⟩⟩
          rintro d ⟨-, last, h, -⟩
          cases h
        | cons g gs =>
          have hg : (g :: gs).getLast? = some last := by rw [List.getLast?_cons_cons] at hf; exact hf
          rw [List.dropLast_cons_of_ne_nil (by simp), List.zipIdx_cons, List.foldl_cons]
          simp only
          split
          · rename_i hc
            obtain ⟨ds, h1, h2⟩ := ih (pre ++ [f]) (k + 1) (s.emit (ellipsisDiag src fv last k f)) hg
            refine ⟨_ :: ds, h1.trans (List.append_assoc _ [_] _), .inl ⟨_, _, ⟨hc, last, hg, ?_⟩, rfl, h2⟩⟩
            unfold ellipsisDiag brief
            split <;> rfl
          · rename_i hc
            obtain ⟨ds, h1, h2⟩ := ih (pre ++ [f]) (k + 1) s hg
            exact ⟨ds, h1, .inr ⟨fun d h => hc h.1, h2⟩⟩
    exact key fv [] 0 s hl

/-- C21. The semantic action on a list of formals keeps the list and reports exactly: the members without comma, the ellipses
that are not last, the empty members, and every later formal of a name, each in order. -/
theorem C21_reports (src : Bytes) (r : CRange) (fv : List Node) (s : SemaSt) :
    ∃ d1 d2 d3 d4, (onFormals src r fv s).2.diags = s.diags ++ d1 ++ d2 ++ d3 ++ d4 ∧
      reports SeparatorRule [] fv (d1.map brief) ∧ reports EllipsisRule [] fv (d2.map brief) ∧
      reports EmptyRule [] fv (d3.map brief) ∧ reports DuplicateRule [] fv d4 ∧
      ∃ h, (onFormals src r fv s).1 = .formals h fv := by
  obtain ⟨d1, h1, k1⟩ := checkFormalSep_spec fv s
  obtain ⟨d2, h2, k2⟩ := checkFormalEllipsis_spec src fv (checkFormalSep fv s)
  obtain ⟨d3, h3, k3⟩ := checkFormalEmpty_spec fv (checkFormalEllipsis src fv (checkFormalSep fv s))
  obtain ⟨d4, h4, k4⟩ := dedupDiags_spec [] fv (checkFormalEmpty fv (checkFormalEllipsis src fv (checkFormalSep fv s)))
  refine ⟨d1, d2, d3, d4, ?_, k1, k2, k3, k4, _, rfl⟩
  simp only [onFormals]
  rw [show firstFormals [] [] = [] from rfl] at h4
  rw [h4, h3, h2, h1]

/-- C21. The name of the whole argument is reported iff it is also the name of a formal. -/
theorem C21_argument (r : CRange) (i f : Node) (s : SemaSt) :
    ∃ ds, (onLambdaArg r i f s).2.diags = s.diags ++ ds ∧
      ((ds = [] ∧ ¬ (i.isNull = false ∧ f.isNull = false ∧ ∃ g, FirstOf (formalMembers f) i.name g)) ∨
        ∃ g, i.isNull = false ∧ f.isNull = false ∧ FirstOf (formalMembers f) i.name g ∧
          ds = [{ kind := .duplicatedFormalToArg, range := i.range, notes := [{ kind := .duplicateFormal, range := g.range }] }]) := by
  simp only [onLambdaArg]
  split
  · rename_i h
    refine ⟨[], by simp, .inl ⟨rfl, ?_⟩⟩
    rintro ⟨h1, h2, -⟩
    simp [h1, h2] at h
  · rename_i h
    simp only [Bool.or_eq_true, not_or, Bool.not_eq_true] at h
    obtain ⟨h1, h2⟩ := h
    have hk := (C21_kept_once (formalMembers f)).2
    split
    · rename_i p hp
      have hpm := List.mem_of_find?_eq_some hp
      have hpn := List.find?_some hp
      rw [beq_iff_eq] at hpn
      refine ⟨_, rfl, .inr ⟨p.2, h1, h2, ?_, rfl⟩⟩
      rw [← hpn]
      exact (hk _ _).mp hpm
    · rename_i hp
      refine ⟨[], by simp, .inl ⟨rfl, ?_⟩⟩
      rintro ⟨-, -, g, hg⟩
      have := List.find?_eq_none.mp hp _ ((hk _ _).mpr hg)
      simp at this

/-- The kinds, columns and notes of the diagnostics of a source. -/
def parseDiags (src : Bytes) : List (DK × Nat × List Nat) :=
  match parse src with
  | some (_, s) => s.lex.diags.map fun d => (d.kind, d.range.l.column, d.notes.map (·.range.l.column))
  | none => []

example : parseDiags b!"{ a, ..., b, a, b ? 1 }@a: a" =
    [(.formalMisplacedEllipsis, 3, []), (.duplicatedFormal, 13, [2]), (.duplicatedFormal, 16, [10]), (.duplicatedFormalToArg, 24, [2])] := by
  decide +kernel
example : parseDiags b!"{ a b, , ... , ... }: a" =
    [(.formalMissingComma, 4, []), (.formalExtraEllipsis, 7, []), (.emptyFormal, 5, [])] := by decide +kernel
example : parseDiags b!"{ a, b, ... }@c: a" = [] := by decide +kernel

end Verif.Props
