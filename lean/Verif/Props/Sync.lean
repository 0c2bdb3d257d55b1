import Verif.Lemmas.Server
/-
Properties C05 (document synchronisation) and C41 (diagnostic suppression).
-/
namespace Verif.Props
open Verif.Server Verif.Spec Verif.Spec.Client Verif.Nixf Verif.SourceCode

/-- **C05.** For every history of a well-behaved editor (any number of files, any order, configuration
changes included) the server's text of every file is the UTF-8 form of the editor's text, and only the
editor's open files have a draft. -/
theorem C05_server_text_is_client_text (analyse : Bytes → List Diagnostic) (ops : List Op)
    (h : InRangeOps (fun _ => none) ops) (f : Bytes) :
    ((run analyse init (wireOps (fun _ => none) ops)).drafts f).map (·.contents)
      = (applyOps (fun _ => none) ops f).map encode := by
  suffices H : ∀ (s : State) (docs : Docs), Synced s docs → InRangeOps docs ops →
      Synced (run analyse s (wireOps docs ops)) (applyOps docs ops) from
    H init (fun _ => none) (fun _ => rfl) h f
  clear h
  induction ops with
  | nil => intro s docs hs _; exact hs
  | cons o os ih =>
    intro s docs hs hr
    exact ih _ _ (synced_step analyse s docs hs o hr.1) hr.2

/-- **C05**, for every history of events (also of a misbehaving client): the analysed source of a file is the
stored text of this file, for exactly the files with a draft. -/
theorem C05_analysis_is_of_current_text (analyse : Bytes → List Diagnostic) (es : List Event) (f : Bytes) :
    (run analyse init es).tus f
      = ((run analyse init es).drafts f).map fun d => ⟨analyse d.contents, d.contents⟩ :=
  (consistent_run analyse init (consistent_init _) es).tu f

/-- **C05**, an edit that cannot be applied drops the file, its analysis and its diagnostics. -/
theorem C05_failed_change_drops (analyse : Bytes → List Diagnostic) (s : State) (f : Bytes) (v : Option Int)
    (d : Draft.Draft) (pre post : List Change) (c : Change) (code code' : Bytes) (e : ChangeError)
    (hd : s.drafts f = some d)
    (hpre : applyChanges d.contents pre = some code)
    (hc : applyChange code c = (.error e, code')) :
    let s' := step analyse s (.didChange f v (pre ++ c :: post))
    s'.drafts f = none ∧ s'.tus f = none ∧ lastFor s'.log f = some ⟨f, none, []⟩ := by
  have hfail : applyChanges d.contents (pre ++ c :: post) = none := by
    clear hd
    revert hpre
    generalize d.contents = x
    intro hpre
    induction pre generalizing x with
    | nil => simp only [applyChanges, Option.some.injEq] at hpre; subst hpre; simp [applyChanges, hc]
    | cons p pre ih =>
      simp only [applyChanges, List.cons_append] at hpre ⊢
      rcases h1 : applyChange x p with ⟨_ | _, y⟩ <;> simp only [h1] at hpre ⊢
      exact ih _ hpre
  simp only [change_eq, hd, hfail]
  simp [removeDocument, publishDiagnostics, Draft.removeDraft, lastFor_append, buildDiags]

/-- The file an event is about. -/
def eventFile : Event → Option Bytes
  | .didOpen f _ _ => some f
  | .didChange f _ _ => some f
  | .didClose f => some f
  | .config _ => none

/-- **C05**, an event about one file changes nothing for another one and sends nothing for it. -/
theorem C05_frame (analyse : Bytes → List Diagnostic) (s : State) (e : Event) (f g : Bytes)
    (he : eventFile e = some f) (hg : g ≠ f) :
    (step analyse s e).drafts g = s.drafts g ∧ (step analyse s e).tus g = s.tus g ∧
      (step analyse s e).log.filter (·.file = g) = s.log.filter (·.file = g) := by
  have hfg : f ≠ g := fun h => hg h.symm
  have hadd : ∀ v ver c, (added analyse s f v ver c).drafts g = s.drafts g ∧
      (added analyse s f v ver c).tus g = s.tus g ∧
      (added analyse s f v ver c).log.filter (·.file = g) = s.log.filter (·.file = g) := by
    intro v ver c
    simp [added, Draft.addDraft, hg, List.filter_append, hfg]
  have hrem : (removeDocument s f).drafts g = s.drafts g ∧ (removeDocument s f).tus g = s.tus g ∧
      (removeDocument s f).log.filter (·.file = g) = s.log.filter (·.file = g) := by
    simp [removeDocument, publishDiagnostics, Draft.removeDraft, hg, List.filter_append, hfg]
  cases e with
  | didOpen f' v t =>
    simp only [eventFile, Option.some.injEq] at he; subst he
    rw [open_eq]; exact hadd ..
  | didChange f' v cs =>
    simp only [eventFile, Option.some.injEq] at he; subst he
    rw [change_eq]
    split
    · exact ⟨rfl, rfl, rfl⟩
    · split
      · exact hrem
      · exact hadd ..
  | didClose f' =>
    simp only [eventFile, Option.some.injEq] at he; subst he
    exact hrem
  | config n => cases he

/-- Non-vacuity: a history with two files, an edit with a surrogate pair and a close. -/
example : InRangeOps (fun _ => none)
    [.openDoc b!"/a" (some 1) ['x', '𝄞', '\n'], .openDoc b!"/b" none [], .config [b!"sema-extra-with"],
     .edit b!"/a" (some 2) [.splice 1 1 ['y'] true, .full ['z']], .close b!"/b"] := by
  refine ⟨trivial, trivial, trivial, ?_, trivial, trivial⟩
  intro doc h
  simp [Op.apply] at h
  subst h
  exact ⟨by simp only [Edit.InRange]; decide, trivial, trivial⟩

/-! ### C41 -/

theorem mem_all (k : DK) : k ∈ DK.all := by cases k <;> decide

theorem sname_injective (a b : DK) (h : a.sname = b.sname) : a = b := by
  have : ∀ a ∈ DK.all, ∀ b ∈ DK.all, a.sname = b.sname → a = b := by decide +kernel
  exact this a (mem_all a) b (mem_all b) h

theorem parseKind_iff (s : Bytes) (k : DK) : parseKind s = some k ↔ k.sname = s := by
  unfold parseKind
  constructor
  · intro h; have := List.find?_some h; simpa using this
  · rintro rfl
    cases hf : DK.all.find? (fun k' => k'.sname == k.sname) with
    | none => rw [List.find?_eq_none] at hf; exact absurd (hf k (mem_all k)) (by simp)
    | some k' =>
      have := List.find?_some hf
      simp at this
      rw [sname_injective _ _ this]

/-- **C41**, the suppressed kinds are exactly those whose name is listed; unknown names have no effect. -/
theorem C41_suppressed_set (names : List Bytes) (k : DK) :
    isSuppressed (updateSuppressed names) k = true ↔ k.sname ∈ names := by
  suffices H : ∀ acc : List DK, k ∈ names.foldl suppressName acc ↔ k ∈ acc ∨ k.sname ∈ names by
    have := H []
    simp only [isSuppressed, List.contains_iff_mem, updateSuppressed]
    simpa using this
  induction names with
  | nil => simp
  | cons n ns ih =>
    intro acc
    rw [List.foldl_cons, ih]
    have : k ∈ suppressName acc n ↔ k ∈ acc ∨ k.sname = n := by
      unfold suppressName
      cases hp : parseKind n with
      | none =>
        have : k.sname ≠ n := fun h => by rw [(parseKind_iff n k).mpr h] at hp; cases hp
        simp [this]
      | some k' =>
        have hk := (parseKind_iff n k').mp hp
        have hiff : k.sname = n ↔ k = k' := by
          constructor
          · intro h; exact sname_injective _ _ (h.trans hk.symm)
          · rintro rfl; exact hk
        simp only [hiff]
        by_cases hc : k' ∈ acc
        · simp only [hc, if_true]
          constructor
          · exact Or.inl
          · rintro (h | rfl)
            · exact h
            · exact hc
        · simp [hc]
    rw [this, List.mem_cons, or_assoc]

/-- **C41**, the published list is: for every diagnostic that is not suppressed, in order, the
diagnostic followed by its notes; nothing else. -/
theorem C41_published_list (sup : List DK) (src : Bytes) (ds : List Diagnostic) :
    buildDiags sup src ds =
      (ds.filter fun d => !isSuppressed sup d.kind).flatMap fun d =>
        mainDiag src d :: d.notes.map (noteDiag src d) := by
  induction ds with
  | nil => rfl
  | cons d ds ih =>
    by_cases h : isSuppressed sup d.kind = true
    · simp [buildDiags, h, ih]
    · simp only [Bool.not_eq_true] at h
      simp [buildDiags, h, ih]

/-- **C41**, the LSP form of a diagnostic keeps kind name, range, severity and the notes. -/
theorem C41_diag_content (src : Bytes) (d : Diagnostic) :
    (mainDiag src d).code = d.kind.sname ∧
    (mainDiag src d).range = ⟨offsetToPosition src d.range.l.offset, offsetToPosition src d.range.r.offset⟩ ∧
    ((mainDiag src d).severity = 1 ↔ d.kind.severity = .fatal ∨ d.kind.severity = .error) ∧
    (mainDiag src d).related.length = d.notes.length := by
  refine ⟨rfl, rfl, ?_, by simp [mainDiag]⟩
  simp only [mainDiag, getLSPSeverity]
  split <;> simp_all

/-- **C41**, the LSP form of a note: a hint at the note's range that refers back to the diagnostic. -/
theorem C41_note_content (src : Bytes) (d : Diagnostic) (n : Note) :
    (noteDiag src d n).code = n.kind.sname ∧ (noteDiag src d n).message = n.format ∧ (noteDiag src d n).severity = 4 ∧
    (noteDiag src d n).range = ⟨offsetToPosition src n.range.l.offset, offsetToPosition src n.range.r.offset⟩ ∧
    (noteDiag src d n).related.map Prod.fst =
      [⟨offsetToPosition src d.range.l.offset, offsetToPosition src d.range.r.offset⟩] :=
  ⟨rfl, rfl, rfl, rfl, rfl⟩

/-- **C41 / C05**, at any time, what the client was told last about an open file is the current configuration applied to
the diagnostics of its current text (so a new configuration takes effect for every open file); for a file that is
not open the last message, if any, cleared the diagnostics. -/
theorem C41_last_published_is_current (analyse : Bytes → List Diagnostic) (es : List Event) (f : Bytes) :
    let s := run analyse init es
    (∀ d, s.drafts f = some d → ∃ v,
      lastFor s.log f = some ⟨f, v, buildDiags s.suppressed d.contents (analyse d.contents)⟩) ∧
    (s.drafts f = none → ∀ p, lastFor s.log f = some p → p.diags = []) := by
  have h := consistent_run analyse init (consistent_init _) es
  exact ⟨h.opened f, h.closed f⟩

/-- Non-vacuity: a suppressed and a kept kind. -/
example : isSuppressed (updateSuppressed [b!"sema-extra-with", b!"no-such-name"]) .extraWith = true ∧
    isSuppressed (updateSuppressed [b!"sema-extra-with", b!"no-such-name"]) .extraRecursive = false := by
  decide

end Verif.Props
