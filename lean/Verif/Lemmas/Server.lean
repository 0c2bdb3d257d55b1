import Verif.Model.Server
import Verif.Spec.Client
import Verif.Props.Text

namespace Verif.Server
open Nixf SourceCode Draft Verif.Spec Verif.Spec.Client

/-- The last notification sent for a file. -/
def lastFor (log : List Publish) (f : Bytes) : Option Publish := (log.filter (·.file = f)).getLast?

theorem lastFor_append (log : List Publish) (p : Publish) (f : Bytes) :
    lastFor (log ++ [p]) f = if p.file = f then some p else lastFor log f := by
  unfold lastFor
  by_cases h : p.file = f <;> simp [List.filter_append, h]

/-- The draft is present when `actOnDocumentAdd` is called by the handlers. -/
theorem actOnDocumentAdd_draft (s : Store) (file v c : Bytes) :
    ∃ ver, getDraft (addDraft s file v c) file = some ⟨c, ver⟩ := by
  simp only [getDraft, addDraft, if_true]
  exact ⟨_, rfl⟩

/-- The effect of a successful open/change. -/
def added (analyse : Bytes → List Diagnostic) (s : State) (file v : Bytes) (version : Option Int) (c : Bytes) : State :=
  { drafts := addDraft s.drafts file v c
    tus := fun f => if f = file then some ⟨analyse c, c⟩ else s.tus f
    order := if file ∈ s.order then s.order else s.order ++ [file]
    suppressed := s.suppressed
    log := s.log ++ [⟨file, version, buildDiags s.suppressed c (analyse c)⟩] }

theorem act_eq (analyse) (s : State) (file v : Bytes) (version : Option Int) (c : Bytes) :
    actOnDocumentAdd analyse { s with drafts := addDraft s.drafts file v c } file version
      = added analyse s file v version c := by
  obtain ⟨ver, h⟩ := actOnDocumentAdd_draft s.drafts file v c
  unfold actOnDocumentAdd
  simp only [h]
  rfl

/-- The configuration loop. -/
def pubAll (l : List Bytes) (s : State) : State :=
  l.foldl (fun s file => match s.tus file with
      | none => s
      | some tu => publishDiagnostics s file none tu.src tu.diags) s

theorem pubAll_state (l : List Bytes) (s : State) :
    (pubAll l s).drafts = s.drafts ∧ (pubAll l s).tus = s.tus ∧ (pubAll l s).order = s.order ∧
      (pubAll l s).suppressed = s.suppressed := by
  induction l generalizing s with
  | nil => simp [pubAll]
  | cons f l ih =>
    simp only [pubAll, List.foldl_cons]
    split
    · exact ih s
    · rename_i tu _
      have := ih (publishDiagnostics s f none tu.src tu.diags)
      exact this

theorem pubAll_last (l : List Bytes) (s : State) (f : Bytes) :
    lastFor (pubAll l s).log f =
      match s.tus f with
      | some tu => if f ∈ l then some ⟨f, none, buildDiags s.suppressed tu.src tu.diags⟩ else lastFor s.log f
      | none => lastFor s.log f := by
  induction l generalizing s with
  | nil => simp [pubAll]; split <;> rfl
  | cons g l ih =>
    simp only [pubAll, List.foldl_cons]
    cases hg : s.tus g with
    | none =>
      have h := ih s
      simp only [pubAll] at h
      simp only [h]
      cases hf : s.tus f with
      | none => rfl
      | some tu =>
        have : f ≠ g := by rintro rfl; rw [hg] at hf; cases hf
        simp [this]
    | some tg =>
      have h := ih (publishDiagnostics s g none tg.src tg.diags)
      simp only [pubAll] at h
      simp only [h]
      simp only [publishDiagnostics, lastFor_append]
      cases hf : s.tus f with
      | none =>
        have : g ≠ f := by rintro rfl; rw [hg] at hf; cases hf
        simp [this]
      | some tu =>
        by_cases hfl : f ∈ l
        · simp [hfl]
        · by_cases hgf : g = f
          · subst hgf; rw [hg] at hf; cases hf; simp
          · have : f ≠ g := fun h => hgf h.symm
            simp [hfl, hgf, this]

theorem config_eq (analyse) (s : State) (names : List Bytes) :
    step analyse s (.config names) = pubAll s.order { s with suppressed := updateSuppressed names } := rfl

theorem change_eq (analyse) (s : State) (file) (v) (cs) :
    step analyse s (.didChange file v cs) =
      match s.drafts file with
      | none => s
      | some d => match applyChanges d.contents cs with
        | none => removeDocument s file
        | some code => added analyse s file (encodeVersion v) v code := by
  simp only [step, getDraft]
  cases s.drafts file with
  | none => rfl
  | some d =>
    simp only
    cases applyChanges d.contents cs with
    | none => rfl
    | some code => exact act_eq ..

theorem open_eq (analyse) (s : State) (file) (v) (t) :
    step analyse s (.didOpen file v t) = added analyse s file (encodeVersion v) v t := act_eq ..

/-- Everything the server knows about a file is consistent. -/
structure Consistent (analyse : Bytes → List Diagnostic) (s : State) : Prop where
  tu : ∀ f, (s.tus f) = (s.drafts f).map fun d => ⟨analyse d.contents, d.contents⟩
  order : ∀ f, f ∈ s.order ↔ s.tus f ≠ none
  closed : ∀ f, s.drafts f = none → ∀ p, lastFor s.log f = some p → p.diags = []
  opened : ∀ f d, s.drafts f = some d → ∃ v,
    lastFor s.log f = some ⟨f, v, buildDiags s.suppressed d.contents (analyse d.contents)⟩

theorem consistent_init (analyse) : Consistent analyse init := by
  constructor <;> simp [init, lastFor]

theorem consistent_added (analyse) (s : State) (h : Consistent analyse s) (file v version c) :
    Consistent analyse (added analyse s file v version c) := by
  constructor
  · intro f
    by_cases hf : f = file
    · simp [added, addDraft, hf]
    · simp [added, addDraft, hf, h.tu]
  · intro f
    simp only [added]
    by_cases hf : f = file
    · subst hf; by_cases hm : f ∈ s.order <;> simp [hm]
    · by_cases hm : file ∈ s.order
      · rw [if_pos hm, if_neg hf]; exact h.order f
      · rw [if_neg hm, if_neg hf, List.mem_append, ← h.order f]; simp [hf]
  · intro f hd
    by_cases hf : f = file
    · subst hf; simp [added, addDraft] at hd
    · simp only [added, addDraft, if_neg hf] at hd
      have : file ≠ f := fun h => hf h.symm
      simp only [added, lastFor_append, this, if_false]
      exact h.closed f hd
  · intro f d hd
    by_cases hf : f = file
    · subst hf
      simp only [added, addDraft, if_true, Option.some.injEq] at hd
      subst hd
      exact ⟨version, by simp [added, lastFor_append]⟩
    · simp only [added, addDraft, if_neg hf] at hd
      have : file ≠ f := fun h => hf h.symm
      simp only [added, lastFor_append, this, if_false]
      exact h.opened f d hd

theorem consistent_remove (analyse) (s : State) (h : Consistent analyse s) (file) :
    Consistent analyse (removeDocument s file) := by
  constructor
  · intro f
    by_cases hf : f = file
    · simp [removeDocument, publishDiagnostics, removeDraft, hf]
    · simp [removeDocument, publishDiagnostics, removeDraft, hf, h.tu]
  · intro f
    simp only [removeDocument, publishDiagnostics]
    by_cases hf : f = file
    · simp [hf]
    · rw [if_neg hf, List.mem_filter, ← h.order f]; simp [hf]
  · intro f hd p
    by_cases hf : f = file
    · subst hf
      simp only [removeDocument, publishDiagnostics, lastFor_append, if_true, Option.some.injEq]
      rintro rfl; rfl
    · have : file ≠ f := fun h => hf h.symm
      simp only [removeDocument, publishDiagnostics, lastFor_append, this, if_false]
      simp only [removeDocument, publishDiagnostics, removeDraft, if_neg hf] at hd
      exact h.closed f hd p
  · intro f d hd
    by_cases hf : f = file
    · simp [removeDocument, publishDiagnostics, removeDraft, hf] at hd
    · have : file ≠ f := fun h => hf h.symm
      simp only [removeDocument, publishDiagnostics, lastFor_append, this, if_false]
      simp only [removeDocument, publishDiagnostics, removeDraft, if_neg hf] at hd
      exact h.opened f d hd

theorem consistent_config (analyse) (s : State) (h : Consistent analyse s) (names) :
    Consistent analyse (step analyse s (.config names)) := by
  rw [config_eq]
  obtain ⟨h1, h2, h3, h4⟩ := pubAll_state s.order { s with suppressed := updateSuppressed names }
  constructor
  · intro f; rw [h1, h2]; exact h.tu f
  · intro f; rw [h2, h3]; exact h.order f
  · intro f hd p
    rw [h1] at hd
    rw [pubAll_last]
    have : s.tus f = none := by rw [h.tu f]; simp only at hd; rw [hd]; rfl
    simp only [this]
    exact h.closed f hd p
  · intro f d hd
    rw [h1] at hd
    simp only at hd
    rw [pubAll_last, h4]
    have htu : s.tus f = some ⟨analyse d.contents, d.contents⟩ := by rw [h.tu f, hd]; rfl
    have hm : f ∈ s.order := (h.order f).mpr (by rw [htu]; simp)
    simp only [htu, hm, if_true]
    exact ⟨none, rfl⟩

theorem consistent_step (analyse) (s : State) (h : Consistent analyse s) (e : Event) :
    Consistent analyse (step analyse s e) := by
  cases e with
  | didOpen file v t => rw [open_eq]; exact consistent_added _ _ h ..
  | didChange file v cs =>
    rw [change_eq]
    split
    · exact h
    · split
      · exact consistent_remove _ _ h _
      · exact consistent_added _ _ h ..
  | didClose file => exact consistent_remove _ _ h _
  | config names => exact consistent_config _ _ h _

theorem consistent_run (analyse) (s : State) (h : Consistent analyse s) (es : List Event) :
    Consistent analyse (run analyse s es) := by
  induction es generalizing s with
  | nil => exact h
  | cons e es ih => exact ih _ (consistent_step _ _ h e)

theorem applyChange_edit (doc : List Char) (e : Edit) (h : e.InRange doc) :
    applyChange (encode doc) (e.wire doc) = (.ok (), encode (e.apply doc)) := by
  cases e with
  | full t => rfl
  | splice i n text len =>
    simp only [Edit.wire, Edit.apply]
    apply Props.C04_valid_change_accepted doc text ((doc.drop i).take n)
    · exact Int.ofNat_lt.mpr h.1
    · exact Int.ofNat_lt.mpr h.2
    · refine ⟨doc.take i, doc.drop (i + n), ?_, rfl, ?_, rfl⟩
      · rw [List.append_assoc, ← List.drop_drop, List.take_append_drop, List.take_append_drop]
      · rw [List.take_add]
    · intro l hl
      cases len <;> simp at hl
      exact hl.symm

theorem applyChanges_edits (doc : List Char) (es : List Edit) (h : InRangeAll doc es) :
    applyChanges (encode doc) (wireAll doc es) = some (encode (applyAll doc es)) := by
  induction es generalizing doc with
  | nil => rfl
  | cons e es ih =>
    simp only [wireAll, applyChanges, applyChange_edit doc e h.1]
    exact ih _ h.2

/-- The server's texts are the client's. -/
def Synced (s : State) (docs : Docs) : Prop := ∀ f, (s.drafts f).map (·.contents) = (docs f).map encode

theorem synced_added (analyse) (s docs file v version) (t : List Char) (h : Synced s docs) :
    Synced (added analyse s file v version (encode t)) (fun g => if g = file then some t else docs g) := by
  intro f
  simp only [added, addDraft]
  split <;> simp_all [h f]

theorem synced_step (analyse) (s : State) (docs : Docs) (h : Synced s docs) (o : Op) (hr : o.InRange docs) :
    Synced (step analyse s (o.wire docs)) (o.apply docs) := by
  cases o with
  | openDoc f v t => simp only [Op.wire, Op.apply]; rw [open_eq]; exact synced_added _ _ _ _ _ _ _ h
  | edit f v es =>
    simp only [Op.wire, Op.apply]
    rw [change_eq]
    have hf := h f
    cases hd : docs f with
    | none =>
      rw [hd] at hf
      have : s.drafts f = none := by simpa using hf
      simp only [this]
      intro g
      by_cases hg : g = f
      · subst hg; simp [this]
      · simp [hg, h g]
    | some doc =>
      rw [hd] at hf
      simp only [Option.map_some, Option.map_eq_some_iff] at hf
      obtain ⟨d, h1, h2⟩ := hf
      simp only [h1, h2, applyChanges_edits doc es (hr doc hd)]
      exact synced_added _ _ _ _ _ _ _ h
  | close f =>
    intro g
    simp only [Op.wire, Op.apply, step, removeDocument, publishDiagnostics, removeDraft]
    split <;> simp_all [h g]
  | config names =>
    intro g
    simp only [Op.wire, Op.apply]
    rw [config_eq, (pubAll_state _ _).1]
    exact h g

end Verif.Server
