import Verif.Model.Threads
import Verif.Lemmas.Server
import Mathlib.Data.Prod.Lex
/-
Invariants of the threads of the document server (Model/Threads.lean).
-/
namespace Verif.Threads
open Nixf SourceCode Draft Server

/-- States reachable from `s` through states with the property `P`. -/
inductive Reach (A : Analysis) (P : State → Prop) (s : State) : State → Prop
  | refl : Reach A P s s
  | step {t t' : State} (a : Act) : Reach A P s t → Threads.step A t a = some t' → P t' → Reach A P s t'

theorem Reach.mono {A : Analysis} {P Q : State → Prop} (h : ∀ s, P s → Q s) {s t : State} (r : Reach A P s t) :
    Reach A Q s t := by
  induction r with
  | refl => exact .refl
  | step a _ hs hp ih => exact .step a ih hs (h _ hp)

theorem reach_exec {A : Analysis} {s0 s t : State} (r : Reach A (fun _ => True) s0 s) (as : List Act)
    (h : exec A s as = some t) : Reach A (fun _ => True) s0 t := by
  induction as generalizing s with
  | nil => simp only [exec, Option.some.injEq] at h; exact h ▸ r
  | cons a as ih =>
    simp only [exec, Option.bind_eq_some_iff] at h
    obtain ⟨s', h1, h2⟩ := h
    exact ih (.step a r h1 trivial) h2

/-- The file whose translation unit is to be replaced or erased. -/
def Input.changes : Input → Option Bytes
  | .wantAdd p _ | .addLocked p _ | .addOpen p _ => some p.file
  | .insertLocked f _ | .wantInsert f _ | .wantErase f => some f
  | .idle | .clearing _ => none

/-- The translation unit to be inserted. -/
def Input.new : Input → Option (Bytes × TU)
  | .wantAdd p tu | .addLocked p tu | .addOpen p tu => some (p.file, tu)
  | .insertLocked f tu | .wantInsert f tu => some (f, tu)
  | _ => none

/-- What does not depend on when the threads run. -/
structure InvA (A : Analysis) (s : State) : Prop where
  tu : ∀ f, s.input.changes ≠ some f →
    s.srv.tus f = (s.srv.drafts f).map fun d => ⟨A.analyse d.contents, d.contents⟩
  new : ∀ f tu, s.input.new = some (f, tu) →
    (s.srv.drafts f).map (fun d => (⟨A.analyse d.contents, d.contents⟩ : TU)) = some tu
  gone : ∀ f, s.input = .wantErase f → s.srv.drafts f = none
  order : ∀ f, f ∈ s.srv.order ↔ s.srv.tus f ≠ none
  excl : ¬ (s.input.holds = true ∧ s.config.holds = true)
  files : ∀ rest cur, s.config = .loop rest cur →
    (∀ f ∈ rest, s.srv.tus f ≠ none) ∧ ∀ p, cur = some p → s.srv.tus p.file ≠ none
  clear : ∀ p, s.input = .clearing p → p.todo = [] ∧ p.out = [] ∧ s.srv.drafts p.file = none
  fresh : ∀ p tu, s.input = .wantAdd p tu → p.out = [] ∧ p.src = tu.src ∧ p.todo = tu.diags

theorem invA_init (A : Analysis) : InvA A init := by
  constructor <;> simp [init, Server.init, Input.changes, Input.new, Input.holds]

theorem Pub.next_file {sup : List DK} {p q : Pub} (h : p.next sup = some q) : q.file = p.file := by
  simp only [Pub.next] at h
  split at h
  · cases h
  · split at h <;> · cases h; rfl

theorem Pub.next_none {sup : List DK} {p : Pub} : p.next sup = none ↔ p.todo = [] := by
  simp only [Pub.next]
  split
  · rename_i h; simp [h]
  · rename_i h; split <;> simp [h]

/-- What a running publication will have sent when it is done. -/
def Pub.all (sup : List DK) (p : Pub) : List LDiag := p.out ++ buildDiags sup p.src p.todo

theorem Pub.next_all {sup : List DK} {p q : Pub} (h : p.next sup = some q) :
    q.all sup = p.all sup ∧ q.src = p.src := by
  simp only [Pub.next] at h
  split at h
  · cases h
  · rename_i d ds hd
    split at h
    · rename_i hs
      cases h
      simp [Pub.all, hd, buildDiags, hs]
    · rename_i hs
      cases h
      simp [Pub.all, hd, buildDiags, hs]

theorem Pub.end_all {sup : List DK} {p : Pub} (h : p.next sup = none) : p.all sup = p.out := by
  rw [Pub.next_none] at h
  simp [Pub.all, h, buildDiags]

theorem insertTU_order (s : Server.State) (file : Bytes) (tu : TU) (h : ∀ f, f ∈ s.order ↔ s.tus f ≠ none) (f : Bytes) :
    f ∈ (insertTU s file tu).order ↔ (insertTU s file tu).tus f ≠ none := by
  simp only [insertTU]
  by_cases hf : f = file
  · subst hf; by_cases hm : f ∈ s.order <;> simp [hm]
  · by_cases hm : file ∈ s.order
    · rw [if_pos hm, if_neg hf]; exact h f
    · rw [if_neg hm, if_neg hf, List.mem_append, ← h f]; simp [hf]

theorem eraseTU_order (s : Server.State) (file : Bytes) (h : ∀ f, f ∈ s.order ↔ s.tus f ≠ none) (f : Bytes) :
    f ∈ (eraseTU s file).order ↔ (eraseTU s file).tus f ≠ none := by
  simp only [eraseTU]
  by_cases hf : f = file
  · simp [hf]
  · rw [if_neg hf, List.mem_filter, ← h f]; simp [hf]

theorem invA_add (A : Analysis) (s : State) (h : InvA A s) (hi : s.input = .idle) (file version text) :
    InvA A (beginAdd A s file version text) := by
  have htu : ∀ f, s.srv.tus f = (s.srv.drafts f).map fun d => ⟨A.analyse d.contents, d.contents⟩ :=
    fun f => h.tu f (by simp [hi, Input.changes])
  unfold beginAdd
  cases A.hasAst text
  · constructor
    · intro f hf
      simp only [Bool.false_eq_true, if_false, Input.changes, Pub.start, ne_eq, Option.some.injEq] at hf
      simp only [addDraft]
      rw [if_neg (fun e => hf e.symm)]; exact htu f
    · intro f tu hn
      simp only [Bool.false_eq_true, if_false, Input.new, Pub.start, Option.some.injEq, Prod.mk.injEq] at hn
      obtain ⟨rfl, rfl⟩ := hn
      simp [addDraft]
    · simp
    · exact h.order
    · simp [Input.holds]
    · exact h.files
    · simp
    · intro p tu hp
      simp only [Bool.false_eq_true, if_false, Input.wantAdd.injEq] at hp
      obtain ⟨rfl, rfl⟩ := hp
      simp [Pub.start]
  · constructor
    · intro f hf
      simp only [if_true, Input.changes, Pub.start, ne_eq, Option.some.injEq] at hf
      simp only [addDraft]
      rw [if_neg (fun e => hf e.symm)]; exact htu f
    · intro f tu hn
      simp only [if_true, Input.new, Pub.start, Option.some.injEq, Prod.mk.injEq] at hn
      obtain ⟨rfl, rfl⟩ := hn
      simp [addDraft]
    · simp
    · exact h.order
    · simp [Input.holds]
    · exact h.files
    · simp
    · simp

theorem invA_remove (A : Analysis) (s : State) (h : InvA A s) (hi : s.input = .idle) (file) :
    InvA A (beginRemove s file) := by
  have htu : ∀ f, s.srv.tus f = (s.srv.drafts f).map fun d => ⟨A.analyse d.contents, d.contents⟩ :=
    fun f => h.tu f (by simp [hi, Input.changes])
  unfold beginRemove
  constructor
  · intro f hf
    simp only [Input.changes, ne_eq, Option.some.injEq] at hf
    simp only [removeDraft]
    rw [if_neg (fun e => hf e.symm)]; exact htu f
  · simp [Input.new]
  · intro f hf
    simp only [Input.wantErase.injEq] at hf
    simp [removeDraft, hf]
  · exact h.order
  · simp [Input.holds]
  · exact h.files
  · simp
  · simp

theorem invA_receive (A : Analysis) (s : State) (h : InvA A s) (hi : s.input = .idle) (e : Event) :
    InvA A (receive A s e) := by
  cases e with
  | didOpen file v t => exact invA_add A s h hi ..
  | didChange file v cs =>
    simp only [receive]
    split
    · exact h
    · split
      · exact invA_remove A s h hi _
      · exact invA_add A s h hi ..
  | didClose file => exact invA_remove A s h hi _
  | config names => exact ⟨h.tu, h.new, h.gone, h.order, h.excl, h.files, h.clear, h.fresh⟩

theorem invA_input (A : Analysis) (s s' : State) (h : InvA A s) (hs : inputStep s = some s') : InvA A s' := by
  obtain ⟨h1, h2, h3, h4, h5, h6, h7, h8⟩ := h
  unfold inputStep at hs
  split at hs
  · cases hs
  · rename_i p tu hi
    simp only [hi, Input.changes, Input.new] at h1 h2
    split at hs
    · cases hs
    · rename_i hc
      cases hs
      exact ⟨h1, h2, by simp, h4, by simp [hc], h6, by simp, by simp⟩
  · rename_i p tu hi
    simp only [hi, Input.changes, Input.new, Input.holds] at h1 h2 h5
    split at hs
    · rename_i q hq
      cases hs
      have := Pub.next_file hq
      exact ⟨by simpa only [Input.changes, this] using h1, by simpa only [Input.new, this] using h2, by simp, h4,
        by simpa [Input.holds] using h5, h6, by simp, by simp⟩
    · cases hs
      exact ⟨h1, h2, by simp, h4, by simpa [Input.holds] using h5, h6, by simp, by simp⟩
  · rename_i file tu hi
    simp only [hi, Input.changes, Input.new, Input.holds] at h1 h2 h5
    cases hs
    refine ⟨?_, by simp [Input.new], by simp, insertTU_order _ _ _ h4, by simp [Input.holds], ?_, by simp, by simp⟩
    · intro f _
      by_cases hf : f = file
      · subst hf; simp only [insertTU, if_true]; exact (h2 f tu rfl).symm
      · simp only [insertTU, if_neg hf]; exact h1 f (by simpa using fun e => hf e.symm)
    · intro rest cur hc
      simp [show s.config = .loop rest cur from hc, Config.holds] at h5
  · rename_i p tu hi
    simp only [hi, Input.changes, Input.new, Input.holds] at h1 h2 h5
    split at hs
    · rename_i q hq
      cases hs
      have := Pub.next_file hq
      exact ⟨by simpa only [Input.changes, this] using h1, by simpa only [Input.new, this] using h2, by simp, h4,
        by simp [Input.holds], h6, by simp, by simp⟩
    · cases hs
      exact ⟨h1, h2, by simp, h4, by simp [Input.holds], h6, by simp, by simp⟩
  · rename_i file tu hi
    simp only [hi, Input.changes, Input.new, Input.holds] at h1 h2 h5
    split at hs
    · cases hs
    · rename_i hl
      cases hs
      refine ⟨?_, by simp [Input.new], by simp, insertTU_order _ _ _ h4, by simp [Input.holds], ?_, by simp, by simp⟩
      · intro f _
        by_cases hf : f = file
        · subst hf; simp only [insertTU, if_true]; exact (h2 f tu rfl).symm
        · simp only [insertTU, if_neg hf]; exact h1 f (by simpa using fun e => hf e.symm)
      · intro rest cur hc
        simp [show s.config = .loop rest cur from hc, Config.holds] at hl
  · rename_i file hi
    simp only [hi, Input.changes, Input.new, Input.holds] at h1 h2 h5
    have h3' := h3 file hi
    split at hs
    · cases hs
    · rename_i hl
      cases hs
      refine ⟨?_, by simp [Input.new], by simp, eraseTU_order _ _ h4, by simp [Input.holds], ?_, ?_, by simp⟩
      · intro f _
        by_cases hf : f = file
        · subst hf; simp [eraseTU, h3']
        · simp only [eraseTU, if_neg hf]; exact h1 f (by simpa using fun e => hf e.symm)
      · intro rest cur hc
        simp [show s.config = .loop rest cur from hc, Config.holds] at hl
      · intro p hp
        simp only [Input.clearing.injEq] at hp
        subst hp
        exact ⟨rfl, rfl, h3'⟩
  · rename_i p hi
    simp only [hi, Input.changes, Input.new, Input.holds] at h1 h2 h5
    have h7' := h7 p hi
    split at hs
    · rename_i q hq
      simp [Pub.next, h7'.1] at hq
    · cases hs
      exact ⟨h1, by simp [Input.new], by simp, h4, by simp [Input.holds], h6, by simp, by simp⟩

theorem invA_config (A : Analysis) (s s' : State) (h : InvA A s) (hs : configStep s = some s') : InvA A s' := by
  obtain ⟨h1, h2, h3, h4, h5, h6, h7, h8⟩ := h
  unfold configStep at hs
  split at hs
  · cases hs
  · cases hs
    exact ⟨h1, h2, h3, h4, by simp [Config.holds], by simp, h7, h8⟩
  · split at hs
    · cases hs
    · rename_i hc hl
      cases hs
      refine ⟨h1, h2, h3, h4, by simp [hl], ?_, h7, h8⟩
      intro rest cur hr
      simp only [Config.loop.injEq] at hr
      obtain ⟨rfl, rfl⟩ := hr
      exact ⟨fun f hf => (h4 f).mp hf, by simp⟩
  · rename_i rest p hc
    have h6' := h6 _ _ hc
    rw [hc] at h5
    split at hs
    · rename_i q hq
      cases hs
      refine ⟨h1, h2, h3, h4, by simpa [Config.holds] using h5, ?_, h7, h8⟩
      intro rest' cur hr
      simp only [Config.loop.injEq] at hr
      obtain ⟨rfl, rfl⟩ := hr
      refine ⟨h6'.1, ?_⟩
      intro p' hp'
      cases hp'
      rw [Pub.next_file hq]
      exact h6'.2 p rfl
    · cases hs
      refine ⟨h1, h2, h3, h4, by simpa [Config.holds] using h5, ?_, h7, h8⟩
      intro rest' cur hr
      simp only [Config.loop.injEq] at hr
      obtain ⟨rfl, rfl⟩ := hr
      exact ⟨h6'.1, by simp⟩
  · rename_i file rest hc
    have h6' := h6 _ _ hc
    rw [hc] at h5
    split at hs
    · rename_i ht
      exact absurd ht (h6'.1 file (by simp))
    · rename_i tu ht
      cases hs
      refine ⟨h1, h2, h3, h4, by simpa [Config.holds] using h5, ?_, h7, h8⟩
      intro rest' cur hr
      simp only [Config.loop.injEq] at hr
      obtain ⟨rfl, rfl⟩ := hr
      refine ⟨fun f hf => h6'.1 f (by simp [hf]), ?_⟩
      intro p' hp'
      cases hp'
      exact h6'.1 file (by simp)
  · cases hs
    exact ⟨h1, h2, h3, h4, by simp [Config.holds], by simp, h7, h8⟩

theorem invA_step (A : Analysis) (s s' : State) (a : Act) (h : InvA A s) (hs : step A s a = some s') : InvA A s' := by
  cases a with
  | recv e =>
    simp only [step] at hs
    split at hs
    · rename_i hi
      cases hs
      exact invA_receive A s h hi e
    · cases hs
  | input => exact invA_input A s s' h hs
  | begin i =>
    simp only [step] at hs
    split at hs
    · cases hs
      obtain ⟨h1, h2, h3, h4, h5, h6, h7, h8⟩ := h
      exact ⟨h1, h2, h3, h4, by simp [Config.holds], by simp, h7, h8⟩
    · cases hs
  | config => exact invA_config A s s' h hs

theorem invA_reach {A : Analysis} {P : State → Prop} {s t : State} (h : InvA A s) (r : Reach A P s t) :
    InvA A t := by
  induction r with
  | refl => exact h
  | step a _ hs _ ih => exact invA_step A _ _ a ih hs

/-- The file whose last message is not that of its translation unit. -/
def Input.tells : Input → Option Bytes
  | .addLocked p _ | .addOpen p _ | .clearing p => some p.file
  | .insertLocked f _ | .wantInsert f _ => some f
  | _ => none

/-- The configuration job is still to tell about the file. -/
def Config.owes : Config → Bytes → Prop
  | .wantTUs, _ => True
  | .loop rest cur, f => f ∈ rest ∨ ∃ p, cur = some p ∧ p.file = f
  | _, _ => False

/-- The last message about a file is the one expected for a translation unit. -/
def Told (s : State) (f : Bytes) (tu : TU) : Prop :=
  ∃ v, lastFor s.srv.log f = some ⟨f, v, buildDiags s.srv.suppressed tu.src tu.diags⟩

/-- The input thread is between publishing the diagnostics of a text and storing its translation unit, without the
lock (Support.cpp:47-50). -/
def Input.exposed : Input → Prop
  | .addOpen .. | .wantInsert .. => True
  | _ => False

/-- The loop over the translation units does not run while the input thread is `exposed`. -/
def Apart (s : State) : Prop := ¬ (s.input.exposed ∧ s.config.holds = true)

/-- The messages are those of the translation units. -/
structure InvB (s : State) : Prop where
  sends : ∀ p tu, (s.input = .addLocked p tu ∨ s.input = .addOpen p tu) →
    p.src = tu.src ∧ (s.config ≠ .wantTUs →
      p.all s.srv.suppressed = buildDiags s.srv.suppressed tu.src tu.diags)
  sent : ∀ f tu, (s.input = .insertLocked f tu ∨ s.input = .wantInsert f tu) → s.config ≠ .wantTUs → Told s f tu
  loops : ∀ rest p tu, s.config = .loop rest (some p) → s.srv.tus p.file = some tu →
    p.all s.srv.suppressed = buildDiags s.srv.suppressed tu.src tu.diags
  closed : ∀ f, s.input.tells ≠ some f → s.srv.tus f = none → ∀ p, lastFor s.srv.log f = some p → p.diags = []
  opened : ∀ f tu, s.input.tells ≠ some f → s.srv.tus f = some tu → ¬ s.config.owes f → Told s f tu

theorem invB_init : InvB init := by
  constructor <;> simp [init, Server.init, lastFor]

theorem invB_receive (A : Analysis) (s : State) (h : InvB s) (hi : s.input = .idle) (e : Event) :
    InvB (receive A s e) := by
  have hc : ∀ f, s.srv.tus f = none → ∀ p, lastFor s.srv.log f = some p → p.diags = [] :=
    fun f => h.closed f (by simp [hi, Input.tells])
  have ho : ∀ f tu, s.srv.tus f = some tu → ¬ s.config.owes f → Told s f tu :=
    fun f tu => h.opened f tu (by simp [hi, Input.tells])
  have hadd : ∀ file version text, InvB (beginAdd A s file version text) := by
    intro file version text
    unfold beginAdd
    cases A.hasAst text
    · exact ⟨by simp, by simp, h.loops, fun f _ => hc f, fun f tu _ => ho f tu⟩
    · refine ⟨?_, by simp, h.loops, fun f _ => hc f, fun f tu _ => ho f tu⟩
      intro p tu hp
      simp only [if_true, reduceCtorEq, false_or, Input.addOpen.injEq] at hp
      obtain ⟨rfl, rfl⟩ := hp
      exact ⟨rfl, fun _ => by simp [Pub.all, Pub.start]⟩
  have hrem : ∀ file, InvB (beginRemove s file) := by
    intro file
    unfold beginRemove
    exact ⟨by simp, by simp, h.loops, fun f _ => hc f, fun f tu _ => ho f tu⟩
  cases e with
  | didOpen file v t => exact hadd ..
  | didChange file v cs =>
    simp only [receive]
    split
    · exact h
    · split
      · exact hrem _
      · exact hadd ..
  | didClose file => exact hrem _
  | config names => exact ⟨h.sends, h.sent, h.loops, h.closed, h.opened⟩

theorem told_send (s : State) (p : Pub) (tu : TU) (i : Input) (c : Config)
    (ha : p.out = buildDiags s.srv.suppressed tu.src tu.diags) :
    Told { s with srv := send s.srv p, input := i, config := c } p.file tu :=
  ⟨p.version, by simp [send, lastFor_append, Pub.message, ha]⟩

theorem told_other {s : State} {f : Bytes} {p : Pub} {tu : TU} (i : Input) (c : Config) (h : p.file ≠ f)
    (ht : Told s f tu) : Told { s with srv := send s.srv p, input := i, config := c } f tu := by
  obtain ⟨v, hv⟩ := ht
  exact ⟨v, by simp [send, lastFor_append, Pub.message, h, hv]⟩

theorem last_other {s : Server.State} {f : Bytes} {p : Pub} (h : p.file ≠ f) :
    lastFor (send s p).log f = lastFor s.log f := by
  simp [send, lastFor_append, Pub.message, h]

theorem invB_input (A : Analysis) (s s' : State) (hA : InvA A s) (h : InvB s) (hs : inputStep s = some s')
    (hap : Apart s) : InvB s' := by
  obtain ⟨h1, h2, h3, h4, h5⟩ := h
  have hex := hA.excl
  unfold inputStep at hs
  split at hs
  · cases hs
  · rename_i p tu hi
    simp only [hi, Input.tells] at h4 h5
    split at hs
    · cases hs
    · cases hs
      obtain ⟨q1, q2, q3⟩ := hA.fresh p tu hi
      refine ⟨?_, by simp, h3, fun f _ => h4 f (by simp), fun f tu _ => h5 f tu (by simp)⟩
      intro p' tu' hp
      simp only [Input.addLocked.injEq, reduceCtorEq, or_false] at hp
      obtain ⟨rfl, rfl⟩ := hp
      exact ⟨q2, fun _ => by simp [Pub.all, q1, q2, q3]⟩
  · rename_i p tu hi
    obtain ⟨r1, r2⟩ := h1 p tu (.inl hi)
    simp only [hi, Input.tells, Input.holds, true_and] at h4 h5 hex
    split at hs
    · rename_i q hq
      cases hs
      have hf := Pub.next_file hq
      obtain ⟨ha, hsrc⟩ := Pub.next_all hq
      refine ⟨?_, by simp, h3, by simpa only [Input.tells, hf] using h4,
        by simp only [Input.tells, hf]; exact h5⟩
      intro p' tu' hp
      simp only [Input.addLocked.injEq, reduceCtorEq, or_false] at hp
      obtain ⟨rfl, rfl⟩ := hp
      exact ⟨hsrc.trans r1, fun hw => ha.trans (r2 hw)⟩
    · rename_i hq
      cases hs
      refine ⟨by simp, ?_, ?_, ?_, ?_⟩
      · intro f tu' hp hw
        simp only [Input.insertLocked.injEq, reduceCtorEq, or_false] at hp
        obtain ⟨rfl, rfl⟩ := hp
        exact told_send s p tu _ _ ((Pub.end_all hq).symm.trans (r2 hw))
      · intro rest p' tu' hc
        simp [show s.config = _ from hc, Config.holds] at hex
      · intro f hf ht
        simp only [Input.tells, ne_eq, Option.some.injEq] at hf
        rw [last_other hf]
        exact h4 f (by simpa using hf) ht
      · intro f tu' hf ht hw
        simp only [Input.tells, ne_eq, Option.some.injEq] at hf
        exact told_other _ _ hf (h5 f tu' (by simpa using hf) ht hw)
  · rename_i file tu hi
    have r := h2 file tu (.inl hi)
    simp only [hi, Input.tells, Input.holds, true_and] at h4 h5 hex
    cases hs
    refine ⟨by simp, by simp, ?_, ?_, ?_⟩
    · intro rest p' tu' hc
      simp [show s.config = _ from hc, Config.holds] at hex
    · intro f _ ht
      by_cases hf : f = file
      · subst hf; simp [insertTU] at ht
      · simp only [insertTU, if_neg hf] at ht
        exact h4 f (by simpa using fun e => hf e.symm) ht
    · intro f tu' _ ht hw
      by_cases hf : f = file
      · subst hf
        simp only [insertTU, if_true, Option.some.injEq] at ht
        subst ht
        exact r (fun e => hw (by show Config.owes s.config f; rw [e]; trivial))
      · simp only [insertTU, if_neg hf] at ht
        exact h5 f tu' (by simpa using fun e => hf e.symm) ht hw
  · rename_i p tu hi
    obtain ⟨r1, r2⟩ := h1 p tu (.inr hi)
    simp only [hi, Input.tells] at h4 h5
    have hex : ¬ s.config.holds = true := fun e => hap ⟨by rw [hi]; trivial, e⟩
    split at hs
    · rename_i q hq
      cases hs
      have hf := Pub.next_file hq
      obtain ⟨ha, hsrc⟩ := Pub.next_all hq
      refine ⟨?_, by simp, h3, by simpa only [Input.tells, hf] using h4,
        by simp only [Input.tells, hf]; exact h5⟩
      intro p' tu' hp
      simp only [Input.addOpen.injEq, reduceCtorEq, false_or] at hp
      obtain ⟨rfl, rfl⟩ := hp
      exact ⟨hsrc.trans r1, fun hw => ha.trans (r2 hw)⟩
    · rename_i hq
      cases hs
      refine ⟨by simp, ?_, ?_, ?_, ?_⟩
      · intro f tu' hp hw
        simp only [Input.wantInsert.injEq, reduceCtorEq, false_or] at hp
        obtain ⟨rfl, rfl⟩ := hp
        exact told_send s p tu _ _ ((Pub.end_all hq).symm.trans (r2 hw))
      · intro rest p' tu' hc
        simp [show s.config = _ from hc, Config.holds] at hex
      · intro f hf ht
        simp only [Input.tells, ne_eq, Option.some.injEq] at hf
        rw [last_other hf]
        exact h4 f (by simpa using hf) ht
      · intro f tu' hf ht hw
        simp only [Input.tells, ne_eq, Option.some.injEq] at hf
        exact told_other _ _ hf (h5 f tu' (by simpa using hf) ht hw)
  · rename_i file tu hi
    have r := h2 file tu (.inr hi)
    simp only [hi, Input.tells] at h4 h5
    split at hs
    · cases hs
    · rename_i hl
      cases hs
      refine ⟨by simp, by simp, ?_, ?_, ?_⟩
      · intro rest p' tu' hc
        simp [show s.config = _ from hc, Config.holds] at hl
      · intro f _ ht
        by_cases hf : f = file
        · subst hf; simp [insertTU] at ht
        · simp only [insertTU, if_neg hf] at ht
          exact h4 f (by simpa using fun e => hf e.symm) ht
      · intro f tu' _ ht hw
        by_cases hf : f = file
        · subst hf
          simp only [insertTU, if_true, Option.some.injEq] at ht
          subst ht
          exact r (fun e => hw (by show Config.owes s.config f; rw [e]; trivial))
        · simp only [insertTU, if_neg hf] at ht
          exact h5 f tu' (by simpa using fun e => hf e.symm) ht hw
  · rename_i file hi
    simp only [hi, Input.tells] at h4 h5
    split at hs
    · cases hs
    · rename_i hl
      cases hs
      refine ⟨by simp, by simp, ?_, ?_, ?_⟩
      · intro rest p' tu' hc
        simp [show s.config = _ from hc, Config.holds] at hl
      · intro f hf ht
        simp only [Input.tells, Pub.start, ne_eq, Option.some.injEq] at hf
        simp only [eraseTU, if_neg (fun e => hf (Eq.symm e))] at ht
        exact h4 f (by simp) ht
      · intro f tu' hf ht hw
        simp only [Input.tells, Pub.start, ne_eq, Option.some.injEq] at hf
        simp only [eraseTU, if_neg (fun e => hf (Eq.symm e))] at ht
        exact h5 f tu' (by simp) ht hw
  · rename_i p hi
    simp only [hi, Input.tells] at h4 h5
    obtain ⟨q1, q2, q3⟩ := hA.clear p hi
    have hn : s.srv.tus p.file = none := by
      rw [hA.tu p.file (by simp [hi, Input.changes]), q3]; rfl
    split at hs
    · rename_i q hq
      simp [Pub.next, q1] at hq
    · cases hs
      refine ⟨by simp, by simp, ?_, ?_, ?_⟩
      · exact h3
      · intro f _ ht p' hp
        by_cases hf : p.file = f
        · simp only [send, lastFor_append, Pub.message, hf, if_true, Option.some.injEq] at hp
          subst hp
          exact q2
        · rw [last_other hf] at hp
          exact h4 f (by simpa using hf) ht p' hp
      · intro f tu' _ ht hw
        by_cases hf : p.file = f
        · subst hf
          rw [show s.srv.tus p.file = some tu' from ht] at hn
          cases hn
        · exact told_other _ _ hf (h5 f tu' (by simpa using hf) ht hw)

theorem invB_config (A : Analysis) (s s' : State) (hA : InvA A s) (h : InvB s) (hs : configStep s = some s')
    (hap : Apart s) (hap' : Apart s') : InvB s' := by
  obtain ⟨h1, h2, h3, h4, h5⟩ := h
  have hex := hA.excl
  unfold configStep at hs
  split at hs
  · cases hs
  · cases hs
    exact ⟨fun p tu hp => ⟨(h1 p tu hp).1, fun hw => absurd rfl hw⟩, fun _ _ _ hw => absurd rfl hw, by simp, h4,
      fun f tu _ _ hw => absurd trivial hw⟩
  · rename_i hc
    split at hs
    · cases hs
    · rename_i hl
      cases hs
      have hno : ∀ p tu, ¬ (s.input = .addLocked p tu ∨ s.input = .addOpen p tu) := by
        rintro p tu (hp | hp)
        · simp [hp, Input.holds] at hl
        · exact hap' ⟨by rw [hp]; trivial, rfl⟩
      have hno' : ∀ f tu, ¬ (s.input = .insertLocked f tu ∨ s.input = .wantInsert f tu) := by
        rintro p tu (hp | hp)
        · simp [hp, Input.holds] at hl
        · exact hap' ⟨by rw [hp]; trivial, rfl⟩
      refine ⟨fun p tu hp => absurd hp (hno p tu), fun f tu hp => absurd hp (hno' f tu), by simp, h4, ?_⟩
      intro f tu ht htu hw
      exact absurd (Or.inl ((hA.order f).mpr (by rw [htu]; simp))) hw
  · rename_i rest p hc
    have hfile := (hA.files _ _ hc).2 p rfl
    have hno : ∀ p tu, ¬ (s.input = .addLocked p tu ∨ s.input = .addOpen p tu) := by
      rintro p tu (hp | hp)
      · simp [hp, hc, Input.holds, Config.holds] at hex
      · exact hap ⟨by rw [hp]; trivial, by rw [hc]; rfl⟩
    have hno' : ∀ f tu, ¬ (s.input = .insertLocked f tu ∨ s.input = .wantInsert f tu) := by
      rintro p tu (hp | hp)
      · simp [hp, hc, Input.holds, Config.holds] at hex
      · exact hap ⟨by rw [hp]; trivial, by rw [hc]; rfl⟩
    split at hs
    · rename_i q hq
      cases hs
      have hf := Pub.next_file hq
      obtain ⟨ha, hsrc⟩ := Pub.next_all hq
      refine ⟨fun p tu hp => absurd hp (hno p tu), fun f tu hp => absurd hp (hno' f tu), ?_, h4, ?_⟩
      · intro rest' p' tu hc' ht
        simp only [Config.loop.injEq, Option.some.injEq] at hc'
        obtain ⟨rfl, rfl⟩ := hc'
        rw [hf] at ht
        exact ha.trans (h3 _ p tu hc ht)
      · intro f tu ht htu hw
        refine h5 f tu ht htu (fun ho => hw ?_)
        rw [hc] at ho
        rcases ho with ho | ⟨p', hp', ho⟩
        · exact .inl ho
        · cases hp'
          exact .inr ⟨q, rfl, hf.trans ho⟩
    · rename_i hq
      cases hs
      refine ⟨fun p tu hp => absurd hp (hno p tu), fun f tu hp => absurd hp (hno' f tu), by simp, ?_, ?_⟩
      · intro f ht htu p'
        have : p.file ≠ f := by rintro rfl; exact hfile htu
        rw [last_other this]
        exact h4 f ht htu p'
      · intro f tu ht htu hw
        by_cases hf : p.file = f
        · subst hf
          exact told_send s p tu _ _ ((Pub.end_all hq).symm.trans (h3 _ p tu hc htu))
        · refine told_other _ _ hf (h5 f tu ht htu (fun ho => hw ?_))
          rw [hc] at ho
          rcases ho with ho | ⟨p', hp', ho⟩
          · exact .inl ho
          · cases hp'; exact absurd ho hf
  · rename_i file rest hc
    have hfile := (hA.files _ _ hc).1 file (by simp)
    have hno : ∀ p tu, ¬ (s.input = .addLocked p tu ∨ s.input = .addOpen p tu) := by
      rintro p tu (hp | hp)
      · simp [hp, hc, Input.holds, Config.holds] at hex
      · exact hap ⟨by rw [hp]; trivial, by rw [hc]; rfl⟩
    have hno' : ∀ f tu, ¬ (s.input = .insertLocked f tu ∨ s.input = .wantInsert f tu) := by
      rintro p tu (hp | hp)
      · simp [hp, hc, Input.holds, Config.holds] at hex
      · exact hap ⟨by rw [hp]; trivial, by rw [hc]; rfl⟩
    split at hs
    · rename_i ht
      exact absurd ht hfile
    · rename_i tu0 ht0
      cases hs
      refine ⟨fun p tu hp => absurd hp (hno p tu), fun f tu hp => absurd hp (hno' f tu), ?_, h4, ?_⟩
      · intro rest' p' tu hc' ht
        simp only [Config.loop.injEq, Option.some.injEq] at hc'
        obtain ⟨rfl, rfl⟩ := hc'
        simp only [Pub.start] at ht
        rw [ht0] at ht
        cases ht
        simp [Pub.all, Pub.start]
      · intro f tu ht htu hw
        refine h5 f tu ht htu (fun ho => hw ?_)
        rw [hc] at ho
        rcases ho with ho | ⟨p', hp', ho⟩
        · rcases List.mem_cons.mp ho with rfl | ho
          · exact .inr ⟨_, rfl, rfl⟩
          · exact .inl ho
        · cases hp'
  · rename_i hc
    cases hs
    have hno : ∀ p tu, ¬ (s.input = .addLocked p tu ∨ s.input = .addOpen p tu) := by
      rintro p tu (hp | hp)
      · simp [hp, hc, Input.holds, Config.holds] at hex
      · exact hap ⟨by rw [hp]; trivial, by rw [hc]; rfl⟩
    have hno' : ∀ f tu, ¬ (s.input = .insertLocked f tu ∨ s.input = .wantInsert f tu) := by
      rintro p tu (hp | hp)
      · simp [hp, hc, Input.holds, Config.holds] at hex
      · exact hap ⟨by rw [hp]; trivial, by rw [hc]; rfl⟩
    refine ⟨fun p tu hp => absurd hp (hno p tu), fun f tu hp => absurd hp (hno' f tu), by simp, h4, ?_⟩
    intro f tu ht htu _
    refine h5 f tu ht htu (fun ho => ?_)
    rw [hc] at ho
    rcases ho with ho | ⟨p', hp', ho⟩
    · cases ho
    · cases hp'

theorem invB_step (A : Analysis) (s s' : State) (a : Act) (hA : InvA A s) (h : InvB s)
    (hs : step A s a = some s') (hap : Apart s) (hap' : Apart s') : InvB s' := by
  cases a with
  | recv e =>
    simp only [step] at hs
    split at hs
    · rename_i hi
      cases hs
      exact invB_receive A s h hi e
    · cases hs
  | input => exact invB_input A s s' hA h hs hap
  | begin i =>
    simp only [step] at hs
    split at hs
    · rename_i hc hp
      cases hs
      obtain ⟨h1, h2, h3, h4, h5⟩ := h
      refine ⟨fun p tu hp => ⟨(h1 p tu hp).1, fun _ => (h1 p tu hp).2 (by simp [hc])⟩,
        fun f tu hp _ => h2 f tu hp (by simp [hc]), by simp, h4, ?_⟩
      intro f tu ht htu hw
      exact h5 f tu ht htu (by rw [hc]; exact id)
    · cases hs
  | config => exact invB_config A s s' hA h hs hap hap'

theorem apart_init : Apart init := fun h => h.1

theorem invB_reach {A : Analysis} {s t : State} (hA : InvA A s) (hB : InvB s) (hap : Apart s)
    (r : Reach A Apart s t) : InvB t ∧ Apart t := by
  induction r with
  | refl => exact ⟨hB, hap⟩
  | step a r hs hp ih => exact ⟨invB_step A _ _ a (invA_reach hA r) ih.1 hs ih.2 hp, hp⟩

/-- A file without a translation unit is clear, whatever the schedule. -/
def Closed (s : State) : Prop :=
  ∀ f, s.input.tells ≠ some f → s.srv.tus f = none → ∀ p, lastFor s.srv.log f = some p → p.diags = []

theorem closed_step (A : Analysis) (s s' : State) (a : Act) (hA : InvA A s) (h : Closed s)
    (hs : step A s a = some s') : Closed s' := by
  cases a with
  | recv e =>
    simp only [step] at hs
    split at hs
    · rename_i hi
      cases hs
      have hc : ∀ f, s.srv.tus f = none → ∀ p, lastFor s.srv.log f = some p → p.diags = [] :=
        fun f => h f (by simp [hi, Input.tells])
      cases e with
      | didOpen file v t => exact fun f _ => hc f
      | didChange file v cs =>
        simp only [receive]
        split
        · exact h
        · split
          · exact fun f _ => hc f
          · exact fun f _ => hc f
      | didClose file => exact fun f _ => hc f
      | config names => exact h
    · cases hs
  | begin i =>
    simp only [step] at hs
    split at hs
    · cases hs; exact h
    · cases hs
  | config =>
    simp only [step] at hs
    unfold configStep at hs
    split at hs
    · cases hs
    · cases hs; exact h
    · split at hs
      · cases hs
      · cases hs; exact h
    · rename_i rest p hc
      have hfile := (hA.files _ _ hc).2 p rfl
      split at hs
      · cases hs; exact h
      · cases hs
        intro f ht htu p'
        have : p.file ≠ f := by rintro rfl; exact hfile htu
        rw [last_other this]
        exact h f ht htu p'
    · split at hs <;> · cases hs; exact h
    · cases hs; exact h
  | input =>
    simp only [step] at hs
    unfold inputStep at hs
    unfold Closed at h
    split at hs
    · cases hs
    · rename_i p tu hi
      simp only [hi, Input.tells] at h
      split at hs
      · cases hs
      · cases hs
        exact fun f _ => h f (by simp)
    · rename_i p tu hi
      simp only [hi, Input.tells] at h
      split at hs
      · rename_i q hq
        cases hs
        have hf := Pub.next_file hq
        intro f
        simpa only [Input.tells, hf] using h f
      · cases hs
        intro f hf ht
        simp only [Input.tells, ne_eq, Option.some.injEq] at hf
        rw [last_other hf]
        exact h f (by simpa using hf) ht
    · rename_i file tu hi
      simp only [hi, Input.tells] at h
      cases hs
      intro f _ ht
      by_cases hf : f = file
      · subst hf; simp [insertTU] at ht
      · simp only [insertTU, if_neg hf] at ht
        exact h f (by simpa using fun e => hf e.symm) ht
    · rename_i p tu hi
      simp only [hi, Input.tells] at h
      split at hs
      · rename_i q hq
        cases hs
        have hf := Pub.next_file hq
        intro f
        simpa only [Input.tells, hf] using h f
      · cases hs
        intro f hf ht
        simp only [Input.tells, ne_eq, Option.some.injEq] at hf
        rw [last_other hf]
        exact h f (by simpa using hf) ht
    · rename_i file tu hi
      simp only [hi, Input.tells] at h
      split at hs
      · cases hs
      · cases hs
        intro f _ ht
        by_cases hf : f = file
        · subst hf; simp [insertTU] at ht
        · simp only [insertTU, if_neg hf] at ht
          exact h f (by simpa using fun e => hf e.symm) ht
    · rename_i file hi
      simp only [hi, Input.tells] at h
      split at hs
      · cases hs
      · cases hs
        intro f hf ht
        simp only [Input.tells, Pub.start, ne_eq, Option.some.injEq] at hf
        simp only [eraseTU, if_neg (fun e => hf (Eq.symm e))] at ht
        exact h f (by simp) ht
    · rename_i p hi
      simp only [hi, Input.tells] at h
      obtain ⟨q1, q2, q3⟩ := hA.clear p hi
      split at hs
      · rename_i q hq
        simp [Pub.next, q1] at hq
      · cases hs
        intro f _ ht p' hp
        by_cases hf : p.file = f
        · simp only [send, lastFor_append, Pub.message, hf, if_true, Option.some.injEq] at hp
          subst hp
          exact q2
        · rw [last_other hf] at hp
          exact h f (by simpa using hf) ht p' hp

theorem closed_reach {A : Analysis} {P : State → Prop} {s : State} (r : Reach A P init s) : Closed s := by
  induction r with
  | refl => intro f _ _ p hp; simp [init, Server.init, lastFor] at hp
  | step a r hs _ ih => exact closed_step A _ _ a (invA_reach (invA_init A) r) ih hs

/-- A job that starts its loop while the input thread is idle repairs everything. -/
theorem invB_want {A : Analysis} {s : State} (hA : InvA A s) (hc : Closed s) (hi : s.input = .idle)
    (hw : s.config = .wantTUs) : InvB s :=
  ⟨by simp [hi], by simp [hi], by simp [hw], hc, fun f tu _ _ ho => absurd (by rw [hw]; trivial) ho⟩

/-! ### Every schedule without new messages ends -/

/-- The steps left in the handler of the input thread. -/
def Input.work : Input → Nat
  | .idle => 0
  | .wantAdd p _ => p.todo.length + 3
  | .addLocked p _ => p.todo.length + 2
  | .insertLocked .. => 1
  | .addOpen p _ => p.todo.length + 2
  | .wantInsert .. => 1
  | .wantErase _ => 3
  | .clearing p => p.todo.length + 1

/-- The phase of a configuration job. -/
def Config.phase : Config → Nat
  | .none => 0
  | .loop .. => 1
  | .wantTUs => 2
  | .start _ => 3

/-- The files left in the loop. -/
def Config.left : Config → Nat
  | .loop rest _ => rest.length
  | _ => 0

/-- The steps left in the running publication. -/
def Config.inner : Config → Nat
  | .loop _ (some p) => p.todo.length + 1
  | _ => 0

/-- What decreases. -/
def measure (s : State) : Nat ×ₗ Nat ×ₗ Nat ×ₗ Nat ×ₗ Nat :=
  toLex (s.input.work, toLex (s.pending.length, toLex (s.config.phase, toLex (s.config.left, s.config.inner))))

theorem Pub.next_length {sup : List DK} {p q : Pub} (h : p.next sup = some q) :
    q.todo.length + 1 = p.todo.length := by
  simp only [Pub.next] at h
  split at h
  · cases h
  · rename_i d ds hd
    split at h <;> · cases h; simp [hd]

/-- The actions that are not a new message. -/
def Act.inner : Act → Prop
  | .recv _ => False
  | _ => True

theorem measure_step (A : Analysis) (s s' : State) (a : Act) (ha : a.inner) (hs : step A s a = some s') :
    measure s' < measure s := by
  cases a with
  | recv e => exact absurd ha id
  | begin i =>
    simp only [step] at hs
    split at hs
    · rename_i names hc hp
      cases hs
      have : i < s.pending.length := by
        rcases Nat.lt_or_ge i s.pending.length with h | h
        · exact h
        · rw [List.getElem?_eq_none h] at hp; cases hp
      simp only [measure, Prod.Lex.toLex_lt_toLex]
      refine .inr ⟨trivial, .inl ?_⟩
      rw [List.length_eraseIdx, if_pos this]
      omega
    · cases hs
  | input =>
    simp only [step] at hs
    have key : s'.input.work < s.input.work := by
      unfold inputStep at hs
      split at hs
      · cases hs
      · rename_i hi
        split at hs <;> cases hs
        simp [hi, Input.work]
      · rename_i hi
        split at hs <;> cases hs
        · rename_i hq; have := Pub.next_length hq; simp only [hi, Input.work]; omega
        · simp only [hi, Input.work]; omega
      · rename_i hi; cases hs; simp [hi, Input.work]
      · rename_i hi
        split at hs <;> cases hs
        · rename_i hq; have := Pub.next_length hq; simp only [hi, Input.work]; omega
        · simp only [hi, Input.work]; omega
      · rename_i hi
        split at hs <;> cases hs
        simp [hi, Input.work]
      · rename_i hi
        split at hs <;> cases hs
        simp [hi, Input.work, Pub.start]
      · rename_i hi
        split at hs <;> cases hs
        · rename_i hq; have := Pub.next_length hq; simp only [hi, Input.work]; omega
        · simp only [hi, Input.work]; omega
    simp only [measure, Prod.Lex.toLex_lt_toLex]
    exact .inl key
  | config =>
    simp only [step] at hs
    unfold configStep at hs
    split at hs
    · cases hs
    · rename_i hc
      cases hs
      simp [measure, Prod.Lex.toLex_lt_toLex, hc, Config.phase]
    · rename_i hc
      split at hs <;> cases hs
      simp [measure, Prod.Lex.toLex_lt_toLex, hc, Config.phase]
    · rename_i hc
      split at hs <;> cases hs
      · rename_i hq
        have := Pub.next_length hq
        simp only [measure, Prod.Lex.toLex_lt_toLex, hc, Config.phase, Config.left, Config.inner]
        exact .inr ⟨trivial, .inr ⟨trivial, .inr ⟨trivial, .inr ⟨trivial, by omega⟩⟩⟩⟩
      · simp only [measure, Prod.Lex.toLex_lt_toLex, hc, Config.phase, Config.left, Config.inner]
        exact .inr ⟨trivial, .inr ⟨trivial, .inr ⟨trivial, .inr ⟨trivial, by omega⟩⟩⟩⟩
    · rename_i hc
      split at hs <;> cases hs
      · simp [measure, Prod.Lex.toLex_lt_toLex, hc, Config.phase, Config.left]
      · simp [measure, Prod.Lex.toLex_lt_toLex, hc, Config.phase, Config.left]
    · rename_i hc
      cases hs
      simp [measure, Prod.Lex.toLex_lt_toLex, hc, Config.phase]

/-- A state in which no thread can go on is quiet. -/
theorem stuck_quiet {A : Analysis} {s : State} (h : InvA A s)
    (hs : ∀ a, a.inner → step A s a = none) : Quiet s := by
  have hi := hs .input trivial
  have hc := hs .config trivial
  have hb := hs (.begin 0) trivial
  simp only [step] at hi hc hb
  have hconf : s.config = .none := by
    unfold configStep at hc
    split at hc
    · assumption
    · cases hc
    · split at hc
      · rename_i hw hl
        unfold inputStep at hi
        cases hin : s.input <;> simp only [hin, Input.holds, Bool.false_eq_true] at hl
        · simp only [hin] at hi
          split at hi <;> cases hi
        · simp [hin] at hi
      · cases hc
    · split at hc <;> cases hc
    · split at hc <;> cases hc
    · cases hc
  have hin : s.input = .idle := by
    unfold inputStep at hi
    split at hi
    · assumption
    · simp [hconf, Config.holds] at hi
    · split at hi <;> cases hi
    · cases hi
    · split at hi <;> cases hi
    · simp [hconf, Config.holds] at hi
    · simp [hconf, Config.holds] at hi
    · split at hi <;> cases hi
  refine ⟨hin, hconf, ?_⟩
  cases hp : s.pending with
  | nil => rfl
  | cons x xs => simp [hconf, hp] at hb

end Verif.Threads
