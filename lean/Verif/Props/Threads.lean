import Verif.Lemmas.Threads
import Verif.Props.Scope
/-
Property C74 (the threads of the document server): schedules of the input thread and of the configuration jobs.
-/
namespace Verif.Props
open Verif.Threads Verif.Server Verif.Nixf Verif.SourceCode

/-- Any state of any schedule. -/
def Scheduled (A : Analysis) (s : Threads.State) : Prop := ∃ as, exec A Threads.init as = some s

theorem Scheduled.reach {A : Analysis} {s : Threads.State} (h : Scheduled A s) :
    Reach A (fun _ => True) Threads.init s := by
  obtain ⟨as, h⟩ := h
  exact reach_exec .refl as h

/-- Everything the client was told last about a file is what follows from its current text and the current
configuration. -/
def UpToDate (A : Analysis) (s : Threads.State) : Prop :=
  ∀ f,
    (∀ d, s.srv.drafts f = some d → ∃ v,
      lastFor s.srv.log f = some ⟨f, v, buildDiags s.srv.suppressed d.contents (A.analyse d.contents)⟩) ∧
    (s.srv.drafts f = none → ∀ p, lastFor s.srv.log f = some p → p.diags = [])

/-- **C74.** Under every schedule, between two messages the stored analysis of a file is that of its current text, and
exactly the files with a draft have one. -/
theorem C74_analysis_is_current (A : Analysis) (s : Threads.State) (h : Scheduled A s) (hi : s.input = .idle) (f : Bytes) :
    s.srv.tus f = (s.srv.drafts f).map fun d => ⟨A.analyse d.contents, d.contents⟩ :=
  (invA_reach (invA_init A) h.reach).tu f (by simp [hi, Input.changes])

theorem upToDate_of {A : Analysis} {s : Threads.State} (hA : InvA A s) (hB : InvB s) (hi : s.input = .idle)
    (hc : s.config = .none) : UpToDate A s := by
  intro f
  have htu := hA.tu f (by simp [hi, Input.changes])
  refine ⟨?_, ?_⟩
  · intro d hd
    rw [hd] at htu
    exact hB.opened f _ (by simp [hi, Input.tells]) htu (by rw [hc]; exact id)
  · intro hd
    rw [hd] at htu
    exact hB.closed f (by simp [hi, Input.tells]) htu

/-- **C74.** Under every schedule in which the republishing loop of a configuration job and the unlocked part of a
document update (from the publication of the diagnostics to the insertion of the translation unit) do not overlap, the
client has been told the current diagnostics of all files whenever no thread is busy. -/
theorem C74_apart_up_to_date (A : Analysis) (s : Threads.State) (h : Reach A Apart Threads.init s)
    (hi : s.input = .idle) (hc : s.config = .none) : UpToDate A s :=
  upToDate_of (invA_reach (invA_init A) h) (invB_reach (invA_init A) invB_init apart_init h).1 hi hc

/-- **C74.** If every update publishes and inserts under the lock (as the branch for texts without a tree does), this
holds for all schedules. -/
theorem C74_locked_up_to_date (A : Analysis) (hA : ∀ t, A.hasAst t = false) (s : Threads.State) (h : Scheduled A s)
    (hi : s.input = .idle) (hc : s.config = .none) : UpToDate A s := by
  refine C74_apart_up_to_date A s ?_ hi hc
  have key : ∀ (P : Threads.State → Prop) t, Reach A P Threads.init t →
      Reach A Apart Threads.init t ∧ ¬ t.input.exposed := by
    intro P t r
    induction r with
    | refl => exact ⟨.refl, id⟩
    | @step t t' a r hs _ ih =>
      obtain ⟨ih1, ih2⟩ := ih
      have hn : ¬ t'.input.exposed := by
        cases a with
        | recv e =>
          simp only [Threads.step] at hs
          split at hs
          · rename_i hidle
            cases hs
            cases e with
            | didOpen file v x => simp [receive, beginAdd, hA, Input.exposed]
            | didChange file v cs =>
              simp only [receive]
              split
              · exact ih2
              · split
                · simp [beginRemove, Input.exposed]
                · simp [beginAdd, hA, Input.exposed]
            | didClose file => simp [receive, beginRemove, Input.exposed]
            | config names => exact ih2
          · cases hs
        | begin i =>
          simp only [Threads.step] at hs
          split at hs <;> cases hs
          exact ih2
        | config =>
          simp only [Threads.step] at hs
          have : t'.input = t.input := by
            unfold configStep at hs
            split at hs <;> (try split at hs) <;> cases hs <;> rfl
          rw [this]; exact ih2
        | input =>
          simp only [Threads.step] at hs
          unfold inputStep at hs
          split at hs
          · cases hs
          · split at hs <;> cases hs; exact id
          · split at hs <;> cases hs <;> exact id
          · cases hs; exact id
          · rename_i hin; rw [hin] at ih2; exact absurd trivial ih2
          · rename_i hin; rw [hin] at ih2; exact absurd trivial ih2
          · split at hs <;> cases hs; exact id
          · split at hs <;> cases hs <;> exact id
      exact ⟨.step a ih1 hs (fun hx => hn hx.1), hn⟩
  exact (key _ _ h.reach).1

/-- **C74.** Whatever went wrong before: when a configuration job is about to start its loop while the input thread is
idle, and no overlap happens from there on, the client is up to date at the end. -/
theorem C74_recovers (A : Analysis) (s t : Threads.State) (h : Scheduled A s) (hi : s.input = .idle)
    (hw : s.config = .wantTUs) (r : Reach A Apart s t) (hi' : t.input = .idle) (hc : t.config = .none) :
    UpToDate A t := by
  have hA := invA_reach (invA_init A) h.reach
  have hB := invB_want hA (closed_reach h.reach) hi hw
  have hap : Apart s := fun hx => by rw [hi] at hx; exact hx.1
  exact upToDate_of (invA_reach hA r) (invB_reach hA hB hap r).1 hi' hc

/-- **C74.** No deadlock and no livelock: without new messages every schedule ends, and it ends only when all work is
done. -/
theorem C74_settles (A : Analysis) :
    WellFounded (fun s' s : Threads.State => ∃ a : Act, a.inner ∧ Threads.step A s a = some s') ∧
    ∀ s, Scheduled A s → (∀ a : Act, a.inner → Threads.step A s a = none) → Quiet s := by
  refine ⟨?_, fun s h hs => stuck_quiet (invA_reach (invA_init A) h.reach) hs⟩
  refine Subrelation.wf ?_ (InvImage.wf Threads.measure (wellFounded_lt))
  rintro s' s ⟨a, ha, hs⟩
  exact measure_step A s s' a ha hs

/-- The configurations received. -/
def received : List Act → List (List Bytes)
  | [] => []
  | .recv (.config names) :: as => names :: received as
  | _ :: as => received as

/-- The suppressed kinds when the received configurations have been applied, in their order. -/
def eventually (s : Threads.State) : List DK :=
  match s.pending.getLast?, s.config with
  | some names, _ => updateSuppressed names
  | none, .start names => updateSuppressed names
  | none, _ => s.srv.suppressed

theorem input_keeps {s s' : Threads.State} (h : inputStep s = some s') :
    s'.pending = s.pending ∧ s'.config = s.config ∧ s'.srv.suppressed = s.srv.suppressed := by
  unfold inputStep at h
  split at h <;> (try split at h) <;> cases h <;> exact ⟨rfl, rfl, rfl⟩

theorem receive_keeps (A : Analysis) (s : Threads.State) (e : Event) :
    (receive A s e).config = s.config ∧ (receive A s e).srv.suppressed = s.srv.suppressed ∧
    (receive A s e).pending = s.pending ++ (match e with | .config names => [names] | _ => []) := by
  cases e with
  | didOpen file v x => simp [receive, beginAdd]
  | didChange file v cs =>
    simp only [receive]
    split
    · simp
    · split
      · simp [beginRemove]
      · simp [beginAdd]
  | didClose file => simp [receive, beginRemove]
  | config names => simp [receive]

/-- The configuration received in a step. -/
def newConfig : Act → Option (List Bytes)
  | .recv (.config names) => some names
  | _ => none

theorem eventually_step (A : Analysis) (s s' : Threads.State) (a : Act) (hf : ∀ i, a = .begin i → i = 0)
    (hs : Threads.step A s a = some s') :
    eventually s' = ((newConfig a).map updateSuppressed).getD (eventually s) := by
  cases a with
  | recv e =>
    simp only [Threads.step] at hs
    split at hs <;> cases hs
    obtain ⟨h1, h2, h3⟩ := receive_keeps A s e
    cases e with
    | config names => simp [eventually, h3, newConfig]
    | didOpen file v x => simp only [List.append_nil] at h3; simp [eventually, h1, h2, h3, newConfig]
    | didChange file v x => simp only [List.append_nil] at h3; simp [eventually, h1, h2, h3, newConfig]
    | didClose file => simp only [List.append_nil] at h3; simp [eventually, h1, h2, h3, newConfig]
  | input =>
    obtain ⟨h1, h2, h3⟩ := input_keeps hs
    simp [eventually, h1, h2, h3, newConfig]
  | begin i =>
    cases hf i rfl
    simp only [Threads.step] at hs
    split at hs
    · rename_i names hc hp
      cases hs
      simp only [newConfig, Option.map_none, Option.getD_none]
      rcases hq : s.pending with _ | ⟨x, _ | ⟨y, ys⟩⟩
      · simp [hq] at hp
      · simp only [hq, List.getElem?_cons_zero, Option.some.injEq] at hp
        subst hp
        simp [eventually, hq]
      · have : ∃ z, (y :: ys).getLast? = some z := ⟨_, List.getLast?_eq_some_getLast (by simp)⟩
        obtain ⟨z, hz⟩ := this
        simp [eventually, hq, hz]
    · cases hs
  | config =>
    simp only [Threads.step] at hs
    unfold configStep at hs
    simp only [eventually, newConfig, Option.map_none, Option.getD_none]
    split at hs
    · cases hs
    · rename_i hc; cases hs; simp only [hc]; cases s.pending.getLast? <;> rfl
    · rename_i hc; split at hs <;> cases hs; simp only [hc]; cases s.pending.getLast? <;> rfl
    · rename_i hc; split at hs <;> cases hs <;> simp only [hc] <;> cases s.pending.getLast? <;> rfl
    · rename_i hc; split at hs <;> cases hs <;> simp only [hc] <;> cases s.pending.getLast? <;> rfl
    · rename_i hc; cases hs; simp only [hc]; cases s.pending.getLast? <;> rfl

theorem eventually_exec (A : Analysis) (as : List Act) (hf : ∀ i, Act.begin i ∈ as → i = 0) (s t : Threads.State)
    (h : exec A s as = some t) :
    eventually t = match (received as).getLast? with | some names => updateSuppressed names | none => eventually s := by
  induction as generalizing s with
  | nil => simp only [exec, Option.some.injEq] at h; subst h; rfl
  | cons a as ih =>
    simp only [exec, Option.bind_eq_some_iff] at h
    obtain ⟨s', h1, h2⟩ := h
    have := ih (fun i hi => hf i (by simp [hi])) s' h2
    rw [this, eventually_step A s s' a (fun i hi => hf i (by simp [hi])) h1]
    cases a with
    | recv e =>
      cases e with
      | config names =>
        simp only [received, List.getLast?_cons]
        cases (received as).getLast? <;> rfl
      | _ => rfl
    | _ => rfl

/-- **C74.** If the pool ran the configuration jobs in the order in which they were posted, the configuration in effect
at the end would be the last one received. -/
theorem C74_fifo_last_config (A : Analysis) (as : List Act) (hf : ∀ i, Act.begin i ∈ as → i = 0) (t : Threads.State)
    (h : exec A Threads.init as = some t) (hq : Quiet t) :
    t.srv.suppressed = updateSuppressed ((received as).getLast?.getD []) := by
  have := eventually_exec A as hf _ t h
  obtain ⟨-, h2, h3⟩ := hq
  have he : eventually t = t.srv.suppressed := by simp [eventually, h2, h3]
  rw [← he, this]
  cases (received as).getLast? with
  | none => rfl
  | some n => rfl

/-! ### One message at a time -/

theorem exec_append (A : Analysis) (s : Threads.State) (as bs : List Act) :
    exec A s (as ++ bs) = (exec A s as).bind fun t => exec A t bs := by
  induction as generalizing s with
  | nil => rfl
  | cons a as ih =>
    simp only [List.cons_append, exec]
    cases Threads.step A s a with
    | none => rfl
    | some s' => exact ih s'

theorem pub_open (A : Analysis) (s : Threads.State) (p : Pub) (tu : TU) (hi : s.input = .addOpen p tu) :
    exec A s (List.replicate (p.todo.length + 1) .input) =
      some { s with
        srv := send s.srv { p with todo := [], out := p.all s.srv.suppressed }, input := .wantInsert p.file tu } := by
  obtain ⟨file, version, src, todo, out⟩ := p
  induction todo generalizing s out with
  | nil => simp [exec, Threads.step, inputStep, hi, Pub.next, Pub.all, buildDiags, List.replicate, send, Pub.message]
  | cons d ds ih =>
    rw [List.length_cons, List.replicate_succ]
    by_cases hs : isSuppressed s.srv.suppressed d.kind = true
    · simp only [exec, Threads.step, inputStep, hi, Pub.next, hs, if_true, Option.bind_some]
      refine (ih { s with input := .addOpen ⟨file, version, src, ds, out⟩ tu } out rfl).trans ?_
      simp [Pub.all, buildDiags, hs]
    · simp only [exec, Threads.step, inputStep, hi, Pub.next, if_neg hs, Option.bind_some]
      refine (ih { s with input := .addOpen ⟨file, version, src, ds, _⟩ tu } _ rfl).trans ?_
      simp [Pub.all, buildDiags, hs]

theorem pub_locked (A : Analysis) (s : Threads.State) (p : Pub) (tu : TU) (hi : s.input = .addLocked p tu) :
    exec A s (List.replicate (p.todo.length + 1) .input) =
      some { s with
        srv := send s.srv { p with todo := [], out := p.all s.srv.suppressed }, input := .insertLocked p.file tu } := by
  obtain ⟨file, version, src, todo, out⟩ := p
  induction todo generalizing s out with
  | nil => simp [exec, Threads.step, inputStep, hi, Pub.next, Pub.all, buildDiags, List.replicate, send, Pub.message]
  | cons d ds ih =>
    rw [List.length_cons, List.replicate_succ]
    by_cases hs : isSuppressed s.srv.suppressed d.kind = true
    · simp only [exec, Threads.step, inputStep, hi, Pub.next, hs, if_true, Option.bind_some]
      refine (ih { s with input := .addLocked ⟨file, version, src, ds, out⟩ tu } out rfl).trans ?_
      simp [Pub.all, buildDiags, hs]
    · simp only [exec, Threads.step, inputStep, hi, Pub.next, if_neg hs, Option.bind_some]
      refine (ih { s with input := .addLocked ⟨file, version, src, ds, _⟩ tu } _ rfl).trans ?_
      simp [Pub.all, buildDiags, hs]

theorem add_alone (A : Analysis) (s : Threads.State) (hc : s.config.holds = false) (file version text) :
    ∃ n, exec A (beginAdd A s file version text) (List.replicate n .input) =
      some { s with srv := added A.analyse s.srv file (Draft.encodeVersion version) version text, input := .idle } := by
  by_cases hast : A.hasAst text = true
  · refine ⟨(A.analyse text).length + 1 + 1, ?_⟩
    rw [List.replicate_add, exec_append]
    have hst : (beginAdd A s file version text).input =
        .addOpen (Pub.start file version text (A.analyse text)) ⟨A.analyse text, text⟩ := by
      simp [beginAdd, hast]
    have hpub := pub_open A _ _ _ hst
    simp only [Pub.start] at hpub
    rw [hpub]
    simp [exec, Threads.step, inputStep, beginAdd, hc, insertTU, send, Pub.message, Pub.all, added, List.replicate]
  · refine ⟨1 + ((A.analyse text).length + 1) + 1, ?_⟩
    rw [List.replicate_add, exec_append, List.replicate_add, exec_append]
    have hst : (beginAdd A s file version text).input =
        .wantAdd (Pub.start file version text (A.analyse text)) ⟨A.analyse text, text⟩ := by
      simp [beginAdd, hast]
    have h1 : exec A (beginAdd A s file version text) (List.replicate 1 .input) =
        some { beginAdd A s file version text with
          input := .addLocked (Pub.start file version text (A.analyse text)) ⟨A.analyse text, text⟩ } := by
      have hh : (beginAdd A s file version text).config.holds = false := hc
      simp [exec, Threads.step, inputStep, hst, hh, List.replicate]
    rw [h1]
    simp only [Option.bind_some]
    have hpub := pub_locked A { beginAdd A s file version text with
          input := .addLocked (Pub.start file version text (A.analyse text)) ⟨A.analyse text, text⟩ } _ _ rfl
    simp only [Pub.start] at hpub
    simp only [Pub.start]
    rw [hpub]
    simp [exec, Threads.step, inputStep, beginAdd, insertTU, send, Pub.message, Pub.all, added, List.replicate]

theorem remove_alone (A : Analysis) (s : Threads.State) (hc : s.config.holds = false) (file) :
    ∃ n, exec A (beginRemove s file) (List.replicate n .input) =
      some { s with srv := removeDocument s.srv file, input := .idle } := by
  refine ⟨2, ?_⟩
  simp [exec, Threads.step, inputStep, beginRemove, hc, eraseTU, send, Pub.start, Pub.next, Pub.message, removeDocument,
    publishDiagnostics, buildDiags, List.replicate]

/-- **C74.** A message about a document, handled while no configuration job is in its loop, has the effect of one
atomic step of the sequential server (about which C05 and C41 are). -/
theorem C74_alone (A : Analysis) (s : Threads.State) (hi : s.input = .idle) (hc : s.config.holds = false)
    (e : Event) (he : ∀ names, e ≠ .config names) :
    ∃ n, exec A s (.recv e :: List.replicate n .input) =
      some { s with srv := Server.step A.analyse s.srv e, input := .idle } := by
  simp only [exec, Threads.step, hi, if_true, Option.bind_some]
  cases e with
  | didOpen file v x => rw [open_eq]; exact add_alone A s hc file v x
  | didChange file v cs =>
    rw [change_eq]
    simp only [receive, Draft.getDraft]
    cases s.srv.drafts file with
    | none => exact ⟨0, by simp [exec, ← hi]⟩
    | some d =>
      simp only
      cases applyChanges d.contents cs with
      | none => exact remove_alone A s hc file
      | some code => exact add_alone A s hc file v code
  | didClose file => exact remove_alone A s hc file
  | config names => exact absurd rfl (he names)

/-! ### Violations -/

/-- libnixf: the parser and, if there is a tree, the variable analysis (Support.cpp:30-45). -/
def nixf : Analysis where
  analyse src :=
    match parse src with
    | some (.null, st) => st.lex.diags
    | some (root, st) => st.lex.diags ++ (runVL [] 100000 root).diags
    | none => []
  hasAst src :=
    match parse src with
    | some (.null, _) => false
    | some _ => true
    | none => false

/-- The end of a schedule. -/
def atEnd (as : List Act) (c : Threads.State → Bool) : Bool :=
  match exec nixf Threads.init as with
  | some t => c t
  | none => false

theorem atEnd_iff {as : List Act} {c : Threads.State → Bool} (h : atEnd as c = true) :
    ∃ t, exec nixf Threads.init as = some t ∧ c t = true := by
  unfold atEnd at h
  split at h
  · exact ⟨_, by assumption, h⟩
  · cases h

instance (s : Threads.State) : Decidable (Quiet s) := inferInstanceAs (Decidable (_ ∧ _ ∧ _))

/-- What the client was told last, by kind. -/
def shownKinds (s : Threads.State) (f : Bytes) : Option (List Bytes) := (lastFor s.srv.log f).map (·.diags.map (·.code))

/-- Opening `a`, then changing the text to `1` while a new configuration is applied. -/
def staleSchedule : List Act :=
  [.recv (.didOpen b!"f" none b!"a"), .input, .input, .input, .recv (.config []),
   .recv (.didChange b!"f" none [⟨none, none, b!"1"⟩]), .input,
   .begin 0, .config, .config, .config, .config, .config, .config,
   .input]

/-- **C74**, violated: the diagnostics of a text without errors are published, but before the translation unit is
stored a configuration job republishes those of the old text. All work is done, and the client shows an error that the
document does not have. -/
theorem C74_stale_violated : ∃ t, exec nixf Threads.init staleSchedule = some t ∧ Quiet t ∧
    (t.srv.drafts b!"f").map (·.contents) = some b!"1" ∧ nixf.analyse b!"1" = [] ∧
    shownKinds t b!"f" = some [b!"sema-undefined-variable"] ∧ ¬ UpToDate nixf t := by
  obtain ⟨t, h1, h2⟩ := atEnd_iff (as := staleSchedule)
    (c := fun t => decide (Quiet t) && decide ((t.srv.drafts b!"f").map (·.contents) = some b!"1") &&
      decide (shownKinds t b!"f" = some [b!"sema-undefined-variable"])) (by decide +kernel)
  simp only [Bool.and_eq_true, decide_eq_true_eq] at h2
  have hd : nixf.analyse b!"1" = [] := by decide +kernel
  refine ⟨t, h1, h2.1.1, h2.1.2, hd, h2.2, ?_⟩
  intro hu
  obtain ⟨d, hdr, hco⟩ := Option.map_eq_some_iff.mp h2.1.2
  obtain ⟨v, hv⟩ := (hu b!"f").1 d hdr
  have h3 := h2.2
  rw [hco, hd] at hv
  simp [shownKinds, hv, buildDiags] at h3

/-- The configuration arrives before the document; its job runs after the kinds of the diagnostics have been looked
up. -/
def unsuppressedSchedule : List Act :=
  [.recv (.config [b!"sema-undefined-variable"]), .recv (.didOpen b!"f" none b!"a"), .input,
   .begin 0, .config, .config, .config, .input, .input]

/-- **C74**, violated: the only configuration ever received suppresses a kind, all work is done, and the client shows
a diagnostic of this kind. -/
theorem C74_suppressed_violated : ∃ t, exec nixf Threads.init unsuppressedSchedule = some t ∧ Quiet t ∧
    t.srv.suppressed = [.undefinedVariable] ∧ shownKinds t b!"f" = some [b!"sema-undefined-variable"] := by
  obtain ⟨t, h1, h2⟩ := atEnd_iff (as := unsuppressedSchedule)
    (c := fun t => decide (Quiet t) && decide (t.srv.suppressed = [.undefinedVariable]) &&
      decide (shownKinds t b!"f" = some [b!"sema-undefined-variable"])) (by decide +kernel)
  simp only [Bool.and_eq_true, decide_eq_true_eq] at h2
  exact ⟨t, h1, h2.1.1, h2.1.2, h2.2⟩

/-- **C74**, violated: of two configurations the first one stays in effect, since its job got `ConfigLock` last. -/
theorem C74_config_order_violated : ∃ as t, exec nixf Threads.init as = some t ∧ Quiet t ∧
    received as = [[], [b!"sema-undefined-variable"]] ∧ t.srv.suppressed = [] := by
  obtain ⟨t, h1, h2⟩ := atEnd_iff
    (as := [.recv (.config []), .recv (.config [b!"sema-undefined-variable"]),
      .begin 1, .config, .config, .config, .begin 0, .config, .config, .config])
    (c := fun t => decide (Quiet t) && decide (t.srv.suppressed = [])) (by decide +kernel)
  simp only [Bool.and_eq_true, decide_eq_true_eq] at h2
  exact ⟨_, t, h1, h2.1, by decide, h2.2⟩

/-! ### The hypotheses can be met -/

theorem reach_apart {A : Analysis} {s t : Threads.State} (as : List Act)
    (h : exec A s as = some t)
    (hap : ∀ n u, exec A s (as.take n) = some u → Apart u) : Reach A Apart s t := by
  induction as using List.reverseRecOn generalizing t with
  | nil => simp only [exec, Option.some.injEq] at h; subst h; exact .refl
  | append_singleton as a ih =>
    rw [exec_append] at h
    simp only [Option.bind_eq_some_iff, exec] at h
    obtain ⟨u, h1, u', h2, h3⟩ := h
    cases h3
    refine .step a (ih h1 ?_) h2 ?_
    · intro n w hw
      by_cases hn : n ≤ as.length
      · refine hap n w ?_
        rw [List.take_append_of_le_length hn]; exact hw
      · refine hap as.length w ?_
        rw [List.take_append_of_le_length (Nat.le_refl _), List.take_length]
        rwa [List.take_of_length_le (by omega)] at hw
    · refine hap (as.length + 1) t ?_
      rw [List.take_of_length_le (by simp), exec_append, h1]
      simp [exec, h2]

/-- A document is opened, a configuration is applied, the document is changed; the client is up to date. -/
example : atEnd [.recv (.didOpen b!"f" none b!"a"), .input, .input, .input,
      .recv (.config [b!"sema-undefined-variable"]), .begin 0, .config, .config, .config, .config, .config, .config,
      .recv (.didChange b!"f" none [⟨none, none, b!")"⟩]), .input, .input, .input, .input]
    (fun t => decide (Quiet t) && decide (shownKinds t b!"f" = some [b!"parse-unexpected"])) = true := by
  decide +kernel

/-- A schedule with a configuration job whose parts overlap the handling of a message, without overlap of the two
critical parts. -/
example : ∃ t, Reach nixf Apart Threads.init t ∧ t.input = .idle ∧ t.config = .none ∧
    shownKinds t b!"f" = some [] := by
  let as : List Act := [.recv (.config [b!"sema-undefined-variable"]), .recv (.didOpen b!"f" none b!"a"), .input,
   .begin 0, .config, .input, .input, .config, .config, .config, .config, .config]
  obtain ⟨t, h1, h2⟩ := atEnd_iff (as := as)
    (c := fun t => decide (t.input = .idle) && decide (t.config = .none) && decide (shownKinds t b!"f" = some []))
    (by decide +kernel)
  simp only [Bool.and_eq_true, decide_eq_true_eq] at h2
  refine ⟨t, reach_apart as h1 ?_, h2.1.1, h2.1.2, h2.2⟩
  have key : ∀ n ≤ as.length, (match exec nixf Threads.init (as.take n) with
      | some u => !((match u.input with | .addOpen .. | .wantInsert .. => true | _ => false) && u.config.holds)
      | none => true) = true := by decide +kernel
  intro n u hu
  have hk : ∀ m ≤ as.length, exec nixf Threads.init (as.take m) = some u → Apart u := by
    intro m hm hu
    have := key m hm
    rw [hu] at this
    rintro ⟨h3, h4⟩
    simp only [h4, Bool.and_true, Bool.not_eq_true'] at this
    unfold Input.exposed at h3
    split at h3
    · simp_all
    · simp_all
    · exact h3
  rcases Nat.le_total n as.length with h | h
  · exact hk n h hu
  · refine hk as.length (Nat.le_refl _) ?_
    rw [List.take_of_length_le h] at hu
    rw [List.take_of_length_le (Nat.le_refl _)]
    exact hu

end Verif.Props
