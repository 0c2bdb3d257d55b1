import Verif.Model.Session
import Verif.Props.Rpc
import Mathlib.Data.List.Infix

/-
**C85**: sessions, and **C86**: progress.
-/
namespace Verif.Props

open Rpc JsonRpc Session

/-! ### C85 -/

/-- The requests a client may send because of a capability (Language Server Protocol 3.17). -/
def capMethods : Cap → List Bytes
  | .textDocumentSync .. => []
  | .codeAction r => b!"textDocument/codeAction" :: if r then [b!"codeAction/resolve"] else []
  | .definition => [b!"textDocument/definition"]
  | .documentLink r => b!"textDocument/documentLink" :: if r then [b!"documentLink/resolve"] else []
  | .documentSymbol => [b!"textDocument/documentSymbol"]
  | .foldingRange => [b!"textDocument/foldingRange"]
  | .inlayHint r => b!"textDocument/inlayHint" :: if r then [b!"inlayHint/resolve"] else []
  | .completion r => b!"textDocument/completion" :: if r then [b!"completionItem/resolve"] else []
  | .references => [b!"textDocument/references"]
  | .documentHighlight => [b!"textDocument/documentHighlight"]
  | .hover => [b!"textDocument/hover"]
  | .formatting => [b!"textDocument/formatting"]
  | .rename p => b!"textDocument/rename" :: if p then [b!"textDocument/prepareRename"] else []
  | .semanticTokens r f => (if r then [b!"textDocument/semanticTokens/range"] else []) ++
      if f then [b!"textDocument/semanticTokens/full"] else []

/-- The requests every client may send. -/
def lifeMethods : List Bytes := [b!"initialize", b!"shutdown"]

/-- A message of a client that keeps to the protocol and to what the server has announced. -/
def Polite (semantic : Bool) (m : Json) : Prop :=
  (∃ method params, IsNotification m method params ∧ method ≠ b!"exit") ∨
  (∃ id method params, IsRequest m id method params ∧
    (method ∈ lifeMethods ∨ ∃ c ∈ capabilities semantic, method ∈ capMethods c)) ∨
  (∃ id r i, IsResponse m id r ∧ id.asInteger = some i ∧ i < 2 ^ 31)

/-- What is announced is served. -/
theorem C85_announced (semantic : Bool) (c : Cap) (hc : c ∈ capabilities semantic) (m : Bytes) (hm : m ∈ capMethods c) :
    m ∈ registry.methods := by
  revert m
  have : ∀ s, ∀ c ∈ capabilities s, ∀ m ∈ capMethods c, m ∈ registry.methods := by decide
  exact this semantic c hc

/-- A message that leaves the session running is one of those of `Polite`, and the other way round if the method is
registered. -/
theorem polite_runs {semantic : Bool} {s : State} {m : Json} (hs : s.status = .running) (hm : Polite semantic m) :
    (step registry s (.recv m)).status = .running := by
  rcases hm with ⟨method, params, h1, h2⟩ | ⟨id, method, params, h1, h2⟩ | ⟨id, r, i, h1, h2, h3⟩
  · by_cases hr : method ∈ registry.notifications
    · rw [(C10_notification registry s m method params hs h1).2.1 h2 hr]; exact hs
    · rw [(C10_notification registry s m method params hs h1).2.2 h2 hr]; exact hs
  · have hr : method ∈ registry.methods := by
      rcases h2 with h2 | ⟨c, hc, h2⟩
      · have : ∀ m ∈ lifeMethods, m ∈ registry.methods := by decide
        exact this _ h2
      · exact C85_announced semantic c hc _ h2
    rw [C10_request registry s m id method params hs h1 hr]; exact hs
  · exact (C10_response_continues registry s m id r i hs h1 h2 h3).1

theorem dispatch_top (reg : Registry) (s : State) (m : Json) : (dispatch reg s m).topID = s.topID := by
  have hr : ∀ id r, (onReply s id r).topID = s.topID := by
    intro id r; unfold onReply; split
    · rfl
    · split
      · rfl
      · simp only; split <;> rfl
  unfold dispatch
  split
  · rfl
  · simp only
    split
    · split
      · rfl
      · split <;> exact hr _ _
    · split
      · unfold onCall; split <;> rfl
      · unfold onNotify; split
        · rfl
        · split <;> rfl

/-- **C85**: a client that keeps to the protocol and to what the server has announced can go on as long as it wants: the
server does not end the session, whatever it asks the client and whenever it replies. -/
theorem C85_continues (semantic : Bool) (es : List Event) (hm : ∀ m, .recv m ∈ es → Polite semantic m)
    (hn : (askedTokens es).length < 2 ^ 31 - 2) :
    (run registry init es).status = .running := by
  have key : ∀ es, (∀ m, .recv m ∈ es → Polite semantic m) → (askedTokens es).length < 2 ^ 31 - 2 →
      (run registry init es).status = .running ∧ (run registry init es).topID = 1 + (askedTokens es).length := by
    intro es
    induction es using List.reverseRecOn with
    | nil => intro _ _; exact ⟨rfl, rfl⟩
    | append_singleton es e ih =>
      intro hm hn
      rw [askedTokens_append, List.length_append] at hn
      obtain ⟨h1, h2⟩ := ih (fun m h => hm m (List.mem_append_left _ h)) (by omega)
      rw [run_snoc, askedTokens_append, List.length_append]
      generalize run registry init es = s at h1 h2
      cases e with
      | recv m =>
        refine ⟨polite_runs h1 (hm m (by simp)), ?_⟩
        unfold step; rw [h1]; simp only [askedTokens, List.length_nil]
        rw [dispatch_top, h2]; simp
      | call t =>
        unfold step; rw [h1]; simp only [askedTokens, List.length_cons, List.length_nil] at hn ⊢
        unfold callMethod
        rw [if_neg (by rw [h2, intMax]; omega)]
        simp only
        split
        · split <;> exact ⟨h1, by simp only [h2]; push_cast; omega⟩
        · exact ⟨h1, by simp only [h2]; push_cast; omega⟩
      | respond n r =>
        unfold step; rw [h1]; simp only [askedTokens, List.length_nil]
        unfold respond
        split <;> exact ⟨h1, by simp [h2]⟩
  exact (key es hm hn).1

/-- **C85**, violated: the server announces that it wants to know about saved documents, and ignores what it is told. -/
theorem C85_save_violated (semantic : Bool) (s : State) (m params : Json) (hs : s.status = .running)
    (h : IsNotification m b!"textDocument/didSave" params) :
    .textDocumentSync true true true ∈ capabilities semantic ∧ step registry s (.recv m) = s :=
  ⟨by cases semantic <;> decide, (C10_notification registry s m _ params hs h).2.2 (by decide) (by decide)⟩

/-- A request to shut down was received. -/
def ShutDown (es : List Event) : Prop := ∃ m id params, .recv m ∈ es ∧ IsRequest m id b!"shutdown" params

/-- **C85**: the notification `exit` ends the process, and nothing is read afterwards. -/
theorem C85_exit (s : State) (m params : Json) (hs : s.status = .running) (h : IsNotification m b!"exit" params)
    (es : List Event) (he : ∀ e ∈ es, ∃ m, e = .recv m) :
    exitCode (step registry s (.recv m)) = some 0 ∧ (run registry (step registry s (.recv m)) es).log = s.log := by
  rw [(C10_notification registry s m _ params hs h).1 rfl]
  refine ⟨rfl, ?_⟩
  induction es using List.reverseRecOn with
  | nil => rfl
  | append_singleton es e ih =>
    obtain ⟨m', rfl⟩ := he e (by simp)
    have hst : ∀ es : List Event, (∀ e ∈ es, ∃ m, e = .recv m) →
        run registry { s with status := .stopped } es = { s with status := .stopped } := by
      intro es
      induction es with
      | nil => intro _; rfl
      | cons e es ih =>
        intro h
        obtain ⟨m, rfl⟩ := h e (by simp)
        simp only [run, List.foldl_cons]
        exact ih fun e he => h e (by simp [he])
    rw [hst _ he]

/-- **C85**, violated: the exit code is 0 in every session that ends, also if the client has not asked the server to shut
down before, where it is to be 1. -/
theorem C85_exit_code_violated : (∀ s c, exitCode s = some c → c = 0) ∧
    ∃ es, ¬ShutDown es ∧ exitCode (run registry init es) = some 0 := by
  refine ⟨fun s c h => ?_, [.recv (.obj [(b!"jsonrpc", .str b!"2.0"), (b!"method", .str b!"exit")])], ?_, rfl⟩
  · unfold exitCode at h
    split at h <;> simp_all
  · rintro ⟨m, id, params, hm, h⟩
    simp only [List.mem_cons, List.not_mem_nil, or_false, Event.recv.injEq] at hm
    subst hm
    cases h with
    | mk _ _ _ h1 h2 h3 => exact (by simp [List.lookup] at h3 : False)

/-- **C85**, violated: a request is served whatever was received before, also before `initialize` and after `shutdown`,
where it is to be refused with an error. -/
theorem C85_order_violated (s : State) (m id : Json) (method : Bytes) (params : Json) (hs : s.status = .running)
    (h : IsRequest m id method params) (hm : method ∈ registry.methods) :
    (step registry s (.recv m)).log = s.log ++ [.invoked s.closures.length method params] := by
  rw [C10_request registry s m id method params hs h hm]

/-! ### C86 -/

/-- The evaluations whose progress was begun. -/
def begun : List Msg → List Nat
  | [] => []
  | .begin n _ :: l => n :: begun l
  | _ :: l => begun l

/-- The evaluations whose progress was ended. -/
def finished : List Msg → List Nat
  | [] => []
  | .end_ n _ :: l => n :: finished l
  | _ :: l => finished l

theorem finished_append (a b : List Msg) : finished (a ++ b) = finished a ++ finished b := by
  induction a with
  | nil => rfl
  | cons x a ih => cases x <;> simp [finished, ih]

theorem begun_append (a b : List Msg) : begun (a ++ b) = begun a ++ begun b := by
  induction a with
  | nil => rfl
  | cons x a ih => cases x <;> simp [begun, ih]

theorem finished_ended (ts : List Nat) (l : List Effect) : finished (ended ts l) = completed l := by
  induction l with
  | nil => rfl
  | cons x l ih => cases x <;> simp [ended, finished, completed, ih]

theorem begun_ended (ts : List Nat) (l : List Effect) : begun (ended ts l) = [] := by
  induction l with
  | nil => rfl
  | cons x l ih => cases x <;> simp [ended, begun, ih]

theorem mem_ended {ts : List Nat} {l : List Effect} {x : Msg} (h : x ∈ ended ts l) :
    ∃ n ∈ completed l, x = .end_ n (ts.getD n 0) := by
  induction l with
  | nil => cases h
  | cons y l ih =>
    cases y with
    | complete n c =>
      rcases List.mem_cons.mp h with rfl | h
      · exact ⟨n, by simp [completed], rfl⟩
      · obtain ⟨k, h1, h2⟩ := ih h
        exact ⟨k, by simp [completed, h1], h2⟩
    | _ => exact ih h

theorem step_prefix (reg : Registry) (s : State) (e : Event) : s.log <+: (step reg s e).log := by
  have hr : ∀ id r, s.log <+: (onReply s id r).log := by
    intro id r; unfold onReply; split
    · exact List.prefix_refl _
    · split
      · exact List.prefix_refl _
      · simp only; split
        · exact List.prefix_refl _
        · exact List.prefix_append _ _
  have hc : ∀ t, s.log <+: (callMethod s t).log := by
    intro t; unfold callMethod; split
    · exact List.prefix_refl _
    · simp only; split
      · split
        · exact List.prefix_append _ _
        · simp only [List.append_assoc]; exact List.prefix_append _ _
      · exact List.prefix_append _ _
  have hd : ∀ m, s.log <+: (dispatch reg s m).log := by
    intro m; unfold dispatch; split
    · exact List.prefix_refl _
    · simp only; split
      · split
        · exact List.prefix_refl _
        · split <;> exact hr _ _
      · split
        · unfold onCall; split
          · exact List.prefix_append _ _
          · exact List.prefix_refl _
        · unfold onNotify; split
          · exact List.prefix_refl _
          · split
            · exact List.prefix_append _ _
            · exact List.prefix_refl _
  have hp : ∀ n r, s.log <+: (respond s n r).log := by
    intro n r; unfold respond; split
    · exact List.prefix_refl _
    · exact List.prefix_append _ _
  unfold step
  split
  · exact List.prefix_refl _
  · split
    · exact List.prefix_refl _
    · exact hc _
    · exact hp _ _
  · split
    · exact hd _
    · exact hc _
    · exact hp _ _

/-- The events of the connection with the worker; evaluations are numbered from `k`. -/
def workerEvents (k : Nat) : List Happens → List Event
  | [] => []
  | .eval _ :: hs => .call k :: workerEvents (k + 1) hs
  | .recv m :: hs => .recv m :: workerEvents k hs

/-- The tokens of the evaluations. -/
def evalTokens : List Happens → List Nat
  | [] => []
  | .eval t :: hs => t :: evalTokens hs
  | .recv _ :: hs => evalTokens hs

theorem workerEvents_append : ∀ (a b : List Happens) (k : Nat),
    workerEvents k (a ++ b) = workerEvents k a ++ workerEvents (k + (evalTokens a).length) b
  | [], b, k => by simp [workerEvents, evalTokens]
  | .eval t :: a, b, k => by
    simp only [List.cons_append, workerEvents, evalTokens, List.length_cons, workerEvents_append a b]
    rw [show k + 1 + (evalTokens a).length = k + ((evalTokens a).length + 1) by omega]
  | .recv m :: a, b, k => by simp [workerEvents, evalTokens, workerEvents_append a b]

theorem evalTokens_append (a b : List Happens) : evalTokens (a ++ b) = evalTokens a ++ evalTokens b := by
  induction a with
  | nil => rfl
  | cons x a ih => cases x <;> simp [evalTokens, ih]

theorem asked_events : ∀ (hs : List Happens) (k : Nat),
    askedTokens (workerEvents k hs) = List.range' k (evalTokens hs).length
  | [], k => rfl
  | .eval t :: hs, k => by
    simp only [workerEvents, askedTokens, evalTokens, List.length_cons, List.range'_succ, asked_events hs (k + 1)]
  | .recv m :: hs, k => by simp only [workerEvents, askedTokens, evalTokens, asked_events hs k]

/-- The order of the messages. -/
def Ordered (l : List Msg) : Prop := ∀ a b n t, l = a ++ .end_ n t :: b → .begin n t ∈ a

theorem Ordered.append {l m : List Msg} (h : Ordered l) (hm : ∀ n t, .end_ n t ∈ m → .begin n t ∈ l) : Ordered (l ++ m) := by
  intro a b n t e
  rcases List.append_eq_append_iff.mp e with ⟨c, rfl, h2⟩ | ⟨c, rfl, h2⟩
  · exact List.mem_append_left _ (hm n t (by rw [h2]; simp))
  · cases c with
    | nil =>
      rw [List.nil_append] at h2
      rw [List.append_nil] at hm
      exact hm n t (by rw [← h2]; simp)
    | cons x c =>
      simp only [List.cons_append, List.cons.injEq] at h2
      obtain ⟨rfl, -⟩ := h2
      exact h a c n t rfl

theorem progress_snoc (caps : Bool) (s : Progress) (hs : List Happens) (h : Happens) :
    s.run caps (hs ++ [h]) = (s.run caps hs).step caps h := by simp [Progress.run]

/-- What is known after every history. -/
structure ProgressInv (hs : List Happens) (s : Progress) : Prop where
  worker : s.worker = Rpc.run ⟨[], []⟩ Rpc.init (workerEvents 0 hs)
  tokens : s.tokens = evalTokens hs
  begun : begun s.sent = List.range' 0 (evalTokens hs).length
  finished : finished s.sent = completed s.worker.log
  has : ∀ n t, s.tokens[n]? = some t → .begin n t ∈ s.sent
  ordered : Ordered s.sent

theorem completed_lt (hs : List Happens) (n : Nat)
    (h : n ∈ completed (Rpc.run ⟨[], []⟩ Rpc.init (workerEvents 0 hs)).log) : n < (evalTokens hs).length := by
  have hnd : (askedTokens (workerEvents 0 hs)).Nodup := by rw [asked_events]; exact List.nodup_range'
  obtain ⟨-, h2, -⟩ := C09_exactly_once ⟨[], []⟩ (workerEvents 0 hs) hnd
  have h3 := (issued_sublist ⟨[], []⟩ (workerEvents 0 hs)).subset ((h2 n).mpr (.inr h))
  rw [asked_events, List.mem_range'_1] at h3
  omega

theorem progress_inv (hs : List Happens) : ProgressInv hs (Progress.init.run true hs) := by
  induction hs using List.reverseRecOn with
  | nil => exact ⟨rfl, rfl, rfl, rfl, fun n t h => by simp [Progress.run, Progress.init] at h,
      fun a b n t e => by simp [Progress.run, Progress.init] at e⟩
  | append_singleton hs e ih =>
    rw [progress_snoc]
    generalize Progress.init.run true hs = s at ih
    obtain ⟨i1, i2, i3, i4, i5, i6⟩ := ih
    have hlen : ∀ e, completed s.worker.log ++ completed ((Rpc.step ⟨[], []⟩ s.worker e).log.drop s.worker.log.length) =
        completed (Rpc.step ⟨[], []⟩ s.worker e).log := fun e => by
      obtain ⟨l, hl⟩ := step_prefix ⟨[], []⟩ s.worker e
      rw [← hl, List.drop_left, completed_append]
    cases e with
    | eval tok =>
      have hw : Rpc.step ⟨[], []⟩ s.worker (.call s.tokens.length) =
          Rpc.run ⟨[], []⟩ Rpc.init (workerEvents 0 (hs ++ [.eval tok])) := by
        rw [workerEvents_append, Nat.zero_add, ← i2, workerEvents, workerEvents, run_snoc, ← i1]
      simp only [Progress.step, if_true]
      have hb : ∀ n t, (s.tokens ++ [tok])[n]? = some t →
          .begin n t ∈ s.sent ++ [.create s.tokens.length tok, .begin s.tokens.length tok] := by
        intro n t h
        rw [List.getElem?_append] at h
        split at h
        · exact List.mem_append_left _ (i5 n t h)
        · next hn =>
          have : n - s.tokens.length = 0 := by
            by_contra hne
            rw [List.getElem?_eq_none (by simp; omega)] at h
            cases h
          rw [this] at h
          simp only [List.getElem?_cons_zero, Option.some.injEq] at h
          have : n = s.tokens.length := by omega
          subst this; subst h
          simp
      refine ⟨hw, by simp [i2, evalTokens_append, evalTokens], ?_, ?_, ?_, ?_⟩
      · simp only [begun_append, begun_ended, i3, evalTokens_append, evalTokens, List.length_append, List.length_cons,
          List.length_nil, begun, List.append_nil]
        rw [i2, List.range'_append_1 |>.symm]
        simp
      · simp only [finished_append, finished_ended, finished, List.nil_append]
        rw [i4, hlen]
      · intro n t h
        rw [← List.append_assoc]
        exact List.mem_append_left _ (hb n t h)
      · rw [← List.append_assoc]
        refine Ordered.append (i6.append fun n t h => by simp at h) fun n t h => ?_
        obtain ⟨k, hk, e⟩ := mem_ended h
        cases e
        refine hb n _ ?_
        have : n ∈ completed (Rpc.step ⟨[], []⟩ s.worker (.call s.tokens.length)).log := by
          rw [← hlen]; exact List.mem_append_right _ hk
        rw [hw] at this
        have := completed_lt _ _ this
        rw [evalTokens_append, List.length_append, ← i2] at this
        have h4 : n < (s.tokens ++ [tok]).length := by simpa [evalTokens] using this
        rw [List.getElem?_eq_getElem h4, List.getD_eq_getElem?_getD, List.getElem?_eq_getElem h4, Option.getD_some]
    | recv m =>
      have hw : Rpc.step ⟨[], []⟩ s.worker (.recv m) =
          Rpc.run ⟨[], []⟩ Rpc.init (workerEvents 0 (hs ++ [.recv m])) := by
        rw [workerEvents_append, workerEvents, workerEvents, run_snoc, ← i1]
      simp only [Progress.step, if_true]
      refine ⟨hw, by simp [i2, evalTokens_append, evalTokens], ?_, ?_, ?_, ?_⟩
      · simp [begun_append, begun_ended, i3, evalTokens_append, evalTokens]
      · simp only [finished_append, finished_ended]
        rw [i4, hlen]
      · exact fun n t h => List.mem_append_left _ (i5 n t h)
      · refine i6.append fun n t h => ?_
        obtain ⟨k, hk, e⟩ := mem_ended h
        cases e
        refine i5 n _ ?_
        have : n ∈ completed (Rpc.step ⟨[], []⟩ s.worker (.recv m)).log := by
          rw [← hlen]; exact List.mem_append_right _ hk
        rw [hw] at this
        have := completed_lt _ _ this
        have h4 : n < s.tokens.length := by simpa [evalTokens_append, evalTokens, i2] using this
        rw [List.getElem?_eq_getElem h4, List.getD_eq_getElem?_getD, List.getElem?_eq_getElem h4, Option.getD_some]

/-- **C86**: whatever the worker sends, every evaluation has one beginning, at most one end, the end comes after the beginning
and with the same token, and it is sent exactly if the worker has answered or the call was forgotten. -/
theorem C86_paired (hs : List Happens) :
    let s := Progress.init.run true hs
    begun s.sent = List.range' 0 (evalTokens hs).length ∧ (finished s.sent).Nodup ∧ Ordered s.sent ∧
    (∀ n, n ∈ finished s.sent ↔ ∃ c, .complete n c ∈ (Rpc.run ⟨[], []⟩ Rpc.init (workerEvents 0 hs)).log) ∧
    (∀ n, n < (evalTokens hs).length → .begin n ((evalTokens hs).getD n 0) ∈ s.sent) := by
  intro s
  obtain ⟨i1, i2, i3, i4, i5, i6⟩ := progress_inv hs
  have hnd : (askedTokens (workerEvents 0 hs)).Nodup := by rw [asked_events]; exact List.nodup_range'
  refine ⟨i3, ?_, i6, fun n => ?_, fun n hn => i5 n _ ?_⟩
  · rw [i4, i1]; exact (C09_exactly_once ⟨[], []⟩ (workerEvents 0 hs) hnd).1
  · rw [i4, i1]
    generalize (Rpc.run ⟨[], []⟩ Rpc.init (workerEvents 0 hs)).log = l
    induction l with
    | nil => simp [completed]
    | cons x l ih =>
      cases x with
      | complete k c =>
        simp only [completed, List.mem_cons, ih, Effect.complete.injEq]
        constructor
        · rintro (rfl | ⟨c', h⟩)
          · exact ⟨c, .inl ⟨rfl, rfl⟩⟩
          · exact ⟨c', .inr h⟩
        · rintro ⟨c', ⟨rfl, _⟩ | h⟩
          · exact .inl rfl
          · exact .inr ⟨c', h⟩
      | _ => simp [completed, ih]
  · rw [i2, List.getElem?_eq_getElem hn, List.getD_eq_getElem?_getD, List.getElem?_eq_getElem hn, Option.getD_some]

/-- **C86**: a client that does not know progress gets no message about it. -/
theorem C86_unknown (hs : List Happens) : (Progress.init.run false hs).sent = [] := by
  induction hs using List.reverseRecOn with
  | nil => rfl
  | append_singleton hs e ih => rw [progress_snoc]; cases e <;> simp [Progress.step, ih]

/-- **C86**: when the worker answers, the progress of this evaluation ends. -/
theorem C86_answered (hs : List Happens) (m idj : Json) (r : Result) (id : Int) (n : Nat)
    (hrun : (Progress.init.run true hs).worker.status = .running)
    (hp : (id, n) ∈ (Progress.init.run true hs).worker.pending) (hm : IsResponse m idj r) (hid : idj.asInteger = some id) :
    finished (Progress.init.run true (hs ++ [.recv m])).sent = finished (Progress.init.run true hs).sent ++ [n] := by
  have i := progress_inv hs
  have j := progress_inv (hs ++ [.recv m])
  rw [j.finished, i.finished, j.worker, i.worker]
  rw [i.worker] at hrun hp
  have := (C09_reply_completes ⟨[], []⟩ (workerEvents 0 hs) m idj r id n hrun hp hm hid).1
  rw [workerEvents_append, workerEvents, workerEvents, this, completed_append]
  rfl

/-- **C86**, violated: the beginning is sent right after the request to create the progress, before the client can have
answered, so also if it refuses. -/
theorem C86_create_violated (hs : List Happens) (tok : Nat) :
    let s := Progress.init.run true hs
    [.create s.tokens.length tok, .begin s.tokens.length tok] <:+: (s.step true (.eval tok)).sent := by
  intro s
  simp only [Progress.step, if_true]
  exact ⟨s.sent, _, by rw [List.append_assoc]⟩

/-- **C86**, violated: the tokens are random numbers that are not compared; if the same number comes twice, two evaluations
report their progress under one token at the same time. -/
theorem C86_token_violated (tok : Nat) : (Progress.init.run true [.eval tok, .eval tok]).sent =
    [.create 0 tok, .begin 0 tok, .create 1 tok, .begin 1 tok] := rfl

/-- The connection is closed: no message changes anything. -/
theorem C86_exited_violated (caps : Bool) (s : Progress) (hw : s.worker.status = .stopped) (ms : List Json) :
    s.run caps (ms.map .recv) = s := by
  induction ms with
  | nil => rfl
  | cons m ms ih =>
    have : s.step caps (.recv m) = s := by
      simp only [Progress.step, Rpc.step, hw, List.drop_length, ended]
      cases caps <;> simp
    simp only [List.map_cons, Progress.run, List.foldl_cons, this]
    exact ih

/-- The hypotheses of `C86_exited_violated` hold for a worker that sends something malformed while it evaluates: the
evaluation was begun and is not ended. -/
example : let s := Progress.init.run true [.eval 7, .recv .null]
    s.worker.status = .stopped ∧ begun s.sent = [0] ∧ finished s.sent = [] := ⟨rfl, rfl, rfl⟩

example : (Progress.init.run true [.eval 7, .eval 8, .recv (replyMsg 1)]).sent =
    [.create 0 7, .begin 0 7, .create 1 8, .begin 1 8, .end_ 0 7] := rfl

example : Polite false (.obj [(b!"jsonrpc", .str b!"2.0"), (b!"id", .num b!"1" (some 1)), (b!"method", .str b!"textDocument/hover")]) :=
  .inr (.inl ⟨_, _, _, .mk _ b!"textDocument/hover" _ (by rfl) (by rfl) (by rfl), .inr ⟨.hover, by decide, by decide⟩⟩)

example : IsNotification (.obj [(b!"jsonrpc", .str b!"2.0"), (b!"method", .str b!"textDocument/didSave")])
    b!"textDocument/didSave" .null := .mk _ _ (by rfl) (by rfl) (by rfl)

end Verif.Props
