import Verif.Lemmas.Rpc
import Verif.Spec.JsonRpc
/-
Properties C09 (pending requests) and C10 (routing of incoming messages).
-/
namespace Verif.Props
open Rpc JsonRpc

theorem getString_obj (fs : List (Bytes × Json)) (k s : Bytes) :
    (Json.obj fs).getString k = some s ↔ fs.lookup k = some (.str s) := by
  simp only [Json.getString, Json.get]
  split
  · rename_i t h; simp [h]
  · rename_i h
    constructor
    · intro h'; cases h'
    · intro h'; exact absurd h' (h s)

theorem getString_obj_none (fs : List (Bytes × Json)) (k : Bytes) :
    (Json.obj fs).getString k = none ↔ ∀ s, fs.lookup k ≠ some (.str s) := by
  rw [Option.eq_none_iff_forall_ne_some]
  exact forall_congr' fun s => not_congr (getString_obj fs k s)

/-- Dispatching a notification. -/
theorem dispatch_notification (reg : Registry) (s : State) (m : Json) (method : Bytes) (params : Json)
    (h : IsNotification m method params) : dispatch reg s m = onNotify reg s method params := by
  cases h with
  | mk fs method h1 h2 h3 =>
    unfold dispatch
    rw [if_neg (by rw [(getString_obj fs _ _).mpr h1]; simp), (getString_obj fs _ _).mpr h2]
    simp only [Json.get, h3]
    rfl

/-- Dispatching a request. -/
theorem dispatch_request (reg : Registry) (s : State) (m id : Json) (method : Bytes) (params : Json)
    (h : IsRequest m id method params) : dispatch reg s m = onCall reg s method params id := by
  cases h with
  | mk fs method id h1 h2 h3 =>
    unfold dispatch
    rw [if_neg (by rw [(getString_obj fs _ _).mpr h1]; simp), (getString_obj fs _ _).mpr h2]
    simp only [Json.get, h3]
    rfl

/-- Dispatching a response. -/
theorem dispatch_response (reg : Registry) (s : State) (m id : Json) (r : Result)
    (h : IsResponse m id r) : dispatch reg s m = onReply s id r := by
  cases h with
  | ok fs id h1 h2 h3 h4 =>
    unfold dispatch
    rw [if_neg (by rw [(getString_obj fs _ _).mpr h1]; simp), (getString_obj_none fs _).mpr h2]
    simp only [Json.get, h3]
    rfl
  | error fs id e msg code h1 h2 h3 h4 h5 h6 =>
    unfold dispatch
    rw [if_neg (by rw [(getString_obj fs _ _).mpr h1]; simp), (getString_obj_none fs _).mpr h2]
    simp only [Json.get, h3, h4]
    have : decodeError (.obj e) = ⟨msg, code⟩ := by
      unfold decodeError
      rcases h5 with ⟨m, hm, rfl⟩ | ⟨hm, rfl⟩
      · rw [(getString_obj e _ _).mpr hm, h6]; rfl
      · rw [(getString_obj_none e _).mpr hm, h6]; rfl
    rw [this]

/-- The classification is complete: any other message stops the loop. -/
theorem dispatch_malformed (reg : Registry) (s : State) (m : Json) (h : ¬ WellFormed m) :
    dispatch reg s m = { s with status := .stopped } := by
  unfold dispatch
  split
  · rfl
  · rename_i hj
    simp only [ne_eq, Decidable.not_not] at hj
    cases m with
    | obj fs =>
      have h1 := (getString_obj fs _ _).mp hj
      simp only
      split
      · rename_i hm
        have h2 := (getString_obj_none fs _).mp hm
        cases h3 : fs.lookup b!"id" with
        | none => simp only [Json.get, h3]
        | some id =>
          exfalso; apply h; right; right
          cases h4 : fs.lookup b!"error" with
          | none => exact ⟨id, _, .ok fs id h1 h2 h3 (by simp [h4])⟩
          | some e =>
            cases e with
            | obj e =>
              cases h5 : (Json.obj e).getString b!"message" with
              | none => exact ⟨id, _, .error fs id e _ _ h1 h2 h3 h4 (.inr ⟨(getString_obj_none e _).mp h5, rfl⟩) rfl⟩
              | some t => exact ⟨id, _, .error fs id e _ _ h1 h2 h3 h4 (.inl ⟨t, (getString_obj e _ _).mp h5, rfl⟩) rfl⟩
            | _ => exact ⟨id, _, .ok fs id h1 h2 h3 (by simp [h4])⟩
      · rename_i method hm
        have h2 := (getString_obj fs _ _).mp hm
        exfalso; apply h
        cases h3 : fs.lookup b!"id" with
        | none => exact .inl ⟨_, _, .mk fs method h1 h2 h3⟩
        | some id => exact .inr (.inl ⟨_, _, _, .mk fs method id h1 h2 h3⟩)
    | _ => cases hj

/-! ### C09 -/

/-- Tokens of the requests the server's code asks for in a history. -/
def askedTokens : List Event → List Nat
  | [] => []
  | .call t :: es => t :: askedTokens es
  | _ :: es => askedTokens es

theorem askedTokens_append (a b : List Event) : askedTokens (a ++ b) = askedTokens a ++ askedTokens b := by
  induction a with
  | nil => rfl
  | cons x a ih => cases x <;> simp [askedTokens, ih]

theorem issued_callMethod (s : State) (t : Nat) : issued (callMethod s t).log = issued s.log ++ [t] ∨
    issued (callMethod s t).log = issued s.log := by
  unfold callMethod
  split
  · exact .inr rfl
  · left
    simp only
    split
    · split <;> simp [issued_append, issued]
    · simp [issued_append, issued]

theorem issued_onReply (s : State) (id : Json) (r : Result) : issued (onReply s id r).log = issued s.log := by
  unfold onReply
  split
  · rfl
  · split
    · rfl
    · simp only; split
      · rfl
      · simp [issued_append, issued]

theorem issued_dispatch (reg : Registry) (s : State) (m : Json) : issued (dispatch reg s m).log = issued s.log := by
  unfold dispatch
  split
  · rfl
  · simp only
    split
    · split
      · rfl
      · split <;> exact issued_onReply _ _ _
    · split
      · unfold onCall; split <;> simp [issued_append, issued]
      · unfold onNotify; split
        · rfl
        · split <;> simp [issued_append, issued]

theorem issued_respond (s : State) (n : Nat) (r : Result) : issued (respond s n r).log = issued s.log := by
  unfold respond; split <;> simp [issued_append, issued]

theorem issued_sublist (reg : Registry) (es : List Event) :
    (issued (run reg init es).log).Sublist (askedTokens es) := by
  induction es using List.reverseRecOn with
  | nil => simp [run, init, issued]
  | append_singleton es e ih =>
    rw [run_snoc, askedTokens_append]
    have key : issued (step reg (run reg init es) e).log = issued (run reg init es).log ∨
        ∃ t, e = .call t ∧ issued (step reg (run reg init es) e).log = issued (run reg init es).log ++ [t] := by
      generalize run reg init es = s
      unfold step
      split
      · exact .inl rfl
      · split
        · exact .inl rfl
        · rename_i t; rcases issued_callMethod s t with h | h
          · exact .inr ⟨t, rfl, h⟩
          · exact .inl h
        · exact .inl (issued_respond _ _ _)
      · split
        · exact .inl (issued_dispatch _ _ _)
        · rename_i t; rcases issued_callMethod s t with h | h
          · exact .inr ⟨t, rfl, h⟩
          · exact .inl h
        · exact .inl (issued_respond _ _ _)
    rcases key with h | ⟨t, rfl, h⟩
    · rw [h]; exact ih.trans (List.sublist_append_left _ _)
    · rw [h]; exact ih.append (List.Sublist.refl _)

/-- **C09**, every completion runs at most once, and every issued request is either outstanding or completed:
outstanding and completed requests together are exactly the issued ones, without repetition. For every history whose
requests are told apart by their tokens. -/
theorem C09_exactly_once (reg : Registry) (es : List Event) (hnd : (askedTokens es).Nodup) :
    let s := run reg init es
    (completed s.log).Nodup ∧
      (∀ t, t ∈ issued s.log ↔ (t ∈ s.pending.map (·.2) ∨ t ∈ completed s.log)) ∧
      (∀ t, t ∈ s.pending.map (·.2) → t ∉ completed s.log) := by
  intro s
  have hi := inv_run reg es
  have hnd' : (issued s.log).Nodup := (issued_sublist reg es).nodup hnd
  have h2 := hi.account.nodup_iff.mp hnd'
  rw [List.nodup_append] at h2
  refine ⟨h2.2.1, ?_, ?_⟩
  · intro t; rw [hi.account.mem_iff, List.mem_append]
  · intro t ht hc; exact h2.2.2 t ht t hc rfl

/-- **C09**, at most 100 requests are outstanding, with distinct ids; all ids ever sent are distinct, and an
outstanding request is one that was sent with this id. -/
theorem C09_pending_bounded_distinct (reg : Registry) (es : List Event) :
    let s := run reg init es
    s.pending.length ≤ 100 ∧ (s.pending.map (·.1)).Nodup ∧ ((sent s.log).map (·.1)).Nodup ∧
      ∀ p ∈ s.pending, Effect.sendCall p.1 p.2 ∈ s.log := by
  intro s
  have hi := inv_run reg es
  have hn : ∀ l : List Int, l.Pairwise (· < ·) → l.Nodup := fun l h => h.imp (fun h => by omega)
  exact ⟨hi.bound, hn _ hi.sorted, hn _ hi.sentSorted, fun p hp => (mem_sent _ _ _).mp (hi.pendingSent p hp)⟩

theorem new_complete (reg : Registry) (s : State) (e : Event) (tok : Nat) (c : Completion)
    (h1 : Effect.complete tok c ∉ s.log) (h2 : Effect.complete tok c ∈ (step reg s e).log) :
    (∃ m id r i, e = .recv m ∧ s.status = .running ∧ IsResponse m id r ∧ id.asInteger = some i ∧ i ≤ intMax ∧
      s.pending.lookup (toInt32 i) = some tok ∧ c = .reply r) ∨
    (∃ t id, e = .call t ∧ c = .evicted id ∧
      ∃ rest, mapInsert s.topID t s.pending = (id, tok) :: rest ∧ 100 < (mapInsert s.topID t s.pending).length) := by
  have hcall : ∀ t, Effect.complete tok c ∈ (callMethod s t).log → ∃ id, c = .evicted id ∧
      ∃ rest, mapInsert s.topID t s.pending = (id, tok) :: rest ∧ 100 < (mapInsert s.topID t s.pending).length := by
    intro t h
    unfold callMethod at h
    split at h
    · exact absurd h h1
    · simp only at h
      split at h
      · rename_i hlen
        split at h
        · simp [h1] at h
        · rename_i id cb rest heq
          simp [h1] at h
          obtain ⟨rfl, rfl⟩ := h
          exact ⟨id, rfl, rest, heq, hlen⟩
      · simp [h1] at h
  have hresp : ∀ n r, Effect.complete tok c ∉ (respond s n r).log := by
    intro n r h; unfold respond at h; split at h
    · exact h1 h
    · simp [h1] at h
  unfold step at h2
  split at h2
  · exact absurd h2 h1
  · split at h2
    · exact absurd h2 h1
    · obtain ⟨id, h⟩ := hcall _ h2; exact .inr ⟨_, id, rfl, h⟩
    · exact absurd h2 (hresp _ _)
  · rename_i hs
    split at h2
    · rename_i m
      left
      by_cases hw : WellFormed m
      · rcases hw with ⟨method, params, hn⟩ | ⟨id, method, params, hq⟩ | ⟨id, r, hr⟩
        · rw [dispatch_notification _ _ _ _ _ hn] at h2
          exfalso; unfold onNotify at h2; split at h2
          · exact h1 h2
          · split at h2
            · simp [h1] at h2
            · exact h1 h2
        · rw [dispatch_request _ _ _ _ _ _ hq] at h2
          exfalso; unfold onCall at h2; split at h2
          · simp [h1] at h2
          · exact h1 h2
        · rw [dispatch_response _ _ _ _ _ hr] at h2
          unfold onReply at h2
          split at h2
          · exact absurd h2 h1
          · rename_i i hi
            split at h2
            · exact absurd h2 h1
            · rename_i hle
              simp only at h2
              split at h2
              · exact absurd h2 h1
              · rename_i cb hcb
                simp [h1] at h2
                obtain ⟨rfl, rfl⟩ := h2
                exact ⟨m, id, r, i, rfl, hs, hr, hi, by omega, hcb, rfl⟩
      · rw [dispatch_malformed _ _ _ hw] at h2; exact absurd h2 h1
    · obtain ⟨id, h⟩ := hcall _ h2; exact .inr ⟨_, id, rfl, h⟩
    · exact absurd h2 (hresp _ _)

theorem lookup_mem (l : List (Int × Nat)) (i : Int) (t : Nat) (h : l.lookup i = some t) : (i, t) ∈ l := by
  induction l with
  | nil => cases h
  | cons p l ih =>
    obtain ⟨k, v⟩ := p
    by_cases hk : i = k
    · subst hk; simp only [List.lookup_cons, beq_self_eq_true] at h; cases h; simp
    · have : (i == k) = false := by simpa using hk
      simp only [List.lookup_cons, this] at h
      exact List.mem_cons_of_mem _ (ih h)

theorem toInt32_small (i : Int) (h1 : -2 ^ 31 ≤ i) (h2 : i ≤ intMax) : toInt32 i = i := by
  unfold toInt32 intMax at *
  rw [Int.bmod_eq_iff (by decide)]
  omega

/-- **C09**, a completion with a reply gets the payload of a response message that carries the id under which this
very request was sent before. Partial: the id in the message is only compared modulo 2^32 when it is below -2^31,
see `C09_negative_id_violated`. -/
theorem C09_reply_matches_partial (reg : Registry) (es : List Event) (tok : Nat) (r : Result)
    (h : Effect.complete tok (.reply r) ∈ (run reg init es).log) :
    ∃ es1 m es2 id i, es = es1 ++ .recv m :: es2 ∧ IsResponse m id r ∧ id.asInteger = some i ∧
      Effect.sendCall (toInt32 i) tok ∈ (run reg init es1).log ∧
      (-2 ^ 31 ≤ i → Effect.sendCall i tok ∈ (run reg init es1).log) := by
  obtain ⟨es1, e, es2, h1, h2, h3⟩ := first_appearance reg es _ h
  rcases new_complete reg _ e tok _ h2 h3 with ⟨m, id, r', i, rfl, _, hr, hi, hle, hl, hc⟩ | ⟨t, id, rfl, hc, _⟩
  · cases hc
    have hs := (mem_sent _ _ _).mp ((inv_run reg es1).pendingSent _ (lookup_mem _ _ _ hl))
    exact ⟨es1, m, es2, id, i, h1, hr, hi, hs, fun hge => by rw [toInt32_small i hge hle] at hs; exact hs⟩
  · cases hc

/-- **C09**, the only other completion is the eviction error: it happens to the oldest outstanding request when 100
are outstanding and one more is issued. -/
theorem C09_eviction_of_oldest (reg : Registry) (es : List Event) (tok : Nat) (id : Int)
    (h : Effect.complete tok (.evicted id) ∈ (run reg init es).log) :
    ∃ es1 t es2 rest, es = es1 ++ .call t :: es2 ∧ (run reg init es1).pending = (id, tok) :: rest ∧
      rest.length = 99 ∧ (∀ p ∈ rest, id < p.1) := by
  obtain ⟨es1, e, es2, h1, h2, h3⟩ := first_appearance reg es _ h
  rcases new_complete reg _ e tok _ h2 h3 with ⟨m, id', r', i, rfl, _, hr, hi, hle, hl, hc⟩ | ⟨t, id', rfl, hc, rest, hm, hlen⟩
  · cases hc
  · cases hc
    have hi := inv_run reg es1
    rw [mapInsert_last _ _ _ (fun p hp => (hi.range p hp).2)] at hm hlen
    have hb := hi.bound
    simp at hlen
    cases hp : (run reg init es1).pending with
    | nil => rw [hp] at hlen; simp at hlen
    | cons x xs =>
      rw [hp] at hm
      simp only [List.cons_append, List.cons.injEq] at hm
      obtain ⟨rfl, -⟩ := hm
      refine ⟨es1, t, es2, xs, h1, hp, by rw [hp] at hlen hb; simp at hlen hb; omega, ?_⟩
      have hs := hi.sorted
      rw [hp] at hs
      simp only [List.map_cons, List.pairwise_cons] at hs
      exact fun p hp' => hs.1 _ (List.mem_map.mpr ⟨p, hp', rfl⟩)

/-- **C09**, a reply carrying the id of an outstanding request completes it with the payload, whatever else is
outstanding, and the request is outstanding no more. -/
theorem C09_reply_completes (reg : Registry) (es : List Event) (m idj : Json) (r : Result) (id : Int) (tok : Nat)
    (hrun : (run reg init es).status = .running) (hp : (id, tok) ∈ (run reg init es).pending)
    (hm : IsResponse m idj r) (hid : idj.asInteger = some id) :
    (run reg init (es ++ [.recv m])).log = (run reg init es).log ++ [.complete tok (.reply r)] ∧
      (∀ p ∈ (run reg init (es ++ [.recv m])).pending, p.1 ≠ id) ∧
      (run reg init (es ++ [.recv m])).status = .running := by
  have hi := inv_run reg es
  rw [run_snoc]
  generalize hS : run reg init es = s at *
  have hr := hi.range _ hp
  have hmax := hi.topMax
  simp only at hr
  have hle : id ≤ intMax := by omega
  have h32 : toInt32 id = id := toInt32_small id (by omega) hle
  have hl : s.pending.lookup id = some tok := by
    have hs := hi.sorted
    clear hmax hle h32 hr hi hS
    generalize s.pending = l at *
    induction l with
    | nil => cases hp
    | cons p l ih =>
      obtain ⟨k, v⟩ := p
      simp only [List.map_cons, List.pairwise_cons] at hs
      by_cases hk : id = k
      · subst hk
        simp only [List.lookup_cons, beq_self_eq_true]
        simp only [List.mem_cons, Prod.mk.injEq, true_and] at hp
        rcases hp with rfl | hp
        · rfl
        · have := hs.1 id (List.mem_map.mpr ⟨_, hp, rfl⟩); omega
      · have hk' : (id == k) = false := by simpa using hk
        simp only [List.lookup_cons, hk']
        simp only [List.mem_cons, Prod.mk.injEq] at hp
        rcases hp with ⟨h, -⟩ | hp
        · exact absurd h hk
        · exact ih hp hs.2
  unfold step
  rw [hrun]
  simp only
  rw [dispatch_response _ _ _ _ _ hm]
  unfold onReply
  rw [hid]
  simp only [show ¬ id > intMax by omega, if_false, h32, hl]
  refine ⟨trivial, ?_, hrun⟩
  intro p hp'
  simp only [List.mem_filter, decide_eq_true_eq] at hp'
  exact hp'.2

/-- A response message with a number id. -/
def replyMsg (i : Int) : Json :=
  .obj [(b!"jsonrpc", .str b!"2.0"), (b!"id", .num [] (some i)), (b!"result", .null)]

/-- **C09 violated**: a reply with id -4294967295 (which no request ever had) completes the request with id 1. -/
theorem C09_negative_id_violated (reg : Registry) :
    Effect.complete 7 (.reply (.ok .null)) ∈ (run reg init [.call 7, .recv (replyMsg (-4294967295))]).log ∧
      sent (run reg init [.call 7, .recv (replyMsg (-4294967295))]).log = [(1, 7)] := by
  refine ⟨?_, ?_⟩
  · have : (run reg init [.call 7, .recv (replyMsg (-4294967295))]).log
        = [.sendCall 1 7, .complete 7 (.reply (.ok .null))] := rfl
    rw [this]; simp
  · rfl

/-- A non-trivial history meeting the hypotheses: two requests, a duplicate and an unknown reply. -/
example (reg : Registry) :
    let es : List Event := [.call 5, .call 6, .recv (replyMsg 2), .recv (replyMsg 2), .recv (replyMsg 9)]
    (askedTokens es).Nodup ∧ (run reg init es).pending = [(1, 5)] ∧ completed (run reg init es).log = [6] ∧
      (run reg init es).status = .running := by
  refine ⟨by decide, rfl, rfl, rfl⟩

example : IsResponse (replyMsg 2) (.num [] (some 2)) (.ok .null) :=
  .ok _ _ (by rfl) (by intro s h; cases h) rfl (by intro e h; cases h)

/-! ### C10 -/

/-- **C10**, notifications: `exit` ends the session, a registered one runs exactly its handler with its parameters, an
unknown one is ignored. -/
theorem C10_notification (reg : Registry) (s : State) (m : Json) (method : Bytes) (params : Json)
    (hs : s.status = .running) (h : IsNotification m method params) :
    (method = b!"exit" → step reg s (.recv m) = { s with status := .stopped }) ∧
    (method ≠ b!"exit" → method ∈ reg.notifications →
      step reg s (.recv m) = { s with log := s.log ++ [.notified method params] }) ∧
    (method ≠ b!"exit" → method ∉ reg.notifications → step reg s (.recv m) = s) := by
  unfold step
  rw [hs]
  simp only
  rw [dispatch_notification _ _ _ _ _ h]
  refine ⟨?_, ?_, ?_⟩ <;> intros <;> simp_all [onNotify]

/-- **C10**, a request for a registered method runs exactly this method's handler with its parameters, with a fresh
reply closure holding the request's id, and the session goes on. -/
theorem C10_request (reg : Registry) (s : State) (m id : Json) (method : Bytes) (params : Json)
    (hs : s.status = .running) (h : IsRequest m id method params) (hm : method ∈ reg.methods) :
    step reg s (.recv m) =
      { s with closures := s.closures ++ [id], log := s.log ++ [.invoked s.closures.length method params] } := by
  unfold step
  rw [hs]
  simp only
  rw [dispatch_request _ _ _ _ _ _ h]
  simp [onCall, hm, hs]

/-- **C10 violated**: a request for a method that is not registered is never answered, and it ends the session. -/
theorem C10_unknown_request_violated (reg : Registry) (s : State) (m id : Json) (method : Bytes) (params : Json)
    (hs : s.status = .running) (h : IsRequest m id method params) (hm : method ∉ reg.methods) :
    step reg s (.recv m) = { s with status := .stopped } := by
  unfold step
  rw [hs]
  simp only
  rw [dispatch_request _ _ _ _ _ _ h]
  simp [onCall, hm]

example : ∃ m, IsRequest m (.num [] (some 1)) b!"textDocument/typeDefinition" .null :=
  ⟨.obj [(b!"jsonrpc", .str b!"2.0"), (b!"id", .num [] (some 1)), (b!"method", .str b!"textDocument/typeDefinition")],
    .mk _ _ _ rfl rfl rfl⟩

/-- **C10**, responses with an integer id up to `INT_MAX` keep the session running, and run no handler. -/
theorem C10_response_continues (reg : Registry) (s : State) (m id : Json) (r : Result) (i : Int)
    (hs : s.status = .running) (h : IsResponse m id r) (hi : id.asInteger = some i) (hle : i < 2 ^ 31) :
    (step reg s (.recv m)).status = .running ∧ (step reg s (.recv m)).closures = s.closures ∧
      ∃ l, (step reg s (.recv m)).log = s.log ++ l ∧ (∀ x ∈ l, ∃ tok, x = .complete tok (.reply r)) := by
  unfold step
  rw [hs]
  simp only
  rw [dispatch_response _ _ _ _ _ h]
  unfold onReply
  rw [hi]
  simp only
  rw [if_neg (by unfold intMax; omega)]
  split
  · exact ⟨hs, rfl, [], by simp, by simp⟩
  · rename_i cb _
    exact ⟨hs, rfl, _, rfl, by simp⟩

/-- **C10 violated**: a well-formed response whose id is a string (which JSON-RPC allows) makes the server throw. -/
theorem C10_string_id_response_violated (reg : Registry) (s : State) (m : Json) (t : Bytes) (r : Result)
    (hs : s.status = .running) (h : IsResponse m (.str t) r) : (step reg s (.recv m)).status = .crashed := by
  unfold step
  rw [hs]
  simp only
  rw [dispatch_response _ _ _ _ _ h]
  rfl

example : IsResponse (.obj [(b!"jsonrpc", .str b!"2.0"), (b!"id", .str b!"a")]) (.str b!"a") (.ok .null) :=
  .ok _ _ (by rfl) (by intro s h; cases h) rfl (by intro e h; cases h)

/-- **C10**, which messages end the session: malformed ones, the notification `exit`, requests for unknown methods, and
responses whose id is not an integer below 2^31. Every other message leaves it running. -/
theorem C10_session_end_partial (reg : Registry) (s : State) (m : Json) (hs : s.status = .running) :
    (step reg s (.recv m)).status ≠ .running ↔
      (¬ WellFormed m ∨ (∃ params, IsNotification m b!"exit" params) ∨
        (∃ id method params, IsRequest m id method params ∧ method ∉ reg.methods) ∨
        (∃ id r, IsResponse m id r ∧ ∀ i, id.asInteger = some i → 2 ^ 31 ≤ i)) := by
  constructor
  · intro h
    by_cases hw : WellFormed m
    · right
      rcases hw with ⟨method, params, hn⟩ | ⟨id, method, params, hq⟩ | ⟨id, r, hr⟩
      · left
        by_cases he : method = b!"exit"
        · subst he; exact ⟨params, hn⟩
        · exfalso; apply h
          by_cases hr : method ∈ reg.notifications
          · rw [(C10_notification reg s m method params hs hn).2.1 he hr]; exact hs
          · rw [(C10_notification reg s m method params hs hn).2.2 he hr]; exact hs
      · right; left
        refine ⟨id, method, params, hq, fun hm => h ?_⟩
        rw [C10_request reg s m id method params hs hq hm]; exact hs
      · right; right
        refine ⟨id, r, hr, fun i hi => ?_⟩
        by_contra hlt
        exact h (C10_response_continues reg s m id r i hs hr hi (by omega)).1
    · exact .inl hw
  · rintro (hw | ⟨params, hn⟩ | ⟨id, method, params, hq, hm⟩ | ⟨id, r, hr, hi⟩)
    · unfold step; rw [hs]; simp only; rw [dispatch_malformed _ _ _ hw]; simp
    · rw [(C10_notification reg s m _ params hs hn).1 rfl]; simp
    · rw [C10_unknown_request_violated reg s m id method params hs hq hm]; simp
    · unfold step; rw [hs]; simp only; rw [dispatch_response _ _ _ _ _ hr]
      unfold onReply
      cases hid : id.asInteger with
      | none => simp
      | some i => simp only; rw [if_pos (by have := hi i hid; unfold intMax; omega)]; simp

/-- How often the handler of request `n` answers in a history. -/
def answers (n : Nat) : List Event → Nat
  | [] => 0
  | .respond k _ :: es => (if k = n then 1 else 0) + answers n es
  | _ :: es => answers n es

/-- The replies sent for request `n`. -/
def replies (n : Nat) : List Effect → List Json
  | [] => []
  | .sendReply k id _ :: l => if k = n then id :: replies n l else replies n l
  | _ :: l => replies n l

theorem replies_append (n : Nat) (a b : List Effect) : replies n (a ++ b) = replies n a ++ replies n b := by
  induction a with
  | nil => rfl
  | cons x a ih =>
    cases x <;> simp only [List.cons_append, replies, ih]
    split <;> simp

theorem answers_append (n : Nat) (a b : List Event) : answers n (a ++ b) = answers n a + answers n b := by
  induction a with
  | nil => simp [answers]
  | cons x a ih => cases x <;> simp [answers, ih]; omega

/-- Steps other than answering change no reply and no existing closure. -/
theorem step_other (reg : Registry) (s : State) (e : Event) (n : Nat) (he : ∀ r, e ≠ .respond n r) :
    replies n (step reg s e).log = replies n s.log ∧
      (∀ id, s.closures[n]? = some id → (step reg s e).closures[n]? = some id) := by
  have hrep : ∀ id r, replies n (onReply s id r).log = replies n s.log ∧ (onReply s id r).closures = s.closures := by
    intro id r; unfold onReply; split
    · exact ⟨rfl, rfl⟩
    · split
      · exact ⟨rfl, rfl⟩
      · simp only; split
        · exact ⟨rfl, rfl⟩
        · exact ⟨by simp [replies_append, replies], rfl⟩
  have hcall : ∀ t, replies n (callMethod s t).log = replies n s.log ∧ (callMethod s t).closures = s.closures := by
    intro t; unfold callMethod; split
    · exact ⟨rfl, rfl⟩
    · simp only; split
      · split <;> exact ⟨by simp [replies_append, replies], rfl⟩
      · exact ⟨by simp [replies_append, replies], rfl⟩
  have hdis : ∀ m, replies n (dispatch reg s m).log = replies n s.log ∧
      (∀ id, s.closures[n]? = some id → (dispatch reg s m).closures[n]? = some id) := by
    intro m; unfold dispatch; split
    · exact ⟨rfl, fun _ h => h⟩
    · simp only; split
      · split
        · exact ⟨rfl, fun _ h => h⟩
        · split <;> exact ⟨(hrep _ _).1, by rw [(hrep _ _).2]; exact fun _ h => h⟩
      · split
        · unfold onCall; split
          · refine ⟨by simp [replies_append, replies], fun id h => ?_⟩
            simp only
            have hlt : n < s.closures.length := by
              by_contra hge; rw [List.getElem?_eq_none (by omega)] at h; cases h
            rw [List.getElem?_append_left hlt]; exact h
          · exact ⟨rfl, fun _ h => h⟩
        · unfold onNotify; split
          · exact ⟨rfl, fun _ h => h⟩
          · split
            · exact ⟨by simp [replies_append, replies], fun _ h => h⟩
            · exact ⟨rfl, fun _ h => h⟩
  have hres : ∀ k r, k ≠ n → replies n (respond s k r).log = replies n s.log ∧
      (∀ id, s.closures[n]? = some id → (respond s k r).closures[n]? = some id) := by
    intro k r hk; unfold respond; split
    · exact ⟨rfl, fun _ h => h⟩
    · refine ⟨by simp [replies_append, replies, hk], fun id h => ?_⟩
      simp only
      rw [List.getElem?_set_ne hk]; exact h
  unfold step
  split
  · exact ⟨rfl, fun _ h => h⟩
  · split
    · exact ⟨rfl, fun _ h => h⟩
    · exact ⟨(hcall _).1, by rw [(hcall _).2]; exact fun _ h => h⟩
    · rename_i k r
      exact hres k r (fun hk => he r (by rw [hk]))
  · split
    · exact hdis _
    · exact ⟨(hcall _).1, by rw [(hcall _).2]; exact fun _ h => h⟩
    · rename_i k r
      exact hres k r (fun hk => he r (by rw [hk]))

/-- **C10**, a request whose handler answers at most once gets at most one reply, and the reply carries the request's
id; it gets one if the handler answers and the process has not crashed. `n` is the number under which the handler was
invoked for a request with identifier `id`. -/
theorem C10_reply_has_request_id (reg : Registry) (s : State) (es : List Event) (n : Nat) (id : Json)
    (h0 : s.closures[n]? = some id) (hr : replies n s.log = []) (ha : answers n es ≤ 1) :
    replies n (run reg s es).log = [] ∨ replies n (run reg s es).log = [id] := by
  have key : ∀ es, answers n es = 0 → replies n (run reg s es).log = [] ∧ (run reg s es).closures[n]? = some id := by
    intro es
    induction es using List.reverseRecOn with
    | nil => intro _; exact ⟨hr, h0⟩
    | append_singleton es e ih =>
      intro ha
      rw [answers_append] at ha
      obtain ⟨h1, h2⟩ := ih (by omega)
      have he : ∀ r, e ≠ .respond n r := by rintro r rfl; simp [answers] at ha
      obtain ⟨h3, h4⟩ := step_other reg (run reg s es) e n he
      rw [run_snoc]
      exact ⟨by rw [h3, h1], h4 _ h2⟩
  induction es using List.reverseRecOn with
  | nil => exact .inl hr
  | append_singleton es e ih =>
    rw [answers_append] at ha
    rw [run_snoc]
    by_cases he : ∃ r, e = .respond n r
    · obtain ⟨r, rfl⟩ := he
      obtain ⟨h1, h2⟩ := key es (by simp [answers] at ha; omega)
      have : replies n (respond (run reg s es) n r).log = [id] := by
        unfold respond; rw [h2]; simp [replies_append, replies, h1]
      unfold step
      split
      · exact .inl h1
      · exact .inr this
      · exact .inr this
    · have he' : ∀ r, e ≠ .respond n r := fun r h => he ⟨r, h⟩
      rw [(step_other reg _ e n he').1]
      exact ih (by omega)

/-- The hypotheses are met right after the handler has been invoked. -/
example (reg : Registry) (hm : b!"textDocument/hover" ∈ reg.methods) :
    let m : Json := .obj [(b!"jsonrpc", .str b!"2.0"), (b!"id", .str b!"a"), (b!"method", .str b!"textDocument/hover")]
    (run reg init [.recv m]).closures[0]? = some (.str b!"a") ∧ replies 0 (run reg init [.recv m]).log = [] := by
  intro m
  have : run reg init [.recv m] = _ :=
    C10_request reg init m (.str b!"a") b!"textDocument/hover" .null rfl (.mk _ _ _ rfl rfl rfl) hm
  rw [this]
  exact ⟨rfl, rfl⟩

end Verif.Props
