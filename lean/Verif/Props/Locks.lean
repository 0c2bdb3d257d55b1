import Verif.Model.Locks
import Mathlib.Data.List.Basic
/-
Property C76: no deadlock.
-/
namespace Verif.Props
open Verif.Locks

/-! ### The order of the mutexes -/

/-- The order of the mutexes. -/
def rank : Lock → Nat
  | .config => 1
  | .options => 2
  | .tus => 4
  | .reader _ => 4
  | .suppressed => 5
  | .drafts => 5
  | .pending _ => 6
  | .out _ => 7
  | .log => 8

/-- The rank of waiting for a worker. -/
def awaitRank : Nat := 3

/-- The mutexes held at the end, if every mutex is taken above those that are held, waiting is done below `awaitRank`
and mutexes are released in the reverse order. -/
def order : List Lock → List Op → Option (List Lock)
  | held, [] => some held
  | held, .acq l :: ops => if held.all (fun k => rank k < rank l) then order (l :: held) ops else none
  | l :: held, .rel k :: ops => if l = k then order held ops else none
  | [], .rel _ :: _ => none
  | held, .await (.reply _) :: ops => if held.all (fun k => rank k < awaitRank) then order held ops else none
  | held, .await (.request _) :: ops => if held = [] then order held ops else none
  | held, .signal _ :: ops => order held ops

/-- The operation does not wait for anything up to `awaitRank`. -/
def highOp : Op → Bool
  | .acq l => decide (awaitRank < rank l)
  | .await _ => false
  | _ => true

/-- The thread will release the semaphore, waiting only for the request itself and for mutexes above `awaitRank`. -/
def Serves (j : Nat) (ops : List Op) : Prop :=
  ∃ pre post, ops = pre ++ .signal (.reply j) :: post ∧ ∀ op ∈ pre, highOp op = true ∨ op = .await (.request j)

/-- What makes a deadlock impossible. -/
structure Orderly (s : Sys) : Prop where
  /-- the mutexes are taken in their order -/
  threads : ∀ t ∈ s.threads, order t.held t.todo = some []
  /-- every reply that is waited for comes -/
  served : ∀ t ∈ s.threads, ∀ j, Op.await (.reply j) ∈ t.todo →
    .reply j ∈ s.signalled ∨ ∃ u ∈ s.threads, Serves j u.todo
  /-- a thread waits only for replies to requests it has sent -/
  sent : ∀ t ∈ s.threads, ∀ j pre post, t.todo = pre ++ .await (.reply j) :: post →
    .request j ∈ s.signalled ∨ .signal (.request j) ∈ pre
  /-- every reply is the reply to a request of some thread that does not wait for requests -/
  asked : ∀ t ∈ s.threads, ∀ j, Op.await (.request j) ∈ t.todo →
    .request j ∈ s.signalled ∨
      ∃ u ∈ s.threads, .signal (.request j) ∈ u.todo ∧ ∀ k, .await (.request k) ∉ u.todo

theorem mem_threads_set {ts : List Thread} {i : Nat} {t u : Thread} (h : u ∈ ts.set i t) : u = t ∨ u ∈ ts := by
  rcases List.mem_or_eq_of_mem_set h with h | h
  · exact .inr h
  · exact .inl h

theorem mem_threads_set_ne {ts : List Thread} {i : Nat} {t t' u : Thread} (hi : ts[i]? = some t) (hu : u ∈ ts) :
    u = t ∨ u ∈ ts.set i t' := by
  obtain ⟨k, hk, rfl⟩ := List.mem_iff_getElem.mp hu
  by_cases hki : i = k
  · subst hki
    rw [List.getElem?_eq_getElem hk] at hi
    exact .inl (Option.some.inj hi)
  · refine .inr (List.mem_iff_getElem.mpr ⟨k, by simpa using hk, ?_⟩)
    rw [List.getElem_set_ne hki]

theorem self_mem_threads_set {ts : List Thread} {i : Nat} {t t' : Thread} (hi : ts[i]? = some t) :
    t' ∈ ts.set i t' := by
  have : i < ts.length := by
    rcases Nat.lt_or_ge i ts.length with h | h
    · exact h
    · rw [List.getElem?_eq_none h] at hi; cases hi
  exact List.mem_iff_getElem.mpr ⟨i, by simpa using this, by simp⟩

theorem orderly_set {s : Sys} (h : Orderly s) {i : Nat} {t : Thread} (hi : s.threads[i]? = some t) {op : Op} {ops : List Op}
    (ht : t.todo = op :: ops) (held : List Lock) (sig : List Event)
    (ho : order t.held t.todo = some [] → order held ops = some [])
    (hsub : ∀ j ∈ s.signalled, j ∈ sig) (hsig : ∀ j, op = .signal j → j ∈ sig) :
    Orderly ⟨s.threads.set i ⟨held, ops⟩, sig⟩ := by
  have htm : t ∈ s.threads := List.mem_of_getElem? hi
  refine ⟨?_, ?_, ?_, ?_⟩
  · intro u hu
    rcases mem_threads_set hu with rfl | hu
    · exact ho (h.threads t htm)
    · exact h.threads u hu
  · intro u hu j hj
    have : .reply j ∈ s.signalled ∨ ∃ v ∈ s.threads, Serves j v.todo := by
      rcases mem_threads_set hu with rfl | hu
      · exact h.served t htm j (by rw [ht]; exact List.mem_cons_of_mem _ hj)
      · exact h.served u hu j hj
    rcases this with hs | ⟨v, hv, pre, post, hv1, hv2⟩
    · exact .inl (hsub _ hs)
    · rcases mem_threads_set_ne (t' := ⟨held, ops⟩) hi hv with rfl | hv'
      · rw [ht] at hv1
        cases pre with
        | nil =>
          simp only [List.nil_append, List.cons.injEq] at hv1
          exact .inl (hsig _ hv1.1)
        | cons p pre =>
          simp only [List.cons_append, List.cons.injEq] at hv1
          exact .inr ⟨_, self_mem_threads_set hi, pre, post, hv1.2, fun op hop => hv2 op (List.mem_cons_of_mem _ hop)⟩
      · exact .inr ⟨v, hv', pre, post, hv1, hv2⟩
  · intro u hu j pre post hj
    rcases mem_threads_set hu with rfl | hu
    · have := h.sent t htm j (op :: pre) post (by rw [ht]; simp only at hj; rw [hj]; rfl)
      rcases this with hs | hs
      · exact .inl (hsub _ hs)
      · rcases List.mem_cons.mp hs with hs | hs
        · exact .inl (hsig _ hs.symm)
        · exact .inr hs
    · rcases h.sent u hu j pre post hj with hs | hs
      · exact .inl (hsub _ hs)
      · exact .inr hs
  · intro u hu j hj
    have : .request j ∈ s.signalled ∨
        ∃ v ∈ s.threads, .signal (.request j) ∈ v.todo ∧ ∀ k, .await (.request k) ∉ v.todo := by
      rcases mem_threads_set hu with rfl | hu
      · exact h.asked t htm j (by rw [ht]; exact List.mem_cons_of_mem _ hj)
      · exact h.asked u hu j hj
    rcases this with hs | ⟨v, hv, hv1, hv2⟩
    · exact .inl (hsub _ hs)
    · rcases mem_threads_set_ne (t' := ⟨held, ops⟩) hi hv with rfl | hv'
      · rw [ht] at hv1 hv2
        rcases List.mem_cons.mp hv1 with hv1 | hv1
        · exact .inl (hsig _ hv1.symm)
        · exact .inr ⟨_, self_mem_threads_set hi, hv1, fun k hk => hv2 k (List.mem_cons_of_mem _ hk)⟩
      · exact .inr ⟨v, hv', hv1, hv2⟩

theorem orderly_step {s s' : Sys} (h : Orderly s) {i : Nat} (hs : s.step i = some s') : Orderly s' := by
  unfold Sys.step at hs
  split at hs
  · cases hs
  · rename_i t hi
    split at hs
    · cases hs
    · rename_i l ops ht
      split at hs <;> cases hs
      refine orderly_set h hi ht _ _ ?_ (fun _ => id) (by simp)
      rw [ht, order]
      split <;> simp
    · rename_i l ops ht
      cases hs
      refine orderly_set h hi ht _ _ ?_ (fun _ => id) (by simp)
      rw [ht]
      cases hh : t.held with
      | nil => simp [order]
      | cons k held =>
        rw [order]
        split
        · rename_i hk; subst hk; simp
        · simp
    · rename_i j ops ht
      split at hs <;> cases hs
      refine orderly_set h hi ht _ _ ?_ (fun _ => id) (by simp)
      rw [ht]
      cases j <;> rw [order] <;> split <;> simp
    · rename_i j ops ht
      cases hs
      refine orderly_set h hi ht _ _ ?_ (fun _ hx => List.mem_cons_of_mem _ hx) (by simp)
      rw [ht, order]
      exact id

/-- What a blocked thread waits for. -/
def waits : Op → Nat
  | .acq l => rank l
  | .await (.reply _) => awaitRank
  | _ => 0

/-- If some thread is not done, some thread can go on. -/
theorem orderly_progress {s : Sys} (h : Orderly s) (hd : ∃ t ∈ s.threads, t.todo ≠ []) :
    ∃ i, (s.step i).isSome := by
  by_contra hno
  have hno : ∀ i, s.step i = none := by
    intro i
    cases hx : s.step i with
    | none => rfl
    | some y => exact absurd ⟨i, by rw [hx]; rfl⟩ hno
  -- the blocked threads wait for a mutex that is held or for something that has not happened
  have blocked : ∀ t ∈ s.threads, ∀ op ops, t.todo = op :: ops →
      (∃ l, op = .acq l ∧ ∃ u ∈ s.threads, l ∈ u.held) ∨ (∃ j, op = .await (.reply j) ∧ .reply j ∉ s.signalled) ∨
      (∃ j, op = .await (.request j) ∧ .request j ∉ s.signalled) := by
    intro t ht op ops hop
    obtain ⟨i, hi, rfl⟩ := List.mem_iff_getElem.mp ht
    have hs := hno i
    unfold Sys.step at hs
    rw [List.getElem?_eq_getElem hi] at hs
    simp only [hop] at hs
    cases op with
    | acq l =>
      simp only at hs
      split at hs
      · rename_i hany
        simp only [List.any_eq_true, List.contains_iff_mem] at hany
        exact .inl ⟨l, rfl, hany⟩
      · cases hs
    | rel l => cases hs
    | await j =>
      simp only at hs
      split at hs
      · cases hs
      · rename_i hc
        cases j with
        | reply j => exact .inr (.inl ⟨j, rfl, by simpa using hc⟩)
        | request j => exact .inr (.inr ⟨j, rfl, by simpa using hc⟩)
    | signal j => cases hs
  -- for every rank there is a thread that waits for something higher
  have climb : ∀ n, ∃ t ∈ s.threads, ∃ op ops, t.todo = op :: ops ∧ n ≤ waits op := by
    intro n
    induction n with
    | zero =>
      obtain ⟨t, ht, hne⟩ := hd
      cases htd : t.todo with
      | nil => exact absurd htd hne
      | cons op ops => exact ⟨t, ht, op, ops, htd, Nat.zero_le _⟩
    | succ n ih =>
      obtain ⟨t, ht, op, ops, hop, hn⟩ := ih
      rcases blocked t ht op ops hop with ⟨l, rfl, u, hu, hl⟩ | ⟨j, rfl, hj⟩ | ⟨j, rfl, hj⟩
      · -- the holder of the mutex
        have hou := h.threads u hu
        cases hud : u.todo with
        | nil =>
          rw [hud, order] at hou
          have hou := Option.some.inj hou
          rw [hou] at hl
          cases hl
        | cons op' ops' =>
          refine ⟨u, hu, op', ops', hud, ?_⟩
          rw [hud] at hou
          simp only [waits] at hn
          rcases blocked u hu op' ops' hud with ⟨l', rfl, -⟩ | ⟨j, rfl, -⟩ | ⟨j, rfl, -⟩
          · rw [order] at hou
            split at hou
            · rename_i hall
              simp only [List.all_eq_true, decide_eq_true_eq] at hall
              have := hall l hl
              simp only [waits]; omega
            · cases hou
          · rw [order] at hou
            split at hou
            · rename_i hall
              simp only [List.all_eq_true, decide_eq_true_eq] at hall
              have := hall l hl
              simp only [waits]; omega
            · cases hou
          · rw [order] at hou
            split at hou
            · rename_i hall
              rw [hall] at hl
              cases hl
            · cases hou
      · -- the thread that reads the reply
        have hreq : .request j ∈ s.signalled := by
          rcases h.sent t ht j [] ops hop with hs | hs
          · exact hs
          · cases hs
        rcases h.served t ht j (by rw [hop]; simp) with hs | ⟨u, hu, pre, post, hu1, hu2⟩
        · exact absurd hs hj
        · simp only [waits] at hn
          cases pre with
          | nil =>
            rcases blocked u hu _ _ hu1 with ⟨l, hx, -⟩ | ⟨j', hx, -⟩ | ⟨j', hx, -⟩ <;> cases hx
          | cons p pre =>
            refine ⟨u, hu, p, _, hu1, ?_⟩
            have hp := hu2 p (by simp)
            rcases blocked u hu _ _ hu1 with ⟨l, rfl, -⟩ | ⟨j', rfl, -⟩ | ⟨j', rfl, hj'⟩
            · simp only [highOp, decide_eq_true_eq, reduceCtorEq, or_false] at hp
              simp only [waits]; omega
            · simp [highOp] at hp
            · simp only [highOp, Bool.false_eq_true, Op.await.injEq, Event.request.injEq, false_or] at hp
              subst hp
              exact absurd hreq hj'
      · -- the thread that sends the request
        rcases h.asked t ht j (by rw [hop]; simp) with hs | ⟨u, hu, hu1, hu2⟩
        · exact absurd hs hj
        · simp only [waits] at hn
          cases hud : u.todo with
          | nil => rw [hud] at hu1; cases hu1
          | cons p ops' =>
            refine ⟨u, hu, p, _, hud, ?_⟩
            rcases blocked u hu _ _ hud with ⟨l, rfl, -⟩ | ⟨j', rfl, -⟩ | ⟨j', rfl, -⟩
            · have : 1 ≤ rank l := by cases l <;> simp [rank]
              simp only [waits]; omega
            · simp only [waits, awaitRank]; omega
            · exact absurd (by rw [hud]; simp) (hu2 j')
  obtain ⟨t, -, op, ops, -, hn⟩ := climb 9
  rcases op with l | l | j | j
  · cases l <;> simp [waits, rank] at hn
  · simp [waits] at hn
  · cases j <;> simp [waits, awaitRank] at hn
  · simp [waits] at hn

/-! ### The handlers keep the order -/

/-- The operations take and release mutexes in their order, above every mutex with a rank below `r`. -/
def Bal (r : Nat) (ops : List Op) : Prop :=
  ∀ held rest, (∀ k ∈ held, rank k < r) → order held (ops ++ rest) = order held rest

theorem Bal.nil {r : Nat} : Bal r [] := fun _ _ _ => rfl

theorem Bal.append {r : Nat} {a b : List Op} (ha : Bal r a) (hb : Bal r b) : Bal r (a ++ b) := by
  intro held rest h
  rw [List.append_assoc, ha held _ h, hb held rest h]

theorem Bal.mono {r r' : Nat} (hr : r ≤ r') {a : List Op} (ha : Bal r' a) : Bal r a :=
  fun held rest h => ha held rest fun k hk => Nat.lt_of_lt_of_le (h k hk) hr

theorem Bal.guarded {r : Nat} {l : Lock} {a : List Op} (hr : r ≤ rank l) (ha : Bal (rank l + 1) a) :
    Bal r (Locks.guarded l a) := by
  intro held rest h
  have hall : held.all (fun k => rank k < rank l) = true := by
    simp only [List.all_eq_true, decide_eq_true_eq]
    exact fun k hk => Nat.lt_of_lt_of_le (h k hk) hr
  rw [Locks.guarded, List.cons_append, order, if_pos hall, List.append_assoc, ha]
  · simp [order]
  · intro k hk
    rcases List.mem_cons.mp hk with rfl | hk
    · omega
    · have := h k hk; omega

theorem Bal.flatMap {α : Type} {r : Nat} {f : α → List Op} (h : ∀ a, Bal r (f a)) (as : List α) :
    Bal r (as.flatMap f) := by
  induction as with
  | nil => exact Bal.nil
  | cons a as ih => rw [List.flatMap_cons]; exact (h a).append ih

theorem Bal.flatten {r : Nat} {as : List (List Op)} (h : ∀ a ∈ as, Bal r a) : Bal r as.flatten := by
  induction as with
  | nil => exact Bal.nil
  | cons a as ih =>
    rw [List.flatten_cons]
    exact (h a (by simp)).append (ih fun b hb => h b (by simp [hb]))

theorem Bal.signal {r : Nat} {e : Event} : Bal r [.signal e] := by
  intro held rest _
  cases held <;> rfl

theorem bal_logged {r : Nat} (hr : r ≤ 8) : Bal r logged := Bal.guarded hr Bal.nil

theorem bal_send {r peer : Nat} (hr : r ≤ 7) {a : List Op} (ha : Bal 8 a) : Bal r (send peer a) :=
  (bal_logged (by omega)).append (Bal.guarded hr ha)

theorem bal_notify {r : Nat} (hr : r ≤ 7) : Bal r notify := (bal_logged (by omega)).append (bal_send hr Bal.nil)

theorem bal_reply {r : Nat} (hr : r ≤ 7) : Bal r reply := (bal_logged (by omega)).append (bal_send hr Bal.nil)

theorem bal_callback {r : Nat} (hr : r ≤ 7) (c : Callback) : Bal r c.ops := by
  cases c with
  | wake j => exact (bal_logged (by omega)).append Bal.signal
  | evaluated => exact (bal_notify hr).append (bal_logged (by omega))
  | logs => exact bal_logged (by omega)

theorem bal_bindReply {r peer : Nat} (hr : r ≤ 6) (f : Option Callback) : Bal r (bindReply peer f) := by
  refine Bal.guarded hr ?_
  cases f with
  | none => exact Bal.nil
  | some c => exact (bal_callback (by simp [rank]) c).append (bal_logged (by simp [rank]))

theorem bal_call {r peer j : Nat} (hr : r ≤ 6) (f : Option Callback) : Bal r (call peer f j) :=
  ((bal_bindReply hr f).append (bal_logged (by omega))).append (bal_send (by omega) Bal.signal)

theorem bal_onReply {r peer : Nat} (hr : r ≤ 6) (c : Callback) : Bal r (onReply peer c) :=
  ((bal_logged (by omega)).append (Bal.guarded hr Bal.nil)).append (bal_callback (by omega) c)

theorem bal_publish {r : Nat} (hr : r ≤ 5) (n : Nat) : Bal r (publish n) := by
  refine Bal.append (Bal.flatten ?_) (bal_notify (by omega))
  intro a ha
  rw [(List.mem_replicate.mp ha).2]
  exact Bal.guarded hr Bal.nil

theorem bal_evalExpr {r : Nat} (hr : r ≤ 6) (a b : Ask) : Bal r (evalExpr a b) :=
  ((bal_call hr _).append (bal_notify (by omega))).append (bal_call hr _)

theorem bal_getTU {r : Nat} (hr : r ≤ 4) : Bal r getTU := Bal.guarded hr (bal_logged (by simp [rank]))

theorem bal_ask {r : Nat} (hr : r ≤ 3) (a : Ask) : Bal r (ask a) := by
  refine (bal_call (by omega) _).append ?_
  intro held rest h
  have hall : held.all (fun k => rank k < awaitRank) = true := by
    simp only [List.all_eq_true, decide_eq_true_eq]
    exact fun k hk => Nat.lt_of_lt_of_le (h k hk) hr
  rw [List.cons_append, order, if_pos hall]
  rfl

theorem bal_handler (h : Handler) : Bal 0 h.ops := by
  cases h with
  | add n =>
    exact (((Bal.guarded (by omega) Bal.nil).append (Bal.guarded (by omega) Bal.nil)).append
      (bal_publish (by omega) n)).append (Bal.guarded (by omega) Bal.nil)
  | addLocked n =>
    exact ((Bal.guarded (by omega) Bal.nil).append (Bal.guarded (by omega) Bal.nil)).append
      (Bal.guarded (by omega) (bal_publish (by simp [rank]) n))
  | remove =>
    exact ((Bal.guarded (by omega) Bal.nil).append (Bal.guarded (by omega) Bal.nil)).append (bal_publish (by omega) 0)
  | updateConfig pkgs opts unknown files =>
    refine Bal.guarded (by omega) ?_
    refine Bal.append (Bal.append (Bal.append ?_ ?_) ?_) ?_
    · exact Bal.flatMap (fun a => bal_evalExpr (by simp [rank]) _ _) _
    · split
      · exact Bal.nil
      · exact Bal.guarded (by simp [rank]) (Bal.flatMap (fun a => bal_evalExpr (by simp [rank]) _ _) _)
    · refine Bal.guarded (by simp [rank]) (Bal.flatten ?_)
      intro a ha
      rw [(List.mem_replicate.mp ha).2]
      exact bal_logged (by simp [rank])
    · exact Bal.guarded (by simp [rank]) (Bal.flatMap (fun n => bal_publish (by simp [rank]) n) _)
  | plain => exact (bal_getTU (by omega)).append (bal_reply (by omega))
  | askNixpkgs asks =>
    exact ((bal_getTU (by omega)).append (Bal.flatMap (fun a => bal_ask (by omega) a) _)).append (bal_reply (by omega))
  | askOptions asks =>
    exact ((bal_getTU (by omega)).append (Bal.guarded (by omega) (Bal.flatMap (fun a => bal_ask (by simp [rank]) a) _))).append
      (bal_reply (by omega))
  | format =>
    exact ((Bal.guarded (by omega) Bal.nil).append (Bal.guarded (by omega) Bal.nil)).append (bal_reply (by omega))
  | start p q f =>
    exact (((bal_reply (by omega)).append (bal_evalExpr (by omega) _ _)).append
      (Bal.guarded (by omega) (bal_evalExpr (by simp [rank]) _ _))).append (bal_call (by omega) _)
  | clientReply c => exact bal_onReply (by omega) c

theorem bal_thread (hs : List Handler) : order [] (hs.flatMap Handler.ops) = some [] := by
  have h := Bal.flatMap (r := 0) bal_handler hs [] [] (by simp)
  rw [List.append_nil] at h
  rw [h, order]

theorem order_reply (r : Reply) : order [] r.ops = some [] := by
  have h : Bal 0 (guarded (.reader r.peer) (onReply r.peer r.callback)) :=
    Bal.guarded (by omega) (bal_onReply (by simp [rank]) _)
  have h := h [] [] (by simp)
  rw [List.append_nil] at h
  rw [Reply.ops, order, if_pos rfl, h, order]

/-! ### Requests are sent before their replies are awaited -/

/-- A reply is awaited only after the request. -/
def AskedFirst (ops : List Op) : Prop :=
  ∀ j pre post, ops = pre ++ .await (.reply j) :: post → .signal (.request j) ∈ pre

/-- No thread that works on messages waits for a request to be sent. -/
def NoRequestAwait (ops : List Op) : Prop := ∀ k, Op.await (.request k) ∉ ops

theorem AskedFirst.append {a b : List Op} (ha : AskedFirst a) (hb : AskedFirst b) : AskedFirst (a ++ b) := by
  intro j pre post h
  rcases List.append_eq_append_iff.mp h with ⟨c, h1, h2⟩ | ⟨c, h1, h2⟩
  · rw [h1]
    exact List.mem_append_right _ (hb j c post h2)
  · cases c with
    | nil =>
      have := hb j [] post (by simpa using h2.symm)
      cases this
    | cons x c =>
      simp only [List.cons_append, List.cons.injEq] at h2
      rw [← h2.1] at h1
      exact ha j pre c h1

theorem AskedFirst.of_not {a : List Op} (h : ∀ e, Op.await e ∉ a) : AskedFirst a := by
  intro j pre post ha
  exact absurd (by rw [ha]; simp) (h (.reply j))

theorem AskedFirst.guarded {l : Lock} {a : List Op} (ha : AskedFirst a) : AskedFirst (Locks.guarded l a) := by
  have : Locks.guarded l a = [.acq l] ++ a ++ [.rel l] := by simp [Locks.guarded]
  rw [this]
  exact ((AskedFirst.of_not (by simp)).append ha).append (AskedFirst.of_not (by simp))

theorem AskedFirst.flatMap {α : Type} {f : α → List Op} (h : ∀ a, AskedFirst (f a)) (as : List α) :
    AskedFirst (as.flatMap f) := by
  induction as with
  | nil => exact AskedFirst.of_not (by simp)
  | cons a as ih => rw [List.flatMap_cons]; exact (h a).append ih

theorem await_guarded {l : Lock} {a : List Op} {e : Event} : Op.await e ∈ guarded l a ↔ Op.await e ∈ a := by
  simp [guarded]

theorem not_await_logged {e : Event} : Op.await e ∉ logged := by simp [logged, guarded]
theorem not_await_notify {e : Event} : Op.await e ∉ notify := by simp [notify, send, logged, guarded]
theorem not_await_reply {e : Event} : Op.await e ∉ reply := by simp [reply, send, logged, guarded]

theorem not_await_callback (c : Callback) {e : Event} : Op.await e ∉ c.ops := by
  cases c <;> simp [Callback.ops, not_await_logged, not_await_notify]

theorem not_await_call {p j : Nat} {f : Option Callback} {e : Event} : Op.await e ∉ call p f j := by
  cases f <;> simp [call, bindReply, send, await_guarded, not_await_logged, not_await_callback]

theorem not_await_onReply {p : Nat} {c : Callback} {e : Event} : Op.await e ∉ onReply p c := by
  simp [onReply, await_guarded, not_await_logged, not_await_callback]

theorem not_await_publish {n : Nat} {e : Event} : Op.await e ∉ publish n := by
  simp [publish, not_await_notify, guarded]

theorem not_await_evalExpr {a b : Ask} {e : Event} : Op.await e ∉ evalExpr a b := by
  simp [evalExpr, not_await_call, not_await_notify]

theorem not_await_getTU {e : Event} : Op.await e ∉ getTU := by simp [getTU, await_guarded, not_await_logged]

theorem askedFirst_ask (a : Ask) : AskedFirst (ask a) := by
  intro j pre post h
  rw [ask] at h
  rcases List.append_eq_append_iff.mp h with ⟨c, h1, h2⟩ | ⟨c, h1, h2⟩
  · have : Op.signal (.request a.name) ∈ call a.peer a.forgotten a.name := by simp [call, send, guarded]
    cases c with
    | nil =>
      simp only [List.nil_append, List.cons.injEq, Op.await.injEq, Event.reply.injEq] at h2
      rw [← h2.1, h1]
      exact List.mem_append_left _ this
    | cons x c => simp at h2
  · cases c with
    | nil =>
      have : Op.signal (.request a.name) ∈ call a.peer a.forgotten a.name := by simp [call, send, guarded]
      simp only [List.nil_append, List.cons.injEq, Op.await.injEq, Event.reply.injEq] at h2
      rw [List.append_nil] at h1
      rw [h2.1, ← h1]
      exact this
    | cons x c =>
      simp only [List.cons_append, List.cons.injEq] at h2
      rw [← h2.1] at h1
      exact absurd (by rw [h1]; simp) (not_await_call (e := .reply j) (p := a.peer) (f := a.forgotten) (j := a.name))

theorem askedFirst_handler (h : Handler) : AskedFirst h.ops := by
  have pub : ∀ n, AskedFirst (publish n) := fun n => AskedFirst.of_not fun e => not_await_publish
  have nil : AskedFirst [] := AskedFirst.of_not (by simp)
  have eval : ∀ a b, AskedFirst (evalExpr a b) := fun a b => AskedFirst.of_not fun e => not_await_evalExpr
  have rep : AskedFirst reply := AskedFirst.of_not fun e => not_await_reply
  have tu : AskedFirst getTU := AskedFirst.of_not fun e => not_await_getTU
  cases h with
  | add n => exact ((nil.guarded.append nil.guarded).append (pub n)).append nil.guarded
  | addLocked n => exact (nil.guarded.append nil.guarded).append (pub n).guarded
  | remove => exact (nil.guarded.append nil.guarded).append (pub 0)
  | updateConfig pkgs opts unknown files =>
    refine AskedFirst.guarded (((AskedFirst.append ?_ ?_).append ?_).append ?_)
    · exact AskedFirst.flatMap (fun a => eval _ _) _
    · split
      · exact nil
      · exact (AskedFirst.flatMap (fun a => eval _ _) _).guarded
    · exact AskedFirst.guarded (AskedFirst.of_not (by simp [not_await_logged]))
    · exact AskedFirst.guarded (AskedFirst.flatMap pub _)
  | plain => exact tu.append rep
  | askNixpkgs asks => exact (tu.append (AskedFirst.flatMap askedFirst_ask _)).append rep
  | askOptions asks => exact (tu.append (AskedFirst.flatMap askedFirst_ask _).guarded).append rep
  | format => exact (nil.guarded.append nil.guarded).append rep
  | start p q f =>
    exact ((rep.append (eval _ _)).append (eval _ _).guarded).append (AskedFirst.of_not fun e => not_await_call)
  | clientReply c => exact AskedFirst.of_not fun e => not_await_onReply

theorem noRequestAwait_handler (h : Handler) (k : Nat) : Op.await (.request k) ∉ h.ops := by
  have hask : ∀ a, Op.await (.request k) ∉ ask a := by
    intro a; simp [ask, not_await_call]
  cases h with
  | updateConfig pkgs opts unknown files =>
    simp only [Handler.ops, await_guarded, List.mem_append, List.mem_flatMap, not_await_evalExpr, and_false,
      exists_false, not_await_publish, or_false, false_or]
    split
    · simp [not_await_logged]
    · simp [await_guarded, not_await_logged, not_await_evalExpr]
  | _ =>
    simp [Handler.ops, await_guarded, not_await_publish, not_await_reply, not_await_getTU, not_await_evalExpr,
      not_await_call, not_await_onReply, hask]

/-! ### The properties -/

/-- Every request that a thread waits for is answered by a worker. -/
def Answered (work : List (List Handler)) (replies : List Reply) : Prop :=
  ∀ hs ∈ work, ∀ h ∈ hs, ∀ j, Op.await (.reply j) ∈ h.ops → ∃ r ∈ replies, r.name = j ∧ r.callback = .wake j

/-- Workers only answer requests. -/
def Genuine (work : List (List Handler)) (replies : List Reply) : Prop :=
  ∀ r ∈ replies, ∃ hs ∈ work, ∃ h ∈ hs, Op.signal (.request r.name) ∈ h.ops

theorem orderly_server {work : List (List Handler)} {replies : List Reply} (ha : Answered work replies)
    (hg : Genuine work replies) : Orderly (server work replies) := by
  have mem : ∀ t ∈ (server work replies).threads,
      (∃ hs ∈ work, t = ⟨[], hs.flatMap Handler.ops⟩) ∨ ∃ r ∈ replies, t = ⟨[], r.ops⟩ := by
    intro t ht
    simp only [server, List.mem_append, List.mem_map] at ht
    rcases ht with ⟨hs, h1, h2⟩ | ⟨r, h1, h2⟩
    · exact .inl ⟨hs, h1, h2.symm⟩
    · exact .inr ⟨r, h1, h2.symm⟩
  have not_reply : ∀ (r : Reply) j, Op.await (.reply j) ∉ r.ops := by
    intro r j
    simp [Reply.ops, await_guarded, not_await_onReply]
  refine ⟨?_, ?_, ?_, ?_⟩
  · intro t ht
    rcases mem t ht with ⟨hs, -, rfl⟩ | ⟨r, -, rfl⟩
    · exact bal_thread hs
    · exact order_reply r
  · intro t ht j hj
    rcases mem t ht with ⟨hs, hhs, rfl⟩ | ⟨r, -, rfl⟩
    · obtain ⟨h, hh, hj⟩ := List.mem_flatMap.mp hj
      obtain ⟨r, hr, h1, h2⟩ := ha hs hhs h hh j hj
      refine .inr ⟨⟨[], r.ops⟩, by simp only [server, List.mem_append, List.mem_map]; exact .inr ⟨r, hr, rfl⟩, ?_⟩
      refine ⟨.await (.request r.name) :: .acq (.reader r.peer) :: (logged ++ guarded (.pending r.peer) [] ++ logged),
        [.rel (.reader r.peer)], ?_, ?_⟩
      · simp only [Reply.ops, onReply, h2, Callback.ops, guarded]
        simp
      · intro op hop
        simp only [List.mem_cons, List.mem_append, logged, guarded, List.not_mem_nil, or_false, false_or] at hop
        rcases hop with rfl | rfl | ((rfl | rfl) | rfl | rfl) | rfl | rfl <;>
          simp [highOp, awaitRank, rank, h1]
    · exact absurd hj (not_reply r j)
  · intro t ht j pre post hj
    rcases mem t ht with ⟨hs, hhs, rfl⟩ | ⟨r, -, rfl⟩
    · exact .inr (AskedFirst.flatMap askedFirst_handler hs j pre post hj)
    · simp only at hj
      exact absurd (by rw [hj]; simp) (not_reply r j)
  · intro t ht j hj
    rcases mem t ht with ⟨hs, hhs, rfl⟩ | ⟨r, hr, rfl⟩
    · obtain ⟨h, hh, hj⟩ := List.mem_flatMap.mp hj
      exact absurd hj (noRequestAwait_handler h j)
    · have : j = r.name := by
        simp only [Reply.ops, List.mem_cons, Op.await.injEq, Event.request.injEq, await_guarded] at hj
        rcases hj with h | h
        · exact h
        · exact absurd h not_await_onReply
      subst this
      obtain ⟨hs, hhs, h, hh, hx⟩ := hg r hr
      refine .inr ⟨⟨[], hs.flatMap Handler.ops⟩, ?_, List.mem_flatMap.mpr ⟨h, hh, hx⟩, ?_⟩
      · simp only [server, List.mem_append, List.mem_map]
        exact .inl ⟨hs, hhs, rfl⟩
      · intro k hk
        obtain ⟨h', -, hk⟩ := List.mem_flatMap.mp hk
        exact noRequestAwait_handler h' k hk

theorem orderly_exec {s s' : Sys} (h : Orderly s) {sched : List Nat} (hs : s.exec sched = some s') : Orderly s' := by
  induction sched generalizing s with
  | nil => cases hs; exact h
  | cons i is ih =>
    rw [Sys.exec] at hs
    cases hx : s.step i with
    | none => rw [hx] at hs; cases hs
    | some s1 =>
      rw [hx] at hs
      exact ih (orderly_step h hx) hs

/-- The operations that are left. -/
def left (s : Sys) : Nat := (s.threads.map (·.todo.length)).sum

theorem todo_le_left {ts : List Thread} {t : Thread} (h : t ∈ ts) : t.todo.length ≤ (ts.map (·.todo.length)).sum := by
  induction ts with
  | nil => cases h
  | cons u us ih =>
    rw [List.map_cons, List.sum_cons]
    rcases List.mem_cons.mp h with rfl | h
    · omega
    · have := ih h; omega

theorem total_zero {ts : List Thread} (h : ∀ t ∈ ts, t.todo = []) : (ts.map (·.todo.length)).sum = 0 := by
  induction ts with
  | nil => rfl
  | cons u us ih =>
    rw [List.map_cons, List.sum_cons, h u (by simp), ih fun t ht => h t (by simp [ht])]
    rfl

theorem left_set {ts : List Thread} {i : Nat} {t : Thread} {op : Op} {ops : List Op} {held : List Lock}
    (hi : ts[i]? = some t) (ht : t.todo = op :: ops) :
    ((ts.set i ⟨held, ops⟩).map (·.todo.length)).sum + 1 = (ts.map (·.todo.length)).sum := by
  induction ts generalizing i with
  | nil => simp at hi
  | cons u us ih =>
    cases i with
    | zero =>
      simp only [List.getElem?_cons_zero, Option.some.injEq] at hi
      subst hi
      simp [ht]; omega
    | succ i =>
      simp only [List.getElem?_cons_succ] at hi
      have := ih hi
      simp only [List.set_cons_succ, List.map_cons, List.sum_cons]
      omega

theorem left_step {s s' : Sys} {i : Nat} (hs : s.step i = some s') : left s' + 1 = left s := by
  unfold Sys.step at hs
  split at hs
  · cases hs
  · rename_i t hi
    split at hs
    · cases hs
    · rename_i l ops ht
      split at hs <;> cases hs
      exact left_set hi ht
    · rename_i l ops ht
      cases hs
      exact left_set hi ht
    · rename_i j ops ht
      split at hs <;> cases hs
      exact left_set hi ht
    · rename_i j ops ht
      cases hs
      exact left_set hi ht

theorem left_exec {s s' : Sys} {sched : List Nat} (hs : s.exec sched = some s') :
    left s' + sched.length = left s := by
  induction sched generalizing s with
  | nil => cases hs; rfl
  | cons i is ih =>
    rw [Sys.exec] at hs
    cases hx : s.step i with
    | none => rw [hx] at hs; cases hs
    | some s1 =>
      rw [hx] at hs
      have h1 := left_step hx
      have h2 := ih (s := s1) hs
      simp only [List.length_cons]
      omega

/-- **C76**: the handlers take the mutexes in one order and release them all: whatever a handler does, a mutex is only
taken while mutexes of lower ranks are held, and a thread waits for a worker while it holds `ConfigLock` or `OptionsLock`
at most. -/
theorem C76_lock_order (hs : List Handler) : order [] (hs.flatMap Handler.ops) = some [] := bal_thread hs

/-- **C76**: no deadlock. Whatever the threads of the server do, if the workers answer all requests that are waited for
then at any time some thread can go on, or all are done. -/
theorem C76_no_deadlock {work : List (List Handler)} {replies : List Reply} (ha : Answered work replies)
    (hg : Genuine work replies) {sched : List Nat} {s : Sys} (hs : (server work replies).exec sched = some s)
    (hd : ∃ t ∈ s.threads, t.todo ≠ []) : ∃ i, (s.step i).isSome :=
  orderly_progress (orderly_exec (orderly_server ha hg) hs) hd

/-- **C76**: the schedules are bounded, and each can be continued until all threads are done and all mutexes released. -/
theorem C76_finishes {work : List (List Handler)} {replies : List Reply} (ha : Answered work replies)
    (hg : Genuine work replies) {sched : List Nat} {s : Sys} (hs : (server work replies).exec sched = some s) :
    sched.length ≤ left (server work replies) ∧
      ∃ more s', s.exec more = some s' ∧ ∀ t ∈ s'.threads, t = ⟨[], []⟩ := by
  refine ⟨by have := left_exec hs; omega, ?_⟩
  have ho := orderly_exec (orderly_server ha hg) hs
  clear hs
  generalize hn : left s = n
  induction n generalizing s with
  | zero =>
    refine ⟨[], s, rfl, ?_⟩
    intro t ht
    have hle : t.todo.length ≤ 0 := by
      rw [← hn, left]
      exact todo_le_left ht
    have htd : t.todo = [] := List.length_eq_zero_iff.mp (by omega)
    have := ho.threads t ht
    rw [htd, order] at this
    obtain ⟨held, todo⟩ := t
    simp only at htd this
    rw [htd, Option.some.inj this]
  | succ n ih =>
    by_cases hd : ∃ t ∈ s.threads, t.todo ≠ []
    · obtain ⟨i, hi⟩ := orderly_progress ho hd
      obtain ⟨s1, h1⟩ := Option.isSome_iff_exists.mp hi
      have hl := left_step h1
      obtain ⟨more, s', hm, ht⟩ := ih (orderly_step ho h1) (by omega)
      exact ⟨i :: more, s', by rw [Sys.exec, h1]; exact hm, ht⟩
    · have : left s = 0 := by
        refine total_zero fun t ht => ?_
        by_contra hne
        exact hd ⟨t, ht, hne⟩
      omega

/-! ### A worker that exits -/

/-- These threads wait for each other, or for events that will not happen. -/
def StuckIn (s : Sys) (d : List Nat) : Prop :=
  ∀ i ∈ d, ∃ t, s.threads[i]? = some t ∧
    ((∃ e ops, t.todo = .await e :: ops ∧ e ∉ s.signalled ∧ ∀ u ∈ s.threads, Op.signal e ∉ u.todo) ∨
     (∃ l ops, t.todo = .acq l :: ops ∧ ∃ k ∈ d, ∃ u, s.threads[k]? = some u ∧ l ∈ u.held))

theorem step_threads {s s' : Sys} {i : Nat} (hs : s.step i = some s') :
    ∃ t op ops held, s.threads[i]? = some t ∧ t.todo = op :: ops ∧ s'.threads = s.threads.set i ⟨held, ops⟩ ∧
      (s'.signalled = s.signalled ∨ ∃ e, op = .signal e ∧ s'.signalled = e :: s.signalled) := by
  unfold Sys.step at hs
  split at hs
  · cases hs
  · rename_i t hi
    split at hs
    · cases hs
    · rename_i l ops ht
      split at hs <;> cases hs
      exact ⟨t, _, ops, _, hi, ht, rfl, .inl rfl⟩
    · rename_i l ops ht
      cases hs
      exact ⟨t, _, ops, _, hi, ht, rfl, .inl rfl⟩
    · rename_i j ops ht
      split at hs <;> cases hs
      exact ⟨t, _, ops, _, hi, ht, rfl, .inl rfl⟩
    · rename_i j ops ht
      cases hs
      exact ⟨t, _, ops, _, hi, ht, rfl, .inr ⟨j, rfl, rfl⟩⟩

theorem stuck_step {s s' : Sys} {d : List Nat} (h : StuckIn s d) {i : Nat} (hs : s.step i = some s') :
    StuckIn s' d ∧ ∀ k ∈ d, s'.threads[k]? = s.threads[k]? := by
  have hid : i ∉ d := by
    intro hid
    obtain ⟨t, ht, h⟩ := h i hid
    unfold Sys.step at hs
    rw [ht] at hs
    rcases h with ⟨e, ops, h1, h2, -⟩ | ⟨l, ops, h1, k, -, u, hu, hl⟩
    · simp only [h1] at hs
      rw [if_neg (by simpa using h2)] at hs
      cases hs
    · simp only [h1] at hs
      rw [if_pos] at hs
      · cases hs
      · simp only [List.any_eq_true, List.contains_iff_mem]
        exact ⟨u, List.mem_of_getElem? hu, hl⟩
  obtain ⟨t, op, ops, held, hi, ht, hth, hsig⟩ := step_threads hs
  have same : ∀ k ∈ d, s'.threads[k]? = s.threads[k]? := by
    intro k hk
    rw [hth, List.getElem?_set_ne (fun hx => hid (by rw [hx]; exact hk))]
  refine ⟨?_, same⟩
  intro k hk
  obtain ⟨u, hu, h⟩ := h k hk
  refine ⟨u, by rw [same k hk]; exact hu, ?_⟩
  rcases h with ⟨e, ops', h1, h2, h3⟩ | ⟨l, ops', h1, m, hm, v, hv, hl⟩
  · refine .inl ⟨e, ops', h1, ?_, ?_⟩
    · rcases hsig with hsig | ⟨e', he', hsig⟩
      · rw [hsig]; exact h2
      · rw [hsig]
        intro hmem
        rcases List.mem_cons.mp hmem with rfl | hmem
        · exact h3 t (List.mem_of_getElem? hi) (by rw [ht, he']; simp)
        · exact h2 hmem
    · intro v hv hmem
      rw [hth] at hv
      rcases mem_threads_set hv with rfl | hv
      · exact h3 t (List.mem_of_getElem? hi) (by rw [ht]; exact List.mem_cons_of_mem _ hmem)
      · exact h3 v hv hmem
  · exact .inr ⟨l, ops', h1, m, hm, v, by rw [same m hm]; exact hv, hl⟩

/-- **C76**: threads that wait for a reply that does not come, or for mutexes held by such threads, never go on. -/
theorem C76_stuck {s s' : Sys} {d : List Nat} (h : StuckIn s d) {sched : List Nat} (hs : s.exec sched = some s') :
    ∀ k ∈ d, s'.threads[k]? = s.threads[k]? := by
  induction sched generalizing s with
  | nil => cases hs; exact fun _ _ => rfl
  | cons i is ih =>
    rw [Sys.exec] at hs
    cases hx : s.step i with
    | none => rw [hx] at hs; cases hs
    | some s1 =>
      rw [hx] at hs
      obtain ⟨h1, h2⟩ := stuck_step h hx
      intro k hk
      rw [ih h1 hs k hk, h2 k hk]

/-- A request for the hover text of an option, new configuration with options, and formatting. -/
def hoverConfigFormat : List (List Handler) :=
  [[.askOptions [⟨2, none, 7⟩]], [.updateConfig none [(⟨0, none, 8⟩, ⟨2, none, 9⟩)] 0 []], [.format]]

/-- The state after the hover request is sent, the configuration has come, and formatting has begun. -/
def afterExit : Sys :=
  ⟨[⟨[.options], .await (.reply 7) :: .rel .options :: reply⟩,
    ⟨[.config], .acq .options :: (evalExpr ⟨0, none, 8⟩ ⟨2, none, 9⟩ ++ [.rel .options] ++ guarded .suppressed [] ++
      guarded .tus [] ++ [.rel .config])⟩,
    ⟨[], .acq .config :: .rel .config :: reply⟩,
    ⟨[], (Reply.mk 2 9 .evaluated).ops⟩], [.request 7]⟩

/-- **C76**, when a worker exits with a pending request: the requests that wait for it are never answered. As the request
waits with `OptionsLock`, the next configuration waits for it with `ConfigLock`, and no document is formatted after this:
three threads never go on, whatever the others do. The limit of pending calls (LSPServer.cpp:86-96) does not help, as no
other request is sent to the worker without `OptionsLock`. -/
theorem C76_worker_exits_violated :
    ∃ replies sched s, Genuine hoverConfigFormat replies ∧ (server hoverConfigFormat replies).exec sched = some s ∧
      ∀ more s', s.exec more = some s' → ∀ k < 3, ∃ t, s'.threads[k]? = some t ∧ t.todo ≠ [] := by
  refine ⟨[⟨2, 9, .evaluated⟩], List.replicate 14 0 ++ [1] ++ [2, 2], afterExit, ?_, by decide +kernel, ?_⟩
  · intro r hr
    obtain rfl := List.mem_singleton.mp hr
    refine ⟨[.updateConfig none [(⟨0, none, 8⟩, ⟨2, none, 9⟩)] 0 []], by simp [hoverConfigFormat], _, List.mem_singleton.mpr rfl, ?_⟩
    decide +kernel
  · have key : StuckIn afterExit [0, 1, 2] := by
      intro i hi
      simp only [List.mem_cons, List.not_mem_nil, or_false] at hi
      rcases hi with rfl | rfl | rfl
      · exact ⟨_, rfl, .inl ⟨.reply 7, _, rfl, by decide +kernel, by decide +kernel⟩⟩
      · exact ⟨_, rfl, .inr ⟨.options, _, rfl, 0, by simp, _, rfl, List.mem_singleton.mpr rfl⟩⟩
      · exact ⟨_, rfl, .inr ⟨.config, _, rfl, 1, by simp, _, rfl, List.mem_singleton.mpr rfl⟩⟩
    intro more s' hm k hk
    have hk' : k ∈ [0, 1, 2] := by
      rcases k with _ | _ | _ | k
      · simp
      · simp
      · simp
      · omega
    rw [C76_stuck key hm k hk']
    obtain ⟨t, ht, h⟩ := key k hk'
    refine ⟨t, ht, ?_⟩
    rcases h with ⟨e, ops, h, -⟩ | ⟨l, ops, h, -⟩ <;> rw [h] <;> simp

/-- **C76**, when a worker has exited: a worker is never found to be dead, and the next request to it ends the server. -/
theorem C76_exited_worker_violated :
    (∀ w : Worker, w.request ≠ .skipped) ∧ ∃ w : Worker, w ≠ .running ∧ w.request = .killed :=
  ⟨fun w => by cases w <;> decide, .zombie, by decide, by decide⟩

/-- The hypotheses hold for the same threads when the worker answers. -/
example : Answered hoverConfigFormat [⟨2, 7, .wake 7⟩, ⟨2, 9, .evaluated⟩] ∧
    Genuine hoverConfigFormat [⟨2, 7, .wake 7⟩, ⟨2, 9, .evaluated⟩] := by
  constructor
  · intro hs hhs h hh j hj
    refine ⟨⟨2, 7, .wake 7⟩, by simp, ?_⟩
    have hex : Op.await (.reply j) ∈ (hoverConfigFormat.flatMap fun hs => hs.flatMap Handler.ops) :=
      List.mem_flatMap.mpr ⟨hs, hhs, List.mem_flatMap.mpr ⟨h, hh, hj⟩⟩
    have hf : Op.await (.reply j) ∈ (hoverConfigFormat.flatMap fun hs => hs.flatMap Handler.ops).filter
        (fun op => op matches .await _) := List.mem_filter.mpr ⟨hex, rfl⟩
    have he : (hoverConfigFormat.flatMap fun hs => hs.flatMap Handler.ops).filter (fun op => op matches .await _)
        = [.await (.reply 7)] := by decide +kernel
    rw [he] at hf
    simp only [List.mem_singleton, Op.await.injEq, Event.reply.injEq] at hf
    subst hf
    exact ⟨rfl, rfl⟩
  · intro r hr
    simp only [List.mem_cons, List.not_mem_nil, or_false] at hr
    rcases hr with rfl | rfl
    · exact ⟨_, List.mem_cons_self, _, List.mem_cons_self, by decide +kernel⟩
    · exact ⟨_, List.mem_cons_of_mem _ List.mem_cons_self, _, List.mem_cons_self, by decide +kernel⟩

/-- A program that takes two mutexes in both orders is not in order. -/
example : order [] (guarded .options (guarded .config [])) = none := by decide

/-- Waiting for a worker with `TUsLock` is not in order. -/
example : order [] (guarded .tus (ask ⟨2, none, 7⟩)) = none := by decide

end Verif.Props
