import Verif.Model.Rpc
import Mathlib.Data.List.Induction

namespace Verif.Rpc

/-- Tokens of the requests issued, in order. -/
def issued : List Effect → List Nat
  | [] => []
  | .sendCall _ t :: l => t :: issued l
  | _ :: l => issued l

/-- Tokens of the requests completed, in order. -/
def completed : List Effect → List Nat
  | [] => []
  | .complete t _ :: l => t :: completed l
  | _ :: l => completed l

/-- Ids and tokens of the requests issued, in order. -/
def sent : List Effect → List (Int × Nat)
  | [] => []
  | .sendCall i t :: l => (i, t) :: sent l
  | _ :: l => sent l

theorem issued_append (a b : List Effect) : issued (a ++ b) = issued a ++ issued b := by
  induction a with
  | nil => rfl
  | cons x a ih => cases x <;> simp [issued, ih]

theorem completed_append (a b : List Effect) : completed (a ++ b) = completed a ++ completed b := by
  induction a with
  | nil => rfl
  | cons x a ih => cases x <;> simp [completed, ih]

theorem sent_append (a b : List Effect) : sent (a ++ b) = sent a ++ sent b := by
  induction a with
  | nil => rfl
  | cons x a ih => cases x <;> simp [sent, ih]

theorem issued_eq (l : List Effect) : issued l = (sent l).map (·.2) := by
  induction l with
  | nil => rfl
  | cons x a ih => cases x <;> simp [issued, sent, ih]

theorem mem_sent (l : List Effect) (i : Int) (t : Nat) : (i, t) ∈ sent l ↔ .sendCall i t ∈ l := by
  induction l with
  | nil => simp [sent]
  | cons x a ih => cases x <;> simp [sent, ih]

theorem mapInsert_last (k : Int) (v : Nat) (l : List (Int × Nat)) (h : ∀ p ∈ l, p.1 < k) :
    mapInsert k v l = l ++ [(k, v)] := by
  induction l with
  | nil => rfl
  | cons p l ih =>
    obtain ⟨k', v'⟩ := p
    have h1 : k' < k := h (k', v') (by simp)
    simp only [mapInsert]
    rw [if_neg (by omega), if_neg (by omega), ih (fun p hp => h p (by simp [hp]))]
    rfl

/-- The invariant. -/
structure Inv (s : State) : Prop where
  top : 1 ≤ s.topID
  topMax : s.topID ≤ intMax
  range : ∀ p ∈ s.pending, 1 ≤ p.1 ∧ p.1 < s.topID
  sorted : (s.pending.map (·.1)).Pairwise (· < ·)
  bound : s.pending.length ≤ 100
  sentRange : ∀ p ∈ sent s.log, 1 ≤ p.1 ∧ p.1 < s.topID
  sentSorted : ((sent s.log).map (·.1)).Pairwise (· < ·)
  pendingSent : ∀ p ∈ s.pending, p ∈ sent s.log
  account : (issued s.log).Perm (s.pending.map (·.2) ++ completed s.log)

theorem inv_init : Inv init :=
  ⟨by decide, by decide, by simp [init], by simp [init], by simp [init], by simp [init, sent], by simp [init, sent],
    by simp [init], by simp [init, issued, completed]⟩

/-- Steps that only append unrelated effects and change closures or status. -/
theorem inv_of_eq {s s' : State} (h : Inv s) (h1 : s'.topID = s.topID) (h2 : s'.pending = s.pending)
    (h3 : sent s'.log = sent s.log) (h4 : completed s'.log = completed s.log) : Inv s' := by
  obtain ⟨a, b, c, d, e, f, g, i, j⟩ := h
  refine ⟨by rw [h1]; exact a, by rw [h1]; exact b, by rw [h1, h2]; exact c, by rw [h2]; exact d, by rw [h2]; exact e,
    by rw [h1, h3]; exact f, by rw [h3]; exact g, by rw [h2, h3]; exact i, ?_⟩
  rw [issued_eq, h3, ← issued_eq, h2, h4]; exact j

theorem inv_call (s : State) (tok : Nat) (h : Inv s) : Inv (callMethod s tok) := by
  unfold callMethod
  split
  · exact inv_of_eq h rfl rfl rfl rfl
  · rename_i hmax
    simp only [mapInsert_last s.topID tok s.pending (fun p hp => (h.range p hp).2)]
    have htop : s.topID + 1 ≤ intMax := by have := h.topMax; omega
    have ht1 := h.top
    have hsorted : ((s.pending ++ [(s.topID, tok)]).map (·.1)).Pairwise (· < ·) := by
      rw [List.map_append, List.pairwise_append]
      refine ⟨h.sorted, by simp, ?_⟩
      intro a ha b hb
      simp only [List.map_cons, List.map_nil, List.mem_singleton] at hb
      obtain ⟨p, hp, rfl⟩ := List.mem_map.mp ha
      subst hb; exact (h.range p hp).2
    have hrange : ∀ p ∈ s.pending ++ [(s.topID, tok)], 1 ≤ p.1 ∧ p.1 < s.topID + 1 := by
      intro p hp
      simp only [List.mem_append, List.mem_singleton] at hp
      rcases hp with hp | rfl
      · have := h.range p hp; omega
      · simp; omega
    have hsrange : ∀ p ∈ sent s.log ++ [(s.topID, tok)], 1 ≤ p.1 ∧ p.1 < s.topID + 1 := by
      intro p hp
      simp only [List.mem_append, List.mem_singleton] at hp
      rcases hp with hp | rfl
      · have := h.sentRange p hp; omega
      · simp; omega
    have hssorted : ((sent s.log ++ [(s.topID, tok)]).map (·.1)).Pairwise (· < ·) := by
      rw [List.map_append, List.pairwise_append]
      refine ⟨h.sentSorted, by simp, ?_⟩
      intro a ha b hb
      simp only [List.map_cons, List.map_nil, List.mem_singleton] at hb
      obtain ⟨p, hp, rfl⟩ := List.mem_map.mp ha
      subst hb; exact (h.sentRange p hp).2
    have hps : ∀ p ∈ s.pending ++ [(s.topID, tok)], p ∈ sent s.log ++ [(s.topID, tok)] := by
      intro p hp
      simp only [List.mem_append, List.mem_singleton] at hp ⊢
      rcases hp with hp | rfl
      · exact .inl (h.pendingSent p hp)
      · exact .inr rfl
    by_cases hlen : (s.pending ++ [(s.topID, tok)]).length > maxPendingCalls
    · simp only [if_pos hlen]
      cases hp : s.pending ++ [(s.topID, tok)] with
      | nil => simp at hp
      | cons x rest =>
        obtain ⟨id, cb⟩ := x
        rw [hp] at hsorted hrange hps
        have hb : rest.length ≤ 100 := by
          have h1 := congrArg List.length hp
          simp at h1; have := h.bound; omega
        have hsent : sent ((s.log ++ [.complete cb (.evicted id)]) ++ [.sendCall s.topID tok])
            = sent s.log ++ [(s.topID, tok)] := by simp [sent_append, sent]
        refine ⟨by simp; omega, htop, ?_, ?_, hb, ?_, ?_, ?_, ?_⟩
        · intro p hp'; exact hrange p (by simp [hp'])
        · exact (List.pairwise_cons.mp hsorted).2
        · simp only [hsent]; exact hsrange
        · simp only [hsent]; exact hssorted
        · simp only [hsent]; intro p hp'; exact hps p (by simp [hp'])
        · simp only [issued_append, completed_append, issued, completed, List.append_nil]
          have e1 : s.pending.map (·.2) ++ [tok] = cb :: rest.map (·.2) := by
            have := congrArg (List.map (·.2)) hp
            simpa using this
          have := h.account
          calc issued s.log ++ [tok]
              |>.Perm ((s.pending.map (·.2) ++ completed s.log) ++ [tok]) := this.append_right _
            _ |>.Perm ((s.pending.map (·.2) ++ [tok]) ++ completed s.log) := by
                rw [List.append_assoc, List.append_assoc]
                exact (List.perm_append_comm).append_left _
            _ |>.Perm (rest.map (·.2) ++ (completed s.log ++ [cb])) := by
                rw [e1]
                have : ((rest.map (·.2)) ++ completed s.log ++ [cb]).Perm (cb :: (rest.map (·.2) ++ completed s.log)) :=
                  List.perm_append_singleton _ _
                rw [← List.append_assoc]
                exact this.symm
    · simp only [if_neg hlen]
      have hsent : sent (s.log ++ [.sendCall s.topID tok]) = sent s.log ++ [(s.topID, tok)] := by
        simp [sent_append, sent]
      refine ⟨by simp; omega, htop, hrange, hsorted,
        by simp only [maxPendingCalls] at hlen; show (s.pending ++ [(s.topID, tok)]).length ≤ 100; omega, ?_, ?_, ?_, ?_⟩
      · simp only [hsent]; exact hsrange
      · simp only [hsent]; exact hssorted
      · simp only [hsent]; exact hps
      · simp only [issued_append, completed_append, issued, completed, List.append_nil, List.map_append, List.map_cons,
          List.map_nil]
        refine (h.account.append_right _).trans ?_
        rw [List.append_assoc, List.append_assoc]
        exact (List.perm_append_comm).append_left _

theorem lookup_split (l : List (Int × Nat)) (i : Int) (cb : Nat) (hs : (l.map (·.1)).Pairwise (· < ·))
    (h : l.lookup i = some cb) :
    ∃ a b, l = a ++ (i, cb) :: b ∧ l.filter (fun p => p.1 ≠ i) = a ++ b := by
  induction l with
  | nil => cases h
  | cons p l ih =>
    obtain ⟨k, v⟩ := p
    simp only [List.map_cons, List.pairwise_cons] at hs
    by_cases hk : i = k
    · subst hk
      simp only [List.lookup_cons, beq_self_eq_true] at h
      cases h
      refine ⟨[], l, rfl, ?_⟩
      rw [List.filter_cons_of_neg (by simp)]
      rw [List.filter_eq_self.mpr]; rfl
      intro q hq
      have := hs.1 q.1 (List.mem_map.mpr ⟨q, hq, rfl⟩)
      simp; omega
    · have : (i == k) = false := by simpa using hk
      simp only [List.lookup_cons, this] at h
      obtain ⟨a, b, h1, h2⟩ := ih hs.2 h
      refine ⟨(k, v) :: a, b, by rw [h1]; rfl, ?_⟩
      rw [List.filter_cons_of_pos (by simp; exact fun h => hk h.symm), h2]; rfl

theorem inv_onReply (s : State) (id : Json) (r : Result) (h : Inv s) : Inv (onReply s id r) := by
  unfold onReply
  split
  · exact inv_of_eq h rfl rfl rfl rfl
  · split
    · exact inv_of_eq h rfl rfl rfl rfl
    · rename_i i _ _
      simp only
      split
      · exact h
      · rename_i cb hcb
        obtain ⟨a, b, h1, h2⟩ := lookup_split _ _ _ h.sorted hcb
        rw [h2]
        have hsub : ∀ p ∈ a ++ b, p ∈ s.pending := by rw [h1]; intro p hp; simp at hp ⊢; tauto
        have hsent : sent (s.log ++ [.complete cb (.reply r)]) = sent s.log := by simp [sent_append, sent]
        refine ⟨h.top, h.topMax, fun p hp => h.range p (hsub p hp), ?_, ?_, ?_, ?_, ?_, ?_⟩
        · have h3 := h.sorted
          rw [h1] at h3
          refine h3.sublist ?_
          simp only [List.map_append, List.map_cons]
          exact List.Sublist.append_left (List.sublist_cons_self _ _) _
        · have h3 := h.bound; rw [h1] at h3; simp at h3 ⊢; omega
        · simp only [hsent]; exact h.sentRange
        · simp only [hsent]; exact h.sentSorted
        · simp only [hsent]; exact fun p hp => h.pendingSent p (hsub p hp)
        · have h3 := h.account
          rw [h1] at h3
          simp only [issued_append, completed_append, issued, completed, List.append_nil]
          refine h3.trans ?_
          simp only [List.map_append, List.map_cons, List.append_assoc, List.cons_append]
          refine List.Perm.append_left _ ?_
          rw [← List.append_assoc]
          exact (List.perm_append_singleton _ _).symm

theorem inv_respond (s : State) (n : Nat) (r : Result) (h : Inv s) : Inv (respond s n r) := by
  unfold respond; split
  · exact h
  · exact inv_of_eq h rfl rfl (by simp [sent_append, sent]) (by simp [completed_append, completed])

theorem inv_dispatch (reg : Registry) (s : State) (m : Json) (h : Inv s) : Inv (dispatch reg s m) := by
  unfold dispatch
  split
  · exact inv_of_eq h rfl rfl rfl rfl
  · simp only
    split
    · split
      · exact inv_of_eq h rfl rfl rfl rfl
      · split
        · exact inv_onReply _ _ _ h
        · exact inv_onReply _ _ _ h
    · split
      · unfold onCall; split
        · exact inv_of_eq h rfl rfl (by simp [sent_append, sent]) (by simp [completed_append, completed])
        · exact inv_of_eq h rfl rfl rfl rfl
      · unfold onNotify; split
        · exact inv_of_eq h rfl rfl rfl rfl
        · split
          · exact inv_of_eq h rfl rfl (by simp [sent_append, sent]) (by simp [completed_append, completed])
          · exact h

theorem inv_step (reg : Registry) (s : State) (e : Event) (h : Inv s) : Inv (step reg s e) := by
  unfold step
  split
  · exact h
  · split
    · exact h
    · exact inv_call _ _ h
    · exact inv_respond _ _ _ h
  · split
    · exact inv_dispatch _ _ _ h
    · exact inv_call _ _ h
    · exact inv_respond _ _ _ h

theorem run_append (reg : Registry) (s : State) (a b : List Event) : run reg s (a ++ b) = run reg (run reg s a) b := by
  simp [run]

theorem run_snoc (reg : Registry) (s : State) (a : List Event) (e : Event) :
    run reg s (a ++ [e]) = step reg (run reg s a) e := by simp [run]

theorem inv_run (reg : Registry) (es : List Event) : Inv (run reg init es) := by
  induction es using List.reverseRecOn with
  | nil => exact inv_init
  | append_singleton es e ih => rw [run_snoc]; exact inv_step _ _ _ ih

/-- The effects one step adds. -/
theorem log_mono (reg : Registry) (s : State) (e : Event) : ∃ l, (step reg s e).log = s.log ++ l := by
  have hr : ∀ id r, ∃ l, (onReply s id r).log = s.log ++ l := by
    intro id r; unfold onReply
    split
    · exact ⟨[], by simp⟩
    · split
      · exact ⟨[], by simp⟩
      · simp only; split
        · exact ⟨[], by simp⟩
        · exact ⟨_, rfl⟩
  have hd : ∀ m, ∃ l, (dispatch reg s m).log = s.log ++ l := by
    intro m; unfold dispatch
    split
    · exact ⟨[], by simp⟩
    · simp only
      split
      · split
        · exact ⟨[], by simp⟩
        · split
          · exact hr _ _
          · exact hr _ _
      · split
        · unfold onCall; split
          · exact ⟨_, rfl⟩
          · exact ⟨[], by simp⟩
        · unfold onNotify; split
          · exact ⟨[], by simp⟩
          · split
            · exact ⟨_, rfl⟩
            · exact ⟨[], by simp⟩
  have hc : ∀ t, ∃ l, (callMethod s t).log = s.log ++ l := by
    intro t; unfold callMethod
    split
    · exact ⟨[], by simp⟩
    · simp only
      split
      · split
        · exact ⟨_, rfl⟩
        · exact ⟨_, by rw [List.append_assoc]⟩
      · exact ⟨_, rfl⟩
  have hp : ∀ n r, ∃ l, (respond s n r).log = s.log ++ l := by
    intro n r; unfold respond; split
    · exact ⟨[], by simp⟩
    · exact ⟨_, rfl⟩
  unfold step
  split
  · exact ⟨[], by simp⟩
  · split
    · exact ⟨[], by simp⟩
    · exact hc _
    · exact hp _ _
  · split
    · exact hd _
    · exact hc _
    · exact hp _ _

/-- First appearance of an effect in a history. -/
theorem first_appearance (reg : Registry) (es : List Event) (x : Effect) (h : x ∈ (run reg init es).log) :
    ∃ es1 e es2, es = es1 ++ e :: es2 ∧ x ∉ (run reg init es1).log ∧ x ∈ (step reg (run reg init es1) e).log := by
  induction es using List.reverseRecOn with
  | nil => simp [run, init] at h
  | append_singleton es e ih =>
    by_cases hx : x ∈ (run reg init es).log
    · obtain ⟨es1, e', es2, h1, h2, h3⟩ := ih hx
      exact ⟨es1, e', es2 ++ [e], by simp [h1], h2, h3⟩
    · exact ⟨es, e, [], rfl, hx, by rw [run_snoc] at h; exact h⟩

end Verif.Rpc
