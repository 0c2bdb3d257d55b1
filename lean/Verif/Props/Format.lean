import Verif.Model.Format
import Verif.Model.SourceCode
import Mathlib.Order.RelClasses
/-
Property C75: formatting with an external command.
-/
namespace Verif.Props
open Verif.Format

/-- The meaning of a program on a given input, independent of any scheduling: from the state `s`, with the input `i`, it
writes `o` and `e`, exits with the status `c` and leaves `l` of its input unread; `n` is the number of its steps. -/
inductive Runs (P : Prog) : Nat → P.σ → Bytes → Bytes → Bytes → Nat → Bytes → Prop
  | byte {n s k b i o e c l} : P.next s = .read k → Runs P n (k (some b)) i o e c l → Runs P (n + 1) s (b :: i) o e c l
  | eof {n s k o e c l} : P.next s = .read k → Runs P n (k none) [] o e c l → Runs P (n + 1) s [] o e c l
  | out {n s b s' i o e c l} : P.next s = .out b s' → Runs P n s' i o e c l → Runs P (n + 1) s i (b :: o) e c l
  | err {n s b s' i o e c l} : P.next s = .err b s' → Runs P n s' i o e c l → Runs P (n + 1) s i o (b :: e) c l
  | exit {s i c} : P.next s = .exit c → Runs P 1 s i [] [] c i

theorem Runs.pos {P : Prog} {n s i o e c l} (h : Runs P n s i o e c l) : 0 < n := by cases h <;> omega

theorem Runs.nil {P : Prog} {n s i o e c l} (h : Runs P n s i o e c l) (hi : i = []) : l = [] := by
  induction h with
  | byte _ _ _ => cases hi
  | eof _ _ ih => exact ih rfl
  | out _ _ ih => exact ih hi
  | err _ _ ih => exact ih hi
  | exit _ => exact hi

/-- A program does one thing for an input. -/
theorem Runs.unique {P : Prog} {n s i o e c l} (h : Runs P n s i o e c l) :
    ∀ {n' o' e' c' l'}, Runs P n' s i o' e' c' l' → n' = n ∧ o' = o ∧ e' = e ∧ c' = c ∧ l' = l := by
  induction h with
  | byte hn _ ih =>
    intro n' o' e' c' l' h'
    cases h' with
    | byte hn' h' => rw [hn] at hn'; cases hn'; obtain ⟨rfl, r⟩ := ih h'; exact ⟨rfl, r⟩
    | out hn' _ | err hn' _ | exit hn' => rw [hn] at hn'; cases hn'
  | eof hn _ ih =>
    intro n' o' e' c' l' h'
    cases h' with
    | eof hn' h' => rw [hn] at hn'; cases hn'; obtain ⟨rfl, r⟩ := ih h'; exact ⟨rfl, r⟩
    | out hn' _ | err hn' _ | exit hn' => rw [hn] at hn'; cases hn'
  | out hn _ ih =>
    intro n' o' e' c' l' h'
    cases h' with
    | out hn' h' => rw [hn] at hn'; cases hn'; obtain ⟨rfl, rfl, r⟩ := ih h'; exact ⟨rfl, rfl, r⟩
    | byte hn' _ | eof hn' _ | err hn' _ | exit hn' => rw [hn] at hn'; cases hn'
  | err hn _ ih =>
    intro n' o' e' c' l' h'
    cases h' with
    | err hn' h' => rw [hn] at hn'; cases hn'; obtain ⟨rfl, rfl, rfl, r⟩ := ih h'; exact ⟨rfl, rfl, rfl, r⟩
    | byte hn' _ | eof hn' _ | out hn' _ | exit hn' => rw [hn] at hn'; cases hn'
  | exit hn =>
    intro n' o' e' c' l' h'
    cases h' with
    | exit hn' => rw [hn] at hn'; cases hn'; exact ⟨rfl, rfl, rfl, rfl, rfl⟩
    | byte hn' _ | eof hn' _ | out hn' _ | err hn' _ => rw [hn] at hn'; cases hn'

/-- The bytes the server has still to send. -/
def unsent : Server → Bytes
  | .write rest => rest
  | _ => []

/-- The bytes the server has read. -/
def gotten : Server → Bytes
  | .read acc => acc
  | _ => []

/-- The server is before the end of `waitpid`. -/
def early : Server → Prop
  | .write _ | .wait => True
  | _ => False

/-- What holds in every state, `o0` and `e0` being what the formatter has written so far. -/
structure FormatInv (P : Prog) (s0 : P.σ) (cap : Nat) (code : Bytes) (t : State P) (o0 e0 : Bytes) : Prop where
  /-- what the formatter does from here on it does on the whole -/
  runs : ∀ s, t.child = .running s → ∀ n o e c l, Runs P n s (t.inp ++ unsent t.server) o e c l →
    ∃ m, Runs P m s0 code (o0 ++ o) (e0 ++ e) c l
  /-- what it has done when it has exited; a killed server leaves bytes unsent -/
  done : ∀ c, t.child = .exited c → ∃ m l, Runs P m s0 code o0 e0 c l ∧ (t.server ≠ .killed → l = t.inp ++ unsent t.server) ∧
    (t.server = .killed → l ≠ [])
  early : ∀ s, t.child = .running s → early t.server
  out : (∀ r, t.server ≠ .replied r) → gotten t.server ++ t.out = o0
  err : t.err = e0
  capOut : t.out.length ≤ cap
  capErr : t.err.length ≤ cap
  zero : ∀ acc, t.server = .read acc → t.child = .exited 0
  fits : ∀ c, t.child = .exited c → o0.length ≤ cap ∧ e0.length ≤ cap
  reply : ∀ r, t.server = .replied r →
    (∃ c, c ≠ 0 ∧ t.child = .exited c ∧ r = .failed c) ∨ (t.child = .exited 0 ∧ r = replyFor code o0)

theorem inv_start (P : Prog) (s0 : P.σ) (cap : Nat) (code : Bytes) : FormatInv P s0 cap code (start P s0 code) [] [] := by
  constructor <;> simp [start, early, gotten, unsent]
  intro n o e c l h
  exact ⟨n, h⟩

theorem inv_server (P : Prog) (s0 : P.σ) (cap : Nat) (code : Bytes) (t t' : State P) (o0 e0 : Bytes)
    (h : FormatInv P s0 cap code t o0 e0) (hs : serverStep cap code t = some t') : FormatInv P s0 cap code t' o0 e0 := by
  obtain ⟨h1, h2, h3, h4, h5, h6, h7, h8, h9, h10⟩ := h
  unfold serverStep at hs
  split at hs
  · rename_i hsv
    cases hs
    simp only [hsv, unsent, gotten] at h1 h2 h4
    exact ⟨h1, fun c hc => by simpa [unsent] using h2 c hc, fun _ _ => trivial, fun _ => h4 (by simp), h5, h6, h7,
      by simp, h9, by simp⟩
  · rename_i b rest hsv
    simp only [hsv, unsent, gotten] at h1 h2 h4
    split at hs
    · rename_i c hc
      cases hs
      obtain ⟨m, l, r1, r2, -⟩ := h2 c hc
      refine ⟨by simp [hc], ?_, by simp [hc], fun _ => h4 (by simp), h5, h6, h7, by simp, h9, by simp⟩
      intro c' hc'
      simp only [hc, Child.exited.injEq] at hc'
      subst hc'
      exact ⟨m, l, r1, by simp, fun _ => by rw [r2 (by simp)]; simp⟩
    · rename_i s hc
      split at hs
      · cases hs
        refine ⟨?_, by simp [hc], fun _ _ => trivial, fun _ => h4 (by simp), h5, h6, h7, by simp, by simp [hc], by simp⟩
        intro s' hs' n o e c l hr
        refine h1 s' hs' n o e c l ?_
        simpa [unsent] using hr
      · cases hs
  · rename_i hsv
    simp only [hsv, unsent, gotten] at h1 h2 h4
    split at hs
    · cases hs
    · rename_i c hc
      split at hs
      · rename_i hne
        cases hs
        exact ⟨by simp [hc], fun c hc => by simpa [unsent] using h2 c hc, by simp [hc],
          fun hr => absurd rfl (hr _), h5, h6, h7, by simp, h9, fun r hr => .inl ⟨c, hne, hc, by cases hr; rfl⟩⟩
      · rename_i hne
        cases hs
        have hz : c = 0 := by simpa using hne
        subst hz
        exact ⟨by simp [hc], fun c hc => by simpa [unsent] using h2 c hc, by simp [hc],
          fun _ => h4 (by simp), h5, h6, h7, fun _ _ => hc, h9, by simp⟩
  · rename_i acc hsv
    have hz := h8 acc hsv
    simp only [hsv, unsent, gotten] at h1 h2 h4
    split at hs
    · rename_i b out ho
      cases hs
      refine ⟨by simp [hz], fun c hc => by simpa [unsent] using h2 c hc, by simp [hz], ?_, h5, ?_, h7, fun _ _ => hz, h9, by simp⟩
      · intro _
        have := h4 (by simp)
        rw [ho] at this
        simpa [gotten] using this
      · rw [ho] at h6; simp at h6 ⊢; omega
    · rename_i ho
      have hacc := h4 (by simp)
      simp only [ho, List.append_nil] at hacc
      split at hs
      · cases hs
      · rename_i c hc
        cases hs
        refine ⟨by simp [hc], fun c hc => by simpa [unsent] using h2 c hc, by simp [hc],
          fun hr => absurd rfl (hr _), h5, h6, h7, by simp, h9, ?_⟩
        intro r hr
        cases hr
        exact .inr ⟨hz, by rw [hacc]⟩
  · cases hs
  · cases hs

theorem inv_child (P : Prog) (s0 : P.σ) (cap : Nat) (code : Bytes) (t t' : State P) (o0 e0 : Bytes)
    (h : FormatInv P s0 cap code t o0 e0) (hs : childStep cap t = some t') :
    ∃ o1 e1, FormatInv P s0 cap code t' (o0 ++ o1) (e0 ++ e1) := by
  obtain ⟨h1, h2, h3, h4, h5, h6, h7, h8, h9, h10⟩ := h
  unfold childStep at hs
  split at hs
  · cases hs
  · rename_i s hc
    have he := h3 s hc
    have hr : ∀ r, t.server ≠ .replied r := by intro r hr; rw [hr] at he; exact he
    have hrd : ∀ acc, t.server ≠ .read acc := by intro r hr; rw [hr] at he; exact he
    have hk : t.server ≠ .killed := by intro hr; rw [hr] at he; exact he
    have hg : gotten t.server = [] := by
      cases hsv : t.server <;> first | rfl | exact absurd hsv (hrd _)
    split at hs
    · rename_i k hn
      split at hs
      · rename_i b inp hi
        cases hs
        refine ⟨[], [], ?_⟩
        rw [List.append_nil, List.append_nil]
        refine ⟨?_, by simp, fun _ _ => he, h4, h5, h6, h7, fun acc ha => absurd ha (hrd acc), by simp,
          fun r hx => absurd hx (hr r)⟩
        intro s' hs' n o e c l hrun
        simp only [Child.running.injEq] at hs'
        subst hs'
        refine h1 s hc (n + 1) o e c l ?_
        rw [hi]
        exact .byte hn hrun
      · rename_i hi
        split at hs
        · rename_i hcl
          cases hs
          have hu : unsent t.server = [] := by
            cases hsv : t.server <;> first | rfl | (rw [hsv] at hcl; cases hcl)
          refine ⟨[], [], ?_⟩
          rw [List.append_nil, List.append_nil]
          refine ⟨?_, by simp, fun _ _ => he, h4, h5, h6, h7, fun acc ha => absurd ha (hrd acc), by simp,
            fun r hx => absurd hx (hr r)⟩
          intro s' hs' n o e c l hrun
          simp only [Child.running.injEq] at hs'
          subst hs'
          refine h1 s hc (n + 1) o e c l ?_
          simp only [hi, hu, List.append_nil] at hrun ⊢
          exact .eof hn hrun
        · cases hs
    · rename_i b s' hn
      split at hs
      · rename_i hl
        cases hs
        refine ⟨[b], [], ?_⟩
        rw [List.append_nil]
        refine ⟨?_, by simp, fun _ _ => he, ?_, h5, by simpa using Nat.succ_le_of_lt hl, h7, fun acc ha => absurd ha (hrd acc), by simp,
          fun r hx => absurd hx (hr r)⟩
        · intro s'' hs'' n o e c l hrun
          simp only [Child.running.injEq] at hs''
          subst hs''
          obtain ⟨m, hm⟩ := h1 s hc (n + 1) (b :: o) e c l (.out hn hrun)
          exact ⟨m, by simpa using hm⟩
        · intro _
          have := h4 hr
          simp only
          rw [← List.append_assoc, this]
      · cases hs
    · rename_i b s' hn
      split at hs
      · rename_i hl
        cases hs
        refine ⟨[], [b], ?_⟩
        rw [List.append_nil]
        refine ⟨?_, by simp, fun _ _ => he, h4, by simp [h5], h6, by simpa using Nat.succ_le_of_lt hl, fun acc ha => absurd ha (hrd acc),
          by simp, fun r hx => absurd hx (hr r)⟩
        intro s'' hs'' n o e c l hrun
        simp only [Child.running.injEq] at hs''
        subst hs''
        obtain ⟨m, hm⟩ := h1 s hc (n + 1) o (b :: e) c l (.err hn hrun)
        exact ⟨m, by simpa using hm⟩
      · cases hs
    · rename_i c hn
      cases hs
      refine ⟨[], [], ?_⟩
      rw [List.append_nil, List.append_nil]
      have ho := h4 hr
      rw [hg, List.nil_append] at ho
      refine ⟨by simp, ?_, by simp, h4, h5, h6, h7, fun acc ha => absurd ha (hrd acc), ?_, fun r hx => absurd hx (hr r)⟩
      · intro c' hc'
        simp only [Child.exited.injEq] at hc'
        subst hc'
        obtain ⟨m, hm⟩ := h1 s hc 1 [] [] c _ (.exit hn)
        rw [List.append_nil, List.append_nil] at hm
        exact ⟨m, _, hm, fun _ => rfl, fun hx => absurd hx hk⟩
      · intro _ _
        exact ⟨ho ▸ h6, h5 ▸ h7⟩

theorem inv_exec (P : Prog) (s0 : P.σ) (cap : Nat) (code : Bytes) (ws : List Bool) (t t' : State P) (o0 e0 : Bytes)
    (h : FormatInv P s0 cap code t o0 e0) (hs : exec cap code t ws = some t') : ∃ o e, FormatInv P s0 cap code t' o e := by
  induction ws generalizing t o0 e0 with
  | nil => simp only [exec, Option.some.injEq] at hs; subst hs; exact ⟨_, _, h⟩
  | cons w ws ih =>
    simp only [exec, Option.bind_eq_some_iff] at hs
    obtain ⟨u, h1, h2⟩ := hs
    cases w with
    | true => exact ih u o0 e0 (inv_server P s0 cap code t u o0 e0 h h1) h2
    | false =>
      obtain ⟨o1, e1, h3⟩ := inv_child P s0 cap code t u o0 e0 h h1
      exact ih u _ _ h3 h2

section
variable (P : Prog) (s0 : P.σ) (cap : Nat) (code : Bytes)

/-- A state of some schedule of a formatting request. -/
def Formatting (t : State P) : Prop := ∃ ws, exec cap code (start P s0 code) ws = some t

/-- **C75.** Under every schedule, whatever the formatter is: a reply tells what the formatter does with the document.
A non-zero status gives an error; otherwise, if the output is the document there is no edit, else there is one edit
from the beginning to the last possible position with exactly the output. -/
theorem C75_reply_is_output (t : State P) (r : Reply) (h : Formatting P s0 cap code t)
    (hr : t.server = .replied r) : ∃ n o e c l, Runs P n s0 code o e c l ∧
    r = (if c ≠ 0 then .failed c else if o = code then .edits [] else .edits [⟨(0, 0), (2147483647, 2147483647), o⟩]) := by
  obtain ⟨ws, h⟩ := h
  obtain ⟨o, e, hi⟩ := inv_exec P s0 cap code ws _ _ _ _ (inv_start P s0 cap code) h
  rcases hi.reply r hr with ⟨c, hc, hx, rfl⟩ | ⟨hx, rfl⟩
  · obtain ⟨m, l, hm, -, -⟩ := hi.done c hx
    exact ⟨m, o, e, c, l, hm, by rw [if_pos hc]⟩
  · obtain ⟨m, l, hm, -, -⟩ := hi.done 0 hx
    exact ⟨m, o, e, 0, l, hm, by rw [if_neg (by simp)]; rfl⟩

/-- **C75**, two schedules never give two different replies. -/
theorem C75_reply_unique (t t' : State P) (r r' : Reply) (h : Formatting P s0 cap code t)
    (h' : Formatting P s0 cap code t') (hr : t.server = .replied r) (hr' : t'.server = .replied r') : r = r' := by
  obtain ⟨n, o, e, c, l, h1, rfl⟩ := C75_reply_is_output P s0 cap code t r h hr
  obtain ⟨n', o', e', c', l', h2, rfl⟩ := C75_reply_is_output P s0 cap code t' r' h' hr'
  obtain ⟨-, rfl, -, rfl, -⟩ := h1.unique h2
  rfl

end

/-- The state of a schedule in which the formatter will behave as described. -/
structure Ahead (P : Prog) (cap : Nat) (o : Bytes) (t : State P) (n : Nat) : Prop where
  live : t.server ≠ .killed
  exited : ∀ c, t.child = .exited c → n = 0 ∧ t.inp = [] ∧ unsent t.server = []
  running : ∀ s, t.child = .running s → early t.server ∧ ∃ o' e' c, Runs P n s (t.inp ++ unsent t.server) o' e' c [] ∧
    t.out.length + o'.length ≤ cap ∧ t.err.length + e'.length ≤ cap ∧ t.out.length + o'.length = o.length
  len : (∀ r, t.server ≠ .replied r) → (gotten t.server).length + t.out.length ≤ o.length

/-- The steps left to the server. -/
def serverWork (o : Bytes) : Server → Nat
  | .write rest => rest.length + o.length + 4
  | .wait => o.length + 3
  | .read acc => o.length - acc.length + 1
  | .replied _ => 0
  | .killed => 0

theorem ahead_server {P : Prog} {cap : Nat} {code o : Bytes} {t t' : State P} {n : Nat} (h : Ahead P cap o t n)
    (hs : serverStep cap code t = some t') : Ahead P cap o t' n ∧ serverWork o t'.server < serverWork o t.server := by
  obtain ⟨h1, h2, h3, h4⟩ := h
  unfold serverStep at hs
  split at hs
  · rename_i hsv
    cases hs
    simp only [hsv, unsent, gotten] at h1 h2 h3 h4
    refine ⟨⟨by simp, fun c hc => by simpa [unsent] using h2 c hc, fun s hc => ⟨trivial, (h3 s hc).2⟩, fun _ => h4 (by simp)⟩, ?_⟩
    simp [hsv, serverWork]
  · rename_i b rest hsv
    simp only [hsv, unsent, gotten] at h1 h2 h3 h4
    split at hs
    · rename_i c hc
      have := (h2 c hc).2.2
      simp at this
    · rename_i s hc
      split at hs
      · cases hs
        refine ⟨⟨by simp, by simp [hc], fun s hc => ⟨trivial, ?_⟩, fun _ => h4 (by simp)⟩, ?_⟩
        · simpa [unsent] using (h3 s hc).2
        · simp [hsv, serverWork]
      · cases hs
  · rename_i hsv
    simp only [hsv, unsent, gotten] at h1 h2 h3 h4
    split at hs
    · cases hs
    · rename_i c hc
      split at hs
      · cases hs
        exact ⟨⟨by simp, fun c hc => by simpa [unsent] using h2 c hc, by simp [hc], fun hx => absurd rfl (hx _)⟩,
          by simp [hsv, serverWork]⟩
      · cases hs
        exact ⟨⟨by simp, fun c hc => by simpa [unsent] using h2 c hc, by simp [hc], fun _ => h4 (by simp)⟩,
          by simp [hsv, serverWork]⟩
  · rename_i acc hsv
    simp only [hsv, unsent, gotten] at h1 h2 h3 h4
    split at hs
    · rename_i b out ho
      cases hs
      have h5 := h4 (by simp)
      simp only [ho, List.length_cons] at h5
      refine ⟨⟨by simp, fun c hc => by simpa [unsent] using h2 c hc, fun s hc => absurd (h3 s hc).1 id, fun _ => ?_⟩, ?_⟩
      · simp only [gotten, List.length_append, List.length_cons, List.length_nil]; omega
      · simp only [hsv, serverWork, List.length_append, List.length_cons, List.length_nil]; omega
    · split at hs
      · cases hs
      · rename_i c hc
        cases hs
        exact ⟨⟨by simp, fun c hc => by simpa [unsent] using h2 c hc, by simp [hc], fun hx => absurd rfl (hx _)⟩,
          by simp [hsv, serverWork]⟩
  · cases hs
  · cases hs

theorem ahead_child {P : Prog} {cap : Nat} {o : Bytes} {t t' : State P} {n : Nat} (h : Ahead P cap o t n)
    (hs : childStep cap t = some t') : ∃ m, n = m + 1 ∧ Ahead P cap o t' m ∧ t'.server = t.server := by
  obtain ⟨h1, h2, h3, h4⟩ := h
  unfold childStep at hs
  split at hs
  · cases hs
  · rename_i s hc
    obtain ⟨he, o', e', c, hrun, b1, b2, b3⟩ := h3 s hc
    have hrd : ∀ acc, t.server ≠ .read acc := by intro r hr; rw [hr] at he; exact he
    have hg : gotten t.server = [] := by
      cases hsv : t.server <;> first | rfl | exact absurd hsv (hrd _)
    split at hs
    · rename_i k hn
      split at hs
      · rename_i b inp hi
        cases hs
        rw [hi] at hrun
        cases hrun with
        | @byte m _ k' _ _ _ _ _ _ hn' hrun =>
          rw [hn] at hn'; cases hn'
          exact ⟨m, rfl, ⟨h1, by simp, fun s' hs' => ⟨he, o', e', c, by cases hs'; exact hrun, b1, b2, b3⟩, h4⟩, rfl⟩
        | out hn' _ | err hn' _ => rw [hn] at hn'; cases hn'
      · rename_i hi
        split at hs
        · rename_i hcl
          cases hs
          have hu : unsent t.server = [] := by
            cases hsv : t.server <;> first | rfl | (rw [hsv] at hcl; cases hcl)
          rw [hi, hu] at hrun
          simp only [List.append_nil] at hrun
          cases hrun with
          | @eof m _ k' _ _ _ _ hn' hrun =>
            rw [hn] at hn'; cases hn'
            refine ⟨m, rfl, ⟨h1, by simp, fun s' hs' => ⟨he, o', e', c, ?_, b1, b2, b3⟩, h4⟩, rfl⟩
            cases hs'
            simpa [hi, hu] using hrun
          | out hn' _ | err hn' _ | exit hn' => rw [hn] at hn'; cases hn'
        · cases hs
    · rename_i b s' hn
      split at hs
      · cases hs
        generalize hin : t.inp ++ unsent t.server = i at hrun
        cases hrun with
        | @out m _ b' s'' _ o'' _ _ _ hn' hrun =>
          rw [hn] at hn'; cases hn'
          simp only [List.length_cons] at b1 b3
          refine ⟨m, rfl, ⟨h1, by simp, fun s' hs' => ⟨he, o'', e', c, by cases hs'; rw [hin]; exact hrun, ?_, b2, ?_⟩, fun _ => ?_⟩, rfl⟩
          · simp only [List.length_append, List.length_cons, List.length_nil]; omega
          · simp only [List.length_append, List.length_cons, List.length_nil]; omega
          · simp only [hg, List.length_append, List.length_cons, List.length_nil]; omega
        | byte hn' _ | eof hn' _ | err hn' _ | exit hn' => rw [hn] at hn'; cases hn'
      · cases hs
    · rename_i b s' hn
      split at hs
      · cases hs
        generalize hin : t.inp ++ unsent t.server = i at hrun
        cases hrun with
        | @err m _ b' s'' _ _ e'' _ _ hn' hrun =>
          rw [hn] at hn'; cases hn'
          simp only [List.length_cons] at b2
          refine ⟨m, rfl, ⟨h1, by simp, fun s' hs' => ⟨he, o', e'', c, by cases hs'; rw [hin]; exact hrun, b1, ?_, b3⟩, h4⟩, rfl⟩
          simp only [List.length_append, List.length_cons, List.length_nil]; omega
        | byte hn' _ | eof hn' _ | out hn' _ | exit hn' => rw [hn] at hn'; cases hn'
      · cases hs
    · rename_i c' hn
      cases hs
      generalize hin : t.inp ++ unsent t.server = i at hrun
      cases hrun with
      | exit hn' =>
        simp only [List.append_eq_nil_iff] at hin
        exact ⟨0, rfl, ⟨h1, fun _ _ => ⟨rfl, hin⟩, by simp, h4⟩, rfl⟩
      | byte hn' _ | eof hn' _ | out hn' _ | err hn' _ => rw [hn] at hn'; cases hn'

theorem ahead_start {P : Prog} {cap n : Nat} {s0 : P.σ} {code o e : Bytes} {c : Nat} (h : Runs P n s0 code o e c [])
    (ho : o.length ≤ cap) (he : e.length ≤ cap) : Ahead P cap o (start P s0 code) n := by
  refine ⟨by simp [start], by simp [start], fun s hs => ⟨trivial, o, e, c, ?_, ?_, ?_, ?_⟩, by simp [start, gotten]⟩
  · simp only [start, Child.running.injEq] at hs
    subst hs
    exact h
  · simpa [start] using ho
  · simpa [start] using he
  · simp [start]

/-- Nobody is blocked for ever. -/
theorem ahead_progress {P : Prog} {cap : Nat} {code o : Bytes} {t : State P} {n : Nat} (hcap : 0 < cap)
    (h : Ahead P cap o t n) (hr : ∀ r, t.server ≠ .replied r) :
    (serverStep cap code t).isSome ∨ (childStep cap t).isSome := by
  obtain ⟨h1, h2, h3, h4⟩ := h
  cases hc : t.child with
  | exited c =>
    obtain ⟨-, -, hu⟩ := h2 c hc
    refine .inl ?_
    unfold serverStep
    cases hsv : t.server with
    | write rest =>
      simp only [hsv, unsent] at hu
      subst hu
      rfl
    | wait => simp only [hc]; split <;> rfl
    | read acc => simp only [hc]; split <;> rfl
    | replied r => exact absurd hsv (hr r)
    | killed => exact absurd hsv h1
  | running s =>
    obtain ⟨he, o', e', c, hrun, b1, b2, b3⟩ := h3 s hc
    unfold childStep
    simp only [hc]
    cases hn : P.next s with
    | read k =>
      simp only
      cases hi : t.inp with
      | cons b inp => exact .inr rfl
      | nil =>
        simp only
        cases hsv : t.server with
        | write rest =>
          left
          unfold serverStep
          cases rest with
          | nil => simp [hsv]
          | cons b rest => simp [hsv, hc, hi, hcap]
        | wait => exact .inr rfl
        | read acc => exact .inr rfl
        | replied r => exact absurd hsv (hr r)
        | killed => exact absurd hsv h1
    | out b s' =>
      right
      generalize t.inp ++ unsent t.server = i at hrun
      cases hrun with
      | out hn' _ => simp only [List.length_cons] at b1; simp only; rw [if_pos (by omega)]; rfl
      | byte hn' _ | eof hn' _ | err hn' _ | exit hn' => rw [hn] at hn'; cases hn'
    | err b s' =>
      right
      generalize t.inp ++ unsent t.server = i at hrun
      cases hrun with
      | err hn' _ => simp only [List.length_cons] at b2; simp only; rw [if_pos (by omega)]; rfl
      | byte hn' _ | eof hn' _ | out hn' _ | exit hn' => rw [hn] at hn'; cases hn'
    | exit c' => exact .inr rfl

theorem ahead_exec {P : Prog} {cap : Nat} {code o : Bytes} (ws : List Bool) {t t' : State P} {n : Nat}
    (h : Ahead P cap o t n) (hs : exec cap code t ws = some t') :
    ∃ m, Ahead P cap o t' m ∧ m + serverWork o t'.server + ws.length ≤ n + serverWork o t.server := by
  induction ws generalizing t n with
  | nil => simp only [exec, Option.some.injEq] at hs; subst hs; exact ⟨n, h, by simp⟩
  | cons w ws ih =>
    simp only [exec, Option.bind_eq_some_iff] at hs
    obtain ⟨u, h1, h2⟩ := hs
    cases w with
    | true =>
      obtain ⟨h3, h4⟩ := ahead_server h h1
      obtain ⟨m, h5, h6⟩ := ih h3 h2
      exact ⟨m, h5, by simp only [List.length_cons]; omega⟩
    | false =>
      obtain ⟨k, rfl, h3, h4⟩ := ahead_child h h1
      obtain ⟨m, h5, h6⟩ := ih h3 h2
      rw [h4] at h6
      exact ⟨m, h5, by simp only [List.length_cons]; omega⟩

section
variable (P : Prog) (s0 : P.σ) (cap : Nat) (code : Bytes)

/-- **C75.** If the formatter reads the whole document and what it writes fits into the pipes, then no schedule is longer
than a fixed number of steps, and a schedule that can not be continued has ended with the reply. So the client gets the
reply of `C75_reply_is_output` under every schedule. -/
theorem C75_replies (hcap : 0 < cap) (n : Nat) (o e : Bytes) (c : Nat) (h : Runs P n s0 code o e c [])
    (ho : o.length ≤ cap) (he : e.length ≤ cap) (ws : List Bool) (t : State P)
    (hs : exec cap code (start P s0 code) ws = some t) :
    ws.length ≤ n + code.length + o.length + 4 ∧
    ((∀ w, step cap code t w = none) → t.server = .replied
      (if c ≠ 0 then .failed c else if o = code then .edits [] else .edits [⟨(0, 0), (2147483647, 2147483647), o⟩])) := by
  obtain ⟨m, h1, h2⟩ := ahead_exec ws (ahead_start h ho he) hs
  simp only [start, serverWork] at h2
  refine ⟨by omega, fun hb => ?_⟩
  by_cases hr : ∃ r, t.server = .replied r
  · obtain ⟨r, hr⟩ := hr
    obtain ⟨n', o', e', c', l', h3, rfl⟩ := C75_reply_is_output P s0 cap code t r ⟨ws, hs⟩ hr
    obtain ⟨-, rfl, -, rfl, -⟩ := h.unique h3
    exact hr
  · have := ahead_progress (code := code) hcap h1 (fun r hx => hr ⟨r, hx⟩)
    have b1 := hb true
    have b2 := hb false
    simp only [step, if_true, Bool.false_eq_true, if_false] at b1 b2
    simp [b1, b2] at this

/-- **C75**, violated: if what the formatter writes to its standard output (or its standard error) does not fit into the
pipe, no schedule leads to a reply: the server waits for the formatter to exit before it reads anything. -/
theorem C75_large_output_violated (n : Nat) (o e : Bytes) (c : Nat) (l : Bytes) (h : Runs P n s0 code o e c l)
    (hbig : cap < o.length ∨ cap < e.length) (t : State P) (r : Reply) (hs : Formatting P s0 cap code t) :
    t.server ≠ .replied r := by
  intro hr
  obtain ⟨ws, hs⟩ := hs
  obtain ⟨o', e', hi⟩ := inv_exec P s0 cap code ws _ _ _ _ (inv_start P s0 cap code) hs
  have key : ∀ c', t.child = .exited c' → False := by
    intro c' hc'
    obtain ⟨m, l', hm, -, -⟩ := hi.done c' hc'
    obtain ⟨-, rfl, rfl, -, -⟩ := hm.unique h
    obtain ⟨f1, f2⟩ := hi.fits c' hc'
    rcases hbig with hb | hb <;> omega
  rcases hi.reply r hr with ⟨c', -, hx, -⟩ | ⟨hx, -⟩
  · exact key c' hx
  · exact key 0 hx

/-- **C75**, the server is only killed when the formatter does not read the whole document. -/
theorem C75_killed_only_if_unread (t : State P) (hs : Formatting P s0 cap code t) (hk : t.server = .killed) :
    ∃ n o e c l, Runs P n s0 code o e c l ∧ l ≠ [] := by
  obtain ⟨ws, hs⟩ := hs
  obtain ⟨o, e, hi⟩ := inv_exec P s0 cap code ws _ _ _ _ (inv_start P s0 cap code) hs
  cases hc : t.child with
  | running s => have := hi.early s hc; rw [hk] at this; exact absurd this id
  | exited c =>
    obtain ⟨m, l, hm, -, hl⟩ := hi.done c hc
    exact ⟨m, o, e, c, l, hm, hl hk⟩

theorem format_exec_append (t : State P) (as bs : List Bool) :
    Format.exec cap code t (as ++ bs) = (Format.exec cap code t as).bind fun t => Format.exec cap code t bs := by
  induction as generalizing t with
  | nil => rfl
  | cons a as ih =>
    simp only [List.cons_append, Format.exec]
    cases step cap code t a with
    | none => rfl
    | some s' => exact ih s'

/-- The server sends a byte whenever the formatter wants one. -/
theorem lockstep (hcap : 0 < cap) {n : Nat} {s : P.σ} {i o e : Bytes} {c : Nat} {l : Bytes} (h : Runs P n s i o e c l)
    (hl : l ≠ []) (out err : Bytes) (ho : out.length + o.length ≤ cap) (he : err.length + e.length ≤ cap) :
    ∃ ws, Format.exec cap code ⟨.write i, .running s, [], out, err⟩ ws =
      some ⟨.killed, .exited c, [], out ++ o, err ++ e⟩ := by
  induction h generalizing out err with
  | byte hn _ ih =>
    obtain ⟨ws, hw⟩ := ih hl out err ho he
    refine ⟨true :: false :: ws, ?_⟩
    simpa [Format.exec, step, serverStep, childStep, hcap, hn] using hw
  | @eof _ _ _ _ _ _ l hn hr _ =>
    exact absurd (hr.nil rfl) hl
  | @out _ _ b _ _ o _ _ _ hn _ ih =>
    simp only [List.length_cons] at ho
    obtain ⟨ws, hw⟩ := ih hl (out ++ [b]) err (by simp; omega) he
    refine ⟨false :: ws, ?_⟩
    have : out.length < cap := by omega
    simpa [Format.exec, step, childStep, hn, this] using hw
  | @err _ _ b _ _ _ e _ _ hn _ ih =>
    simp only [List.length_cons] at he
    obtain ⟨ws, hw⟩ := ih hl out (err ++ [b]) ho (by simp; omega)
    refine ⟨false :: ws, ?_⟩
    have : err.length < cap := by omega
    simpa [Format.exec, step, childStep, hn, this] using hw
  | @exit s i c hn =>
    refine ⟨[false, true], ?_⟩
    cases i with
    | nil => exact absurd rfl hl
    | cons b i => simp [Format.exec, step, childStep, serverStep, hn]

/-- **C75**, violated: for every formatter that exits without having read the whole document (a command that does not
exist, or one that stops at an error) there is a schedule in which the language server is killed. -/
theorem C75_unread_violated (hcap : 0 < cap) (n : Nat) (o e : Bytes) (c : Nat) (l : Bytes)
    (h : Runs P n s0 code o e c l) (hl : l ≠ []) (ho : o.length ≤ cap) (he : e.length ≤ cap) :
    ∃ t, Formatting P s0 cap code t ∧ t.server = .killed := by
  obtain ⟨ws, hw⟩ := lockstep P cap code hcap h hl [] [] (by simpa using ho) (by simpa using he)
  exact ⟨_, ⟨ws, hw⟩, rfl⟩

end

/-- **C75**, what comes before the formatter is started: an open document and a non-empty command start it. -/
theorem C75_begin (P : Prog) (s : P.σ) (code : Bytes) (command : List Bytes) :
    onFormat P s (some code) command =
      if command = [] then .reply .noCommand else .run (start P s code) code := rfl

/-- **C75**, violated: a request for a document that is not open is undefined behaviour. -/
theorem C75_closed_violated (P : Prog) (s : P.σ) (command : List Bytes) :
    onFormat P s none command = .undefined := rfl

/-- **C75**, violated: every request leaves two descriptors open; whatever the limit is, the requests fail after some
time. -/
theorem C75_descriptors_violated (limit used : Nat) : formatMany limit (limit + 1) used = none := by
  have key : ∀ n u k, formatMany limit n u = some k → k = u + 2 * n ∧ (n ≠ 0 → k + 4 ≤ limit) := by
    intro n
    induction n with
    | zero => intro u k h; simp only [formatMany, Option.some.injEq] at h; subst h; simp
    | succ n ih =>
      intro u k h
      simp only [formatMany, Option.bind_eq_some_iff, formatOnce] at h
      obtain ⟨u', h1, h2⟩ := h
      split at h1
      · cases h1
        obtain ⟨rfl, h4⟩ := ih _ _ h2
        refine ⟨by omega, fun _ => ?_⟩
        by_cases hn : n = 0
        · subst hn; omega
        · have := h4 hn; omega
      · cases h1
  cases h : formatMany limit (limit + 1) used with
  | none => rfl
  | some k => have := key _ _ _ h; omega

/-! ### The edit covers the document -/

open SourceCode in
/-- **C75**, in a document of less than 2³¹ bytes all positions are in the range of the edit: it replaces the whole text. -/
theorem C75_edit_covers (code : Bytes) (hlen : (code.length : Int) < 2147483647) (off : Nat) :
    let p := offsetToPosition code off
    (0 : Int) ≤ p.line ∧ (0 : Int) ≤ p.character ∧ p.line < 2147483647 := by
  refine ⟨Int.natCast_nonneg _, Int.natCast_nonneg _, ?_⟩
  refine Int.lt_of_le_of_lt (Int.ofNat_le.mpr ?_) hlen
  refine Nat.le_trans List.count_le_length ?_
  rw [List.length_take]
  omega

/-! ### The hypotheses can be met -/

/-- A formatter that reads its input to the end, then writes a function of it and exits. -/
inductive Filter
  | reading (acc : Bytes)
  | writing (rest : Bytes)

/-- The program. -/
def filter (f : Bytes → Bytes) (status : Nat) : Prog where
  σ := Filter
  next
    | .reading acc => .read fun
      | some b => .reading (acc ++ [b])
      | none => .writing (f acc)
    | .writing [] => .exit status
    | .writing (b :: rest) => .out b (.writing rest)

theorem filter_writes (f : Bytes → Bytes) (c : Nat) (o : Bytes) : ∃ n, Runs (filter f c) n (.writing o) [] o [] c [] := by
  induction o with
  | nil => exact ⟨1, .exit rfl⟩
  | cons b o ih => obtain ⟨n, h⟩ := ih; exact ⟨n + 1, .out rfl h⟩

theorem filter_reads (f : Bytes → Bytes) (c : Nat) (acc i : Bytes) :
    ∃ n, Runs (filter f c) n (.reading acc) i (f (acc ++ i)) [] c [] := by
  induction i generalizing acc with
  | nil =>
    obtain ⟨n, h⟩ := filter_writes f c (f acc)
    exact ⟨n + 1, by rw [List.append_nil]; exact .eof rfl h⟩
  | cons b i ih =>
    obtain ⟨n, h⟩ := ih (acc ++ [b])
    refine ⟨n + 1, .byte rfl ?_⟩
    simpa using h

/-- **C75**, for a filter: it computes its function of the document, reading all of it. So with `C75_replies` a filter is
answered correctly if its output fits into the pipe, and with `C75_large_output_violated` never if it does not. -/
theorem C75_filter (f : Bytes → Bytes) (status : Nat) (code : Bytes) :
    ∃ n, Runs (filter f status) n (.reading []) code (f code) [] status [] := by
  simpa using filter_reads f status [] code

/-- A document for which `cat` hangs. -/
example : ∃ code : Bytes, ∀ t r, Formatting (filter id 0) (.reading []) 65536 code t → t.server ≠ .replied r := by
  refine ⟨List.replicate 65537 32, fun t r h => ?_⟩
  obtain ⟨n, hn⟩ := C75_filter id 0 (List.replicate 65537 32)
  exact C75_large_output_violated _ _ _ _ n _ _ _ _ hn (.inl (by rw [id, List.length_replicate]; omega)) t r h

/-- A schedule with a reply. -/
example : (exec 4 b!"ab" (start (filter (fun x => x ++ [10]) 0) (.reading []) b!"ab")
      [true, false, true, true, false, false, false, false, false, false, true, true, true, true, true]).map (·.server) =
    some (.replied (.edits [⟨(0, 0), (2147483647, 2147483647), b!"ab" ++ [10]⟩])) := by decide +kernel

/-- A command that does not exist. -/
def missing : Prog := ⟨Unit, fun _ => .exit 65280⟩

example : ∃ t, Formatting missing () 65536 b!"a" t ∧ t.server = .killed :=
  C75_unread_violated missing () 65536 b!"a" (by decide) 1 [] [] 65280 b!"a" (.exit rfl) (by decide) (by decide) (by decide)

end Verif.Props
