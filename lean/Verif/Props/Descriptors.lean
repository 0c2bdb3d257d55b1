import Verif.Model.Descriptors
import Mathlib.Data.List.Perm.Basic
import Mathlib.Data.List.Nodup
import Mathlib.Data.Finset.Card
import Mathlib.Data.Finset.Range

/-
**C84**: the descriptors of worker processes. The specifications are stated with the table of the kernel only.
-/
namespace Verif.Props

open Verif.Descriptors

/-- The numbers are free in the table and different. -/
def FreeFor (t : Table) (p : Pipes) : Prop := (∀ fd ∈ p.all, t fd = none) ∧ p.all.Nodup

/-- Standard input, output and error are open. -/
def Standard (t : Table) : Prop := t 0 ≠ none ∧ t 1 ≠ none ∧ t 2 ≠ none

/-- A reader of the pipe reads its end: no process has the other end open. -/
def AtEnd (processes : List Table) (n : Nat) : Prop := ∀ t ∈ processes, ∀ fd, t fd ≠ some (.write n)

/-- **C84**: the standard input, output and error of a worker are the ends of the three pipes, and apart from them it has
exactly the descriptors of the server. -/
theorem C84_child {t : Table} {p : Pipes} (n : Nat) (hp : FreeFor t p) (ht : Standard t) (fd : Nat) :
    child t n p fd = if fd = 0 then some (.read n) else if fd = 1 then some (.write (n + 1))
      else if fd = 2 then some (.write (n + 2)) else t fd := by
  obtain ⟨h1, h2⟩ := hp
  obtain ⟨a, b, c, d, e, f⟩ := p
  simp only [Pipes.all, List.mem_cons, List.not_mem_nil, or_false, forall_eq_or_imp, forall_eq, List.nodup_cons, not_or,
    List.nodup_nil, not_false_eq_true, and_true] at h1 h2
  obtain ⟨ha, hb, hc, hd, he, hf⟩ := h1
  obtain ⟨⟨hab, hac, had, hae, haf⟩, ⟨hbc, hbd, hbe, hbf⟩, ⟨hcd, hce, hcf⟩, ⟨hde, hdf⟩, hef⟩ := h2
  obtain ⟨t0, t1, t2⟩ := ht
  have ne : ∀ {x y : Nat}, t x = none → t y ≠ none → x ≠ y := fun hx hy e => hy (e ▸ hx)
  have a0 := ne ha t0; have a1 := ne ha t1; have a2 := ne ha t2
  have b0 := ne hb t0; have b1 := ne hb t1; have b2 := ne hb t2
  have c0 := ne hc t0; have c1 := ne hc t1; have c2 := ne hc t2
  have d0 := ne hd t0; have d1 := ne hd t1; have d2 := ne hd t2
  have e0 := ne he t0; have e1 := ne he t1; have e2 := ne he t2
  have f0 := ne hf t0; have f1 := ne hf t1; have f2 := ne hf t2
  have s1 : (close (close (close (pipes t n ⟨a, b, c, d, e, f⟩) b) c) e) =
      fun i => if i = f then some (.write (n + 2)) else if i = d then some (.write (n + 1)) else
        if i = a then some (.read n) else if i = b ∨ i = c ∨ i = e then none else t i := by
    funext i
    simp only [close, pipes, pipe, Table.put]
    split_ifs <;> simp_all
  simp only [child, childSide, s1]
  have q1 : ∀ (g : Table) x y w, g x = some w → dup2 g x y = g.put y (some w) := fun g x y w h => by simp [dup2, h]
  rw [q1 _ a 0 (.read n) (by simp [haf, had])]
  rw [q1 _ d 1 (.write (n + 1)) (by simp [Table.put, d0, hdf])]
  rw [q1 _ f 2 (.write (n + 2)) (by simp [Table.put, f0, f1])]
  simp only [close, Table.put]
  by_cases x0 : fd = 0
  · subst x0; simp [a0.symm, d0.symm, f0.symm]
  by_cases x1 : fd = 1
  · subst x1; simp [a1.symm, d1.symm, f1.symm]
  by_cases x2 : fd = 2
  · subst x2; simp [a2.symm, d2.symm, f2.symm]
  by_cases xf : fd = f
  · subst xf; simp [hf, x0, x1, x2]
  by_cases xd : fd = d
  · subst xd; simp [hd, x0, x1, x2]
  by_cases xa : fd = a
  · subst xa; simp [ha, x0, x1, x2]
  simp only [x0, x1, x2, xf, xd, xa, if_false]
  split
  · next h => rcases h with h | h | h <;> subst h <;> simp [hb, hc, he]
  · rfl

/-- **C84**: after a worker was started, the server has three descriptors more: to write its input, to read its output and
to read its errors. -/
theorem C84_parent {t : Table} {p : Pipes} (n : Nat) (hp : FreeFor t p) (fd : Nat) :
    parent t n p fd = if fd = p.inWrite then some (.write n) else if fd = p.outRead then some (.read (n + 1))
      else if fd = p.errRead then some (.read (n + 2)) else t fd := by
  obtain ⟨h1, h2⟩ := hp
  obtain ⟨a, b, c, d, e, f⟩ := p
  simp only [Pipes.all, List.mem_cons, List.not_mem_nil, or_false, forall_eq_or_imp, forall_eq, List.nodup_cons, not_or,
    List.nodup_nil, not_false_eq_true, and_true] at h1 h2
  obtain ⟨ha, hb, hc, hd, he, hf⟩ := h1
  obtain ⟨⟨hab, hac, had, hae, haf⟩, ⟨hbc, hbd, hbe, hbf⟩, ⟨hcd, hce, hcf⟩, ⟨hde, hdf⟩, hef⟩ := h2
  simp only [parent, parentSide, pipes, pipe, close, Table.put]
  split_ifs <;> simp_all

/-- The input and output given to the caller are those of the worker. -/
theorem C84_ends_partial {t : Table} {p : Pipes} (n : Nat) (hp : FreeFor t p) (ht : Standard t) :
    parent t n p (ends p).in_ = some (.write n) ∧ child t n p 0 = some (.read n) ∧
    parent t n p (ends p).out = some (.read (n + 1)) ∧ child t n p 1 = some (.write (n + 1)) := by
  refine ⟨?_, ?_, ?_, ?_⟩
  · rw [C84_parent n hp]; simp [ends]
  · rw [C84_child n hp ht]; simp
  · rw [C84_parent n hp]
    have : p.outRead ≠ p.inWrite := fun e => by
      have := hp.2; simp [Pipes.all] at this; exact this.2.1.1 e.symm
    simp [ends, this]
  · rw [C84_child n hp ht]; simp

/-- **C84**, violated: what is given to the caller for the errors of the worker is its output; no number given leads to
the errors. -/
theorem C84_errors_violated {t : Table} {p : Pipes} (n : Nat) (hp : FreeFor t p) (ht : Standard t) :
    child t n p 2 = some (.write (n + 2)) ∧ parent t n p (ends p).err = some (.read (n + 1)) ∧
    ∀ fd ∈ [(ends p).in_, (ends p).out, (ends p).err], parent t n p fd ≠ some (.read (n + 2)) := by
  obtain ⟨h1, -, h2, -⟩ := C84_ends_partial n hp ht
  have h3 : parent t n p (ends p).err = some (.read (n + 1)) := h2
  refine ⟨by rw [C84_child n hp ht]; simp, h3, ?_⟩
  simp only [List.mem_cons, List.not_mem_nil, or_false, forall_eq_or_imp, forall_eq]
  exact ⟨by rw [h1]; simp, by rw [h2]; simp, by rw [h3]; simp⟩

/-- The number of an object. -/
def own (o : Option Int) : Option Int := o.bind fun fd => if fd = released then none else some fd

/-- The numbers of the objects. -/
def held (s : State) : List Int := s.objects.filterMap own

/-- The numbers from which objects are constructed. -/
def constructed : List Op → List Int
  | [] => []
  | .construct fd :: ops => if fd = released then constructed ops else fd :: constructed ops
  | _ :: ops => constructed ops

theorem filterMap_set {α β : Type} (f : α → Option β) : ∀ (l : List α) (i : Nat) (x y : α), l[i]? = some x →
    (l.filterMap f ++ (f y).toList).Perm ((f x).toList ++ (l.set i y).filterMap f)
  | a :: l, 0, x, y, h => by
    simp only [List.getElem?_cons_zero, Option.some.injEq] at h
    subst h
    have e : ∀ z : α, (z :: l).filterMap f = (f z).toList ++ l.filterMap f := fun z => by
      cases h : f z <;> simp [List.filterMap_cons, h]
    rw [List.set_cons_zero, e, e, List.append_assoc]
    exact List.Perm.append_left _ List.perm_append_comm
  | a :: l, i + 1, x, y, h => by
    have := filterMap_set f l i x y (by simpa using h)
    have e : ∀ (z : α) (l : List α), (z :: l).filterMap f = (f z).toList ++ l.filterMap f := fun z l => by
      cases h : f z <;> simp [List.filterMap_cons, h]
    rw [List.set_cons_succ, e, e, List.append_assoc]
    refine (List.Perm.append_left _ this).trans ?_
    rw [← List.append_assoc, ← List.append_assoc]
    exact List.Perm.append_right _ List.perm_append_comm

/-- What becomes of the numbers in one step. -/
theorem step_perm {s s' : State} {op : Op} (h : s.step op = some s') :
    (constructed [op] ++ (s.closed ++ held s ++ s.givenUp)).Perm (s'.closed ++ held s' ++ s'.givenUp) := by
  rw [List.perm_iff_count]
  intro a
  have hm : ∀ i x y, s.objects[i]? = some x → List.count a (s.objects.filterMap own) + List.count a (own y).toList =
      List.count a (own x).toList + List.count a ((s.objects.set i y).filterMap own) := fun i x y h => by
    have := (List.perm_iff_count.mp (filterMap_set own s.objects i x y h)) a
    simpa only [List.count_append] using this
  have o1 : own (some released) = none := by simp [own]
  have o2 : own none = none := rfl
  have o3 : ∀ fd, (own (some fd)).toList = if fd = released then [] else [fd] := fun fd => by
    simp only [own, Option.bind_some]; split <;> rfl
  have o4 : ∀ fd, [some fd].filterMap own = if fd = released then [] else [fd] := fun fd => by
    by_cases h : fd = released <;> simp [own, h]
  cases op with
  | construct fd =>
    simp only [State.step, Option.some.injEq] at h
    subst h
    simp only [constructed, held, List.filterMap_append, List.count_append, o4]
    split
    · simp only [List.count_nil]; omega
    · omega
  | move i =>
    simp only [State.step] at h
    split at h
    · next fd hi =>
      cases h
      have := hm i (some fd) (some released) hi
      rw [o1, o3] at this
      simp only [constructed, held, List.filterMap_append, List.count_append, o4, List.count_nil, Option.toList_none] at this ⊢
      omega
    · cases h
  | release i =>
    simp only [State.step] at h
    split at h
    · next fd hi =>
      cases h
      have := hm i (some fd) (some released) hi
      rw [o1, o3] at this
      simp only [constructed, held, List.count_append, List.count_nil, Option.toList_none] at this ⊢
      omega
    · cases h
  | destroy i =>
    simp only [State.step] at h
    split at h
    · next fd hi =>
      cases h
      have := hm i (some fd) none hi
      rw [o2, o3] at this
      simp only [constructed, held, List.count_append, List.count_nil, Option.toList_none] at this ⊢
      omega
    · cases h

theorem run_perm : ∀ (ops : List Op) {s s' : State}, s.run ops = some s' →
    (constructed ops ++ (s.closed ++ held s ++ s.givenUp)).Perm (s'.closed ++ held s' ++ s'.givenUp)
  | [], s, s', h => by
    simp only [State.run, Option.some.injEq] at h
    subst h
    exact List.Perm.refl _
  | op :: ops, s, s', h => by
    simp only [State.run, Option.bind_eq_some_iff] at h
    obtain ⟨s1, h1, h2⟩ := h
    have e : constructed (op :: ops) = constructed [op] ++ constructed ops := by
      cases op <;> simp only [constructed, List.nil_append]
      split <;> rfl
    rw [e]
    refine List.Perm.trans ?_ (run_perm ops h2)
    rw [List.append_assoc]
    refine (List.perm_append_comm.trans ?_ : _)
    rw [List.append_assoc]
    refine List.Perm.append_left _ ?_
    exact List.perm_append_comm.trans (step_perm h1)

/-- **C84**: whatever a program does with objects of `AutoCloseFD`, every number is in one place: an object holds it, or it
was closed, or it was given up. -/
theorem C84_owned {ops : List Op} {s : State} (h : State.run ⟨[], [], []⟩ ops = some s) :
    (s.closed ++ held s ++ s.givenUp).Perm (constructed ops) := by
  have := run_perm ops h
  simpa [held] using this.symm

/-- **C84**: if the numbers are different, no number is closed twice, and no number is closed that an object holds. -/
theorem C84_once {ops : List Op} {s : State} (h : State.run ⟨[], [], []⟩ ops = some s) (hd : (constructed ops).Nodup) :
    s.closed.Nodup ∧ s.closed.Disjoint (held s) ∧ s.closed ⊆ constructed ops := by
  have hp := C84_owned h
  have hn : (s.closed ++ held s ++ s.givenUp).Nodup := (hp.nodup_iff).mpr hd
  have h1 := hn.of_append_left
  refine ⟨h1.of_append_left, List.disjoint_of_nodup_append h1, fun x hx => hp.subset (by simp [hx])⟩

/-- **C84**: if all objects are gone and none was told to give up its number, every number was closed. -/
theorem C84_all {ops : List Op} {s : State} (h : State.run ⟨[], [], []⟩ ops = some s) (hg : ∀ o ∈ s.objects, o = none)
    (hr : ∀ i, .release i ∉ ops) : s.closed.Perm (constructed ops) := by
  have hp := C84_owned h
  have h1 : held s = [] := by
    simp only [held, List.filterMap_eq_nil_iff]
    intro o ho
    rw [hg o ho]; rfl
  have key : ∀ (ops : List Op) {s s' : State}, s.run ops = some s' → (∀ i, .release i ∉ ops) → s'.givenUp = s.givenUp := by
    intro ops
    induction ops with
    | nil => intro s s' h _; simp only [State.run, Option.some.injEq] at h; rw [h]
    | cons op ops ih =>
      intro s s' h hr
      simp only [State.run, Option.bind_eq_some_iff] at h
      obtain ⟨s1, h1, h2⟩ := h
      rw [ih h2 fun i hi => hr i (List.mem_cons_of_mem _ hi)]
      cases op with
      | construct fd => cases h1; rfl
      | move i => simp only [State.step] at h1; split at h1 <;> cases h1; rfl
      | release i => exact absurd (List.mem_cons_self ..) (hr i)
      | destroy i => simp only [State.step] at h1; split at h1 <;> cases h1; rfl
  have h2 : s.givenUp = [] := key ops h hr
  simpa [h1, h2] using hp

/-- **C84**, violated: the destructor of every worker closes the output of the worker twice. -/
theorem C84_twice_violated (p : Pipes) : ∃ s, State.run ⟨[], [], []⟩ (pipedProc (ends p) ++ endProc) = some s ∧
    s.closed = [(p.outRead : Int), p.outRead, p.inWrite] := by
  have h1 : ∀ n : Nat, (n : Int) ≠ released := fun n => by simp only [released]; omega
  refine ⟨_, rfl, ?_⟩
  simp [ends, h1]

/-- **C84**: if no other thread opens a file meanwhile, stopping a worker closes the input and output of the worker and
nothing else. -/
theorem C84_stop_partial {t : Table} {p : Pipes} (n : Nat) (hp : FreeFor t p) (fd : Nat) :
    stop id id (parent t n p) p fd = if fd = p.errRead then some (.read (n + 2)) else t fd := by
  have h1 : t p.inWrite = none := hp.1 _ (by simp [Pipes.all])
  have h2 : t p.outRead = none := hp.1 _ (by simp [Pipes.all])
  have h3 : p.errRead ≠ p.inWrite := fun e => by
    have := hp.2; simp [Pipes.all] at this; exact this.2.1.2.2.1 e.symm
  have h4 : p.errRead ≠ p.outRead := fun e => by
    have := hp.2; simp [Pipes.all] at this; exact this.2.2.1.2.1 e.symm
  simp only [stop, close, Table.put, id, ends]
  by_cases e1 : fd = p.inWrite
  · subst e1; simp [h1, h3.symm]
  by_cases e2 : fd = p.outRead
  · subst e2; simp [h2, h4.symm, e1]
  simp only [e1, e2, if_false]
  rw [C84_parent n hp]
  simp [e1, e2]

/-- **C84**, violated: what another thread opens between the two calls of `close` is closed if it gets the number that is
free now; here it is the end of a pipe to which a formatter is to be given the text. The pipe is made only if the number is
free, as it is after the first call. -/
theorem C84_stolen_violated {t : Table} {p : Pipes} (r m : Nat) :
    ∃ opened : Table, (∃ before : Table, before p.outRead = none ∧ opened = pipe before m r p.outRead) ∧
    opened p.outRead = some (.write m) ∧
    stop (fun t => if t p.outRead = none then pipe t m r p.outRead else t) id t p = (opened.put p.outRead none).put p.inWrite none := by
  refine ⟨pipe (t.put p.outRead none) m r p.outRead, ⟨_, by simp [Table.put], rfl⟩, by simp [pipe, Table.put], ?_⟩
  simp [stop, close, Table.put, ends]

/-- **C84**, violated: the server keeps the other end of the errors of a worker that is gone. -/
theorem C84_kept_violated {t : Table} {p : Pipes} (n : Nat) (hp : FreeFor t p) :
    t p.errRead = none ∧ stop id id (parent t n p) p p.errRead = some (.read (n + 2)) :=
  ⟨hp.1 _ (by simp [Pipes.all]), by rw [C84_stop_partial n hp]; simp⟩

/-- What is open stays open, and the numbers kept are below the limit and different. -/
theorem lives_keep {limit : Nat} {t t' : Table} {ps : List Pipes} (h : Lives limit t ps t') :
    (∀ fd, t fd ≠ none → t' fd ≠ none) ∧ (∀ p ∈ ps, t p.errRead = none ∧ p.errRead < limit) ∧
    (ps.map Pipes.errRead).Nodup := by
  induction h with
  | none => exact ⟨fun _ h => h, by simp, by simp⟩
  | @worker t t' n p ps h1 h2 _ ih =>
    have hp : FreeFor t p := ⟨fun fd hfd => (h1 fd hfd).1, h2⟩
    obtain ⟨i1, i2, i3⟩ := ih
    have h3 : ∀ fd, t fd ≠ none → stop id id (parent t n p) p fd ≠ none := fun fd hfd => by
      rw [C84_stop_partial n hp]; split <;> simp [hfd]
    have h4 := h1 p.errRead (by simp [Pipes.all])
    refine ⟨fun fd hfd => i1 _ (h3 _ hfd), ?_, ?_⟩
    · intro q hq
      rcases List.mem_cons.mp hq with rfl | hq
      · exact h4
      · obtain ⟨j1, j2⟩ := i2 q hq
        refine ⟨?_, j2⟩
        by_contra hne
        exact h3 _ hne j1
    · rw [List.map_cons, List.nodup_cons]
      refine ⟨?_, i3⟩
      intro hm
      obtain ⟨q, hq, e⟩ := List.mem_map.mp hm
      have := (i2 q hq).1
      rw [e, C84_stop_partial n hp] at this
      simp at this

/-- **C84**, violated: whatever the limit is, only that many workers can be started, even if all of them are stopped. -/
theorem C84_limit_violated {limit : Nat} {t t' : Table} {ps : List Pipes} (h : Lives limit t ps t') : ps.length ≤ limit := by
  obtain ⟨-, h2, h3⟩ := lives_keep h
  have : (ps.map Pipes.errRead).toFinset ⊆ Finset.range limit := by
    intro x hx
    simp only [List.mem_toFinset, List.mem_map] at hx
    obtain ⟨p, hp, rfl⟩ := hx
    exact Finset.mem_range.mpr (h2 p hp).2
  have := Finset.card_le_card this
  rwa [Finset.card_range, List.toFinset_card_of_nodup h3, List.length_map] at this

/-- **C84**: a worker that is stopped reads the end of its input, if no other process was started. -/
theorem C84_end_partial {t : Table} {p : Pipes} {n : Nat} (hp : FreeFor t p) (ht : Standard t)
    (hn : ∀ fd, t fd ≠ some (.write n)) : AtEnd [stop id id (parent t n p) p, child t n p] n := by
  intro t' ht' fd
  simp only [List.mem_cons, List.not_mem_nil, or_false] at ht'
  rcases ht' with rfl | rfl
  · rw [C84_stop_partial n hp]; split
    · simp
    · exact hn fd
  · rw [C84_child n hp ht]
    split_ifs <;> simp [hn]

/-- **C84**, violated: a worker that is started later has the input of the earlier ones open, and so does every program it
starts: the earlier worker does not read the end of its input when it is stopped. -/
theorem C84_inherited_violated {t : Table} {p q : Pipes} {n m : Nat} (hp : FreeFor t p) (ht : Standard t)
    (hq : FreeFor (parent t n p) q) :
    child (parent t n p) m q p.inWrite = some (.write n) ∧
    ¬AtEnd [stop id id (parent (parent t n p) m q) p, child (parent t n p) m q] n := by
  have key : child (parent t n p) m q p.inWrite = some (.write n) := by
    have h0 : parent t n p p.inWrite = some (.write n) := by rw [C84_parent n hp]; simp
    have hs : ∀ fd, t fd ≠ none → parent t n p fd ≠ none ∧ fd ≠ p.inWrite := fun fd h => by
      refine ⟨?_, fun e => h (e ▸ hp.1 _ (by simp [Pipes.all]))⟩
      rw [C84_parent n hp]; split_ifs <;> simp [h]
    rw [C84_child m hq ⟨(hs 0 ht.1).1, (hs 1 ht.2.1).1, (hs 2 ht.2.2).1⟩]
    simp [(hs 0 ht.1).2.symm, (hs 1 ht.2.1).2.symm, (hs 2 ht.2.2).2.symm, h0]
  exact ⟨key, fun h => h _ (by simp) _ key⟩

/-- **C84**, violated: when `forkPiped` throws, what it has opened stays open and nobody has the numbers: both ends of the
first pipe if there is no second one, three ends if there is no new process. -/
theorem C84_throw_violated {t : Table} {p : Pipes} (n : Nat) (hp : FreeFor t p) :
    (pipeFailed t n p p.inRead ≠ none ∧ pipeFailed t n p p.inWrite ≠ none) ∧
    (∀ fd ∈ [p.inWrite, p.outRead, p.errRead], t fd = none ∧ parent t n p fd ≠ none) := by
  refine ⟨⟨?_, ?_⟩, ?_⟩
  · simp only [pipeFailed, pipe, Table.put]; split <;> simp
  · simp [pipeFailed, pipe, Table.put]
  · intro fd hfd
    simp only [List.mem_cons, List.not_mem_nil, or_false] at hfd
    refine ⟨hp.1 _ ?_, ?_⟩
    · rcases hfd with rfl | rfl | rfl <;> simp [Pipes.all]
    · rw [C84_parent n hp]
      rcases hfd with rfl | rfl | rfl <;> split_ifs <;> simp_all

/-! ### The hypotheses are satisfiable -/

/-- A process with standard input, output and error. -/
def plainTable : Table := fun fd => if fd < 3 then some (.other fd) else none

/-- The numbers that POSIX gives. -/
def firstPipes : Pipes := ⟨3, 4, 5, 6, 7, 8⟩

example : FreeFor plainTable firstPipes ∧ Standard plainTable ∧ (∀ fd, plainTable fd ≠ some (.write 0)) := by
  refine ⟨⟨by decide, by decide⟩, ⟨by decide, by decide, by decide⟩, fun fd => ?_⟩
  simp only [plainTable]; split <;> simp

/-- The next worker. -/
example : FreeFor (parent plainTable 0 firstPipes) ⟨3, 6, 8, 9, 10, 11⟩ := ⟨by decide, by decide⟩

/-- A pipe made between the two calls of `close` gets the lowest free numbers, 3 and 5. -/
example : close (parent plainTable 0 firstPipes) 5 3 = none ∧ close (parent plainTable 0 firstPipes) 5 4 ≠ none ∧
    close (parent plainTable 0 firstPipes) 5 5 = none ∧
    stop (fun t => if t 5 = none then pipe t 9 3 5 else t) id (parent plainTable 0 firstPipes) firstPipes 5 = none := by decide

/-- Two workers, one after the other; the second cannot use the number 7. -/
example : Lives 1024 plainTable [firstPipes, ⟨3, 4, 5, 6, 8, 9⟩] (stop id id (parent (stop id id (parent plainTable 0 firstPipes)
    firstPipes) 3 ⟨3, 4, 5, 6, 8, 9⟩) ⟨3, 4, 5, 6, 8, 9⟩) :=
  .worker (n := 0) (by decide) (by decide) (.worker (n := 3) (by decide) (by decide) .none)

/-- Objects that are moved and destroyed. -/
example : State.run ⟨[], [], []⟩ [.construct 4, .move 0, .destroy 0, .construct 5, .destroy 1] =
    some ⟨[none, none, some 5], [4], []⟩ := by decide

end Verif.Props
