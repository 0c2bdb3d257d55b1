import Verif.Spec.PrecRead
import Verif.Lemmas.PrecUnique
/-
The operator parser against the relation `Reads`: what it reads, and how it groups it. The grouping is first stated with
the binding powers of the code.
-/
namespace Verif.Nixf.Prec
open Tr

theorem PM.bind_some {α β : Type} {m : PM α} {f : α → PM β} {s s2 : PState} {b : β} (h : (m >>= f) s = some (b, s2)) :
    ∃ a s1, m s = some (a, s1) ∧ f a s1 = some (b, s2) := by
  change (match m s with | some (a, s') => f a s' | none => none) = _ at h
  split at h
  · rename_i a s1 h1; exact ⟨a, s1, h1, h⟩
  · cases h

theorem ite_pos {α : Type} {c : Prop} [Decidable c] {a b : PM α} {s : PState} {r : Option (α × PState)} (hc : c)
    (h : (if c then a else b) s = r) : a s = r := by rw [if_pos hc] at h; exact h
theorem ite_neg {α : Type} {c : Prop} [Decidable c] {a b : PM α} {s : PState} {r : Option (α × PState)} (hc : ¬ c)
    (h : (if c then a else b) s = r) : b s = r := by rw [if_neg hc] at h; exact h

theorem Quiet.refl (s : PState) : Quiet s s := ⟨rfl, rfl, rfl, rfl, rfl, rfl, rfl⟩
theorem Quiet.trans {s s' s'' : PState} (h : Quiet s s') (h' : Quiet s' s'') : Quiet s s'' :=
  ⟨h'.src.trans h.src, h'.rem.trans h.rem, h'.cur.trans h.cur, h'.buf.trans h.buf, h'.eaten.trans h.eaten,
    h'.states.trans h.states, h'.sync.trans h.sync⟩

theorem emitD_quiet {d s s'} (h : emitD d s = some ((), s')) : Quiet s s' := by
  cases h; exact ⟨rfl, rfl, rfl, rfl, rfl, rfl, rfl⟩
theorem fresh_quiet {r s h s'} (e : fresh r s = some (h, s')) : Quiet s s' := by
  cases e; exact ⟨rfl, rfl, rfl, rfl, rfl, rfl, rfl⟩
theorem lastR_quiet {s c s'} (e : lastR s = some (c, s')) : Quiet s s' := by
  unfold lastR at e; split at e <;> cases e
  · exact .refl _
  · exact ⟨rfl, rfl, rfl, rfl, rfl, rfl, rfl⟩

theorem Reads.append {R k s is s1 is' s2} (h : Reads R k s is s1) (h' : Reads R k s1 is' s2) : Reads R k s (is ++ is') s2 := by
  induction h with
  | nil => exact h'
  | quiet _ _ _ _ q _ ih => exact .quiet _ _ _ _ q (ih h')
  | look _ _ _ _ _ q _ ih => exact .look _ _ _ _ _ q (ih h')
  | operand _ _ _ _ _ a b _ ih => exact .operand _ _ _ _ _ a b (ih h')
  | bin _ _ _ _ _ _ a b c _ ih => exact .bin _ _ _ _ _ _ a b c (ih h')
  | un _ _ _ _ _ _ a b c _ ih => exact .un _ _ _ _ _ _ a b c (ih h')
  | has _ _ _ _ _ _ _ _ a b c d _ ih => exact .has _ _ _ _ _ _ _ _ a b c d (ih h')
  | nonassoc _ _ _ _ _ _ a b c _ ih => exact .nonassoc _ _ _ _ _ _ a b c (ih h')
  | missing _ _ _ _ _ _ _ a b _ ih => exact .missing _ _ _ _ _ _ _ a b (ih h')
  | or_ _ _ _ _ _ _ _ a b c d _ ih => exact .or_ _ _ _ _ _ _ _ a b c d (ih h')

/-- Looking again does not change anything. -/
theorem peek_again {s t s1 u s2} (h : peek 0 s = some (t, s1)) (h' : peek 0 s1 = some (u, s2)) : u = t ∧ s2 = s1 := by
  have hb : s1.buf ≠ [] := by
    unfold peek at h
    cases h
    cases hs : s.buf with
    | nil => simp [pull, pullOne, hs]
    | cons => simp [pull, hs]
  have h0 : 0 + 1 - s1.buf.length = 0 := by
    cases hs : s1.buf with
    | nil => exact absurd hs hb
    | cons => simp
  unfold peek at h'
  simp only [h0, pull] at h'
  cases h'
  refine ⟨?_, rfl⟩
  unfold peek at h
  cases h
  rfl

/-- The next token after a quiet step. -/
theorem peek_buf {s t s1} (h : peek 0 s = some (t, s1)) : ∃ ts, s1.buf = t :: ts := by
  unfold peek at h
  cases h
  cases hs : s.buf with
  | nil => exact ⟨[], by simp [pull, pullOne, hs]⟩
  | cons a l => exact ⟨l, by simp [pull, hs]⟩

theorem peek_of_buf {s t ts} (h : s.buf = t :: ts) : peek 0 s = some (t, s) := by
  unfold peek
  simp [h, pull]

/-! ### Binding powers -/

def lbp : Opr → Nat
  | .bin k => ((getBP k).getD (0, 0)).1
  | _ => 0
def rbp : Opr → Nat
  | .bin k => ((getBP k).getD (0, 0)).2
  | .un k => getUnaryBP k
  | .has => 0

/-- The binary operators at the left end. -/
def leftBins (t : Tr) : List Opr := (leftSpine t).filter (· ≠ .has)

/-- An operand, possibly followed by `?`. -/
def isPost : Tr → Bool
  | leaf _ => true
  | has e _ => isPost e
  | _ => false

/-- Grouped according to the binding powers. -/
def BGrouped : Tr → Prop
  | leaf _ => True
  | bin k l r => (getBP k).isSome ∧ (∀ o ∈ rightSpine l, lbp (.bin k) < rbp o) ∧ (∀ o ∈ leftBins r, rbp (.bin k) < lbp o) ∧
      BGrouped l ∧ BGrouped r
  | un k e => (k = .op_not ∨ k = .op_negate) ∧ (∀ o ∈ leftBins e, rbp (.un k) < lbp o) ∧ BGrouped e
  | has e _ => isPost e = true ∧ BGrouped e

/-- The next token is not one that would go on with a tree having these operators at its right end. -/
def StopsAt (t : Token) (e : Tr) : Prop :=
  (∀ p, getBP t.kind = some p → ∀ o ∈ rightSpine e, p.1 < rbp o) ∧ (t.kind = .question → isPost e = true)

theorem table_bin (k : TK) : (table (.bin k)).isSome = (getBP k).isSome := by cases k <;> rfl

/-! ### Operands are no operators -/

/-- All results of `m` satisfy `P`. -/
def Ret {α : Type} (P : α → Prop) (m : PM α) : Prop := ∀ s a s', m s = some (a, s') → P a

theorem Ret.bind {α β : Type} {P : β → Prop} {m : PM α} {f : α → PM β} (h : ∀ a, Ret P (f a)) : Ret P (m >>= f) := by
  intro s b s' e
  obtain ⟨a, s1, -, e2⟩ := PM.bind_some e
  exact h a _ _ _ e2

theorem Ret.bind' {α β : Type} {P : β → Prop} {Q : α → Prop} {m : PM α} {f : α → PM β} (h0 : Ret Q m)
    (h : ∀ a, Q a → Ret P (f a)) : Ret P (m >>= f) := by
  intro s b s' e
  obtain ⟨a, s1, e1, e2⟩ := PM.bind_some e
  exact h a (h0 _ _ _ e1) _ _ _ e2

theorem Ret.pure {α : Type} {P : α → Prop} {a : α} (h : P a) : Ret P (pure a : PM α) := by
  intro s b s' e; cases e; exact h

theorem Ret.withSync {α : Type} {P : α → Prop} {k : TK} {m : PM α} (h : Ret P m) : Ret P (withSync k m) := by
  unfold Nixf.withSync
  exact .bind fun _ => .bind' h fun _ ha => .bind fun _ => .pure ha

theorem Ret.withState {α : Type} {P : α → Prop} {st : PS} {m : PM α} (h : Ret P m) : Ret P (withState st m) := by
  unfold Nixf.withState
  exact .bind fun _ => .bind' h fun _ ha => .bind fun _ => .pure ha

theorem Ret.sema {α : Type} {P : α → Prop} {f : Bytes → SemaSt → α × SemaSt} (h : ∀ src s, P (f src s).1) :
    Ret P (Nixf.sema f) := by
  intro s a s' e
  cases e
  exact h _ _

/-- The node is an operand. -/
def IsLeaf (n : Node) : Prop := tr n = .leaf n

macro "ret" : tactic => `(tactic| repeat' (first
  | with_reducible apply Ret.withSync | with_reducible apply Ret.withState
  | exact Ret.pure rfl | exact Ret.pure ‹IsLeaf _›
  | (with_reducible refine Ret.bind ?_; intro _) | split))

theorem parseString_leaf (R k i) : Ret IsLeaf (parseString R k i) := by unfold parseString; ret
theorem parseExprPath_leaf (R k) : Ret IsLeaf (parseExprPath R k) := by unfold parseExprPath; ret
theorem parseExprParen_leaf (R k) : Ret IsLeaf (parseExprParen R k) := by unfold parseExprParen; ret
theorem parseExprList_leaf (R k) : Ret IsLeaf (parseExprList R k) := by unfold parseExprList; ret
theorem parseExprAttrs_leaf (R k) : Ret IsLeaf (parseExprAttrs R k) := by
  unfold parseExprAttrs; ret
  exact .sema fun _ _ => rfl

theorem parseExprSimple_leaf (R k) : Ret IsLeaf (parseExprSimple R k) := by
  unfold parseExprSimple
  ret
  · exact parseString_leaf R k _
  · exact parseString_leaf R k _
  · exact parseExprPath_leaf R k
  · exact parseExprParen_leaf R k
  · exact parseExprAttrs_leaf R k
  · exact parseExprAttrs_leaf R k
  · exact parseExprList_leaf R k

theorem parseExprSelect_leaf (R k) : Ret IsLeaf (parseExprSelect R k) := by
  unfold parseExprSelect
  refine .bind' (parseExprSimple_leaf R k) fun e he => ?_
  ret

theorem parseExprApp_leaf (R k) : Ret IsLeaf (parseExprApp R k) := by
  unfold parseExprApp
  refine .bind' (parseExprSelect_leaf R k) fun e he => ?_
  ret

/-! ### The operator parser -/

theorem clean_cons {i : RItem} {is : List RItem} : Clean (i :: is) ↔ (∃ j, i = .ok j) ∧ Clean is := by
  unfold Clean; simp

theorem clean_append {a b : List RItem} : Clean (a ++ b) ↔ Clean a ∧ Clean b := by
  unfold Clean
  simp only [List.mem_append]
  exact ⟨fun h => ⟨fun i hi => h i (.inl hi), fun i hi => h i (.inr hi)⟩, fun h i hi => hi.elim (h.1 i) (h.2 i)⟩

theorem items_append (a b : List RItem) : items (a ++ b) = items a ++ items b := by simp [items]

/-- What is known about a tree read with the right binding power `lr` on its left, in the state after it. -/
structure Read (lr : Nat) (n : Node) (s' : PState) : Prop where
  grouped : BGrouped (tr n)
  left : ∀ o ∈ leftBins (tr n), lr < lbp o
  stop : ∃ t ts, s'.buf = t :: ts ∧ (∀ p, getBP t.kind = some p → p.1 < lr) ∧ t.kind ≠ .question ∧ StopsAt t (tr n)

theorem isNull_eq {n : Node} (h : n.isNull = true) : n = .null := by cases n <;> first | rfl | cases h

theorem lbp_of {k : TK} {a b : Nat} (h : getBP k = some (a, b)) : lbp (.bin k) = a ∧ rbp (.bin k) = b := by
  simp [lbp, rbp, h]

/-- All binary operators bind tighter than `l`. -/
def Tight (l : Nat) (is : List Item) : Prop := ∀ b, .bin b ∈ is → l < lbp (.bin b)

/-- The operator reported as not associative conflicts with one in front of it: with the one whose binding power is `lr`,
or with one of those read in `is`. -/
def Conflict (lr : Nat) (is : List Item) (rest : List RItem) : Prop :=
  ∃ o rest' p, rest = .ok (.bin o) :: rest' ∧ getBP o = some p ∧
    ((p.1 = lr ∧ Tight p.1 is) ∨
      ∃ a o' q x, is = a ++ .bin o' :: x ∧ getBP o' = some q ∧ p.1 = q.2 ∧ Tight p.1 x)

theorem Conflict.prepend {lr : Nat} {is a : List Item} {rest : List RItem} {o : TK} {q : Nat × Nat} (h : Conflict q.2 is rest)
    (ho : getBP o = some q) : Conflict lr (a ++ .bin o :: is) rest := by
  obtain ⟨o1, rest', p, h1, h2, h3⟩ := h
  refine ⟨o1, rest', p, h1, h2, .inr ?_⟩
  rcases h3 with ⟨h3, h4⟩ | ⟨a', o', q', x, rfl, h4, h5, h6⟩
  · exact ⟨a, o, q, is, rfl, ho, h3, h4⟩
  · exact ⟨a ++ .bin o :: a', o', q', x, by simp, h4, h5, h6⟩

theorem Conflict.extend {lr : Nat} {is : List Item} {rest r2 : List RItem} (h : Conflict lr is rest) : Conflict lr is (rest ++ r2) := by
  obtain ⟨o, rest', p, rfl, h⟩ := h
  exact ⟨o, rest' ++ r2, p, rfl, h⟩

theorem cons_split {α : Type} {b c d : List α} {x y : α} (h : x :: b = c ++ y :: d) :
    (c = [] ∧ x = y ∧ b = d) ∨ ∃ c', c = x :: c' ∧ b = c' ++ y :: d := by
  cases c with
  | nil => simp only [List.nil_append, List.cons.injEq] at h; exact .inl ⟨rfl, h⟩
  | cons z c => simp only [List.cons_append, List.cons.injEq] at h; obtain ⟨rfl, h⟩ := h; exact .inr ⟨c, rfl, h⟩

theorem items_ok (i : Item) (is : List RItem) : items (.ok i :: is) = i :: items is := rfl

theorem append_split {α : Type} {a b c d : List α} {x : α} (h : a ++ b = c ++ x :: d) :
    (∃ d', a = c ++ x :: d' ∧ d = d' ++ b) ∨ (∃ c', c = a ++ c' ∧ b = c' ++ x :: d) := by
  rcases List.append_eq_append_iff.mp h with ⟨c', h1, h2⟩ | ⟨c', h1, h2⟩
  · exact .inr ⟨c', h1, h2⟩
  · cases c' with
    | nil => exact .inr ⟨[], by simpa using h1.symm, by simpa using h2.symm⟩
    | cons y c' =>
      simp only [List.cons_append, List.cons.injEq] at h2
      obtain ⟨rfl, rfl⟩ := h2
      exact .inl ⟨c', h1, rfl⟩

theorem getBP_le {k : TK} {p : Nat × Nat} (h : getBP k = some p) : p.1 ≤ p.2 + 1 := by
  cases k <;> first | (simp only [getBP] at h; cases h; decide) | (simp [getBP] at h)

theorem mem_leftBins_bin {k : TK} {l r : Tr} {o : Opr} : o ∈ leftBins (.bin k l r) ↔ o = .bin k ∨ o ∈ leftBins l := by
  simp only [leftBins, leftSpine, List.filter_cons]
  rw [if_pos (by simp)]
  exact List.mem_cons

theorem leftBins_has {e : Tr} {p : Node} : leftBins (.has e p) = leftBins e := by
  simp only [leftBins, leftSpine, List.filter_cons]
  rw [if_neg (by simp)]

/-- The operators of a tree bind tighter than `l` if those at its left end do and `l` is not too large. -/
theorem tight_of_left (l : Nat) (hl : l ≤ 11) (t : Tr) : BGrouped t → (∀ o ∈ leftBins t, l < lbp o) → Tight l t.yield := by
  induction t with
  | leaf n => intro _ _ b hb; simp [Tr.yield] at hb
  | bin k a b iha ihb =>
    rintro ⟨h1, h2, h3, h4, h5⟩ hlb o ho
    obtain ⟨p, hp⟩ := Option.isSome_iff_exists.mp h1
    obtain ⟨hk1, hk2⟩ := lbp_of hp
    have hle := getBP_le hp
    have hk := hlb (.bin k) (mem_leftBins_bin.mpr (.inl rfl))
    simp only [Tr.yield, List.mem_append, List.mem_cons, Item.bin.injEq] at ho
    rcases ho with ho | rfl | ho
    · exact iha h4 (fun o' ho' => hlb o' (mem_leftBins_bin.mpr (.inr ho'))) o ho
    · exact hk
    · refine ihb h5 (fun o' ho' => ?_) o ho
      have := h3 o' ho'
      omega
  | un k e ih =>
    rintro ⟨h1, h2, h3⟩ hlb o ho
    simp only [Tr.yield, List.mem_cons, reduceCtorEq, false_or] at ho
    refine ih h3 (fun o' ho' => ?_) o ho
    have := h2 o' ho'
    have : 11 ≤ rbp (.un k) := by rcases h1 with rfl | rfl <;> decide
    omega
  | has e p ih =>
    rintro ⟨h1, h2⟩ hlb o ho
    simp only [Tr.yield, List.mem_append, List.mem_singleton, reduceCtorEq, or_false] at ho
    exact ih h2 (fun o' ho' => hlb o' (by rw [leftBins_has]; exact ho')) o ho

/-- Operators that can be reported in a context with binding power `lr` have small binding powers. -/
def CtxOk (lr : Nat) : Prop := ∀ o p, getBP o = some p → p.1 = lr → lr ≤ 11

theorem lb_vals {k : TK} {p : Nat × Nat} (h : getBP k = some p) : p.1 ∈ [1, 2, 4, 5, 7, 9, 10, 12, 14, 16, 19] := by
  cases k <;> first | (simp only [getBP] at h; cases h; decide) | (simp [getBP] at h)
theorem rb_vals {k : TK} {p : Nat × Nat} (h : getBP k = some p) : p.2 ∈ [1, 2, 3, 6, 8, 9, 10, 11, 15, 17, 18] := by
  cases k <;> first | (simp only [getBP] at h; cases h; decide) | (simp [getBP] at h)

theorem ctxOk_bin {k : TK} {q : Nat × Nat} (h : getBP k = some q) : CtxOk q.2 := by
  intro o p hp he
  have h1 := rb_vals h
  have h2 := lb_vals hp
  simp only [List.mem_cons, List.not_mem_nil, or_false] at h1 h2
  omega
theorem ctxOk_un (k : TK) : CtxOk (getUnaryBP k) := by
  intro o p hp he
  have h2 := lb_vals hp
  have h1 : getUnaryBP k = 11 ∨ getUnaryBP k = 100 := by
    unfold getUnaryBP; split <;> simp
  simp only [List.mem_cons, List.not_mem_nil, or_false] at h2
  omega
theorem ctxOk_6 : CtxOk 6 := fun _ _ _ _ => by decide

/-- What `parseExprOpBP` returns. -/
def OpPost (R : Rec) (k lr : Nat) (s : PState) (n : Node) (s' : PState) : Prop :=
  (n = .null ∧ ∃ t s1, peek 0 s = some (t, s1) ∧ parseExprApp R k s1 = some (.null, s')) ∨
  (n.isNull = false ∧ ∃ is, Reads R k s is s' ∧ (Clean is → items is = (tr n).yield ∧ Read lr n s') ∧
    (CtxOk lr → ∀ is0 rest, is = is0 ++ .nonassoc :: rest → Clean is0 → Conflict lr (items is0) rest))

/-- What `opLoop` returns. -/
def LoopPost (R : Rec) (k lr : Nat) (pre : Node) (s : PState) (n : Node) (s' : PState) : Prop :=
  n.isNull = false ∧ ∃ is, Reads R k s is s' ∧
    (Clean is → BGrouped (tr pre) → (∀ o ∈ leftBins (tr pre), lr < lbp o) →
      (∀ t s1, peek 0 s = some (t, s1) → StopsAt t (tr pre)) → (tr n).yield = (tr pre).yield ++ items is ∧ Read lr n s') ∧
    (CtxOk lr → ∀ is0 rest, is = is0 ++ .nonassoc :: rest → Clean is0 → BGrouped (tr pre) →
      (∀ o ∈ leftBins (tr pre), lr < lbp o) → (∀ t s1, peek 0 s = some (t, s1) → StopsAt t (tr pre)) →
      Conflict lr ((tr pre).yield ++ items is0) rest)

/-- An error that is not the first one. -/
theorem no_first {e : RItem} {b is0 rest : List RItem} (he : ∀ j, e ≠ .ok j) (hn : e ≠ .nonassoc) (h : e :: b = is0 ++ .nonassoc :: rest)
    (hc : Clean is0) : False := by
  rcases cons_split h with ⟨-, h, -⟩ | ⟨c', rfl, -⟩
  · exact hn h
  · obtain ⟨⟨j, hj⟩, -⟩ := clean_cons.mp hc
    exact he j hj

theorem op_reads (R : Rec) (k j : Nat) :
    (∀ s lr n s', parseExprOpBP R k j lr s = some (n, s') → OpPost R k lr s n s') ∧
    (∀ s lr pre n s', opLoop R k j lr pre s = some (n, s') → pre.isNull = false → LoopPost R k lr pre s n s') := by
  induction j with
  | zero =>
    constructor
    · intro s lr n s' h; rw [parseExprOpBP] at h; cases h
    · intro s lr pre n s' h; rw [opLoop] at h; cases h
  | succ j ih =>
    obtain ⟨ih1, ih2⟩ := ih
    constructor
    · intro s lr n s' h
      rw [parseExprOpBP] at h
      obtain ⟨tok, s1, e1, h⟩ := PM.bind_some h
      split at h
      · rename_i hk
        obtain ⟨_, s2, e2, h⟩ := PM.bind_some h
        obtain ⟨ho, s3, e3, h⟩ := PM.bind_some h
        obtain ⟨e, s4, e4, h⟩ := PM.bind_some h
        obtain ⟨_, s5, e5, h⟩ := PM.bind_some h
        obtain ⟨c, s6, e6, h⟩ := PM.bind_some h
        obtain ⟨hd, s7, e7, h⟩ := PM.bind_some h
        have q3 := fresh_quiet e3
        have q67 := (lastR_quiet e6).trans (fresh_quiet e7)
        have hun : (table (.un tok.kind)).isSome := by rcases hk with hk | hk <;> rw [hk] <;> rfl
        obtain ⟨g1, is2, g2, g3, g4⟩ := ih2 _ _ _ _ _ h rfl
        rcases ih1 _ _ _ _ e4 with ⟨rfl, t, s3', p1, p2⟩ | ⟨hnn, is1, r1, r2, r3⟩
        · -- the operand is missing
          obtain ⟨c', s5', e5', e5''⟩ := PM.bind_some (show (lastR >>= fun c => diagNullExpr c _) s4 = some (_, s5) from e5)
          refine .inr ⟨g1, .ok (.un tok.kind) :: .missing :: is2, ?_, ?_, ?_⟩
          · refine .un _ _ _ _ _ _ e1 hun e2 (.quiet _ _ _ _ q3 (.look _ _ _ _ _ p1 ?_))
            exact .missing _ c' _ _ s5 _ _ p2 ⟨s5', lastR_quiet e5', e5''⟩ (.quiet _ _ _ _ q67 g2)
          · intro hc
            obtain ⟨_, hc⟩ := clean_cons.mp hc
            obtain ⟨⟨j, hj⟩, -⟩ := clean_cons.mp hc
            cases hj
          · intro _ is0 rest he hc
            rcases cons_split he with ⟨-, he2, -⟩ | ⟨c', rfl, he2⟩
            · cases he2
            · exact (no_first (by simp) (by simp) he2 (clean_cons.mp hc).2).elim
        · have q5 : s5 = s4 := by
            unfold needExpr whenP at e5
            replace e5 := ite_neg (by simp [hnn]) e5
            cases e5; rfl
          subst q5
          have key : Read (getUnaryBP tok.kind) e s5 → BGrouped (tr (.exprUnaryOp hd (.op ho tok.kind) e)) ∧
              (∀ o ∈ leftBins (tr (.exprUnaryOp hd (.op ho tok.kind) e)), lr < lbp o) ∧
              ∀ t s1, peek 0 s7 = some (t, s1) → StopsAt t (tr (.exprUnaryOp hd (.op ho tok.kind) e)) := by
            intro rd
            obtain ⟨t, ts, b1, b2, b3, b4⟩ := rd.stop
            refine ⟨⟨hk, rd.left, rd.grouped⟩, ?_, ?_⟩
            · intro o ho; cases ho
            intro t' s'' hp
            rw [peek_of_buf (q67.buf.trans b1)] at hp
            cases hp
            refine ⟨?_, fun hq => absurd hq b3⟩
            intro p hp o ho
            simp only [tr, rightSpine, List.mem_cons] at ho
            rcases ho with rfl | ho
            · exact b2 p hp
            · exact b4.1 p hp o ho
          refine .inr ⟨g1, .ok (.un tok.kind) :: (is1 ++ is2), ?_, ?_, ?_⟩
          · exact .un _ _ _ _ _ _ e1 hun e2 (.quiet _ _ _ _ q3 (r1.append (.quiet _ _ _ _ q67 g2)))
          · intro hc
            obtain ⟨_, hc⟩ := clean_cons.mp hc
            obtain ⟨hc1, hc2⟩ := clean_append.mp hc
            obtain ⟨i1, rd⟩ := r2 hc1
            obtain ⟨k1, k2, k3⟩ := key rd
            obtain ⟨y, rd2⟩ := g3 hc2 k1 k2 k3
            refine ⟨?_, rd2⟩
            rw [y, items_ok, items_append, i1]
            rfl
          · intro hcx is0 rest he hc
            rcases cons_split he with ⟨-, he2, -⟩ | ⟨c', rfl, he2⟩
            · cases he2
            · have hc := (clean_cons.mp hc).2
              rw [items_ok]
              rcases append_split he2 with ⟨d', rfl, rfl⟩ | ⟨c2, rfl, rfl⟩
              · obtain ⟨o, rest', p, h1, h2, h3⟩ := (r3 (ctxOk_un _) _ _ rfl hc).extend (r2 := is2)
                refine ⟨o, rest', p, h1, h2, .inr ?_⟩
                rcases h3 with ⟨h3, -⟩ | ⟨a, o', q, x, h3, h4⟩
                · have hv := lb_vals h2
                  have : getUnaryBP tok.kind = 11 ∨ getUnaryBP tok.kind = 100 := by
                    rcases hk with hk | hk <;> rw [hk] <;> simp [getUnaryBP]
                  simp only [List.mem_cons, List.not_mem_nil, or_false] at hv
                  omega
                · exact ⟨.un tok.kind :: a, o', q, x, by rw [h3]; rfl, h4⟩
              · obtain ⟨hc1, hc2⟩ := clean_append.mp hc
                obtain ⟨i1, rd⟩ := r2 hc1
                obtain ⟨k1, k2, k3⟩ := key rd
                have := g4 hcx _ _ rfl hc2 k1 k2 k3
                simp only [tr, Tr.yield] at this
                rw [items_append, i1]
                exact this
      · obtain ⟨pre, s2, e2, h⟩ := PM.bind_some h
        have hleaf := parseExprApp_leaf R k _ _ _ e2
        split at h
        · rename_i hn
          cases h
          rw [isNull_eq hn] at e2
          exact .inl ⟨rfl, tok, s1, e1, e2⟩
        · rename_i hn
          have hn' : pre.isNull = false := by simpa using hn
          obtain ⟨g1, is2, g2, g3, g4⟩ := ih2 _ _ _ _ _ h hn'
          refine .inr ⟨g1, .ok (.operand pre) :: is2, .look _ _ _ _ _ e1 (.operand _ _ _ _ _ e2 hn' g2), ?_, ?_⟩
          all_goals
            have hl : tr pre = .leaf pre := hleaf
            have k1 : BGrouped (tr pre) := by rw [hl]; trivial
            have k2 : ∀ o ∈ leftBins (tr pre), lr < lbp o := by rw [hl]; intro o ho; cases ho
            have k3 : ∀ t s1, peek 0 s2 = some (t, s1) → StopsAt t (tr pre) := by
              intro t s'' _
              rw [hl]
              exact ⟨fun p _ o ho => by simp [rightSpine] at ho, fun _ => rfl⟩
          · intro hc
            obtain ⟨_, hc⟩ := clean_cons.mp hc
            obtain ⟨y, rd⟩ := g3 hc k1 k2 k3
            refine ⟨?_, rd⟩
            rw [y, hl]; rfl
          · intro hcx is0 rest he hc
            rcases cons_split he with ⟨-, he2, -⟩ | ⟨c', rfl, he2⟩
            · cases he2
            · have := g4 hcx _ _ he2 (clean_cons.mp hc).2 k1 k2 k3
              rw [hl] at this
              exact this
    · intro s lr pre n s' h hpre
      rw [opLoop] at h
      obtain ⟨tok, s1, e1, h⟩ := PM.bind_some h
      obtain ⟨ts, hb⟩ := peek_buf e1
      rcases hbp : getBP tok.kind with _ | ⟨lb, rb⟩ <;> rw [hbp] at h <;> simp only at h
      rotate_left
      · obtain ⟨hl, hr⟩ := lbp_of hbp
        have hbin : (table (.bin tok.kind)).isSome := by rw [table_bin, hbp]; rfl
        split at h
        · rename_i hgt
          cases h
          refine ⟨hpre, [], .look _ _ _ _ _ e1 (.nil _), ?_, fun _ is0 rest he => by simp at he⟩
          intro _ hg hlb hst
          refine ⟨by simp [items], hg, hlb, tok, ts, hb, ?_, ?_, hst _ _ e1⟩
          · intro p hp; rw [hbp] at hp; cases hp; exact hgt
          · intro hq; rw [hq] at hbp; cases hbp
        · rename_i hgt
          obtain ⟨_, s2, e2, h⟩ := PM.bind_some h
          obtain ⟨_, s3, e3, h⟩ := PM.bind_some h
          obtain ⟨ho, s4, e4, h⟩ := PM.bind_some h
          obtain ⟨rhs, s5, e5, h⟩ := PM.bind_some h
          have q4 := fresh_quiet e4
          -- everything up to the right operand
          have pre_reads : ∃ is0, (∀ is s9, Reads R k s4 is s9 → Reads R k s (is0 ++ .ok (.bin tok.kind) :: is) s9) ∧
              ((is0 = [] ∧ lr < lb) ∨ (is0 = [.nonassoc] ∧ lr = lb)) := by
            by_cases hlr : lr = lb
            · replace e2 := ite_pos hlr e2
              refine ⟨[.nonassoc], ?_, ?_⟩
              · intro is s9 hr9
                have hb2 : s2.buf = tok :: ts := (emitD_quiet e2).buf.trans hb
                exact .nonassoc _ _ _ _ _ _ e1 hbin e2 (.bin _ _ _ _ _ _ (peek_of_buf hb2) hbin e3 (.quiet _ _ _ _ q4 hr9))
              · exact .inr ⟨rfl, hlr⟩
            · replace e2 := ite_neg hlr e2
              cases e2
              refine ⟨[], ?_, ?_⟩
              · intro is s9 hr9
                exact .bin _ _ _ _ _ _ e1 hbin e3 (.quiet _ _ _ _ q4 hr9)
              · exact .inl ⟨rfl, by omega⟩
          obtain ⟨isn, pr1, pr2⟩ := pre_reads
          -- the operator itself is reported, or the error comes later
          have conf : ∀ isr, CtxOk lr → ∀ is0 rest, isn ++ .ok (.bin tok.kind) :: isr = is0 ++ .nonassoc :: rest → Clean is0 →
              BGrouped (tr pre) → (∀ o ∈ leftBins (tr pre), lr < lbp o) →
              (∀ is0' , is0 = .ok (.bin tok.kind) :: is0' → isr = is0' ++ .nonassoc :: rest → lr < lb → Clean is0' →
                Conflict lr ((tr pre).yield ++ .bin tok.kind :: items is0') rest) →
              Conflict lr ((tr pre).yield ++ items is0) rest := by
            intro isr hcx is0 rest he hc hg hlb hlater
            rcases pr2 with ⟨rfl, hlt⟩ | ⟨rfl, hlt⟩
            · rcases cons_split he with ⟨-, he2, -⟩ | ⟨c', rfl, he2⟩
              · cases he2
              · exact hlater c' rfl he2 hlt (clean_cons.mp hc).2
            · rcases cons_split he with ⟨rfl, -, he2⟩ | ⟨c', rfl, he2⟩
              · refine ⟨tok.kind, isr, _, he2.symm, hbp, .inl ⟨hlt.symm, ?_⟩⟩
                rw [show items [] = [] from rfl, List.append_nil, ← hlt]
                exact tight_of_left lr (hcx _ _ hbp hlt.symm) _ hg hlb
              · obtain ⟨⟨j, hj⟩, -⟩ := clean_cons.mp hc
                cases hj
          rcases ih1 _ _ _ _ e5 with ⟨rfl, t, s4', p1, p2⟩ | ⟨hnn, is1, r1, r2, r3⟩
          · replace h := ite_pos rfl h
            obtain ⟨c, s6, e6, h⟩ := PM.bind_some h
            obtain ⟨_, s7, e7, h⟩ := PM.bind_some h
            obtain ⟨g1, is2, g2, g3, g4⟩ := ih2 _ _ _ _ _ h hpre
            refine ⟨g1, _, pr1 _ _ (.look _ _ _ _ _ p1 (.missing _ c _ _ s7 _ _ p2 ⟨s6, lastR_quiet e6, e7⟩ g2)), ?_, ?_⟩
            · intro hc
              obtain ⟨_, hc⟩ := clean_append.mp hc
              obtain ⟨_, hc⟩ := clean_cons.mp hc
              obtain ⟨⟨j, hj⟩, -⟩ := clean_cons.mp hc
              cases hj
            · intro hcx is0 rest he hc hg hlb hst
              refine conf _ hcx is0 rest he hc hg hlb ?_
              intro is0' _ he' _ hc'
              exact (no_first (by simp) (by simp) he' hc').elim
          · replace h := ite_neg (by simp [hnn]) h
            obtain ⟨hd, s6, e6, h⟩ := PM.bind_some h
            have q6 := fresh_quiet e6
            obtain ⟨g1, is2, g2, g3, g4⟩ := ih2 _ _ _ _ _ h rfl
            have key : BGrouped (tr pre) → (∀ o ∈ leftBins (tr pre), lr < lbp o) →
                (∀ t s1, peek 0 s = some (t, s1) → StopsAt t (tr pre)) → lr < lb → Read rb rhs s5 →
                BGrouped (tr (.exprBinOp hd (.op ho tok.kind) pre rhs)) ∧
                (∀ o ∈ leftBins (tr (.exprBinOp hd (.op ho tok.kind) pre rhs)), lr < lbp o) ∧
                ∀ t s1, peek 0 s6 = some (t, s1) → StopsAt t (tr (.exprBinOp hd (.op ho tok.kind) pre rhs)) := by
              intro hg hlb hst hlt rd
              obtain ⟨t, ts', b1, b2, b3, b4⟩ := rd.stop
              refine ⟨⟨by rw [hbp]; rfl, by rw [hl]; exact (hst _ _ e1).1 _ hbp, by rw [hr]; exact rd.left, hg, rd.grouped⟩, ?_, ?_⟩
              · intro o ho
                rcases mem_leftBins_bin.mp ho with rfl | ho
                · rw [hl]; exact hlt
                · exact hlb o ho
              · intro t' s'' hp
                rw [peek_of_buf (q6.buf.trans b1)] at hp
                cases hp
                refine ⟨?_, fun hq => absurd hq b3⟩
                intro p hp o ho
                simp only [tr, rightSpine, List.mem_cons] at ho
                rcases ho with rfl | ho
                · rw [hr]; exact b2 p hp
                · exact b4.1 p hp o ho
            refine ⟨g1, _, pr1 _ _ (r1.append (.quiet _ _ _ _ q6 g2)), ?_, ?_⟩
            · intro hc hg hlb hst
              obtain ⟨hc0, hc⟩ := clean_append.mp hc
              obtain ⟨_, hc⟩ := clean_cons.mp hc
              obtain ⟨hc1, hc2⟩ := clean_append.mp hc
              rcases pr2 with ⟨rfl, hlt⟩ | ⟨rfl, -⟩
              · obtain ⟨i1, rd⟩ := r2 hc1
                obtain ⟨k1, k2, k3⟩ := key hg hlb hst hlt rd
                obtain ⟨y, rd2⟩ := g3 hc2 k1 k2 k3
                refine ⟨?_, rd2⟩
                rw [y, List.nil_append, items_ok, items_append, i1]
                simp [tr, Tr.yield]
              · obtain ⟨⟨j, hj⟩, -⟩ := clean_cons.mp hc0
                cases hj
            · intro hcx is0 rest he hc hg hlb hst
              refine conf _ hcx is0 rest he hc hg hlb ?_
              intro is0' _ he' hlt hc'
              rcases append_split he' with ⟨d', rfl, rfl⟩ | ⟨c2, rfl, rfl⟩
              · exact (Conflict.prepend (q := (lb, rb)) (r3 (ctxOk_bin hbp) _ _ rfl hc') hbp).extend
              · obtain ⟨hc1, hc2⟩ := clean_append.mp hc'
                obtain ⟨i1, rd⟩ := r2 hc1
                obtain ⟨k1, k2, k3⟩ := key hg hlb hst hlt rd
                have := g4 hcx _ _ rfl hc2 k1 k2 k3
                simp only [tr, Tr.yield] at this
                rw [items_append, i1]
                simpa using this
      · split at h
        · rename_i hq
          obtain ⟨_, s2, e2, h⟩ := PM.bind_some h
          obtain ⟨ho, s3, e3, h⟩ := PM.bind_some h
          obtain ⟨path, s4, e4, h⟩ := PM.bind_some h
          obtain ⟨c, s5, e5, h⟩ := PM.bind_some h
          obtain ⟨hd, s6, e6, h⟩ := PM.bind_some h
          have q56 := (lastR_quiet e5).trans (fresh_quiet e6)
          obtain ⟨g1, is2, g2, g3, g4⟩ := ih2 _ _ _ _ _ h rfl
          refine ⟨g1, .ok (.has path) :: is2, .has _ _ _ _ _ _ _ _ e1 hq e2 ⟨s3, fresh_quiet e3, e4⟩ (.quiet _ _ _ _ q56 g2), ?_, ?_⟩
          rotate_left
          · intro hcx is0 rest he hc hg hlb hst
            rcases cons_split he with ⟨-, he2, -⟩ | ⟨c', rfl, he2⟩
            · cases he2
            · have hp := (hst _ _ e1).2 hq
              have := g4 hcx _ _ he2 (clean_cons.mp hc).2 ⟨hp, hg⟩ (by rw [tr, leftBins_has]; exact hlb) (by
                intro t s'' _
                exact ⟨fun p _ o ho => by simp [tr, rightSpine] at ho, fun _ => hp⟩)
              rw [items_ok]
              simpa [tr, Tr.yield] using this
          intro hc hg hlb hst
          obtain ⟨_, hc⟩ := clean_cons.mp hc
          have hp := (hst _ _ e1).2 hq
          obtain ⟨y, rd⟩ := g3 hc ⟨hp, hg⟩ (by
            intro o ho
            simp only [tr, leftBins, leftSpine, List.filter_cons] at ho
            rw [if_neg (by simp)] at ho
            exact hlb o ho) (by
            intro t s'' _
            exact ⟨fun p _ o ho => by simp [tr, rightSpine] at ho, fun _ => hp⟩)
          refine ⟨?_, rd⟩
          rw [y]
          simp [tr, Tr.yield, items]
        · rename_i hq
          split at h
          · rename_i hor
            obtain ⟨_, s2, e2, h⟩ := PM.bind_some h
            obtain ⟨_, s3, e3, h⟩ := PM.bind_some h
            obtain ⟨ho, s4, e4, h⟩ := PM.bind_some h
            obtain ⟨rhs, s5, e5, h⟩ := PM.bind_some h
            have q4 := fresh_quiet e4
            have fin : ∀ is, Reads R k s4 is s' → n.isNull = false → LoopPost R k lr pre s n s' := by
              intro is hr hn
              refine ⟨hn, .or_ :: is, .or_ _ _ _ _ _ _ _ e1 hor ⟨_, rfl, e2⟩ e3 (.quiet _ _ _ _ q4 hr), ?_, ?_⟩
              · intro hc
                obtain ⟨⟨j, hj⟩, -⟩ := clean_cons.mp hc
                cases hj
              · intro _ is0 rest he hc
                exact (no_first (by simp) (by simp) he hc).elim
            rcases ih1 _ _ _ _ e5 with ⟨rfl, t, s4', p1, p2⟩ | ⟨hnn, is1, r1, r2, r3⟩
            · replace h := ite_pos rfl h
              obtain ⟨c, s6, e6, h⟩ := PM.bind_some h
              obtain ⟨_, s7, e7, h⟩ := PM.bind_some h
              obtain ⟨g1, is2, g2, g3, g4⟩ := ih2 _ _ _ _ _ h hpre
              exact fin _ (.look _ _ _ _ _ p1 (.missing _ c _ _ s7 _ _ p2 ⟨s6, lastR_quiet e6, e7⟩ g2)) g1
            · replace h := ite_neg (by simp [hnn]) h
              obtain ⟨hd, s6, e6, h⟩ := PM.bind_some h
              obtain ⟨g1, is2, g2, g3, g4⟩ := ih2 _ _ _ _ _ h rfl
              exact fin _ (r1.append (.quiet _ _ _ _ (fresh_quiet e6) g2)) g1
          · cases h
            refine ⟨hpre, [], .look _ _ _ _ _ e1 (.nil _), ?_, fun _ is0 rest he => by simp at he⟩
            intro _ hg hlb hst
            refine ⟨by simp [items], hg, hlb, tok, ts, hb, ?_, hq, hst _ _ e1⟩
            intro p hp; rw [hbp] at hp; cases hp

end Verif.Nixf.Prec
