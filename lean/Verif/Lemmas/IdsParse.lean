import Verif.Lemmas.IdsNode
import Verif.Lemmas.ParserInv
/-
Identities of nodes: the parser.
-/
namespace Verif.Nixf
open Scoping Node

/-- From the next identity `i`, the results satisfy `R`. -/
def WP {α : Type} (m : PM α) (i : Nat) (R : α → Nat → Prop) : Prop :=
  ∀ s a s', s.next = i → m s = some (a, s') → i ≤ s'.next ∧ R a s'.next

/-- No identity is used. -/
def Quiet {α : Type} (m : PM α) : Prop := ∀ s a s', m s = some (a, s') → s'.next = s.next

theorem WP.bind {α β : Type} {m : PM α} {f : α → PM β} {i : Nat} {Q : α → Nat → Prop} {R : β → Nat → Prop} (h : WP m i Q)
    (hf : ∀ a j, i ≤ j → Q a j → WP (f a) j R) : WP (m >>= f) i R := by
  intro s b s' hs he
  rw [PM.bind_def] at he
  cases hm : m s with
  | none => rw [hm] at he; cases he
  | some p =>
    obtain ⟨a, s1⟩ := p
    rw [hm] at he
    obtain ⟨h1, h2⟩ := h s a s1 hs hm
    obtain ⟨h3, h4⟩ := hf a _ h1 h2 s1 b s' rfl he
    exact ⟨by omega, h4⟩

theorem WP.q {α β : Type} {m : PM α} {f : α → PM β} {i : Nat} {R : β → Nat → Prop} (h : Quiet m)
    (hf : ∀ a, WP (f a) i R) : WP (m >>= f) i R := by
  intro s b s' hs he
  rw [PM.bind_def] at he
  cases hm : m s with
  | none => rw [hm] at he; cases he
  | some p =>
    obtain ⟨a, s1⟩ := p
    rw [hm] at he
    exact hf a s1 b s' ((h s a s1 hm).trans hs) he

theorem WP.pure {α : Type} {a : α} {i : Nat} {R : α → Nat → Prop} (h : R a i) : WP (pure a) i R := by
  intro s b s' hs he
  cases he
  rw [hs]
  exact ⟨Nat.le_refl _, h⟩

theorem WP.fail {α : Type} {i : Nat} {R : α → Nat → Prop} : WP .fail i R := by
  intro s b s' hs he
  cases he

theorem WP.imp {α : Type} {m : PM α} {i : Nat} {R R' : α → Nat → Prop} (h : WP m i R) (hi : ∀ a j, i ≤ j → R a j → R' a j) : WP m i R' :=
  fun s a s' hs he => ⟨(h s a s' hs he).1, hi _ _ (h s a s' hs he).1 (h s a s' hs he).2⟩

theorem WP.fresh {β : Type} {r : CRange} {f : Hd → PM β} {i : Nat} {R : β → Nat → Prop} (h : WP (f ⟨i, r⟩) (i + 1) R) :
    WP (fresh r >>= f) i R := by
  intro s b s' hs he
  subst hs
  have := h { s with next := s.next + 1 } b s' rfl he
  exact ⟨by omega, this.2⟩

theorem WP.misc {β : Type} {r : CRange} {f : Node → PM β} {i : Nat} {R : β → Nat → Prop} (h : WP (f (.misc ⟨i, r⟩)) (i + 1) R) :
    WP (mkMisc r >>= f) i R := by
  intro s b s' hs he
  subst hs
  have := h { s with next := s.next + 1 } b s' rfl he
  exact ⟨by omega, this.2⟩

theorem Quiet.bind {α β : Type} {m : PM α} {f : α → PM β} (h : Quiet m) (hf : ∀ a, Quiet (f a)) : Quiet (m >>= f) := by
  intro s b s' he
  rw [PM.bind_def] at he
  cases hm : m s with
  | none => rw [hm] at he; cases he
  | some p =>
    obtain ⟨a, s1⟩ := p
    rw [hm] at he
    exact (hf a s1 b s' he).trans (h s a s1 hm)

theorem Quiet.pure {α : Type} {a : α} : Quiet (pure a : PM α) := by
  intro s b s' he
  cases he
  rfl

theorem Quiet.modify {f : PState → PState} (h : ∀ s, (f s).next = s.next) : Quiet (.modify f) := by
  intro s b s' he
  cases he
  exact h s

theorem Quiet.get {α : Type} {f : PState → α} : Quiet (.get f) := by
  intro s b s' he
  cases he
  rfl

theorem pull_next (n : Nat) (s : PState) : (pull n s).next = s.next := by
  induction n generalizing s with
  | zero => rfl
  | succ n ih => exact (ih _).trans rfl

theorem q_peek (n : Nat) : Quiet (peek n) := by
  intro s b s' he
  simp only [peek, Option.some.injEq, Prod.mk.injEq] at he
  rw [← he.2]
  exact pull_next _ _

theorem q_peekKind (n : Nat) : Quiet (peekKind n) := (q_peek n).bind fun _ => .pure

theorem q_consume : Quiet pconsume := by
  intro s b s' he
  simp only [pconsume] at he
  split at he
  · cases he
    split
    · exact pull_next _ _
    · rfl
  · cases he
    simp only
    split
    · exact pull_next _ _
    · rfl

theorem q_lCur : Quiet lCurP := (q_peek 0).bind fun _ => .pure

theorem q_lastR : Quiet lastR := by
  intro s b s' he
  simp only [lastR] at he
  split at he <;> cases he <;> rfl

theorem q_emit (d : Diagnostic) : Quiet (emitD d) := .modify fun _ => rfl
theorem q_note (d : Note) : Quiet (noteLast d) := .modify fun _ => rfl
theorem q_fix (d : Fix) : Quiet (fixLast d) := .modify fun _ => rfl
theorem q_assertFail : Quiet assertFail := .modify fun _ => rfl
theorem q_assertLast : Quiet assertLast := .modify fun _ => rfl
theorem q_when {c : Prop} [Decidable c] {m : PM Unit} (h : Quiet m) : Quiet (whenP c m) := by
  unfold whenP
  split
  · exact h
  · exact .pure
theorem q_nullExpr (c : Cursor) (b : Bytes) : Quiet (diagNullExpr c b) := q_emit _
theorem q_need (e : Node) (b : Bytes) : Quiet (needExpr e b) := q_when (q_lastR.bind fun _ => q_nullExpr _ _)
theorem q_noteMatch (r : CRange) (b : Bytes) : Quiet (noteMatch r b) := q_note _

theorem resetBuf_next (s : PState) : (resetBuf s).next = s.next := by
  unfold resetBuf
  split <;> rfl

theorem Quiet.sync {α : Type} {k : TK} {m : PM α} (h : Quiet m) : Quiet (withSync k m) := by
  unfold withSync
  refine Quiet.bind (Quiet.modify fun _ => ?_) fun _ => h.bind fun _ => Quiet.bind (Quiet.modify fun _ => ?_) fun _ => .pure
  · rfl
  · rfl

theorem WP.sync {α : Type} {k : TK} {m : PM α} {i : Nat} {R : α → Nat → Prop} (h : WP m i R) : WP (withSync k m) i R :=
  .q (Quiet.modify fun _ => rfl) fun _ => h.bind fun _ _ _ hr => .q (Quiet.modify fun _ => rfl) fun _ => .pure hr

theorem WP.state {α : Type} {k : PS} {m : PM α} {i : Nat} {R : α → Nat → Prop} (h : WP m i R) : WP (withState k m) i R :=
  .q (Quiet.modify fun s => resetBuf_next s) fun _ => h.bind fun _ _ _ hr => .q (Quiet.modify fun s => resetBuf_next s) fun _ => .pure hr

theorem q_unknown (k : Nat) : Quiet (unknownLoop k) := by
  induction k with
  | zero => intro s b s' he; cases he
  | succ k ih =>
    refine (q_peek 0).bind fun t => Quiet.get.bind fun sy => ?_
    split
    · exact .pure
    · exact q_consume.bind fun _ => ih.bind fun _ => .pure

theorem q_asUnknown (k : Nat) : Quiet (consumeAsUnknown k) := by
  refine (q_peek 0).bind fun t => (q_unknown k).bind fun c => ?_
  split
  · exact q_lastR.bind fun _ => .pure
  · exact .pure

theorem q_remove (k : Nat) : Quiet (removeUnexpected k) := by
  refine (q_asUnknown k).bind fun t => ?_
  split
  · exact (q_emit _).bind fun _ => .pure
  · exact .pure

theorem q_insertCur : Quiet insertCur := by
  refine Quiet.get.bind fun t => ?_
  split
  · exact .pure
  · exact q_lCur

theorem q_rePeek (b : Bool) (t : Token) : Quiet (rePeek b t) := by
  unfold rePeek
  split
  · exact q_peek 0
  · exact .pure

theorem q_expect (k : Nat) (t : TK) : Quiet (expect k t) := by
  refine Quiet.sync ((q_peek 0).bind fun t => ?_)
  split
  · exact .pure
  · refine (q_remove k).bind fun b => (q_rePeek _ _).bind fun t => ?_
    split
    · exact .pure
    · exact q_insertCur.bind fun _ => (q_emit _).bind fun _ => .pure

theorem q_expectOr (k : Nat) (t : TK) (r : CRange) (x : Bytes) : Quiet (expectOr k t r x) := by
  refine (q_expect k t).bind fun o => ?_
  split
  · exact q_consume.bind fun _ => .pure
  · exact (q_noteMatch _ _).bind fun _ => .pure

theorem q_expectMay (k : Nat) (t : TK) : Quiet (expectMay k t) := by
  refine (q_expect k t).bind fun o => ?_
  split
  · exact q_consume
  · exact .pure

theorem q_bindingSemi : Quiet bindingSemi := by
  refine (q_peek 0).bind fun t => ?_
  split
  · exact q_consume
  · exact q_lastR.bind fun _ => q_emit _

theorem q_attrsOpen (k : Nat) (b : Token) : Quiet (attrsOpen k b) := by
  refine (q_expect k _).bind fun o => ?_
  split
  · exact q_consume.bind fun _ => .pure
  · exact .pure

theorem q_legacyClose (k : Nat) (t : Token) (c : Cursor) : Quiet (legacyClose k t c) := by
  refine (q_expect k _).bind fun o => ?_
  split
  · exact q_consume.bind fun _ => .pure
  · exact (q_noteMatch _ _).bind fun _ => .pure

/-- Closes goals `Quiet _` for calls that make no node. -/
macro "quiet" : tactic => `(tactic| first
  | exact q_peek _ | exact q_consume | exact q_lastR | exact q_emit _ | exact q_need _ _ | exact q_expect _ _
  | exact q_expectOr _ _ _ _ | exact q_expectMay _ _ | exact q_noteMatch _ _ | exact q_fix _ | exact q_nullExpr _ _
  | exact q_assertFail | exact q_assertLast | exact q_remove _ | exact q_lCur | exact q_bindingSemi | exact q_attrsOpen _ _
  | exact q_legacyClose _ _ _ | exact Quiet.get | exact q_when (q_emit _)
  | exact q_when (q_lastR.bind fun _ => q_nullExpr _ _)
  | exact q_when (q_lastR.bind fun _ => (q_nullExpr _ _).bind fun _ => q_fix _)
  | exact q_when (q_lastR.bind fun _ => (q_nullExpr _ _).bind fun _ => q_noteMatch _ _))

/-- Steps over a call that makes no node. -/
macro "qq" : tactic => `(tactic| refine WP.q (by quiet) fun _ => ?_)

theorem q_lookAhead : Quiet lookAhead := by
  refine (q_peekKind 0).bind fun k => ?_
  split
  · exact (q_peekKind 1).bind fun _ => .pure
  · refine (q_peekKind 1).bind fun k => ?_
    split
    · refine (q_peekKind 2).bind fun k => ?_
      split
      iterate 6 exact .pure
      · exact (q_peekKind 3).bind fun _ => .pure
      · exact .pure
    · exact (q_peekKind 2).bind fun _ => .pure
    · exact .pure
    · exact .pure
  · exact .pure
  · exact .pure
  · exact (q_peekKind 1).bind fun _ => .pure
  · exact .pure
  · exact .pure

/-! ### Nodes -/

theorem Cov.perm {a b : Nat} {ns ms : List Node} (h : Cov a b ns) (hp : ns.Perm ms) : Cov a b ms :=
  ⟨fun n hn => h.all n (hp.mem_iff.mpr hn), pairwise_perm (fun _ _ h => h.symm) hp h.sep⟩

theorem Cov.snoc {a b c : Nat} {ns : List Node} {n : Node} (h : Cov a b ns) (h' : G b c n) (hab : a ≤ b) (hbc : b ≤ c) :
    Cov a c (ns ++ [n]) := h.append (Cov.one h') hab hbc

theorem Cov.sublist {a b : Nat} {ns ms : List Node} (h : Cov a b ns) (hs : ms.Sublist ns) : Cov a b ms :=
  ⟨fun n hn => h.all n (hs.subset hn), h.sep.sublist hs⟩

theorem G.misc (i : Nat) (r : CRange) : G i (i + 1) (.misc ⟨i, r⟩) :=
  G.plain (n := .misc ⟨i, r⟩) rfl rfl (Cov.nil i i) (Nat.le_refl _) nofun

theorem G.ident (i : Nat) (r : CRange) (v : Bytes) : G i (i + 1) (.identifier ⟨i, r⟩ v) :=
  G.plain (n := .identifier ⟨i, r⟩ v) rfl rfl (Cov.nil i i) (Nat.le_refl _) nofun

theorem G.op (i : Nat) (r : CRange) (v : TK) : G i (i + 1) (.op ⟨i, r⟩ v) :=
  G.plain (n := .op ⟨i, r⟩ v) rfl rfl (Cov.nil i i) (Nat.le_refl _) nofun

theorem G.dot (i : Nat) (r : CRange) (p : Nat) (n : Option Nat) : G i (i + 1) (.dot ⟨i, r⟩ p n) :=
  G.plain (n := .dot ⟨i, r⟩ p n) rfl rfl (Cov.nil i i) (Nat.le_refl _) nofun

/-- A plain node made last. -/
theorem G.made {n : Node} {a i : Nat} {r : CRange} {ns : List Node} (hc : Cov a i ns) (ha : a ≤ i) (hp : isPlain n = true)
    (hh : n.hd? = some ⟨i, r⟩) (hs : n.children = ns.filter Node.isNode) (ht : Typed n := by trivial) : G a (i + 1) n :=
  G.plain (h := ⟨i, r⟩) hp hh hc ha (fun _ hcc => child_mem hcc ns hs) ht

theorem G.madeP {n : Node} {a i : Nat} {r : CRange} {ns : List Node} (hc : Cov a i ns) (ha : a ≤ i) (hp : isPlain n = true)
    (hh : n.hd? = some ⟨i, r⟩) (ms : List Node) (hs : n.children = ms.filter Node.isNode) (hm : ∀ c ∈ ms, c ∈ ns)
    (ht : Typed n := by trivial) : G a (i + 1) n :=
  G.plain (h := ⟨i, r⟩) hp hh hc ha (fun _ hcc => hm _ (child_mem hcc ms hs)) ht

/-- One list is part of another one. -/
macro "sub" : tactic => `(tactic| (intro c hc; simp only [List.mem_append, List.mem_cons, List.not_mem_nil, or_false] at hc ⊢; tauto))

theorem mergeFragments_nodes (fs : List Node) : (mergeFragments fs).filter Node.isNode = [] ∨ mergeFragments fs = fs := by
  unfold mergeFragments
  split
  · exact .inr rfl
  · split
    · exact .inr rfl
    · exact .inl rfl

theorem G.parts {a i : Nat} {r : CRange} {fs : List Node} (hc : Cov a i (fs.filter Node.isNode)) (ha : a ≤ i) :
    G a (i + 1) (.parts ⟨i, r⟩ (mergeFragments fs)) := by
  refine G.plain (n := .parts ⟨i, r⟩ (mergeFragments fs)) rfl rfl hc ha fun c hcc => ?_
  have hcc : c ∈ (mergeFragments fs).filter Node.isNode := hcc
  rcases mergeFragments_nodes fs with h | h
  · rw [h] at hcc; cases hcc
  · rwa [h] at hcc

/-- The recursive calls make good trees. -/
structure RecIds (R : Rec) : Prop where
  expr : ∀ i, WP R.expr i fun n j => G i j n
  select : ∀ i, WP R.select i fun n j => G i j n

variable {R : Rec} {k : Nat}

/-! ### Strings -/

theorem interpolation_ids (hR : RecIds R) (i : Nat) : WP (parseInterpolation R k) i fun n j => G i j n ∧ n.isNode = true := by
  unfold parseInterpolation
  qq; qq
  refine .sync (.state (.bind (hR.expr i) fun e j hj he => ?_))
  qq; qq; qq
  refine .fresh (.pure ⟨?_, rfl⟩)
  exact G.made (Cov.one he) hj rfl rfl rfl

theorem pathLoop_ids (hR : RecIds R) (m : Nat) (i : Nat) : WP (pathLoop R k m) i fun p j => Cov i j (p.1.filter Node.isNode) := by
  induction m generalizing i with
  | zero => exact .fail
  | succ m ih =>
    unfold pathLoop
    qq; qq; qq
    split
    · exact .pure (Cov.nil _ _)
    · split
      · refine .bind (interpolation_ids hR i) fun n j hj hn => .bind (ih j) fun p j' hj' hp => .pure ?_
        have := Cov.cons hn.1 hp hj hj'
        rw [← List.filter_cons_of_pos hn.2] at this
        exact this
      · qq
        exact .bind (ih i) fun p j hj hp => .pure hp

theorem parts_ids (r : CRange) {fs : List Node} {a i : Nat} (ha : a ≤ i) (hc : Cov a i (fs.filter Node.isNode)) :
    WP (mkParts r fs) i fun n j => G a j n := by
  unfold mkParts
  exact .fresh (.pure (G.parts hc ha))

theorem path_ids (hR : RecIds R) (i : Nat) : WP (parseExprPath R k) i fun n j => G i j n := by
  unfold parseExprPath
  qq
  refine .bind (.state (pathLoop_ids hR k i)) fun p j hj hp => ?_
  refine .bind (parts_ids _ hj hp) fun n j' hj' hn => ?_
  exact .fresh (.pure (G.made (Cov.one hn) (by omega) rfl rfl rfl))

theorem partsLoop_ids (hR : RecIds R) (m : Nat) (i : Nat) : WP (partsLoop R k m) i fun p j => Cov i j (p.filter Node.isNode) := by
  induction m generalizing i with
  | zero => exact .fail
  | succ m ih =>
    unfold partsLoop
    qq
    split
    · refine .bind (interpolation_ids hR i) fun n j hj hn => .bind (ih j) fun p j' hj' hp => .pure ?_
      simp only [List.filter_cons, hn.2, if_true]
      exact Cov.cons hn.1 hp hj hj'
    · qq
      exact .bind (ih i) fun p j hj hp => .pure hp
    · qq
      refine .bind (ih i) fun p j hj hp => .pure ?_
      split <;> exact hp
    · exact .pure (Cov.nil _ _)

theorem string_ids (hR : RecIds R) (b : Bool) (i : Nat) : WP (parseString R k b) i fun n j => G i j n ∧ n.isNode = true := by
  unfold parseString
  qq; qq
  refine .sync (.state ?_)
  refine .bind (Q := fun n j => G i j n) ?_ fun n j hj hn => ?_
  · unfold parseStringParts
    qq
    refine .bind (partsLoop_ids hR k i) fun p j hj hp => ?_
    qq
    exact parts_ids _ hj hp
  · qq
    split
    · qq
      exact .fresh (.pure ⟨G.made (Cov.one hn) hj rfl rfl rfl, rfl⟩)
    · qq
      exact .fresh (.pure ⟨G.made (Cov.one hn) hj rfl rfl rfl, rfl⟩)

/-! ### Attribute names and bindings -/

theorem attrName_ids (hR : RecIds R) (i : Nat) : WP (parseAttrName R k) i fun n j => G i j n := by
  unfold parseAttrName
  qq
  split
  · qq; qq
    exact .fresh (.fresh (.pure (G.made (Cov.one (G.ident i _ _)) (by omega) rfl rfl rfl)))
  · qq
    exact .fresh (.fresh (.pure (G.made (Cov.one (G.ident i _ _)) (by omega) rfl rfl rfl)))
  · refine .bind (string_ids hR false i) fun n j hj hn => ?_
    exact .fresh (.pure (G.made (Cov.one hn.1) hj rfl rfl rfl))
  · refine .bind (interpolation_ids hR i) fun n j hj hn => ?_
    exact .fresh (.pure (G.made (Cov.one hn.1) hj rfl rfl rfl))
  · exact .pure (G.null _ _)

theorem attrPathLoop_ids (hR : RecIds R) (m : Nat) (prev i : Nat) :
    WP (attrPathLoop R k m prev) i fun p j => Cov i j (p.1 ++ p.2) := by
  induction m generalizing i prev with
  | zero => exact .fail
  | succ m ih =>
    unfold attrPathLoop
    qq
    split
    · qq
      refine .bind (attrName_ids hR i) fun n j hj hn => .fresh ?_
      split
      · qq
        refine .bind (ih _ _) fun p j' hj' hp => .pure ?_
        exact Cov.perm (Cov.mono (Cov.cons (G.dot j _ _ _) hp (by omega) hj') hj (Nat.le_refl _)) List.perm_middle.symm
      · refine .bind (ih _ _) fun p j' hj' hp => .pure ?_
        exact Cov.cons hn (Cov.perm (Cov.cons (G.dot j _ _ _) hp (by omega) hj') List.perm_middle.symm) hj (by omega)
    · exact .pure (Cov.nil _ _)

/-- A path as the parser makes it. -/
def PathG (a b : Nat) (n : Node) : Prop :=
  G a b n ∧ (n = .null ∨ ∃ h names ds, n = .attrPath h names ds ∧ Cov a b names)

theorem attrPath_ids (hR : RecIds R) (i : Nat) : WP (parseAttrPath R k) i fun n j => PathG i j n := by
  unfold parseAttrPath
  refine .bind (attrName_ids hR i) fun n j hj hn => ?_
  split
  · exact .pure ⟨G.null _ _, .inl rfl⟩
  · refine .sync (.bind (attrPathLoop_ids hR _ _ _) fun p j' hj' hp => ?_)
    qq
    have hc := Cov.cons hn hp hj hj'
    refine .fresh (.pure ⟨G.made hc (by omega) rfl rfl rfl ?_, .inr ⟨_, _, _, rfl, ?_⟩⟩)
    · exact (hc.sublist (List.sublist_append_left (n :: p.1) p.2)).sep.imp fun {x y} hs h1 h2 (e : x.id = y.id) => (hs h1 h2).2 _ (rid_self x) (by rw [e]; exact rid_self y)
    exact (hc.sublist (List.sublist_append_left (n :: p.1) p.2)).mono (Nat.le_refl _) (by omega)

/-- The parts of a binding. -/
theorem PathOk.of_cov {C : Node → Prop} {a b : Nat} {names : List Node} {v : Node} (h : Cov a b (names ++ [v]))
    (hC : ∀ n ∈ names ++ [v], n.isNode = true → ∀ k, Reach n k → C k) : PathOk C (fun i => a ≤ i ∧ i < b) names v where
  nn n hn := (h.all n hn).nn
  vok n hn hnn := (h.all n hn).vok.mono (hC n hn hnn)
  keys n hn hnn := hC n (List.mem_append_left _ hn) hnn n (.here n)
  sep := h.sep.imp fun hs h1 h2 => (hs h1 h2).1
  ids n hn hnn := (h.all n hn).pid hnn

theorem BindOk.monoD {C : Node → Prop} {D D' : Nat → Prop} {b : Node} (h : BindOk C D b) (hd : ∀ i, D i → D' i) : BindOk C D' b := by
  have aux : ∀ {names e}, PathOk C D names e → PathOk C D' names e := fun h =>
    ⟨h.nn, h.vok, h.keys, h.sep, fun n hn hnn i hi => hd i (h.ids n hn hnn i hi)⟩
  unfold BindOk at h ⊢
  split at h
  · exact aux h
  · exact aux h
  · exact h.elim

theorem BSeq.low {C : Node → Prop} {a a' b : Nat} {bs : List Node} (h : BSeq C a' b bs) (ha : a ≤ a') : BSeq C a b bs := by
  cases h with
  | nil _ _ h => exact .nil _ _ (by omega)
  | cons _ c _ x xs h1 h2 h3 => exact .cons _ c _ _ _ (h1.monoD fun i hi => by omega) (by omega) h3

theorem BSeq.high {C : Node → Prop} {a b b' : Nat} {bs : List Node} (h : BSeq C a b bs) (hb : b ≤ b') : BSeq C a b' bs := by
  induction h with
  | nil _ _ h => exact .nil _ _ (by omega)
  | cons _ c _ x xs h1 h2 h3 ih => exact .cons _ c _ _ _ h1 h2 (ih hb)

/-- A binding as the parser makes it. -/
def BindG (a b : Nat) (n : Node) : Prop :=
  G a b n ∧ (n.isNull = false → BindOk (Reach n) (fun i => a ≤ i ∧ i < b) n)

theorem bindingG {i j j' : Nat} {path eq e : Node} {r : CRange} (hp : PathG i j path) (hn : path.isNull = false) (hij : i ≤ j) (hjj : j ≤ j')
    (hc : Cov j j' [eq, e]) : BindG i (j' + 1) (.binding ⟨j', r⟩ path eq e) := by
  refine ⟨G.made (Cov.cons hp.1 hc hij hjj) (by omega) rfl rfl rfl, fun _ => ?_⟩
  rcases hp.2 with rfl | ⟨h, names, ds, rfl, hcn⟩
  · cases hn
  · have hn : (Node.attrPath h names ds).isNode = true := rfl
    have hce : Cov j j' [e] := hc.sublist (.cons _ (List.Sublist.refl _))
    refine PathOk.of_cov (Cov.mono (Cov.append hcn hce hij hjj) (Nat.le_refl _) (by omega)) fun n hnm hnn x hx => ?_
    rcases List.mem_append.mp hnm with hm | hm
    · exact .down _ (.attrPath h names ds) _ (mem_children (ns := [_, eq, e]) rfl (by simp) hn)
        (.down _ n _ (mem_children (ns := names ++ ds) rfl (by simp [hm]) hnn) hx)
    · rw [List.mem_singleton] at hm
      subst hm
      exact .down _ n _ (mem_children (ns := [_, eq, n]) rfl (by simp) hnn) hx

theorem binding_ids (hR : RecIds R) (i : Nat) : WP (parseBinding R k) i fun n j => BindG i j n := by
  unfold parseBinding
  refine .bind (attrPath_ids hR i) fun n j hj hn => ?_
  split
  · exact .pure ⟨G.null _ _, nofun⟩
  · rename_i hnn
    have hnn : n.isNull = false := by simpa using hnn
    refine .sync (.sync ?_)
    qq
    split
    · qq
      exact .fresh (.pure (bindingG hn hnn hj (Nat.le_refl _) (Cov.cons (G.null j j) (Cov.one (G.null j j)) (Nat.le_refl _) (Nat.le_refl _))))
    · qq
      refine .misc (.bind (hR.expr _) fun e j' hj' he => ?_)
      qq; qq; qq
      exact .fresh (.pure (bindingG hn hnn hj (by omega) (Cov.cons (G.misc j _) (Cov.one he) (by omega) hj')))

theorem inheritNames_ids (hR : RecIds R) (m : Nat) (i : Nat) : WP (inheritNames R k m) i fun ns j => Cov i j ns := by
  induction m generalizing i with
  | zero => exact .fail
  | succ m ih =>
    unfold inheritNames
    refine .bind (attrName_ids hR i) fun n j hj hn => ?_
    split
    · exact .pure (Cov.nil _ _)
    · exact .bind (ih j) fun p j' hj' hp => .pure (Cov.cons hn hp hj hj')

theorem inheritExpr_ids (hR : RecIds R) (i : Nat) : WP (inheritExpr R k) i fun n j => G i j n := by
  unfold inheritExpr
  qq
  split
  · qq
    refine .bind (hR.expr i) fun n j hj hn => ?_
    qq; qq
    exact .pure hn
  · exact .pure (G.null _ _)

theorem inherit_ids (hR : RecIds R) (i : Nat) : WP (parseInherit R k) i fun n j => BindG i j n := by
  unfold parseInherit
  qq
  split
  · exact .pure ⟨G.null _ _, nofun⟩
  · qq
    refine .sync (.sync (.sync (.sync (.bind (inheritExpr_ids hR i) fun e j hj he => ?_))))
    refine .bind (inheritNames_ids hR k j) fun ns j' hj' hns => ?_
    qq; qq; qq
    have hc : Cov i j' (ns ++ [e]) := (Cov.cons he hns hj hj').perm (List.perm_append_singleton e ns).symm
    refine .fresh (.pure ⟨G.made hc (by omega) rfl rfl rfl, fun _ => ?_⟩)
    refine PathOk.of_cov (hc.mono (Nat.le_refl _) (by omega)) fun n hnm hnn x hx => ?_
    exact .down _ n _ (mem_children (ns := ns ++ [e]) rfl hnm hnn) hx

theorem bindsLoop_ids (hR : RecIds R) (m : Nat) (i : Nat) : WP (bindsLoop R k m) i fun bs j =>
    Cov i j bs ∧ BSeq (fun x => ∃ b ∈ bs, b.isNode = true ∧ Reach b x) i j bs := by
  have step : ∀ {b : Node} {bs : List Node} {i j j' : Nat}, BindG i j b → b.isNull = false → i ≤ j → j ≤ j' →
      (Cov j j' bs ∧ BSeq (fun x => ∃ b ∈ bs, b.isNode = true ∧ Reach b x) j j' bs) →
      Cov i j' (b :: bs) ∧ BSeq (fun x => ∃ c ∈ b :: bs, c.isNode = true ∧ Reach c x) i j' (b :: bs) := by
    intro b bs i j j' hb hn hj hj' h
    refine ⟨Cov.cons hb.1 h.1 hj hj', .cons _ j _ _ _ ((hb.2 hn).mono fun x hx => ?_) hj (h.2.mono fun x hx => ?_)⟩
    · exact ⟨b, by simp, hb.1.nn hn, hx⟩
    · obtain ⟨c, hc, hx⟩ := hx
      exact ⟨c, by simp [hc], hx⟩
  induction m generalizing i with
  | zero => exact .fail
  | succ m ih =>
    unfold bindsLoop
    refine .bind (binding_ids hR i) fun n j hj hn => ?_
    split
    · refine .bind (inherit_ids hR j) fun n' j' hj' hn' => ?_
      split
      · qq
        split
        · refine (ih j').imp fun bs j2 hj2 h => ?_
          exact ⟨h.1.mono (by omega) (Nat.le_refl _), h.2.low (by omega)⟩
        · exact .pure ⟨Cov.nil _ _, .nil _ _ (by omega)⟩
      · rename_i hnn
        refine .bind (ih j') fun bs j2 hj2 h => .pure ?_
        have hb : BindG i j' n' := ⟨hn'.1.mono hj (Nat.le_refl _), fun h => (hn'.2 h).monoD fun x hx => by omega⟩
        exact step hb (by simpa using hnn) (by omega) hj2 h
    · rename_i hnn
      exact .bind (ih j) fun bs j2 hj2 h => .pure (step hn (by simpa using hnn) hj hj2 h)

/-- The bindings of a set as the parser makes them. -/
def BindsG (a b : Nat) (n : Node) : Prop := G a b n ∧ (n = .null ∨ ∃ h bs, n = .binds h bs ∧ BSeq (Reach n) a b bs)

theorem binds_ids (hR : RecIds R) (i : Nat) : WP (parseBinds R k) i fun n j => BindsG i j n := by
  unfold parseBinds
  qq
  refine .sync (.sync (.sync (.sync (.bind (bindsLoop_ids hR k i) fun bs j hj h => ?_))))
  split
  · exact .pure ⟨G.null _ _, .inl rfl⟩
  · qq
    refine .fresh (.pure ⟨G.made h.1 hj rfl rfl rfl, .inr ⟨_, _, rfl, ?_⟩⟩)
    refine BSeq.high (h.2.mono fun x hx => ?_) (Nat.le_succ _)
    obtain ⟨b, hb, hn, hx⟩ := hx
    exact .down _ b _ (mem_children (ns := bs) rfl hb hn) hx

theorem BindsG.mono {a a' b b' : Nat} {n : Node} (h : BindsG a b n) (ha : a' ≤ a) (hb : b ≤ b') : BindsG a' b' n := by
  refine ⟨h.1.mono ha hb, ?_⟩
  rcases h.2 with h | ⟨hh, bs, rfl, hs⟩
  · exact .inl h
  · exact .inr ⟨_, _, rfl, (hs.low ha).high hb⟩

theorem sema_ids {α : Type} {f : Bytes → SemaSt → α × SemaSt} {i : Nat} {Q : α → Nat → Prop}
    (h : ∀ src s, s.next = i → i ≤ (f src s).2.next ∧ Q (f src s).1 (f src s).2.next) : WP (sema f) i Q := by
  intro s a s' hs he
  have := h s.lex.src ⟨s.next, s.lex.diags, s.bad⟩ hs
  simp only [sema, Option.some.injEq, Prod.mk.injEq] at he
  obtain ⟨rfl, rfl⟩ := he
  exact this

theorem onExprAttrs_wp {a i : Nat} {r : CRange} {body rec : Node} (ha : a ≤ i) (hcov : Cov a i [rec, body]) (hb : BindsG a i body) (hr : Leaf rec) :
    WP (sema fun _ => onExprAttrs r body rec) i fun n j => G a j n ∧ ∃ h st dy, n = .exprAttrs h body rec st dy := by
  refine sema_ids fun src s hs => ?_
  subst hs
  exact onExprAttrs_ids ha hcov hb.2 hr

theorem recTok_ids (i : Nat) : WP recTok i fun n j => G i j n ∧ Leaf n := by
  unfold recTok
  qq
  split
  · qq
    intro s a s' hs he
    subst hs
    cases he
    exact ⟨Nat.le_succ _, G.misc _ _, .inr ⟨_, rfl⟩⟩
  · exact .pure ⟨G.null _ _, .inl rfl⟩

theorem attrs_ids (hR : RecIds R) (i : Nat) : WP (parseExprAttrs R k) i fun n j => G i j n := by
  unfold parseExprAttrs
  refine .sync ?_
  qq
  refine .bind (recTok_ids i) fun rc j hj hrc => ?_
  qq; qq
  refine .bind (binds_ids hR j) fun b j' hj' hb => ?_
  qq; qq
  exact (onExprAttrs_wp (by omega) (Cov.cons hrc.1 (Cov.one hb.1) hj hj') (hb.mono hj (Nat.le_refl _)) hrc.2).imp fun _ _ _ h => h.1

/-! ### Simple expressions -/

theorem paren_ids (hR : RecIds R) (i : Nat) : WP (parseExprParen R k) i fun n j => G i j n := by
  unfold parseExprParen
  qq
  rename_i tok
  refine .misc ?_
  qq
  refine .sync (.bind (hR.expr _) fun e j hj he => ?_)
  qq; qq
  have h1 : Cov i j [.misc ⟨i, tok.range⟩, e] := Cov.cons (G.misc i _) (Cov.one he) (by omega) hj
  split
  · rename_i t
    qq
    refine .misc ?_
    qq
    exact .fresh (.pure (G.madeP (h1.snoc (G.misc j t.range) (by omega) (by omega)) (by omega) rfl rfl _ rfl (by sub)))
  · qq; qq; qq
    exact .fresh (.pure (G.madeP (h1.snoc (G.null j j) (by omega) (by omega)) (by omega) rfl rfl _ rfl (by sub)))

theorem listLoop_ids (hR : RecIds R) (m i : Nat) : WP (listLoop R m) i fun ns j => Cov i j ns := by
  induction m generalizing i with
  | zero => exact .fail
  | succ m ih =>
    unfold listLoop
    qq
    split
    · exact .pure (Cov.nil _ _)
    · refine .bind (hR.select i) fun e j hj he => ?_
      split
      · exact .pure (Cov.nil _ _)
      · exact .bind (ih j) fun es j' hj' hes => .pure (Cov.cons he hes hj hj')

theorem list_ids (hR : RecIds R) (i : Nat) : WP (parseExprList R k) i fun n j => G i j n := by
  unfold parseExprList
  qq
  split
  · exact .pure (G.null _ _)
  · qq
    refine .sync (.bind (listLoop_ids hR k i) fun es j hj hes => ?_)
    qq; qq
    exact .fresh (.pure (G.made hes hj rfl rfl rfl))

theorem simple_ids (hR : RecIds R) (i : Nat) : WP (parseExprSimple R k) i fun n j => G i j n := by
  unfold parseExprSimple
  qq
  split
  · qq
    refine .bind (parts_ids _ (Nat.le_refl _) (Cov.nil i i)) fun n j hj hn => .fresh ?_
    qq
    exact .pure (G.made (Cov.one hn) hj rfl rfl rfl)
  · qq
    exact .fresh (.fresh (.pure (G.made (Cov.one (G.ident i _ _)) (by omega) rfl rfl rfl)))
  · qq; qq
    exact .fresh (.pure (G.made (Cov.nil i i) (Nat.le_refl _) rfl rfl rfl))
  · qq
    exact .fresh (.pure (G.made (Cov.nil i i) (Nat.le_refl _) rfl rfl rfl))
  · qq
    exact .fresh (.pure (G.made (Cov.nil i i) (Nat.le_refl _) rfl rfl rfl))
  · exact (string_ids hR _ i).imp fun _ _ _ h => h.1
  · exact (string_ids hR _ i).imp fun _ _ _ h => h.1
  · exact path_ids hR i
  · exact paren_ids hR i
  · exact attrs_ids hR i
  · exact attrs_ids hR i
  · exact list_ids hR i
  · exact .pure (G.null _ _)

theorem select_ids (hR : RecIds R) (i : Nat) : WP (parseExprSelect R k) i fun n j => G i j n := by
  unfold parseExprSelect
  refine .bind (simple_ids hR i) fun e j hj he => ?_
  split
  · exact .pure (G.null _ _)
  · qq
    split
    · exact .pure he
    · refine .fresh ?_
      qq
      refine .bind (attrPath_ids hR _) fun p j' hj' hp => ?_
      qq; qq
      have h1 : Cov i j' [e, p] := Cov.cons he ((Cov.one hp.1).mono (by omega) (Nat.le_refl _)) hj (by omega)
      split
      · qq
        exact .fresh (.pure (G.madeP (h1.snoc (G.null j' j') (by omega) (by omega)) (by omega) rfl rfl _ rfl (by sub)))
      · qq
        refine .bind (hR.select _) fun d j2 hj2 hd => ?_
        qq; qq
        exact .fresh (.pure (G.madeP (h1.snoc hd (by omega) (by omega)) (by omega) rfl rfl _ rfl (by sub)))

theorem appLoop_ids (hR : RecIds R) (m i : Nat) : WP (appLoop R k m) i fun ns j => Cov i j ns := by
  induction m generalizing i with
  | zero => exact .fail
  | succ m ih =>
    unfold appLoop
    refine .bind (select_ids hR i) fun e j hj he => ?_
    split
    · exact .pure (Cov.nil _ _)
    · exact .bind (ih j) fun es j' hj' hes => .pure (Cov.cons he hes hj hj')

theorem app_ids (hR : RecIds R) (i : Nat) : WP (parseExprApp R k) i fun n j => G i j n := by
  unfold parseExprApp
  refine .bind (select_ids hR i) fun e j hj he => ?_
  split
  · exact .pure he
  · refine .bind (appLoop_ids hR k j) fun as j' hj' has => ?_
    split
    · exact .pure (he.mono (Nat.le_refl _) hj')
    · exact .fresh (.pure (G.made (Cov.cons he has hj hj') (by omega) rfl rfl rfl))

/-! ### Operators -/

theorem op_ids (hR : RecIds R) (m : Nat) : (∀ bp i, WP (parseExprOpBP R k m bp) i fun n j => G i j n) ∧
    (∀ bp a i pre, a ≤ i → G a i pre → WP (opLoop R k m bp pre) i fun n j => G a j n) := by
  induction m with
  | zero => exact ⟨fun _ _ => .fail, fun _ _ _ _ _ _ => .fail⟩
  | succ m ih =>
    constructor
    · intro bp i
      unfold parseExprOpBP
      qq
      split
      · qq
        refine .fresh (.bind (ih.1 _ _) fun e j hj he => ?_)
        qq; qq
        refine .fresh (ih.2 _ _ _ _ (by omega) ?_)
        exact G.made (Cov.cons (G.op i _ _) (Cov.one he) (by omega) hj) (by omega) rfl rfl rfl
      · refine .bind (app_ids hR i) fun e j hj he => ?_
        split
        · exact .pure (G.null _ _)
        · exact ih.2 _ _ _ _ hj he
    · intro bp a i pre ha hpre
      have bin : ∀ r r' t rhs j, i + 1 ≤ j → G (i + 1) j rhs → G a (j + 1) (.exprBinOp ⟨j, r⟩ (.op ⟨i, r'⟩ t) pre rhs) := by
        intro r r' t rhs j hj hr
        exact G.madeP (Cov.cons hpre (Cov.cons (G.op i _ _) (Cov.one hr) (by omega) hj) ha (by omega)) (by omega) rfl rfl _ rfl (by sub)
      unfold opLoop
      qq
      split
      · split
        · exact .pure hpre
        · qq; qq
          refine .fresh (.bind (ih.1 _ _) fun e j hj he => ?_)
          split
          · qq; qq
            exact ih.2 _ _ _ _ (by omega) (hpre.mono (Nat.le_refl _) (by omega))
          · exact .fresh (ih.2 _ _ _ _ (by omega) (bin _ _ _ _ _ hj he))
      · split
        · qq
          refine .fresh (.bind (attrPath_ids hR _) fun p j hj hp => ?_)
          qq
          refine .fresh (ih.2 _ _ _ _ (by omega) ?_)
          exact G.made (Cov.cons hpre ((Cov.one hp.1).mono (Nat.le_succ i) (Nat.le_refl _)) ha (by omega)) (by omega) rfl rfl rfl
        · split
          · qq; qq
            refine .fresh (.bind (ih.1 _ _) fun e j hj he => ?_)
            split
            · qq; qq
              exact ih.2 _ _ _ _ (by omega) (hpre.mono (Nat.le_refl _) (by omega))
            · exact .fresh (ih.2 _ _ _ _ (by omega) (bin _ _ _ _ _ hj he))
          · exact .pure hpre

/-! ### Lambdas -/

theorem comma_ids (i : Nat) : WP formalCommaTok i fun n j => G i j n := by
  unfold formalCommaTok
  qq
  split
  · qq
    intro s a s' hs he
    subst hs
    cases he
    exact ⟨Nat.le_succ _, G.misc _ _⟩
  · exact .pure (G.null _ _)

theorem formal_ids (hR : RecIds R) (i : Nat) : WP (parseFormal R) i fun n j => G i j n ∧ (n.isNull = false → FormalOk n) := by
  unfold parseFormal
  qq
  refine .bind (comma_ids i) fun c j hj hc => ?_
  qq
  split
  · qq
    refine .fresh ?_
    qq
    have h1 := fun r v => (G.ident j r v).mono hj (Nat.le_refl _)
    split
    · qq
      refine .fresh (.pure ⟨?_, fun _ => ⟨_, _, _, _, _, rfl, .inl rfl, nofun, fun _ => rfl⟩⟩)
      exact G.made (Cov.cons (h1 _ _) (Cov.one (G.null (j + 1) (j + 1))) (by omega) (by omega)) (by omega) rfl rfl rfl
    · qq
      refine .bind (hR.expr _) fun d j' hj' hd => ?_
      qq; qq
      refine .fresh (.pure ⟨?_, fun _ => ⟨_, _, _, _, _, rfl, .inl rfl, hd.nn, fun _ => rfl⟩⟩)
      exact G.made (Cov.cons (h1 _ _) (Cov.one hd) (by omega) (by omega)) (by omega) rfl rfl rfl
  · split
    · qq
      refine .misc ?_
      qq
      refine .fresh (.pure ⟨?_, fun _ => ⟨_, _, _, _, _, rfl, .inr ⟨rfl, rfl⟩, nofun, nofun⟩⟩)
      exact G.made (Cov.one ((G.misc j _).mono hj (Nat.le_refl _))) (by omega) rfl rfl rfl
    · split
      · exact .pure ⟨G.null _ _, nofun⟩
      · qq
        refine .fresh (.pure ⟨?_, fun _ => ⟨_, _, _, _, _, rfl, .inl rfl, nofun, nofun⟩⟩)
        exact G.made (Cov.nil i j) (by omega) rfl rfl rfl

theorem formalsLoop_ids (hR : RecIds R) (m i : Nat) : WP (formalsLoop R k m) i fun ms j =>
    Cov i j ms ∧ ∀ n ∈ ms, n.isNode = true ∧ FormalOk n := by
  induction m generalizing i with
  | zero => exact .fail
  | succ m ih =>
    unfold formalsLoop
    qq
    split
    · exact .pure ⟨Cov.nil _ _, nofun⟩
    · refine .bind (formal_ids hR i) fun n j hj hn => ?_
      split
      · qq
        split
        · exact (ih j).imp fun ms j' hj' h => ⟨h.1.mono hj (Nat.le_refl _), h.2⟩
        · exact .pure ⟨Cov.nil _ _, nofun⟩
      · rename_i hnn
        have hnn : n.isNull = false := by simpa using hnn
        refine .bind (ih j) fun ms j' hj' h => .pure ⟨Cov.cons hn.1 h.1 hj hj', fun x hx => ?_⟩
        rcases List.mem_cons.mp hx with rfl | hx
        · exact ⟨hn.1.nn hnn, hn.2 hnn⟩
        · exact h.2 x hx

theorem foldl_next {α : Type} {f : SemaSt → α → SemaSt} (h : ∀ s x, (f s x).next = s.next) (l : List α) (s : SemaSt) :
    (l.foldl f s).next = s.next := by
  induction l generalizing s with
  | nil => rfl
  | cons x l ih => exact (ih _).trans (h _ _)

theorem dedupDiags_next (ms : List Node) (acc : List (Bytes × Node)) (s : SemaSt) : (dedupDiags ms acc s).next = s.next := by
  induction ms generalizing acc s with
  | nil => rfl
  | cons f ms ih =>
    rw [dedupDiags]
    split
    · exact ih _ _
    · split
      · exact (ih _ _).trans rfl
      · exact ih _ _

theorem onFormals_eq (src : Bytes) (r : CRange) (ms : List Node) (s : SemaSt) :
    onFormals src r ms s = (.formals ⟨s.next, r⟩ ms, { (onFormals src r ms s).2 with next := s.next + 1 }) := by
  have h1 : ∀ s, (checkFormalSep ms s).next = s.next := fun s => foldl_next (fun s x => by split <;> rfl) _ s
  have h2 : ∀ s, (checkFormalEllipsis src ms s).next = s.next := fun s => by
    unfold checkFormalEllipsis
    split
    · rfl
    · exact foldl_next (fun s x => by split <;> rfl) _ s
  have h3 : ∀ s, (checkFormalEmpty ms s).next = s.next := fun s => foldl_next (fun s x => by split <;> rfl) _ s
  simp only [onFormals, dedupDiags_next, h3, h2, h1]

/-- Formals as the parser makes them. -/
def FormalsG (a b : Nat) (f : Node) : Prop :=
  G a b f ∧ (f = .null ∨ ∃ h' ms, f = .formals h' ms ∧ ∀ m ∈ ms, m.isNode = true ∧ FormalOk m)

theorem formals_ids (hR : RecIds R) (i : Nat) : WP (parseFormals R k) i fun n j => FormalsG i j n := by
  unfold parseFormals
  qq
  split
  · exact .pure ⟨G.null _ _, .inl rfl⟩
  · qq
    refine .sync (.sync (.sync (.sync (.bind (formalsLoop_ids hR k i) fun ms j hj h => ?_))))
    qq; qq
    refine sema_ids fun src s hs => ?_
    subst hs
    rw [onFormals_eq]
    exact ⟨Nat.le_succ _, G.made h.1 hj rfl rfl rfl, .inr ⟨_, _, rfl, h.2⟩⟩

theorem onLambdaArg_wp {a i : Nat} {r : CRange} {x f : Node} (ha : a ≤ i) (hxf : x = .null → f ≠ .null) (hc : Cov a i [x, f])
    (hf : f = .null ∨ ∃ h' ms, f = .formals h' ms ∧ ∀ m ∈ ms, m.isNode = true ∧ FormalOk m) :
    WP (sema fun _ => onLambdaArg r x f) i fun n j => G a j n ∧ (n.isNull = false → ArgOk n) := by
  refine sema_ids fun src s hs => ?_
  subst hs
  have : ∃ (s' : SemaSt), onLambdaArg r x f s = (.lambdaArg ⟨s.next, r⟩ x f, { s' with next := s.next + 1 }) := by
    unfold onLambdaArg
    simp only
    split
    · exact ⟨s, rfl⟩
    · split
      · exact ⟨_, rfl⟩
      · exact ⟨_, rfl⟩
  obtain ⟨s', he⟩ := this
  rw [he]
  exact ⟨Nat.le_succ _, G.made hc ha rfl rfl rfl, fun _ => ⟨_, _, _, rfl, hxf, (hc.all x (by simp)).nn, hf⟩⟩

theorem arg_ids (hR : RecIds R) (i : Nat) : WP (parseLambdaArg R k) i fun n j => G i j n ∧ (n.isNull = false → ArgOk n) := by
  unfold parseLambdaArg
  qq; qq
  split
  · qq
    refine .fresh ?_
    qq
    split
    · qq
      exact onLambdaArg_wp (by omega) nofun (Cov.cons (G.ident i _ _) (Cov.one (G.null (i + 1) (i + 1))) (by omega) (by omega)) (.inl rfl)
    · qq
      refine .bind (formals_ids hR _) fun f j hj hf => ?_
      qq; qq
      exact onLambdaArg_wp (by omega) nofun (Cov.cons (G.ident i _ _) (Cov.one hf.1) (by omega) (by omega)) hf.2
  · refine .bind (formals_ids hR i) fun f j hj hf => ?_
    have h1 : Cov i j [.null, f] := Cov.cons (G.null i i) (Cov.one hf.1) (by omega) (by omega)
    split
    · exact .pure ⟨G.null _ _, nofun⟩
    · rename_i hnn
      have hnn : f ≠ .null := fun hc => hnn (by rw [hc]; rfl)
      qq
      split
      · qq
        exact onLambdaArg_wp hj (fun _ => hnn) h1 hf.2
      · qq; qq
        split
        · qq; qq
          exact onLambdaArg_wp hj (fun _ => hnn) h1 hf.2
        · qq
          refine .fresh ?_
          qq
          exact onLambdaArg_wp (by omega) nofun (((Cov.one hf.1).snoc (G.ident j _ _) hj (by omega)).perm (List.Perm.swap _ _ _)) hf.2

theorem lambda_ids (hR : RecIds R) (i : Nat) : WP (parseExprLambda R k) i fun n j => G i j n := by
  unfold parseExprLambda
  qq
  refine .bind (arg_ids hR i) fun a j hj ha => ?_
  qq
  split
  · exact .pure (G.null _ _)
  · rename_i hnn
    qq
    refine .bind (hR.expr _) fun e j' hj' he => ?_
    qq; qq
    exact .fresh (.pure (G.lambda (h := ⟨j', _⟩) (by simp only; omega) (Cov.cons ha.1 (Cov.one he) hj hj') (ha.2 (by simpa using hnn))))

/-! ### Keywords -/

theorem mkIf_ids {a i : Nat} {l : Cursor} {c t e : Node} (ha : a ≤ i) (hc : Cov a i [c, t, e]) :
    WP (mkIf l c t e) i fun n j => G a j n := by
  unfold mkIf
  qq
  exact .fresh (.pure (G.made hc ha rfl rfl rfl))

theorem Cov.null {a b : Nat} {ns : List Node} (h : Cov a b ns) (hab : a ≤ b) : Cov a b (ns ++ [.null]) :=
  h.snoc (G.null b b) hab (Nat.le_refl _)

theorem else_ids (hR : RecIds R) {a i : Nat} {tok : Token} {c t : Node} (ha : a ≤ i) (hc : Cov a i [c, t]) :
    WP (parseElse R k tok c t) i fun n j => G a j n := by
  unfold parseElse
  qq
  split
  · exact mkIf_ids ha (hc.null ha)
  · qq
    refine .bind (hR.expr i) fun e j hj he => ?_
    qq
    exact mkIf_ids (by omega) (hc.snoc he ha hj)

theorem then_ids (hR : RecIds R) {a i : Nat} {tok : Token} {c : Node} (ha : a ≤ i) (hc : Cov a i [c]) :
    WP (parseThen R k tok c) i fun n j => G a j n := by
  unfold parseThen
  qq
  split
  · qq
    exact mkIf_ids ha ((hc.null ha).null ha)
  · qq
    refine .bind (hR.expr i) fun e j hj he => ?_
    have h1 := hc.mono (Nat.le_refl a) hj
    have h2 : a ≤ j := by omega
    split
    · qq; qq; qq; qq
      split
      · exact mkIf_ids h2 ((h1.null h2).null h2)
      · exact else_ids hR h2 (hc.snoc he ha hj)
    · exact else_ids hR h2 (hc.snoc he ha hj)

theorem if_ids (hR : RecIds R) (i : Nat) : WP (parseExprIf R k) i fun n j => G i j n := by
  unfold parseExprIf
  qq; qq
  refine .sync (.sync (.bind (hR.expr i) fun e j hj he => ?_))
  split
  · qq; qq; qq; qq; qq
    split
    · exact mkIf_ids hj ((((Cov.nil i j).null hj).null hj).null hj)
    · exact then_ids hR hj (Cov.one he)
  · exact then_ids hR hj (Cov.one he)

theorem mkAssert_ids {a i : Nat} {l : Cursor} {c t : Node} (ha : a ≤ i) (hc : Cov a i [c, t]) :
    WP (mkAssert l c t) i fun n j => G a j n := by
  unfold mkAssert
  qq
  exact .fresh (.pure (G.made hc ha rfl rfl rfl))

theorem assertValue_ids (hR : RecIds R) {a i : Nat} {tok : Token} {c : Node} (ha : a ≤ i) (hc : Cov a i [c]) :
    WP (parseAssertValue R k tok c) i fun n j => G a j n := by
  unfold parseAssertValue
  qq
  split
  · qq
    exact mkAssert_ids ha (hc.null ha)
  · qq
    refine .bind (hR.expr i) fun e j hj he => ?_
    qq
    exact mkAssert_ids (by omega) (hc.snoc he ha hj)

theorem assert_ids (hR : RecIds R) (i : Nat) : WP (parseExprAssert R k) i fun n j => G i j n := by
  unfold parseExprAssert
  qq; qq
  refine .sync (.bind (hR.expr i) fun e j hj he => ?_)
  split
  · qq; qq; qq; qq
    split
    · exact mkAssert_ids hj (((Cov.nil i j).null hj).null hj)
    · exact assertValue_ids hR hj (Cov.one he)
  · exact assertValue_ids hR hj (Cov.one he)

theorem let_ids (hR : RecIds R) (i : Nat) : WP (parseExprLet R k) i fun n j => G i j n := by
  unfold parseExprLet
  qq
  rename_i tok
  refine .misc ?_
  qq
  refine .sync (.bind (binds_ids hR _) fun b j hj hb => ?_)
  refine .bind (Q := fun n j' => (n = .null ∧ j' = j) ∨ (G i j' n ∧ ∃ h st dy, n = .exprAttrs h b (.misc ⟨i, tok.range⟩) st dy)) ?_ fun at' j' hj' ha => ?_
  · unfold letAttrs
    split
    · exact .pure (.inl ⟨rfl, rfl⟩)
    · exact (onExprAttrs_wp (by omega) (Cov.cons (G.misc i _) (Cov.one hb.1) (by omega) hj) (hb.mono (by omega) (Nat.le_refl _)) (.inr ⟨_, rfl⟩)).imp
        fun _ _ _ h => .inr h
  · have fin : ∀ {j2 : Nat} {r : CRange} {kin e : Node}, j' ≤ j2 → Leaf kin → Cov j' j2 [kin, e] →
        G i (j2 + 1) (.exprLet ⟨j2, r⟩ (.misc ⟨i, tok.range⟩) kin e at') := by
      intro j2 r kin e h2 hl hc
      refine G.let_ (h := ⟨j2, r⟩) (by simp only; omega) hl ?_
      rcases ha with ⟨rfl, rfl⟩ | ⟨hg, h', st, dy, rfl⟩
      · exact .inl ⟨rfl, Cov.cons ((G.misc i _).mono (Nat.le_refl _) hj) hc (by omega) h2⟩
      · exact .inr ⟨_, _, _, _, rfl, Cov.cons hg hc (by omega) h2⟩
    qq
    split
    · qq
      exact .fresh (.pure (fin (Nat.le_refl _) (.inl rfl) (((Cov.nil j' j').null (Nat.le_refl _)).null (Nat.le_refl _))))
    · refine .misc ?_
      qq
      refine .bind (hR.expr _) fun e j2 hj2 he => ?_
      qq; qq
      exact .fresh (.pure (fin (by omega) (.inr ⟨_, rfl⟩) (Cov.cons (G.misc j' _) (Cov.one he) (by omega) hj2)))

theorem with_ids (hR : RecIds R) (i : Nat) : WP (parseExprWith R k) i fun n j => G i j n := by
  unfold parseExprWith
  qq; qq
  refine .misc (.sync (.bind (hR.expr _) fun w j hj hw => ?_))
  qq; qq
  have h1 := fun r => Cov.cons (G.misc i r) (Cov.one hw) (by omega) hj
  split
  · qq; qq
    exact .fresh (.pure (G.with_ (h := ⟨j, _⟩) (((h1 _).null (by omega)).null (by omega)) (by simp only; omega) ⟨.inr ⟨_, rfl⟩, .inl rfl⟩))
  · refine .misc ?_
    qq
    refine .bind (hR.expr _) fun e j' hj' he => ?_
    qq; qq
    exact .fresh (.pure (G.with_ (h := ⟨j', _⟩) (((h1 _).snoc (G.misc j _) (by omega) (by omega)).snoc he (by omega) hj') (by simp only; omega) ⟨.inr ⟨_, rfl⟩, .inr ⟨_, rfl⟩⟩))

theorem legacyLet_ids (hR : RecIds R) (i : Nat) : WP (parseExprLegacyLet R k) i fun n j => G i j n := by
  unfold parseExprLegacyLet
  qq
  rename_i tok
  refine .misc ?_
  qq
  refine .sync ?_
  qq; qq
  refine .bind (binds_ids hR _) fun b j hj hb => ?_
  qq; qq; qq
  refine .bind (onExprAttrs_wp (a := i) (by omega) (Cov.cons (G.misc i _) (Cov.one hb.1) (by omega) hj) (hb.mono (by omega) (Nat.le_refl _)) (.inr ⟨_, rfl⟩))
    fun at' j' hj' ha => ?_
  obtain ⟨hg, h, st, dy, rfl⟩ := ha
  qq; qq; qq
  exact .fresh (.pure (G.legacyLet (h := ⟨j', _⟩) (by simp only; omega) hg))

theorem expr_ids (hR : RecIds R) (i : Nat) : WP (parseExpr R k) i fun n j => G i j n := by
  unfold parseExpr
  refine .q q_lookAhead fun l => ?_
  split
  · exact lambda_ids hR i
  · exact attrs_ids hR i
  · exact if_ids hR i
  · exact assert_ids hR i
  · exact let_ids hR i
  · exact legacyLet_ids hR i
  · exact with_ids hR i
  · exact (op_ids hR k).1 0 i

theorem recN_ids (n : Nat) : RecIds (recN n) := by
  induction n with
  | zero => exact ⟨fun _ => .fail, fun _ => .fail⟩
  | succ n ih => exact ⟨fun i => expr_ids ih i, fun i => select_ids ih i⟩

/-- The tree of every program. -/
theorem parse_ids {src : Bytes} {n : Node} {s : PState} (h : parse src = some (n, s)) : G 1 s.next n := by
  have : WP (parseTop (src.length + 3)) 1 fun n j => G 1 j n := by
    unfold parseTop
    refine .bind ((recN_ids _).expr 1) fun e j hj he => ?_
    qq; qq
    exact .pure he
  exact (this _ _ _ rfl h).2

end Verif.Nixf
