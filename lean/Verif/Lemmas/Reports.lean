import Verif.Lemmas.SynFrame
/-
Which diagnostics of the semantic actions are in the list when parsing has ended: those of the nodes of the tree.
-/
namespace Verif.Nixf.Reports
open Node Syntax

/-- The diagnostics of the semantic actions. -/
def isSema : DK → Bool
  | .duplicatedAttrName | .mergeDiffRec | .dynamicInherit | .duplicatedFormal | .duplicatedFormalToArg | .emptyFormal
  | .formalMissingComma | .formalExtraEllipsis | .formalMisplacedEllipsis | .redundantParen => true
  | _ => false

theorem lex_not_sema {k : DK} (h : isLexError k = true) : isSema k = false := by cases k <;> first | rfl | cases h

/-- A node that is made by a semantic action. -/
def Acts : Node → Prop
  | .exprAttrs .. | .formals .. | .lambdaArg .. | .exprParen .. => True
  | _ => False

/-- Some node of a tree satisfies a predicate. -/
def Below (Y : Node → Prop) (n : Node) : Prop := ∃ x, Reach n x ∧ Acts x ∧ Y x

theorem below_iff {Y : Node → Prop} {n : Node} : Below Y n ↔ (Acts n ∧ Y n) ∨ ∃ c ∈ n.children, Below Y c := by
  constructor
  · rintro ⟨x, hr, hx⟩
    cases hr with
    | here => exact .inl hx
    | down _ c _ hc hr => exact .inr ⟨c, hc, x, hr, hx⟩
  · rintro (h | ⟨c, hc, x, hr, hx⟩)
    · exact ⟨n, .here n, h⟩
    · exact ⟨x, .down n c x hc hr, hx⟩

theorem below_null {Y : Node → Prop} : ¬ Below Y .null := by rw [below_iff]; simp [children, Acts]
theorem below_text {Y : Node → Prop} {t} : ¬ Below Y (.text t) := by rw [below_iff]; simp [children, Acts]

/-- Nodes that do not exist can be disregarded. -/
theorem below_filter {Y : Node → Prop} {l : List Node} : (∃ c ∈ l.filter isNode, Below Y c) ↔ ∃ c ∈ l, Below Y c := by
  constructor
  · rintro ⟨c, hc, h⟩; exact ⟨c, (List.mem_filter.mp hc).1, h⟩
  · rintro ⟨c, hc, h⟩
    refine ⟨c, List.mem_filter.mpr ⟨hc, ?_⟩, h⟩
    cases c <;> first | rfl | exact absurd h below_null | exact absurd h below_text | skip
    rw [below_iff] at h; simp [children, Acts] at h

/-- The nodes of a list of trees. -/
def Among (Y : Node → Prop) (l : List Node) : Prop := ∃ c ∈ l, Below Y c

section
variable {Y : Node → Prop}
theorem among_nil : Among Y [] ↔ False := by simp [Among]
theorem among_cons {n l} : Among Y (n :: l) ↔ Below Y n ∨ Among Y l := by simp [Among]
theorem among_append {a b} : Among Y (a ++ b) ↔ Among Y a ∨ Among Y b := by simp [Among, or_and_right, exists_or]

/-- The trees below a node. -/
theorem below_among {n : Node} {l : List Node} (h : n.children = l.filter isNode) : Below Y n ↔ (Acts n ∧ Y n) ∨ Among Y l := by
  rw [below_iff, h, below_filter]; rfl
end

/-- Some diagnostic of a list satisfies a predicate. -/
def In (P : Diagnostic → Prop) (l : List Diagnostic) : Prop := ∃ x ∈ l, P x

theorem in_append {P : Diagnostic → Prop} {a b : List Diagnostic} : In P (a ++ b) ↔ In P a ∨ In P b := by
  simp [In, or_and_right, exists_or]

/-- The diagnostic for parentheses. -/
def parenDiag (l r : Node) : Diagnostic := redundantParenDiag l.range (if r.isNull then none else some r.range)

/-- The diagnostics a semantic action may have added for a node. -/
def May (src : Bytes) (P : Diagnostic → Prop) : Node → Prop
  | .exprAttrs h b r _ _ => ∃ s ds, (onExprAttrs h.range b r s).2.diags = s.diags ++ ds ∧ In P ds
  | .formals h ms => ∃ s ds, (onFormals src h.range ms s).2.diags = s.diags ++ ds ∧ In P ds
  | .lambdaArg h i f => ∃ s ds, (onLambdaArg h.range i f s).2.diags = s.diags ++ ds ∧ In P ds
  | .exprParen _ e l r => e.mayProducedBySimple = true ∧ P (parenDiag l r)
  | _ => False

/-- The diagnostics a semantic action adds for a node in every state. -/
def Must (src : Bytes) (P : Diagnostic → Prop) : Node → Prop
  | .exprAttrs h b r _ _ => ∀ s ds, (onExprAttrs h.range b r s).2.diags = s.diags ++ ds → In P ds
  | .formals h ms => ∀ s ds, (onFormals src h.range ms s).2.diags = s.diags ++ ds → In P ds
  | .lambdaArg h i f => ∀ s ds, (onLambdaArg h.range i f s).2.diags = s.diags ++ ds → In P ds
  | .exprParen _ e l r => e.mayProducedBySimple = true ∧ P (parenDiag l r)
  | _ => False

/-- The nodes something stands for, as a condition on a predicate of nodes. -/
abbrev Trees := (Node → Prop) → Prop
abbrev none_ : Trees := fun _ => False
abbrev one (n : Node) : Trees := fun Y => Below Y n
abbrev many (l : List Node) : Trees := fun Y => Among Y l
abbrev both (a b : Trees) : Trees := fun Y => a Y ∨ b Y

section
variable (src : Bytes) (P : Diagnostic → Prop)

/-- A statement that has nothing to do with a diagnostic. -/
structure Same (s s' : PState) : Prop where
  src : s'.lex.src = s.lex.src
  mem : In P s'.lex.diags ↔ In P s.lex.diags

def Quiet {α : Type} (m : PM α) : Prop := ∀ s a s', m s = some (a, s') → Same P s s'

/-- The last diagnostic is not one of a semantic action. -/
def Soft (s : PState) : Prop := ∃ x, s.lex.diags.getLast? = some x ∧ isSema x.kind = false

/-- What a statement does: `H` are the trees that were made before, `c` those that are returned. -/
structure Does (H c : Trees) (s s' : PState) : Prop where
  text : s'.lex.src = src
  keep : In P s.lex.diags → In P s'.lex.diags
  may : In P s'.lex.diags → In P s.lex.diags ∨ c (May src P)
  held : H (May src P) → c (May src P)
  must : c (Must src P) → In P s'.lex.diags

/-- A statement that returns the trees which were made before and those it makes. -/
def T {α : Type} (H : Trees) (m : PM α) (c : α → Trees) : Prop :=
  ∀ s a s', m s = some (a, s') → s.lex.src = src → (H (Must src P) → In P s.lex.diags) → Does src P H (c a) s s'

/-- The same after a diagnostic that may get notes. -/
def TS {α : Type} (H : Trees) (m : PM α) (c : α → Trees) : Prop :=
  ∀ s a s', m s = some (a, s') → s.lex.src = src → Soft s → (H (Must src P) → In P s.lex.diags) → Does src P H (c a) s s'
end

section
variable {src : Bytes} {P : Diagnostic → Prop} {α β : Type} {H : Trees} {c : α → Trees} {c' : β → Trees}

theorem Same.refl (s : PState) : Same P s s := ⟨rfl, .rfl⟩
theorem Same.trans {s s' s'' : PState} (h : Same P s s') (h' : Same P s' s'') : Same P s s'' :=
  ⟨h'.src.trans h.src, h'.mem.trans h.mem⟩

theorem Quiet.bind {m : PM α} {f : α → PM β} (h1 : Quiet P m) (h2 : ∀ a, Quiet P (f a)) : Quiet P (m >>= f) := by
  intro s b s' h
  obtain ⟨a, s1, e1, e2⟩ := run_bind h
  exact (h1 _ _ _ e1).trans (h2 a _ _ _ e2)

theorem Quiet.pure {a : α} : Quiet P (Pure.pure a : PM α) := by
  intro s b s' h
  obtain ⟨-, rfl⟩ := run_pure h
  exact .refl _

theorem Quiet.fail : Quiet P (PM.fail : PM α) := fun _ _ _ h => by cases h

theorem Quiet.get {f : PState → α} : Quiet P (PM.get f) := by
  intro s b s' h
  unfold PM.get at h; cases h
  exact .refl _

theorem Quiet.when {p : Prop} [Decidable p] {m : PM Unit} (h : Quiet P m) : Quiet P (whenP p m) := by
  unfold whenP; split
  · exact h
  · exact .pure

theorem Quiet.sync {k : TK} {m : PM α} (h : Quiet P m) : Quiet P (withSync k m) :=
  .bind (fun _ _ _ e => by have := run_modify e; subst this; exact ⟨rfl, .rfl⟩) fun _ =>
    .bind h fun _ => .bind (fun _ _ _ e => by have := run_modify e; subst this; exact ⟨rfl, .rfl⟩) fun _ => .pure

theorem T.soft {m : PM α} (h : T src P H m c) : TS src P H m c := fun s a s' e h1 _ h2 => h s a s' e h1 h2

theorem T.bind {m : PM α} {f : α → PM β} (h1 : T src P none_ m c) (h2 : ∀ a, T src P (both H (c a)) (f a) c') :
    T src P H (m >>= f) c' := by
  intro s b s' h e hH
  obtain ⟨a, s1, e1, e2⟩ := run_bind h
  have k1 := h1 _ _ _ e1 e nofun
  have k2 := h2 a _ _ _ e2 k1.text (fun h => h.elim (fun h => k1.keep (hH h)) k1.must)
  refine ⟨k2.text, fun h => k2.keep (k1.keep h), fun h => ?_, fun h => k2.held (.inl h), k2.must⟩
  rcases k2.may h with h | h
  · rcases k1.may h with h | h
    · exact .inl h
    · exact .inr (k2.held (.inr h))
  · exact .inr h

theorem T.seq {H0 H1 : Trees} {m : PM α} {f : α → PM β} (hH : ∀ Y, H Y ↔ H0 Y ∨ H1 Y) (h1 : T src P H1 m c) (h2 : ∀ a, T src P (both H0 (c a)) (f a) c') :
    T src P H (m >>= f) c' := by
  intro s b s' h e hk
  obtain ⟨a, s1, e1, e2⟩ := run_bind h
  have k1 := h1 _ _ _ e1 e fun h => hk ((hH _).mpr (.inr h))
  have k2 := h2 a _ _ _ e2 k1.text (fun h => h.elim (fun h => k1.keep (hk ((hH _).mpr (.inl h)))) k1.must)
  refine ⟨k2.text, fun h => k2.keep (k1.keep h), fun h => ?_, fun h => k2.held (((hH _).mp h).imp_right k1.held), k2.must⟩
  rcases k2.may h with h | h
  · rcases k1.may h with h | h
    · exact .inl h
    · exact .inr (k2.held (.inr h))
  · exact .inr h

theorem T.after {m : PM α} {f : α → PM β} (h1 : Quiet P m) (h2 : ∀ a, T src P H (f a) c') : T src P H (m >>= f) c' := by
  intro s b s' h e hH
  obtain ⟨a, s1, e1, e2⟩ := run_bind h
  have k1 := h1 _ _ _ e1
  have k2 := h2 a _ _ _ e2 (k1.src.trans e) (fun h => k1.mem.mpr (hH h))
  exact ⟨k2.text, fun h => k2.keep (k1.mem.mpr h), fun h => (k2.may h).imp_left k1.mem.mp, k2.held, k2.must⟩

theorem T.pure {a : α} (h : ∀ Y, c a Y ↔ H Y) : T src P H (Pure.pure a : PM α) c := by
  intro s b s' e hs hH
  obtain ⟨rfl, rfl⟩ := run_pure e
  exact ⟨hs, id, .inl, (h _).mpr, fun k => hH ((h _).mp k)⟩

theorem T.pureFor {a : α} (h1 : H (May src P) → c a (May src P)) (h2 : c a (Must src P) → H (Must src P)) : T src P H (Pure.pure a : PM α) c := by
  intro s b s' e hs hH
  obtain ⟨rfl, rfl⟩ := run_pure e
  exact ⟨hs, id, .inl, h1, fun k => hH (h2 k)⟩

/-- A diagnostic for a node that is going to be made. -/
theorem T.emitFor {p : Prop} [Decidable p] {x : Diagnostic} {f : Unit → PM β} {H' : Trees} (h1 : H' (May src P) ↔ H (May src P) ∨ (p ∧ P x))
    (h2 : H' (Must src P) ↔ H (Must src P) ∨ (p ∧ P x)) (h : T src P H' (f ()) c') : T src P H (whenP p (emitD x) >>= f) c' := by
  intro s b s' e hs hH
  obtain ⟨⟨⟩, s1, e1, e2⟩ := run_bind e
  have key : s1.lex.src = src ∧ (In P s1.lex.diags ↔ In P s.lex.diags ∨ (p ∧ P x)) := by
    unfold whenP at e1
    split at e1
    · rename_i hp
      have := run_modify e1; subst this
      refine ⟨hs, ?_⟩
      show In P (s.lex.diags ++ [x]) ↔ _
      rw [in_append]
      simp [In, hp]
    · rename_i hp
      obtain ⟨-, rfl⟩ := run_pure e1
      exact ⟨hs, by simp [hp]⟩
  have := h _ _ _ e2 key.1 fun k => key.2.mpr ((h2.mp k).imp_left hH)
  exact ⟨this.text, fun k => this.keep (key.2.mpr (.inl k)),
    fun k => (this.may k).elim (fun k => (key.2.mp k).imp_right fun k => this.held (h1.mpr (.inr k))) .inr,
    fun k => this.held (h1.mpr (.inl k)), this.must⟩

theorem T.fail : T src P H (PM.fail : PM α) c := fun _ _ _ h => by cases h

theorem T.of {m : PM α} {H' : Trees} {c1 : α → Trees} (h : T src P H m c1) (hH : ∀ Y, H' Y ↔ H Y) (hc : ∀ a Y, c a Y ↔ c1 a Y) : T src P H' m c := by
  intro s a s' e hs k
  have := h s a s' e hs (fun x => k ((hH _).mpr x))
  exact ⟨this.text, this.keep, fun x => (this.may x).imp_right (hc _ _).mpr, fun x => (hc _ _).mpr (this.held ((hH _).mp x)), fun x => this.must ((hc _ _).mp x)⟩

/-- The trees made before are returned as well. -/
theorem T.pre {m : PM α} {H' : Trees} (h : T src P H m c) (hH : ∀ Y, H' Y ↔ H Y) : T src P H' m c := h.of hH fun _ _ => .rfl

theorem T.sync {k : TK} {m : PM α} (h : T src P H m c) : T src P H (withSync k m) c := by
  intro s a s' e hs hH
  unfold withSync at e
  obtain ⟨_, s1, e1, e⟩ := run_bind e
  obtain ⟨b, s2, e2, e⟩ := run_bind e
  obtain ⟨_, s3, e3, e⟩ := run_bind e
  obtain ⟨rfl, rfl⟩ := run_pure e
  have e1 := run_modify e1
  have e3 := run_modify e3
  subst e1 e3
  have := h _ _ _ e2 hs hH
  exact ⟨this.text, this.keep, this.may, this.held, this.must⟩

theorem resetBuf_same (s : PState) : (resetBuf s).lex.src = s.lex.src ∧ (resetBuf s).lex.diags = s.lex.diags := by
  unfold resetBuf; split <;> exact ⟨rfl, rfl⟩

theorem T.state {k : PS} {m : PM α} (h : T src P H m c) : T src P H (withState k m) c := by
  intro s a s' e hs hH
  unfold withState at e
  obtain ⟨_, s1, e1, e⟩ := run_bind e
  obtain ⟨b, s2, e2, e⟩ := run_bind e
  obtain ⟨_, s3, e3, e⟩ := run_bind e
  obtain ⟨rfl, rfl⟩ := run_pure e
  have e1 := run_modify e1
  have e3 := run_modify e3
  obtain ⟨a1, a2⟩ := resetBuf_same s
  obtain ⟨b1, b2⟩ := resetBuf_same s2
  have d1 : s1.lex.diags = s.lex.diags := by rw [e1]; exact a2
  have d3 : s'.lex.diags = s2.lex.diags := by rw [e3]; exact b2
  have f1 : s1.lex.src = s.lex.src := by rw [e1]; exact a1
  have f3 : s'.lex.src = s2.lex.src := by rw [e3]; exact b1
  have := h _ _ _ e2 (f1.trans hs) (by rw [d1]; exact hH)
  exact ⟨f3.trans this.text, fun h => by rw [d3]; exact this.keep (by rw [d1]; exact h), fun h => by rw [← d1]; exact this.may (by rw [← d3]; exact h),
    this.held, fun h => by rw [d3]; exact this.must h⟩

/-- A semantic action. -/
theorem T.sema {f : Bytes → SemaSt → Node × SemaSt} (H' : Trees) (hd : ∀ s, ∃ ds, (f src s).2.diags = s.diags ++ ds)
    (hm : ∀ s ds, (f src s).2.diags = s.diags ++ ds → In P ds → Below (May src P) (f src s).1)
    (hw : ∀ s ds, (f src s).2.diags = s.diags ++ ds → Below (Must src P) (f src s).1 → In P ds ∨ H' (Must src P))
    (hh : ∀ s, H' (May src P) → Below (May src P) (f src s).1) (hH : ∀ Y, H Y ↔ H' Y) :
    T src P H (Nixf.sema f) one := by
  intro s a s' e hs hk
  subst hs
  simp only [Nixf.sema, Option.some.injEq, Prod.mk.injEq] at e
  obtain ⟨rfl, rfl⟩ := e
  obtain ⟨ds, h⟩ := hd ⟨s.next, s.lex.diags, s.bad⟩
  have hmem : In P (f s.lex.src ⟨s.next, s.lex.diags, s.bad⟩).2.diags ↔ In P s.lex.diags ∨ In P ds := by rw [h]; exact in_append
  refine ⟨rfl, fun h => hmem.mpr (.inl h), fun k => (hmem.mp k).imp_right (hm _ ds h), fun k => hh _ ((hH _).mp k), fun k => hmem.mpr ?_⟩
  exact (hw _ ds h k).elim .inr fun k => .inl (hk ((hH _).mpr k))

/-! ### Basic statements -/

variable (hd : ∀ x, P x → isSema x.kind = true)
include hd

theorem add_same {l l' : List Diagnostic} (h : ∃ t, l' = l ++ t ∧ ∀ x ∈ t, isSema x.kind = false) : In P l' ↔ In P l := by
  obtain ⟨t, rfl, h⟩ := h
  rw [in_append]
  refine ⟨fun k => k.elim id fun ⟨x, k, hx⟩ => ?_, .inl⟩
  have := hd x hx
  rw [h x k] at this; cases this

theorem pull_same (n : Nat) (s : PState) : Same P s (pull n s) := by
  induction n generalizing s with
  | zero => exact .refl s
  | succ n ih =>
    refine Same.trans ⟨lexPS_src _ _, ?_⟩ (ih _)
    obtain ⟨t, h1, h2⟩ := lexPS_kinds (s.states.headD .expr) s.lex
    exact add_same hd ⟨t, h1, fun x hx => lex_not_sema (h2 x hx)⟩

theorem peek_q {n : Nat} : Quiet P (peek n) := by
  intro s a s' h
  unfold peek at h; cases h
  exact pull_same hd _ _

theorem peekKind_q {n : Nat} : Quiet P (peekKind n) := .bind (peek_q hd) fun _ => .pure

theorem pconsume_q : Quiet P pconsume := by
  intro s a s' h
  unfold pconsume at h
  simp only at h
  have h1 : Same P s (if s.buf.isEmpty then pull 1 s else s) := by
    split
    · exact pull_same hd _ _
    · exact .refl s
  revert h h1
  generalize (if s.buf.isEmpty then pull 1 s else s) = s1
  intro h h1
  split at h
  · cases h; exact h1
  · cases h; exact ⟨h1.src, h1.mem⟩

theorem lCurP_q : Quiet P lCurP := .bind (peek_q hd) fun _ => .pure

omit hd in
theorem lastR_q : Quiet P lastR := by
  intro s a s' h
  unfold lastR at h
  split at h <;> (cases h; exact ⟨rfl, .rfl⟩)

theorem emitD_q {x : Diagnostic} (hx : isSema x.kind = false) : Quiet P (emitD x) := by
  intro s a s' h
  have := run_modify h; subst this
  exact ⟨rfl, add_same hd ⟨[x], rfl, by simpa using hx⟩⟩

omit hd in
theorem assertFail_q : Quiet P assertFail := fun _ _ _ h => by have := run_modify h; subst this; exact ⟨rfl, .rfl⟩
omit hd in
theorem assertLast_q : Quiet P assertLast := fun _ _ _ h => by have := run_modify h; subst this; exact ⟨rfl, .rfl⟩
omit hd in
theorem fresh_q {r : CRange} : Quiet P (fresh r) := fun _ _ _ h => by unfold fresh at h; cases h; exact ⟨rfl, .rfl⟩
omit hd in
theorem mkMisc_q {r : CRange} : Quiet P (mkMisc r) := .bind fresh_q fun _ => .pure
theorem diagNullExpr_q {p : Cursor} {as : Bytes} : Quiet P (diagNullExpr p as) := emitD_q hd rfl
theorem needExpr_q {e : Node} {as : Bytes} : Quiet P (needExpr e as) := .when (.bind lastR_q fun _ => emitD_q hd rfl)

theorem unknownLoop_q (k : Nat) : Quiet P (unknownLoop k) := by
  induction k with
  | zero => exact .fail
  | succ k ih =>
    refine .bind (peek_q hd) fun t => .bind .get fun sync => ?_
    split
    · exact .pure
    · exact .bind (pconsume_q hd) fun _ => .bind ih fun _ => .pure

theorem removeUnexpected_q {k : Nat} : Quiet P (removeUnexpected k) := by
  refine .bind (.bind (peek_q hd) fun t => .bind (unknownLoop_q hd k) fun c => ?_) fun r => ?_
  · split
    · exact .bind lastR_q fun _ => .pure
    · exact .pure
  · split
    · exact .bind (emitD_q hd rfl) fun _ => .pure
    · exact .pure

theorem insertCur_q : Quiet P insertCur := by
  refine .bind .get fun r => ?_
  split
  · exact .pure
  · exact lCurP_q hd

theorem rePeek_q {b : Bool} {t : Token} : Quiet P (rePeek b t) := by
  unfold rePeek; split
  · exact peek_q hd
  · exact .pure

theorem expect_q {k : Nat} {kind : TK} : Quiet P (expect k kind) := by
  refine .sync (.bind (peek_q hd) fun t => ?_)
  split
  · exact .pure
  · refine .bind (removeUnexpected_q hd) fun _ => .bind (rePeek_q hd) fun _ => ?_
    split
    · exact .pure
    · exact .bind (insertCur_q hd) fun _ => .bind (emitD_q hd rfl) fun _ => .pure

omit hd in
theorem emit_soft {x : Diagnostic} {s s' : PState} {u : Unit} (hx : isSema x.kind = false) (h : emitD x s = some (u, s')) : Soft s' := by
  have := run_modify h; subst this
  exact ⟨x, by simp [St.emit], hx⟩

omit hd in
theorem expect_soft {k : Nat} {kind : TK} {s s' : PState} (h : expect k kind s = some (none, s')) : Soft s' := by
  unfold expect withSync at h
  obtain ⟨_, s1, -, h⟩ := run_bind h
  obtain ⟨b, s2, h2, h⟩ := run_bind h
  obtain ⟨_, s3, h3, h⟩ := run_bind h
  obtain ⟨rfl, rfl⟩ := run_pure h
  have h3 := run_modify h3
  have : Soft s2 := by
    obtain ⟨t, s4, -, h2⟩ := run_bind h2
    split at h2
    · exact nomatch (run_pure h2).1
    · obtain ⟨_, s5, -, h2⟩ := run_bind h2
      obtain ⟨_, s6, -, h2⟩ := run_bind h2
      split at h2
      · exact nomatch (run_pure h2).1
      · obtain ⟨_, s7, -, h2⟩ := run_bind h2
        obtain ⟨_, s8, h8, h2⟩ := run_bind h2
        obtain ⟨-, rfl⟩ := run_pure h2
        exact emit_soft rfl h8
  subst h3
  exact this

/-- Changing the last diagnostic. -/
theorem last_same {l : List Diagnostic} {g : Diagnostic → Diagnostic} (hg : ∀ x, (g x).kind = x.kind) {x : Diagnostic} (hl : l.getLast? = some x)
    (hx : isSema x.kind = false) : (In P (l.dropLast ++ (l.getLast?.map g).toList) ↔ In P l) ∧
      ∃ y, (l.dropLast ++ (l.getLast?.map g).toList).getLast? = some y ∧ isSema y.kind = false := by
  obtain ⟨l, rfl⟩ : ∃ l', l = l' ++ [x] := by
    cases l using List.reverseRecOn with
    | nil => cases hl
    | append_singleton l y => simp at hl; subst hl; exact ⟨l, rfl⟩
  refine ⟨?_, g x, by simp, by rw [hg]; exact hx⟩
  simp only [List.dropLast_append_of_ne_nil (by simp : [x] ≠ []), List.getLast?_append, List.getLast?_singleton]
  simp only [List.dropLast_singleton, List.append_nil, Option.some_or, Option.map_some, Option.toList_some, in_append]
  refine or_congr .rfl ⟨fun ⟨y, h, hy⟩ => ?_, fun ⟨y, h, hy⟩ => ?_⟩
  · have := hd y hy; rw [List.mem_singleton.mp h, hg, hx] at this; cases this
  · have := hd y hy; rw [List.mem_singleton.mp h, hx] at this; cases this

theorem noteLast_soft {n : Note} {s s' : PState} {u : Unit} (hs : Soft s) (h : noteLast n s = some (u, s')) : Same P s s' ∧ Soft s' := by
  have := run_modify h; subst this
  obtain ⟨x, h1, h2⟩ := hs
  obtain ⟨a, b⟩ := last_same hd (g := fun x => { x with notes := x.notes ++ [n] }) (fun _ => rfl) h1 h2
  exact ⟨⟨rfl, a⟩, b⟩

theorem fixLast_soft {n : Fix} {s s' : PState} {u : Unit} (hs : Soft s) (h : fixLast n s = some (u, s')) : Same P s s' ∧ Soft s' := by
  have := run_modify h; subst this
  obtain ⟨x, h1, h2⟩ := hs
  obtain ⟨a, b⟩ := last_same hd (g := fun x => { x with fixes := x.fixes ++ [n] }) (fun _ => rfl) h1 h2
  exact ⟨⟨rfl, a⟩, b⟩

theorem T.note {n : Note} {f : Unit → PM β} (h : TS src P H (f ()) c') : TS src P H (noteLast n >>= f) c' := by
  intro s b s' e hs ho hH
  obtain ⟨_, s1, e1, e2⟩ := run_bind e
  obtain ⟨k1, k2⟩ := noteLast_soft hd ho e1
  have k := h _ _ _ e2 (k1.src.trans hs) k2 (fun h => k1.mem.mpr (hH h))
  exact ⟨k.text, fun h => k.keep (k1.mem.mpr h), fun h => (k.may h).imp_left k1.mem.mp, k.held, k.must⟩

theorem T.fix {n : Fix} {f : Unit → PM β} (h : TS src P H (f ()) c') : TS src P H (fixLast n >>= f) c' := by
  intro s b s' e hs ho hH
  obtain ⟨_, s1, e1, e2⟩ := run_bind e
  obtain ⟨k1, k2⟩ := fixLast_soft hd ho e1
  have k := h _ _ _ e2 (k1.src.trans hs) k2 (fun h => k1.mem.mpr (hH h))
  exact ⟨k.text, fun h => k.keep (k1.mem.mpr h), fun h => (k.may h).imp_left k1.mem.mp, k.held, k.must⟩

theorem T.expect {k : Nat} {kind : TK} {f : Option Token → PM β} (h1 : ∀ t, T src P H (f (some t)) c') (h2 : TS src P H (f none) c') :
    T src P H (Nixf.expect k kind >>= f) c' := by
  intro s b s' e hs hH
  obtain ⟨r, s1, e1, e2⟩ := run_bind e
  have k1 := expect_q hd _ _ _ e1
  have k : Does src P H (c' b) s1 s' := by
    cases r with
    | some t => exact h1 t _ _ _ e2 (k1.src.trans hs) (fun h => k1.mem.mpr (hH h))
    | none => exact h2 _ _ _ e2 (k1.src.trans hs) (expect_soft e1) (fun h => k1.mem.mpr (hH h))
  exact ⟨k.text, fun h => k.keep (k1.mem.mpr h), fun h => (k.may h).imp_left k1.mem.mp, k.held, k.must⟩

theorem T.nullExpr {p : Cursor} {as : Bytes} {f : Unit → PM β} (h : TS src P H (f ()) c') : T src P H (diagNullExpr p as >>= f) c' := by
  intro s b s' e hs hH
  obtain ⟨_, s1, e1, e2⟩ := run_bind e
  have k1 := diagNullExpr_q hd _ _ _ e1
  have k := h _ _ _ e2 (k1.src.trans hs) (emit_soft (by rfl) e1) (fun h => k1.mem.mpr (hH h))
  exact ⟨k.text, fun h => k.keep (k1.mem.mpr h), fun h => (k.may h).imp_left k1.mem.mp, k.held, k.must⟩

/-- A diagnostic with notes or corrections. -/
theorem null_note_q {p : Cursor} {as : Bytes} {n : Note} : Quiet P (diagNullExpr p as >>= fun _ => noteLast n) := by
  intro s a s' e
  obtain ⟨_, s1, e1, e2⟩ := run_bind e
  exact (diagNullExpr_q hd _ _ _ e1).trans (noteLast_soft hd (emit_soft (by rfl) e1) e2).1

theorem null_fix_q {p : Cursor} {as : Bytes} {n : Fix} : Quiet P (diagNullExpr p as >>= fun _ => fixLast n) := by
  intro s a s' e
  obtain ⟨_, s1, e1, e2⟩ := run_bind e
  exact (diagNullExpr_q hd _ _ _ e1).trans (fixLast_soft hd (emit_soft (by rfl) e1) e2).1

theorem expectOr_q {k : Nat} {kind : TK} {r : CRange} {t : Bytes} : Quiet P (expectOr k kind r t) := by
  intro s a s' e
  unfold expectOr at e
  obtain ⟨r, s1, e1, e2⟩ := run_bind e
  refine (expect_q hd _ _ _ e1).trans ?_
  cases r with
  | some t => exact (Quiet.bind (pconsume_q hd) fun _ => .pure) _ _ _ e2
  | none =>
    obtain ⟨_, s2, e2, e3⟩ := run_bind e2
    obtain ⟨-, rfl⟩ := run_pure e3
    exact (noteLast_soft hd (expect_soft e1) e2).1

theorem expectMay_q {k : Nat} {kind : TK} : Quiet P (expectMay k kind) := by
  refine .bind (expect_q hd) fun t => ?_
  split
  · exact pconsume_q hd
  · exact .pure

theorem attrsOpen_q {k : Nat} {b : Token} : Quiet P (attrsOpen k b) := by
  refine .bind (expect_q hd) fun t => ?_
  split
  · exact .bind (pconsume_q hd) fun _ => .pure
  · exact .pure

theorem bindingSemi_q : Quiet P bindingSemi := by
  refine .bind (peek_q hd) fun t => ?_
  split
  · exact pconsume_q hd
  · exact .bind lastR_q fun _ => emitD_q hd rfl

theorem legacyClose_q {k : Nat} {t : Token} {p : Cursor} : Quiet P (legacyClose k t p) := by
  intro s a s' e
  unfold legacyClose at e
  obtain ⟨r, s1, e1, e2⟩ := run_bind e
  refine (expect_q hd _ _ _ e1).trans ?_
  cases r with
  | some t => exact (Quiet.bind (pconsume_q hd) fun _ => .pure) _ _ _ e2
  | none =>
    obtain ⟨_, s2, e2, e3⟩ := run_bind e2
    obtain ⟨-, rfl⟩ := run_pure e3
    exact (noteLast_soft hd (expect_soft e1) e2).1

theorem lookAhead_q : Quiet P lookAhead := by
  unfold lookAhead
  repeat' first
    | exact .pure
    | refine .bind (peekKind_q hd) fun _ => ?_
    | split

end

/-- Proves `Quiet`. -/
macro "quiet" : tactic => `(tactic| first
  | exact peek_q (by assumption) | exact pconsume_q (by assumption) | exact lastR_q | exact fresh_q | exact needExpr_q (by assumption)
  | exact expectOr_q (by assumption) | exact mkMisc_q
  | exact expectMay_q (by assumption) | exact lCurP_q (by assumption) | exact assertFail_q | exact assertLast_q
  | exact removeUnexpected_q (by assumption) | exact diagNullExpr_q (by assumption) | exact Quiet.get
  | exact attrsOpen_q (by assumption) | exact bindingSemi_q (by assumption) | exact legacyClose_q (by assumption) | exact lookAhead_q (by assumption)
  | exact emitD_q (by assumption) rfl | exact Quiet.when (emitD_q (by assumption) rfl)
  | exact Quiet.when (.bind lastR_q fun _ => null_note_q (by assumption)) | exact Quiet.when (.bind lastR_q fun _ => null_fix_q (by assumption)))

theorem T.skip {src : Bytes} {P : Diagnostic → Prop} {α β : Type} {H : Trees} {c' : β → Trees} {m : PM α} {f : α → PM β} 
    (h2 : ∀ a, T src P H (f a) c') (h1 : Quiet P m := by quiet) : T src P H (m >>= f) c' := .after h1 h2

/-! ### The nodes -/

section
variable {Y : Node → Prop}
theorem b_interpolation {h e} : Below Y (.interpolation h e) ↔ Among Y ([e]) := by rw [below_among (l := [e]) rfl]; simp [Acts]
theorem b_parts {h fs} : Below Y (.parts h fs) ↔ Among Y (fs) := by rw [below_among (l := fs) rfl]; simp [Acts]
theorem b_attrNameID {h i} : Below Y (.attrNameID h i) ↔ Among Y ([i]) := by rw [below_among (l := [i]) rfl]; simp [Acts]
theorem b_attrNameString {h s} : Below Y (.attrNameString h s) ↔ Among Y ([s]) := by rw [below_among (l := [s]) rfl]; simp [Acts]
theorem b_attrNameInterp {h i} : Below Y (.attrNameInterp h i) ↔ Among Y ([i]) := by rw [below_among (l := [i]) rfl]; simp [Acts]
theorem b_attrPath {h ns ds} : Below Y (.attrPath h ns ds) ↔ Among Y (ns ++ ds) := by rw [below_among (l := ns ++ ds) rfl]; simp [Acts]
theorem b_binding {h p q v} : Below Y (.binding h p q v) ↔ Among Y ([p, q, v]) := by rw [below_among (l := [p, q, v]) rfl]; simp [Acts]
theorem b_inherit {h ns e} : Below Y (.inherit h ns e) ↔ Among Y (ns ++ [e]) := by rw [below_among (l := ns ++ [e]) rfl]; simp [Acts]
theorem b_binds {h bs} : Below Y (.binds h bs) ↔ Among Y (bs) := by rw [below_among (l := bs) rfl]; simp [Acts]
theorem b_exprVar {h i} : Below Y (.exprVar h i) ↔ Among Y ([i]) := by rw [below_among (l := [i]) rfl]; simp [Acts]
theorem b_exprString {h p} : Below Y (.exprString h p) ↔ Among Y ([p]) := by rw [below_among (l := [p]) rfl]; simp [Acts]
theorem b_exprPath {h p} : Below Y (.exprPath h p) ↔ Among Y ([p]) := by rw [below_among (l := [p]) rfl]; simp [Acts]
theorem b_exprParen {h e l r} : Below Y (.exprParen h e l r) ↔ Y (.exprParen h e l r) ∨ Among Y ([e, l, r]) := by rw [below_among (l := [e, l, r]) rfl]; simp [Acts]
theorem b_exprSelect {h e t p f x} : Below Y (.exprSelect h e t p f x) ↔ Among Y ([e, p, f]) := by rw [below_among (l := [e, p, f]) rfl]; simp [Acts]
theorem b_exprCall {h f as} : Below Y (.exprCall h f as) ↔ Among Y (f :: as) := by rw [below_among (l := f :: as) rfl]; simp [Acts]
theorem b_exprList {h es} : Below Y (.exprList h es) ↔ Among Y (es) := by rw [below_among (l := es) rfl]; simp [Acts]
theorem b_exprLambda {h a b} : Below Y (.exprLambda h a b) ↔ Among Y ([a, b]) := by rw [below_among (l := [a, b]) rfl]; simp [Acts]
theorem b_exprBinOp {h o l r} : Below Y (.exprBinOp h o l r) ↔ Among Y ([o, l, r]) := by rw [below_among (l := [o, l, r]) rfl]; simp [Acts]
theorem b_exprUnaryOp {h o e} : Below Y (.exprUnaryOp h o e) ↔ Among Y ([o, e]) := by rw [below_among (l := [o, e]) rfl]; simp [Acts]
theorem b_exprOpHasAttr {h o e p} : Below Y (.exprOpHasAttr h o e p) ↔ Among Y ([e, p]) := by rw [below_among (l := [e, p]) rfl]; simp [Acts]
theorem b_exprIf {h c t e} : Below Y (.exprIf h c t e) ↔ Among Y ([c, t, e]) := by rw [below_among (l := [c, t, e]) rfl]; simp [Acts]
theorem b_exprAssert {h c v} : Below Y (.exprAssert h c v) ↔ Among Y ([c, v]) := by rw [below_among (l := [c, v]) rfl]; simp [Acts]
theorem b_exprLet {h k i e a} : Below Y (.exprLet h k i e a) ↔ Among Y ([k, a, i, e]) := by rw [below_among (l := [k, a, i, e]) rfl]; simp [Acts]
theorem b_exprLegacyLet {h k a} : Below Y (.exprLegacyLet h k a) ↔ Among Y ([k, a]) := by rw [below_among (l := [k, a]) rfl]; simp [Acts]
theorem b_exprWith {h k s w e} : Below Y (.exprWith h k s w e) ↔ Among Y ([k, s, w, e]) := by rw [below_among (l := [k, s, w, e]) rfl]; simp [Acts]
theorem b_misc {h} : Below Y (.misc h) ↔ Among Y ([]) := by rw [below_among (l := []) rfl]; simp [Acts]
theorem b_dot {h p q} : Below Y (.dot h p q) ↔ Among Y ([]) := by rw [below_among (l := []) rfl]; simp [Acts]
theorem b_identifier {h x} : Below Y (.identifier h x) ↔ Among Y ([]) := by rw [below_among (l := []) rfl]; simp [Acts]
theorem b_op {h k} : Below Y (.op h k) ↔ Among Y ([]) := by rw [below_among (l := []) rfl]; simp [Acts]
theorem b_exprInt {h x} : Below Y (.exprInt h x) ↔ Among Y ([]) := by rw [below_among (l := []) rfl]; simp [Acts]
theorem b_exprFloat {h x} : Below Y (.exprFloat h x) ↔ Among Y ([]) := by rw [below_among (l := []) rfl]; simp [Acts]
theorem b_exprSPath {h x} : Below Y (.exprSPath h x) ↔ Among Y ([]) := by rw [below_among (l := []) rfl]; simp [Acts]
theorem b_null : Below Y .null ↔ False := ⟨below_null, False.elim⟩
theorem b_text {t} : Below Y (.text t) ↔ False := ⟨below_text, False.elim⟩
theorem b_exprAttrs {h b r st dy} : Below Y (.exprAttrs h b r st dy) ↔ Y (.exprAttrs h b r st dy) ∨ Among Y [b, r] := by rw [below_among (l := [b, r]) rfl]; simp [Acts]
theorem b_formals {h ms} : Below Y (.formals h ms) ↔ Y (.formals h ms) ∨ Among Y ms := by rw [below_among (l := ms) rfl]; simp [Acts]
theorem b_lambdaArg {h i f} : Below Y (.lambdaArg h i f) ↔ Y (.lambdaArg h i f) ∨ Among Y [i, f] := by rw [below_among (l := [i, f]) rfl]; simp [Acts]
theorem b_formal {h c i d e} : Below Y (.formal h c i d e) ↔ Among Y (if e.isNull then [i, d] else [e]) := by rw [below_among (l := if e.isNull then [i, d] else [e]) rfl]; simp [Acts]
end

/-- Proves that a node stands for what it is made of. -/
macro "trees" : tactic => `(tactic|
  (intro Y
   simp only [b_interpolation, b_parts, b_attrNameID, b_attrNameString, b_attrNameInterp, b_attrPath, b_binding, b_inherit, b_binds, b_exprVar, b_exprString, b_exprPath, b_exprSelect, b_exprCall, b_exprList, b_exprLambda, b_exprBinOp, b_exprUnaryOp, b_exprOpHasAttr, b_exprIf, b_exprAssert, b_exprLet, b_exprLegacyLet, b_exprWith, b_misc, b_dot, b_identifier, b_op, b_exprInt, b_exprFloat, b_exprSPath, b_null, b_text, b_formal, among_nil, among_cons, among_append, none_, one, many, both,
     false_or, or_false, Bool.false_eq_true, if_false, if_true, isNull]
   try tauto))

theorem among_merge {Y : Node → Prop} {fs : List Node} : Among Y (mergeFragments fs) ↔ Among Y fs := by
  unfold mergeFragments
  split
  · rfl
  · split
    · rfl
    · rename_i h
      simp only [among_cons, among_nil, or_false, b_text, false_iff]
      rintro ⟨c, hc, hb⟩
      have := List.any_eq_false.mp (Bool.eq_false_iff.mpr h) c hc
      cases c <;> first | exact absurd hb below_text | exact absurd rfl this

/-- The recursive calls. -/
structure Fine (src : Bytes) (P : Diagnostic → Prop) (R : Rec) : Prop where
  expr : T src P none_ R.expr one
  select : T src P none_ R.select one

section
variable {src : Bytes} {P : Diagnostic → Prop} (hd : ∀ x, P x → isSema x.kind = true) {R : Rec} (hR : Fine src P R) (k : Nat)
include hd

theorem mkParts_t {H : Trees} {r} {fs : List Node} (h : ∀ Y, H Y ↔ Among Y fs) : T src P H (mkParts r fs) one := by
  refine .skip fun hd => .pure ?_
  intro Y
  rw [one, b_parts, among_merge, h]

omit hR in
theorem mkMisc_t {H : Trees} {r} (h : ∀ Y, H Y ↔ False := by trees) : T src P H (mkMisc r) one :=
  .skip fun _ => .pure fun Y => by rw [h]; simp [one, b_misc, among_nil]

omit hR hd in
theorem T.misc {H : Trees} {r} {f : Node → PM β} {c : β → Trees} (h : ∀ n, (∀ Y, Below Y n ↔ False) → T src P H (f n) c) : T src P H (mkMisc r >>= f) c := by
  intro s b s' e hs hH
  obtain ⟨n, s1, e1, e2⟩ := run_bind e
  have hn : ∀ Y, Below Y n ↔ False := by
    obtain ⟨i, s2, e3, e4⟩ := run_bind e1
    obtain ⟨rfl, rfl⟩ := run_pure e4
    simp [b_misc, among_nil]
  obtain k1 : Same P s s1 := mkMisc_q _ _ _ e1
  have k := h n hn _ _ _ e2 (k1.src.trans hs) (fun h => k1.mem.mpr (hH h))
  exact ⟨k.text, fun h => k.keep (k1.mem.mpr h), fun h => (k.may h).imp_left k1.mem.mp, k.held, k.must⟩

include hR

theorem parseInterpolation_t : T src P none_ (parseInterpolation R k) one := by
  refine .skip fun tok => .skip fun _ => .sync (.state (.bind hR.expr fun e => .skip fun _ => .skip fun _ => .skip fun _ => .skip fun h => .pure ?_))
  trees

theorem pathLoop_t : ∀ j, T src P none_ (pathLoop R k j) fun p => many p.1
  | 0 => .fail
  | j + 1 => by
    refine .skip fun cur => .skip fun _ => .skip fun next => ?_
    split
    · exact .pure (by trees)
    · split
      · exact .bind (parseInterpolation_t hd hR k) fun i => .bind (pathLoop_t j) fun p => .pure (by trees)
      · exact .skip fun _ => .bind (pathLoop_t j) fun p => .pure (by trees)

theorem parseExprPath_t : T src P none_ (parseExprPath R k) one := by
  refine .skip fun b => .bind (.state (pathLoop_t hd hR k k)) fun p =>
    .seq (H0 := none_) (H1 := many p.1) (fun _ => .rfl) (mkParts_t hd fun _ => .rfl) fun q => .skip fun h => .pure ?_
  trees

theorem partsLoop_t : ∀ j, T src P none_ (partsLoop R k j) many
  | 0 => .fail
  | j + 1 => by
    refine .skip fun tok => ?_
    split
    · exact .bind (parseInterpolation_t hd hR k) fun i => .bind (partsLoop_t j) fun p => .pure (by trees)
    · exact .skip fun _ => .bind (partsLoop_t j) fun p => .pure (by trees)
    · refine .skip fun _ => .bind (partsLoop_t j) fun p => .pure ?_
      split <;> trees
    · exact .pure (by trees)

theorem parseString_t (i) : T src P none_ (parseString R k i) one := by
  refine .skip fun q => .skip fun _ => .sync (.state (.bind (c := one) ?_ fun p => .expect hd (fun t => ?_) ?_))
  · exact .skip fun b => .bind (partsLoop_t hd hR k k) fun fs => .skip fun c => mkParts_t hd fun Y => by simp
  · exact .skip fun _ => .skip fun h => .pure (by trees)
  · exact T.note hd (T.soft (.skip fun h => .pure (by trees)))

theorem parseAttrName_t : T src P none_ (parseAttrName R k) one := by
  refine .skip fun tok => ?_
  split
  · exact .skip fun _ => .skip fun _ => .skip fun h => .skip fun h' => .pure (by trees)
  · exact .skip fun _ => .skip fun h => .skip fun h' => .pure (by trees)
  · exact .bind (parseString_t hd hR k false) fun s => .skip fun h => .pure (by trees)
  · exact .bind (parseInterpolation_t hd hR k) fun s => .skip fun h => .pure (by trees)
  · exact .pure (by trees)

theorem attrPathLoop_t : ∀ j prev, T src P none_ (attrPathLoop R k j prev) fun p => many (p.1 ++ p.2)
  | 0, _ => .fail
  | j + 1, prev => by
    refine .skip fun tok => ?_
    split
    · refine .skip fun _ => .bind (parseAttrName_t hd hR k) fun next => .skip fun h => ?_
      split
      · rename_i hn
        obtain rfl := Grammar.null_of hn
        exact .skip fun _ => .bind (attrPathLoop_t j prev) fun p => .pure (by trees)
      · exact .bind (attrPathLoop_t j next.id) fun p => .pure (by trees)
    · exact .pure (by trees)

theorem parseAttrPath_t : T src P none_ (parseAttrPath R k) one := by
  refine .bind (parseAttrName_t hd hR k) fun f => ?_
  split
  · rename_i hn
    obtain rfl := Grammar.null_of hn
    exact .pure (by trees)
  · exact .sync (.bind (attrPathLoop_t hd hR k k f.id) fun p => .skip fun _ => .skip fun h => .pure (by trees))

theorem parseBinding_t : T src P none_ (parseBinding R k) one := by
  refine .bind (parseAttrPath_t hd hR k) fun p => ?_
  split
  · rename_i hn
    obtain rfl := Grammar.null_of hn
    exact .pure (by trees)
  · refine .sync (.sync (.expect hd (fun t => ?_) ?_))
    · exact .skip fun _ => .bind (mkMisc_t hd) fun m => .bind hR.expr fun e => .skip fun _ => .skip fun _ => .skip fun _ => .skip fun h => .pure (by trees)
    · exact T.soft (.skip fun _ => .skip fun h => .pure (by trees))

theorem inheritNames_t : ∀ j, T src P none_ (inheritNames R k j) many
  | 0 => .fail
  | j + 1 => by
    refine .bind (parseAttrName_t hd hR k) fun n => ?_
    split
    · rename_i hn
      obtain rfl := Grammar.null_of hn
      exact .pure (by trees)
    · exact .bind (inheritNames_t j) fun ns => .pure (by trees)

theorem parseInherit_t : T src P none_ (parseInherit R k) one := by
  refine .skip fun tok => ?_
  split
  · exact .pure (by trees)
  · refine .skip fun _ => .sync (.sync (.sync (.sync (.bind (c := one) ?_ fun e => .bind (inheritNames_t hd hR k k) fun ns =>
      .skip fun _ => .skip fun _ => .skip fun _ => .skip fun h => .pure (by trees)))))
    refine .skip fun tok => ?_
    split
    · exact .skip fun _ => .bind hR.expr fun e => .skip fun _ => .skip fun _ => .pure (by trees)
    · exact .pure (by trees)

theorem bindsLoop_t : ∀ j, T src P none_ (bindsLoop R k j) many
  | 0 => .fail
  | j + 1 => by
    refine .bind (parseBinding_t hd hR k) fun b => ?_
    split
    · rename_i hb
      obtain rfl := Grammar.null_of hb
      refine .bind (parseInherit_t hd hR k) fun i => ?_
      split
      · rename_i hi
        obtain rfl := Grammar.null_of hi
        refine .skip fun r => ?_
        split
        · exact (bindsLoop_t j).pre (by trees)
        · exact .pure (by trees)
      · exact .bind (bindsLoop_t j) fun bs => .pure (by trees)
    · exact .bind (bindsLoop_t j) fun bs => .pure (by trees)

theorem parseBinds_t : T src P none_ (parseBinds R k) one := by
  refine .skip fun b => .sync (.sync (.sync (.sync (.bind (bindsLoop_t hd hR k k) fun bs => ?_))))
  split
  · rename_i hb
    have : bs = [] := by simpa using hb
    subst this
    exact .pure (by trees)
  · exact .skip fun _ => .skip fun h => .pure (by trees)

omit hR hd in
theorem onExprAttrs_t {H : Trees} {r : CRange} {b n : Node} (h : ∀ Y, H Y ↔ Below Y b ∨ Below Y n) : T src P H (sema fun _ => onExprAttrs r b n) one := by
  have hs : ∀ s, ∃ st dy i, (onExprAttrs r b n s).1 = .exprAttrs ⟨i, r⟩ b n st dy := fun s => ⟨_, _, _, rfl⟩
  refine .sema (fun Y => Below Y b ∨ Below Y n) (fun s => ?_) (fun s ds h1 h2 => ?_) (fun s ds h1 h2 => ?_) (fun s k => ?_) h
  · obtain ⟨t, h, -⟩ := onExprAttrs_mild (r := r) (b := b) (c := n) (s := s); exact ⟨t, h⟩
  · obtain ⟨st, dy, i, e⟩ := hs s
    rw [e, b_exprAttrs]
    exact .inl ⟨s, ds, h1, h2⟩
  · obtain ⟨st, dy, i, e⟩ := hs s
    rw [e, b_exprAttrs] at h2
    rcases h2 with h2 | h2
    · exact .inl (h2 s ds h1)
    · exact .inr (by simpa [among_cons, among_nil] using h2)
  · obtain ⟨st, dy, i, e⟩ := hs s
    rw [e, b_exprAttrs]
    exact .inr (by simpa [among_cons, among_nil] using k)

theorem parseExprAttrs_t : T src P none_ (parseExprAttrs R k) one := by
  refine .sync (.skip fun b => .bind (c := one) ?_ fun r => .skip fun m => .skip fun _ => .bind (parseBinds_t hd hR k) fun bs =>
    .skip fun _ => .skip fun _ => onExprAttrs_t (by trees))
  refine .skip fun t => ?_
  split
  · exact .skip fun _ => mkMisc_t hd
  · exact .pure (by trees)

omit hd hR in
theorem T.mark {H : Trees} {r} {f : Node → PM β} {c : β → Trees}
    (h : ∀ n, (∀ Y, Below Y n ↔ False) → n.range = r → n.isNull = false → T src P H (f n) c) : T src P H (mkMisc r >>= f) c := by
  intro s b s' e hs hH
  obtain ⟨n, s1, e1, e2⟩ := run_bind e
  have q := mkMisc_q (P := P) s n s1 e1
  obtain ⟨hh, s2, e3, e4⟩ := run_bind e1
  obtain ⟨rfl, rfl⟩ := run_pure e4
  unfold fresh at e3
  cases e3
  have := h _ (fun Y => by simp [b_misc, among_nil]) rfl rfl _ _ _ e2 (q.src.trans hs) fun k => q.mem.mpr (hH k)
  exact ⟨this.text, fun h => this.keep (q.mem.mpr h), fun h => (this.may h).imp_left q.mem.mp, this.held, this.must⟩

omit hd hR in
theorem paren_end {e lp rp : Node} {h : Hd} (h1 : ∀ Y, Below Y lp ↔ False) (h2 : ∀ Y, Below Y rp ↔ False) :
    T src P (fun Y => Below Y e ∨ Y (.exprParen ⟨0, default⟩ e lp rp)) (Pure.pure (.exprParen h e lp rp) : PM Node) one := by
  refine .pureFor (fun k => ?_) fun k => ?_
  · rw [one, b_exprParen, among_cons]
    exact k.elim (fun k => .inr (.inl k)) .inl
  · rw [one, b_exprParen, among_cons, among_cons, among_cons, among_nil, h1, h2] at k
    rcases k with k | k | k | k | k
    · exact .inr k
    · exact .inl k
    all_goals cases k

theorem parseExprParen_t : T src P none_ (parseExprParen R k) one := by
  refine .skip fun l => .mark fun lp h1 hl _ => .skip fun _ => .sync (.bind hR.expr fun e => .skip fun _ => .expect hd (fun t => ?_) ?_)
  · refine .skip fun _ => .mark fun rp h2 hr hn => ?_
    refine .emitFor (H' := fun Y => Below Y e ∨ Y (.exprParen ⟨0, default⟩ e lp rp)) ?_ ?_ (.skip fun h => paren_end h1 h2)
    · simp [May, none_, both, one, parenDiag, hl, hr, hn]
    · simp [Must, none_, both, one, parenDiag, hl, hr, hn]
  · refine T.note hd (T.soft (.emitFor (H' := fun Y => Below Y e ∨ Y (.exprParen ⟨0, default⟩ e lp .null)) ?_ ?_
      (.skip fun _ => .skip fun h => paren_end h1 fun Y => by simp [b_null])))
    · simp [May, none_, both, one, parenDiag, hl, isNull]
    · simp [Must, none_, both, one, parenDiag, hl, isNull]

theorem listLoop_t : ∀ j, T src P none_ (listLoop R j) many
  | 0 => .fail
  | j + 1 => by
    refine .skip fun t => ?_
    split
    · exact .pure (by trees)
    · refine .bind hR.select fun e => ?_
      split
      · rename_i hn
        obtain rfl := Grammar.null_of hn
        exact .pure (by trees)
      · exact .bind (listLoop_t j) fun es => .pure (by trees)

theorem parseExprList_t : T src P none_ (parseExprList R k) one := by
  refine .skip fun tok => ?_
  split
  · exact .pure (by trees)
  · exact .skip fun _ => .sync (.bind (listLoop_t hd hR k) fun es => .skip fun _ => .skip fun _ => .skip fun h => .pure (by trees))

theorem parseExprSimple_t : T src P none_ (parseExprSimple R k) one := by
  refine .skip fun tok => ?_
  split
  · exact .skip fun _ => .seq (H0 := none_) (H1 := none_) (by trees) (mkParts_t hd (by trees)) fun p => .skip fun h => .skip fun _ => .pure (by trees)
  · exact .skip fun _ => .skip fun h => .skip fun h' => .pure (by trees)
  · exact .skip fun _ => .skip fun _ => .skip fun h => .pure (by trees)
  · exact .skip fun _ => .skip fun h => .pure (by trees)
  · exact .skip fun _ => .skip fun h => .pure (by trees)
  · exact parseString_t hd hR k _
  · exact parseString_t hd hR k _
  · exact parseExprPath_t hd hR k
  · exact parseExprParen_t hd hR k
  · exact parseExprAttrs_t hd hR k
  · exact parseExprAttrs_t hd hR k
  · exact parseExprList_t hd hR k
  · exact .pure (by trees)

theorem parseExprSelect_t : T src P none_ (parseExprSelect R k) one := by
  refine .bind (parseExprSimple_t hd hR k) fun e => ?_
  split
  · rename_i hn
    obtain rfl := Grammar.null_of hn
    exact .pure (by trees)
  · refine .skip fun tok => ?_
    split
    · exact .pure (by trees)
    · refine .skip fun hd' => .skip fun _ => .bind (parseAttrPath_t hd hR k) fun p => .skip fun _ => .skip fun t => ?_
      split
      · exact .skip fun _ => .skip fun h => .pure (by trees)
      · exact .skip fun _ => .bind hR.select fun e' => .skip fun _ => .skip fun _ => .skip fun h => .pure (by trees)

theorem appLoop_t : ∀ j, T src P none_ (appLoop R k j) many
  | 0 => .fail
  | j + 1 => by
    refine .bind (parseExprSelect_t hd hR k) fun e => ?_
    split
    · rename_i hn
      obtain rfl := Grammar.null_of hn
      exact .pure (by trees)
    · exact .bind (appLoop_t j) fun es => .pure (by trees)

theorem parseExprApp_t : T src P none_ (parseExprApp R k) one := by
  refine .bind (parseExprSelect_t hd hR k) fun f => ?_
  split
  · exact .pure (by trees)
  · refine .bind (appLoop_t hd hR k k) fun as => ?_
    split
    · rename_i hl
      have : as = [] := by simpa using hl
      subst this
      exact .pure (by trees)
    · exact .skip fun h => .pure (by trees)

theorem ops_t : ∀ j, (∀ l, T src P none_ (parseExprOpBP R k j l) one) ∧ ∀ l pre, T src P (one pre) (opLoop R k j l pre) one
  | 0 => ⟨fun _ => .fail, fun _ _ => .fail⟩
  | j + 1 => by
    obtain ⟨ih1, ih2⟩ := ops_t j
    refine ⟨fun l => ?_, fun l pre => ?_⟩
    · unfold parseExprOpBP
      refine .skip fun tok => ?_
      split
      · exact .skip fun _ => .skip fun ho => .bind (ih1 _) fun e => .skip fun _ => .skip fun _ => .skip fun h => (ih2 _ _).pre (by trees)
      · refine .bind (parseExprApp_t hd hR k) fun p => ?_
        split
        · rename_i hn
          obtain rfl := Grammar.null_of hn
          exact .pure (by trees)
        · exact (ih2 _ _).pre (by trees)
    · unfold opLoop
      refine .skip fun tok => ?_
      split
      · split
        · exact .pure (by trees)
        · refine .skip fun _ => .skip fun _ => .skip fun ho => .bind (ih1 _) fun rhs => ?_
          split
          · rename_i hn
            obtain rfl := Grammar.null_of hn
            exact .skip fun _ => .skip fun _ => (ih2 _ _).pre (by trees)
          · exact .skip fun h => (ih2 _ _).pre (by trees)
      · split
        · exact .skip fun _ => .skip fun ho => .bind (parseAttrPath_t hd hR k) fun p => .skip fun _ => .skip fun h => (ih2 _ _).pre (by trees)
        · split
          · refine .skip fun _ => .skip fun _ => .skip fun ho => .bind (ih1 _) fun rhs => ?_
            split
            · rename_i hn
              obtain rfl := Grammar.null_of hn
              exact .skip fun _ => .skip fun _ => (ih2 _ _).pre (by trees)
            · exact .skip fun h => (ih2 _ _).pre (by trees)
          · exact .pure (by trees)

theorem parseFormal_t : T src P none_ (parseFormal R) one := by
  refine .skip fun l => .after (α := Node) ?_ fun c => .skip fun tok => ?_
  · refine .bind (peek_q hd) fun t => ?_
    split
    · exact .bind (pconsume_q hd) fun _ => mkMisc_q
    · exact .pure
  · split
    · refine .skip fun _ => .skip fun hi => .skip fun q => ?_
      split
      · exact .skip fun _ => .skip fun h => .pure (by trees)
      · exact .skip fun _ => .bind hR.expr fun d => .skip fun _ => .skip fun _ => .skip fun h => .pure (by trees)
    · split
      · refine .skip fun _ => .misc fun e he => .skip fun _ => .skip fun h => .pure fun Y => ?_
        simp only [b_formal, one, none_]
        split <;> simp [among_cons, among_nil, b_null, he]
      · split
        · exact .pure (by trees)
        · exact .skip fun _ => .skip fun h => .pure (by trees)

theorem formalsLoop_t : ∀ j, T src P none_ (formalsLoop R k j) many
  | 0 => .fail
  | j + 1 => by
    refine .skip fun t => ?_
    split
    · exact .pure (by trees)
    · refine .bind (parseFormal_t hd hR) fun f => ?_
      split
      · rename_i hn
        obtain rfl := Grammar.null_of hn
        refine .skip fun r => ?_
        split
        · exact (formalsLoop_t j).pre (by trees)
        · exact .pure (by trees)
      · exact .bind (formalsLoop_t j) fun fs => .pure (by trees)

theorem parseFormals_t : T src P none_ (parseFormals R k) one := by
  refine .expect hd (fun t => ?_) (T.soft (.pure (by trees)))
  refine .skip fun _ => .sync (.sync (.sync (.sync (.bind (formalsLoop_t hd hR k k) fun fs => .skip fun _ => .skip fun _ =>
    .sema (many fs) (fun s => ?_) (fun s ds h1 h2 => ?_) (fun s ds h1 h2 => ?_) (fun s k => ?_) (by trees)))))
  · obtain ⟨t, h, -⟩ := onFormals_errors src ⟨t.range.l, _⟩ fs s; exact ⟨t, h⟩
  · exact b_formals.mpr (.inl ⟨s, ds, h1, h2⟩)
  · exact (b_formals.mp h2).imp_left fun h2 => h2 s ds h1
  · exact b_formals.mpr (.inr k)

omit hR hd in
theorem onLambdaArg_t {H : Trees} {r : CRange} {i f : Node} (h : ∀ Y, H Y ↔ Below Y i ∨ Below Y f) : T src P H (sema fun _ => onLambdaArg r i f) one := by
  refine .sema (fun Y => Below Y i ∨ Below Y f) (fun s => ?_) (fun s ds h1 h2 => ?_) (fun s ds h1 h2 => ?_) (fun s k => ?_) h
  · obtain ⟨t, h, -⟩ := onLambdaArg_mild (r := r) (b := i) (c := f) (s := s); exact ⟨t, h⟩
  · exact b_lambdaArg.mpr (.inl ⟨s, ds, h1, h2⟩)
  · rcases b_lambdaArg.mp h2 with h2 | h2
    · exact .inl (h2 s ds h1)
    · exact .inr (by simpa [among_cons, among_nil] using h2)
  · exact b_lambdaArg.mpr (.inr (by simpa [among_cons, among_nil] using k))

theorem parseLambdaArg_t : T src P none_ (parseLambdaArg R k) one := by
  refine .skip fun l => .skip fun tok => ?_
  split
  · refine .skip fun _ => .skip fun hi => .skip fun a => ?_
    split
    · exact .skip fun _ => onLambdaArg_t (by trees)
    · exact .skip fun _ => .bind (parseFormals_t hd hR k) fun f => .skip fun _ => .skip fun _ => onLambdaArg_t (by trees)
  · refine .bind (parseFormals_t hd hR k) fun f => ?_
    split
    · rename_i hn
      obtain rfl := Grammar.null_of hn
      exact .pure (by trees)
    · refine .skip fun a => ?_
      split
      · exact .skip fun _ => onLambdaArg_t (by trees)
      · refine .skip fun _ => .expect hd (fun t => ?_) ?_
        · exact .skip fun _ => .skip fun _ => .skip fun _ => onLambdaArg_t (by trees)
        · exact T.note hd (T.soft (.skip fun _ => onLambdaArg_t (by trees)))

theorem parseExprLambda_t : T src P none_ (parseExprLambda R k) one := by
  refine .skip fun l => .bind (parseLambdaArg_t hd hR k) fun a => .skip fun _ => ?_
  split
  · rename_i hn
    obtain rfl := Grammar.null_of hn
    exact .pure (by trees)
  · exact .skip fun _ => .bind hR.expr fun e => .skip fun _ => .skip fun _ => .skip fun h => .pure (by trees)

omit hR in
theorem mkIf_t {H : Trees} {l : Cursor} {c t e : Node} (h : ∀ Y, H Y ↔ Below Y c ∨ Below Y t ∨ Below Y e) : T src P H (mkIf l c t e) one :=
  .skip fun _ => .skip fun _ => .pure fun Y => by rw [h]; simp [one, b_exprIf, among_cons, among_nil]

theorem parseElse_t {H : Trees} {tok c t} (h : ∀ Y, H Y ↔ Below Y c ∨ Below Y t) : T src P H (parseElse R k tok c t) one := by
  refine .pre (H := fun Y => Below Y c ∨ Below Y t) ?_ h
  refine .expect hd (fun x => ?_) (T.soft (mkIf_t hd (by trees)))
  exact .skip fun _ => .bind hR.expr fun e => .skip fun _ => mkIf_t hd (by trees)

theorem parseThen_t {H : Trees} {tok c} (h : ∀ Y, H Y ↔ Below Y c) : T src P H (parseThen R k tok c) one := by
  refine .pre (H := fun Y => Below Y c) ?_ h
  refine .expect hd (fun x => ?_) (T.note hd (T.soft (mkIf_t hd (by trees))))
  refine .skip fun _ => .bind hR.expr fun t => ?_
  split
  · rename_i hn
    obtain rfl := Grammar.null_of hn
    refine .skip fun _ => .nullExpr hd (T.note hd (T.soft (.skip fun n => ?_)))
    split
    · exact mkIf_t hd (by trees)
    · exact parseElse_t hd hR k (by trees)
  · exact parseElse_t hd hR k (by trees)

theorem parseExprIf_t : T src P none_ (parseExprIf R k) one := by
  refine .skip fun tok => .skip fun _ => .sync (.sync (.bind hR.expr fun c => ?_))
  split
  · rename_i hn
    obtain rfl := Grammar.null_of hn
    refine .skip fun _ => .nullExpr hd (T.fix hd (T.fix hd (T.soft (.skip fun n => ?_))))
    split
    · exact mkIf_t hd (by trees)
    · exact parseThen_t hd hR k (by trees)
  · exact parseThen_t hd hR k (by trees)

omit hR in
theorem mkAssert_t {H : Trees} {l : Cursor} {c v : Node} (h : ∀ Y, H Y ↔ Below Y c ∨ Below Y v) : T src P H (mkAssert l c v) one :=
  .skip fun _ => .skip fun _ => .pure fun Y => by rw [h]; simp [one, b_exprAssert, among_cons, among_nil]

theorem parseAssertValue_t {H : Trees} {tok c} (h : ∀ Y, H Y ↔ Below Y c) : T src P H (parseAssertValue R k tok c) one := by
  refine .pre (H := fun Y => Below Y c) ?_ h
  refine .expect hd (fun x => ?_) (T.note hd (T.soft (mkAssert_t hd (by trees))))
  exact .skip fun _ => .bind hR.expr fun t => .skip fun _ => mkAssert_t hd (by trees)

theorem parseExprAssert_t : T src P none_ (parseExprAssert R k) one := by
  refine .skip fun tok => .skip fun _ => .sync (.bind hR.expr fun c => ?_)
  split
  · rename_i hn
    obtain rfl := Grammar.null_of hn
    refine .skip fun _ => .nullExpr hd (T.fix hd (T.soft (.skip fun n => ?_)))
    split
    · exact mkAssert_t hd (by trees)
    · exact parseAssertValue_t hd hR k (by trees)
  · exact parseAssertValue_t hd hR k (by trees)

omit hR hd in
theorem letAttrs_t {b kw : Node} (hk : ∀ Y, Below Y kw ↔ False) : T src P (one b) (letAttrs b kw) one := by
  unfold letAttrs
  split
  · rename_i hn
    obtain rfl := Grammar.null_of hn
    exact .pure (by trees)
  · exact onExprAttrs_t fun Y => by simp [one, hk]

theorem parseExprLet_t : T src P none_ (parseExprLet R k) one := by
  refine .skip fun tok => .misc fun kw hk => .skip fun _ => .sync (.bind (parseBinds_t hd hR k) fun b =>
    .seq (H0 := none_) (H1 := one b) (fun _ => .rfl) (letAttrs_t hk) fun at' => .expect hd (fun t => ?_)
      (T.soft (.skip fun _ => .skip fun h => .pure fun Y => ?_)))
  · exact .misc fun ki hi => .skip fun _ => .bind hR.expr fun e => .skip fun _ => .skip fun _ => .skip fun h => .pure fun Y => by
      simp [one, none_, both, b_exprLet, among_cons, among_nil, hk, hi]
  · simp [one, none_, both, b_exprLet, among_cons, among_nil, hk, b_null]

theorem parseExprWith_t : T src P none_ (parseExprWith R k) one := by
  refine .skip fun tok => .skip fun _ => .bind (mkMisc_t hd) fun kw => .sync (.bind hR.expr fun w => .skip fun _ => .expect hd (fun t => ?_) ?_)
  · exact .bind (mkMisc_t hd) fun sm => .skip fun _ => .bind hR.expr fun e => .skip fun _ => .skip fun _ => .skip fun h => .pure (by trees)
  · exact T.note hd (T.soft (.skip fun _ => .skip fun h => .pure (by trees)))

theorem parseExprLegacyLet_t : T src P none_ (parseExprLegacyLet R k) one := by
  refine .skip fun tok => .misc fun kl hk => .skip fun _ => .sync (.skip fun lc => .skip fun _ => .bind (parseBinds_t hd hR k) fun b =>
    .skip fun _ => .skip fun _ => .skip fun _ => .seq (H0 := none_) (H1 := one b) (fun _ => .rfl) (onExprAttrs_t fun Y => ?_) fun a =>
      .skip fun _ => .skip fun _ => .skip fun _ => .skip fun h => .pure fun Y => ?_)
  · simp [one, hk]
  · simp [one, none_, both, b_exprLegacyLet, among_cons, among_nil, hk]

theorem parseExpr_t : T src P none_ (parseExpr R k) one := by
  refine .skip fun l => ?_
  cases l
  · exact parseExprLambda_t hd hR k
  · exact parseExprAttrs_t hd hR k
  · exact parseExprIf_t hd hR k
  · exact parseExprAssert_t hd hR k
  · exact parseExprLet_t hd hR k
  · exact parseExprLegacyLet_t hd hR k
  · exact parseExprWith_t hd hR k
  · exact (ops_t hd hR k k).1 0

end

theorem recN_fine {src : Bytes} {P : Diagnostic → Prop} (hd : ∀ x, P x → isSema x.kind = true) : ∀ n, Fine src P (recN n)
  | 0 => ⟨.fail, .fail⟩
  | n + 1 => ⟨parseExpr_t hd (recN_fine hd n) n, parseExprSelect_t hd (recN_fine hd n) n⟩

/-- The diagnostics of semantic actions in the list at the end of parsing come from nodes of the tree. -/
theorem parse_may {src : Bytes} {n : Node} {s : PState} (h : parse src = some (n, s)) {P : Diagnostic → Prop} (hd : ∀ x, P x → isSema x.kind = true)
    (hm : ∃ x ∈ s.lex.diags, P x) : ∃ x, Reach n x ∧ Acts x ∧ May src P x := by
  have := (T.bind (recN_fine hd (src.length + 3)).expr fun e => .skip fun _ => .skip fun _ => .pure (by trees) : T src P none_ (parseTop _) one) _ _ _ h rfl nofun
  exact (this.may hm).resolve_left nofun

/-- What a semantic action adds for a node of the tree is in the list at the end of parsing. -/
theorem parse_must {src : Bytes} {n : Node} {s : PState} (h : parse src = some (n, s)) {P : Diagnostic → Prop} (hd : ∀ x, P x → isSema x.kind = true)
    {x : Node} (hx : Reach n x) (ha : Acts x) (hm : Must src P x) : ∃ x ∈ s.lex.diags, P x := by
  have := (T.bind (recN_fine hd (src.length + 3)).expr fun e => .skip fun _ => .skip fun _ => .pure (by trees) : T src P none_ (parseTop _) one) _ _ _ h rfl nofun
  exact this.must ⟨x, hx, ha, hm⟩

end Verif.Nixf.Reports
