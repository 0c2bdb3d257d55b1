import Verif.Lemmas.LexSim
import Verif.Lemmas.Grammar
/-
What every parser function leaves as it was: the source, the stack of lexer states, the tokens to synchronize at. Syntax
errors are never removed.
-/
namespace Verif.Nixf.Syntax
open Lexical Strings

/-- No syntax error so far. -/
def Clean (s : PState) : Prop := ∀ d ∈ s.lex.diags, isSyntaxError d.kind = false

/-- The unread text is the rest of the source. -/
def Fit (s : PState) : Prop := s.lex.rem = s.lex.src.drop s.lex.cur.offset

structure Frame (s s' : PState) : Prop where
  src : s'.lex.src = s.lex.src
  states : s'.states = s.states
  sync : s'.sync = s.sync
  fit : Fit s → Fit s'
  clean : Clean s' → Clean s

theorem Frame.refl (s : PState) : Frame s s := ⟨rfl, rfl, rfl, id, id⟩

theorem Frame.trans {s s' s'' : PState} (h : Frame s s') (h' : Frame s' s'') : Frame s s'' :=
  ⟨h'.src.trans h.src, h'.states.trans h.states, h'.sync.trans h.sync, h'.fit ∘ h.fit, h.clean ∘ h'.clean⟩

def Fr {α : Type} (m : PM α) : Prop := ∀ s a s', m s = some (a, s') → Frame s s'

theorem run_bind {α β : Type} {m : PM α} {f : α → PM β} {s s' : PState} {b : β} (h : (m >>= f) s = some (b, s')) :
    ∃ a s1, m s = some (a, s1) ∧ f a s1 = some (b, s') := by
  change PM.bind' m f s = some (b, s') at h
  unfold PM.bind' at h
  split at h
  · rename_i a s1 h'; exact ⟨a, s1, h', h⟩
  · cases h

theorem run_pure {α : Type} {a b : α} {s s' : PState} (h : (pure a : PM α) s = some (b, s')) : b = a ∧ s' = s := by
  change some (a, s) = some (b, s') at h
  cases h; exact ⟨rfl, rfl⟩

theorem run_modify {f : PState → PState} {s s' : PState} {u : Unit} (h : PM.modify f s = some (u, s')) : s' = f s := by
  unfold PM.modify at h; cases h; rfl

section
variable {α β : Type}

theorem Fr.bind {m : PM α} {f : α → PM β} (h1 : Fr m) (h2 : ∀ a, Fr (f a)) : Fr (m >>= f) := by
  intro s b s' h
  obtain ⟨a, s1, e1, e2⟩ := run_bind h
  exact (h1 _ _ _ e1).trans (h2 a _ _ _ e2)

theorem Fr.pure {a : α} : Fr (Pure.pure a : PM α) := by
  intro s b s' h
  obtain ⟨-, rfl⟩ := run_pure h
  exact .refl _

theorem Fr.fail : Fr (PM.fail : PM α) := fun _ _ _ h => by cases h

theorem Fr.get {f : PState → α} : Fr (PM.get f) := by
  intro s b s' h
  unfold PM.get at h; cases h
  exact .refl _

theorem Fr.when {c : Prop} [Decidable c] {m : PM Unit} (h : Fr m) : Fr (whenP c m) := by
  unfold whenP; split
  · exact h
  · exact .pure

theorem clean_cons {a b : List Diagnostic} (h : ∃ t, b = a ++ t)
    (hc : ∀ d ∈ b, isSyntaxError d.kind = false) : ∀ d ∈ a, isSyntaxError d.kind = false := by
  obtain ⟨t, rfl⟩ := h
  exact fun d hd => hc d (List.mem_append_left _ hd)

theorem lexPS_frame (p : PS) (l : St) (h : l.rem = l.src.drop l.cur.offset) :
    (lexPS p l).2.src = l.src ∧ (lexPS p l).2.rem = l.src.drop (lexPS p l).2.cur.offset ∧ ∃ t, (lexPS p l).2.diags = l.diags ++ t := by
  have hcons : ∀ (n : Nat) (u : St), u.rem = u.src.drop u.cur.offset → (consume n u).src = u.src ∧
      (consume n u).rem = u.src.drop (consume n u).cur.offset ∧ ∃ t, (consume n u).diags = u.diags ++ t := by
    intro n u hu
    unfold consume
    split
    · refine ⟨rfl, ?_, [], by simp⟩
      simp only [moveCur_offset, List.length_take, Nat.min_eq_left ‹_›]
      rw [← List.drop_drop, ← hu]
    · refine ⟨rfl, ?_, [], by simp⟩
      simp only [moveCur_offset]
      rw [← List.drop_drop, ← hu]; simp
  cases p with
  | expr =>
    obtain ⟨a, h1, -, h2, h3, -⟩ := lex_tok l h
    exact ⟨h2, h3, a, h1⟩
  | path =>
    obtain ⟨h1, h2, h3, -⟩ := lexPath_tok l h
    exact ⟨h2, h3, [], by simp [h1, lexPS]⟩
  | string =>
    unfold lexPS lexString
    simp only
    split
    · exact ⟨rfl, h, [], by simp⟩
    · split
      · exact hcons 1 l h
      · split
        · exact hcons 2 l h
        · split
          · exact hcons 2 l h
          · exact hcons _ l h
  | indString =>
    have h2 := hcons 2 l h
    unfold lexPS lexIndString
    simp only
    split
    · exact ⟨rfl, h, [], by simp⟩
    · split
      · have h3 := hcons 1 (consume 2 l) (by rw [h2.1]; exact h2.2.1)
        split
        · refine ⟨h3.1.trans h2.1, by rw [h3.2.1, h2.1], ?_⟩
          obtain ⟨t, e⟩ := h3.2.2; obtain ⟨u, e'⟩ := h2.2.2
          exact ⟨u ++ t, by rw [e, e']; simp⟩
        · split
          · have h4 := hcons 1 (consume 1 (consume 2 l)) (by rw [h3.1]; exact h3.2.1)
            refine ⟨h4.1.trans (h3.1.trans h2.1), by rw [h4.2.1, h3.1, h2.1], ?_⟩
            obtain ⟨t, e⟩ := h3.2.2; obtain ⟨u, e'⟩ := h2.2.2; obtain ⟨w, e''⟩ := h4.2.2
            exact ⟨u ++ t ++ w, by rw [e'', e, e']; simp⟩
          · exact h2
      · split
        · exact h2
        · exact hcons _ l h

/-- The diagnostics of the lexer do not depend on anything but the text. -/
theorem lexPS_grow (p : PS) (l : St) : ∃ t, (lexPS p l).2.diags = l.diags ++ t := by
  cases p with
  | expr => obtain ⟨-, -, -, -, -, a, h, -⟩ := (sim_init l).lex; exact ⟨a, h⟩
  | path => obtain ⟨-, -, -, -, -, a, h, -⟩ := (sim_init l).lexPath; exact ⟨a, h⟩
  | string => obtain ⟨-, -, -, -, -, a, h, -⟩ := (sim_init l).lexString; exact ⟨a, h⟩
  | indString => obtain ⟨-, -, -, -, -, a, h, -⟩ := (sim_init l).lexIndString; exact ⟨a, h⟩

/-- The diagnostics of the lexer are those of its own kinds. -/
theorem lexPS_kinds (p : PS) (l : St) : ∃ t, (lexPS p l).2.diags = l.diags ++ t ∧ ∀ x ∈ t, isLexError x.kind = true := by
  cases p with
  | expr => obtain ⟨-, -, -, -, -, a, h, -, h'⟩ := (sim_init l).lex; exact ⟨a, h, h'⟩
  | path => obtain ⟨-, -, -, -, -, a, h, -, h'⟩ := (sim_init l).lexPath; exact ⟨a, h, h'⟩
  | string => obtain ⟨-, -, -, -, -, a, h, -, h'⟩ := (sim_init l).lexString; exact ⟨a, h, h'⟩
  | indString => obtain ⟨-, -, -, -, -, a, h, -, h'⟩ := (sim_init l).lexIndString; exact ⟨a, h, h'⟩

theorem lexPS_src (p : PS) (l : St) : (lexPS p l).2.src = l.src := by
  cases p with
  | expr => obtain ⟨pre, n, h, -⟩ := lex_out l; exact h.adv.src
  | path => obtain ⟨n, h, -⟩ := lexPath_out l; exact h.adv.src
  | string =>
    unfold lexPS lexString consume; simp only
    repeat' split
    all_goals rfl
  | indString =>
    unfold lexPS lexIndString consume; simp only
    repeat' split
    all_goals rfl

theorem pullOne_frame (s : PState) : Frame s (pullOne s) := by
  refine ⟨lexPS_src _ _, rfl, rfl, fun h => ?_, fun h => clean_cons (lexPS_grow _ _) h⟩
  unfold Fit at h ⊢
  have := (lexPS_frame (s.states.headD .expr) s.lex h).2.1
  unfold pullOne
  simp only
  rw [this, lexPS_src]

theorem pull_frame (n : Nat) (s : PState) : Frame s (pull n s) := by
  induction n generalizing s with
  | zero => exact .refl s
  | succ n ih => exact (pullOne_frame s).trans (ih _)

theorem peek_fr {n : Nat} : Fr (peek n) := by
  intro s a s' h
  unfold peek at h; cases h
  exact pull_frame _ _

theorem peekKind_fr {n : Nat} : Fr (peekKind n) := .bind peek_fr fun _ => .pure

theorem pconsume_fr : Fr pconsume := by
  intro s a s' h
  unfold pconsume at h
  simp only at h
  have h1 : Frame s (if s.buf.isEmpty then pull 1 s else s) := by
    split
    · exact pull_frame _ _
    · exact .refl s
  revert h h1
  generalize (if s.buf.isEmpty then pull 1 s else s) = s1
  intro h h1
  split at h
  · cases h; exact h1
  · cases h; exact ⟨h1.src, h1.states, h1.sync, h1.fit, h1.clean⟩

theorem lCurP_fr : Fr lCurP := .bind peek_fr fun _ => .pure

theorem lastR_fr : Fr lastR := by
  intro s a s' h
  unfold lastR at h
  split at h <;> (cases h; exact ⟨rfl, rfl, rfl, id, id⟩)

theorem emitD_fr {d : Diagnostic} : Fr (emitD d) := by
  intro s a s' h
  have := run_modify h; subst this
  exact ⟨rfl, rfl, rfl, id, fun h => clean_cons ⟨[d], rfl⟩ h⟩

/-- The kinds of the diagnostics stay the same. -/
theorem last_kinds (ds : List Diagnostic) (g : Diagnostic → Diagnostic) (hg : ∀ d, (g d).kind = d.kind) :
    (ds.dropLast ++ (ds.getLast?.map g).toList).map (·.kind) = ds.map (·.kind) := by
  induction ds using List.reverseRecOn with
  | nil => rfl
  | append_singleton ds d _ => simp [hg]

theorem clean_kinds {a b : List Diagnostic} (h : b.map (·.kind) = a.map (·.kind)) (hb : ∀ d ∈ b, isSyntaxError d.kind = false) :
    ∀ d ∈ a, isSyntaxError d.kind = false := by
  intro d hd
  have : d.kind ∈ b.map (·.kind) := by rw [h]; exact List.mem_map_of_mem hd
  obtain ⟨x, hx, e⟩ := List.mem_map.mp this
  rw [← e]; exact hb x hx

theorem noteLast_fr {n : Note} : Fr (noteLast n) := by
  intro s a s' h
  have := run_modify h; subst this
  exact ⟨rfl, rfl, rfl, id, clean_kinds (last_kinds _ _ fun _ => rfl)⟩

theorem fixLast_fr {n : Fix} : Fr (fixLast n) := by
  intro s a s' h
  have := run_modify h; subst this
  exact ⟨rfl, rfl, rfl, id, clean_kinds (last_kinds _ _ fun _ => rfl)⟩

theorem assertFail_fr : Fr assertFail := by
  intro s a s' h
  have := run_modify h; subst this
  exact ⟨rfl, rfl, rfl, id, id⟩

theorem assertLast_fr : Fr assertLast := by
  intro s a s' h
  have := run_modify h; subst this
  exact ⟨rfl, rfl, rfl, id, id⟩

theorem fresh_fr {r : CRange} : Fr (fresh r) := by
  intro s a s' h
  unfold fresh at h; cases h
  exact ⟨rfl, rfl, rfl, id, id⟩

theorem sema_fr {f : Bytes → SemaSt → α × SemaSt} (hf : ∀ src s, ∃ t, (f src s).2.diags = s.diags ++ t) : Fr (sema f) := by
  intro s a s' h
  unfold sema at h
  simp only at h; cases h
  exact ⟨rfl, rfl, rfl, id, fun h => clean_cons (hf s.lex.src ⟨s.next, s.lex.diags, s.bad⟩) h⟩

theorem mkMisc_fr {r : CRange} : Fr (mkMisc r) := .bind fresh_fr fun _ => .pure
theorem diagNullExpr_fr {c : Cursor} {as : Bytes} : Fr (diagNullExpr c as) := emitD_fr
theorem needExpr_fr {e : Node} {as : Bytes} : Fr (needExpr e as) := .when (.bind lastR_fr fun _ => emitD_fr)

theorem resetBuf_frame (s : PState) : Frame s (resetBuf s) := by
  unfold resetBuf
  split
  · exact .refl s
  · exact ⟨rfl, rfl, rfl, fun _ => rfl, id⟩

theorem Fr.state {st : PS} {m : PM α} (h : Fr m) : Fr (withState st m) := by
  intro s a s' e
  unfold withState at e
  obtain ⟨_, s1, e1, e⟩ := run_bind e
  obtain ⟨b, s2, e2, e⟩ := run_bind e
  obtain ⟨_, s3, e3, e⟩ := run_bind e
  obtain ⟨rfl, rfl⟩ := run_pure e
  have e1 := run_modify e1
  have e3 := run_modify e3
  have f1 := resetBuf_frame s
  have f2 := h _ _ _ e2
  have f3 := resetBuf_frame s2
  subst e1 e3
  refine ⟨f3.src.trans (f2.src.trans f1.src), ?_, ?_, fun h => f3.fit (f2.fit (f1.fit h)), fun h => f1.clean (f2.clean (f3.clean h))⟩
  · show (resetBuf s2).states.tail = s.states
    rw [f3.states, f2.states]
    exact f1.states
  · show (resetBuf s2).sync = s.sync
    rw [f3.sync, f2.sync]
    exact f1.sync

theorem Fr.sync {k : TK} {m : PM α} (h : Fr m) : Fr (withSync k m) := by
  intro s a s' e
  unfold withSync at e
  obtain ⟨_, s1, e1, e⟩ := run_bind e
  obtain ⟨b, s2, e2, e⟩ := run_bind e
  obtain ⟨_, s3, e3, e⟩ := run_bind e
  obtain ⟨rfl, rfl⟩ := run_pure e
  have e1 := run_modify e1
  have e3 := run_modify e3
  have f2 := h _ _ _ e2
  subst e1 e3
  refine ⟨f2.src, f2.states, ?_, f2.fit, f2.clean⟩
  show s2.sync.erase k = s.sync
  rw [f2.sync]
  simp

theorem unknownLoop_fr (k : Nat) : Fr (unknownLoop k) := by
  induction k with
  | zero => exact .fail
  | succ k ih =>
    refine .bind peek_fr fun t => .bind .get fun sync => ?_
    split
    · exact .pure
    · exact .bind pconsume_fr fun _ => .bind ih fun _ => .pure

theorem consumeAsUnknown_fr {k : Nat} : Fr (consumeAsUnknown k) := by
  refine .bind peek_fr fun t => .bind (unknownLoop_fr k) fun c => ?_
  split
  · exact .bind lastR_fr fun _ => .pure
  · exact .pure

theorem removeUnexpected_fr {k : Nat} : Fr (removeUnexpected k) := by
  refine .bind consumeAsUnknown_fr fun r => ?_
  split
  · exact .bind emitD_fr fun _ => .pure
  · exact .pure

theorem insertCur_fr : Fr insertCur := by
  refine .bind .get fun r => ?_
  split
  · exact .pure
  · exact lCurP_fr

theorem rePeek_fr {b : Bool} {t : Token} : Fr (rePeek b t) := by
  unfold rePeek; split
  · exact peek_fr
  · exact .pure

theorem expect_fr {k : Nat} {kind : TK} : Fr (expect k kind) := by
  refine .sync (.bind peek_fr fun t => ?_)
  split
  · exact .pure
  · refine .bind removeUnexpected_fr fun _ => .bind rePeek_fr fun _ => ?_
    split
    · exact .pure
    · exact .bind insertCur_fr fun _ => .bind emitD_fr fun _ => .pure

theorem expectOr_fr {k : Nat} {kind : TK} {r : CRange} {t : Bytes} : Fr (expectOr k kind r t) := by
  refine .bind expect_fr fun t => ?_
  split
  · exact .bind pconsume_fr fun _ => .pure
  · exact .bind noteLast_fr fun _ => .pure

theorem expectMay_fr {k : Nat} {kind : TK} : Fr (expectMay k kind) := by
  refine .bind expect_fr fun t => ?_
  split
  · exact pconsume_fr
  · exact .pure

end

/-! ### Semantic actions -/

/-- Diagnostics are added; none of them is a syntax error. -/
def Mild (s s' : SemaSt) : Prop := ∃ t, s'.diags = s.diags ++ t ∧ ∀ d ∈ t, isSyntaxError d.kind = false

theorem Mild.refl (s : SemaSt) : Mild s s := ⟨[], by simp, by simp⟩
theorem Mild.same {s s' : SemaSt} (h : s'.diags = s.diags) : Mild s s' := ⟨[], by simp [h], by simp⟩
theorem Mild.trans {s s' s'' : SemaSt} (h : Mild s s') (h' : Mild s' s'') : Mild s s'' := by
  obtain ⟨a, ha, hx⟩ := h; obtain ⟨b, hb, hy⟩ := h'
  refine ⟨a ++ b, by rw [hb, ha]; simp, ?_⟩
  intro d hd
  rcases List.mem_append.mp hd with h | h
  · exact hx d h
  · exact hy d h
theorem Mild.emit {s : SemaSt} {d : Diagnostic} (h : isSyntaxError d.kind = false) : Mild s (s.emit d) :=
  ⟨[d], rfl, by simpa using h⟩
theorem Mild.then_same {s s' s'' : SemaSt} (h : Mild s s') (h' : s''.diags = s'.diags) : Mild s s'' := h.trans (.same h')

/-- The diagnostics of the bindings of a set. -/
def isAttrsKind : DK → Bool
  | .duplicatedAttrName | .mergeDiffRec | .dynamicInherit => true
  | _ => false

/-- Diagnostics are added; all of them are about the bindings of a set. -/
def AttrsOnly (s s' : SemaSt) : Prop := ∃ t, s'.diags = s.diags ++ t ∧ ∀ d ∈ t, isAttrsKind d.kind = true

theorem AttrsOnly.refl (s : SemaSt) : AttrsOnly s s := ⟨[], by simp, by simp⟩
theorem AttrsOnly.same {s s' : SemaSt} (h : s'.diags = s.diags) : AttrsOnly s s' := ⟨[], by simp [h], by simp⟩
theorem AttrsOnly.trans {s s' s'' : SemaSt} (h : AttrsOnly s s') (h' : AttrsOnly s' s'') : AttrsOnly s s'' := by
  obtain ⟨a, ha, hx⟩ := h; obtain ⟨b, hb, hy⟩ := h'
  refine ⟨a ++ b, by rw [hb, ha]; simp, ?_⟩
  intro d hd
  rcases List.mem_append.mp hd with h | h
  · exact hx d h
  · exact hy d h
theorem AttrsOnly.emit {s : SemaSt} {d : Diagnostic} (h : isAttrsKind d.kind = true) : AttrsOnly s (s.emit d) :=
  ⟨[d], rfl, by simpa using h⟩
theorem AttrsOnly.then_same {s s' s'' : SemaSt} (h : AttrsOnly s s') (h' : s''.diags = s'.diags) : AttrsOnly s s'' := h.trans (.same h')

theorem dupAttr_adds {n : Bytes} {r p : CRange} {s : SemaSt} : AttrsOnly s (dupAttr n r p s) := .emit rfl

theorem mergeStatic_adds (ys xs : List Node) (s : SemaSt) : AttrsOnly s (mergeStatic ys xs s).2 := by
  induction ys generalizing xs s with
  | nil => exact .refl s
  | cons y ys ih =>
    unfold mergeStatic
    split
    · exact dupAttr_adds.trans (ih _ _)
    · exact ih _ _

theorem checkRec_adds {a c : CRange} {b d : Node} {s : SemaSt} : AttrsOnly s (checkAttrRecursiveForMerge a b c d s) := by
  unfold checkAttrRecursiveForMerge
  simp only
  split
  · exact .refl s
  · exact .emit rfl

theorem insertAttr_adds {sa : SA} {name e : Node} {kind : AttrKind} {s : SemaSt} : AttrsOnly s (insertAttr sa name e kind s).2 := by
  unfold insertAttr
  repeat' split
  all_goals first
    | exact .refl s
    | exact dupAttr_adds
    | exact checkRec_adds.trans (mergeStatic_adds _ _ _)

theorem addAttr_adds (sa : SA) (path : List Node) (e : Node) (s : SemaSt) : AttrsOnly s (addAttr sa path e s).2 := by
  fun_induction addAttr sa path e s with
  | case1 => exact .same rfl
  | case2 => exact .refl _
  | case3 => exact insertAttr_adds
  | case4 _ _ _ _ _ _ ih => exact ih
  | case5 => rename_i h ih; rw [h] at ih; exact ih
  | case6 => exact dupAttr_adds
  | case7 => rename_i h ih; rw [h] at ih; exact (AttrsOnly.same rfl).trans ih
  | case8 => rename_i h ih; rw [h] at ih; exact (AttrsOnly.same rfl).trans ih

theorem desugar_adds {name e : Node} {s : SemaSt} : AttrsOnly s (desugarInheritExpr name e s).2.2 := by
  unfold desugarInheritExpr
  repeat' split
  all_goals exact .same rfl

theorem lowerInheritName_adds {sa : SA} {name e : Node} {kind : AttrKind} {s : SemaSt} :
    AttrsOnly s (lowerInheritName sa name e kind s).2 := by
  unfold lowerInheritName
  repeat' split
  · exact .refl s
  · exact .emit rfl
  · exact dupAttr_adds
  · exact .refl s

theorem lowerInherit_adds (sa : SA) (e : Node) (ns : List Node) (s : SemaSt) : AttrsOnly s (lowerInherit sa e ns s).2 := by
  induction ns generalizing sa s with
  | nil => exact .refl s
  | cons n ns ih =>
    unfold lowerInherit
    exact desugar_adds.trans (lowerInheritName_adds.trans (ih _ _))

theorem lowerBinds_adds (sa : SA) (bs : List Node) (s : SemaSt) : AttrsOnly s (lowerBinds sa bs s).2 := by
  induction bs generalizing sa s with
  | nil => unfold lowerBinds; exact .refl s
  | cons b bs ih =>
    unfold lowerBinds
    split
    · rename_i h; cases h
    · rename_i h; cases h; exact (lowerInherit_adds _ _ _ _).trans (ih _ _)
    · rename_i h; cases h; exact (addAttr_adds _ _ _ _).trans (ih _ _)
    · rename_i h; cases h; exact (AttrsOnly.same rfl).trans (ih _ _)

theorem onExprAttrs_adds {r : CRange} {b c : Node} {s : SemaSt} : AttrsOnly s (onExprAttrs r b c s).2 := by
  unfold onExprAttrs
  cases b <;> first
    | exact (lowerBinds_adds _ _ _).then_same rfl
    | exact .same rfl

theorem onExprAttrs_mild {r : CRange} {b c : Node} {s : SemaSt} : Mild s (onExprAttrs r b c s).2 := by
  obtain ⟨t, h1, h2⟩ := onExprAttrs_adds (r := r) (b := b) (c := c) (s := s)
  refine ⟨t, h1, fun d hd => ?_⟩
  have := h2 d hd
  revert this
  cases d.kind <;> first | exact fun _ => rfl | exact nofun

theorem onLambdaArg_mild {r : CRange} {b c : Node} {s : SemaSt} : Mild s (onLambdaArg r b c s).2 := by
  unfold onLambdaArg
  simp only
  split
  · exact .same rfl
  · split
    · exact (Mild.emit rfl).then_same rfl
    · exact .same rfl

theorem dedupDiags_mild (fs : List Node) (acc : List (Bytes × Node)) (s : SemaSt) : Mild s (dedupDiags fs acc s) := by
  induction fs generalizing acc s with
  | nil => exact .refl s
  | cons f fs ih =>
    unfold dedupDiags
    repeat' split
    · exact ih _ _
    · exact (Mild.emit rfl).trans (ih _ _)
    · exact ih _ _

/-- Syntax errors are added for the members of a list that satisfy a condition. -/
theorem foldl_errors {α : Type} (l : List α) (c : α → Bool) (g : α → Diagnostic) (hg : ∀ a, isSyntaxError (g a).kind = true) (s : SemaSt) :
    ∃ t, (l.foldl (fun s a => if c a = true then s.emit (g a) else s) s).diags = s.diags ++ t ∧
      ((∀ d ∈ t, isSyntaxError d.kind = false) ↔ ∀ a ∈ l, c a = false) := by
  induction l generalizing s with
  | nil => exact ⟨[], by simp, by simp⟩
  | cons a l ih =>
    simp only [List.foldl_cons]
    split
    · rename_i hc
      obtain ⟨t, h1, h2⟩ := ih (s.emit (g a))
      refine ⟨g a :: t, by rw [h1]; simp [SemaSt.emit], ⟨fun h => ?_, fun h => ?_⟩⟩
      · have := h (g a) (by simp)
        rw [hg] at this; cases this
      · have := h a (by simp)
        rw [hc] at this; cases this
    · rename_i hc
      obtain ⟨t, h1, h2⟩ := ih s
      exact ⟨t, h1, by rw [h2]; simp [Bool.eq_false_iff.mpr hc]⟩

/-- When the members of a list of formals are correct. -/
def MembersOk (fv : List Node) : Prop :=
  (∀ f ∈ fv.tail, (formalComma f).isNull = false) ∧ (∀ f ∈ fv.dropLast, formalIsEllipsis f = false) ∧
    ∀ f ∈ fv.dropLast, (!(formalComma f).isNull && (formalID f).isNull && !formalIsEllipsis f) = false

theorem onFormals_errors (src : Bytes) (r : CRange) (fv : List Node) (s : SemaSt) :
    ∃ t, (onFormals src r fv s).2.diags = s.diags ++ t ∧ ((∀ d ∈ t, isSyntaxError d.kind = false) ↔ MembersOk fv) := by
  unfold onFormals
  simp only
  obtain ⟨t1, h1, e1⟩ := foldl_errors fv.tail (fun f => (formalComma f).isNull)
    (fun f => { kind := .formalMissingComma, range := f.range, fixes := [{ message := b!"insert ,", edits := [⟨⟨f.lCur, f.lCur⟩, b!","⟩] }] })
    (fun _ => rfl) s
  have h1 : (checkFormalSep fv s).diags = s.diags ++ t1 := h1
  generalize checkFormalSep fv s = s1 at h1
  obtain ⟨t2, h2, e2⟩ : ∃ t, (checkFormalEllipsis src fv s1).diags = s1.diags ++ t ∧
      ((∀ d ∈ t, isSyntaxError d.kind = false) ↔ ∀ f ∈ fv.dropLast, formalIsEllipsis f = false) := by
    unfold checkFormalEllipsis
    split
    · rename_i h
      have : fv = [] := by simpa using h
      subst this
      exact ⟨[], by simp, by simp⟩
    · rename_i last h
      obtain ⟨t, h, e⟩ := foldl_errors fv.dropLast.zipIdx (fun p => formalIsEllipsis p.1) (fun p => ellipsisDiag src fv last p.2 p.1)
        (fun p => by unfold ellipsisDiag; split <;> rfl) s1
      refine ⟨t, h, e.trans ⟨fun h f hf => ?_, fun h p hp => ?_⟩⟩
      · obtain ⟨i, hi, rfl⟩ := List.getElem_of_mem hf
        exact h (fv.dropLast[i], i) (by rw [List.mem_zipIdx_iff_getElem?]; exact List.getElem?_eq_getElem hi)
      · rw [List.mem_zipIdx_iff_getElem?] at hp
        exact h _ (List.mem_of_getElem? hp)
  generalize checkFormalEllipsis src fv s1 = s2 at h2
  obtain ⟨t3, h3, e3⟩ := foldl_errors fv.dropLast (fun f => !(formalComma f).isNull && (formalID f).isNull && !formalIsEllipsis f)
    (fun f => { kind := .emptyFormal, range := f.range, tags := [.faded], fixes := [{ message := b!"remove empty formal", edits := [⟨f.range, []⟩] }] })
    (fun _ => rfl) s2
  have h3 : (checkFormalEmpty fv s2).diags = s2.diags ++ t3 := h3
  generalize checkFormalEmpty fv s2 = s3 at h3
  obtain ⟨t4, h4, e4⟩ := dedupDiags_mild fv [] s3
  refine ⟨t1 ++ t2 ++ t3 ++ t4, by rw [h4, h3, h2, h1]; simp, ?_⟩
  unfold MembersOk
  rw [← e1, ← e2, ← e3]
  simp only [List.mem_append]
  constructor
  · intro h
    exact ⟨fun d hd => h d (by tauto), fun d hd => h d (by tauto), fun d hd => h d (by tauto)⟩
  · rintro ⟨a, b, c⟩ d (((h | h) | h) | h)
    · exact a d h
    · exact b d h
    · exact c d h
    · exact e4 d h

theorem onExprAttrs_fr {r : CRange} {b c : Node} : Fr (sema fun _ => onExprAttrs r b c) :=
  sema_fr fun _ _ => let ⟨t, h, _⟩ := onExprAttrs_mild; ⟨t, h⟩
theorem onLambdaArg_fr {r : CRange} {b c : Node} : Fr (sema fun _ => onLambdaArg r b c) :=
  sema_fr fun _ _ => let ⟨t, h, _⟩ := onLambdaArg_mild; ⟨t, h⟩
theorem onFormals_fr {r : CRange} {b : List Node} : Fr (sema fun src => onFormals src r b) :=
  sema_fr fun _ _ => let ⟨t, h, _⟩ := onFormals_errors _ _ _ _; ⟨t, h⟩

/-! ### The functions of the parser -/

/-- The recursive calls. -/
structure Fr2 (R : Rec) : Prop where
  expr : Fr R.expr
  select : Fr R.select

theorem Fr.expr {R : Rec} (h : Fr2 R) : Fr R.expr := h.expr
theorem Fr.select {R : Rec} (h : Fr2 R) : Fr R.select := h.select

/-- Proves `Fr` by going through the statements. -/
macro "frame" : tactic => `(tactic|
  with_reducible repeat' first
    | exact Fr.pure | exact peek_fr | exact pconsume_fr | exact lastR_fr | exact emitD_fr | exact noteLast_fr | exact fixLast_fr
    | exact fresh_fr | exact mkMisc_fr | exact needExpr_fr | exact expect_fr | exact expectOr_fr | exact expectMay_fr
    | exact lCurP_fr | exact assertFail_fr | exact assertLast_fr | exact removeUnexpected_fr | exact diagNullExpr_fr | exact Fr.get
    | exact onExprAttrs_fr | exact onLambdaArg_fr | exact onFormals_fr | exact Fr.fail
    | assumption
    | exact Fr.expr (by assumption) | exact Fr.select (by assumption)
    | refine Fr.sync ?_ | refine Fr.state ?_ | refine Fr.when ?_
    | refine Fr.bind ?_ fun _ => ?_
    | split
    | apply_assumption)

section
variable {R : Rec} (hR : Fr2 R) (k : Nat)
include hR

theorem parseInterpolation_fr : Fr (parseInterpolation R k) := by unfold parseInterpolation; frame

theorem pathLoop_fr (j : Nat) : Fr (pathLoop R k j) := by
  induction j with
  | zero => exact .fail
  | succ j ih =>
    have := parseInterpolation_fr hR k
    unfold pathLoop; frame

omit hR in
theorem mkParts_fr {r : CRange} {fs : List Node} : Fr (mkParts r fs) := by unfold mkParts; frame

theorem parseExprPath_fr : Fr (parseExprPath R k) := by
  have := pathLoop_fr hR k k
  unfold parseExprPath mkParts; frame

theorem partsLoop_fr (j : Nat) : Fr (partsLoop R k j) := by
  induction j with
  | zero => exact .fail
  | succ j ih =>
    have := parseInterpolation_fr hR k
    unfold partsLoop; frame

theorem parseStringParts_fr : Fr (parseStringParts R k) := by
  have := partsLoop_fr hR k k
  unfold parseStringParts mkParts; frame

theorem parseString_fr (b : Bool) : Fr (parseString R k b) := by
  have := parseStringParts_fr hR k
  unfold parseString noteMatch; frame

theorem parseAttrName_fr : Fr (parseAttrName R k) := by
  have := parseInterpolation_fr hR k
  have := parseString_fr hR k false
  unfold parseAttrName; frame

theorem attrPathLoop_fr (j p : Nat) : Fr (attrPathLoop R k j p) := by
  induction j generalizing p with
  | zero => exact .fail
  | succ j ih =>
    have := parseAttrName_fr hR k
    unfold attrPathLoop; frame

theorem parseAttrPath_fr : Fr (parseAttrPath R k) := by
  have := parseAttrName_fr hR k
  have := attrPathLoop_fr hR k k
  unfold parseAttrPath; frame

omit hR in
theorem bindingSemi_fr : Fr bindingSemi := by unfold bindingSemi; frame

theorem parseBinding_fr : Fr (parseBinding R k) := by
  have := parseAttrPath_fr hR k
  have := bindingSemi_fr
  unfold parseBinding; frame

theorem inheritNames_fr (j : Nat) : Fr (inheritNames R k j) := by
  induction j with
  | zero => exact .fail
  | succ j ih =>
    have := parseAttrName_fr hR k
    unfold inheritNames; frame

theorem inheritExpr_fr : Fr (inheritExpr R k) := by unfold inheritExpr; frame

theorem parseInherit_fr : Fr (parseInherit R k) := by
  have := inheritExpr_fr hR k
  have := inheritNames_fr hR k k
  unfold parseInherit; frame

theorem bindsLoop_fr (j : Nat) : Fr (bindsLoop R k j) := by
  induction j with
  | zero => exact .fail
  | succ j ih =>
    have := parseBinding_fr hR k
    have := parseInherit_fr hR k
    unfold bindsLoop; frame

theorem parseBinds_fr : Fr (parseBinds R k) := by
  have := bindsLoop_fr hR k k
  unfold parseBinds; frame

omit hR in
theorem recTok_fr : Fr recTok := by unfold recTok; frame
omit hR in
theorem attrsOpen_fr (b : Token) : Fr (attrsOpen k b) := by unfold attrsOpen; frame

theorem parseExprAttrs_fr : Fr (parseExprAttrs R k) := by
  have := parseBinds_fr hR k
  have := recTok_fr
  have := attrsOpen_fr k
  unfold parseExprAttrs; frame

theorem parseExprParen_fr : Fr (parseExprParen R k) := by unfold parseExprParen noteMatch; frame

theorem listLoop_fr (j : Nat) : Fr (listLoop R j) := by
  induction j with
  | zero => exact .fail
  | succ j ih => unfold listLoop; frame

theorem parseExprList_fr : Fr (parseExprList R k) := by
  have := listLoop_fr hR k
  unfold parseExprList; frame

theorem parseExprSimple_fr : Fr (parseExprSimple R k) := by
  have := parseString_fr hR k
  have := parseExprPath_fr hR k
  have := parseExprParen_fr hR k
  have := parseExprAttrs_fr hR k
  have := parseExprList_fr hR k
  unfold parseExprSimple mkParts; frame

theorem parseExprSelect_fr : Fr (parseExprSelect R k) := by
  have := parseExprSimple_fr hR k
  have := parseAttrPath_fr hR k
  unfold parseExprSelect; frame

theorem appLoop_fr (j : Nat) : Fr (appLoop R k j) := by
  induction j with
  | zero => exact .fail
  | succ j ih =>
    have := parseExprSelect_fr hR k
    unfold appLoop; frame

theorem parseExprApp_fr : Fr (parseExprApp R k) := by
  have := parseExprSelect_fr hR k
  have := appLoop_fr hR k k
  unfold parseExprApp; frame

theorem op_fr (j : Nat) : (∀ p, Fr (parseExprOpBP R k j p)) ∧ ∀ p l, Fr (opLoop R k j p l) := by
  have h1 := parseExprApp_fr hR k
  have h2 := parseAttrPath_fr hR k
  induction j with
  | zero => exact ⟨fun p => .fail, fun p l => .fail⟩
  | succ j ih =>
    obtain ⟨ih1, ih2⟩ := ih
    refine ⟨fun p => ?_, fun p l => ?_⟩
    · unfold parseExprOpBP; frame
    · unfold opLoop; frame

omit hR in
theorem formalCommaTok_fr : Fr formalCommaTok := by unfold formalCommaTok; frame

theorem parseFormal_fr : Fr (parseFormal R) := by
  have := formalCommaTok_fr
  unfold parseFormal; frame

theorem formalsLoop_fr (j : Nat) : Fr (formalsLoop R k j) := by
  induction j with
  | zero => exact .fail
  | succ j ih =>
    have := parseFormal_fr hR
    unfold formalsLoop; frame

theorem parseFormals_fr : Fr (parseFormals R k) := by
  have := formalsLoop_fr hR k k
  unfold parseFormals; frame

theorem parseLambdaArg_fr : Fr (parseLambdaArg R k) := by
  have := parseFormals_fr hR k
  unfold parseLambdaArg noteMatch; frame

theorem parseExprLambda_fr : Fr (parseExprLambda R k) := by
  have := parseLambdaArg_fr hR k
  unfold parseExprLambda; frame

theorem parseElse_fr (t : Token) (c e : Node) : Fr (parseElse R k t c e) := by unfold parseElse mkIf noteMatch; frame

theorem parseThen_fr (t : Token) (c : Node) : Fr (parseThen R k t c) := by
  have := fun c' => parseElse_fr hR k t c c'
  unfold parseThen mkIf noteMatch; frame

theorem parseExprIf_fr : Fr (parseExprIf R k) := by
  have := fun t c => parseThen_fr hR k t c
  unfold parseExprIf mkIf; frame

theorem parseAssertValue_fr (t : Token) (c : Node) : Fr (parseAssertValue R k t c) := by
  unfold parseAssertValue mkAssert noteMatch; frame

theorem parseExprAssert_fr : Fr (parseExprAssert R k) := by
  have := fun t c => parseAssertValue_fr hR k t c
  unfold parseExprAssert mkAssert; frame

theorem parseExprLet_fr : Fr (parseExprLet R k) := by
  have := parseBinds_fr hR k
  unfold parseExprLet letAttrs; frame

theorem parseExprWith_fr : Fr (parseExprWith R k) := by unfold parseExprWith noteMatch; frame

omit hR in
theorem legacyClose_fr (t : Token) (c : Cursor) : Fr (legacyClose k t c) := by unfold legacyClose noteMatch; frame

theorem parseExprLegacyLet_fr : Fr (parseExprLegacyLet R k) := by
  have := parseBinds_fr hR k
  have := legacyClose_fr k
  unfold parseExprLegacyLet; frame

omit hR in
theorem lookAhead_fr : Fr lookAhead := by
  have : ∀ n, Fr (peekKind n) := fun n => peekKind_fr
  unfold lookAhead; frame

theorem parseExpr_fr : Fr (parseExpr R k) := by
  have := lookAhead_fr
  have := parseExprLambda_fr hR k
  have := parseExprAttrs_fr hR k
  have := parseExprIf_fr hR k
  have := parseExprAssert_fr hR k
  have := parseExprLet_fr hR k
  have := parseExprLegacyLet_fr hR k
  have := parseExprWith_fr hR k
  have := (op_fr hR k k).1
  unfold parseExpr; frame

end

theorem recN_fr (n : Nat) : Fr2 (recN n) := by
  induction n with
  | zero => exact ⟨.fail, .fail⟩
  | succ n ih => exact ⟨parseExpr_fr ih n, parseExprSelect_fr ih n⟩

end Verif.Nixf.Syntax
