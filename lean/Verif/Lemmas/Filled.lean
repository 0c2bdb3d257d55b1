import Verif.Lemmas.SynFrame
import Verif.Model.VariableLookup
/-
Every diagnostic has as many arguments as there are places for arguments in its message, and so have its notes.
-/
namespace Verif.Nixf.Filling
open Syntax

/-- The number of places for arguments in a message. -/
def holes : Bytes → Nat
  | [] => 0
  | 123 :: 125 :: rest => holes rest + 1
  | _ :: rest => holes rest

/-- The number of places in the message of a diagnostic. -/
def arity : DK → Nat
  | .expected | .floatNoExp | .floatLeadingZero | .duplicatedAttrName | .undefinedVariable | .unusedDefLet
  | .unusedDefLambdaNoArg_Formal | .unusedDefLambdaWithArg_Formal | .unusedDefLambdaWithArg_Arg | .primOpUnknown
  | .primOpOverridden | .constantOverridden => 1
  | .unexpectedBetween => 3
  | _ => 0

/-- The number of places in the message of a note. -/
def noteArity : NK → Nat
  | .thisRecursive | .toMachThis => 1
  | .recConsider => 2
  | _ => 0

theorem arity_eq (k : DK) : holes k.message = arity k := by cases k <;> decide +kernel
theorem noteArity_eq (k : NK) : holes k.message = noteArity k := by cases k <;> decide +kernel

/-- As many arguments as places. -/
def FilledNote (n : Note) : Prop := n.args.length = noteArity n.kind

structure Filled (d : Diagnostic) : Prop where
  args : d.args.length = arity d.kind
  notes : ∀ n ∈ d.notes, FilledNote n

def All (ds : List Diagnostic) : Prop := ∀ d ∈ ds, Filled d

theorem All.nil : All [] := nofun
theorem All.snoc {ds : List Diagnostic} {d : Diagnostic} (h : All ds) (hd : Filled d) : All (ds ++ [d]) := by
  intro x hx
  rcases List.mem_append.mp hx with hx | hx
  · exact h x hx
  · rw [List.mem_singleton.mp hx]; exact hd

theorem FilledNote.intro {n : Note} (h : n.args.length = noteArity n.kind) : FilledNote n := h
theorem Filled.plain {d : Diagnostic} (h : d.args.length = arity d.kind) (hn : d.notes = []) : Filled d :=
  ⟨h, by rw [hn]; exact nofun⟩
theorem Filled.one {d : Diagnostic} {n : Note} (h : d.args.length = arity d.kind) (hn : d.notes = [n])
    (hf : n.args.length = noteArity n.kind) : Filled d :=
  ⟨h, by rw [hn]; intro m hm; rw [List.mem_singleton.mp hm]; exact hf⟩

/-- Proves `Filled` of a diagnostic that is given. -/
macro "fill" : tactic => `(tactic| first
  | exact .plain rfl rfl
  | exact .one rfl rfl rfl
  | exact FilledNote.intro rfl)

/-! ### The lexer -/

theorem consume_diags (n : Nat) (s : St) : (consume n s).diags = s.diags := by unfold consume; split <;> rfl
theorem consumeWhile_diags (p : UInt8 → Bool) (s : St) : (consumeWhile p s).diags = s.diags := consume_diags _ _

theorem consumeComments_all {s s' : St} (h : consumeComments s = some s') (hs : All s.diags) : All s'.diags := by
  unfold consumeComments at h
  simp only at h
  split at h
  · split at h
    · cases h; simpa only [consume_diags] using hs
    · cases h
      refine All.snoc (by simpa only [consume_diags] using hs) ?_
      fill
  · split at h
    · cases h; simpa only [consume_diags] using hs
    · cases h

theorem consumeTrivia_all (s : St) (hs : All s.diags) : All (consumeTrivia s).diags := by
  fun_induction consumeTrivia s with
  | case1 => exact hs
  | case2 _ _ _ _ _ ih => exact ih (by rw [consumeWhile_diags]; exact hs)
  | case3 => rename_i h ih; exact ih (consumeComments_all h hs)
  | case4 => exact hs

theorem expSign_diags (s : St) : (expSign s).diags = s.diags := by
  unfold expSign; split
  · rfl
  · split
    · exact consume_diags _ _
    · rfl

theorem lexFloatExp_all (s : St) (hs : All s.diags) : All (lexFloatExp s).diags := by
  unfold lexFloatExp
  simp only
  repeat' split
  · exact hs
  · refine All.snoc (by rw [consumeWhile_diags, expSign_diags, consume_diags]; exact hs) ?_
    fill
  · rw [consumeWhile_diags, expSign_diags, consume_diags]; exact hs
  · exact hs

theorem lexNumbers_all (s : St) (hs : All s.diags) : All (lexNumbers s).2.diags := by
  unfold lexNumbers
  simp only
  have h : All (lexFloatExp (consumeWhile isDigit (consume 1 (consumeWhile isDigit s)))).diags :=
    lexFloatExp_all _ (by rw [consumeWhile_diags, consume_diags, consumeWhile_diags]; exact hs)
  split
  · show All (if _ then _ else _ : St).diags
    split
    · exact h.snoc (by fill)
    · exact h
  · show All (consumeWhile isDigit s).diags
    rw [consumeWhile_diags]; exact hs

theorem consumePathStart_diags {s s' : St} (h : consumePathStart s = some s') : s'.diags = s.diags := by
  unfold consumePathStart at h
  simp only at h
  repeat' split at h
  all_goals first
    | (cases h; done)
    | (cases h; simp only [consume_diags, consumeWhile_diags])

theorem consumeURI_diags {s s' : St} (h : consumeURI s = some s') : s'.diags = s.diags := by
  unfold consumeURI at h
  simp only at h
  repeat' split at h
  all_goals first
    | (cases h; done)
    | (cases h; simp only [consume_diags, consumeWhile_diags])

theorem consumeSPath_diags {s s' : St} (h : consumeSPath s = some s') : s'.diags = s.diags := by
  unfold consumeSPath at h
  simp only at h
  repeat' split at h
  all_goals first
    | (cases h; done)
    | (cases h; simp only [consume_diags, consumeWhile_diags])

theorem lex_all (s0 : St) (h0 : All s0.diags) : All (lex s0).2.diags := by
  have hs := consumeTrivia_all s0 h0
  unfold lex
  simp only
  generalize consumeTrivia s0 = s at hs
  split
  · exact hs
  · split
    · rename_i h
      split at h
      · rw [show (_ : Token × St).2.diags = _ from consumePathStart_diags h]; exact hs
      · cases h
    · split
      · rename_i h
        split at h
        · rw [show (_ : Token × St).2.diags = _ from consumeURI_diags h]; exact hs
        · cases h
      · split
        · exact lexNumbers_all s hs
        · split
          · show All (lexIdentifier s).diags
            unfold lexIdentifier
            rw [consumeWhile_diags, consume_diags]; exact hs
          · split
            · rename_i h
              split at h
              · rw [show (_ : Token × St).2.diags = _ from consumeSPath_diags h]; exact hs
              · cases h
            · show All (consume _ s).diags
              rw [consume_diags]; exact hs

theorem lexPath_diags (s : St) : (lexPath s).2.diags = s.diags := by
  unfold lexPath
  simp only
  repeat' split
  all_goals simp only [consume_diags, consumeWhile_diags]

theorem lexString_diags (s : St) : (lexString s).2.diags = s.diags := by
  unfold lexString
  simp only
  repeat' split
  all_goals simp only [consume_diags]

theorem lexIndString_diags (s : St) : (lexIndString s).2.diags = s.diags := by
  unfold lexIndString
  simp only
  repeat' split
  all_goals simp only [consume_diags]

theorem lexPS_all (p : PS) (s : St) (hs : All s.diags) : All (lexPS p s).2.diags := by
  cases p with
  | expr => exact lex_all s hs
  | path => exact (lexPath_diags s).symm ▸ hs
  | string => exact (lexString_diags s).symm ▸ hs
  | indString => exact (lexIndString_diags s).symm ▸ hs

/-! ### The primitives of the parser -/

/-- The diagnostics stay filled. -/
def Kp {α : Type} (m : PM α) : Prop := ∀ s a s', m s = some (a, s') → All s.lex.diags → All s'.lex.diags

section
variable {α β : Type}

theorem Kp.bind {m : PM α} {f : α → PM β} (h1 : Kp m) (h2 : ∀ a, Kp (f a)) : Kp (m >>= f) := by
  intro s b s' h hs
  obtain ⟨a, s1, e1, e2⟩ := run_bind h
  exact h2 a _ _ _ e2 (h1 _ _ _ e1 hs)

theorem Kp.pure {a : α} : Kp (Pure.pure a : PM α) := by
  intro s b s' h hs
  obtain ⟨-, rfl⟩ := run_pure h
  exact hs

theorem Kp.fail : Kp (PM.fail : PM α) := fun _ _ _ h => by cases h

theorem Kp.get {f : PState → α} : Kp (PM.get f) := by
  intro s b s' h hs
  unfold PM.get at h; cases h
  exact hs

theorem Kp.when {c : Prop} [Decidable c] {m : PM Unit} (h : Kp m) : Kp (whenP c m) := by
  unfold whenP; split
  · exact h
  · exact .pure

theorem pull_all (n : Nat) (s : PState) (hs : All s.lex.diags) : All (pull n s).lex.diags := by
  induction n generalizing s with
  | zero => exact hs
  | succ n ih => exact ih _ (lexPS_all _ _ hs)

theorem peek_kp {n : Nat} : Kp (peek n) := by
  intro s a s' h hs
  unfold peek at h; cases h
  exact pull_all _ _ hs

theorem peekKind_kp {n : Nat} : Kp (peekKind n) := .bind peek_kp fun _ => .pure

theorem pconsume_kp : Kp pconsume := by
  intro s a s' h hs
  unfold pconsume at h
  simp only at h
  have h1 : All (if s.buf.isEmpty then pull 1 s else s).lex.diags := by
    split
    · exact pull_all _ _ hs
    · exact hs
  revert h h1
  generalize (if s.buf.isEmpty then pull 1 s else s) = s1
  intro h h1
  split at h
  · cases h; exact h1
  · cases h; exact h1

theorem lCurP_kp : Kp lCurP := .bind peek_kp fun _ => .pure

theorem lastR_kp : Kp lastR := by
  intro s a s' h hs
  unfold lastR at h
  split at h <;> (cases h; exact hs)

theorem emitD_kp {d : Diagnostic} (hd : Filled d) : Kp (emitD d) := by
  intro s a s' h hs
  have := run_modify h; subst this
  exact hs.snoc hd

/-- A change to the last diagnostic. -/
theorem last_all (ds : List Diagnostic) (g : Diagnostic → Diagnostic) (hg : ∀ d, Filled d → Filled (g d)) (h : All ds) :
    All (ds.dropLast ++ (ds.getLast?.map g).toList) := by
  induction ds using List.reverseRecOn with
  | nil => exact nofun
  | append_singleton ds d _ =>
    have hd : Filled d := h d (by simp)
    have h' : All ds := fun x hx => h x (by simp [hx])
    simpa using h'.snoc (hg d hd)

theorem noteLast_kp {n : Note} (hn : FilledNote n) : Kp (noteLast n) := by
  intro s a s' h hs
  have := run_modify h; subst this
  refine last_all _ _ (fun d hd => ⟨hd.args, fun m hm => ?_⟩) hs
  rcases List.mem_append.mp hm with hm | hm
  · exact hd.notes m hm
  · rw [List.mem_singleton.mp hm]; exact hn

theorem fixLast_kp {n : Fix} : Kp (fixLast n) := by
  intro s a s' h hs
  have := run_modify h; subst this
  exact last_all _ _ (fun d hd => ⟨hd.args, hd.notes⟩) hs

theorem assertFail_kp : Kp assertFail := by
  intro s a s' h hs
  have := run_modify h; subst this
  exact hs

theorem assertLast_kp : Kp assertLast := by
  intro s a s' h hs
  have := run_modify h; subst this
  exact hs

theorem fresh_kp {r : CRange} : Kp (fresh r) := by
  intro s a s' h hs
  unfold fresh at h; cases h
  exact hs

theorem sema_kp {f : Bytes → SemaSt → α × SemaSt} (hf : ∀ src s, All s.diags → All (f src s).2.diags) : Kp (sema f) := by
  intro s a s' h hs
  unfold sema at h
  simp only at h; cases h
  exact hf s.lex.src ⟨s.next, s.lex.diags, s.bad⟩ hs

theorem mkMisc_kp {r : CRange} : Kp (mkMisc r) := .bind fresh_kp fun _ => .pure
theorem diagNullExpr_kp {c : Cursor} {as : Bytes} : Kp (diagNullExpr c as) := emitD_kp (by fill)
theorem needExpr_kp {e : Node} {as : Bytes} : Kp (needExpr e as) := .when (.bind lastR_kp fun _ => emitD_kp (by fill))

theorem resetBuf_diags (s : PState) : (resetBuf s).lex.diags = s.lex.diags := by
  unfold resetBuf
  split <;> rfl

theorem Kp.state {st : PS} {m : PM α} (h : Kp m) : Kp (withState st m) := by
  intro s a s' e hs
  unfold withState at e
  obtain ⟨_, s1, e1, e⟩ := run_bind e
  obtain ⟨b, s2, e2, e⟩ := run_bind e
  obtain ⟨_, s3, e3, e⟩ := run_bind e
  obtain ⟨rfl, rfl⟩ := run_pure e
  have e1 := run_modify e1
  have e3 := run_modify e3
  subst e1 e3
  show All (resetBuf s2).lex.diags
  rw [resetBuf_diags]
  refine h _ _ _ e2 ?_
  show All (resetBuf s).lex.diags
  rw [resetBuf_diags]
  exact hs

theorem Kp.sync {k : TK} {m : PM α} (h : Kp m) : Kp (withSync k m) := by
  intro s a s' e hs
  unfold withSync at e
  obtain ⟨_, s1, e1, e⟩ := run_bind e
  obtain ⟨b, s2, e2, e⟩ := run_bind e
  obtain ⟨_, s3, e3, e⟩ := run_bind e
  obtain ⟨rfl, rfl⟩ := run_pure e
  have e1 := run_modify e1
  have e3 := run_modify e3
  subst e1 e3
  exact h _ _ s2 e2 (show All s.lex.diags from hs)

theorem unknownLoop_kp (k : Nat) : Kp (unknownLoop k) := by
  induction k with
  | zero => exact .fail
  | succ k ih =>
    refine .bind peek_kp fun t => .bind .get fun sync => ?_
    split
    · exact .pure
    · exact .bind pconsume_kp fun _ => .bind ih fun _ => .pure

theorem consumeAsUnknown_kp {k : Nat} : Kp (consumeAsUnknown k) := by
  refine .bind peek_kp fun t => .bind (unknownLoop_kp k) fun c => ?_
  split
  · exact .bind lastR_kp fun _ => .pure
  · exact .pure

theorem removeUnexpected_kp {k : Nat} : Kp (removeUnexpected k) := by
  refine .bind consumeAsUnknown_kp fun r => ?_
  split
  · exact .bind (emitD_kp (by fill)) fun _ => .pure
  · exact .pure

theorem insertCur_kp : Kp insertCur := by
  refine .bind .get fun r => ?_
  split
  · exact .pure
  · exact lCurP_kp

theorem rePeek_kp {b : Bool} {t : Token} : Kp (rePeek b t) := by
  unfold rePeek; split
  · exact peek_kp
  · exact .pure

theorem expect_kp {k : Nat} {kind : TK} : Kp (expect k kind) := by
  refine .sync (.bind peek_kp fun t => ?_)
  split
  · exact .pure
  · refine .bind removeUnexpected_kp fun _ => .bind rePeek_kp fun _ => ?_
    split
    · exact .pure
    · exact .bind insertCur_kp fun _ => .bind (emitD_kp (by fill)) fun _ => .pure

theorem expectOr_kp {k : Nat} {kind : TK} {r : CRange} {t : Bytes} : Kp (expectOr k kind r t) := by
  refine .bind expect_kp fun t => ?_
  split
  · exact .bind pconsume_kp fun _ => .pure
  · exact .bind (noteLast_kp (by fill)) fun _ => .pure

theorem expectMay_kp {k : Nat} {kind : TK} : Kp (expectMay k kind) := by
  refine .bind expect_kp fun t => ?_
  split
  · exact pconsume_kp
  · exact .pure

end

/-! ### Semantic actions -/

theorem emit_all {s : SemaSt} {d : Diagnostic} (hs : All s.diags) (hd : Filled d) : All (s.emit d).diags := hs.snoc hd

theorem dupAttr_all {n : Bytes} {r p : CRange} {s : SemaSt} (hs : All s.diags) : All (dupAttr n r p s).diags := emit_all hs (by fill)

theorem mergeStatic_all (ys xs : List Node) (s : SemaSt) (hs : All s.diags) : All (mergeStatic ys xs s).2.diags := by
  induction ys generalizing xs s with
  | nil => exact hs
  | cons y ys ih =>
    unfold mergeStatic
    split
    · exact ih _ _ (dupAttr_all hs)
    · exact ih _ _ hs

theorem checkRec_all {a c : CRange} {b d : Node} {s : SemaSt} (hs : All s.diags) : All (checkAttrRecursiveForMerge a b c d s).diags := by
  unfold checkAttrRecursiveForMerge
  simp only
  split
  · exact hs
  · refine emit_all hs ⟨rfl, fun n hn => ?_⟩
    simp only [List.mem_cons, List.not_mem_nil, or_false] at hn
    rcases hn with rfl | rfl <;> rfl

theorem insertAttr_all {sa : SA} {name e : Node} {kind : AttrKind} {s : SemaSt} (hs : All s.diags) :
    All (insertAttr sa name e kind s).2.diags := by
  unfold insertAttr
  repeat' split
  all_goals first
    | exact hs
    | exact dupAttr_all hs
    | exact mergeStatic_all _ _ _ (checkRec_all hs)

theorem addAttr_all (sa : SA) (path : List Node) (e : Node) (s : SemaSt) (hs : All s.diags) : All (addAttr sa path e s).2.diags := by
  fun_induction addAttr sa path e s with
  | case1 => exact hs
  | case2 => exact hs
  | case3 => exact insertAttr_all hs
  | case4 _ _ _ _ _ _ ih => exact ih hs
  | case5 => rename_i h ih; rw [h] at ih; exact ih hs
  | case6 => exact dupAttr_all hs
  | case7 => rename_i h ih; rw [h] at ih; exact ih hs
  | case8 => rename_i h ih; rw [h] at ih; exact ih hs

theorem desugar_all {name e : Node} {s : SemaSt} (hs : All s.diags) : All (desugarInheritExpr name e s).2.2.diags := by
  unfold desugarInheritExpr
  repeat' split
  all_goals exact hs

theorem lowerInheritName_all {sa : SA} {name e : Node} {kind : AttrKind} {s : SemaSt} (hs : All s.diags) :
    All (lowerInheritName sa name e kind s).2.diags := by
  unfold lowerInheritName
  repeat' split
  · exact hs
  · exact emit_all hs (by fill)
  · exact dupAttr_all hs
  · exact hs

theorem lowerInherit_all (sa : SA) (e : Node) (ns : List Node) (s : SemaSt) (hs : All s.diags) : All (lowerInherit sa e ns s).2.diags := by
  induction ns generalizing sa s with
  | nil => exact hs
  | cons n ns ih =>
    unfold lowerInherit
    exact ih _ _ (lowerInheritName_all (desugar_all hs))

theorem lowerBinds_all (sa : SA) (bs : List Node) (s : SemaSt) (hs : All s.diags) : All (lowerBinds sa bs s).2.diags := by
  induction bs generalizing sa s with
  | nil => unfold lowerBinds; exact hs
  | cons b bs ih =>
    unfold lowerBinds
    split
    · rename_i h; cases h
    · rename_i h; cases h; exact ih _ _ (lowerInherit_all _ _ _ _ hs)
    · rename_i h; cases h; exact ih _ _ (addAttr_all _ _ _ _ hs)
    · rename_i h; cases h; exact ih _ _ hs

theorem onExprAttrs_all {r : CRange} {b c : Node} {s : SemaSt} (hs : All s.diags) : All (onExprAttrs r b c s).2.diags := by
  unfold onExprAttrs
  cases b <;> first
    | exact lowerBinds_all _ _ _ hs
    | exact hs

theorem onLambdaArg_all {r : CRange} {b c : Node} {s : SemaSt} (hs : All s.diags) : All (onLambdaArg r b c s).2.diags := by
  unfold onLambdaArg
  simp only
  split
  · exact hs
  · split
    · exact emit_all hs (by fill)
    · exact hs

theorem dedupDiags_all (fs : List Node) (acc : List (Bytes × Node)) (s : SemaSt) (hs : All s.diags) : All (dedupDiags fs acc s).diags := by
  induction fs generalizing acc s with
  | nil => exact hs
  | cons f fs ih =>
    unfold dedupDiags
    repeat' split
    · exact ih _ _ hs
    · exact ih _ _ (emit_all hs (by fill))
    · exact ih _ _ hs

theorem foldl_all {σ α : Type} {D : σ → List Diagnostic} (l : List α) (f : σ → α → σ) (hf : ∀ s a, All (D s) → All (D (f s a)))
    (s : σ) (hs : All (D s)) : All (D (l.foldl f s)) := by
  induction l generalizing s with
  | nil => exact hs
  | cons a l ih => exact ih _ (hf _ _ hs)

theorem ellipsisDiag_filled (src : Bytes) (fv : List Node) (last : Node) (i : Nat) (f : Node) : Filled (ellipsisDiag src fv last i f) := by
  unfold ellipsisDiag
  split <;> fill

theorem onFormals_all (src : Bytes) (r : CRange) (fv : List Node) (s : SemaSt) (hs : All s.diags) : All (onFormals src r fv s).2.diags := by
  unfold onFormals
  refine dedupDiags_all _ _ _ ?_
  refine foldl_all (D := SemaSt.diags) _ _ (fun s f h => ?_) _ ?_
  · split
    · exact emit_all h (by fill)
    · exact h
  unfold checkFormalEllipsis
  have h1 : All (checkFormalSep fv s).diags := by
    refine foldl_all (D := SemaSt.diags) _ _ (fun s f h => ?_) _ hs
    split
    · exact emit_all h (by fill)
    · exact h
  split
  · exact h1
  · refine foldl_all (D := SemaSt.diags) _ _ (fun s f h => ?_) _ h1
    split
    · exact emit_all h (ellipsisDiag_filled ..)
    · exact h

theorem onExprAttrs_kp {r : CRange} {b c : Node} : Kp (sema fun _ => onExprAttrs r b c) := sema_kp fun _ _ h => onExprAttrs_all h
theorem onLambdaArg_kp {r : CRange} {b c : Node} : Kp (sema fun _ => onLambdaArg r b c) := sema_kp fun _ _ h => onLambdaArg_all h
theorem onFormals_kp {r : CRange} {b : List Node} : Kp (sema fun src => onFormals src r b) := sema_kp fun _ _ h => onFormals_all _ _ _ _ h

/-! ### The functions of the parser -/

/-- The recursive calls. -/
structure Kp2 (R : Rec) : Prop where
  expr : Kp R.expr
  select : Kp R.select

theorem Kp.expr {R : Rec} (h : Kp2 R) : Kp R.expr := h.expr
theorem Kp.select {R : Rec} (h : Kp2 R) : Kp R.select := h.select

/-- Proves `Kp` by going through the statements. -/
macro "keeps" : tactic => `(tactic|
  (with_reducible repeat' first
    | exact Kp.pure | exact peek_kp | exact pconsume_kp | exact lastR_kp | exact emitD_kp (by with_unfolding_all fill) | exact noteLast_kp (by with_unfolding_all fill) | exact fixLast_kp
    | exact fresh_kp | exact mkMisc_kp | exact needExpr_kp | exact expect_kp | exact expectOr_kp | exact expectMay_kp
    | exact lCurP_kp | exact assertFail_kp | exact assertLast_kp | exact removeUnexpected_kp | exact diagNullExpr_kp | exact Kp.get
    | exact onExprAttrs_kp | exact onLambdaArg_kp | exact onFormals_kp | exact Kp.fail
    | assumption
    | exact Kp.expr (by assumption) | exact Kp.select (by assumption)
    | refine Kp.sync ?_ | refine Kp.state ?_ | refine Kp.when ?_
    | refine Kp.bind ?_ fun _ => ?_
    | split
    | apply_assumption))

section
variable {R : Rec} (hR : Kp2 R) (k : Nat)
include hR

theorem parseInterpolation_kp : Kp (parseInterpolation R k) := by unfold parseInterpolation; keeps

theorem pathLoop_kp (j : Nat) : Kp (pathLoop R k j) := by
  induction j with
  | zero => exact .fail
  | succ j ih =>
    have := parseInterpolation_kp hR k
    unfold pathLoop; keeps

omit hR in
theorem mkParts_kp {r : CRange} {fs : List Node} : Kp (mkParts r fs) := by unfold mkParts; keeps

theorem parseExprPath_kp : Kp (parseExprPath R k) := by
  have := pathLoop_kp hR k k
  unfold parseExprPath mkParts; keeps

theorem partsLoop_kp (j : Nat) : Kp (partsLoop R k j) := by
  induction j with
  | zero => exact .fail
  | succ j ih =>
    have := parseInterpolation_kp hR k
    unfold partsLoop; keeps

theorem parseStringParts_kp : Kp (parseStringParts R k) := by
  have := partsLoop_kp hR k k
  unfold parseStringParts mkParts; keeps

theorem parseString_kp (b : Bool) : Kp (parseString R k b) := by
  have := parseStringParts_kp hR k
  unfold parseString noteMatch; keeps

theorem parseAttrName_kp : Kp (parseAttrName R k) := by
  have := parseInterpolation_kp hR k
  have := parseString_kp hR k false
  unfold parseAttrName; keeps

theorem attrPathLoop_kp (j p : Nat) : Kp (attrPathLoop R k j p) := by
  induction j generalizing p with
  | zero => exact .fail
  | succ j ih =>
    have := parseAttrName_kp hR k
    unfold attrPathLoop; keeps

theorem parseAttrPath_kp : Kp (parseAttrPath R k) := by
  have := parseAttrName_kp hR k
  have := attrPathLoop_kp hR k k
  unfold parseAttrPath; keeps

omit hR in
theorem bindingSemi_kp : Kp bindingSemi := by unfold bindingSemi; keeps

theorem parseBinding_kp : Kp (parseBinding R k) := by
  have := parseAttrPath_kp hR k
  have := bindingSemi_kp
  unfold parseBinding; keeps

theorem inheritNames_kp (j : Nat) : Kp (inheritNames R k j) := by
  induction j with
  | zero => exact .fail
  | succ j ih =>
    have := parseAttrName_kp hR k
    unfold inheritNames; keeps

theorem inheritExpr_kp : Kp (inheritExpr R k) := by unfold inheritExpr; keeps

theorem parseInherit_kp : Kp (parseInherit R k) := by
  have := inheritExpr_kp hR k
  have := inheritNames_kp hR k k
  unfold parseInherit; keeps

theorem bindsLoop_kp (j : Nat) : Kp (bindsLoop R k j) := by
  induction j with
  | zero => exact .fail
  | succ j ih =>
    have := parseBinding_kp hR k
    have := parseInherit_kp hR k
    unfold bindsLoop; keeps

theorem parseBinds_kp : Kp (parseBinds R k) := by
  have := bindsLoop_kp hR k k
  unfold parseBinds; keeps

omit hR in
theorem recTok_kp : Kp recTok := by unfold recTok; keeps
omit hR in
theorem attrsOpen_kp (b : Token) : Kp (attrsOpen k b) := by unfold attrsOpen; keeps

theorem parseExprAttrs_kp : Kp (parseExprAttrs R k) := by
  have := parseBinds_kp hR k
  have := recTok_kp
  have := attrsOpen_kp k
  unfold parseExprAttrs; keeps

theorem parseExprParen_kp : Kp (parseExprParen R k) := by unfold parseExprParen noteMatch; keeps

theorem listLoop_kp (j : Nat) : Kp (listLoop R j) := by
  induction j with
  | zero => exact .fail
  | succ j ih => unfold listLoop; keeps

theorem parseExprList_kp : Kp (parseExprList R k) := by
  have := listLoop_kp hR k
  unfold parseExprList; keeps

theorem parseExprSimple_kp : Kp (parseExprSimple R k) := by
  have := parseString_kp hR k
  have := parseExprPath_kp hR k
  have := parseExprParen_kp hR k
  have := parseExprAttrs_kp hR k
  have := parseExprList_kp hR k
  unfold parseExprSimple mkParts; keeps

theorem parseExprSelect_kp : Kp (parseExprSelect R k) := by
  have := parseExprSimple_kp hR k
  have := parseAttrPath_kp hR k
  unfold parseExprSelect; keeps

theorem appLoop_kp (j : Nat) : Kp (appLoop R k j) := by
  induction j with
  | zero => exact .fail
  | succ j ih =>
    have := parseExprSelect_kp hR k
    unfold appLoop; keeps

theorem parseExprApp_kp : Kp (parseExprApp R k) := by
  have := parseExprSelect_kp hR k
  have := appLoop_kp hR k k
  unfold parseExprApp; keeps

theorem op_kp (j : Nat) : (∀ p, Kp (parseExprOpBP R k j p)) ∧ ∀ p l, Kp (opLoop R k j p l) := by
  have h1 := parseExprApp_kp hR k
  have h2 := parseAttrPath_kp hR k
  induction j with
  | zero => exact ⟨fun p => .fail, fun p l => .fail⟩
  | succ j ih =>
    obtain ⟨ih1, ih2⟩ := ih
    refine ⟨fun p => ?_, fun p l => ?_⟩
    · unfold parseExprOpBP; keeps
    · unfold opLoop; keeps

omit hR in
theorem formalCommaTok_kp : Kp formalCommaTok := by unfold formalCommaTok; keeps

theorem parseFormal_kp : Kp (parseFormal R) := by
  have := formalCommaTok_kp
  unfold parseFormal; keeps

theorem formalsLoop_kp (j : Nat) : Kp (formalsLoop R k j) := by
  induction j with
  | zero => exact .fail
  | succ j ih =>
    have := parseFormal_kp hR
    unfold formalsLoop; keeps

theorem parseFormals_kp : Kp (parseFormals R k) := by
  have := formalsLoop_kp hR k k
  unfold parseFormals; keeps

theorem parseLambdaArg_kp : Kp (parseLambdaArg R k) := by
  have := parseFormals_kp hR k
  unfold parseLambdaArg noteMatch; keeps

theorem parseExprLambda_kp : Kp (parseExprLambda R k) := by
  have := parseLambdaArg_kp hR k
  unfold parseExprLambda; keeps

theorem parseElse_kp (t : Token) (c e : Node) : Kp (parseElse R k t c e) := by unfold parseElse mkIf noteMatch; keeps

theorem parseThen_kp (t : Token) (c : Node) : Kp (parseThen R k t c) := by
  have := fun c' => parseElse_kp hR k t c c'
  unfold parseThen mkIf noteMatch; keeps

theorem parseExprIf_kp : Kp (parseExprIf R k) := by
  have := fun t c => parseThen_kp hR k t c
  unfold parseExprIf mkIf; keeps

theorem parseAssertValue_kp (t : Token) (c : Node) : Kp (parseAssertValue R k t c) := by
  unfold parseAssertValue mkAssert noteMatch; keeps

theorem parseExprAssert_kp : Kp (parseExprAssert R k) := by
  have := fun t c => parseAssertValue_kp hR k t c
  unfold parseExprAssert mkAssert; keeps

theorem parseExprLet_kp : Kp (parseExprLet R k) := by
  have := parseBinds_kp hR k
  unfold parseExprLet letAttrs; keeps

theorem parseExprWith_kp : Kp (parseExprWith R k) := by unfold parseExprWith noteMatch; keeps

omit hR in
theorem legacyClose_kp (t : Token) (c : Cursor) : Kp (legacyClose k t c) := by unfold legacyClose noteMatch; keeps

theorem parseExprLegacyLet_kp : Kp (parseExprLegacyLet R k) := by
  have := parseBinds_kp hR k
  have := legacyClose_kp k
  unfold parseExprLegacyLet; keeps

omit hR in
theorem lookAhead_kp : Kp lookAhead := by
  have : ∀ n, Kp (peekKind n) := fun n => peekKind_kp
  unfold lookAhead; keeps

theorem parseExpr_kp : Kp (parseExpr R k) := by
  have := lookAhead_kp
  have := parseExprLambda_kp hR k
  have := parseExprAttrs_kp hR k
  have := parseExprIf_kp hR k
  have := parseExprAssert_kp hR k
  have := parseExprLet_kp hR k
  have := parseExprLegacyLet_kp hR k
  have := parseExprWith_kp hR k
  have := (op_kp hR k k).1
  unfold parseExpr; keeps

end

theorem recN_kp (n : Nat) : Kp2 (recN n) := by
  induction n with
  | zero => exact ⟨.fail, .fail⟩
  | succ n ih => exact ⟨parseExpr_kp ih n, parseExprSelect_kp ih n⟩



theorem parse_all {src : Bytes} {n : Node} {s : PState} (h : parse src = some (n, s)) : All s.lex.diags := by
  have : Kp (parseTop (src.length + 3)) :=
    .bind (recN_kp _).expr fun _ => .bind peek_kp fun _ => .bind (.when (emitD_kp (by fill))) fun _ => .pure
  exact this _ _ _ h .nil

/-! ### Variable lookup -/

theorem vemit_all {s : VL} {d : Diagnostic} (hs : All s.diags) (hd : Filled d) : All (s.emit d).diags := hs.snoc hd

theorem addDef_all {P : PrimOps} {n : Bytes} {e : Node} {src : DefSource} {b : Bool} {m : List (Bytes × Nat)} {s : VL} (hs : All s.diags) :
    All (addDef P n e src b m s).2.diags := by
  unfold addDef
  simp only [VL.alloc]
  have h1 : All (if lookupPrimOp P n = .found ∧ b = false then
      s.emit { kind := .primOpOverridden, range := e.range, args := [n] } else s).diags := by
    split
    · exact vemit_all hs (by fill)
    · exact hs
  generalize (if lookupPrimOp P n = .found ∧ b = false then
      s.emit { kind := .primOpOverridden, range := e.range, args := [n] } else s) = s1 at h1
  split
  · exact vemit_all h1 (by fill)
  · exact h1

theorem livenessOne_all {sc : Scope} {s : VL} {p : Bytes × Nat} (hs : All s.diags) : All (livenessOne sc s p).diags := by
  unfold livenessOne
  simp only
  split
  · exact hs
  · split
    · exact hs
    · split
      · split
        · exact hs
        · rename_i k hk
          refine vemit_all hs ⟨?_, nofun⟩
          unfold unusedKind at hk
          split at hk <;> cases hk <;> rfl
      · exact hs

theorem liveness_all {sc : Scope} {s : VL} (hs : All s.diags) : All (emitEnvLivenessWarning sc s).diags :=
  foldl_all (D := VL.diags) _ _ (fun _ _ h => livenessOne_all h) _ hs

theorem lookupVar_all {P : PrimOps} {v : Node} {env : Env} {s : VL} (hs : All s.diags) : All (lookupVar P v env s).diags := by
  unfold lookupVar
  simp only
  split
  · exact hs
  · split
    · exact foldl_all (D := VL.diags) _ (fun s d => s.usedBy d v) (fun _ _ h => h) _ hs
    · split
      · exact hs
      · exact vemit_all hs (by fill)
      · exact vemit_all hs (by fill)

/-- The recursive calls. -/
def Kd (rec : Dfs) : Prop := ∀ n env s, All s.diags → All (rec n env s).diags

theorem lambdaDefs_all {P : PrimOps} {i f : Node} {s : VL} (hs : All s.diags) : All (lambdaDefs P i f s).2.diags := by
  unfold lambdaDefs
  simp only
  have h1 : All (if i.isNull then ([], s)
    else if f.isNull then addDef P i.name i .lambdaArg false [] s
    else if (dedup (formalMembers f)).any (fun p => p.1 == i.name) then ([], s)
    else addDef P i.name i .lambdaWithArgArg false [] s : List (Bytes × Nat) × VL).2.diags := by
    repeat' split
    all_goals first | exact hs | exact addDef_all hs
  generalize (if i.isNull then ([], s)
    else if f.isNull then addDef P i.name i .lambdaArg false [] s
    else if (dedup (formalMembers f)).any (fun p => p.1 == i.name) then ([], s)
    else addDef P i.name i .lambdaWithArgArg false [] s : List (Bytes × Nat) × VL) = ms at h1
  split
  · exact h1
  · exact foldl_all (D := fun x : List (Bytes × Nat) × VL => x.2.diags) _ _ (fun _ _ h => addDef_all h) _ h1

theorem dfsLambda_all {P : PrimOps} {rec : Dfs} (hr : Kd rec) {n arg body : Node} {env : Env} {s : VL} (hs : All s.diags) :
    All (dfsLambda P rec n arg body env s).diags := by
  unfold dfsLambda
  split
  · exact hs
  · split
    · refine liveness_all (hr _ _ _ (foldl_all (D := VL.diags) _ _ (fun s m h => ?_) _ (lambdaDefs_all hs)))
      split
      · exact h
      · exact hr _ _ _ h
    · exact hs

theorem dfsDynamicAttrs_all {rec : Dfs} (hr : Kd rec) {as : List Node} {env : Env} {s : VL} (hs : All s.diags) :
    All (dfsDynamicAttrs rec as env s).diags := by
  refine foldl_all (D := VL.diags) _ _ (fun s a h => ?_) _ hs
  split
  · exact h
  · exact hr _ _ _ (hr _ _ _ h)

theorem dfsAttrs_all {P : PrimOps} {rec : Dfs} (hr : Kd rec) {r : Node} {st dy : List Node} {env : Env} {syn : Node} {src : DefSource}
    {s : VL} (hs : All s.diags) : All (dfsAttrs P rec r st dy env syn src s).1.diags := by
  unfold dfsAttrs
  split
  · refine dfsDynamicAttrs_all hr (foldl_all (D := VL.diags) _ _ (fun s a h => ?_) _ hs)
    split
    · exact h
    · exact hr _ _ _ h
  · have h1 : All (attrsDefs P st src s).2.diags :=
      foldl_all (D := fun x : List (Bytes × Nat) × VL => x.2.diags) _ _ (fun _ _ h => addDef_all h) _ hs
    refine dfsDynamicAttrs_all hr (foldl_all (D := VL.diags) _ _ (fun s a h => ?_) _ h1)
    repeat' split
    · exact h
    · exact hr _ _ _ h
    · exact hr _ _ _ h

theorem dfsExprAttrs_all {P : PrimOps} {rec : Dfs} (hr : Kd rec) {n r : Node} {st dy : List Node} {env : Env} {s : VL} (hs : All s.diags) :
    All (dfsExprAttrs P rec n r st dy env s).diags := by
  have h1 := dfsAttrs_all (P := P) hr (r := r) (st := st) (dy := dy) (env := env) (syn := n) (src := .rec_) hs
  unfold dfsExprAttrs
  split
  · rename_i h; rw [h] at h1; exact h1
  · rename_i h; rw [h] at h1
    split
    · exact h1
    · exact vemit_all h1 (by fill)

theorem dfsLet_all {P : PrimOps} {rec : Dfs} (hr : Kd rec) {n e attrs : Node} {env : Env} {s : VL} (hs : All s.diags) :
    All (dfsLet P rec n e attrs env s).diags := by
  unfold dfsLet
  split
  · rename_i r st dy
    simp only
    have h0 : All (checkLetInheritBuiltins P st { s with bad := s.bad || r.isNull }).diags := by
      refine foldl_all (D := VL.diags) _ _ (fun s a h => ?_) _ hs
      split
      · exact vemit_all h (by fill)
      · exact h
    have h1 := dfsAttrs_all (P := P) hr (r := r) (st := st) (dy := dy) (env := env) (syn := n) (src := .let_) h0
    generalize dfsAttrs P rec r st dy env n .let_ (checkLetInheritBuiltins P st { s with bad := s.bad || r.isNull }) = x at h1
    split
    · refine liveness_all ?_
      split
      · exact h1
      · exact hr _ _ _ h1
    · split
      · exact h1
      · exact hr _ _ _ h1
  · simp only
    split
    · exact hs
    · exact hr _ _ _ hs

/-- The definition of a `with`, as in `dfsWith`. -/
def withEntry (n kw : Node) (s : VL) : VL :=
  if s.withDefs.any (fun p => p.1 == n.id) then s
  else
    let d := s.store.length
    { s.alloc ⟨kw, .with_, []⟩ with toDef := ptrAssign kw.id d s.toDef, withDefs := s.withDefs ++ [(n.id, d)] }

theorem dfsWith_eq (rec : Dfs) (n kw semi w e : Node) (env : Env) (s : VL) :
    dfsWith rec n kw semi w e env s =
      let s := withEntry n kw s
      let s := if w.isNull then s else rec w env s
      let s := if e.isNull then s else rec e (⟨[], n⟩ :: env) s
      if (s.get ((ptrFind n.id s.withDefs).getD 0)).uses.isEmpty then
        s.emit { kind := .extraWith, range := kw.range,
                 fixes := [{ message := b!"remove `with` expression",
                             edits := [⟨kw.range, []⟩] ++ (if semi.isNull then [] else [⟨semi.range, []⟩]) ++
                               (if w.isNull then [] else [⟨w.range, []⟩]) }] }
      else s := rfl

theorem dfsWith_all {rec : Dfs} (hr : Kd rec) {n kw semi w e : Node} {env : Env} {s : VL} (hs : All s.diags) :
    All (dfsWith rec n kw semi w e env s).diags := by
  rw [dfsWith_eq]
  simp only
  have h : ∀ {m : Node} {env : Env} {t : VL}, All t.diags → All (if m.isNull then t else rec m env t).diags := by
    intro m env t ht
    split
    · exact ht
    · exact hr _ _ _ ht
  have h2 : ∀ t : VL, t.diags = s.diags → All t.diags := fun t e => e ▸ hs
  have h2 : All (withEntry n kw s).diags := h2 _ (by unfold withEntry; split <;> rfl)
  generalize withEntry n kw s = t at h2
  have h3 := h (m := w) (env := env) h2
  generalize (if w.isNull then t else rec w env t) = t' at h3
  have h4 := h (m := e) (env := ⟨[], n⟩ :: env) h3
  generalize (if e.isNull then t' else rec e (⟨[], n⟩ :: env) t') = t'' at h4
  split
  · exact vemit_all h4 (by fill)
  · exact h4

theorem checkBuiltins_all {P : PrimOps} {n : Node} {s : VL} (hs : All s.diags) : All (checkBuiltins P n s).diags := by
  unfold checkBuiltins
  repeat' split
  all_goals first
    | exact hs
    | exact vemit_all hs (by fill)

theorem trivial_all {rec : Dfs} (hr : Kd rec) {n : Node} {env : Env} {s : VL} (hs : All s.diags) : All (trivialDispatch rec n env s).diags :=
  foldl_all (D := VL.diags) _ _ (fun _ _ h => hr _ _ _ h) _ hs

theorem dfs_all (P : PrimOps) (k : Nat) : Kd (dfs P k) := by
  induction k with
  | zero => exact fun _ _ _ h => h
  | succ k ih =>
    intro n env s hs
    have h : All ({ s with envs := ptrInsert n.id env s.envs } : VL).diags := hs
    unfold dfs
    simp only
    repeat' split
    all_goals first
      | exact lookupVar_all h
      | exact dfsLambda_all ih h
      | exact dfsExprAttrs_all ih h
      | exact dfsLet_all ih h
      | exact dfsWith_all ih h
      | exact checkBuiltins_all (trivial_all ih h)
      | exact trivial_all ih h
      | exact h

theorem runVL_all (P : PrimOps) (fuel : Nat) (root : Node) : All (runVL P fuel root).diags := by
  unfold runVL
  refine dfs_all P fuel _ _ _ ?_
  refine foldl_all (D := fun x : List (Bytes × Nat) × VL => x.2.diags) _ _ ?_ _ All.nil
  exact fun _ _ h => h

end Verif.Nixf.Filling
