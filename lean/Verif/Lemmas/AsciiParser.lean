import Verif.Lemmas.Ascii
/-
The functions of the parser keep all strings ASCII.
-/
namespace Verif.Nixf.Ascii
open Syntax

/-! ### The functions of the parser -/

/-- The recursive calls. -/
structure Va2 (R : Rec) : Prop where
  expr : Va R.expr
  select : Va R.select

theorem Va.expr {R : Rec} (h : Va2 R) : Va R.expr := h.expr
theorem Va.select {R : Rec} (h : Va2 R) : Va R.select := h.select

/-- Proves `Va` by going through the statements. -/
macro "vals" : tactic => `(tactic|
  with_reducible repeat' first
    | exact Va.pure (by with_unfolding_all asc) | exact peek_va | exact pconsume_va | exact lastR_va
    | exact emitD_va (by with_unfolding_all ld) | exact noteLast_va (by with_unfolding_all ld) | exact fixLast_va (by with_unfolding_all ld)
    | exact fresh_va | exact mkMisc_va | exact needExpr_va (by with_unfolding_all low) | exact expect_va
    | exact expectOr_va (by with_unfolding_all low) | exact expectMay_va
    | exact lCurP_va | exact assertFail_va | exact assertLast_va | exact removeUnexpected_va
    | exact diagNullExpr_va (by with_unfolding_all low) | exact getSync_va | exact getSrc_va | exact getLast_va
    | exact onExprAttrs_va (by with_unfolding_all asc) (by with_unfolding_all asc)
    | exact onLambdaArg_va (by with_unfolding_all asc) (by with_unfolding_all asc)
    | exact onFormals_va (by with_unfolding_all asc) | exact Va.fail
    | assumption
    | exact Va.expr (by assumption) | exact Va.select (by assumption)
    | refine Va.sync ?_ | refine Va.state ?_ | refine Va.when ?_
    | refine Va.bind ?_ fun _ _ => ?_
    | split
    | (apply_assumption <;> with_unfolding_all asc))

section
variable {R : Rec} (hR : Va2 R) (k : Nat)
include hR

theorem parseInterpolation_va : Va (parseInterpolation R k) := by unfold parseInterpolation; vals

theorem pathLoop_va (j : Nat) : Va (pathLoop R k j) := by
  induction j with
  | zero => exact .fail
  | succ j ih =>
    have := parseInterpolation_va hR k
    unfold pathLoop; vals

omit hR in
theorem mkParts_va {r : CRange} {fs : List Node} (h : NAs fs) : Va (mkParts r fs) :=
  .bind fresh_va fun _ _ => .pure (na_merge h)

theorem parseExprPath_va : Va (parseExprPath R k) := by
  have := pathLoop_va hR k k
  unfold parseExprPath mkParts; vals

theorem partsLoop_va (j : Nat) : Va (partsLoop R k j) := by
  induction j with
  | zero => exact .fail
  | succ j ih =>
    have := parseInterpolation_va hR k
    unfold partsLoop; vals

theorem parseStringParts_va : Va (parseStringParts R k) := by
  have := partsLoop_va hR k k
  unfold parseStringParts mkParts; vals

theorem parseString_va (b : Bool) : Va (parseString R k b) := by
  have := parseStringParts_va hR k
  unfold parseString noteMatch; vals

theorem parseAttrName_va : Va (parseAttrName R k) := by
  have := parseInterpolation_va hR k
  have := parseString_va hR k false
  unfold parseAttrName; vals

theorem attrPathLoop_va (j p : Nat) : Va (attrPathLoop R k j p) := by
  induction j generalizing p with
  | zero => exact .fail
  | succ j ih =>
    have := parseAttrName_va hR k
    unfold attrPathLoop; vals

theorem parseAttrPath_va : Va (parseAttrPath R k) := by
  have := parseAttrName_va hR k
  have := attrPathLoop_va hR k k
  unfold parseAttrPath; vals

omit hR in
theorem bindingSemi_va : Va bindingSemi := by unfold bindingSemi; vals

theorem parseBinding_va : Va (parseBinding R k) := by
  have := parseAttrPath_va hR k
  have := bindingSemi_va
  unfold parseBinding; vals

theorem inheritNames_va (j : Nat) : Va (inheritNames R k j) := by
  induction j with
  | zero => exact .fail
  | succ j ih =>
    have := parseAttrName_va hR k
    unfold inheritNames; vals

theorem inheritExpr_va : Va (inheritExpr R k) := by unfold inheritExpr; vals

theorem parseInherit_va : Va (parseInherit R k) := by
  have := inheritExpr_va hR k
  have := inheritNames_va hR k k
  unfold parseInherit; vals

theorem bindsLoop_va (j : Nat) : Va (bindsLoop R k j) := by
  induction j with
  | zero => exact .fail
  | succ j ih =>
    have := parseBinding_va hR k
    have := parseInherit_va hR k
    unfold bindsLoop; vals

theorem parseBinds_va : Va (parseBinds R k) := by
  have := bindsLoop_va hR k k
  unfold parseBinds; vals

omit hR in
theorem recTok_va : Va recTok := by unfold recTok; vals
omit hR in
theorem attrsOpen_va (b : Token) (h : Low b.view) : Va (attrsOpen k b) := by unfold attrsOpen; vals

theorem parseExprAttrs_va : Va (parseExprAttrs R k) := by
  have := parseBinds_va hR k
  have := recTok_va
  have := attrsOpen_va k
  unfold parseExprAttrs; vals

theorem parseExprParen_va : Va (parseExprParen R k) := by unfold parseExprParen noteMatch; vals

theorem listLoop_va (j : Nat) : Va (listLoop R j) := by
  induction j with
  | zero => exact .fail
  | succ j ih => unfold listLoop; vals

theorem parseExprList_va : Va (parseExprList R k) := by
  have := listLoop_va hR k
  unfold parseExprList; vals

theorem parseExprSimple_va : Va (parseExprSimple R k) := by
  have := parseString_va hR k
  have := parseExprPath_va hR k
  have := parseExprParen_va hR k
  have := parseExprAttrs_va hR k
  have := parseExprList_va hR k
  unfold parseExprSimple mkParts; vals

theorem parseExprSelect_va : Va (parseExprSelect R k) := by
  have := parseExprSimple_va hR k
  have := parseAttrPath_va hR k
  unfold parseExprSelect; vals

theorem appLoop_va (j : Nat) : Va (appLoop R k j) := by
  induction j with
  | zero => exact .fail
  | succ j ih =>
    have := parseExprSelect_va hR k
    unfold appLoop; vals

theorem parseExprApp_va : Va (parseExprApp R k) := by
  have := parseExprSelect_va hR k
  have := appLoop_va hR k k
  unfold parseExprApp; vals

theorem op_va (j : Nat) : (∀ p, Va (parseExprOpBP R k j p)) ∧ ∀ p l, NA l → Va (opLoop R k j p l) := by
  have h1 := parseExprApp_va hR k
  have h2 := parseAttrPath_va hR k
  induction j with
  | zero => exact ⟨fun p => .fail, fun p l _ => .fail⟩
  | succ j ih =>
    obtain ⟨ih1, ih2⟩ := ih
    refine ⟨fun p => ?_, fun p l hl => ?_⟩
    · unfold parseExprOpBP; vals
    · unfold opLoop; vals

omit hR in
theorem formalCommaTok_va : Va formalCommaTok := by unfold formalCommaTok; vals

theorem parseFormal_va : Va (parseFormal R) := by
  have := formalCommaTok_va
  unfold parseFormal; vals

theorem formalsLoop_va (j : Nat) : Va (formalsLoop R k j) := by
  induction j with
  | zero => exact .fail
  | succ j ih =>
    have := parseFormal_va hR
    unfold formalsLoop; vals

theorem parseFormals_va : Va (parseFormals R k) := by
  have := formalsLoop_va hR k k
  unfold parseFormals; vals

theorem parseLambdaArg_va : Va (parseLambdaArg R k) := by
  have := parseFormals_va hR k
  unfold parseLambdaArg noteMatch; vals

theorem parseExprLambda_va : Va (parseExprLambda R k) := by
  have := parseLambdaArg_va hR k
  unfold parseExprLambda; vals

theorem parseElse_va (t : Token) (c e : Node) (hc : NA c) (he : NA e) : Va (parseElse R k t c e) := by unfold parseElse mkIf noteMatch; vals

theorem parseThen_va (t : Token) (c : Node) (hc : NA c) : Va (parseThen R k t c) := by
  have := fun c' => parseElse_va hR k t c c' hc
  unfold parseThen mkIf noteMatch; vals

theorem parseExprIf_va : Va (parseExprIf R k) := by
  have := fun t c => parseThen_va hR k t c
  unfold parseExprIf mkIf; vals

theorem parseAssertValue_va (t : Token) (c : Node) (hc : NA c) : Va (parseAssertValue R k t c) := by
  unfold parseAssertValue mkAssert noteMatch; vals

theorem parseExprAssert_va : Va (parseExprAssert R k) := by
  have := fun t c => parseAssertValue_va hR k t c
  unfold parseExprAssert mkAssert; vals

theorem parseExprLet_va : Va (parseExprLet R k) := by
  have := parseBinds_va hR k
  unfold parseExprLet letAttrs; vals

theorem parseExprWith_va : Va (parseExprWith R k) := by unfold parseExprWith noteMatch; vals

omit hR in
theorem legacyClose_va (t : Token) (c : Cursor) : Va (legacyClose k t c) := by unfold legacyClose noteMatch; vals

theorem parseExprLegacyLet_va : Va (parseExprLegacyLet R k) := by
  have := parseBinds_va hR k
  have := legacyClose_va k
  unfold parseExprLegacyLet; vals

omit hR in
theorem lookAhead_va : Va lookAhead := by
  have : ∀ n, Va (peekKind n) := fun n => peekKind_va
  unfold lookAhead; vals

theorem parseExpr_va : Va (parseExpr R k) := by
  have := lookAhead_va
  have := parseExprLambda_va hR k
  have := parseExprAttrs_va hR k
  have := parseExprIf_va hR k
  have := parseExprAssert_va hR k
  have := parseExprLet_va hR k
  have := parseExprLegacyLet_va hR k
  have := parseExprWith_va hR k
  have := (op_va hR k k).1
  unfold parseExpr; vals

end

theorem recN_va (n : Nat) : Va2 (recN n) := by
  induction n with
  | zero => exact ⟨.fail, .fail⟩
  | succ n ih => exact ⟨parseExpr_va ih n, parseExprSelect_va ih n⟩



end Verif.Nixf.Ascii
