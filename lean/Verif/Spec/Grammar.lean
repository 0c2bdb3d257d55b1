import Verif.Spec.Tree
/-
The types of the members of nodes, as the C++ classes declare them (Basic/Nodes/*.h), and which members may be null or
empty.
-/
namespace Verif.Nixf.Grammar

def IsIdent (n : Node) : Prop := ∃ h x, n = .identifier h x
def IsMisc (n : Node) : Prop := ∃ h, n = .misc h
def IsOp (n : Node) : Prop := ∃ h k, n = .op h k
def IsInterp (n : Node) : Prop := ∃ h e, n = .interpolation h e
def IsText (n : Node) : Prop := ∃ t, n = .text t
def IsParts (n : Node) : Prop := ∃ h fs, n = .parts h fs
def IsString (n : Node) : Prop := ∃ h p, n = .exprString h p
def IsPath (n : Node) : Prop := ∃ h ns ds, n = .attrPath h ns ds
def IsBinds (n : Node) : Prop := ∃ h bs, n = .binds h bs
def IsFormals (n : Node) : Prop := ∃ h ms, n = .formals h ms
def IsFormal (n : Node) : Prop := ∃ h c i d e, n = .formal h c i d e
def IsArg (n : Node) : Prop := ∃ h i f, n = .lambdaArg h i f
def IsSet (n : Node) : Prop := ∃ h b r st dy, n = .exprAttrs h b r st dy
def IsExpr (n : Node) : Prop := n.isExpr = true
/-- An attribute name. -/
def IsName : Node → Prop
  | .attrNameID .. | .attrNameString .. | .attrNameInterp .. => True
  | _ => False
/-- What a set consists of. -/
def IsBind : Node → Prop
  | .binding .. | .inherit .. => True
  | _ => False

/-- A pointer that may be null. -/
def Opt (P : Node → Prop) (n : Node) : Prop := n = .null ∨ P n

/-- The members of a node have the types of the classes. -/
def Fits : Node → Prop
  | .interpolation _ e => Opt IsExpr e
  | .parts _ fs => ∀ f ∈ fs, IsText f ∨ IsInterp f
  | .attrNameID _ i => IsIdent i
  | .attrNameString _ s => IsString s
  | .attrNameInterp _ i => IsInterp i
  | .attrPath _ ns ds => ns ≠ [] ∧ (∀ n ∈ ns, IsName n) ∧ ∀ d ∈ ds, ∃ h p q, d = .dot h p q ∧ ∃ n ∈ ns, n.id = p
  | .binding _ p eq v => IsPath p ∧ Opt IsMisc eq ∧ Opt IsExpr v
  | .inherit _ ns e => (∀ n ∈ ns, IsName n) ∧ Opt IsExpr e
  | .binds _ bs => bs ≠ [] ∧ ∀ b ∈ bs, IsBind b
  | .formal _ c i d e => Opt IsMisc c ∧ Opt IsIdent i ∧ Opt IsExpr d ∧ Opt IsMisc e
  | .formals _ ms => ∀ m ∈ ms, IsFormal m
  | .lambdaArg _ i f => Opt IsIdent i ∧ Opt IsFormals f
  | .exprVar _ i => IsIdent i
  | .exprString _ p => IsParts p
  | .exprPath _ p => IsParts p
  | .exprParen _ e l r => Opt IsExpr e ∧ IsMisc l ∧ Opt IsMisc r
  | .exprAttrs _ b r _ _ => Opt IsBinds b ∧ Opt IsMisc r
  | .exprSelect _ e _ p d _ => IsExpr e ∧ Opt IsPath p ∧ Opt IsExpr d
  | .exprCall _ f as => IsExpr f ∧ as ≠ [] ∧ ∀ a ∈ as, IsExpr a
  | .exprList _ es => ∀ e ∈ es, IsExpr e
  | .exprLambda _ a e => IsArg a ∧ Opt IsExpr e
  | .exprBinOp _ o l r => IsOp o ∧ IsExpr l ∧ IsExpr r
  | .exprUnaryOp _ o e => IsOp o ∧ Opt IsExpr e
  | .exprOpHasAttr _ o e p => IsOp o ∧ IsExpr e ∧ Opt IsPath p
  | .exprIf _ c t e => Opt IsExpr c ∧ Opt IsExpr t ∧ Opt IsExpr e
  | .exprAssert _ c v => Opt IsExpr c ∧ Opt IsExpr v
  | .exprLet _ k i e a => IsMisc k ∧ Opt IsMisc i ∧ Opt IsExpr e ∧ Opt IsSet a
  | .exprLegacyLet _ k a => IsMisc k ∧ IsSet a
  | .exprWith _ k s w e => IsMisc k ∧ Opt IsMisc s ∧ Opt IsExpr w ∧ Opt IsExpr e
  | _ => True

end Verif.Nixf.Grammar
