import Verif.Spec.Syntax
/-
Replacing a part of an expression by another one.
-/
namespace Verif.Nixf.Syntax

/-- The parts of an expression. -/
def kids : Syn → List Syn
  | .interp e | .paren e | .un _ e | .interpName e | .formalOr _ _ e => [e]
  | .str l | .path l | .list l | .set _ l | .legacyLet l | .strName l | .inherit l | .argSet l | .argBoth _ l => l
  | .select e l | .has e l | .call e l | .inheritFrom e l => e :: l
  | .selectOr e l d => e :: (l ++ [d])
  | .bin _ a b | .lambda a b | .assert a b | .with_ a b => [a, b]
  | .ite a b c => [a, b, c]
  | .let_ l e | .binding l e => l ++ [e]
  | .hole | .ch _ | .var _ | .int _ | .float _ | .spath _ | .name _ | .formal .. | .ellipsis _ | .comma | .argName _ => []

/-- A list of nothing. -/
def holes (l : List Syn) : List Syn := List.replicate l.length .hole

/-- An expression without its parts. -/
def shape : Syn → Syn
  | .interp _ => .interp .hole
  | .paren _ => .paren .hole
  | .un k _ => .un k .hole
  | .interpName _ => .interpName .hole
  | .formalOr c x _ => .formalOr c x .hole
  | .str l => .str (holes l)
  | .path l => .path (holes l)
  | .list l => .list (holes l)
  | .set r l => .set r (holes l)
  | .legacyLet l => .legacyLet (holes l)
  | .strName l => .strName (holes l)
  | .inherit l => .inherit (holes l)
  | .argSet l => .argSet (holes l)
  | .argBoth x l => .argBoth x (holes l)
  | .select _ l => .select .hole (holes l)
  | .has _ l => .has .hole (holes l)
  | .call _ l => .call .hole (holes l)
  | .inheritFrom _ l => .inheritFrom .hole (holes l)
  | .selectOr _ l _ => .selectOr .hole (holes l) .hole
  | .bin k _ _ => .bin k .hole .hole
  | .lambda _ _ => .lambda .hole .hole
  | .assert _ _ => .assert .hole .hole
  | .with_ _ _ => .with_ .hole .hole
  | .ite _ _ _ => .ite .hole .hole .hole
  | .let_ l _ => .let_ (holes l) .hole
  | .binding l _ => .binding (holes l) .hole
  | t => t

/-- `Swap t t' a a'`: `a'` is `a` with one occurrence of `t` replaced by `t'`, and nothing else. -/
inductive Swap (t t' : Syn) : Syn → Syn → Prop
  | here : Swap t t' t t'
  | inside {a a' c c' : Syn} {l r : List Syn} : shape a = shape a' → kids a = l ++ c :: r → kids a' = l ++ c' :: r → Swap t t' c c' →
      Swap t t' a a'

/-- The same in a list. -/
def SwapL (t t' : Syn) (l l' : List Syn) : Prop := ∃ a c c' b, l = a ++ c :: b ∧ l' = a ++ c' :: b ∧ Swap t t' c c'

/-- The nodes that a node is made of, as far as they are phrases of their own: not keywords and punctuation, and not the sets
that bindings of let expressions are kept in. -/
def inner : Node → List Node
  | .interpolation _ e => [e]
  | .exprString _ (.parts _ fs) => fs
  | .exprPath _ (.parts _ fs) => fs
  | .exprParen _ e _ _ => [e]
  | .exprList _ es => es
  | .exprAttrs _ (.binds _ bs) _ _ _ => bs
  | .exprSelect _ e _ (.attrPath _ ns _) d _ => e :: (ns ++ [d])
  | .exprSelect _ e _ .null d _ => [e, d]
  | .exprCall _ f as => f :: as
  | .exprUnaryOp _ _ e => [e]
  | .exprBinOp _ _ l r => [l, r]
  | .exprOpHasAttr _ _ e (.attrPath _ ns _) => e :: ns
  | .exprOpHasAttr _ _ e .null => [e]
  | .exprLambda _ a b => [a, b]
  | .exprIf _ c t e => [c, t, e]
  | .exprAssert _ c e => [c, e]
  | .exprLet _ _ _ e (.exprAttrs _ (.binds _ bs) _ _ _) => bs ++ [e]
  | .exprLet _ _ _ e .null => [e]
  | .exprLet _ _ _ e (.exprAttrs _ .null _ _ _) => [e]
  | .exprLegacyLet _ _ (.exprAttrs _ (.binds _ bs) _ _ _) => bs
  | .exprWith _ _ _ w e => [w, e]
  | .attrNameString _ (.exprString _ (.parts _ fs)) => fs
  | .attrNameInterp _ (.interpolation _ e) => [e]
  | .binding _ (.attrPath _ ns _) _ e => ns ++ [e]
  | .inherit _ ns e => ns ++ [e]
  | .formal _ _ (.identifier _ _) d _ => [d]
  | .formal _ _ .null d _ => [d]
  | .lambdaArg _ _ (.formals _ fs) => fs
  | _ => []

/-- `n` is a part of `m`, or a part of a part of it, and so on. -/
inductive Part : Node → Node → Prop
  | here {m : Node} : Part m m
  | down {m c n : Node} : c ∈ inner m → Part c n → Part m n

/-- Attribute names. -/
def isName : Node → Bool
  | .attrNameID .. | .attrNameString .. | .attrNameInterp .. => true
  | _ => false

/-- Bindings. -/
def isBind : Node → Bool
  | .binding .. | .inherit .. => true
  | _ => false

/-- Arguments of functions, with their formals. -/
def isArg : Node → Bool
  | .lambdaArg .. => true
  | _ => false

/-- Expressions, attribute names, bindings and arguments of functions. -/
def phrase (n : Node) : Bool := n.isExpr || isName n || isBind n || isArg n

end Verif.Nixf.Syntax
