import Verif.Model.Ast
import Verif.Spec.Lexical
/-
Specification of syntax trees: which ranges the nodes may have. Written against `Node.children`, the tree as all
consumers see it, and `subs`, all nodes reachable in any way (also through the semantic information of attribute sets).
-/
namespace Verif.Nixf.Tree
open Lexical Node

/-- All nodes a node refers to. -/
def subs : Node → List Node
  | .null | .text _ | .misc _ | .dot .. | .identifier .. | .op .. | .exprInt .. | .exprFloat .. | .exprSPath .. => []
  | .attr _ k v _ => [k, v]
  | .interpolation _ e => [e]
  | .parts _ fs => fs
  | .attrNameID _ i => [i]
  | .attrNameString _ s => [s]
  | .attrNameInterp _ i => [i]
  | .attrPath _ ns ds => ns ++ ds
  | .binding _ p eq v => [p, eq, v]
  | .inherit _ ns e => ns ++ [e]
  | .binds _ bs => bs
  | .formal _ c i d e => [c, i, d, e]
  | .formals _ ms => ms
  | .lambdaArg _ i f => [i, f]
  | .exprVar _ i => [i]
  | .exprString _ p => [p]
  | .exprPath _ p => [p]
  | .exprParen _ e l r => [e, l, r]
  | .exprAttrs _ b r st dy => [b, r] ++ (st ++ dy)
  | .exprSelect _ e o p d _ => [e, o, p, d]
  | .exprCall _ f as => f :: as
  | .exprList _ es => es
  | .exprLambda _ a b => [a, b]
  | .exprBinOp _ o l r => [o, l, r]
  | .exprUnaryOp _ o e => [o, e]
  | .exprOpHasAttr _ o e p => [o, e, p]
  | .exprIf _ c t e => [c, t, e]
  | .exprAssert _ c v => [c, v]
  | .exprLet _ k i e a => [k, a, i, e]
  | .exprLegacyLet _ k a => [k, a]
  | .exprWith _ k s w e => [k, s, w, e]

/-- `P` holds of a node and of everything reached from it through `f`. -/
inductive All (f : Node → List Node) (P : Node → Prop) : Node → Prop
  | mk (n : Node) (h : P n) (hs : ∀ m ∈ f n, All f P m) : All f P n

/-- The cursors of the range are correct positions of the source, in this order, and an identifier is the text of its
range. -/
def Ok (src : Bytes) (n : Node) : Prop :=
  (∀ h, n.hd? = some h → At src h.range.l ∧ At src h.range.r ∧ h.range.l.offset ≤ h.range.r.offset) ∧
  ∀ h name, n = .identifier h name → name = slice src h.range

/-- The range of `c` lies inside the range of `n`. -/
def Inside (c n : Node) : Prop := n.lCur.offset ≤ c.lCur.offset ∧ c.rCur.offset ≤ n.rCur.offset

/-- One range ends before the other one starts. -/
def Apart (a b : Node) : Prop := a.rCur.offset ≤ b.lCur.offset ∨ b.rCur.offset ≤ a.lCur.offset

/-- The `rec` token of a set lies inside the set. -/
def RecIn (n : Node) : Prop := ∀ h b r st dy, n = .exprAttrs h b r st dy → r.isNode → Inside r n

/-- `c` is the keyword `let` in front of `n`, the set of bindings of a `let ... in`. -/
def LetRec (n c : Node) : Prop := ∃ h b st dy, n = .exprAttrs h b c st dy ∧ c.rCur.offset ≤ n.lCur.offset

def isLegacyLet : Node → Bool
  | .exprLegacyLet .. => true
  | _ => false

/-- The children of a node lie inside it, without overlap. There are two exceptions: the set of bindings of a
`let ... in` has the keyword `let`, which is in front of it, as its `rec` token; and the set of a `let { ... }` starts at
the keyword, which is another child. -/
def Nest (n : Node) : Prop :=
  (∀ c ∈ n.children, Inside c n ∨ LetRec n c) ∧
  (isLegacyLet n = false → n.children.Pairwise Apart) ∧
  ∀ c ∈ n.children, RecIn c ∨ ∃ h k i e, n = .exprLet h k i e c

end Verif.Nixf.Tree
