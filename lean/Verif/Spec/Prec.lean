import Verif.Model.Ast
/-
Specification of operator precedence: the table of the Nix manual (which is also the comment of ParseOp.cpp:18-32), and
when a tree groups operators according to it. A larger level binds tighter.
-/
namespace Verif.Nixf.Prec

inductive Assoc
  | left
  | right
  | non
deriving DecidableEq, Repr

/-- An operator between two operands, in front of one, or `?`, which is followed by an attribute path. -/
inductive Opr
  | bin (k : TK)
  | un (k : TK)
  | has
deriving DecidableEq, Repr

/-- The table. `none` if the token is no operator. -/
def table : Opr → Option (Nat × Assoc)
  | .bin .op_pipe_into => some (1, .left)
  | .bin .op_pipe_from => some (1, .right)
  | .bin .op_impl => some (2, .right)
  | .bin .op_or => some (3, .left)
  | .bin .op_and => some (4, .left)
  | .bin .op_eq | .bin .op_neq => some (5, .non)
  | .bin .op_lt | .bin .op_le | .bin .op_ge | .bin .op_gt => some (6, .non)
  | .bin .op_update => some (7, .right)
  | .un .op_not => some (8, .left)
  | .bin .op_add | .bin .op_negate => some (9, .left)
  | .bin .op_mul | .bin .op_div => some (10, .left)
  | .bin .op_concat => some (11, .right)
  | .has => some (12, .non)
  | .un .op_negate => some (13, .left)
  | _ => none

/-- `b` may stand, ungrouped, inside the right operand of `a`: in `x a y b z` the operand `y` belongs to `b`. -/
def RightOk (a b : Opr) : Prop :=
  ∃ la aa lb ab, table a = some (la, aa) ∧ table b = some (lb, ab) ∧ (la < lb ∨ la = lb ∧ aa = .right ∧ ab = .right)

/-- `a` may stand, ungrouped, inside the left operand of `b`: in `x a y b z` the operand `y` belongs to `a`. -/
def LeftOk (a b : Opr) : Prop :=
  ∃ la aa lb ab, table a = some (la, aa) ∧ table b = some (lb, ab) ∧ (lb < la ∨ la = lb ∧ aa = .left ∧ ab = .left)

/-- An expression made of operands and operators. -/
inductive Tr
  | leaf (n : Node)
  | bin (k : TK) (l r : Tr)
  | un (k : TK) (e : Tr)
  | has (e : Tr) (path : Node)

/-- What is written, from left to right. -/
inductive Item
  | operand (n : Node)
  | bin (k : TK)
  | un (k : TK)
  | has (path : Node)

namespace Tr

/-- The text of a tree without parentheses. -/
def yield : Tr → List Item
  | leaf n => [.operand n]
  | bin k l r => yield l ++ .bin k :: yield r
  | un k e => .un k :: yield e
  | has e p => yield e ++ [.has p]

/-- The operators an operator on the left of the tree competes with: those whose left operand starts the tree. -/
def leftSpine : Tr → List Opr
  | bin k l _ => .bin k :: leftSpine l
  | has e _ => .has :: leftSpine e
  | _ => []

/-- The operators an operator on the right of the tree competes with: those whose right operand ends the tree. -/
def rightSpine : Tr → List Opr
  | bin k _ r => .bin k :: rightSpine r
  | un k e => .un k :: rightSpine e
  | _ => []

/-- The tree follows the table. -/
def Grouped : Tr → Prop
  | leaf _ => True
  | bin k l r => (∀ o ∈ rightSpine l, LeftOk o (.bin k)) ∧ (∀ o ∈ leftSpine r, RightOk (.bin k) o) ∧ Grouped l ∧ Grouped r
  | un k e => (∀ o ∈ leftSpine e, RightOk (.un k) o) ∧ Grouped e
  | has e _ => (∀ o ∈ leftSpine e, o ≠ .has) ∧ (∀ o ∈ rightSpine e, LeftOk o .has) ∧ Grouped e

end Tr

/-- The operators of a syntax tree; everything else, parentheses included, is an operand. -/
def tr : Node → Tr
  | .exprBinOp _ (.op _ k) l r => .bin k (tr l) (tr r)
  | .exprUnaryOp _ (.op _ k) e => .un k (tr e)
  | .exprOpHasAttr _ _ e p => .has (tr e) p
  | n => .leaf n

end Verif.Nixf.Prec
