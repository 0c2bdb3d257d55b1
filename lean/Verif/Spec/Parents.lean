import Verif.Model.Sema
/-
Which node is the parent of a node, and the ancestors of a node, in terms of `Node.children` only.
-/
namespace Verif.Nixf

/-- `m` is `n`, or a child of it, or a child of a child, .... -/
inductive Reach : Node → Node → Prop
  | here (n) : Reach n n
  | down (n c m) : c ∈ n.children → Reach c m → Reach n m

/-- `c` is the keyword of the `let` node `q`, and serves also as the `rec` token of its set `p`. -/
def LetKw (p c q : Node) : Prop :=
  ∃ h b st dy, p = .exprAttrs h b c st dy ∧ ((∃ h' i e, q = .exprLet h' c i e p) ∨ ∃ h', q = .exprLegacyLet h' c p)

/-- An identifier. -/
def IsIdent : Node → Prop
  | .identifier .. => True
  | _ => False

/-- What is known of the parts of certain nodes: the set of bindings of a `let` has the keyword as its `rec` token, and
variables and attribute names have an identifier, and the attributes of a set are those its bindings are lowered to. The names of a
path are distinct objects. -/
def Typed : Node → Prop
  | .exprLet _ k _ _ a => a = .null ∨ (k.children = [] ∧ ∃ h b st dy, a = .exprAttrs h b k st dy)
  | .exprLegacyLet _ k a => (∃ h, k = .misc h) ∧ ∃ h b st dy, a = .exprAttrs h b k st dy
  | .attrNameID _ i => IsIdent i
  | .exprVar _ i => IsIdent i
  | .exprAttrs h b r st dy => (b = .null ∨ ∃ h' bs, b = .binds h' bs) ∧ (r = .null ∨ ∃ h', r = .misc h') ∧
      ∃ s, (onExprAttrs h.range b r s).1 = .exprAttrs h b r st dy
  | .exprLambda _ a _ => ∃ h i f, a = .lambdaArg h i f ∧ (i = .null → f ≠ .null)
  | .attrPath _ ns _ => ns.Pairwise fun a b => a.isNode = true → b.isNode = true → a.id ≠ b.id
  | _ => True

/-- The parent of a node of the tree: the node it is a child of. The keyword `let` is a child both of the `let` and of its
set of bindings; the parent is the `let`. -/
def ParentOf (root p c : Node) : Prop := Reach root p ∧ c ∈ p.children ∧ ∀ q, Reach root q → ¬ LetKw p c q

/-- A node of the tree, with all nodes on the way up to the root. -/
inductive Ancestors (root : Node) : Node → List Node → Prop
  | root : Ancestors root root [root]
  | child (p c l) : ParentOf root p c → Ancestors root p l → Ancestors root c (c :: l)

end Verif.Nixf
