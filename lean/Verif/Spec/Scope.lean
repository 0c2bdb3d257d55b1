import Verif.Model.VariableLookup
/-
Specification of scoping in Nix, on abstract syntax: which nodes are below which binders, and what a name refers to.
Attribute sets are taken as lists of attributes (name, key node, value, kind), that is after bindings have been merged.
-/
namespace Verif.Nixf.Scoping

/-- What encloses an expression: a binder, given by the names it binds with the defining node, or a `with`. -/
inductive Frame
  | names (b : Bytes → Option (Node × DefSource))
  | with_ (w : Node)

/-- The name is bound here, by which node. -/
def Frame.binds : Frame → Bytes → Option (Node × DefSource)
  | .names b, x => b x
  | .with_ _, _ => none

/-- The names of a recursive set or `let`: those of its static attributes. -/
def setFrame (st : List Node) (src : DefSource) : Frame :=
  .names fun x => (st.find? fun a => attrName a == x).map fun a => (attrKey a, src)

/-- The names of a lambda: its formals (the first one of each name), then the argument. -/
def lambdaFrame (i f : Node) : Frame :=
  .names fun x =>
    match (formalMembers f).find? (fun m => !(formalID m).isNull && (formalID m).name == x) with
    | some m => some (formalID m, if i.isNull then .lambdaNoArgFormal else .lambdaWithArgFormal)
    | none =>
      if !i.isNull && i.name == x then some (i, if f.isNull then .lambdaArg else .lambdaWithArgArg) else none

/-- The binder that a node is. -/
def frameOf : Node → Frame
  -- an incomplete lambda is ignored
  | .exprLambda _ (.lambdaArg _ i f) e => if e.isNull then .names fun _ => none else lambdaFrame i f
  | .exprAttrs _ _ r st _ => if r.isNull then .names fun _ => none else setFrame st .rec_
  | .exprLet _ _ _ _ (.exprAttrs _ _ _ st _) => setFrame st .let_
  | .exprWith h k s w e => .with_ (.exprWith h k s w e)
  | _ => .names fun _ => none

/-- The expressions of a set: values and dynamic keys. In a recursive set they are in the scope of the set, except for
the right-hand side of `inherit x`. -/
def attrParts (rec : Bool) (st dy : List Node) : List (Bool × Node) :=
  (st.filter fun a => !(attrValue a).isNull).map (fun a => (rec && attrKind a != .inherit, attrValue a)) ++
    (dy.filter fun a => !(attrValue a).isNull).flatMap fun a => [(rec, attrKey a), (rec, attrValue a)]

/-- An expression that may be missing, in the scope of its parent. -/
def inScope (e : Node) : List (Bool × Node) := if e.isNull then [] else [(true, e)]

/-- The parts of a node, with a flag telling whether they are in the scope of the binder that the node is. -/
def parts (n : Node) : List (Bool × Node) :=
  match n with
  | .exprVar .. => []
  -- an incomplete lambda is ignored
  | .exprLambda _ (.lambdaArg _ _ f) e =>
    if e.isNull then [] else (formalMembers f).flatMap (fun m => inScope (formalDefault m)) ++ [(true, e)]
  | .exprLambda .. => []
  | .exprAttrs _ _ r st dy => attrParts (!r.isNull) st dy
  | .exprLet _ _ _ e (.exprAttrs _ _ _ st dy) => attrParts true st dy ++ inScope e
  | .exprLet _ _ _ e _ => inScope e
  -- `let { .. }` stands for the attribute `body` of a recursive set
  | .exprLegacyLet _ _ (.exprAttrs h b r st dy) => [(false, .exprAttrs h b r st dy)]
  | .exprLegacyLet .. => []
  | .exprWith _ _ _ w e => (if w.isNull then [] else [(false, w)]) ++ inScope e
  | n => n.children.map fun c => (false, c)

/-- `Inside n Δ m`: the node `m` is part of `n`, below the binders `Δ` inside of `n`, innermost first. -/
inductive Inside : Node → List Frame → Node → Prop
  | here (n) : Inside n [] n
  | outer (n c Δ m) : (false, c) ∈ parts n → Inside c Δ m → Inside n Δ m
  | inner (n c Δ m) : (true, c) ∈ parts n → Inside c Δ m → Inside n (Δ ++ [frameOf n]) m

/-- The innermost binding of a name. -/
def resolve (Δ : List Frame) (x : Bytes) : Option (Node × DefSource) := Δ.findSome? (·.binds x)

/-- No frame binds the name. -/
def Free (Δ : List Frame) (x : Bytes) : Prop := ∀ f ∈ Δ, f.binds x = none

/-- The `with`s among the frames, innermost first. -/
def withsOf (Δ : List Frame) : List Node := Δ.filterMap fun | .with_ w => some w | _ => none

/-- The name of a variable. -/
def varName : Node → Bytes
  | .exprVar _ i => i.name
  | _ => []

def isVar : Node → Bool
  | .exprVar .. => true
  | _ => false

/-- A variable occurs in the program, below the frames `Δ`. -/
def Occurs (root : Node) (Δ : List Frame) (v : Node) : Prop := Inside root Δ v ∧ isVar v = true

/-- `v` refers to the name `x` bound by `m`: it is in the scope of `m`, and no binder in between has this name. -/
def RefersTo (m : Node) (x : Bytes) (v : Node) : Prop :=
  ∃ c Δ, (true, c) ∈ parts m ∧ Occurs c Δ v ∧ varName v = x ∧ Free Δ x

/-- The names defined by Nix itself. -/
def Global (P : PrimOps) (x : Bytes) : Prop :=
  (x, false) ∈ P ∨ x ∈ constants ∨ x = b!"builtins" ∨ x = b!"__curPos"

/-- `v` may come from the `with` expression `w`, which is below the frames `Γ`: it is in the body of `w`, and nothing
defines its name. -/
def MayComeFrom (P : PrimOps) (Γ : List Frame) (w v : Node) : Prop :=
  ∃ c Δ, (true, c) ∈ parts w ∧ Occurs c Δ v ∧ Free (Δ ++ Γ) (varName v) ∧ ¬ Global P (varName v)

/-- Nodes are told apart by their identities (addresses), and a node has one place below binders. Nodes may be reached
repeatedly, as the expression `e` of `inherit (e) a b`. -/
def Faithful (root : Node) : Prop :=
  ∀ Δ m Δ' m', Inside root Δ m → Inside root Δ' m' → m.id = m'.id → m = m' ∧ Δ = Δ'

/-- The attributes of a set have distinct names and keys. -/
def GoodSet (st : List Node) : Prop := (st.map attrName).Nodup ∧ ∀ a ∈ st, (attrKey a).isNull = false

/-- The set of a `let` is recursive, the attributes of a set have distinct names and keys, and a lambda with a body has
an argument. -/
def Shape : Node → Prop
  | .exprLet _ _ _ _ (.exprAttrs _ _ r st _) => r.isNull = false ∧ GoodSet st
  | .exprAttrs _ _ _ st _ => GoodSet st
  | .exprLambda _ (.lambdaArg ..) _ => True
  | .exprLambda _ _ e => e.isNull = true
  | _ => True

/-- All nodes that count have this shape. -/
def WellFormed (root : Node) : Prop := ∀ Δ m, Inside root Δ m → Shape m

end Verif.Nixf.Scoping
