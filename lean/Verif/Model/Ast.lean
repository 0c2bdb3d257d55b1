import Verif.Model.Lexer
/-
Syntax trees.
Models libnixf/include/nixf/Basic/Nodes/{Basic,Simple,Attrs,Op,Lambda,Expr}.h, libnixf/src/Basic/Nodes.cpp and
libnixf/include/nixf/Basic/NodeKinds.inc.

All node classes are constructors of one type, `null` is the null pointer. A node carries an identity (`id`), which
plays the role of its address: `std::map<const Node *, _>` is keyed by it. Two things that are no `Node` in C++ are
also constructors, so that the type is nested through lists only: `text` (an `InterpolablePart` of kind `SPK_Escaped`)
and `attr` (an `Attribute`).

`SemaAttrs` is stored inside `exprAttrs`. In C++ the set object is shared between the syntax (`Binding::value`) and the
`SemaAttrs` of the enclosing set, and merging a later binding into it is visible through both; here only the copy in the
enclosing `SemaAttrs` is updated (with the same `id`).
-/
namespace Verif.Nixf

/-- Identity and range of a node (Basic.h:25-26). -/
structure Hd where
  id : Nat
  range : CRange
deriving DecidableEq, Repr, Inhabited

/-- `Attribute::AttributeKind` (Attrs.h:188-195). -/
inductive AttrKind
  | plain
  | inherit
  | inheritFrom
deriving DecidableEq, Repr

/-- Nodes. -/
inductive Node
  /-- the null pointer -/
  | null
  /-- `Misc` (Basic.h:103-108) -/
  | misc (h : Hd)
  /-- `Dot` (Basic.h:123-144); the neighbours are given by identity -/
  | dot (h : Hd) (prev : Nat) (next : Option Nat)
  /-- `Identifier` (Basic.h:111-120) -/
  | identifier (h : Hd) (name : Bytes)
  /-- `Op` (Op.h:12-22) -/
  | op (h : Hd) (k : TK)
  /-- `Interpolation` (Simple.h:37-47) -/
  | interpolation (h : Hd) (e : Node)
  /-- `InterpolablePart` of kind `SPK_Escaped` (Simple.h:49-83) -/
  | text (t : Bytes)
  /-- `InterpolatedParts` (Simple.h:85-115) -/
  | parts (h : Hd) (frags : List Node)
  /-- `AttrName` of kind `ANK_ID` (Attrs.h:21-24) -/
  | attrNameID (h : Hd) (id : Node)
  /-- `AttrName` of kind `ANK_String` (Attrs.h:26-30) -/
  | attrNameString (h : Hd) (s : Node)
  /-- `AttrName` of kind `ANK_Interpolation` (Attrs.h:32-36) -/
  | attrNameInterp (h : Hd) (i : Node)
  /-- `AttrPath` (Attrs.h:87-110) -/
  | attrPath (h : Hd) (names dots : List Node)
  /-- `Binding` (Attrs.h:112-141) -/
  | binding (h : Hd) (path eq value : Node)
  /-- `Inherit` (Attrs.h:143-170) -/
  | inherit (h : Hd) (names : List Node) (e : Node)
  /-- `Binds` (Attrs.h:172-192) -/
  | binds (h : Hd) (bindings : List Node)
  /-- `Attribute` (Attrs.h:194-226) with its key in the map (irrelevant for dynamic attributes) -/
  | attr (name : Bytes) (key value : Node) (kind : AttrKind)
  /-- `Formal` (Lambda.h:11-51) -/
  | formal (h : Hd) (comma id default ellipsis : Node)
  /-- `Formals` (Lambda.h:60-91); `Dedup` is the function `dedup` of the members -/
  | formals (h : Hd) (members : List Node)
  /-- `LambdaArg` (Lambda.h:93-108) -/
  | lambdaArg (h : Hd) (id formals : Node)
  | exprInt (h : Hd) (value : Int)
  /-- `ExprFloat` (Simple.h:25-34); the value is represented by the text given to `strtof` -/
  | exprFloat (h : Hd) (text : Bytes)
  | exprVar (h : Hd) (id : Node)
  | exprString (h : Hd) (parts : Node)
  | exprPath (h : Hd) (parts : Node)
  | exprSPath (h : Hd) (text : Bytes)
  | exprParen (h : Hd) (e lparen rparen : Node)
  /-- `ExprAttrs` (Attrs.h:272-294) with its `SemaAttrs` (Attrs.h:236-270): static attributes sorted by name, dynamic ones -/
  | exprAttrs (h : Hd) (body rec : Node) (static dynamic : List Node)
  /-- `ExprSelect` (Expr.h:7-43); `desugared` is `DesugaredFrom != nullptr` -/
  | exprSelect (h : Hd) (e dot path default : Node) (desugared : Bool)
  | exprCall (h : Hd) (fn : Node) (args : List Node)
  | exprList (h : Hd) (elements : List Node)
  | exprLambda (h : Hd) (arg body : Node)
  | exprBinOp (h : Hd) (op lhs rhs : Node)
  | exprUnaryOp (h : Hd) (op e : Node)
  | exprOpHasAttr (h : Hd) (op e path : Node)
  | exprIf (h : Hd) (cond then_ else_ : Node)
  | exprAssert (h : Hd) (cond value : Node)
  | exprLet (h : Hd) (kwLet kwIn e attrs : Node)
  | exprLegacyLet (h : Hd) (kwLet attrs : Node)
  | exprWith (h : Hd) (kwWith tokSemi with_ e : Node)
deriving Inhabited

/-- `Node::NodeKind` (NodeKinds.inc). -/
inductive NodeKind
  | Interpolation
  | InterpolableParts
  | Misc
  | Dot
  | Identifier
  | AttrName
  | AttrPath
  | Binding
  | Inherit
  | Binds
  | LambdaArg
  | Formals
  | Formal
  | Op
  | ExprInt
  | ExprFloat
  | ExprVar
  | ExprString
  | ExprPath
  | ExprSPath
  | ExprParen
  | ExprAttrs
  | ExprSelect
  | ExprCall
  | ExprList
  | ExprLambda
  | ExprBinOp
  | ExprUnaryOp
  | ExprOpHasAttr
  | ExprIf
  | ExprAssert
  | ExprLet
  | ExprLegacyLet
  | ExprWith
deriving DecidableEq, Repr

namespace Node

/-- Identity and range; `none` for the null pointer and the two constructors that are no nodes. -/
def hd? : Node → Option Hd
  | .null | .text _ | .attr .. => none
  | .misc h | .dot h .. | .identifier h _ | .op h _ | .interpolation h _ | .parts h _ | .attrNameID h _
  | .attrNameString h _ | .attrNameInterp h _ | .attrPath h .. | .binding h .. | .inherit h .. | .binds h _
  | .formal h .. | .formals h _ | .lambdaArg h .. | .exprInt h _ | .exprFloat h _ | .exprVar h _ | .exprString h _
  | .exprPath h _ | .exprSPath h _ | .exprParen h .. | .exprAttrs h .. | .exprSelect h .. | .exprCall h ..
  | .exprList h _ | .exprLambda h .. | .exprBinOp h .. | .exprUnaryOp h .. | .exprOpHasAttr h .. | .exprIf h ..
  | .exprAssert h .. | .exprLet h .. | .exprLegacyLet h .. | .exprWith h .. => some h

/-- A non-null pointer to a node. -/
def isNode (n : Node) : Bool := n.hd?.isSome

/-- `!Ptr`. -/
def isNull : Node → Bool
  | .null => true
  | _ => false

def hd (n : Node) : Hd := n.hd?.getD default
/-- The identity (address). -/
def id (n : Node) : Nat := n.hd.id
/-- `Node::range` (Basic.h:34). -/
def range (n : Node) : CRange := n.hd.range
/-- `Node::lCur`, `Node::rCur` (Basic.h:36-37). -/
def lCur (n : Node) : Cursor := n.range.l
def rCur (n : Node) : Cursor := n.range.r

/-- `Node::kind` (Basic.h:33). -/
def kind? : Node → Option NodeKind
  | .null | .text _ | .attr .. => none
  | .misc _ => some .Misc
  | .dot .. => some .Dot
  | .identifier .. => some .Identifier
  | .op .. => some .Op
  | .interpolation .. => some .Interpolation
  | .parts .. => some .InterpolableParts
  | .attrNameID .. | .attrNameString .. | .attrNameInterp .. => some .AttrName
  | .attrPath .. => some .AttrPath
  | .binding .. => some .Binding
  | .inherit .. => some .Inherit
  | .binds .. => some .Binds
  | .formal .. => some .Formal
  | .formals .. => some .Formals
  | .lambdaArg .. => some .LambdaArg
  | .exprInt .. => some .ExprInt
  | .exprFloat .. => some .ExprFloat
  | .exprVar .. => some .ExprVar
  | .exprString .. => some .ExprString
  | .exprPath .. => some .ExprPath
  | .exprSPath .. => some .ExprSPath
  | .exprParen .. => some .ExprParen
  | .exprAttrs .. => some .ExprAttrs
  | .exprSelect .. => some .ExprSelect
  | .exprCall .. => some .ExprCall
  | .exprList .. => some .ExprList
  | .exprLambda .. => some .ExprLambda
  | .exprBinOp .. => some .ExprBinOp
  | .exprUnaryOp .. => some .ExprUnaryOp
  | .exprOpHasAttr .. => some .ExprOpHasAttr
  | .exprIf .. => some .ExprIf
  | .exprAssert .. => some .ExprAssert
  | .exprLet .. => some .ExprLet
  | .exprLegacyLet .. => some .ExprLegacyLet
  | .exprWith .. => some .ExprWith

/-- `Node::children` (the overrides in Nodes/*.h), without the null pointers, which every caller skips
(Basic.h:54-55, ParentMap.cpp:6-7, VariableLookup.cpp:406-407, ...). -/
def children (n : Node) : List Node :=
  (match n with
    | .null | .text _ | .attr .. | .misc _ | .dot .. | .identifier .. | .op .. | .exprInt .. | .exprFloat ..
    | .exprSPath .. => []
    | .interpolation _ e => [e]
    | .parts _ fs => fs
    | .attrNameID _ i => [i]
    | .attrNameString _ s => [s]
    | .attrNameInterp _ i => [i]
    | .attrPath _ ns ds => ns ++ ds
    | .binding _ p eq v => [p, eq, v]
    | .inherit _ ns e => ns ++ [e]
    | .binds _ bs => bs
    | .formal _ _ i d e => if e.isNull then [i, d] else [e]
    | .formals _ ms => ms
    | .lambdaArg _ i f => [i, f]
    | .exprVar _ i => [i]
    | .exprString _ p => [p]
    | .exprPath _ p => [p]
    | .exprParen _ e l r => [e, l, r]
    | .exprAttrs _ b r _ _ => [b, r]
    | .exprSelect _ e _ p d _ => [e, p, d]
    | .exprCall _ f as => f :: as
    | .exprList _ es => es
    | .exprLambda _ a b => [a, b]
    | .exprBinOp _ o l r => [o, l, r]
    | .exprUnaryOp _ o e => [o, e]
    | .exprOpHasAttr _ _ e p => [e, p]
    | .exprIf _ c t e => [c, t, e]
    | .exprAssert _ c v => [c, v]
    | .exprLet _ k i e a => [k, a, i, e]
    | .exprLegacyLet _ k a => [k, a]
    | .exprWith _ k s w e => [k, s, w, e]).filter isNode

/-- `Expr::isExpr` (Basic.h:78-80). -/
def isExpr (n : Node) : Bool :=
  match n with
  | .exprInt .. | .exprFloat .. | .exprVar .. | .exprString .. | .exprPath .. | .exprSPath .. | .exprParen ..
  | .exprAttrs .. | .exprSelect .. | .exprCall .. | .exprList .. | .exprLambda .. | .exprBinOp .. | .exprUnaryOp ..
  | .exprOpHasAttr .. | .exprIf .. | .exprAssert .. | .exprLet .. | .exprLegacyLet .. | .exprWith .. => true
  | _ => false

/-- `Expr::maybeLambda` (Basic.h:83-97). -/
def maybeLambda (n : Node) : Bool :=
  match n with
  | .exprInt .. | .exprFloat .. | .exprAttrs .. | .exprString .. | .exprPath .. => false
  | n => n.isExpr

/-- `mayProducedBySimple` (ParseSimple.cpp:14-35). -/
def mayProducedBySimple (n : Node) : Bool :=
  match n with
  | .exprVar .. | .exprInt .. | .exprFloat .. | .exprSPath .. | .exprString .. | .exprPath .. | .exprParen ..
  | .exprAttrs .. | .exprList .. => true
  | _ => false

/-- `Identifier::name`. -/
def name : Node → Bytes
  | .identifier _ n => n
  | _ => []

/-- `InterpolatedParts::isLiteral` and `literal` (Simple.h:96-104): the text of a single escaped fragment. -/
def literal? : Node → Option Bytes
  | .parts _ [.text t] => some t
  | _ => none

/-- `AttrName::isStatic` and `staticName` (Attrs.h:38-55). -/
def staticName? : Node → Option Bytes
  | .attrNameID _ i => some i.name
  | .attrNameString _ (.exprString _ p) => p.literal?
  | _ => none

/-- `Node::src` (Basic.h:63-67). -/
def src (n : Node) (s : Bytes) : Bytes := (s.drop n.lCur.offset).take (n.rCur.offset - n.lCur.offset)

end Node

/-- `mergeFragments` (Nodes.cpp:7-33). -/
def mergeFragments (fs : List Node) : List Node :=
  if fs.isEmpty then fs
  else if fs.any (fun f => match f with | .text _ => false | _ => true) then fs
  else [.text (fs.flatMap fun f => match f with | .text t => t | _ => [])]

/-- `operator<` on `std::string`: lexicographic on unsigned bytes. -/
def bytesLt : Bytes → Bytes → Bool
  | [], [] => false
  | [], _ :: _ => true
  | _ :: _, [] => false
  | a :: as, b :: bs => decide (a < b) || (a == b && bytesLt as bs)

end Verif.Nixf
