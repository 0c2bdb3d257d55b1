import Verif.Model.Server
import Verif.Model.VariableLookup
/-
Semantic tokens. Models nixd/lib/Controller/SemanticTokens.cpp and `encodeTokens` of nixd/lspserver/src/Protocol.cpp.

`dfs` collects into a vector; here the functions return what they append. The recursion follows the tree, so the size of
the tree is enough fuel. `std::sort` is not stable and its algorithm is not specified; `encode` is the loop after it, and
the theorems are about all sorted permutations of the collected tokens.
-/
namespace Verif.Nixf.SemanticTokens
open SourceCode Server

/-- `SemaType` (SemanticTokens.cpp:27-41). -/
inductive SemaType
  | function | string | number | select | builtin | defined | fromWith | undefined | null | bool | attrName | lambdaArg
  | lambdaFormal
deriving DecidableEq, Repr

/-- The value of the enumerator. -/
def SemaType.code : SemaType → Nat
  | .function => 0 | .string => 1 | .number => 2 | .select => 3 | .builtin => 4 | .defined => 5 | .fromWith => 6
  | .undefined => 7 | .null => 8 | .bool => 9 | .attrName => 10 | .lambdaArg => 11 | .lambdaFormal => 12

/-- `SemaModifiers` (SemanticTokens.cpp:43-47). -/
def smBuiltin : Nat := 1
def smDeprecated : Nat := 2
def smDynamic : Nat := 4

/-- `RawSemanticToken` (SemanticTokens.cpp:49-57). -/
structure Raw where
  pos : Position
  length : Nat
  type : Nat
  mods : Nat
deriving DecidableEq, Repr

/-- Conversion to `unsigned`. -/
def toU32 (x : Int) : Nat := (x % 2 ^ 32).toNat

/-- `skip` (SemanticTokens.cpp:84-87). -/
def skip (n : Node) : Bool := n.lCur.line != n.rCur.line

/-- `len` (SemanticTokens.cpp:89-91). -/
def len (n : Node) : Nat := toU32 (n.rCur.offset - n.lCur.offset)

/-- `add` with `addImpl` (SemanticTokens.cpp:72-82). -/
def add (src : Bytes) (n : Node) (t : SemaType) (mods : Nat) : List Raw :=
  if skip n then [] else [⟨toLSPPosition src n.lCur, len n, t.code, mods⟩]

/-- `ExprString::isLiteral` (Simple.h:117-130). -/
def isLiteralString : Node → Bool
  | .exprString _ p => p.literal?.isSome
  | _ => false

/-- `dfs(const ExprVar &)` (SemanticTokens.cpp:100-127): the type and the modifiers. -/
def varType (vl : VL) (v : Node) (name : Bytes) : SemaType × Nat :=
  if name == b!"true" || name == b!"false" then (.bool, smBuiltin)
  else if name == b!"null" then (.null, 0)
  else
    match vl.query v with
    | some ⟨.defined, some d⟩ => if (vl.get d).source = .builtin then (.builtin, smBuiltin) else (.defined, 0)
    | some ⟨.fromWith, some d⟩ => if (vl.get d).source = .builtin then (.builtin, smBuiltin) else (.fromWith, smDynamic)
    | some ⟨.undefined, some d⟩ => if (vl.get d).source = .builtin then (.builtin, smBuiltin) else (.defined, smDeprecated)
    | some ⟨.defined, none⟩ => (.defined, 0)
    | some ⟨.fromWith, none⟩ => (.fromWith, smDynamic)
    | some ⟨.undefined, none⟩ => (.defined, smDeprecated)
    | none => (.defined, smDeprecated)

/-- The part of `dfs(const ExprSelect &)` for one name (SemanticTokens.cpp:134-143). -/
def selectName (src : Bytes) (n : Node) : List Raw :=
  match n with
  | .attrNameID .. => add src n .select 0
  | _ => []

/-- Names of a path (Attrs.h:99). -/
def pathNames : Node → List Node
  | .attrPath _ ns _ => ns
  | _ => []

/-- `dfs(const LambdaArg &)` (SemanticTokens.cpp:163-173). -/
def lambdaArgTokens (src : Bytes) : Node → List Raw
  | .lambdaArg _ i f =>
    (if i.isNull then [] else add src i .lambdaArg 0) ++
      (dedup (formalMembers f)).flatMap fun p => if (formalID p.2).isNull then [] else add src (formalID p.2) .lambdaFormal 0
  | _ => []

/-- `dfs` (SemanticTokens.cpp:93-216). -/
def tokensF (vl : VL) (src : Bytes) : Nat → Node → List Raw
  | 0, _ => []
  | k + 1, n =>
    match n with
    | .exprLambda _ arg body => lambdaArgTokens src arg ++ tokensF vl src k body
    | .exprString .. => if isLiteralString n then add src n .string 0 else []
    | .exprVar _ i => add src n (varType vl n i.name).1 (varType vl n i.name).2
    | .exprSelect _ e _ p d _ => tokensF vl src k e ++ tokensF vl src k d ++ (pathNames p).flatMap (selectName src)
    | .exprAttrs _ _ _ st dy =>
      st.flatMap (fun a =>
        if (attrValue a).isNull then []
        else if attrFromInherit a then []
        else add src (attrKey a) .attrName 0 ++ tokensF vl src k (attrValue a)) ++
      dy.flatMap (fun a => tokensF vl src k (attrValue a))
    | n => n.children.flatMap (tokensF vl src k)

/-- The tokens collected for a tree (SemanticTokens.cpp:247). -/
noncomputable def collect (vl : VL) (src : Bytes) (n : Node) : List Raw := tokensF vl src (sizeOf n) n

/-- `lspserver::SemanticToken` (Protocol.h:1798-1810). -/
structure Rel where
  deltaLine : Nat
  deltaStart : Nat
  length : Nat
  type : Nat
  mods : Nat
deriving DecidableEq, Repr

/-- `operator<` (SemanticTokens.cpp:51-53, Protocol.h:145-148). -/
def lt (a b : Position) : Bool := decide (a.line < b.line) || (a.line == b.line && decide (a.character < b.character))

/-- The loop of `finish` (SemanticTokens.cpp:221-230). -/
def encode (prev : Position) : List Raw → List Rel
  | [] => []
  | t :: ts =>
    let dl := toU32 (t.pos.line - prev.line)
    let dc := if dl ≠ 0 then toU32 t.pos.character else toU32 (t.pos.character - prev.character)
    ⟨dl, dc, t.length, t.type, t.mods⟩ :: encode t.pos ts

/-- The `assert` of the loop (SemanticTokens.cpp:223) holds. -/
def assertOk (prev : Position) : List Raw → Prop
  | [] => True
  | t :: ts => t.pos.line - prev.line ≥ 0 ∧ assertOk t.pos ts

/-- `encodeTokens` (Protocol.cpp:1315-1327). -/
def flat (ts : List Rel) : List Nat := ts.flatMap fun t => [t.deltaLine, t.deltaStart, t.length, t.type, t.mods]

end Verif.Nixf.SemanticTokens
