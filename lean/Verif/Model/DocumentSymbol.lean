import Verif.Model.SemanticTokens
/-
Document symbols. Models nixd/lib/Controller/DocumentSymbol.cpp.

Symbols are returned instead of appended. `std::to_string(float)` is a parameter. The recursion follows the tree, so its
size is enough fuel. Dereferencing the null pointer `Result.Def` (DocumentSymbol.cpp:78) and the assertion on `formals()`
(DocumentSymbol.cpp:39) are the separate predicates `varSafe` and `lambdaSafe`.
-/
namespace Verif.Nixf.Outline
open SourceCode Server Draft

/-- The values of `SymbolKind` in use (Protocol.h:437-464). -/
inductive SymbolKind
  | string | number | property | variable | function | array | field | boolean | null | constant | event
deriving DecidableEq, Repr

/-- `DocumentSymbol` (Protocol.h:1163-1188). -/
inductive Symbol
  | mk (name detail : Bytes) (kind : SymbolKind) (deprecated : Bool) (range selectionRange : LRange) (children : List Symbol)
deriving Repr

namespace Symbol
def name : Symbol → Bytes | mk n _ _ _ _ _ _ => n
def detail : Symbol → Bytes | mk _ d _ _ _ _ _ => d
def kind : Symbol → SymbolKind | mk _ _ k _ _ _ _ => k
def deprecated : Symbol → Bool | mk _ _ _ d _ _ _ => d
def range : Symbol → LRange | mk _ _ _ _ r _ _ => r
def selectionRange : Symbol → LRange | mk _ _ _ _ _ r _ => r
def children : Symbol → List Symbol | mk _ _ _ _ _ _ c => c
end Symbol

/-- `getLambdaName` (DocumentSymbol.cpp:26-30). -/
def lambdaName : Node → Bytes
  | .lambdaArg _ i _ => if i.isNull then b!"(anonymous lambda)" else i.name
  | _ => b!"(anonymous lambda)"

/-- `getLambdaSelectionRage` (DocumentSymbol.cpp:32-43). -/
def lambdaSelection (src : Bytes) (n arg : Node) : LRange :=
  match arg with
  | .lambdaArg _ i f => if i.isNull then toLSPRange src f.range else toLSPRange src i.range
  | _ => toLSPRange src n.range

/-- The assertion of `getLambdaSelectionRage` (DocumentSymbol.cpp:39). -/
def lambdaSafe : Node → Bool
  | .lambdaArg _ i f => !i.isNull || !f.isNull
  | _ => true

/-- `getAttrRange` (DocumentSymbol.cpp:45-50). -/
def attrRange (src : Bytes) (a : Node) : LRange :=
  ⟨toLSPPosition src (attrKey a).lCur,
    if (attrValue a).isNull then toLSPPosition src (attrKey a).rCur else toLSPPosition src (attrValue a).rCur⟩

/-- `richVar` (DocumentSymbol.cpp:53-80): detail, kind and `deprecated`. -/
def richVar (vl : VL) (v : Node) (name : Bytes) : Bytes × SymbolKind × Bool :=
  if name == b!"true" || name == b!"false" then (b!"builtin boolean", .boolean, false)
  else if name == b!"null" then (b!"null", .null, false)
  else
    match vl.query v with
    | some ⟨.defined, d⟩ => (b!"identifier", if d.any (fun d => (vl.get d).source == .builtin) then .event else .constant, false)
    | some ⟨.fromWith, d⟩ => (b!"identifier", if d.any (fun d => (vl.get d).source == .builtin) then .event else .variable, false)
    | _ => (b!"identifier", .variable, true)

/-- `Result.Def` is not null where it is dereferenced (DocumentSymbol.cpp:78). -/
def varSafe (vl : VL) (v : Node) : Prop :=
  ∀ k d, vl.query v = some ⟨k, d⟩ → k = .defined ∨ k = .fromWith → d.isSome = true

/-- A symbol for the node itself, without children. -/
def leaf (src : Bytes) (n : Node) (name detail : Bytes) (kind : SymbolKind) (deprecated : Bool := false) : Symbol :=
  .mk name detail kind deprecated (toLSPRange src n.range) (toLSPRange src n.range) []

/-- `collect` (DocumentSymbol.cpp:83-234). -/
def collectF (vl : VL) (src : Bytes) (floatText : Bytes → Bytes) : Nat → Node → List Symbol
  | 0, _ => []
  | k + 1, n =>
    match n with
    | .exprString _ p => [leaf src n (p.literal?.getD b!"(dynamic string)") b!"string" .string]
    | .exprInt _ v => [leaf src n (intDigits v) b!"integer" .number]
    | .exprFloat _ t => [leaf src n (floatText t) b!"float" .number]
    | .attrNameID .. | .attrNameString .. | .attrNameInterp .. =>
      [leaf src n (n.staticName?.getD b!"(dynamic attribute name)") b!"attribute name" .property]
    | .exprVar _ i =>
      let r := richVar vl n i.name
      [leaf src n i.name r.1 r.2.1 r.2.2]
    | .exprLambda _ arg body =>
      [.mk (lambdaName arg) b!"lambda" .function false (toLSPRange src n.range) (lambdaSelection src n arg)
        (collectF vl src floatText k body)]
    | .exprList .. =>
      [.mk b!"{anonymous}" b!"list" .array false (toLSPRange src n.range) (toLSPRange src n.range)
        (n.children.flatMap (collectF vl src floatText k))]
    | .exprAttrs _ _ _ st dy =>
      st.flatMap (fun a =>
        if (attrValue a).isNull then []
        else [.mk (attrName a) b!"attribute" .field false (attrRange src a) (toLSPRange src (attrKey a).range)
          (collectF vl src floatText k (attrValue a))]) ++
      dy.map (fun a => .mk b!"${dynamic attribute}" b!"attribute" .field false (attrRange src a) (toLSPRange src (attrKey a).range)
          (collectF vl src floatText k (attrValue a)))
    | n => n.children.flatMap (collectF vl src floatText k)

/-- `onDocumentSymbol` (DocumentSymbol.cpp:238-251) on a tree. -/
noncomputable def documentSymbols (vl : VL) (src : Bytes) (floatText : Bytes → Bytes) (n : Node) : List Symbol :=
  collectF vl src floatText (sizeOf n) n

end Verif.Nixf.Outline
