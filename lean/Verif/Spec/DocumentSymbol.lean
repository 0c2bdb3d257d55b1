import Verif.Spec.SemanticTokens
import Verif.Lemmas.Positions
import Verif.Model.DocumentSymbol
/-
The outline of a program: which symbols there are, and what the protocol asks of them. Only the types `Symbol` and
`SymbolKind` are those of the model.
-/
namespace Verif.Nixf.Outline
open SourceCode Server Draft Scoping SemanticTokens

/-- A symbol is somewhere in a forest of symbols. -/
inductive Listed : List Symbol → Symbol → Prop
  | here (ss s) : s ∈ ss → Listed ss s
  | inner (ss t s) : t ∈ ss → Listed t.children s → Listed ss s

/-- `PosLe`: not after. A range, from start to end, inside another one. -/
def Within (a b : LRange) : Prop := PosLe b.start a.start ∧ PosLe a.start a.stop ∧ PosLe a.stop b.stop

/-- Where the outline goes on: not into strings, attribute names, arguments of lambdas and names of attributes. -/
def outlineParts : Node → List Node
  | .exprString .. | .exprInt .. | .exprFloat .. | .attrNameID .. | .attrNameString .. | .attrNameInterp .. | .exprVar .. => []
  | .exprLambda _ _ e => [e]
  | .exprAttrs _ _ _ st dy => (st ++ dy).map attrValue
  | n => n.children

/-- The nodes that the outline gets to. -/
inductive Visited (root : Node) : Node → Prop
  | here : Visited root root
  | down (n c) : Visited root n → c ∈ outlineParts n → Visited root c

/-- The description and the kind of a variable, and whether it is shown as deprecated. -/
def classSymbol : VarClass → Bytes × SymbolKind × Bool
  | .bool => (b!"builtin boolean", .boolean, false)
  | .null => (b!"null", .null, false)
  | .bound => (b!"identifier", .constant, false)
  | .global => (b!"identifier", .event, false)
  | .fromWith => (b!"identifier", .variable, false)
  | .unknown => (b!"identifier", .variable, true)

/-- What is said of a node: name, description, kind, deprecated, range and selected range. -/
structure Row where
  name : Bytes
  detail : Bytes
  kind : SymbolKind
  deprecated : Bool
  range : CRange
  selection : CRange

/-- The symbols of a node. -/
inductive Rows (P : PrimOps) (floatText : Bytes → Bytes) (root : Node) : Node → Row → Prop
  | text (h hp t) : Rows P floatText root (.exprString h (.parts hp [.text t])) ⟨t, b!"string", .string, false, h.range, h.range⟩
  | string (h p) : (∀ hp t, p ≠ .parts hp [.text t]) →
      Rows P floatText root (.exprString h p) ⟨b!"(dynamic string)", b!"string", .string, false, h.range, h.range⟩
  | nat (h i) : 0 ≤ i → Rows P floatText root (.exprInt h i) ⟨natDigits i.toNat, b!"integer", .number, false, h.range, h.range⟩
  | float (h t) : Rows P floatText root (.exprFloat h t) ⟨floatText t, b!"float", .number, false, h.range, h.range⟩
  | nameID (h i) : Rows P floatText root (.attrNameID h i) ⟨i.name, b!"attribute name", .property, false, h.range, h.range⟩
  | nameText (h h' hp t) : Rows P floatText root (.attrNameString h (.exprString h' (.parts hp [.text t]))) ⟨t, b!"attribute name", .property, false, h.range, h.range⟩
  | nameString (h n) : (∀ h' hp t, n ≠ .exprString h' (.parts hp [.text t])) →
      Rows P floatText root (.attrNameString h n) ⟨b!"(dynamic attribute name)", b!"attribute name", .property, false, h.range, h.range⟩
  | nameInterp (h n) : Rows P floatText root (.attrNameInterp h n) ⟨b!"(dynamic attribute name)", b!"attribute name", .property, false, h.range, h.range⟩
  | var (Δ v c) : Occurs root Δ v → IsClass P Δ (varName v) c →
      Rows P floatText root v ⟨varName v, (classSymbol c).1, (classSymbol c).2.1, (classSymbol c).2.2, v.range, v.range⟩
  | lambda (h ha i f e) : i.isNull = false →
      Rows P floatText root (.exprLambda h (.lambdaArg ha i f) e) ⟨i.name, b!"lambda", .function, false, h.range, i.range⟩
  | anonymous (h ha f e) :
      Rows P floatText root (.exprLambda h (.lambdaArg ha .null f) e) ⟨b!"(anonymous lambda)", b!"lambda", .function, false, h.range, f.range⟩
  | list (h es) : Rows P floatText root (.exprList h es) ⟨b!"{anonymous}", b!"list", .array, false, h.range, h.range⟩
  | attr (h b r st dy x k v kind) : .attr x k v kind ∈ st →
      Rows P floatText root (.exprAttrs h b r st dy) ⟨x, b!"attribute", .field, false, ⟨k.range.l, v.range.r⟩, k.range⟩
  | dynamic (h b r st dy x k v kind) : .attr x k v kind ∈ dy →
      Rows P floatText root (.exprAttrs h b r st dy) ⟨b!"${dynamic attribute}", b!"attribute", .field, false, ⟨k.range.l, v.range.r⟩, k.range⟩

end Verif.Nixf.Outline
