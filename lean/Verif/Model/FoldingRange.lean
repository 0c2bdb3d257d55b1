import Verif.Model.Server
import Verif.Model.ParentMap
/-
Folding ranges. Models nixd/lib/Controller/FoldingRange.cpp and `toJSON(const FoldingRange &)` of
nixd/lspserver/src/Protocol.cpp.

The argument of the recursive function is the number of levels left, `MaxRecursionDepth - Depth`. Ranges are returned
instead of appended to a vector.
-/
namespace Verif.Nixf.Folding
open SourceCode Server

/-- `MaxRecursionDepth` (FoldingRange.cpp:26). -/
def maxDepth : Nat := 256

/-- `isMultiLine` (FoldingRange.cpp:29-31). -/
def isMultiLine (r : LRange) : Bool := decide (r.start.line < r.stop.line)

/-- `lspserver::FoldingRange` (Protocol.h:1943-1953). -/
structure FoldingRange where
  startLine : Nat
  startCharacter : Nat
  endLine : Nat
  endCharacter : Nat
  kind : Bytes
deriving DecidableEq, Repr

/-- `toFoldingRange` (FoldingRange.cpp:34-42). The conversions from `int64_t` to `unsigned` are those of numbers below
2^32. -/
def toFoldingRange (r : LRange) : FoldingRange :=
  ⟨r.start.line.toNat, r.start.character.toNat, r.stop.line.toNat, r.stop.character.toNat, b!"region"⟩

/-- `addFoldingRange` (FoldingRange.cpp:45-50). -/
def addRange (src : Bytes) (n : Node) : List FoldingRange :=
  if isMultiLine (toLSPRange src n.range) then [toFoldingRange (toLSPRange src n.range)] else []

/-- `collectFoldingRanges` (FoldingRange.cpp:57-133). -/
def collect (src : Bytes) : Nat → Node → List FoldingRange
  | 0, _ => []
  | k + 1, n =>
    match n with
    | .exprAttrs _ b _ _ _ => addRange src n ++ b.children.flatMap (collect src k)
    | .exprList .. => addRange src n ++ n.children.flatMap (collect src k)
    | .exprLambda _ _ body => addRange src n ++ collect src k body
    | .exprLet _ _ _ e a => addRange src n ++ collect src k a ++ collect src k e
    | .exprWith _ _ _ w e => addRange src n ++ collect src k w ++ collect src k e
    | .exprIf _ c t e => addRange src n ++ collect src k c ++ collect src k t ++ collect src k e
    | .exprString .. => addRange src n
    | n => n.children.flatMap (collect src k)

/-- `onFoldingRange` (FoldingRange.cpp:135-155) on a tree. -/
def foldingRanges (src : Bytes) (n : Node) : List FoldingRange := collect src maxDepth n

/-- The JSON object sent for a range: line and character of both ends, where a field may be missing. -/
structure Sent where
  startLine : Nat
  startCharacter : Option Nat
  endLine : Nat
  endCharacter : Option Nat
  kind : Option Bytes
deriving DecidableEq, Repr

/-- `toJSON(const FoldingRange &)` (Protocol.cpp:1678-1690). -/
def toJSON (r : FoldingRange) : Sent :=
  { startLine := r.startLine
    startCharacter := if r.startCharacter ≠ 0 then some r.startCharacter else none
    endLine := r.endLine
    endCharacter := if r.endCharacter ≠ 0 then some r.endCharacter else none
    kind := if r.kind.isEmpty then none else some r.kind }

end Verif.Nixf.Folding
