import Verif.Model.FoldingRange
/-
Which nodes can be folded, and at which depth they are.
-/
namespace Verif.Nixf.Folding

/-- Sets, lists, lambdas, `let`, `with`, `if` and strings can be folded. -/
def Foldable : Node → Prop
  | .exprAttrs .. | .exprList .. | .exprLambda .. | .exprLet .. | .exprWith .. | .exprIf .. | .exprString .. => True
  | _ => False

/-- The parts of a node that are looked at: neither the arguments of lambdas nor interpolations in strings. -/
def kids (n : Node) : List Node :=
  match n with
  | .exprAttrs _ b _ _ _ => b.children
  | .exprLambda _ _ body => [body]
  | .exprLet _ _ _ e a => [a, e]
  | .exprWith _ _ _ w e => [w, e]
  | .exprIf _ c t e => [c, t, e]
  | .exprString .. => []
  | n => n.children

/-- `m` is `d` levels below `n`. -/
inductive Below : Node → Nat → Node → Prop
  | here (n) : Below n 0 n
  | step (n c d m) : c ∈ kids n → Below c d m → Below n (d + 1) m

/-- The line of this number, without the line break. -/
def lineAt (src : Bytes) : Nat → Bytes
  | 0 => src.takeWhile (· ≠ 10)
  | i + 1 => lineAt ((src.dropWhile (· ≠ 10)).drop 1) i

/-- What a client makes of what it gets: start and end, line and character; a missing character is the end of the line. -/
def seen (src : Bytes) (s : Sent) : Nat × Nat × Nat × Nat :=
  (s.startLine, s.startCharacter.getD (SourceCode.lspLength (lineAt src s.startLine)),
   s.endLine, s.endCharacter.getD (SourceCode.lspLength (lineAt src s.endLine)))

end Verif.Nixf.Folding
