import Verif.Spec.Parents
/-
Positions and the nodes around them. Lines and columns are compared directly.
-/
namespace Verif.Nixf

/-- `p` is not after `q`. -/
def Before (p q : Pos) : Prop := p.line < q.line ∨ (p.line = q.line ∧ p.column ≤ q.column)

/-- `p` is before `q`. -/
def StrictlyBefore (p q : Pos) : Prop := p.line < q.line ∨ (p.line = q.line ∧ p.column < q.column)

/-- The range of the node contains the range `r`; its ends may coincide. -/
def Covers (n : Node) (r : PosRange) : Prop := Before n.lCur.position r.b ∧ Before r.e n.rCur.position

/-- The range of the node contains the range `r`, which is not just an empty range at its beginning or at its end. -/
def CoversInside (n : Node) (r : PosRange) : Prop :=
  Covers n r ∧ StrictlyBefore n.lCur.position r.e ∧ StrictlyBefore r.b n.rCur.position

end Verif.Nixf
