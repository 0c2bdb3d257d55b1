import Verif.Model.Parser
import Verif.Spec.Prec
/-
What the operator parser reads: a sequence of operands (results of `parseExprApp`) and operator tokens, one after the
other, as a relation between parser states. No grouping is involved.
-/
namespace Verif.Nixf.Prec

/-- The two states differ in diagnostics and bookkeeping only: no token is read between them. -/
structure Quiet (s s' : PState) : Prop where
  src : s'.lex.src = s.lex.src
  rem : s'.lex.rem = s.lex.rem
  cur : s'.lex.cur = s.lex.cur
  buf : s'.buf = s.buf
  eaten : s'.eaten = s.eaten
  states : s'.states = s.states
  sync : s'.sync = s.sync

/-- What is read. `nonassoc`, `missing` and `or_` are errors: the next operator is reported as not associative, an operator
has no right operand, `or` is used as an operator. -/
inductive RItem
  | ok (i : Item)
  | nonassoc
  | missing
  | or_

/-- Reading `is` takes the parser from `s` to `s'`. -/
inductive Reads (R : Rec) (k : Nat) : PState → List RItem → PState → Prop
  | nil (s) : Reads R k s [] s
  | quiet (s s1 s2 is) : Quiet s s1 → Reads R k s1 is s2 → Reads R k s is s2
  | look (s t s1 s2 is) : peek 0 s = some (t, s1) → Reads R k s1 is s2 → Reads R k s is s2
  | operand (s n s1 s2 is) : parseExprApp R k s = some (n, s1) → n.isNull = false → Reads R k s1 is s2 →
      Reads R k s (.ok (.operand n) :: is) s2
  | bin (s t s1 s2 s3 is) : peek 0 s = some (t, s1) → (table (.bin t.kind)).isSome → pconsume s1 = some ((), s2) →
      Reads R k s2 is s3 → Reads R k s (.ok (.bin t.kind) :: is) s3
  | un (s t s1 s2 s3 is) : peek 0 s = some (t, s1) → (table (.un t.kind)).isSome → pconsume s1 = some ((), s2) →
      Reads R k s2 is s3 → Reads R k s (.ok (.un t.kind) :: is) s3
  | has (s t s1 s2 p s3 s4 is) : peek 0 s = some (t, s1) → t.kind = .question → pconsume s1 = some ((), s2) →
      (∃ s2', Quiet s2 s2' ∧ parseAttrPath R k s2' = some (p, s3)) → Reads R k s3 is s4 → Reads R k s (.ok (.has p) :: is) s4
  | nonassoc (s t s1 s2 s3 is) : peek 0 s = some (t, s1) → (table (.bin t.kind)).isSome →
      emitD { kind := .operatorNotAssociative, range := t.range } s1 = some ((), s2) → Reads R k s2 is s3 →
      Reads R k s (.nonassoc :: is) s3
  | missing (s c as s1 s2 s3 is) : parseExprApp R k s = some (.null, s1) → (∃ s1', Quiet s1 s1' ∧ diagNullExpr c as s1' = some ((), s2)) →
      Reads R k s2 is s3 → Reads R k s (.missing :: is) s3
  | or_ (s t s1 s2 s3 s4 is) : peek 0 s = some (t, s1) → t.kind = .kw_or →
      (∃ d, d.kind = .keywordOrIsNotBinaryOp ∧ emitD d s1 = some ((), s2)) → pconsume s2 = some ((), s3) →
      Reads R k s3 is s4 → Reads R k s (.or_ :: is) s4

/-- Nothing read was an error. -/
def Clean (is : List RItem) : Prop := ∀ i ∈ is, ∃ j, i = .ok j

/-- The items. -/
def items (is : List RItem) : List Item := is.filterMap fun | .ok i => some i | _ => none

end Verif.Nixf.Prec
