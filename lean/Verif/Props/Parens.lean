import Verif.Lemmas.StringRewrite
import Verif.Props.Replace
import Verif.Props.Reported
/-
C81: redundant parentheses are reported exactly, and removing them as proposed keeps the expression.
-/
namespace Verif.Props
open Verif.Nixf Verif.Nixf.Syntax Verif.Nixf.Reports Node

/-- The text after the edits of a fix, which are in the order of the text. -/
def fixed (src : Bytes) : List TextEdit → Bytes
  | [] => src
  | e :: es => spliced (fixed src es) e.oldRange e.newText

/-- What is reported for redundant parentheses: the opening one is faded, and the fix removes both, or the only one that is there. -/
def redundant (l r : Node) : Diagnostic :=
  { kind := .redundantParen, range := l.range, tags := [.faded],
    fixes := [if r.isNull then { message := b!"remove (", edits := [⟨l.range, []⟩] }
      else { message := b!"remove ( and )", edits := [⟨l.range, []⟩, ⟨r.range, []⟩] }] }

theorem parenDiag_eq (l r : Node) : parenDiag l r = redundant l r := by
  unfold parenDiag redundant redundantParenDiag
  cases r.isNull <;> rfl

/-- Variables, numbers, strings, paths, sets, lists, and what is in parentheses itself. -/
def inUnit : Node → Bool
  | .exprVar .. | .exprInt .. | .exprFloat .. | .exprSPath .. | .exprString .. | .exprPath .. | .exprParen .. | .exprAttrs .. | .exprList .. => true
  | _ => false

theorem inUnit_eq (n : Node) : n.mayProducedBySimple = inUnit n := by cases n <;> rfl

/-- **C81.** Redundant parentheses are reported exactly for the parentheses around simple expressions, in all documents. -/
theorem C81_reported {src : Bytes} {n : Node} {s : PState} (hp : parse src = some (n, s)) (d : Diagnostic) :
    (d ∈ s.lex.diags ∧ d.kind = .redundantParen) ↔ ∃ h e l r, Reach n (.exprParen h e l r) ∧ inUnit e = true ∧ d = redundant l r := by
  have hP : ∀ x, (x = d ∧ d.kind = .redundantParen) → isSema x.kind = true := by rintro _ ⟨rfl, h⟩; rw [h]; rfl
  constructor
  · rintro ⟨hd, hk⟩
    obtain ⟨x, hr, ha, hm⟩ := parse_may hp hP ⟨d, hd, rfl, hk⟩
    cases x <;> try exact ha.elim
    case exprAttrs h b r st dy =>
      obtain ⟨s0, ds, h1, _, h2, rfl, -⟩ := hm
      have := (attrs_kinds h1 h2).1
      rw [hk] at this; cases this
    case formals h ms =>
      obtain ⟨s0, ds, h1, _, h2, rfl, -⟩ := hm
      have := formals_kinds h1 h2
      rw [hk] at this; cases this
    case lambdaArg h i f =>
      obtain ⟨s0, ds, h1, _, h2, rfl, -⟩ := hm
      rw [arg_kinds h1 h2] at hk; cases hk
    case exprParen h e l r =>
      obtain ⟨h1, rfl, -⟩ := hm
      exact ⟨h, e, l, r, hr, inUnit_eq e ▸ h1, parenDiag_eq l r⟩
  · rintro ⟨h, e, l, r, hr, h1, rfl⟩
    obtain ⟨_, h2, rfl, h3⟩ := parse_must hp hP hr (x := .exprParen h e l r) trivial ⟨inUnit_eq e ▸ h1, parenDiag_eq l r, rfl⟩
    exact ⟨h2, h3⟩

/-- Parentheses that are reported are simple expressions themselves. -/
theorem paren_at {src : Option Bytes} {K : Syntax.NK} {r r' : Bytes} {hd : Hd} {e l q : Node} (h : GN src K r [.exprParen hd e l q] r') (hK : K.isExpr = true) :
    ∃ v1 r1 r2 v2, Tok r .l_paren v1 r1 ∧ GN src .expr r1 [e] r2 ∧ Tok r2 .r_paren v2 r' ∧ Spans src l.range r r1 ∧ Spans src q.range r2 r' := by
  have := (h.ofSimple rfl rfl).1 hK
  cases this with
  | paren a b c d e f => exact ⟨_, _, _, _, a, b, c, e, f⟩

theorem inUnit_simple {n : Node} (h : inUnit n = true) : isSimple n = true := by
  cases n <;> first | rfl | cases h

theorem Tok.l_paren {r v r' : Bytes} (t : Tok r .l_paren v r') : v = b!"(" := t.punct (by decide) (by decide) (by decide)

theorem Tok.r_paren {r v r' : Bytes} (t : Tok r .r_paren v r') : v = b!")" := t.punct (by decide) (by decide) (by decide)

/-- The text between the parentheses. -/
def between (src : Bytes) (l r : Node) : Bytes := (src.drop l.rCur.offset).take (r.lCur.offset - l.rCur.offset)

/-- **C81.** In a document without syntax errors, applying the fix removes exactly the parentheses: the new document has no syntax errors either, and is
read as the old one with the contents in place of the parentheses. This holds if nothing stands between the contents and the closing parenthesis, if
the contents do not run into what is before or after them, and if nothing is called that nixd does not allow to be called. -/
theorem C81_fix {src : Bytes} {root : Node} {s : PState} {hd : Hd} {e l r : Node} (h : parse src = some (root, s)) (hc : NoErrors s)
    (ho : odd (syn root) = false) (hreach : Reach root (.exprParen hd e l r)) (he : inUnit e = true) (hend : e.rCur.offset = r.lCur.offset)
    (hcall : (∃ h as, Part root (.exprCall h (.exprParen hd e l r) as)) → callable (syn e) = true)
    (hl : Edge (src.drop l.lCur.offset) (between src l r ++ src.drop r.rCur.offset) (src.take l.lCur.offset))
    (hr : Edge (src.drop r.lCur.offset) (src.drop r.rCur.offset) (between src l r)) :
    redundant l r ∈ s.lex.diags ∧ ∃ f t2, (redundant l r).fixes = [f] ∧ ReadAs (fixed src f.edits) t2 ∧ Swap (.paren (syn e)) (syn e) (syn root) t2 := by
  have hp : Part root (.exprParen hd e l r) := by
    rcases C72_parts h hreach rfl with h1 | ⟨q, -, -, h1⟩
    · exact h1
    · rcases h1 with ⟨⟨_, _, h2⟩, -⟩ | ⟨⟨_, _, _, _, _, h2⟩, -⟩ <;> cases h2
  obtain ⟨K, r0, gn, hK, e1, -, hle, -, -, hodd, H⟩ := document_at h hc hp rfl
  have hE := gn.isExpr_of hK rfl
  have hsp := gn.place hE
  obtain ⟨v1, r1, r2, v2, t1, g, t2, s1, s2⟩ := paren_at gn hE
  obtain rfl := Tok.l_paren t1
  obtain rfl := Tok.r_paren t2
  have p1 : src.drop l.lCur.offset = skip r0 := s1.1 src rfl
  have p2 : src.drop l.rCur.offset = r1 := s1.2 src rfl
  have p3 : src.drop r.lCur.offset = skip r2 := s2.1 src rfl
  have p4 : src.drop r.rCur.offset = src.drop (Node.exprParen hd e l r).rCur.offset := s2.2 src rfl
  have p5 : src.drop e.rCur.offset = r2 := (g.place rfl).2 src rfl
  have x1 := t1.text
  have x2 := t2.text
  rw [← p4] at x2
  have q2 : r2 = skip r2 := p5.symm.trans (by rw [hend, p3])
  -- lengths
  have n1 := congrArg List.length p1
  have n2 := congrArg List.length p2
  have n3 := congrArg List.length p3
  have n0 := congrArg List.length x1
  have n5 := congrArg List.length x2
  have n4 := g.suf.length_le
  have n6 := congrArg List.length q2
  simp only [List.length_drop, List.length_append, List.length_cons, List.length_nil] at n0 n1 n2 n3 n4 n5 n6
  have o1 : l.rCur.offset = l.lCur.offset + 1 := by omega
  have o3 : l.rCur.offset ≤ r.lCur.offset := by omega
  have hnull : r.isNull = false := by
    cases r with
    | null =>
      have : Node.null.lCur.offset = 0 := rfl
      omega
    | _ => rfl
  have b1 : r1 = between src l r ++ r2 := by
    unfold between
    rw [q2, ← p3, ← p2]
    conv_lhs => rw [← List.take_append_drop (r.lCur.offset - l.rCur.offset) (src.drop l.rCur.offset), List.drop_drop, Nat.add_sub_cancel' o3]
  have ho' : odd (syn e) = false := by
    have := hodd ho
    simpa [syn, odd] using this
  have g1 : GN (some src) .simple r1 [e] r2 := (g.ofSimple rfl (inUnit_simple he)).1 rfl
  have g2 : G .simple r1 [syn e] r2 := g1.toG
  rw [b1] at g2
  have g3 : G .simple (between src l r ++ src.drop r.rCur.offset) [syn e] (src.drop r.rCur.offset) := by
    refine g2.alone (nt := .simple) (by simpa [oddL] using ho') (by simp) (by simp) ?_
    rw [q2, ← p3]; exact hr
  have key := G.simple_fill hE g3
  have m1 : (Node.exprParen hd e l r).lCur.offset = l.lCur.offset := by
    have := congrArg List.length (hsp.1 src rfl)
    have e2 : (src.drop (Node.exprParen hd e l r).lCur.offset).length = (skip r0).length := this
    rw [List.length_drop] at e2
    omega
  rw [m1] at H
  rw [← p4] at H
  obtain ⟨t', a1, a2⟩ := H [] (src.drop l.lCur.offset) (between src l r ++ src.drop r.rCur.offset) (syn e) ho rfl
    (by rw [List.append_nil]; exact hl) key (fun _ hx _ => hcall hx)
  refine ⟨((C81_reported h _).mpr ⟨hd, e, l, r, hreach, he, rfl⟩).1, ⟨b!"remove ( and )", [⟨l.range, []⟩, ⟨r.range, []⟩]⟩, t', ?_, ?_, a2⟩
  · simp [redundant, hnull]
  · have : fixed src [⟨l.range, []⟩, ⟨r.range, []⟩] = src.take l.lCur.offset ++ ([] ++ (between src l r ++ src.drop r.rCur.offset)) := by
      show spliced (spliced src r.range []) l.range [] = _
      unfold spliced between
      have w1 : l.range.l.offset ≤ r.range.l.offset := by show l.lCur.offset ≤ r.lCur.offset; omega
      have w2 : l.range.r.offset ≤ r.range.l.offset := o3
      have w3 : r.range.l.offset ≤ src.length := by show r.lCur.offset ≤ _; omega
      have wl : (src.take r.range.l.offset).length = r.range.l.offset := by simp [w3]
      show List.take l.range.l.offset (src.take r.range.l.offset ++ [] ++ src.drop r.range.r.offset) ++ [] ++
        List.drop l.range.r.offset (src.take r.range.l.offset ++ [] ++ src.drop r.range.r.offset) =
        src.take l.range.l.offset ++ ([] ++ ((src.drop l.range.r.offset).take (r.range.l.offset - l.range.r.offset) ++ src.drop r.range.r.offset))
      rw [List.append_nil, List.append_nil, List.nil_append, List.take_append_of_le_length (by omega), List.drop_append_of_le_length (by omega),
        List.take_take, Nat.min_eq_left w1, List.drop_take]
    rw [this]
    exact readAs_of a1

/-- The documents after the fixes for redundant parentheses. -/
def parenFixes (src : Bytes) : List Bytes :=
  match parse src with
  | some (_, s) => (s.lex.diags.filter fun d => d.kind == .redundantParen).flatMap fun d => d.fixes.map fun f => fixed src f.edits
  | none => []

example : parenFixes b!"f (x) [ (1) (\"a\").b ] (y z)" =
    [b!"f x [ (1) (\"a\").b ] (y z)", b!"f (x) [ 1 (\"a\").b ] (y z)", b!"f (x) [ (1) \"a\".b ] (y z)"] := by decide +kernel
example : (parenFixes b!"f (x) [ (1) (\"a\").b ]").map syntaxOf =
    [some b!"(call f x [ (1) (select (\"a\") b) ])", some b!"(call f (x) [ 1 (select (\"a\") b) ])", some b!"(call f (x) [ (1) (select \"a\" b) ])"] := by
  decide +kernel
example : parenFixes b!"(x" = [b!"x"] ∧ parenFixes b!"(a b)" = [] := by decide +kernel

/-- The conditions of `C81_fix` hold for the parentheses around the argument. -/
def parenOk (src : Bytes) : Bool :=
  match parse src with
  | some (.exprCall h f [.exprParen hd e l r], s) =>
    s.lex.diags.all (fun d => !isSyntaxError d.kind) && !odd (syn (.exprCall h f [.exprParen hd e l r])) && inUnit e && (e.rCur.offset == r.lCur.offset) &&
      (src.take l.lCur.offset).getLast?.all hard && ((src.drop r.rCur.offset).head?.all fun d => stops d && d != 123)
  | _ => false

example : parenOk b!"f (x)" = true ∧ parenOk b!"f (1) " = true ∧ parenOk b!"f (\"a\") # comment" = true ∧ parenOk b!"f(x)" = false := by decide +kernel

/-- **C81 is violated** when the contents touch what is before or after the parentheses: what was a difference becomes a variable, what was a call
becomes another variable, and the name of the attribute becomes a part of the path. -/
theorem C81_joined_violated :
    (parenFixes b!"(a)-b" = [b!"a-b"] ∧ syntaxOf b!"(a)-b" = some b!"(- (a) b)" ∧ syntaxOf b!"a-b" = some b!"a-b") ∧
    (parenFixes b!"f(x)" = [b!"fx"] ∧ syntaxOf b!"f(x)" = some b!"(call f (x))" ∧ syntaxOf b!"fx" = some b!"fx") ∧
    (parenFixes b!"(./a).b" = [b!"./a.b"] ∧ syntaxOf b!"(./a).b" = some b!"(select ((path ./a)) b)" ∧ syntaxOf b!"./a.b" = some b!"(path ./a.b)") := by
  decide +kernel

/-- **C81 is violated** for sets that are called: without the parentheses nixd reports a syntax error. -/
theorem C81_called_violated : parenFixes b!"({ __functor = s: x: x; }) 1" = [b!"{ __functor = s: x: x; } 1"] ∧
    (syntaxOf b!"({ __functor = s: x: x; }) 1").isSome = true ∧ syntaxOf b!"{ __functor = s: x: x; } 1" = none := by
  decide +kernel

end Verif.Props
