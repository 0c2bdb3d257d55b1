import Verif.Lemmas.ReplaceTop
import Verif.Lemmas.Parts
import Verif.Lemmas.Grammar
import Verif.Props.Syntax
import Verif.Props.CodeAction
/-
C72: the text of a node is the source of its expression. C73: replacing the text of a node by other text replaces exactly this node.
-/
namespace Verif.Props
open Verif.Nixf Verif.Nixf.Syntax Node

/-- No syntax error is reported. -/
def NoErrors (s : PState) : Prop := ∀ d ∈ s.lex.diags, isSyntaxError d.kind = false

/-- The document is read without syntax errors, as the expression `t`. -/
def ReadAs (src : Bytes) (t : Syn) : Prop := ∃ a s, parse src = some (a, s) ∧ NoErrors s ∧ a.isNull = false ∧ syn a = t

theorem readAs_of {src : Bytes} {t : Syn} (h : Accepts src t) : ReadAs src t := C68_complete h

theorem syntaxOf_of {src : Bytes} {t : Syn} (h : ReadAs src t) : syntaxOf src = some (render t) := by
  obtain ⟨a, s, e, hc, -, rfl⟩ := h
  unfold syntaxOf
  rw [e]
  simp only
  rw [if_pos]
  rw [List.all_eq_true]
  intro d hd
  rw [hc d hd]; rfl

variable {src : Bytes} {root n : Node} {s : PState}

/-- Every expression, attribute name and binding among the nodes of the tree is a part of it. The exceptions are the string that an
attribute name is written as, and the set that the bindings of a `let` are kept in. -/
theorem C72_parts (h : parse src = some (root, s)) (hr : Reach root n) (hn : phrase n = true) :
    Part root n ∨ ∃ q, Part root q ∧ Reach root q ∧ Hidden q n := by
  refine (Reach.within hr hn (fun k hk => Grammar.reach_fits (Grammar.parse_class h).2 hk) (.here _)).2 ?_
  rcases (Grammar.parse_class h).1 with rfl | hx
  · rfl
  · exact isExpr_elements hx

/-- The text of an expression in a document without syntax errors is, as a document of its own, read as the same expression. -/
theorem C72_text (h : parse src = some (root, s)) (hc : NoErrors s) (hp : Part root n) (hn : n.isExpr = true) (ho : odd (syn n) = false) :
    ReadAs (n.src src) (syn n) := by
  obtain ⟨K, r0, gn, hK, -, -, -, e1, g, -, -⟩ := document_at h hc hp (by simp [placed, hn])
  have hE := gn.isExpr_of hK hn
  rw [e1] at g
  have := (G.toExpr hE g).alone (y := []) (by simpa [oddL] using ho) (by simp) (by simp) (Edge.stop fun d hd => by cases hd)
  rw [List.append_nil] at this
  exact readAs_of ⟨[], [], this, tok_eof⟩

/-- The text of an attribute name is an attribute name, and the text of a binding is a binding, whatever comes after it. -/
theorem C72_name (h : parse src = some (root, s)) (hc : NoErrors s) (hp : Part root n) (hn : isName n = true) (ho : odd (syn n) = false) (rest : Bytes)
    (hr : Edge (src.drop n.rCur.offset) rest (n.src src)) : G .name (n.src src ++ rest) [syn n] rest := by
  obtain ⟨K, r0, gn, hK, -, -, -, e1, g, -, -⟩ := document_at h hc hp (by simp [placed, hn])
  have hE := gn.isName_of hK hn
  subst hE
  rw [e1] at g
  exact g.alone (nt := .name) (by simpa [oddL] using ho) (by simp) (by simp) hr

theorem C72_binding (h : parse src = some (root, s)) (hc : NoErrors s) (hp : Part root n) (hn : isBind n = true) (ho : odd (syn n) = false) (rest : Bytes)
    (hr : Edge (src.drop n.rCur.offset) rest (n.src src)) : G .binds (n.src src ++ rest) [syn n] rest := by
  obtain ⟨K, r0, gn, hK, -, -, -, e1, g, -, -⟩ := document_at h hc hp (by simp [placed, hn])
  have hE := gn.isBind_of hK hn
  subst hE
  rw [e1] at g
  exact g.alone (nt := .binds) (by simpa [oddL] using ho) (by simp) (by simp) hr

/-- A text that is a phrase by itself. -/
def Text (nt : NT) (w : Bytes) (t : Syn) : Prop := G nt w [t] [] ∧ odd t = false

/-- What may come to the place of a node: a simple expression, a name, or a binding. -/
def slotOf (n : Node) : NT := if n.isExpr then .simple else if isName n then .name else .binds

/-- The text `w` may come to the place of a node with this range: what is before it ends in white space, a bracket, a semicolon or a quote, or `w`
begins with one (a brace only in place of a brace) or with a comma or a question mark (in place of the same, or after text without colons), and likewise for what is
after it. -/
def Fitting (src : Bytes) (r : CRange) (w : Bytes) : Prop :=
  Edge (src.drop r.l.offset) (w ++ src.drop r.r.offset) (src.take r.l.offset) ∧ Edge [] (src.drop r.r.offset) w

theorem G.after {nt : NT} {w rest : Bytes} {t : Syn} (h : Text nt w t) (hn : ∀ R, nt ≠ .body R) (hp : nt ≠ .pbody) (hr : Edge [] rest w) :
    G nt (w ++ rest) [t] rest := by
  have h1 := h.1
  rw [← List.append_nil w] at h1
  exact h1.alone (by simpa [oddL] using h.2) hn hp hr

/-- If the text of a node is replaced by another phrase that fits, then the new document has no syntax errors either, and is the old one
with exactly this node replaced. Only functions that are called have to remain ones that nixd allows to be called. -/
theorem C73_replace (h : parse src = some (root, s)) (hc : NoErrors s) (ho : odd (syn root) = false) (hp : Part root n) (hn : placed n = true)
    {w : Bytes} {t : Syn} (hw : Text (slotOf n) w t) (hcall : (∃ h as, Part root (.exprCall h n as)) → callable (syn n) = true → callable t = true)
    (hf : Fitting src n.range w) :
    ∃ t2, ReadAs (spliced src n.range w) t2 ∧ Swap (syn n) t (syn root) t2 := by
  obtain ⟨K, r0, gn, hK, -, -, -, -, -, -, H⟩ := document_at h hc hp hn
  have key : G K.fill (w ++ src.drop n.rCur.offset) [t] (src.drop n.rCur.offset) := by
    unfold slotOf at hw
    by_cases h1 : n.isExpr = true
    · rw [if_pos h1] at hw
      exact G.simple_fill (gn.isExpr_of hK h1) (G.after hw (by simp) (by simp) hf.2)
    · rw [if_neg h1] at hw
      by_cases h2 : isName n = true
      · rw [if_pos h2] at hw
        have := gn.isName_of hK h2
        subst this
        exact G.after (nt := .name) hw (by simp) (by simp) hf.2
      · rw [if_neg h2] at hw
        have h3 : isBind n = true := by
          simp only [placed, Bool.or_eq_true] at hn
          exact hn.resolve_left fun h => h.elim h1 h2
        have := gn.isBind_of hK h3
        subst this
        exact G.after (nt := .binds) hw (by simp) (by simp) hf.2
  obtain ⟨t2, a1, a2⟩ := H [] (src.drop n.lCur.offset) (w ++ src.drop n.rCur.offset) t ho rfl (by rw [List.append_nil]; exact hf.1) key fun _ => hcall
  rw [List.nil_append, ← List.append_assoc] at a1
  exact ⟨t2, readAs_of a1, a2⟩

/-- Functions, conditionals, assertions, `with` and `let` may be replaced by any expression. -/
theorem C73_statement (h : parse src = some (root, s)) (hc : NoErrors s) (ho : odd (syn root) = false) (hp : Part root n) (hn : isOpen n = true)
    {w : Bytes} {t : Syn} (hw : Text .expr w t) (hf : Fitting src n.range w) : ∃ t2, ReadAs (spliced src n.range w) t2 ∧ Swap (syn n) t (syn root) t2 := by
  have hx : n.isExpr = true := by cases n <;> first | rfl | cases hn
  obtain ⟨K, r0, gn, hK, -, -, -, -, -, -, H⟩ := document_at h hc hp (by simp [placed, hx])
  have hE := gn.isExpr_of hK hx
  have : K = .expr := by
    by_contra hne
    have := gn.closed.1 hE hne n rfl
    rw [hn] at this; cases this
  subst this
  obtain ⟨t2, a1, a2⟩ := H [] (src.drop n.lCur.offset) (w ++ src.drop n.rCur.offset) t ho rfl (by rw [List.append_nil]; exact hf.1)
    (G.after hw (by simp) (by simp) hf.2) fun h => by rcases h with h | h <;> cases h
  rw [List.nil_append, ← List.append_assoc] at a1
  exact ⟨t2, readAs_of a1, a2⟩

/-- Text in parentheses, brackets or double quotes fits everywhere. -/
theorem fits_closed {c d : UInt8} {w : Bytes} (hc : c ∈ b!"([\"") (hd : d ∈ b!")]\"") : Fitting src n.range (c :: w ++ [d]) := by
  have f1 : ∀ c : UInt8, c ∈ b!"([\"" → stops c = true ∧ c ≠ 123 := by apply forall_byte; decide +kernel
  have f2 : ∀ c : UInt8, c ∈ b!")]\"" → hard c = true := by apply forall_byte; decide +kernel
  refine ⟨Edge.stop fun x hx => ?_, .inr fun x hx => ?_⟩
  · simp at hx
    subst hx
    exact ⟨(f1 _ hc).1, fun h => absurd h (f1 _ hc).2⟩
  · rw [List.getLast?_concat] at hx
    cases hx
    exact f2 _ hd

/-- Everything may be replaced by an expression in parentheses. -/
theorem C73_parentheses (h : parse src = some (root, s)) (hc : NoErrors s) (ho : odd (syn root) = false) (hp : Part root n) (hn : n.isExpr = true)
    {w : Bytes} {t : Syn} (hw : Text .expr w t) : ∃ t2, ReadAs (spliced src n.range (b!"(" ++ w ++ b!")")) t2 ∧ Swap (syn n) (.paren t) (syn root) t2 := by
  refine C73_replace h hc ho hp (by simp [placed, hn]) ?_ (fun _ _ => rfl) (fits_closed (by decide) (by decide))
  unfold slotOf
  rw [if_pos hn]
  refine ⟨?_, by simpa [odd] using hw.2⟩
  have g : G .expr (w ++ b!")") [t] b!")" := G.after hw (by simp) (by simp) (Edge.stop fun d hd => by simp at hd; subst hd; decide)
  exact .paren (tok_lparen _) g (tok_rparen [])

/-- The parts of the document, one level down. -/
def partsOf (src : Bytes) : List Node :=
  match parse src with
  | some (r, s) => if s.lex.diags.isEmpty && !odd (syn r) then inner r else []
  | none => []

example : (partsOf b!"f (x: y) 1").map (fun n => (n.isExpr, n.src b!"f (x: y) 1", syntaxOf (n.src b!"f (x: y) 1"))) =
    [(true, b!"f", some b!"f"), (true, b!"(x: y)", some b!"((fun x y))"), (true, b!"1", some b!"1")] := by decide +kernel
example : (partsOf b!"f (x: y) 1").map (fun n => spliced b!"f (x: y) 1" n.range b!"(a b)") = [b!"(a b) (x: y) 1", b!"f (a b) 1", b!"f (x: y) (a b)"] := by
  decide +kernel
example : [b!"(a b) (x: y) 1", b!"f (a b) 1", b!"f (x: y) (a b)"].map syntaxOf =
    [some b!"(call ((call a b)) ((fun x y)) 1)", some b!"(call f ((call a b)) 1)", some b!"(call f ((fun x y)) ((call a b)))"] := by decide +kernel
example : (partsOf b!"{ a = 1; inherit b; }").map (fun n => (isBind n, spliced b!"{ a = 1; inherit b; }" n.range b!"inherit x;")) =
    [(true, b!"{ inherit x; inherit b; }"), (true, b!"{ a = 1; inherit x; }")] := by decide +kernel

/-- Without white space or brackets in between, the new text may be read together with its neighbours. -/
example : (partsOf b!"[\"a\"1]").map (fun n => (n.src b!"[\"a\"1]", spliced b!"[\"a\"1]" n.range b!"x")) =
      [(b!"\"a\"", b!"[x1]"), (b!"1", b!"[\"a\"x]")] ∧ syntaxOf b!"[\"a\"1]" = some b!"[ \"a\" 1 ]" ∧ syntaxOf b!"[x1]" = some b!"[ x1 ]" := by
  decide +kernel

end Verif.Props
