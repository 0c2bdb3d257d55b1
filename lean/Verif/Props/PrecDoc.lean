import Verif.Props.Prec
import Verif.Spec.Definition
import Verif.Props.Replace
/-
C16 for documents: every operator expression of a document without syntax errors is grouped according to the table.
-/
namespace Verif.Props
open Nixf Prec Tr Syntax

theorem powers_bp (k : TK) : powers k = getBP k := by cases k <;> rfl
theorem unPower_bp {k : TK} {p : Nat} (h : unPower k = some p) : (k = .op_not ∨ k = .op_negate) ∧ rbp (.un k) = p := by
  cases k <;> simp only [unPower, reduceCtorEq, Option.some.injEq] at h <;> subst h <;> simp [rbp, getUnaryBP]

/-- The right binding powers of a tree are those of its abstract syntax. -/
theorem rightPowers_tr (n : Node) (h : BGrouped (tr n)) : rightPowers (syn n) = (rightSpine (tr n)).map rbp := by
  fun_induction tr n with
  | case1 _ _ k l r ihl ihr =>
    simp only [syn, rightPowers, rightSpine, List.map_cons]
    rw [ihr h.2.2.2.2, powers_bp]
    congr 1
    simp only [rbp]
    cases getBP k <;> rfl
  | case2 _ _ k e ih =>
    simp only [syn, rightPowers, rightSpine, List.map_cons]
    rw [ih h.2.2]
    congr 1
    rcases h.1 with rfl | rfl <;> rfl
  | case3 _ _ e p ih =>
    simp only [rightSpine, List.map_nil]
    cases p <;> simp only [syn, rightPowers]
  | case4 n h1 h2 h3 =>
    simp only [rightSpine, List.map_nil]
    cases n with
    | exprBinOp _ o _ _ => cases o <;> first | exact absurd rfl (h1 _ _ _ _ _) | rfl
    | exprUnaryOp _ o _ => cases o <;> first | exact absurd rfl (h2 _ _ _ _) | rfl
    | exprOpHasAttr => exact absurd rfl (h3 _ _ _ _)
    | _ => first | rfl | (unfold syn; split <;> first | rfl | (rename_i e; cases e))

theorem post_of {t : Tr} (h : BGrouped t) (hr : rightSpine t = []) : isPost t = true := by
  cases t with
  | leaf => rfl
  | bin | un => simp [rightSpine] at hr
  | has e p => exact h.1

/-- What the grammar says about operators. -/
def Groups : Syntax.NK → List Node → Prop
  | .expr, ns => ∀ n ∈ ns, BGrouped (tr n)
  | .op p, ns => ∀ n ∈ ns, BGrouped (tr n) ∧ ∀ o ∈ leftBins (tr n), p < lbp o
  | .atom, ns => ∀ n ∈ ns, BGrouped (tr n) ∧ leftBins (tr n) = []
  | .tail p l _, ns => BGrouped (tr l) → (∀ o ∈ leftBins (tr l), p < lbp o) → ∀ n ∈ ns, BGrouped (tr n) ∧ ∀ o ∈ leftBins (tr n), p < lbp o
  | _, ns => ∀ n ∈ ns, tr n = .leaf n

theorem leaf_grouped {n : Node} (h : tr n = .leaf n) : BGrouped (tr n) ∧ leftBins (tr n) = [] := by
  rw [h]; exact ⟨trivial, rfl⟩

theorem chars_leaf (v : Bytes) : ∀ n ∈ chars v, tr n = .leaf n := by
  intro n hn
  obtain ⟨c, -, rfl⟩ := List.mem_map.mp hn
  rfl

theorem gn_groups {src : Option Bytes} {K : Syntax.NK} {r r' : Bytes} {ns : List Node} (h : GN src K r ns r') : Groups K ns := by
  induction h with
  | op _ ih => exact fun n hn => (ih n hn).1
  | lambda | ite | assert | with_ | let_ | legacyLet => intro n hn; rw [List.mem_singleton.mp hn]; trivial
  | opr _ _ iha iht =>
    obtain ⟨h1, h2⟩ := iha _ (List.mem_singleton_self _)
    exact iht h1 (by rw [h2]; nofun)
  | app _ ih => exact fun n hn => leaf_grouped (ih n hn)
  | un _ hp _ _ ih =>
    intro n hn
    rw [List.mem_singleton.mp hn]
    obtain ⟨h1, h2⟩ := unPower_bp hp
    obtain ⟨h3, h4⟩ := ih _ (List.mem_singleton_self _)
    exact ⟨⟨h1, by rw [h2]; exact h4, h3⟩, rfl⟩
  | stop => intro h1 h2 n hn; rw [List.mem_singleton.mp hn]; exact ⟨h1, h2⟩
  | bin _ hp hlt hr _ _ _ ihe iht =>
    intro h1 h2
    obtain ⟨h3, h4⟩ := ihe _ (List.mem_singleton_self _)
    rw [powers_bp] at hp
    obtain ⟨e1, e2⟩ := lbp_of hp
    rw [rightPowers_tr _ h1] at hr
    refine iht ⟨by rw [hp]; rfl, fun o ho => ?_, fun o ho => ?_, h1, h3⟩ fun o ho => ?_
    · rw [e1]; exact hr _ (List.mem_map.mpr ⟨o, ho, rfl⟩)
    · rw [e2]; exact h4 o ho
    · simp only [tr, leftBins, leftSpine] at ho
      rw [List.filter_cons_of_pos (by simp)] at ho
      rcases List.mem_cons.mp ho with rfl | ho
      · rw [e1]; exact hlt
      · exact h2 o ho
  | has _ hr _ _ _ _ _ iht =>
    intro h1 h2
    rw [rightPowers_tr _ h1, List.map_eq_nil_iff] at hr
    exact iht ⟨post_of h1 hr, h1⟩ fun o ho => h2 o (by simpa [tr, leftBins, leftSpine] using ho)
  | hasNone _ hr _ _ _ iht =>
    intro h1 h2
    rw [rightPowers_tr _ h1, List.map_eq_nil_iff] at hr
    exact iht ⟨post_of h1 hr, h1⟩ fun o ho => h2 o (by simpa [tr, leftBins, leftSpine] using ho)
  | one _ ih | lastArg _ ih | simple _ ih | plain _ _ ih | comma _ _ ih => exact ih
  | moreArgs _ _ ih1 ih2 | elem _ _ ih1 ih2 | path _ _ ih1 ih2 | dot _ _ _ ih1 ih2 | names _ _ ih1 ih2 | members _ _ _ ih1 ih2 =>
    intro n hn
    rcases List.mem_cons.mp hn with rfl | hn
    · exact ih1 _ (List.mem_singleton_self _)
    · exact ih2 n hn
  | noElem | noDot | noName | noBind | noMember | close => nofun
  | binding _ _ _ _ _ _ _ _ _ ih | inherit _ _ _ _ _ _ ih | inheritFrom _ _ _ _ _ _ _ _ _ _ _ ih =>
    intro n hn
    rcases List.mem_cons.mp hn with rfl | hn
    · rfl
    · exact ih n hn
  | formals _ _ _ _ ih => exact ih
  | esc _ _ _ ih | dollar _ _ ih | ptext _ _ _ _ _ ih =>
    intro n hn
    rcases List.mem_append.mp hn with hn | hn
    · exact chars_leaf _ n hn
    · exact ih n hn
  | char _ _ _ _ ih =>
    intro n hn
    rcases List.mem_cons.mp hn with rfl | hn
    · rfl
    · exact ih n hn
  | interp _ _ _ _ _ _ _ ih =>
    intro n hn
    rcases List.mem_cons.mp hn with rfl | hn
    · rfl
    · exact ih n hn
  | pend => exact chars_leaf _
  | pinterp _ _ _ _ _ _ ih =>
    intro n hn
    rcases List.mem_append.mp hn with hn | hn
    · exact chars_leaf _ n hn
    · rcases List.mem_cons.mp hn with rfl | hn
      · rfl
      · exact ih n hn
  | _ => intro n hn; rw [List.mem_singleton.mp hn]; rfl

/-- **C16.** In a document without syntax errors, every operator expression whose operators are `Documented` is grouped according to
the table, whatever it is inside of. -/
theorem C16_document {src : Bytes} {root : Node} {s : PState} (h : parse src = some (root, s)) (hc : ∀ d ∈ s.lex.diags, isSyntaxError d.kind = false)
    {n : Node} (hr : Reach root n) (hd : Documented (tr n).yield) : Grouped (tr n) := by
  refine grouped_of_bp _ ?_ hd
  by_cases hl : tr n = .leaf n
  · exact (leaf_grouped hl).1
  have hx : n.isExpr = true := by
    cases n <;> first | rfl | exact absurd rfl hl
  have hp : Part root n := by
    rcases C72_parts h hr (by simp [phrase, hx]) with h1 | ⟨q, -, -, h1⟩
    · exact h1
    · rcases h1 with ⟨⟨_, _, rfl⟩, -⟩ | ⟨⟨_, _, _, _, _, rfl⟩, -⟩ <;> exact absurd rfl hl
  obtain ⟨K, r0, r0', P, gn, hK, -⟩ := document_part h hc hp (by simp [phrase, hx])
  have := gn_groups gn
  rcases hK with hK | rfl
  · cases K <;> first
      | (cases hK; done)
      | exact this _ (List.mem_singleton_self _)
      | exact (this _ (List.mem_singleton_self _)).1
      | exact (leaf_grouped (this _ (List.mem_singleton_self _))).1
  · exact (leaf_grouped (this _ (List.mem_singleton_self _))).1

/-- The operator expressions of a source without syntax errors. -/
def opsOf (src : Bytes) : Option (List Shape) :=
  match parse src with
  | some (n, s) => if s.lex.diags.isEmpty then
      some ((((Verif.Nixf.Inspect.nodesTo 20 n).map tr).filter fun t => match t with | .leaf _ => false | _ => true).map Verif.Props.shape) else none
  | none => none

example : opsOf b!"{ a = [ (b - c - d) ]; e = f: 1 + 2 * 3; }" =
    some [.bin .op_negate (.bin .op_negate .x .x) .x, .bin .op_negate .x .x, .bin .op_add .x (.bin .op_mul .x .x), .bin .op_mul .x .x] := by
  decide +kernel

end Verif.Props
