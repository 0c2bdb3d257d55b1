import Verif.Props.Fixes
import Verif.Lemmas.Prefixed
/-
The fix for a primitive operation that is only reachable through `builtins`.
-/
namespace Verif.Props
open Verif.Nixf Verif.Nixf.Syntax

/-- The expression with `builtins.` in front of the variable it begins with. -/
def prefixed : Syn → Syn
  | .var x => .select (.var b!"builtins") [.name x]
  | .select (.var x) ns => .select (.var b!"builtins") (.name x :: ns)
  | .selectOr (.var x) ns d => .selectOr (.var b!"builtins") (.name x :: ns) d
  | t => t

/-- The variable, or the selection that begins with it. -/
def Begun (v n : Node) : Prop := n = v ∨ ∃ h dt p d b, n = .exprSelect h v dt p d b

theorem G.prefixed_path {s rest r' : Bytes} {x v : Bytes} {r2 : Bytes} {ns : List Syn} (t : Tok s .id_ x rest) (t2 : Tok rest .dot v r2) (g : G .path r2 ns r') :
    G .path s (.name x :: ns) r' := by
  cases g with
  | path g1 g2 => exact .path (.name t) (.dot t2 g1 g2)

/-- **C82.** Writing `builtins.` in front of a variable, which is what the fix for primitive operations without their prefix does, changes exactly that: the
variable becomes the first name that is selected from `builtins`. If there was a selection from the variable already, its names follow. -/
theorem C82_insert {src : Bytes} {root : Node} {s : PState} {hv hi : Hd} {x : Bytes}
    (h : parse src = some (root, s)) (hc : NoErrors s) (ho : odd (syn root) = false) (hp : Part root (.exprVar hv (.identifier hi x)))
    (hl : Edge (src.drop hv.range.l.offset) (b!"builtins." ++ src.drop hv.range.l.offset) (src.take hv.range.l.offset)) (m : Bytes) :
    ∃ t2 n, ReadAs (afterFix src ⟨m, [⟨⟨hv.range.l, hv.range.l⟩, b!"builtins."⟩]⟩) t2 ∧ Begun (.exprVar hv (.identifier hi x)) n ∧ Part root n ∧
      Swap (syn n) (prefixed (syn n)) (syn root) t2 := by
  have hfix : afterFix src ⟨m, [⟨⟨hv.range.l, hv.range.l⟩, b!"builtins."⟩]⟩ = src.take hv.range.l.offset ++ ([] ++ (b!"builtins." ++ src.drop hv.range.l.offset)) := by
    show src.take hv.range.l.offset ++ b!"builtins." ++ src.drop hv.range.l.offset = _
    rw [List.append_assoc]; rfl
  rw [hfix]
  obtain ⟨K, r0, hb, gn, hK, e0, -, -, -, -, -, H⟩ := document_at' h hc hp rfl
  have e0 : src.drop hv.range.l.offset = skip r0 := e0
  have hE := gn.isExpr_of hK rfl
  have g := (GN.ofSimple gn rfl rfl).1 hE
  cases g with
  | var t _ =>
    have t : Tok (src.drop hv.range.l.offset) .id_ x (src.drop hv.range.r.offset) := by rw [e0]; exact t.skip
    obtain ⟨t1, t2⟩ := tok_prefixed t (by rw [e0, skip_skip])
    by_cases hk : K = .simple
    · obtain ⟨h', dt, p, d, b, hp'⟩ := hb hk
      obtain ⟨K', r0', -, gn', hK', e0', -, -, -, -, -, H'⟩ := document_at' h hc hp' rfl
      have hE' := gn'.isExpr_of hK' rfl
      have hk' : K' ≠ .simple := by
        rintro rfl
        exact absurd gn'.simple_is (by simp [isSimple])
      have g' := (GN.ofSelect gn' rfl).1 hE'
      have hoff : ∀ {r1 : Bytes}, GN (some src) .simple r0' [.exprVar hv (.identifier hi x)] r1 →
          (Node.exprSelect h' (.exprVar hv (.identifier hi x)) dt p d b).lCur.offset = hv.range.l.offset ∧ r1 = src.drop hv.range.r.offset := by
        intro r1 g1
        have p1 : src.drop hv.range.l.offset = skip r0' := (g1.place rfl).1 src rfl
        have p2 : src.drop hv.range.r.offset = r1 := (g1.place rfl).2 src rfl
        refine ⟨?_, p2.symm⟩
        have e1 := congrArg List.length (e0'.trans p1.symm)
        have hne : (src.drop hv.range.l.offset).length ≠ 0 := by
          obtain ⟨c, w, hcw, -⟩ := word_of t (.inl rfl)
          obtain ⟨-, -, h2⟩ := tok_iff.mp t
          rw [e0, skip_skip] at h2
          rw [e0, h2, hcw]; simp
        simp only [List.length_drop] at e1 hne
        omega
      cases g' with
      | simple g => cases g
      | @select _ _ r1 v r2 ns _ _ _ hp2 ds _ g1 td g2 sp1 sp2 spd =>
        obtain ⟨o1, rfl⟩ := hoff g1
        rw [o1] at H'
        obtain ⟨t', a1, a2⟩ := H' [] (src.drop hv.range.l.offset) _ (.select (.var b!"builtins") (.name x :: synL ns)) ho rfl (by rw [List.append_nil]; exact hl)
          (G.select_fill hE' hk' (.select (.var t1) t2 (G.prefixed_path t td g2.toG))) (fun _ _ _ => rfl)
        exact ⟨t', _, readAs_of a1, .inr ⟨_, _, _, _, _, rfl⟩, hp', a2⟩
      | @selectOr _ _ r1 v r2 ns r3 v' r4 _ _ _ _ hp2 ds _ g1 td g2 tor gd hd sp1 sp2 =>
        obtain ⟨o1, rfl⟩ := hoff g1
        rw [o1] at H'
        obtain ⟨t', a1, a2⟩ := H' [] (src.drop hv.range.l.offset) _ (.selectOr (.var b!"builtins") (.name x :: synL ns) (syn d)) ho rfl (by rw [List.append_nil]; exact hl)
          (G.select_fill hE' hk' (.selectOr (.var t1) t2 (G.prefixed_path t td g2.toG) tor gd.toG)) (fun _ _ _ => rfl)
        refine ⟨t', _, readAs_of a1, .inr ⟨_, _, _, _, _, rfl⟩, hp', ?_⟩
        rw [syn_selectOr hd] at a2 ⊢
        exact a2
    · obtain ⟨t', a1, a2⟩ := H [] (src.drop hv.range.l.offset) _ (.select (.var b!"builtins") [.name x]) ho rfl (by rw [List.append_nil]; exact hl)
        (G.select_fill hE hk (.select (.var t1) t2 (.path (.name t) .noDot))) (fun _ _ _ => rfl)
      exact ⟨t', _, readAs_of a1, .inl rfl, hp, a2⟩

/-- The conditions of `C82_insert` hold for the variable that the argument begins with. -/
def insertOk (src : Bytes) : Bool :=
  match parse src with
  | some (.exprCall h f [e], s) =>
    s.lex.diags.all (fun d => !isSyntaxError d.kind) && !odd (syn (.exprCall h f [e])) &&
      match e with
      | .exprVar hv _ | .exprSelect _ (.exprVar hv _) _ _ _ _ => (src.take hv.range.l.offset).getLast?.all hard
      | _ => false
  | _ => false

example : insertOk b!"f add" = true ∧ insertOk b!"f add.x" = true ∧ insertOk b!"f add.x or 1" = true ∧ insertOk b!"f 1" = false := by decide +kernel

example : fixesOf somePrims .primOpNeedsPrefix b!"f add.x or 1" = [b!"f builtins.add.x or 1"] ∧
    syntaxOf b!"f add.x or 1" = some b!"(call f (selectOr add x 1))" ∧ syntaxOf b!"f builtins.add.x or 1" = some b!"(call f (selectOr builtins add x 1))" := by
  decide +kernel
example : fixesOf somePrims .primOpNeedsPrefix b!"[ add ]" = [b!"[ builtins.add ]"] ∧
    syntaxOf b!"[ add ]" = some b!"[ add ]" ∧ syntaxOf b!"[ builtins.add ]" = some b!"[ (select builtins add) ]" := by
  decide +kernel

end Verif.Props
