import Verif.Model.CodeAction
import Verif.Lemmas.Positions
import Verif.Props.Scope
/-
C42: the fixes offered by a code-action request.
-/
namespace Verif.Props
open Nixf Server SourceCode Draft

/-- The position is in the range, ends included (a cursor is between characters, so an empty range has a position). -/
def Covers (r : LRange) (p : Position) : Prop := PosLe r.start p ∧ PosLe p r.stop

/-- Two ranges share a position. -/
def Touches (a b : LRange) : Prop := ∃ p, Covers a p ∧ Covers b p

theorem posLe_iff (a b : Position) : posLe a b = true ↔ PosLe a b := by
  simp [posLe, PosLe]

theorem posLe_trans {a b c : Position} (h1 : PosLe a b) (h2 : PosLe b c) : PosLe a c := by
  unfold PosLe at *; omega

theorem posLe_total (a b : Position) : PosLe a b ∨ PosLe b a := by
  unfold PosLe; omega

theorem posLe_refl (a : Position) : PosLe a a := by
  unfold PosLe; omega

/-- **C42**, the test of the server: it holds exactly for ranges sharing a position. -/
theorem C42_touches (a b : LRange) (ha : PosLe a.start a.stop) (hb : PosLe b.start b.stop) :
    overlap a b = true ↔ Touches a b := by
  simp only [overlap, Bool.and_eq_true, posLe_iff]
  constructor
  · rintro ⟨h1, h2⟩
    rcases posLe_total a.start b.start with h | h
    · exact ⟨b.start, ⟨h, h2⟩, posLe_refl _, hb⟩
    · exact ⟨a.start, ⟨posLe_refl _, ha⟩, h, h1⟩
  · rintro ⟨p, ⟨h1, h2⟩, h3, h4⟩
    exact ⟨posLe_trans h1 h4, posLe_trans h3 h2⟩

/-- **C42**. The actions are those of the diagnostics touching the requested range, in the order of the diagnostics and
of their fixes, one action for each fix, with all its edits at their positions in the text. -/
theorem C42_exact (src : Bytes) (range : LRange) (ds : List Diagnostic) (hr : PosLe range.start range.stop)
    (hd : ∀ d ∈ ds, d.range.l.offset ≤ d.range.r.offset)
    (touching : Diagnostic → Bool)
    (ht : ∀ d ∈ ds, touching d = true ↔
      Touches range ⟨offsetToPosition src d.range.l.offset, offsetToPosition src d.range.r.offset⟩) :
    quickFixes src range ds = (ds.filter touching).flatMap fun d => d.fixes.map fun f =>
      ⟨f.message, decide (d.kind = .unusedDefLet), f.edits.map fun e =>
        (⟨offsetToPosition src e.oldRange.l.offset, offsetToPosition src e.oldRange.r.offset⟩, e.newText)⟩ := by
  induction ds with
  | nil => rfl
  | cons d ds ih =>
    have ih := ih (fun d hm => hd d (.tail _ hm)) (fun d hm => ht d (.tail _ hm))
    have h1 := C42_touches range (toLSPRange src d.range) hr (offsetToPosition_mono src (hd d (.head _)))
    have h2 := ht d (.head _)
    by_cases h : touching d = true
    · have h3 : overlap range (toLSPRange src d.range) = true := h1.mpr (h2.mp h)
      rw [quickFixes, if_pos h3, List.filter_cons_of_pos h, List.flatMap_cons, ih]
      rfl
    · have h3 : ¬ overlap range (toLSPRange src d.range) = true := fun hc => h (h2.mpr (h1.mp hc))
      rw [quickFixes, if_neg h3, List.filter_cons_of_neg h, ih]

/-- The titles of the fixes offered in a range, for the diagnostics of the parser and of the variable analysis. -/
def fixTitles (P : PrimOps) (src : Bytes) (range : LRange) : List (Bytes × Bool) :=
  match parse src with
  | some (root, s) => (quickFixes src range (s.lex.diags ++ (runVL P 100000 root).diags)).map fun q => (q.title, q.preferred)
  | none => []

/-- Non-vacuity: at the end of `with`, and after it. -/
example : fixTitles [] b!"with 1; 2" ⟨⟨0, 4⟩, ⟨0, 4⟩⟩ = [(b!"remove `with` expression", false)] := by decide +kernel
example : fixTitles [] b!"with 1; 2" ⟨⟨0, 5⟩, ⟨0, 9⟩⟩ = [] := by decide +kernel
example : fixTitles [] b!"let a = 1; in 2" ⟨⟨0, 4⟩, ⟨0, 5⟩⟩ = [(b!"remove unused binding", true)] := by decide +kernel

/-- What is published and what is offered for a document, if some kinds are suppressed. -/
def shownAndOffered (P : PrimOps) (sup : List Bytes) (src : Bytes) (range : LRange) : Option (Nat × Nat) :=
  match parse src with
  | some (root, s) =>
    let ds := s.lex.diags ++ (runVL P 100000 root).diags
    some ((buildDiags (updateSuppressed sup) src ds).length, (quickFixes src range ds).length)
  | none => none

/-- **C66**, violated: with `sema-extra-with` suppressed, no diagnostic is shown for `with 1; 2`, but its fix is offered. -/
theorem C66_suppressed_violated :
    ∃ sup src range, shownAndOffered [] sup src range = some (0, 1) :=
  ⟨[b!"sema-extra-with"], b!"with 1; 2", ⟨⟨0, 0⟩, ⟨0, 0⟩⟩, by decide +kernel⟩

end Verif.Props
