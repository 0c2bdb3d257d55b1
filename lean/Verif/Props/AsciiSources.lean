import Verif.Lemmas.AsciiScopes
import Verif.Props.Tidy
import Verif.Props.Messages
/-
Properties C80 and C93 for sources of ASCII characters: nixf-tidy prints all of their diagnostics, and the server publishes
them. The conditions on the strings of the diagnostics that are in `C80_output` and `C93_published` hold for them.
-/
namespace Verif.Props
open Nixf Nixf.Syntax Nixf.Ascii

namespace AsciiSources

theorem lows {l : List Bytes} (h : Lows l) : ∀ a ∈ l, IsText a := by
  induction l with
  | nil => nofun
  | cons b l ih =>
    intro a ha
    rcases List.mem_cons.mp ha with rfl | ha
    · exact isText_ascii h.1
    · exact ih h.2 a ha

theorem edits {l : List TextEdit} (h : AscE l) : ∀ e ∈ l, IsText e.newText := by
  induction l with
  | nil => nofun
  | cons b l ih =>
    intro a ha
    rcases List.mem_cons.mp ha with rfl | ha
    · exact isText_ascii h.1
    · exact ih h.2 a ha

theorem notes {l : List Note} (h : AscN l) : ∀ n ∈ l, ∀ a ∈ n.args, IsText a := by
  induction l with
  | nil => nofun
  | cons b l ih =>
    intro a ha
    rcases List.mem_cons.mp ha with rfl | ha
    · exact lows h.1
    · exact ih h.2 a ha

theorem fixes {l : List Fix} (h : AscF l) : ∀ f ∈ l, IsText f.message ∧ ∀ e ∈ f.edits, IsText e.newText := by
  induction l with
  | nil => nofun
  | cons b l ih =>
    intro a ha
    rcases List.mem_cons.mp ha with rfl | ha
    · exact ⟨isText_ascii h.1.1, edits h.1.2⟩
    · exact ih h.2 a ha

end AsciiSources
open AsciiSources

/-- **C80**: for a source of ASCII characters, whatever the arguments, nixf-tidy is not aborted: the output is a JSON text that
contains exactly the diagnostics of the source. -/
theorem C80_ascii (P : PrimOps) (args : List Bytes) (src : Bytes) (h : ∀ c ∈ src, c < 128) :
    ∃ root s out, parse src = some (root, s) ∧ Tidy.tidy P args src = some out ∧
      (JsonText.read out).bind JsonText.diagnostics = some (expected P args root s) := by
  obtain ⟨root, s, hp, hy, -⟩ := C80_output P args src
  obtain ⟨h1, h2⟩ := parse_ascii h hp
  obtain ⟨out, ho⟩ := hy fun d hd => by
    have : AscD d := by
      rcases List.mem_append.mp hd with hd | hd
      · exact h2 d hd
      · split at hd
        · exact runVL_ascii P _ h1 d hd
        · cases hd
    exact ⟨lows this.1, notes this.2.1, fixes this.2.2⟩
  exact ⟨root, s, out, hp, ho⟩

open Docs Items Acts Wire in
/-- **C93**, ASCII: the diagnostics of a source of ASCII characters are published as they are. -/
theorem C93_ascii {fix : Bytes → Bytes} (hf : Fixes fix) {src : Bytes} (hl : ∀ c ∈ src, c < 128) {root : Node} {s : PState}
    (h : parse src = some (root, s)) (P : PrimOps) (fuel : Nat) {file : Bytes} (hu : HasUri file) (v : Option Int) (sup : List DK)
    {ds : List Diagnostic} (hd : ∀ d ∈ ds, d ∈ s.lex.diags ∨ d ∈ (runVL P fuel root).diags) :
    IsPublish (Replies.encodePublish fix ⟨file, v, Server.buildDiags sup src ds⟩) ⟨file, v, Server.buildDiags sup src ds⟩ := by
  obtain ⟨h1, h2⟩ := parse_ascii hl h
  refine Msgs.C93_published hf h P fuel hu v sup hd fun d hd' => ?_
  have : AscD d := (hd d hd').elim (h2 d) (runVL_ascii P fuel h1 d)
  exact ⟨lows this.1, notes this.2.1⟩

/-- A source with an argument in its diagnostics. -/
example : ∃ src root s, (∀ c ∈ src, c < 128) ∧ parse src = some (root, s) ∧ ∃ d ∈ s.lex.diags, d.args ≠ [] := by
  refine ⟨b!"{ a = 1; a = 2; }", ?_⟩
  have : ((parse b!"{ a = 1; a = 2; }").map fun p => p.2.lex.diags.any fun d => !d.args.isEmpty) = some true := by decide +kernel
  obtain ⟨⟨root, s⟩, hp, ht⟩ := Option.map_eq_some_iff.mp this
  obtain ⟨d, hd, ha⟩ := List.any_eq_true.mp ht
  exact ⟨root, s, by decide +kernel, hp, d, hd, by simpa using ha⟩

end Verif.Props
