import Verif.Props.AddFormal
import Verif.Props.WithToLet
/-
C38: the document after the conversion of `with` into `let inherit`, for documents without syntax errors.
-/
namespace Verif.Props
open Verif.Nixf Verif.Nixf.Syntax Node Lexical Scoping Server SourceCode

variable {src : Bytes} {root n : Node} {s : PState}

/-- A word that `inherit` takes: an identifier, or `or`. -/
def Word (x : Bytes) : Prop :=
  ∃ c w, x = c :: w ∧ (c ∈ letters ∨ c = 95) ∧ (∀ y ∈ w, y ∈ identChars) ∧ ((∀ p ∈ reserved, x ≠ p.1) ∨ x = b!"or")

theorem word_kind {c : UInt8} {w : Bytes} (h : (∀ p ∈ reserved, c :: w ≠ p.1) ∨ c :: w = b!"or") :
    wordKind (c :: w) = .id_ ∨ wordKind (c :: w) = .kw_or := by
  rcases h with h | h
  · left
    unfold wordKind
    cases hl : reserved.lookup (c :: w) with
    | none => rfl
    | some k =>
      obtain ⟨p, hp, hpe, rfl⟩ := lookup_mem hl
      exact absurd hpe.symm (h p hp)
  · right
    rw [h]; decide

theorem g_word {x y : Bytes} (h : Word x) (hy : Ends y) : G .name (x ++ y) [.name x] y := by
  obtain ⟨c, w, rfl, h1, h2, h3⟩ := h
  have := tok_word h1 h2 hy.1 hy.2
  rcases word_kind h3 with hk | hk <;> rw [hk] at this
  · exact .name this
  · exact .orName this

theorem one_space (y : Bytes) : Leads [32] y := leads y (x := b!";") (by decide) (by unfold CleanSkip; decide +kernel) (by decide +kernel)

/-- Names that are separated by blanks. -/
theorem g_words {names : List Bytes} (h : ∀ x ∈ names, Word x) (y : Bytes) :
    G .names ((names.flatMap fun x => b!" " ++ x) ++ 59 :: y) (names.map .name) (59 :: y) := by
  induction names with
  | nil => exact .noName
  | cons x l ih =>
    have i := ih fun x hx => h x (by simp [hx])
    have e : ((x :: l).flatMap fun x => b!" " ++ x) ++ 59 :: y = [32] ++ (x ++ ((l.flatMap fun x => b!" " ++ x) ++ 59 :: y)) := by simp
    rw [e]
    refine .names (r1 := (l.flatMap fun x => b!" " ++ x) ++ 59 :: y) (G.lead (nt := .name) (one_space _) (g_word (h x (by simp)) ?_) rfl) i
    cases l with
    | nil => exact ends_semi _
    | cons _ _ => exact ends_space _

/-- If a `with` is replaced by the `let` that inherits some words from the set, then the new document has no syntax errors, and it is the old
one with exactly this change. Only the text in front of the `with` matters: it ends in white space, a bracket, a semicolon or a quote. -/
theorem C38_text {hd : Hd} {kw semi w e : Node} {names : List Bytes} (h : parse src = some (root, s)) (hc : NoErrors s) (ho : odd (syn root) = false)
    (hr : Reach root (.exprWith hd kw semi w e)) (hn : ∀ x ∈ names, Word x) (hfit : ∀ c ∈ (src.take hd.range.l.offset).getLast?, hard c = true) :
    ∃ t2, ReadAs (spliced src hd.range (b!"let inherit (" ++ w.src src ++ b!")" ++ (names.flatMap fun x => b!" " ++ x) ++ b!"; in " ++ e.src src)) t2 ∧
      Swap (.with_ (syn w) (syn e)) (.let_ [.inheritFrom (syn w) (names.map .name)] (syn e)) (syn root) t2 := by
  have hp := part_open h hr rfl
  obtain ⟨K, r0, gn, hK, e0, e00, -, e1, -, go, H⟩ := document_at h hc hp rfl
  have hE := gn.isExpr_of hK rfl
  have : K = .expr := by
    by_contra hne
    have := gn.closed.1 hE hne _ rfl
    cases this
  subst this
  have hw0 : (Node.exprWith hd kw semi w e).rCur = hd.range.r := rfl
  have hl0 : (Node.exprWith hd kw semi w e).lCur = hd.range.l := rfl
  rw [hw0] at gn e1 H
  have key : w.isExpr = true ∧ e.isExpr = true ∧ G .expr (e.src src ++ src.drop hd.range.r.offset) [syn e] (src.drop hd.range.r.offset) := by
    generalize hR : src.drop hd.range.r.offset = R at gn e1 H
    cases gn with
    | op g => have := g.closed.1 rfl (by simp) _ rfl; cases this
    | with_ t1 gw t2 ge sp =>
      refine ⟨gw.kind.1 rfl w (by simp), ge.kind.1 rfl e (by simp), ?_⟩
      have pl := ge.place rfl
      have g0 := ge.skip_ne (.inl rfl)
      obtain ⟨-, -, -, -, ee⟩ := place_of (P := src.take e.lCur.offset) pl (by rw [← pl.1 src rfl]; exact (List.take_append_drop _ _).symm) g0
        (ge.toG.unlead rfl).suf
      have ee : _ = e.src src ++ R := ee
      have := ge.toG.unlead rfl
      rw [ee] at this
      exact this
  obtain ⟨hwx, hex, ge⟩ := key
  have hpw : Part root w := Part.trans hp (.down (by simp [Syntax.inner]) .here)
  have gw : ∀ y, G .expr (w.src src ++ 41 :: y) [syn w] (41 :: y) := fun y =>
    (expr_onto h hc ho hpw hwx (Edge.stop fun d hd => by simp at hd; subst hd; exact ⟨by decide, fun h => absurd h (by decide)⟩)).1
  obtain ⟨t2, a1, a2⟩ := H [] _
    (b!"let inherit (" ++ w.src src ++ b!")" ++ (names.flatMap fun x => b!" " ++ x) ++ b!"; in " ++ e.src src ++ src.drop hd.range.r.offset)
    (.let_ [.inheritFrom (syn w) (names.map .name)] (syn e)) ho rfl (by rw [List.append_nil]; exact .inr hfit) (by
      have et : [] ++ (b!"let inherit (" ++ w.src src ++ b!")" ++ (names.flatMap fun x => b!" " ++ x) ++ b!"; in " ++ e.src src ++ src.drop hd.range.r.offset) =
          b!"let" ++ ([32] ++ (b!"inherit" ++ ([32] ++ (40 :: (w.src src ++ (41 :: ((names.flatMap fun x => b!" " ++ x) ++ (59 :: ([32] ++ (b!"in" ++
            ([32] ++ (e.src src ++ src.drop hd.range.r.offset)))))))))))) := by simp
      rw [et]
      refine .let_ (v1 := b!"let") (tok_word (c := 108) (w := b!"et") (.inl (by decide)) (by decide) (ends_space _).1 (ends_space _).2) ?_
        (v2 := b!"in") (.ws (g := [32]) (by decide) (tok_word (c := 105) (w := b!"n") (.inl (by decide)) (by decide) (ends_space _).1 (ends_space _).2))
        (G.lead (one_space _) ge rfl)
      refine G.lead_binds (one_space _) ?_
      exact .inheritFrom (tok_inherit (ends_space _)) (.ws (g := [32]) (by decide) (tok_lparen _)) (gw _) (tok_rparen _) (g_words hn _) (tok_semi _) .noBind)
    (by rintro (h | h) <;> cases h)
  refine ⟨t2, readAs_of ?_, a2⟩
  rw [List.nil_append, ← List.append_assoc] at a1
  exact a1

/-- The name of a variable that is written in the document is such a word. -/
theorem C38_word {hd hi : Hd} {x : Bytes} (h : parse src = some (root, s)) (hc : NoErrors s) (hr : Reach root (.exprVar hd (.identifier hi x))) :
    Word x := by
  have hp : Part root (.exprVar hd (.identifier hi x)) := by
    rcases C72_parts h hr rfl with h1 | ⟨q, -, -, h1⟩
    · exact h1
    · rcases h1 with ⟨⟨_, _, h⟩, -⟩ | ⟨⟨_, _, _, _, _, h⟩, -⟩ <;> cases h
  obtain ⟨K, r0, gn, hK, -⟩ := document_at h hc hp rfl
  have := (gn.ofSimple rfl rfl).1 (gn.isExpr_of hK rfl)
  cases this with
  | var t =>
    obtain ⟨c, w, rfl, a1, a2, a3⟩ := word_of t (.inl rfl)
    refine ⟨c, w, rfl, a1, a2, .inl ?_⟩
    intro p hp e
    rw [e] at a3
    have : ∀ p ∈ reserved, wordKind p.1 ≠ .id_ := by decide
    exact this p hp a3

/-- The name in an `inherit` of the document is such a word, too, if it is written without quotes. -/
theorem C38_word_inherited {hd : Hd} {i : Node} (h : parse src = some (root, s)) (hc : NoErrors s) (hr : Reach root (.attrNameID hd i)) :
    Word i.name := by
  obtain ⟨hi, x, rfl⟩ := at_fits h hr
  obtain ⟨K, r0, gn, hK, -, -, -, -, g, -, -⟩ := document_at h hc (part_of h hr (.inl rfl)) rfl
  have := gn.isName_of hK rfl
  subst this
  have g : G .name _ [.name x] _ := g
  have key : ∀ {r v r' : Bytes} {k : TK}, Tok r k v r' → (k = .id_ ∨ k = .kw_or) → Word v := by
    intro r v r' k t hk
    obtain ⟨c, w, rfl, a1, a2, a3⟩ := word_of t hk
    refine ⟨c, w, rfl, a1, a2, ?_⟩
    by_contra hcon
    simp only [not_or, not_forall, not_not] at hcon
    obtain ⟨⟨p, hp, e⟩, h2⟩ := hcon
    rw [e] at a3 h2
    have : ∀ p ∈ reserved, p.1 ≠ b!"or" → wordKind p.1 ≠ .id_ ∧ wordKind p.1 ≠ .kw_or := by decide
    rcases hk with rfl | rfl
    · exact (this p hp h2).1 a3
    · exact (this p hp h2).2 a3
  cases g with
  | name t => exact key t (.inl rfl)
  | orName t => exact key t (.inr rfl)

/-- C38. The offered change is for the nearest `with` around the cursor. If the names it lists are words, and the text in front of the `with`
ends in white space, a bracket, a semicolon or a quote, then the new document has no syntax errors, and it is the old one with this one change. -/
theorem C38_action (P : PrimOps) {k fuel : Nat} {l : List Action} {act : Action} (h : parse src = some (root, s)) (hc : NoErrors s)
    (ho : odd (syn root) = false) (hr : Reach root n) (hk : sizeOf root ≤ k) (hf : sizeOf root ≤ fuel)
    (ha : addWithToLetAction src (runPM root) (runVL P k root) fuel n = some l) (hm : act ∈ l) :
    ∃ as hd kw semi w e names, Ancestors root n as ∧ as.find? (isKind .ExprWith) = some (.exprWith hd kw semi w e) ∧ names.Nodup ∧ names ≠ [] ∧
      (∀ Γ, Inside root Γ (.exprWith hd kw semi w e) → ∀ x, x ∈ names ↔ ∃ v, MayComeFrom P Γ (.exprWith hd kw semi w e) v ∧ varName v = x) ∧
      ((∀ x ∈ names, Word x) → (∀ c ∈ (src.take hd.range.l.offset).getLast?, hard c = true) →
        ∃ t2, ReadAs (spliced src act.range act.newText) t2 ∧
          Swap (.with_ (syn w) (syn e)) (.let_ [.inheritFrom (syn w) (names.map .name)] (syn e)) (syn root) t2) := by
  unfold addWithToLetAction at ha
  rcases atNode_reach h hr hf ha with rfl | ⟨m, as, h1, h2, h3, h4, h5⟩
  · cases hm
  obtain ⟨hd, kw, semi, w, e, rfl⟩ : ∃ hd kw semi w e, m = .exprWith hd kw semi w e := by cases m <;> first | exact ⟨_, _, _, _, _, rfl⟩ | cases h4
  cases h5
  have hm' := hm
  rw [withToLet] at hm
  split at hm
  · cases hm
  split at hm
  · cases hm
  split at hm
  · cases hm
  rename_i hne
  split at hm
  · cases hm
  cases List.mem_singleton.mp hm
  refine ⟨as, hd, kw, semi, w, e, withVariables (runVL P k root) kw, h1, h2, ?_, ?_, fun Γ hw => ?_, fun hn hfit => ?_⟩
  · unfold withVariables
    split
    · exact .nil
    · exact sorted_nodup (foldInsert_sorted _ _ .nil)
  · intro hc; rw [hc] at hne; exact hne rfl
  · exact mem_withVariables P h hk hw
  · exact C38_text h hc ho h3 hn hfit

/-- After the change: the text, the diagnostics and the syntax. -/
noncomputable def withTest (src : Bytes) (column : Nat) : List (Bytes × List DK × Option Bytes) :=
  (afterWith src column).map fun t => (t, allKinds t, syntaxOf t)

example : withTest b!"a: [ (with a; [ b c b ]) ]" 7 =
    [(b!"a: [ (let inherit (a) b c; in [ b c b ]) ]", [], some b!"(fun a [ ((let (inheritFrom a b c) [ b c b ])) ])")] := by decide +kernel
example : withTest b!"a: with a.x or { }; { inherit or; b = c; }" 4 =
    [(b!"a: let inherit (a.x or { }) c or; in { inherit or; b = c; }", [.orIdentifier, .orIdentifier],
      some b!"(fun a (let (inheritFrom (selectOr a x (set)) c or) (set (inherit or) (= b c))))")] := by decide +kernel

end Verif.Props
