import Verif.Lemmas.Reports
import Verif.Props.Attrs
import Verif.Props.Formals
/-
Which diagnostics of the semantic actions are in the list of a document.
-/
namespace Verif.Props
open Nixf Nixf.Attrs Nixf.Reports Nixf.Syntax Nixf.Node

/-! ### Attributes -/

/-- What a rule reports. -/
theorem mem_reports {α : Type} {rule : List Node → Node → List Node → α → Prop} (hf : ∀ {pre f post d d'}, rule pre f post d → rule pre f post d' → d = d')
    {fv pre : List Node} {out : List α} (h : reports rule pre fv out) (d : α) : d ∈ out ↔ ∃ a f b, fv = a ++ f :: b ∧ rule (pre ++ a) f b d := by
  induction fv generalizing pre out with
  | nil =>
    obtain rfl : out = [] := h
    simp
  | cons g gs ih =>
    have split : (∃ a f b, g :: gs = a ++ f :: b ∧ rule (pre ++ a) f b d) ↔ rule pre g gs d ∨ ∃ a f b, gs = a ++ f :: b ∧ rule (pre ++ [g] ++ a) f b d := by
      constructor
      · rintro ⟨a, f, b, he, hr⟩
        cases a with
        | nil => obtain ⟨rfl, rfl⟩ := List.cons_eq_cons.mp he; exact .inl (by simpa using hr)
        | cons c a => obtain ⟨rfl, rfl⟩ := List.cons_eq_cons.mp he; exact .inr ⟨a, f, b, rfl, by simpa using hr⟩
      · rintro (h | ⟨a, f, b, rfl, hr⟩)
        · exact ⟨[], g, gs, rfl, by simpa using h⟩
        · exact ⟨g :: a, f, b, rfl, by simpa using hr⟩
    rw [split]
    rcases h with ⟨d', rest, h1, rfl, h2⟩ | ⟨h1, h2⟩
    · rw [List.mem_cons, ih h2]
      exact or_congr_left ⟨fun h => h ▸ h1, fun h => hf h h1⟩
    · rw [ih h2]
      exact ⟨.inr, fun h => h.resolve_left (h1 d)⟩

theorem separator_det {pre post : List Node} {f : Node} {d d' : DK × CRange} (h : SeparatorRule pre f post d) (h' : SeparatorRule pre f post d') : d = d' :=
  h.2.2.trans h'.2.2.symm
theorem empty_det {pre post : List Node} {f : Node} {d d' : DK × CRange} (h : EmptyRule pre f post d) (h' : EmptyRule pre f post d') : d = d' :=
  h.2.2.2.2.trans h'.2.2.2.2.symm
theorem ellipsis_det {pre post : List Node} {f : Node} {d d' : DK × CRange} (h : EllipsisRule pre f post d) (h' : EllipsisRule pre f post d') : d = d' := by
  obtain ⟨-, l, h1, rfl⟩ := h
  obtain ⟨-, l', h2, rfl⟩ := h'
  obtain rfl := Option.some.inj (h1.symm.trans h2)
  rfl
theorem first_unique {fv : List Node} {x : Bytes} {g g' : Node} (h : FirstOf fv x g) (h' : FirstOf fv x g') : g = g' := by
  have hk := C21_kept_once fv
  have key : ∀ l : List (Bytes × Node), l.Pairwise (·.1 ≠ ·.1) → (x, g) ∈ l → (x, g') ∈ l → g = g' := by
    intro l hl
    induction hl with
    | nil => exact nofun
    | cons h _ ih =>
      intro h1 h2
      rcases List.mem_cons.mp h1 with h1 | h1 <;> rcases List.mem_cons.mp h2 with h2 | h2
      · rw [← h1] at h2; exact (Prod.mk.inj h2).2.symm
      · exact absurd (by rw [← h1]) (h _ h2)
      · exact absurd (by rw [← h2]) (h _ h1)
      · exact ih h1 h2
  exact key _ hk.1 ((hk.2 _ _).mpr h) ((hk.2 _ _).mpr h')

theorem duplicate_det {pre post : List Node} {f : Node} {d d' : Diagnostic} (h : DuplicateRule pre f post d) (h' : DuplicateRule pre f post d') : d = d' := by
  obtain ⟨x, g, h1, h2, rfl⟩ := h
  obtain ⟨x', g', h1', h2', rfl⟩ := h'
  obtain rfl : x = x' := h1.2.symm.trans h1'.2
  obtain rfl := first_unique h2 h2'
  rfl

/-- What is to be reported for the members of a list of formals, apart from duplicates. -/
def MemberRule (pre : List Node) (f : Node) (post : List Node) (k : DK × CRange) : Prop :=
  SeparatorRule pre f post k ∨ EllipsisRule pre f post k ∨ EmptyRule pre f post k

theorem formals_ds {src : Bytes} {r : CRange} {fv : List Node} {s : SemaSt} {ds : List Diagnostic} (h : (onFormals src r fv s).2.diags = s.diags ++ ds) :
    (∀ d, (d ∈ ds ∧ d.kind = .duplicatedFormal) ↔ ∃ a f b, fv = a ++ f :: b ∧ DuplicateRule a f b d) ∧
    (∀ k, k.1 ≠ .duplicatedFormal → ((∃ d ∈ ds, brief d = k) ↔ ∃ a f b, fv = a ++ f :: b ∧ MemberRule a f b k)) := by
  obtain ⟨d1, d2, d3, d4, h', k1, k2, k3, k4, -⟩ := C21_reports src r fv s
  have : ds = d1 ++ d2 ++ d3 ++ d4 := by
    apply List.append_cancel_left (as := s.diags)
    rw [← h, h']
    simp
  subst this
  have m1 := mem_reports (rule := SeparatorRule) separator_det k1
  have m2 := mem_reports (rule := EllipsisRule) ellipsis_det k2
  have m3 := mem_reports (rule := EmptyRule) empty_det k3
  have m4 := mem_reports (rule := DuplicateRule) duplicate_det k4
  simp only [List.nil_append] at m1 m2 m3 m4
  have n1 : ∀ d ∈ d1, d.kind ≠ .duplicatedFormal := fun d hd => by
    obtain ⟨a, f, b, -, -, -, h⟩ := (m1 (brief d)).mp (List.mem_map.mpr ⟨d, hd, rfl⟩)
    rw [(Prod.mk.inj h).1]; nofun
  have n2 : ∀ d ∈ d2, d.kind ≠ .duplicatedFormal := fun d hd => by
    obtain ⟨a, f, b, -, -, l, -, h⟩ := (m2 (brief d)).mp (List.mem_map.mpr ⟨d, hd, rfl⟩)
    rw [(Prod.mk.inj h).1]; split <;> nofun
  have n3 : ∀ d ∈ d3, d.kind ≠ .duplicatedFormal := fun d hd => by
    obtain ⟨a, f, b, -, -, -, -, -, h⟩ := (m3 (brief d)).mp (List.mem_map.mpr ⟨d, hd, rfl⟩)
    rw [(Prod.mk.inj h).1]; nofun
  have n4 : ∀ d ∈ d4, d.kind = .duplicatedFormal := fun d hd => by
    obtain ⟨a, f, b, -, x, g, -, -, rfl⟩ := (m4 d).mp hd
    rfl
  refine ⟨fun d => ?_, fun k hk => ?_⟩
  · rw [← m4]
    constructor
    · rintro ⟨hd, hk⟩
      simp only [List.mem_append] at hd
      rcases hd with ((hd | hd) | hd) | hd
      · exact absurd hk (n1 d hd)
      · exact absurd hk (n2 d hd)
      · exact absurd hk (n3 d hd)
      · exact hd
    · exact fun hd => ⟨List.mem_append_right _ hd, n4 d hd⟩
  · have e1 := m1 k
    have e2 := m2 k
    have e3 := m3 k
    simp only [List.mem_map] at e1 e2 e3
    have : (∃ a f b, fv = a ++ f :: b ∧ MemberRule a f b k) ↔ (∃ d ∈ d1, brief d = k) ∨ (∃ d ∈ d2, brief d = k) ∨ ∃ d ∈ d3, brief d = k := by
      rw [e1, e2, e3]
      simp only [MemberRule, and_or_left, exists_or]
    rw [this]
    constructor
    · rintro ⟨d, hd, rfl⟩
      simp only [List.mem_append] at hd
      rcases hd with ((hd | hd) | hd) | hd
      · exact .inl ⟨d, hd, rfl⟩
      · exact .inr (.inl ⟨d, hd, rfl⟩)
      · exact .inr (.inr ⟨d, hd, rfl⟩)
      · exact absurd (n4 d hd) hk
    · rintro (⟨d, hd, rfl⟩ | ⟨d, hd, rfl⟩ | ⟨d, hd, rfl⟩) <;> exact ⟨d, by simp [hd], rfl⟩

/-- The diagnostics of formals. -/
def isFormalsKind : DK → Bool
  | .duplicatedFormal | .emptyFormal | .formalMissingComma | .formalExtraEllipsis | .formalMisplacedEllipsis => true
  | _ => false

theorem member_kinds {a b : List Node} {f : Node} {k : DK × CRange} (h : MemberRule a f b k) : isFormalsKind k.1 = true ∧ k.1 ≠ .duplicatedFormal := by
  rcases h with ⟨-, -, rfl⟩ | ⟨-, l, -, rfl⟩ | ⟨-, -, -, -, rfl⟩
  · exact ⟨rfl, nofun⟩
  · dsimp only; split <;> exact ⟨rfl, nofun⟩
  · exact ⟨rfl, nofun⟩

theorem formals_kinds {src : Bytes} {r : CRange} {fv : List Node} {s : SemaSt} {ds : List Diagnostic} (h : (onFormals src r fv s).2.diags = s.diags ++ ds) {d : Diagnostic}
    (hd : d ∈ ds) : isFormalsKind d.kind = true := by
  by_cases hk : d.kind = .duplicatedFormal
  · rw [hk]; rfl
  · obtain ⟨a, f, b, -, hm⟩ := ((formals_ds h).2 (brief d) hk).mp ⟨d, hd, rfl⟩
    exact (member_kinds hm).1

theorem arg_kinds {r : CRange} {i f : Node} {s : SemaSt} {ds : List Diagnostic} (h : (onLambdaArg r i f s).2.diags = s.diags ++ ds) {d : Diagnostic}
    (hd : d ∈ ds) : d.kind = .duplicatedFormalToArg := by
  obtain ⟨ds', h', k⟩ := C21_argument r i f s
  obtain rfl := List.append_cancel_left (h.symm.trans h')
  rcases k with ⟨rfl, -⟩ | ⟨g, -, -, -, rfl⟩
  · cases hd
  · rw [List.mem_singleton.mp hd]

theorem attrs_kinds {r : CRange} {b t : Node} {s : SemaSt} {ds : List Diagnostic} (h : (onExprAttrs r b t s).2.diags = s.diags ++ ds) {d : Diagnostic}
    (hd : d ∈ ds) : isAttrsKind d.kind = true ∧ ∃ hb bs, b = .binds hb bs := by
  obtain ⟨ds', h', k⟩ := onExprAttrs_adds (r := r) (b := b) (c := t) (s := s)
  obtain rfl := List.append_cancel_left (h.symm.trans h')
  refine ⟨k d hd, ?_⟩
  cases b
  case binds hb bs => exact ⟨hb, bs, rfl⟩
  all_goals
    simp only [onExprAttrs] at h
    rw [List.self_eq_append_right.mp h] at hd
    cases hd

/-- The diagnostics of the kinds of sets are those of the sets of the tree. -/
theorem attrs_reports {src : Bytes} {n : Node} {s : PState} (hp : parse src = some (n, s)) {P : Diagnostic → Prop} (hP : ∀ d, P d → isAttrsKind d.kind = true)
    {Q : List Node → Prop} (hQ : ∀ {h hb bs r st dy}, Reach n (.exprAttrs h (.binds hb bs) r st dy) → ∀ s0 ds,
      (onExprAttrs h.range (.binds hb bs) r s0).2.diags = s0.diags ++ ds → ((∃ d ∈ ds, P d) ↔ Q bs)) :
    (∃ d ∈ s.lex.diags, P d) ↔ ∃ h hb bs r st dy, Reach n (.exprAttrs h (.binds hb bs) r st dy) ∧ Q bs := by
  have hs : ∀ d, P d → isSema d.kind = true := fun d h => by
    have := hP d h
    revert this
    cases d.kind <;> first | exact fun _ => rfl | exact nofun
  constructor
  · intro hd
    obtain ⟨x, hr, ha, hm⟩ := parse_may hp hs hd
    cases x <;> try exact ha.elim
    case exprAttrs h b r st dy =>
      obtain ⟨s0, ds, h1, d, h2, h3⟩ := hm
      obtain ⟨-, hb, bs, rfl⟩ := attrs_kinds h1 h2
      exact ⟨h, hb, bs, r, st, dy, hr, (hQ hr s0 ds h1).mp ⟨d, h2, h3⟩⟩
    case formals h ms =>
      obtain ⟨s0, ds, h1, d, h2, h3⟩ := hm
      have := formals_kinds h1 h2
      have := hP d h3
      cases hk : d.kind <;> simp_all [isFormalsKind, isAttrsKind]
    case lambdaArg h i f =>
      obtain ⟨s0, ds, h1, d, h2, h3⟩ := hm
      have := hP d h3
      rw [arg_kinds h1 h2] at this; cases this
    case exprParen h e l r =>
      have := hP _ hm.2
      cases this
  · rintro ⟨h, hb, bs, r, st, dy, hr, hc⟩
    exact parse_must hp hs hr trivial fun s0 ds h1 => (hQ hr s0 ds h1).mpr hc

/-- **C20.** The errors about duplicated attributes of a document are exactly those of the clashes in its sets. -/
theorem C20_document {src : Bytes} {n : Node} {s : PState} (hp : parse src = some (n, s)) (d : Diagnostic) :
    (d ∈ s.lex.diags ∧ d.kind = .duplicatedAttrName) ↔
      ∃ h hb bs r st dy, Reach n (.exprAttrs h (.binds hb bs) r st dy) ∧ ∃ a it b, items bs = a ++ it :: b ∧
        ∃ x k p q, Clash (Joint a.reverse) it x k p q ∧
          d = { kind := .duplicatedAttrName, range := k.range, args := [x], notes := [{ kind := .prevDeclared, range := p.range }] } := by
  rw [← attrs_reports hp (P := fun y => y = d ∧ d.kind = .duplicatedAttrName) (by rintro _ ⟨rfl, h⟩; rw [h]; rfl)]
  · exact ⟨fun h => ⟨d, h.1, rfl, h.2⟩, fun ⟨_, h1, h2, h3⟩ => ⟨h2 ▸ h1, h3⟩⟩
  · intro h hb bs r st dy hr s0 ds h1
    obtain ⟨ds', h3, h4⟩ := C20_exact hp hr s0
    obtain rfl := List.append_cancel_left (h1.symm.trans h3)
    rw [← h4]
    exact ⟨fun ⟨_, h1, h2, h3⟩ => ⟨h2 ▸ h1, h3⟩, fun h => ⟨d, h.1, rfl, h.2⟩⟩

/-- **C20.** A document has an error about a duplicated attribute if and only if a binding of one of its sets clashes with another one
before it. -/
theorem C20_document_pairwise {src : Bytes} {n : Node} {s : PState} (hp : parse src = some (n, s)) :
    (∃ d ∈ s.lex.diags, d.kind = .duplicatedAttrName) ↔
      ∃ h hb bs r st dy, Reach n (.exprAttrs h (.binds hb bs) r st dy) ∧ ∃ a it b, items bs = a ++ it :: b ∧
        ∃ it' ∈ a, ∃ x k p q, Clash (Gives it') it x k p q := by
  refine attrs_reports hp (fun d h => by rw [h]; rfl) fun hr s0 ds h1 => ?_
  obtain ⟨ds', h3, h4⟩ := C20_pairwise hp hr s0
  obtain rfl := List.append_cancel_left (h1.symm.trans h3)
  exact h4

/-- **C20.** A document has an error about merging a recursive with another set if and only if this happens in one of its sets. -/
theorem C20_document_rec {src : Bytes} {n : Node} {s : PState} (hp : parse src = some (n, s)) :
    (∃ d ∈ s.lex.diags, d.kind = .mergeDiffRec) ↔
      ∃ h hb bs r st dy, Reach n (.exprAttrs h (.binds hb bs) r st dy) ∧ ∃ a it b, items bs = a ++ it :: b ∧ MixedRec (Joint a.reverse) it := by
  refine attrs_reports hp (fun d h => by rw [h]; rfl) fun hr s0 ds h1 => ?_
  obtain ⟨ds', h3, h4⟩ := C20_merge_rec hp hr s0
  obtain rfl := List.append_cancel_left (h1.symm.trans h3)
  exact h4

/-! ### Formals -/

theorem formals_reports {src : Bytes} {n : Node} {s : PState} (hp : parse src = some (n, s)) {P : Diagnostic → Prop} (hP : ∀ d, P d → isFormalsKind d.kind = true)
    {Q : List Node → Prop} (hQ : ∀ {h ms}, Reach n (.formals h ms) → ∀ s0 ds,
      (onFormals src h.range ms s0).2.diags = s0.diags ++ ds → ((∃ d ∈ ds, P d) ↔ Q ms)) :
    (∃ d ∈ s.lex.diags, P d) ↔ ∃ h ms, Reach n (.formals h ms) ∧ Q ms := by
  have hs : ∀ d, P d → isSema d.kind = true := fun d h => by
    have := hP d h
    revert this
    cases d.kind <;> first | exact fun _ => rfl | exact nofun
  constructor
  · intro hd
    obtain ⟨x, hr, ha, hm⟩ := parse_may hp hs hd
    cases x <;> try exact ha.elim
    case exprAttrs h b r st dy =>
      obtain ⟨s0, ds, h1, d, h2, h3⟩ := hm
      have := (attrs_kinds h1 h2).1
      have := hP d h3
      cases hk : d.kind <;> simp_all [isFormalsKind, isAttrsKind]
    case formals h ms =>
      obtain ⟨s0, ds, h1, h2⟩ := hm
      exact ⟨h, ms, hr, (hQ hr s0 ds h1).mp h2⟩
    case lambdaArg h i f =>
      obtain ⟨s0, ds, h1, d, h2, h3⟩ := hm
      have := hP d h3
      rw [arg_kinds h1 h2] at this; cases this
    case exprParen h e l r =>
      have := hP _ hm.2
      cases this
  · rintro ⟨h, ms, hr, hc⟩
    exact parse_must hp hs hr trivial fun s0 ds h1 => (hQ hr s0 ds h1).mpr hc

/-- **C21.** The errors about duplicated formals of a document are exactly those of its lists of formals: one for every later formal of
a name, with a note at the first one. -/
theorem C21_document {src : Bytes} {n : Node} {s : PState} (hp : parse src = some (n, s)) (d : Diagnostic) :
    (d ∈ s.lex.diags ∧ d.kind = .duplicatedFormal) ↔
      ∃ h ms, Reach n (.formals h ms) ∧ ∃ a f b, ms = a ++ f :: b ∧ DuplicateRule a f b d := by
  rw [← formals_reports hp (P := fun y => y = d ∧ d.kind = .duplicatedFormal) (by rintro _ ⟨rfl, h⟩; rw [h]; rfl)]
  · exact ⟨fun h => ⟨d, h.1, rfl, h.2⟩, fun ⟨_, h1, h2, h3⟩ => ⟨h2 ▸ h1, h3⟩⟩
  · intro h ms hr s0 ds h1
    rw [← (formals_ds h1).1]
    exact ⟨fun ⟨_, h1, h2, h3⟩ => ⟨h2 ▸ h1, h3⟩, fun h => ⟨d, h.1, rfl, h.2⟩⟩

/-- **C21.** The other errors about formals of a document are exactly those of the members of its lists of formals: members without
separator, ellipses that are not last, and empty members. -/
theorem C21_document_members {src : Bytes} {n : Node} {s : PState} (hp : parse src = some (n, s)) (k : DK) (r : CRange)
    (hk : k = .formalMissingComma ∨ k = .formalExtraEllipsis ∨ k = .formalMisplacedEllipsis ∨ k = .emptyFormal) :
    (∃ d ∈ s.lex.diags, d.kind = k ∧ d.range = r) ↔ ∃ h ms, Reach n (.formals h ms) ∧ ∃ a f b, ms = a ++ f :: b ∧
      (SeparatorRule a f b (k, r) ∨ EllipsisRule a f b (k, r) ∨ EmptyRule a f b (k, r)) := by
  refine formals_reports hp (fun d h => ?_) fun hr s0 ds h1 => ?_
  · rw [h.1]; rcases hk with rfl | rfl | rfl | rfl <;> rfl
  · have := (formals_ds h1).2 (k, r) (by rcases hk with rfl | rfl | rfl | rfl <;> nofun)
    simpa only [brief, Prod.mk.injEq, MemberRule] using this

/-- **C21.** The errors about arguments with the name of a formal are exactly those of the arguments of the document. -/
theorem C21_document_argument {src : Bytes} {n : Node} {s : PState} (hp : parse src = some (n, s)) (d : Diagnostic) :
    (d ∈ s.lex.diags ∧ d.kind = .duplicatedFormalToArg) ↔
      ∃ h i f g, Reach n (.lambdaArg h i f) ∧ i.isNull = false ∧ f.isNull = false ∧ FirstOf (formalMembers f) i.name g ∧
        d = { kind := .duplicatedFormalToArg, range := i.range, notes := [{ kind := .duplicateFormal, range := g.range }] } := by
  have hs : d.kind = .duplicatedFormalToArg → ∀ y, y = d → isSema y.kind = true := by rintro h _ rfl; rw [h]; rfl
  constructor
  · rintro ⟨hd, hk⟩
    obtain ⟨x, hr, ha, hm⟩ := parse_may hp (hs hk) ⟨d, hd, rfl⟩
    cases x <;> try exact ha.elim
    case exprAttrs h b r st dy =>
      obtain ⟨s0, ds, h1, _, h2, rfl⟩ := hm
      have := (attrs_kinds h1 h2).1
      rw [hk] at this; cases this
    case formals h ms =>
      obtain ⟨s0, ds, h1, _, h2, rfl⟩ := hm
      have := formals_kinds h1 h2
      rw [hk] at this; cases this
    case exprParen h e l r =>
      obtain ⟨-, rfl⟩ := hm
      cases hk
    case lambdaArg h i f =>
      obtain ⟨s0, ds, h1, _, h2, rfl⟩ := hm
      obtain ⟨ds', h', k⟩ := C21_argument h.range i f s0
      obtain rfl := List.append_cancel_left (h1.symm.trans h')
      rcases k with ⟨rfl, -⟩ | ⟨g, k1, k2, k3, rfl⟩
      · cases h2
      · exact ⟨h, i, f, g, hr, k1, k2, k3, List.mem_singleton.mp h2⟩
  · rintro ⟨h, i, f, g, hr, k1, k2, k3, rfl⟩
    obtain ⟨_, hd, rfl⟩ := parse_must hp (hs rfl) hr trivial fun s0 ds h1 => by
      obtain ⟨ds', h', k⟩ := C21_argument h.range i f s0
      obtain rfl := List.append_cancel_left (h1.symm.trans h')
      rcases k with ⟨-, k⟩ | ⟨g', -, -, k4, rfl⟩
      · exact absurd ⟨k1, k2, g, k3⟩ k
      · refine ⟨_, List.mem_singleton.mpr rfl, ?_⟩
        rw [first_unique k4 k3]
    exact ⟨hd, rfl⟩

/-! ### Examples -/

example : parseDiags b!"{ a = { b = 1; b = 2; }; c = rec { } // { x.y = 1; x = 2; }; }" = [(.duplicatedAttrName, 15, [8]), (.duplicatedAttrName, 51, [42])] := by
  decide +kernel
example : parseDiags b!"[ ({ a, a }@a: { b = 1; b = 2; }) 1" =
    [(.duplicatedFormal, 8, [5]), (.duplicatedFormalToArg, 12, [5]), (.duplicatedAttrName, 24, [17]), (.expected, 35, [0])] := by
  decide +kernel

end Verif.Props
