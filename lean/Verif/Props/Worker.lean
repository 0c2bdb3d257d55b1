import Verif.Model.Worker
import Mathlib.Data.List.Basic
/-
Property C77: what the worker answers.
-/
namespace Verif.Props
open Verif.Worker

/-- The value at a path of attributes. -/
inductive At (H : Heap) : Nat → List Bytes → Val → Prop
  | here {l : Nat} {v : Val} (h : H l = .val v) : At H l [] v
  | step {l c : Nat} {as : List (Bytes × Nat)} {x : Bytes} {xs : List Bytes} {v : Val}
      (h : H l = .val (.attrs as)) (hx : as.lookup x = some c) (hc : At H c xs v) : At H l (x :: xs) v

/-- All cells are initialised. -/
def Ready (H : Heap) : Prop := ∀ l, H l ≠ .uninit

theorem at_iff {H : Heap} {v : Val} : ∀ {xs : List Bytes} {l : Nat},
    At H l xs v ↔ ∃ c, selectPath H l xs = .ok c ∧ H c = .val v
  | [], l => by
    constructor
    · rintro ⟨h⟩; exact ⟨l, rfl, h⟩
    · rintro ⟨c, h, hc⟩; cases h; exact .here hc
  | x :: xs, l => by
    constructor
    · rintro (_ | ⟨h, hx, hc⟩)
      obtain ⟨c, h1, h2⟩ := at_iff.mp hc
      refine ⟨c, ?_, h2⟩
      simp [selectPath, selectAttr, force, h, hx, h1, bind, Except.bind]
    · rintro ⟨c, h, hc⟩
      simp only [selectPath, bind, Except.bind] at h
      split at h
      · cases h
      · rename_i k hk
        simp only [selectAttr, force, bind, Except.bind] at hk
        cases hl : H l with
        | throws => simp [hl] at hk
        | uninit => simp [hl] at hk
        | val w =>
          simp only [hl] at hk
          cases w with
          | attrs as =>
            simp only at hk
            split at hk
            · rename_i c' hx; cases hk; exact .step hl hx (at_iff.mpr ⟨c, h, hc⟩)
            · cases hk
          | _ => cases hk

theorem at_append {H : Heap} {v : Val} {ys : List Bytes} : ∀ {xs : List Bytes} {l : Nat},
    At H l (xs ++ ys) v ↔ ∃ c, selectPath H l xs = .ok c ∧ At H c ys v
  | [], l => by
    constructor
    · exact fun h => ⟨l, rfl, h⟩
    · rintro ⟨c, h, hc⟩; cases h; exact hc
  | x :: xs, l => by
    simp only [List.cons_append, selectPath, bind, Except.bind]
    constructor
    · rintro (_ | ⟨h, hx, hc⟩)
      obtain ⟨c, h1, h2⟩ := at_append.mp hc
      exact ⟨c, by simp [selectAttr, force, h, hx, h1, bind, Except.bind], h2⟩
    · rintro ⟨c, h, hc⟩
      split at h
      · cases h
      · rename_i k hk
        simp only [selectAttr, force, bind, Except.bind] at hk
        cases hl : H l with
        | throws => simp [hl] at hk
        | uninit => simp [hl] at hk
        | val w =>
          simp only [hl] at hk
          cases w with
          | attrs as =>
            simp only at hk
            split at hk
            · rename_i c' hx; cases hk; exact .step hl hx (at_append.mpr ⟨c, h, hc⟩)
            · cases hk
          | _ => cases hk

theorem force_ready {H : Heap} (hr : Ready H) (l : Nat) : (∃ v, H l = .val v ∧ force H l = .ok v) ∨ force H l = .error .thrown := by
  cases h : H l with
  | val v => exact .inl ⟨v, rfl, by simp [force, h]⟩
  | throws => exact .inr (by simp [force, h])
  | uninit => exact absurd h (hr l)

theorem select_ready {H : Heap} (hr : Ready H) (l : Nat) (x : Bytes) : selectAttr H l x ≠ .error .crash := by
  rcases force_ready hr l with ⟨v, -, h⟩ | h
  · cases v <;> simp [selectAttr, h, bind, Except.bind]
    split <;> simp
  · simp [selectAttr, h, bind, Except.bind]

theorem selectPath_ready {H : Heap} (hr : Ready H) : ∀ (xs : List Bytes) (l : Nat), selectPath H l xs ≠ .error .crash
  | [], l => by simp [selectPath]
  | x :: xs, l => by
    simp only [selectPath, bind, Except.bind]
    split
    · rename_i e he
      intro h; cases h
      exact select_ready hr l x he
    · exact selectPath_ready hr xs _

/-- `fillString` finds exactly the string at the path. -/
theorem fillString_spec {H : Heap} (hr : Ready H) (l : Nat) (path : List Bytes) :
    ∃ r, fillString H l path = .ok r ∧ ∀ s, r = some s ↔ ∃ ctx, At H l path (.str s ctx) := by
  have hns : ∀ {c}, selectPath H l path = .ok c → ∀ s ctx, At H l path (.str s ctx) ↔ H c = .val (.str s ctx) := by
    intro c hc s ctx
    rw [at_iff]
    constructor
    · rintro ⟨c', h1, h2⟩; rw [hc] at h1; cases h1; exact h2
    · exact fun h => ⟨c, hc, h⟩
  cases hp : selectPath H l path with
  | error e =>
    have : ∀ s ctx, ¬ At H l path (.str s ctx) := by
      intro s ctx h
      obtain ⟨c, h1, -⟩ := at_iff.mp h
      rw [hp] at h1; cases h1
    refine ⟨none, ?_, fun s => ?_⟩
    · have := selectPath_ready hr path l
      rw [hp] at this
      cases e <;> simp [fillString, hp, bind, Except.bind, caught] at this ⊢
    · simp [this]
  | ok c =>
    rcases force_ready hr c with ⟨v, hv, hf⟩ | hf
    · cases v with
      | str s ctx =>
        refine ⟨some s, by simp [fillString, hp, bind, Except.bind, caught, stringIn, hf], fun s' => ?_⟩
        simp only [hns hp, hv]
        simp
      | _ =>
        refine ⟨none, by simp [fillString, hp, bind, Except.bind, caught, stringIn, hf], fun s' => ?_⟩
        simp only [hns hp, hv]
        simp
    · refine ⟨none, by simp [fillString, hp, bind, Except.bind, caught, stringIn, hf], fun s' => ?_⟩
      simp only [hns hp]
      have : ∀ v, H c ≠ .val v := by
        intro v h
        simp [force, h] at hf
      simp [this]

/-- The parts of the description of a package, and where they come from. -/
def packageParts : List ((Package → Option Bytes) × List Bytes) :=
  [(Package.name, [b!"name"]), (Package.pname, [b!"pname"]), (Package.version, [b!"version"]),
    (Package.description, [b!"meta", b!"description"]), (Package.longDescription, [b!"meta", b!"longDescription"]),
    (Package.position, [b!"meta", b!"position"]), (Package.homepage, [b!"meta", b!"homepage"])]

theorem describePackage_spec {H : Heap} (hr : Ready H) (l : Nat) :
    ∃ p, describePackage H l = .ok p ∧
      ∀ f ∈ packageParts, ∀ s, f.1 p = some s ↔ ∃ ctx, At H l f.2 (.str s ctx) := by
  obtain ⟨a, ha, ha'⟩ := fillString_spec hr l [b!"name"]
  obtain ⟨b, hb, hb'⟩ := fillString_spec hr l [b!"pname"]
  obtain ⟨c, hc, hc'⟩ := fillString_spec hr l [b!"version"]
  obtain ⟨d, hd, hd'⟩ := fillString_spec hr l [b!"meta", b!"description"]
  obtain ⟨e, he, he'⟩ := fillString_spec hr l [b!"meta", b!"longDescription"]
  obtain ⟨f, hf, hf'⟩ := fillString_spec hr l [b!"meta", b!"position"]
  obtain ⟨g, hg, hg'⟩ := fillString_spec hr l [b!"meta", b!"homepage"]
  refine ⟨⟨a, b, c, d, e, f, g⟩, by simp [describePackage, ha, hb, hc, hd, he, hf, hg, bind, Except.bind], ?_⟩
  intro q hq
  simp only [packageParts, List.mem_cons, List.not_mem_nil, or_false] at hq
  rcases hq with rfl | rfl | rfl | rfl | rfl | rfl | rfl
  · exact ha'
  · exact hb'
  · exact hc'
  · exact hd'
  · exact he'
  · exact hf'
  · exact hg'

/-- **C77**, packages: a request about an attribute path is answered iff there is a value at the path, and every part of
the description is the string at its path below it. A part that is missing, is not a string or can not be evaluated does
not affect the others. -/
theorem C77_package {H : Heap} (hr : Ready H) (root : Nat) (path : List Bytes) :
    (attrPathInfo H root path ≠ .error .crash) ∧
    ((∃ i, attrPathInfo H root path = .ok i) ↔ path ≠ [] ∧ ∃ v, At H root path v) ∧
    ∀ i, attrPathInfo H root path = .ok i →
      (∀ f ∈ packageParts, ∀ s, f.1 i.package = some s ↔ ∃ ctx, At H root (path ++ f.2) (.str s ctx)) ∧
      (∀ d, i.value = some d ↔
        (∃ doc, At H root path (.primop doc d.arity d.args) ∧ d.doc = doc.getD []) ∨
        (At H root path (.lambda (some d.doc)) ∧ d.arity = 0 ∧ d.args = [])) := by
  by_cases hp : path = []
  · subst hp
    refine ⟨by simp [attrPathInfo], by simp [attrPathInfo], ?_⟩
    intro i hi
    simp [attrPathInfo] at hi
  · have hpe : path.isEmpty = false := by cases path <;> simp at hp ⊢
    cases hs : selectPath H root path with
    | error e =>
      have hne : e ≠ .crash := by
        rintro rfl
        exact selectPath_ready hr path root hs
      have hno : ¬ ∃ v, At H root path v := by
        rintro ⟨v, h⟩
        obtain ⟨c, h1, -⟩ := at_iff.mp h
        rw [hs] at h1; cases h1
      refine ⟨by simp [attrPathInfo, hpe, hs, bind, Except.bind, hne], ?_, ?_⟩
      · simp [attrPathInfo, hpe, hs, bind, Except.bind, hno]
      · intro i hi
        simp [attrPathInfo, hpe, hs, bind, Except.bind] at hi
    | ok c =>
      rcases force_ready hr c with ⟨v, hv, hf⟩ | hf
      · obtain ⟨p, hp1, hp2⟩ := describePackage_spec hr c
        have heq : attrPathInfo H root path = .ok ⟨p, describeValue v⟩ := by
          simp [attrPathInfo, hpe, hs, hf, hp1, bind, Except.bind]
        have hat : ∀ w, At H root path w ↔ w = v := by
          intro w
          rw [at_iff]
          constructor
          · rintro ⟨c', h1, h2⟩
            rw [hs] at h1; cases h1
            rw [hv] at h2; cases h2; rfl
          · rintro rfl; exact ⟨c, hs, hv⟩
        refine ⟨by simp [heq], ?_, ?_⟩
        · simp [heq, hp, hat]
        · intro i hi
          rw [heq] at hi
          cases hi
          refine ⟨?_, ?_⟩
          · intro f hf' s
            rw [hp2 f hf' s]
            constructor
            · rintro ⟨ctx, h⟩; exact ⟨ctx, at_append.mpr ⟨c, hs, h⟩⟩
            · rintro ⟨ctx, h⟩
              obtain ⟨c', h1, h2⟩ := at_append.mp h
              rw [hs] at h1; cases h1
              exact ⟨ctx, h2⟩
          · rintro ⟨doc, arity, args⟩
            simp only [hat]
            cases v with
            | primop doc' arity' args' =>
              simp only [describeValue, Option.some.injEq, ValueDesc.mk.injEq, Val.primop.injEq, reduceCtorEq, false_and, or_false]
              constructor
              · rintro ⟨rfl, rfl, rfl⟩; exact ⟨doc', ⟨rfl, rfl, rfl⟩, rfl⟩
              · rintro ⟨d, ⟨rfl, rfl, rfl⟩, rfl⟩; exact ⟨rfl, rfl, rfl⟩
            | lambda doc' =>
              cases doc' with
              | none => simp [describeValue]
              | some doc' =>
                simp only [describeValue, Option.some.injEq, ValueDesc.mk.injEq, Val.lambda.injEq, reduceCtorEq, false_and, exists_false, false_or]
                constructor
                · rintro ⟨rfl, rfl, rfl⟩; exact ⟨rfl, rfl, rfl⟩
                · rintro ⟨rfl, rfl, rfl⟩; exact ⟨rfl, rfl, rfl⟩
            | _ => simp [describeValue]
      · have hno : ¬ ∃ v, At H root path v := by
          rintro ⟨v, h⟩
          obtain ⟨c', h1, h2⟩ := at_iff.mp h
          rw [hs] at h1; cases h1
          simp [force, h2] at hf
        refine ⟨by simp [attrPathInfo, hpe, hs, hf, bind, Except.bind], ?_, ?_⟩
        · simp [attrPathInfo, hpe, hs, hf, bind, Except.bind, hno]
        · intro i hi
          simp [attrPathInfo, hpe, hs, hf, bind, Except.bind] at hi

theorem completeNames_take (pfx : Bytes) : ∀ (xs : List Bytes) (n : Nat), n ≤ 30 →
    completeNames pfx n xs = (xs.filter (pfx.isPrefixOf ·)).take (31 - n)
  | [], n, _ => by simp [completeNames]
  | x :: xs, n, hn => by
    rw [completeNames]
    by_cases hx : pfx.isPrefixOf x
    · rw [if_pos hx, List.filter_cons_of_pos (by simpa using hx)]
      by_cases h : n + 1 > maxItems
      · have : n = 30 := by unfold maxItems at h; omega
        subst this
        rw [if_pos h]
        simp
      · rw [if_neg h, completeNames_take pfx xs (n + 1) (by unfold maxItems at h; omega)]
        have : 31 - n = (31 - (n + 1)) + 1 := by unfold maxItems at h; omega
        rw [this, List.take_succ_cons]
    · rw [if_neg hx, List.filter_cons_of_neg (by simpa using hx), completeNames_take pfx xs n hn]

/-- **C77**, names: the reply to a completion request has the first 31 names with the prefix in the attribute set at the
path, in their order; there is an error iff there is no attribute set. -/
theorem C77_names {H : Heap} (hr : Ready H) (root : Nat) (scope : List Bytes) (pfx : Bytes) :
    (attrPathComplete H root scope pfx ≠ .error .crash) ∧
    ∀ ns, attrPathComplete H root scope pfx = .ok ns ↔
      ∃ as, At H root scope (.attrs as) ∧ ns = ((as.map (·.1)).filter (pfx.isPrefixOf ·)).take 31 := by
  unfold attrPathComplete
  cases hs : selectPath H root scope with
  | error e =>
    have hne : e ≠ .crash := by
      rintro rfl
      exact selectPath_ready hr scope root hs
    refine ⟨by simp [bind, Except.bind, hne], fun ns => ?_⟩
    simp only [bind, Except.bind, reduceCtorEq, false_iff]
    rintro ⟨as, h, -⟩
    obtain ⟨c, h1, -⟩ := at_iff.mp h
    rw [hs] at h1; cases h1
  | ok c =>
    have hat : ∀ w, At H root scope w ↔ H c = .val w := by
      intro w
      rw [at_iff]
      constructor
      · rintro ⟨c', h1, h2⟩; rw [hs] at h1; cases h1; exact h2
      · exact fun h => ⟨c, hs, h⟩
    simp only [hat, bind, Except.bind]
    rcases force_ready hr c with ⟨v, hv, hf⟩ | hf
    · rw [hf, hv]
      cases v with
      | attrs as =>
        refine ⟨by simp, fun ns => ?_⟩
        simp only [Except.ok.injEq, Cell.val.injEq, Val.attrs.injEq, exists_eq_left', completeNames_take pfx _ 0 (by omega)]
        exact eq_comm
      | _ => exact ⟨by simp, fun ns => by simp⟩
    · refine ⟨by simp [hf], fun ns => ?_⟩
      rw [hf]
      simp only [reduceCtorEq, false_iff]
      rintro ⟨as, h, -⟩
      simp [force, h] at hf

/-! ### Options -/

theorem at_nil {H : Heap} {l : Nat} {v : Val} : At H l [] v ↔ H l = .val v :=
  ⟨fun h => by cases h; assumption, .here⟩

theorem at_cons {H : Heap} {l : Nat} {x : Bytes} {xs : List Bytes} {v : Val} {as : List (Bytes × Nat)}
    (hl : H l = .val (.attrs as)) : At H l (x :: xs) v ↔ ∃ c, as.lookup x = some c ∧ At H c xs v := by
  constructor
  · rintro (_ | ⟨h, hx, hc⟩)
    rw [hl] at h; cases h
    exact ⟨_, hx, hc⟩
  · rintro ⟨c, hx, hc⟩; exact .step hl hx hc

theorem caught_ready {r : Except Fail (Option Bytes)} (h : r ≠ .error .crash) : ∃ a, caught r = .ok a := by
  cases r with
  | ok a => exact ⟨a, rfl⟩
  | error e => cases e <;> simp [caught] at h ⊢

theorem field_ready {H : Heap} (hr : Ready H) (l : Nat) (x : Bytes) : getFieldString H l x ≠ .error .crash := by
  rcases force_ready hr l with ⟨v, hv, hf⟩ | hf
  · cases v with
    | attrs as =>
      simp only [getFieldString, hf, bind, Except.bind]
      split
      · simp
      · rename_i c hc
        rcases force_ready hr c with ⟨w, -, hw⟩ | hw
        · rw [hw]
          cases w with
          | str s ctx => cases ctx <;> simp
          | _ => simp
        · rw [hw]; simp
    | _ => simp [getFieldString, hf, bind, Except.bind]
  · simp [getFieldString, hf, bind, Except.bind]

theorem render_ready {H : Heap} (hr : Ready H) {print : Nat → Except Fail Bytes} (hp : ∀ l, print l ≠ .error .crash) (l : Nat)
    (complex : Bool) : ∃ a, render print H l complex = .ok a := by
  refine caught_ready ?_
  rcases force_ready hr l with ⟨v, hv, hf⟩ | hf
  · have h1 := field_ready hr l b!"_type"
    have h2 := field_ready hr l b!"text"
    have h3 := hp l
    simp only [hf, checkField, bind, Except.bind]
    cases hg : getFieldString H l b!"_type" with
    | error e => simp only [hg] at h1 ⊢; simpa using h1
    | ok t =>
      simp only
      split
      · exact h2
      · split
        · simp
        · cases hpl : print l with
          | error e => simp only [hpl] at h3 ⊢; simpa using h3
          | ok b => simp
  · simp [hf, bind, Except.bind]

theorem withAttr_ready {α : Type} {f : Nat → Except Fail (Option α)} (hf : ∀ c, ∃ a, f c = .ok a) (as : List (Bytes × Nat))
    (x : Bytes) : ∃ a, withAttr as x f = .ok a ∧ (∀ c, as.lookup x = some c → f c = .ok a) ∧ (as.lookup x = none → a = none) := by
  unfold withAttr
  cases h : as.lookup x with
  | none => exact ⟨none, rfl, by simp, by simp⟩
  | some c =>
    obtain ⟨a, ha⟩ := hf c
    exact ⟨a, ha, by simp [ha], by simp⟩

/-- An entry of `declarationPositions` as `unsafeGetAttrPos` makes it. -/
def Position (H : Heap) (l : Nat) (p : Loc) : Prop :=
  (∃ ctx, At H l [b!"file"] (.str p.file ctx)) ∧ At H l [b!"line"] (.int (p.line + 1)) ∧
    At H l [b!"column"] (.int (p.character + 1))

theorem selectAttr_of_at {H : Heap} {l : Nat} {x : Bytes} {v : Val} (h : At H l [x] v) :
    ∃ c, selectAttr H l x = .ok c ∧ force H c = .ok v := by
  rcases h with _ | ⟨h, hx, hc⟩
  have := at_nil.mp hc
  rename_i c as
  exact ⟨c, by simp [selectAttr, force, h, hx, bind, Except.bind], by simp [force, this]⟩

theorem declPos_ok {H : Heap} {l : Nat} {p : Loc} (h : Position H l p) : declPos H l = .ok p := by
  obtain ⟨⟨ctx, h1⟩, h2, h3⟩ := h
  obtain ⟨a, ha, ha'⟩ := selectAttr_of_at h1
  obtain ⟨b, hb, hb'⟩ := selectAttr_of_at h2
  obtain ⟨c, hc, hc'⟩ := selectAttr_of_at h3
  simp [declPos, ha, ha', hb, hb', hc, hc', bind, Except.bind]

theorem declLoop_ok {H : Heap} {xs : List Nat} {ps : List Loc} (h : List.Forall₂ (Position H) xs ps) (acc : List Loc) :
    declLoop H acc xs = (acc ++ ps, none) := by
  induction h generalizing acc with
  | nil => simp [declLoop]
  | cons h _ ih => rw [declLoop, declPos_ok h]; simp [ih]

/-- The positions of the declarations of an option are well formed, or there are none. -/
def Declared (H : Heap) (l : Nat) (ps : List Loc) : Prop :=
  (∃ xs, At H l [b!"declarationPositions"] (.list xs) ∧ List.Forall₂ (Position H) xs ps) ∨
    (∃ as, H l = .val (.attrs as) ∧ as.lookup b!"declarationPositions" = none ∧ ps = [])

theorem fillDeclarations_ok {H : Heap} {l : Nat} {ps : List Loc} (h : Declared H l ps) :
    fillDeclarations H l = .ok ps := by
  rcases h with ⟨xs, h1, h2⟩ | ⟨as, h1, h2, rfl⟩
  · obtain ⟨c, hc, hf⟩ := selectAttr_of_at h1
    simp [fillDeclarations, hc, hf, declLoop_ok h2]
  · simp [fillDeclarations, selectAttr, force, h1, h2, bind, Except.bind]

/-- How an example or default is shown: the text of a `literalExpression`, or the printed value. -/
def Shown (print : Nat → Except Fail Bytes) (H : Heap) (complex : Bool) (c : Nat) (s : Bytes) : Prop :=
  (At H c [b!"_type"] (.str b!"literalExpression" false) ∧ At H c [b!"text"] (.str s false)) ∨
  ((∀ v, ¬ At H c [b!"_type"] v) ∧ print c = .ok s ∧
    ((∃ t ctx, At H c [] (.str t ctx)) ∨ (∃ n, At H c [] (.int n)) ∨ At H c [] .scalar ∨
      (complex = true ∧ ∃ as, At H c [] (.attrs as) ∧ as.lookup b!"_type" = none) ∨
      (complex = true ∧ ∃ xs, At H c [] (.list xs))))

theorem field_of_at {H : Heap} {l : Nat} {x s : Bytes} (h : At H l [x] (.str s false)) : getFieldString H l x = .ok (some s) := by
  rcases h with _ | ⟨h, hx, hc⟩
  have := at_nil.mp hc
  simp [getFieldString, force, h, hx, this, bind, Except.bind]

theorem render_shown {print : Nat → Except Fail Bytes} {H : Heap} {complex : Bool} {c : Nat} {s : Bytes}
    (h : Shown print H complex c s) : render print H c complex = .ok (some s) := by
  rcases h with ⟨h1, h2⟩ | ⟨h1, h2, h3⟩
  · have h1' := field_of_at h1
    have h2' := field_of_at h2
    rcases h1 with _ | ⟨h, hx, hc⟩
    simp [render, force, h, checkField, h1', h2', bind, Except.bind, caught]
  · rcases h3 with ⟨t, ctx, h⟩ | ⟨n, h⟩ | h | ⟨rfl, as, h, hl⟩ | ⟨rfl, xs, h⟩ <;> have h := at_nil.mp h <;>
      simp [render, force, h, checkField, getFieldString, h2, bind, Except.bind, caught, Val.simple, *]

/-- A value of `default` or `defaultText` that is not shown: an attribute set, list or function that is not a
`literalExpression`, or one whose type or text depends on the store. -/
def NotShown (H : Heap) (c : Nat) : Prop :=
  (∃ as, At H c [] (.attrs as) ∧ as.lookup b!"_type" = none) ∨ (∃ xs, At H c [] (.list xs)) ∨
    (∃ d, At H c [] (.lambda d)) ∨ (∃ d n a, At H c [] (.primop d n a)) ∨ H c = .throws ∨
    (∃ s, At H c [b!"_type"] (.str s true)) ∨
    (At H c [b!"_type"] (.str b!"literalExpression" false) ∧ ∃ s, At H c [b!"text"] (.str s true))

theorem render_notShown {print : Nat → Except Fail Bytes} {H : Heap} {c : Nat} (h : NotShown H c) :
    render print H c false = .ok none := by
  have bad : ∀ {x s : Bytes}, At H c [x] (.str s true) → getFieldString H c x = .error .thrown := by
    rintro x s (_ | ⟨h, hx, hc⟩)
    have := at_nil.mp hc
    simp [getFieldString, force, h, hx, this, bind, Except.bind]
  rcases h with ⟨as, h, hl⟩ | ⟨xs, h⟩ | ⟨d, h⟩ | ⟨d, n, a, h⟩ | h | ⟨s, h⟩ | ⟨h1, s, h2⟩
  · have h := at_nil.mp h
    simp [render, force, h, checkField, getFieldString, bind, Except.bind, caught, Val.simple, hl]
  · have h := at_nil.mp h
    simp [render, force, h, checkField, getFieldString, bind, Except.bind, caught, Val.simple]
  · have h := at_nil.mp h
    simp [render, force, h, checkField, getFieldString, bind, Except.bind, caught, Val.simple]
  · have h := at_nil.mp h
    simp [render, force, h, checkField, getFieldString, bind, Except.bind, caught, Val.simple]
  · simp [render, force, h, bind, Except.bind, caught]
  · have h' := bad h
    rcases h with _ | ⟨h, hx, hc⟩
    simp [render, force, h, checkField, h', bind, Except.bind, caught]
  · have h1' := field_of_at h1
    have h2' := bad h2
    rcases h1 with _ | ⟨h, hx, hc⟩
    simp [render, force, h, checkField, h1', h2', bind, Except.bind, caught]

/-- The cell of an attribute. -/
def CellAt (H : Heap) (l : Nat) (x : Bytes) (c : Nat) : Prop := ∃ as, H l = .val (.attrs as) ∧ as.lookup x = some c

/-- What the description of an option must say. -/
structure Describes (print : Nat → Except Fail Bytes) (H : Heap) (l : Nat) (d : OptDesc) : Prop where
  description : ∀ s, d.description = some s ↔ ∃ ctx, At H l [b!"description"] (.str s ctx)
  type : d.type = none ↔ ∀ c, ¬ CellAt H l b!"type" c
  typeDescription : ∀ s, (∃ n, d.type = some (some s, n)) ↔ ∃ ctx, At H l [b!"type", b!"description"] (.str s ctx)
  typeName : ∀ s, (∃ n, d.type = some (n, some s)) ↔ ∃ ctx, At H l [b!"type", b!"name"] (.str s ctx)
  example_ : ∀ c s, CellAt H l b!"example" c → Shown print H true c s → d.example_ = some s
  noExample : (∀ c, ¬ CellAt H l b!"example" c) → d.example_ = none
  defaultText : ∀ c s, CellAt H l b!"defaultText" c → Shown print H false c s → d.default_ = some s
  defaultTextNot : ∀ c, CellAt H l b!"defaultText" c → NotShown H c → d.default_ = none
  default_ : ∀ c s, (∀ c, ¬ CellAt H l b!"defaultText" c) → CellAt H l b!"default" c → Shown print H false c s →
    d.default_ = some s
  defaultNot : ∀ c, (∀ c, ¬ CellAt H l b!"defaultText" c) → CellAt H l b!"default" c → NotShown H c → d.default_ = none
  noDefault : (∀ c, ¬ CellAt H l b!"defaultText" c) → (∀ c, ¬ CellAt H l b!"default" c) → d.default_ = none

theorem cellAt_iff {H : Heap} {l c : Nat} {x : Bytes} {as : List (Bytes × Nat)} (hl : H l = .val (.attrs as)) :
    CellAt H l x c ↔ as.lookup x = some c := by
  constructor
  · rintro ⟨as', h, hx⟩; rw [hl] at h; cases h; exact hx
  · exact fun h => ⟨as, hl, h⟩

/-- **C77**, options: an option whose declaration positions are well formed (or absent) is described, with its positions
(from line and column 1 to 0), its description, its type, its example and its default; `defaultText` hides `default`. -/
theorem C77_option {H : Heap} (hr : Ready H) {print : Nat → Except Fail Bytes} (hp : ∀ l, print l ≠ .error .crash) {l : Nat}
    {ps : List Loc} (hd : Declared H l ps) :
    ∃ d, describeOption print H l = .ok d ∧ d.declarations = ps ∧ Describes print H l d := by
  obtain ⟨as, hl⟩ : ∃ as, H l = .val (.attrs as) := by
    rcases hd with ⟨xs, h, -⟩ | ⟨as, h, -⟩
    · rcases h with _ | ⟨h, -, -⟩
      exact ⟨_, h⟩
    · exact ⟨as, h⟩
  obtain ⟨desc, h1, h1'⟩ := fillString_spec hr l [b!"description"]
  have hty : ∀ c, ∃ a, fillType H c = .ok a := by
    intro c
    obtain ⟨a, ha, -⟩ := fillString_spec hr c [b!"description"]
    obtain ⟨b, hb, -⟩ := fillString_spec hr c [b!"name"]
    exact ⟨some (a, b), by simp [fillType, ha, hb, bind, Except.bind]⟩
  obtain ⟨ty, h2, h2', h2n⟩ := withAttr_ready hty as b!"type"
  obtain ⟨ex, h3, h3', h3n⟩ := withAttr_ready (fun c => render_ready hr hp c true) as b!"example"
  obtain ⟨df, h4, h4', h4n⟩ := withAttr_ready (fun c => render_ready hr hp c false) as b!"default"
  obtain ⟨de, h5, h5a, h5b⟩ : ∃ de, fillDefault print H as = .ok de ∧
      (∀ c, as.lookup b!"defaultText" = some c → render print H c false = .ok de) ∧
      (as.lookup b!"defaultText" = none → de = df) := by
    unfold fillDefault
    cases hx : as.lookup b!"defaultText" with
    | none => exact ⟨df, h4, by simp, by simp⟩
    | some c =>
      obtain ⟨a, ha⟩ := render_ready hr hp c false
      exact ⟨a, ha, by simp [ha], by simp⟩
  have hf : force H l = .ok (.attrs as) := by simp [force, hl]
  have none_of : ∀ x, (∀ c, ¬ CellAt H l x c) → as.lookup x = none := by
    intro x h
    cases hx : as.lookup x with
    | none => rfl
    | some c => exact absurd ((cellAt_iff hl).mpr hx) (h c)
  have hty' : ∀ c, as.lookup b!"type" = some c → ∃ a b, ty = some (a, b) ∧
      (∀ s, a = some s ↔ ∃ ctx, At H c [b!"description"] (.str s ctx)) ∧
      (∀ s, b = some s ↔ ∃ ctx, At H c [b!"name"] (.str s ctx)) := by
    intro c hc
    obtain ⟨a, ha, ha'⟩ := fillString_spec hr c [b!"description"]
    obtain ⟨b, hb, hb'⟩ := fillString_spec hr c [b!"name"]
    have := h2' c hc
    simp only [fillType, ha, hb, bind, Except.bind, Except.ok.injEq] at this
    exact ⟨a, b, this.symm, ha', hb'⟩
  refine ⟨⟨desc, ps, ty, ex, de⟩, ?_, rfl, ?_⟩
  · simp [describeOption, h1, fillDeclarations_ok hd, hf, h2, h3, h5, bind, Except.bind]
  · refine ⟨h1', ?_, ?_, ?_, ?_, ?_, ?_, ?_, ?_, ?_, ?_⟩
    · simp only [cellAt_iff hl]
      cases hx : as.lookup b!"type" with
      | none => simp [h2n hx]
      | some c =>
        obtain ⟨a, b, rfl, -, -⟩ := hty' c hx
        simp
    · intro s
      simp only [at_cons hl]
      cases hx : as.lookup b!"type" with
      | none => simp [h2n hx]
      | some c =>
        obtain ⟨a, b, rfl, ha, -⟩ := hty' c hx
        simp only [Option.some.injEq, Prod.mk.injEq, exists_and_left, exists_eq', and_true, exists_eq_left', ha]
    · intro s
      simp only [at_cons hl]
      cases hx : as.lookup b!"type" with
      | none => simp [h2n hx]
      | some c =>
        obtain ⟨a, b, rfl, -, hb⟩ := hty' c hx
        simp only [Option.some.injEq, Prod.mk.injEq, exists_and_right, exists_eq', true_and, exists_eq_left', hb]
    · intro c s hc hs
      have := h3' c ((cellAt_iff hl).mp hc)
      rw [render_shown hs] at this
      exact (Except.ok.inj this).symm
    · intro h
      exact h3n (none_of _ h)
    · intro c s hc hs
      have := h5a c ((cellAt_iff hl).mp hc)
      rw [render_shown hs] at this
      exact (Except.ok.inj this).symm
    · intro c hc hs
      have := h5a c ((cellAt_iff hl).mp hc)
      rw [render_notShown hs] at this
      exact (Except.ok.inj this).symm
    · intro c s hn hc hs
      have := h4' c ((cellAt_iff hl).mp hc)
      rw [render_shown hs] at this
      simp only [h5b (none_of _ hn)]
      exact (Except.ok.inj this).symm
    · intro c hn hc hs
      have := h4' c ((cellAt_iff hl).mp hc)
      rw [render_notShown hs] at this
      simp only [h5b (none_of _ hn)]
      exact (Except.ok.inj this).symm
    · intro hn hn'
      simp only [h5b (none_of _ hn)]
      exact h4n (none_of _ hn')

/-- **C77**, options: a value that is not an attribute set is not described. -/
theorem C77_no_option {H : Heap} {print : Nat → Except Fail Bytes} {l : Nat} {v : Val} (hv : H l = .val v) (h : ∀ as, v ≠ .attrs as) :
    describeOption print H l = .error .type := by
  cases v with
  | attrs as => exact absurd rfl (h as)
  | _ => simp [describeOption, fillString, fillDeclarations, selectPath, selectAttr, force, hv, bind, Except.bind, caught]

theorem optionLoop_ok {H : Heap} {print : Nat → Except Fail Bytes} {pfx : Bytes} :
    ∀ {as : List (Bytes × Nat)} {acc fs : List (Bytes × Option OptDesc)}, acc.length < 30 → optionLoop print H pfx acc as = .ok fs →
      fs.map (·.1) = acc.map (·.1) ++ ((as.map (·.1)).filter (pfx.isPrefixOf ·)).take (30 - acc.length)
  | [], acc, fs, _, h => by
    cases h
    simp
  | (name, c) :: as, acc, fs, hlen, h => by
    rw [optionLoop] at h
    by_cases hx : pfx.isPrefixOf name
    · rw [if_pos hx] at h
      simp only [List.map_cons]
      rw [List.filter_cons_of_pos (by simpa using hx)]
      have key : ∀ d : Option OptDesc, (if (acc ++ [(name, d)]).length ≥ maxItems then .ok (acc ++ [(name, d)])
          else optionLoop print H pfx (acc ++ [(name, d)]) as) = Except.ok fs → fs.map (·.1) = acc.map (·.1) ++
            (name :: (as.map (·.1)).filter (pfx.isPrefixOf ·)).take (30 - acc.length) := by
        intro d h
        split at h
        · rename_i hge
          cases h
          have : 30 - acc.length = 1 := by
            simp only [List.length_append, List.length_singleton, maxItems] at hge
            omega
          simp [this]
        · rename_i hge
          have hlen' : (acc ++ [(name, d)]).length < 30 := by
            simp only [maxItems] at hge
            omega
          rw [optionLoop_ok hlen' h]
          have : 30 - acc.length = (30 - (acc ++ [(name, d)]).length) + 1 := by
            simp only [List.length_append, List.length_singleton] at hlen' ⊢
            omega
          rw [this, List.take_succ_cons]
          simp
      simp only [bind, Except.bind] at h
      split at h
      · cases h
      · split at h
        · split at h
          · cases h
          · exact key _ h
        · exact key _ h
    · rw [if_neg hx] at h
      simp only [List.map_cons]
      rw [List.filter_cons_of_neg (by simpa using hx)]
      exact optionLoop_ok hlen h

/-- **C77**, option names: a reply to a completion request for options has the first 30 names with the prefix, in their
order. -/
theorem C77_option_names {H : Heap} {print : Nat → Except Fail Bytes} {scope : Nat} {pfx : Bytes} {fs : List (Bytes × Option OptDesc)}
    (h : optionComplete print H scope pfx = .ok fs) :
    ∃ as, At H scope [] (.attrs as) ∧ fs.map (·.1) = ((as.map (·.1)).filter (pfx.isPrefixOf ·)).take 30 := by
  unfold optionComplete at h
  cases hs : H scope with
  | throws => simp [force, hs, bind, Except.bind] at h
  | uninit => simp [force, hs, bind, Except.bind] at h
  | val v =>
    cases v with
    | attrs as =>
      refine ⟨as, .here hs, ?_⟩
      simp only [force, hs, bind, Except.bind] at h
      split at h
      · cases h
      · split at h
        · cases h
        · simpa using optionLoop_ok (by simp) h
    | _ => simp [force, hs, bind, Except.bind] at h

/-- An option with a description whose declaration is at an unknown position (`unsafeGetAttrPos` gives null for it), and an
option without positions. -/
def twoOptions : Heap
  | 0 => .val (.attrs [(b!"a", 1), (b!"b", 2)])
  | 1 => .val (.attrs [(b!"_type", 3), (b!"declarationPositions", 4), (b!"description", 5)])
  | 2 => .val (.attrs [(b!"_type", 3), (b!"description", 5)])
  | 3 => .val (.str b!"option" false)
  | 4 => .val (.list [6])
  | 5 => .val (.str b!"text" false)
  | 6 => .val .scalar
  | _ => .throws

/-- **C77**, for a declaration at an unknown position: the option is not described at all, though its description is there,
and the whole completion of its scope is an error, though there are other options. -/
theorem C77_null_position_violated : ∃ (H : Heap) (print : Nat → Except Fail Bytes), Ready H ∧ (∀ l, print l ≠ .error .crash) ∧
    At H 0 [b!"a", b!"description"] (.str b!"text" false) ∧ describeOption print H 1 = .error .type ∧
    (∃ d, describeOption print H 2 = .ok d) ∧ optionComplete print H 0 [] = .error .type ∧
    (∃ fs, optionComplete print H 0 b!"b" = .ok fs ∧ fs.map (·.1) = [b!"b"]) := by
  refine ⟨twoOptions, fun _ => .ok [], ?_, by simp, ?_, by decide +kernel,
    ⟨⟨some b!"text", [], none, none, none⟩, by decide +kernel⟩, by decide +kernel,
    ⟨[(b!"b", some ⟨some b!"text", [], none, none, none⟩)], by decide +kernel, by decide +kernel⟩⟩
  · intro l
    unfold twoOptions
    split <;> simp
  · exact .step (c := 1) (as := [(b!"a", 1), (b!"b", 2)]) rfl (by decide +kernel)
      (.step (c := 5) (as := [(b!"_type", 3), (b!"declarationPositions", 4), (b!"description", 5)]) rfl (by decide +kernel) (.here rfl))

/-! ### The process -/

/-- The world never ends the process. -/
structure Safe (w : World) : Prop where
  heap : Ready w.heap
  print : ∀ l, w.print l ≠ .error .crash
  select : ∀ l p, w.select l p ≠ .error .crash

theorem reply_ready {α : Type} {f : α → Reply} {r : Except Fail α} (h : r ≠ .error .crash) : ∃ a, reply f r = some a := by
  cases r with
  | ok a => exact ⟨f a, rfl⟩
  | error e => cases e <;> simp [reply] at h ⊢

theorem declPos_ready {H : Heap} (hr : Ready H) (l : Nat) : declPos H l ≠ .error .crash := by
  have fr : ∀ c, force H c ≠ .error .crash := by
    intro c
    rcases force_ready hr c with ⟨v, -, h⟩ | h <;> simp [h]
  have h1 := select_ready hr l b!"file"
  have h2 := select_ready hr l b!"line"
  have h3 := select_ready hr l b!"column"
  unfold declPos
  simp only [bind, Except.bind]
  split
  · rename_i e he; rw [he] at h1; simpa using h1
  · rename_i a ha
    split
    · rename_i e he; rw [he] at h2; simpa using h2
    · rename_i b hb
      split
      · rename_i e he; rw [he] at h3; simpa using h3
      · rename_i c hc
        split
        · rename_i e he; have := fr a; rw [he] at this; simpa using this
        · split
          · rename_i e he; have := fr b; rw [he] at this; simpa using this
          · split
            · rename_i e he; have := fr c; rw [he] at this; simpa using this
            · split <;> simp

theorem declLoop_ready {H : Heap} (hr : Ready H) : ∀ (xs : List Nat) (acc : List Loc), (declLoop H acc xs).2 ≠ some .crash
  | [], acc => by simp [declLoop]
  | x :: xs, acc => by
    rw [declLoop]
    split
    · exact declLoop_ready hr xs _
    · rename_i e he
      have := declPos_ready hr x
      rw [he] at this
      simpa using this

theorem declarations_ready {H : Heap} (hr : Ready H) (l : Nat) : fillDeclarations H l ≠ .error .crash := by
  unfold fillDeclarations
  split
  · simp
  · rename_i e he
    have := select_ready hr l b!"declarationPositions"
    rw [he] at this
    simpa using this
  · rename_i c hc
    split
    · rename_i e he
      rcases force_ready hr c with ⟨v, -, h⟩ | h
      · rw [h] at he; cases he
      · rw [h] at he; cases he; simp
    · rename_i xs hxs
      have := declLoop_ready hr xs []
      split
      · simp
      · simp
      · rename_i e he
        rw [he] at this
        simpa using this
    · simp

theorem describe_ready {H : Heap} (hr : Ready H) {print : Nat → Except Fail Bytes} (hp : ∀ l, print l ≠ .error .crash) (l : Nat) :
    describeOption print H l ≠ .error .crash := by
  obtain ⟨desc, h1, -⟩ := fillString_spec hr l [b!"description"]
  have h2 := declarations_ready hr l
  unfold describeOption
  simp only [h1, bind, Except.bind]
  split
  · rename_i e he; rw [he] at h2; simpa using h2
  · rcases force_ready hr l with ⟨v, -, h⟩ | h
    · rw [h]
      cases v with
      | attrs as =>
        have hty : ∀ c, ∃ a, fillType H c = .ok a := by
          intro c
          obtain ⟨a, ha, -⟩ := fillString_spec hr c [b!"description"]
          obtain ⟨b, hb, -⟩ := fillString_spec hr c [b!"name"]
          exact ⟨some (a, b), by simp [fillType, ha, hb, bind, Except.bind]⟩
        obtain ⟨ty, h2, -⟩ := withAttr_ready hty as b!"type"
        obtain ⟨ex, h3, -⟩ := withAttr_ready (fun c => render_ready hr hp c true) as b!"example"
        obtain ⟨df, h4, -⟩ := withAttr_ready (fun c => render_ready hr hp c false) as b!"default"
        obtain ⟨de, h5⟩ : ∃ de, fillDefault print H as = .ok de := by
          unfold fillDefault
          split
          · exact render_ready hr hp _ false
          · exact ⟨df, h4⟩
        simp [h2, h3, h5]
      | _ => simp
    · simp [h]

theorem check_ready {H : Heap} (hr : Ready H) (l : Nat) (x p : Bytes) : checkField H l x p ≠ .error .crash := by
  have := field_ready hr l x
  unfold checkField
  simp only [bind, Except.bind]
  split
  · rename_i e he; rw [he] at this; simpa using this
  · simp

theorem optionLoop_ready {H : Heap} (hr : Ready H) {print : Nat → Except Fail Bytes} (hp : ∀ l, print l ≠ .error .crash) (pfx : Bytes) :
    ∀ (as : List (Bytes × Nat)) (acc : List (Bytes × Option OptDesc)), optionLoop print H pfx acc as ≠ .error .crash
  | [], acc => by simp [optionLoop]
  | (name, c) :: as, acc => by
    rw [optionLoop]
    split
    · have h1 := check_ready hr c b!"_type" b!"option"
      have h2 := describe_ready hr hp c
      have key : ∀ d : Option OptDesc, (if (acc ++ [(name, d)]).length ≥ maxItems then .ok (acc ++ [(name, d)])
          else optionLoop print H pfx (acc ++ [(name, d)]) as) ≠ Except.error .crash := by
        intro d
        split
        · simp
        · exact optionLoop_ready hr hp pfx as _
      simp only [bind, Except.bind, pure, Except.pure]
      split
      · rename_i e he; rw [he] at h1; simpa using h1
      · split
        · split
          · rename_i e he
            split at he
            · rename_i e' he'; cases he; rw [he'] at h2; simpa using h2
            · cases he
          · exact key _
        · exact key _
    · exact optionLoop_ready hr hp pfx as _

/-- **C77**, every request is answered: once an expression has been evaluated, a worker answers every request, whatever the
values are. -/
theorem C77_answered {w : World} (hw : Safe w) : ∀ (reqs : List Req) (root : Nat),
    (∀ r, Req.eval (.error r) ∈ reqs → r ≠ .crash) → (serve w (some root) reqs).length = reqs.length
  | [], _, _ => rfl
  | r :: rs, root, hc => by
    have hrs : ∀ e, Req.eval (.error e) ∈ rs → e ≠ .crash := fun e he => hc e (List.mem_cons_of_mem _ he)
    have key : ∃ root' a, handle w (some root) r = some (some root', a) := by
      unfold handle
      simp only [World.with, Option.isNone_some, Bool.false_eq_true, if_false]
      cases r with
      | eval r =>
        cases r with
        | ok l => exact ⟨l, _, rfl⟩
        | error e =>
          obtain ⟨a, ha⟩ := reply_ready (f := fun _ : Unit => Reply.evaluated) (r := .error e) (by simpa using hc e (by simp))
          exact ⟨root, a, by simp [ha]⟩
      | attrPathInfo path =>
        obtain ⟨a, ha⟩ := reply_ready (f := Reply.info) (C77_package hw.heap root path).1
        exact ⟨root, a, by simp [ha]⟩
      | attrPathComplete scope pfx =>
        obtain ⟨a, ha⟩ := reply_ready (f := Reply.names) (C77_names hw.heap root scope pfx).1
        exact ⟨root, a, by simp [ha]⟩
      | optionInfo path =>
        simp only
        split
        · exact ⟨root, .error, rfl⟩
        · have : (do let o ← w.select root path; describeOption w.print w.heap o) ≠ .error .crash := by
            have h1 := hw.select root path
            simp only [bind, Except.bind]
            split
            · rename_i e he; rw [he] at h1; simpa using h1
            · exact describe_ready hw.heap hw.print _
          obtain ⟨a, ha⟩ := reply_ready (f := Reply.option) this
          exact ⟨root, a, by simp [ha]⟩
      | optionComplete scope pfx =>
        simp only
        have : (do let s ← w.select root scope; optionComplete w.print w.heap s pfx) ≠ .error .crash := by
          have h1 := hw.select root scope
          simp only [bind, Except.bind]
          split
          · rename_i e he; rw [he] at h1; simpa using h1
          · rename_i s hs
            unfold optionComplete
            rcases force_ready hw.heap s with ⟨v, -, h⟩ | h
            · cases v with
              | attrs as =>
                simp only [h, bind, Except.bind]
                have h2 := check_ready hw.heap s b!"_type" b!"option"
                split
                · rename_i e he; rw [he] at h2; simpa using h2
                · split
                  · simp
                  · exact optionLoop_ready hw.heap hw.print pfx as []
              | _ => simp [h, bind, Except.bind]
            · simp [h, bind, Except.bind]
        obtain ⟨a, ha⟩ := reply_ready (f := Reply.options) this
        exact ⟨root, a, by simp [ha]⟩
    obtain ⟨root', a, hk⟩ := key
    rw [serve, hk]
    simp [C77_answered hw rs root' hrs]

/-- **C77**, when the first expression can not be evaluated (there is no nixpkgs, for example): the error is reported, and
any request about a package or an option ends the process without a reply. -/
theorem C77_uninitialised_violated (w : World) (x : Bytes) (xs : List Bytes) :
    serve w none [.eval (.error .thrown), .attrPathInfo (x :: xs)] = [.error] ∧
    serve w none [.eval (.error .thrown), .optionInfo (x :: xs)] = [.error] := by
  constructor <;>
    simp [serve, handle, World.with, reply, attrPathInfo, selectPath, selectAttr, force, bind, Except.bind]

/-- An evaluated attribute set with a package whose `meta` can not be evaluated. -/
def onePackage : Heap
  | 0 => .val (.attrs [(b!"p", 1)])
  | 1 => .val (.attrs [(b!"meta", 2), (b!"version", 3)])
  | 3 => .val (.str b!"1.0" true)
  | _ => .throws

/-- The version of the package is found. -/
example : serve ⟨onePackage, fun _ => .ok [], fun _ _ => .error .missing⟩ none
    [.eval (.ok 0), .attrPathInfo [b!"p"], .attrPathComplete [] b!"", .attrPathInfo [b!"q"], .optionInfo [b!"p"]] =
    [.evaluated, .info ⟨⟨none, none, some b!"1.0", none, none, none, none⟩, none⟩, .names [b!"p"], .error, .error] := by
  decide +kernel

/-- An option with all parts. -/
def oneOption : Heap
  | 0 => .val (.attrs [(b!"_type", 1), (b!"declarationPositions", 2), (b!"default", 3), (b!"description", 4), (b!"type", 5)])
  | 1 => .val (.str b!"option" false)
  | 2 => .val (.list [6])
  | 3 => .val (.int 7)
  | 4 => .val (.str b!"text" false)
  | 5 => .val (.attrs [(b!"name", 7)])
  | 6 => .val (.attrs [(b!"column", 8), (b!"file", 9), (b!"line", 8)])
  | 7 => .val (.str b!"int" false)
  | 8 => .val (.int 3)
  | 9 => .val (.str b!"/f" false)
  | _ => .throws

example : Declared oneOption 0 [⟨b!"/f", 2, 2⟩] := by
  refine .inl ⟨[6], .step (c := 2) (as := [(b!"_type", 1), (b!"declarationPositions", 2), (b!"default", 3),
    (b!"description", 4), (b!"type", 5)]) rfl (by decide +kernel) (.here rfl), .cons ⟨⟨false, ?_⟩, ?_, ?_⟩ .nil⟩
  · exact .step (c := 9) (as := [(b!"column", 8), (b!"file", 9), (b!"line", 8)]) rfl (by decide +kernel) (.here rfl)
  · exact .step (c := 8) (as := [(b!"column", 8), (b!"file", 9), (b!"line", 8)]) rfl (by decide +kernel) (.here rfl)
  · exact .step (c := 8) (as := [(b!"column", 8), (b!"file", 9), (b!"line", 8)]) rfl (by decide +kernel) (.here rfl)

example : describeOption (fun _ => .ok b!"7") oneOption 0 =
    .ok ⟨some b!"text", [⟨b!"/f", 2, 2⟩], some (none, some b!"int"), none, some b!"7"⟩ := by decide +kernel

end Verif.Props
