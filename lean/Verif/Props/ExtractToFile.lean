import Verif.Props.WithToLet
import Verif.Props.Version
/-
The extraction of an expression to a file (C40): which variables are passed, and the name of the file.
-/
namespace Verif.Props
open Nixf Node Scoping Server SourceCode Draft

/-- The text of `d` is outside of the text of `e`, at least in part. -/
def OutsideOf (e d : Node) : Prop := d.lCur.offset < e.lCur.offset ∨ e.rCur.offset < d.rCur.offset

/-- The variable is among those collected. -/
def Picked (vl : VL) (e v : Node) : Prop :=
  isVar v = true ∧ ((∃ d, vl.query v = some ⟨.defined, some d⟩ ∧ (vl.get d).source ≠ .builtin ∧ (vl.get d).syntax_.isNull = false ∧
    OutsideOf e (vl.get d).syntax_) ∨ ∃ d, vl.query v = some ⟨.fromWith, d⟩)

theorem mem_collectVar (vl : VL) (e n : Node) (acc : List Bytes × Bool) (x : Bytes) :
    x ∈ (collectVar vl e n acc).1 ↔ x ∈ acc.1 ∨ (Picked vl e n ∧ varName n = x) := by
  have hin : ∀ d, insideNode d e = false ↔ OutsideOf e d := by
    intro d
    unfold insideNode OutsideOf
    rw [Bool.and_eq_false_iff, decide_eq_false_iff_not, decide_eq_false_iff_not]
    omega
  unfold collectVar
  split
  · rename_i h i
    have hu : useName (.exprVar h i) = varName (.exprVar h i) := rfl
    split
    · rename_i d hq
      have hnp : (¬ ((vl.get d).source ≠ .builtin ∧ (vl.get d).syntax_.isNull = false ∧ OutsideOf e (vl.get d).syntax_)) →
          ¬ Picked vl e (.exprVar h i) := by
        rintro hn ⟨-, ⟨d', h1, h2⟩ | ⟨d', h1⟩⟩
        · rw [hq] at h1; cases h1; exact hn h2
        · rw [hq] at h1; cases h1
      dsimp only
      split
      · rename_i hb
        have := hnp fun h => h.1 hb
        simp [this]
      · rename_i hb
        split
        · rename_i hc
          simp only [Bool.and_eq_true, Bool.not_eq_true', hin] at hc
          have : Picked vl e (.exprVar h i) := ⟨rfl, .inl ⟨d, hq, hb, hc⟩⟩
          rw [mem_setInsert, hu]
          constructor
          · rintro (rfl | h)
            · exact .inr ⟨this, rfl⟩
            · exact .inl h
          · rintro (h | ⟨-, rfl⟩)
            · exact .inr h
            · exact .inl rfl
        · rename_i hc
          simp only [Bool.and_eq_true, Bool.not_eq_true', hin] at hc
          have := hnp fun h => hc h.2
          simp [this]
    · rename_i d hq
      have : Picked vl e (.exprVar h i) := ⟨rfl, .inr ⟨d, hq⟩⟩
      rw [mem_setInsert, hu]
      constructor
      · rintro (rfl | h)
        · exact .inr ⟨this, rfl⟩
        · exact .inl h
      · rintro (h | ⟨-, rfl⟩)
        · exact .inr h
        · exact .inl rfl
    · rename_i h1 h2
      have : ¬ Picked vl e (.exprVar h i) := by
        rintro ⟨-, ⟨d, hq, -⟩ | ⟨d, hq⟩⟩
        · exact h1 d hq
        · exact h2 d hq
      simp [this]
  · rename_i hn
    have : ¬ Picked vl e n := by
      rintro ⟨hv, -⟩
      cases n
      case exprVar => exact (hn _ _ rfl).elim
      all_goals cases hv
    simp [this]

theorem mem_collectFree (vl : VL) (e : Node) (x : Bytes) : ∀ (k : Nat) (n : Node) (acc : List Bytes × Bool), sizeOf n ≤ k →
    (x ∈ (collectFree vl e k n acc).1 ↔ x ∈ acc.1 ∨ ∃ v, Reach n v ∧ Picked vl e v ∧ varName v = x)
  | 0, n, acc, h => by cases n <;> simp at h
  | k + 1, n, acc, h => by
    have fold : ∀ (l : List Node), (∀ c ∈ l, c ∈ n.children) → ∀ a : List Bytes × Bool,
        (x ∈ (l.foldl (fun a c => collectFree vl e k c a) a).1 ↔ x ∈ a.1 ∨ ∃ c ∈ l, ∃ v, Reach c v ∧ Picked vl e v ∧ varName v = x) := by
      intro l
      induction l with
      | nil => simp
      | cons c cs ih =>
        intro hl a
        have hc := children_size (hl c (by simp))
        rw [List.foldl_cons, ih (fun c hc => hl c (by simp [hc])), mem_collectFree vl e x k c a (by omega)]
        simp only [List.mem_cons, exists_eq_or_imp, or_assoc]
    rw [collectFree, fold _ (fun _ h => h), mem_collectVar]
    constructor
    · rintro ((h | h) | ⟨c, hc, v, hv, h⟩)
      · exact .inl h
      · exact .inr ⟨n, .here n, h⟩
      · exact .inr ⟨v, .down _ _ _ hc hv, h⟩
    · rintro (h | ⟨v, hv, h⟩)
      · exact .inl (.inl h)
      · cases hv with
        | here => exact .inl (.inr h)
        | down _ c _ hc hv => exact .inr ⟨c, hc, v, hv, h⟩

theorem collectVar_sorted (vl : VL) (e n : Node) (acc : List Bytes × Bool) (h : acc.1.Pairwise fun a b => bytesLt a b = true) :
    (collectVar vl e n acc).1.Pairwise fun a b => bytesLt a b = true := by
  unfold collectVar
  split
  · split
    · dsimp only
      split
      · exact h
      · split
        · exact setInsert_sorted _ h
        · exact h
    · exact setInsert_sorted _ h
    · exact h
  · exact h

theorem collectFree_sorted (vl : VL) (e : Node) : ∀ (k : Nat) (n : Node) (acc : List Bytes × Bool),
    (acc.1.Pairwise fun a b => bytesLt a b = true) → (collectFree vl e k n acc).1.Pairwise fun a b => bytesLt a b = true
  | 0, _, _, h => h
  | k + 1, n, acc, h => by
    have fold : ∀ (l : List Node) (a : List Bytes × Bool), (a.1.Pairwise fun a b => bytesLt a b = true) →
        (l.foldl (fun a c => collectFree vl e k c a) a).1.Pairwise fun a b => bytesLt a b = true := by
      intro l
      induction l with
      | nil => exact fun _ h => h
      | cons c cs ih => exact fun a h => ih _ (collectFree_sorted vl e k c a h)
    exact fold _ _ (collectVar_sorted vl e n acc h)

/-- Frames are those of binders of the program. -/
theorem inside_binders {n m : Node} {Δ : List Frame} (h : Inside n Δ m) : ∀ f ∈ Δ, ∃ Δ' c, Inside n Δ' c ∧ f = frameOf c := by
  induction h with
  | here => intro f hf; cases hf
  | outer n c Δ m hc _ ih =>
    intro f hf
    obtain ⟨Δ', k, hk, rfl⟩ := ih f hf
    exact ⟨Δ', k, .outer n c _ _ hc hk, rfl⟩
  | inner n c Δ m hc _ ih =>
    intro f hf
    rcases List.mem_append.mp hf with hf | hf
    · obtain ⟨Δ', k, hk, rfl⟩ := ih f hf
      exact ⟨_, k, .inner n c _ _ hc hk, rfl⟩
    · exact ⟨[], n, .here n, List.mem_singleton.mp hf⟩

section
variable (P : PrimOps) {src : Bytes} {root : Node} {st : PState} (hp : parse src = some (root, st)) {fuel : Nat}
  (hfuel : sizeOf root ≤ fuel)
include hp hfuel

/-- **C40.** The names passed to the extracted file are those of the variables of the expression that are bound by a binder whose
definition is outside of the text of the expression, and those that nothing defines but are below some `with` of the program.
Variables are told apart by their identities. Missing: names in `inherit`, which are not variables of the syntax tree, and
`with`s inside of the expression; see the violations. -/
theorem C40_free_partial (e : Node) (x : Bytes) : x ∈ (freeVariables (runVL P fuel root) e).1 ↔
    ∃ v, Reach e v ∧ isVar v = true ∧ varName v = x ∧ ∃ Γ u, Occurs root Γ u ∧ u.id = v.id ∧
      ((∃ d k, resolve Γ (varName u) = some (d, k) ∧ OutsideOf e d) ∨
        (Free Γ (varName u) ∧ ¬ Global P (varName u) ∧ withsOf Γ ≠ [])) := by
  have hrun := run_ok P hfuel (parse_wellFormed hp)
  have hq : ∀ u v : Node, u.id = v.id → (runVL P fuel root).query u = (runVL P fuel root).query v := by
    intro u v h
    unfold VL.query
    rw [h]
  unfold freeVariables
  rw [mem_collectFree _ _ _ _ _ _ (Nat.le_refl _)]
  constructor
  · rintro (h | ⟨v, hv, ⟨hvar, hpick⟩, rfl⟩)
    · cases h
    · refine ⟨v, hv, hvar, rfl, ?_⟩
      rcases hpick with ⟨d, h1, h2, h3, h4⟩ | ⟨d, h1⟩
      · obtain ⟨Γ, u, hu, hid, hr⟩ := hrun.resSound _ (ptrFind_mem h1)
        refine ⟨Γ, u, hu, hid, .inl ?_⟩
        obtain ⟨d', hd', -, hr, -⟩ := hr
        cases hd'
        rcases resolve_full.mp hr with hr | hr
        · exact ⟨_, _, hr, h4⟩
        · exact absurd hr.2.2.2 h2
      · obtain ⟨Γ, u, hu, hid, hr⟩ := hrun.resSound _ (ptrFind_mem h1)
        refine ⟨Γ, u, hu, hid, .inr ?_⟩
        exact (C23_from_with_iff P hp hfuel hu).mp ⟨d, by rw [hq u v hid]; exact h1⟩
  · rintro ⟨v, hv, hvar, rfl, Γ, u, hu, hid, h⟩
    refine .inr ⟨v, hv, ⟨hvar, ?_⟩, rfl⟩
    rcases h with ⟨d, k, hr, ho⟩ | h
    · obtain ⟨j, h1, h2, h3, -⟩ := C22_innermost_binder P hp hfuel hu hr
      rw [hq u v hid] at h1
      obtain ⟨f, hf, hb⟩ := resolve_binds hr
      obtain ⟨Δ, m, hm, rfl⟩ := inside_binders hu.1 f hf
      refine .inl ⟨j, h1, ?_, ?_, by rw [h2]; exact ho⟩
      · rw [h3]
        exact (binds_kind hb).2
      · rw [h2]
        refine binds_node hp hm hb ?_
        cases hn : root.isNull
        · rfl
        · have : root = .null := by cases root <;> first | rfl | cases hn
          subst this
          obtain ⟨-, rfl⟩ := inside_null hu.1
          cases hu.2
    · obtain ⟨d, h1⟩ := (C23_from_with_iff P hp hfuel hu).mpr h
      rw [hq u v hid] at h1
      exact .inr ⟨d, h1⟩

end

/-- **C40.** The new file is a function of a set of the names (or the expression itself if there are none), with the text of the
expression, and what takes its place imports this file and passes the same names; no name is given twice. -/
theorem C40_same_names {exists_ : Bytes → Bool} {src : Bytes} {pm : PMap} {vl : VL} {fuel : Nat} {n : Node} {l : List Extraction}
    (ha : addExtractToFileAction exists_ src pm vl fuel n = some l) {a : Extraction} (hm : a ∈ l) :
    ∃ e, findExtractable pm n = some e ∧ isExtractable e = true ∧ ∃ names : List Bytes, names = (freeVariables vl e).1 ∧ names.Nodup ∧ a.range = e.range ∧
      ((names = [] ∧ a.content = e.src src ++ b!"\n" ∧ a.newText = b!"import ./" ++ a.file) ∨
       (∃ x xs, names = x :: xs ∧
        a.content = b!"{ " ++ (x ++ xs.flatMap fun y => b!", " ++ y) ++ b!" }:\n" ++ e.src src ++ b!"\n" ∧
        a.newText = b!"import ./" ++ a.file ++ (b!" { inherit" ++ ((x :: xs).flatMap fun y => b!" " ++ y) ++ b!"; }"))) := by
  have hj : ∀ (x : Bytes) (xs : List Bytes), joined b!", " (x :: xs) = x ++ xs.flatMap fun y => b!", " ++ y := by
    intro x xs
    induction xs generalizing x with
    | nil => simp [joined]
    | cons y ys ih => rw [joined, ih]; simp; simp
  unfold addExtractToFileAction at ha
  split at ha
  · cases ha; cases hm
  · rename_i e he
    split at ha
    · cases ha; cases hm
    · dsimp only at ha
      split at ha
      · cases ha
      · rename_i base _
        cases ha
        cases List.mem_singleton.mp hm
        refine ⟨e, he, ?_, _, rfl, sorted_nodup (collectFree_sorted _ _ _ _ _ .nil), rfl, ?_⟩
        · unfold findExtractable at he
          split at he
          · rename_i h; cases he; exact h
          · split at he
            · split at he
              · split at he
                · split at he
                  · rename_i h; cases he; exact h
                  · cases he
                · cases he
              · cases he
            · cases he
        · rcases hf : (freeVariables vl e).1 with _ | ⟨x, xs⟩
          · exact .inl ⟨rfl, rfl, by simp [importStatement]⟩
          · refine .inr ⟨x, xs, rfl, ?_, rfl⟩
            simp only [extractedContent, List.isEmpty_cons, Bool.false_eq_true, if_false, hj]

/-- **C40.** An existing file is not overwritten, unless the name and all numbered names are taken. -/
theorem C40_fresh (exists_ : Bytes → Bool) (stem : Bytes) :
    exists_ (uniqueFilename exists_ (stem ++ b!".nix")) = false ∨
      (exists_ (stem ++ b!".nix") = true ∧ ∀ i, 1 ≤ i → i ≤ 99 → exists_ (stem ++ b!"-" ++ natDigits i ++ b!".nix") = true) := by
  have key : ∀ (k i : Nat), exists_ (numbered exists_ stem b!".nix" (stem ++ b!".nix") k i) = false ∨
      ∀ j, i ≤ j → j < i + k → exists_ (stem ++ b!"-" ++ natDigits j ++ b!".nix") = true := by
    intro k
    induction k with
    | zero => intro i; right; intro j h1 h2; omega
    | succ k ih =>
      intro i
      simp only [numbered]
      split
      · rename_i hx
        rcases ih (i + 1) with h | h
        · exact .inl h
        · right
          intro j h1 h2
          by_cases hj : j = i
          · subst hj; exact hx
          · exact h j (by omega) (by omega)
      · rename_i hx
        exact .inl (by simpa using hx)
  have hstem : (stem ++ b!".nix").take ((stem ++ b!".nix").length - 4) = stem := by simp
  unfold uniqueFilename
  split
  · exact .inl ‹_›
  · rename_i hx
    rw [hstem]
    rcases key 99 1 with h | h
    · exact .inl h
    · exact .inr ⟨by simpa using hx, fun i h1 h2 => h i h1 (by omega)⟩

/-- A character of file names that needs no quotes in a path. -/
def SafeChar (c : UInt8) : Prop := isAlnum c = true ∨ c = 45 ∨ c = 95

/-- **C40.** The name of the file has letters, digits, `-` and `_` only, and the extension `.nix`. -/
theorem C40_file {exists_ : Bytes → Bool} {src : Bytes} {pm : PMap} {vl : VL} {fuel : Nat} {n : Node} {l : List Extraction}
    (ha : addExtractToFileAction exists_ src pm vl fuel n = some l) {a : Extraction} (hm : a ∈ l) :
    ∃ stem : Bytes, a.file = stem ++ b!".nix" ∧ ∀ c ∈ stem, SafeChar c := by
  have hdig : ∀ i, ∀ c ∈ natDigits i, SafeChar c := by
    intro i c hc
    have := List.all_eq_true.mp (natDigits_digits i).1 c hc
    have h : ∀ c, Draft.isDigit c = true → isAlnum c = true := forall_byte (by decide +kernel)
    exact .inl (h c this)
  have hnum : ∀ (stem : Bytes), (∀ c ∈ stem, SafeChar c) → ∀ k i, ∃ stem' : Bytes,
      numbered exists_ stem b!".nix" (stem ++ b!".nix") k i = stem' ++ b!".nix" ∧ ∀ c ∈ stem', SafeChar c := by
    intro stem hs k
    induction k with
    | zero => exact fun i => ⟨stem, rfl, hs⟩
    | succ k ih =>
      intro i
      simp only [numbered]
      split
      · exact ih (i + 1)
      · refine ⟨stem ++ b!"-" ++ natDigits i, rfl, fun c hc => ?_⟩
        rcases List.mem_append.mp hc with hc | hc
        · rcases List.mem_append.mp hc with hc | hc
          · exact hs c hc
          · rw [List.mem_singleton.mp hc]; exact .inr (.inl rfl)
        · exact hdig i c hc
  have huniq : ∀ (stem : Bytes), (∀ c ∈ stem, SafeChar c) → ∃ stem' : Bytes,
      uniqueFilename exists_ (stem ++ b!".nix") = stem' ++ b!".nix" ∧ ∀ c ∈ stem', SafeChar c := by
    intro stem hs
    have hstem : (stem ++ b!".nix").take ((stem ++ b!".nix").length - 4) = stem := by simp
    unfold uniqueFilename
    split
    · exact ⟨stem, rfl, hs⟩
    · rw [hstem]
      exact hnum stem hs 99 1
  have hkind : ∀ m, ∃ stem : Bytes, kindFilename m = stem ++ b!".nix" ∧ ∀ c ∈ stem, SafeChar c := by
    intro m
    unfold kindFilename
    unfold SafeChar
    split
    · exact ⟨b!"extracted-lambda", rfl, by decide⟩
    · exact ⟨b!"extracted-attrs", rfl, by decide⟩
    · exact ⟨b!"extracted-list", rfl, by decide⟩
    · exact ⟨b!"extracted-let", rfl, by decide⟩
    · exact ⟨b!"extracted-if", rfl, by decide⟩
    · exact ⟨b!"extracted", rfl, by decide⟩
  have hbase : ∀ m base, generateFilename pm fuel m = some base → ∃ stem : Bytes, base = stem ++ b!".nix" ∧ ∀ c ∈ stem, SafeChar c := by
    intro m base hb
    unfold generateFilename at hb
    split at hb
    · cases hb
    · split at hb
      · cases hb
        refine ⟨_, rfl, fun c hc => ?_⟩
        obtain ⟨d, -, rfl⟩ := List.mem_map.mp hc
        unfold SafeChar
        split
        · rename_i h
          simp only [Bool.or_eq_true, beq_iff_eq] at h
          rcases h with (h | h) | h
          · exact .inl h
          · exact .inr (.inl h)
          · exact .inr (.inr h)
        · exact .inr (.inr rfl)
      · cases hb; exact hkind m
    · cases hb; exact hkind m
  unfold addExtractToFileAction at ha
  split at ha
  · cases ha; cases hm
  · split at ha
    · cases ha; cases hm
    · dsimp only at ha
      split at ha
      · cases ha
      · rename_i base hb
        cases ha
        cases List.mem_singleton.mp hm
        obtain ⟨stem, rfl, hs⟩ := hbase _ _ hb
        exact huniq stem hs

/-- The name of a file is free unless a hundred of them exist. -/
example : uniqueFilename (fun f => f = b!"a.nix") b!"a.nix" = b!"a-1.nix" := by decide +kernel

end Verif.Props
