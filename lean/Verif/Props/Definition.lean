import Verif.Spec.Definition
import Verif.Props.Completion
import Verif.Props.DocumentLink
import Mathlib.Data.List.TakeWhile
/-
C69, C70, C71: definitions, hover and inlay hints.
-/
namespace Verif.Props
open Nixf Node Scoping Idioms Inspect Server

/-! ### Positions -/

theorem digits_acc : ∀ (ds rest : Bytes) (acc : Option Nat), (∀ c ∈ ds, isDigit c = true) → (∀ c, rest.head? = some c → isDigit c = false) →
    digits (ds ++ rest) acc = if ds = [] then acc else some (ds.foldl (fun n c => n * 10 + (c.toNat - 48)) (acc.getD 0))
  | [], rest, acc, _, hr => by
    rw [if_pos rfl]
    cases rest with
    | nil => rfl
    | cons c r =>
      show (if isDigit c = true then _ else acc) = acc
      rw [if_neg (by rw [hr c rfl]; simp)]
  | d :: ds, rest, acc, hd, hr => by
    show (if isDigit d = true then digits (ds ++ rest) _ else acc) = _
    rw [if_pos (hd d (.head _)), if_neg (by simp), digits_acc ds rest _ (fun c hc => hd c (.tail _ hc)) hr]
    split
    · rename_i h
      subst h
      rfl
    · rfl

theorem digits_value {ds rest : Bytes} (hd : ∀ c ∈ ds, isDigit c = true) (hr : ∀ c, rest.head? = some c → isDigit c = false) :
    digits (ds ++ rest) none = if ds = [] then none else some (value ds) := digits_acc ds rest none hd hr

/-- A text is its digits at the front and what follows. -/
theorem front_digits (s : Bytes) : ∃ ds rest, s = ds ++ rest ∧ (∀ c ∈ ds, isDigit c = true) ∧ ∀ c, rest.head? = some c → isDigit c = false := by
  refine ⟨s.takeWhile isDigit, s.dropWhile isDigit, List.takeWhile_append_dropWhile.symm, fun c hc => List.mem_takeWhile_imp hc, fun c hc => ?_⟩
  have := List.head?_dropWhile_not isDigit s
  rw [hc] at this
  simpa using this

theorem stoi_iff (s : Bytes) (z : Int) : stoi s = some z ↔
    ∃ sp sign ds rest, s = sp ++ sign ++ ds ++ rest ∧ (∀ c ∈ sp, isSpace c = true) ∧ ds ≠ [] ∧ (∀ c ∈ ds, isDigit c = true) ∧
      (∀ c, rest.head? = some c → isDigit c = false) ∧
      ((sign = [] ∧ z = value ds) ∨ (sign = [43] ∧ z = value ds) ∨ (sign = [45] ∧ z = -(value ds : Int))) ∧
      -2147483648 ≤ z ∧ z ≤ 2147483647 := by
  have hds : ∀ c : UInt8, isDigit c = true → isSpace c = false ∧ c ≠ 43 ∧ c ≠ 45 := by
    exact forall_byte (by decide +kernel)
  have hsp : ∀ sp t : Bytes, (∀ c ∈ sp, isSpace c = true) → (∀ c, t.head? = some c → isSpace c = false) → (sp ++ t).dropWhile isSpace = t := by
    intro sp t h1 h2
    rw [List.dropWhile_append_of_pos h1]
    cases t with
    | nil => rfl
    | cons c t => rw [List.dropWhile_cons_of_neg (by rw [h2 c rfl]; simp)]
  constructor
  · intro h
    unfold stoi at h
    have hs : s = s.takeWhile isSpace ++ s.dropWhile isSpace := List.takeWhile_append_dropWhile.symm
    have hsp' : ∀ c ∈ s.takeWhile isSpace, isSpace c = true := fun c hc => List.mem_takeWhile_imp hc
    generalize s.takeWhile isSpace = sp at hs hsp'
    split at h
    · rename_i t ht
      obtain ⟨ds, rest, rfl, h1, h2⟩ := front_digits t
      rw [digits_value h1 h2] at h
      split at h
      · cases h
      · rename_i hne
        rw [Option.bind_some] at h
        split at h
        · cases h
          exact ⟨sp, [45], ds, rest, by rw [hs, ht]; simp, hsp', hne, h1, h2, .inr (.inr ⟨rfl, rfl⟩), by omega, by omega⟩
        · cases h
    · rename_i t ht
      obtain ⟨ds, rest, rfl, h1, h2⟩ := front_digits t
      rw [digits_value h1 h2] at h
      split at h
      · cases h
      · rename_i hne
        rw [Option.bind_some] at h
        split at h
        · cases h
          exact ⟨sp, [43], ds, rest, by rw [hs, ht]; simp, hsp', hne, h1, h2, .inr (.inl ⟨rfl, rfl⟩), by omega, by omega⟩
        · cases h
    · obtain ⟨ds, rest, ht, h1, h2⟩ := front_digits (s.dropWhile isSpace)
      rw [ht, digits_value h1 h2] at h
      split at h
      · cases h
      · rename_i hne
        rw [Option.bind_some] at h
        split at h
        · cases h
          exact ⟨sp, [], ds, rest, by rw [hs, ht]; simp, hsp', hne, h1, h2, .inl ⟨rfl, rfl⟩, by omega, by omega⟩
        · cases h
  · rintro ⟨sp, sign, ds, rest, rfl, h1, h2, h3, h4, h5, h6, h7⟩
    obtain ⟨d, ds', rfl⟩ := List.exists_cons_of_ne_nil h2
    have hd := hds d (h3 d (.head _))
    unfold stoi
    rcases h5 with ⟨rfl, rfl⟩ | ⟨rfl, rfl⟩ | ⟨rfl, rfl⟩
    · rw [List.append_nil, List.append_assoc, hsp sp _ h1 (by intro c hc; cases hc; exact hd.1)]
      split
      · rename_i h; cases h; exact absurd rfl hd.2.2
      · rename_i h; cases h; exact absurd rfl hd.2.1
      · rw [digits_value h3 h4, if_neg h2, Option.bind_some, if_pos (by omega)]
    · rw [List.append_assoc, List.append_assoc, hsp sp _ h1 (by intro c hc; cases hc; decide)]
      show (digits (d :: ds' ++ rest) none).bind _ = _
      rw [digits_value h3 h4, if_neg h2, Option.bind_some, if_pos (by omega)]
    · rw [List.append_assoc, List.append_assoc, hsp sp _ h1 (by intro c hc; cases hc; decide)]
      show (digits (d :: ds' ++ rest) none).bind _ = _
      rw [digits_value h3 h4, if_neg h2, Option.bind_some, if_pos (by omega)]

/-- C69. The text of a position is read as intended, up to the number of the line. -/
theorem C69_position (p : Bytes) (l : Loc) : parseLocation p = some l ↔ PositionOf p l := by
  have hp : p = p.takeWhile (· != 58) ++ p.dropWhile (· != 58) := List.takeWhile_append_dropWhile.symm
  have hf : (58 : UInt8) ∉ p.takeWhile (· != 58) := fun h => by
    have := List.mem_takeWhile_imp h
    simp at this
  have hsplit : ∀ f r : Bytes, (58 : UInt8) ∉ f → (f ++ 58 :: r).takeWhile (· != 58) = f ∧ (f ++ 58 :: r).dropWhile (· != 58) = 58 :: r := by
    intro f r h
    have h' : ∀ c ∈ f, (c != 58) = true := by
      intro c hc
      rw [bne_iff_ne]
      rintro rfl
      exact h hc
    exact ⟨by rw [List.takeWhile_append_of_pos h']; simp, by rw [List.dropWhile_append_of_pos h']; simp⟩
  constructor
  · intro h
    unfold parseLocation at h
    split at h
    · rename_i hd
      cases h
      rw [hd, List.append_nil] at hp
      rw [← hp] at hf
      exact .file p hf
    · rename_i c rest hd
      have hc : c = 58 := by
        have := List.head?_dropWhile_not (fun x : UInt8 => x != 58) p
        rw [hd] at this
        simpa using this
      subst hc
      obtain ⟨z, hz, he⟩ := Option.map_eq_some_iff.mp h
      subst he
      obtain ⟨sp, sign, ds, rest', rfl, h1, h2, h3, h4, h5, h6, h7⟩ := (stoi_iff _ _).mp hz
      rw [hd] at hp
      generalize p.takeWhile (· != 58) = f at *
      subst hp
      exact .line f sp sign ds rest' z hf h1 h2 h3 h4 h5 h6 h7
  · intro h
    cases h with
    | file _ hf =>
      have : p.dropWhile (· != 58) = [] := by
        rw [List.dropWhile_eq_nil_iff]
        intro c hc
        rw [bne_iff_ne]
        rintro rfl
        exact hf hc
      unfold parseLocation
      rw [this]
      rfl
    | line f sp sign ds rest z hff h1 h2 h3 h4 h5 h6 h7 =>
      unfold parseLocation
      rw [(hsplit f _ hff).2, (hsplit f _ hff).1]
      simp only
      rw [(stoi_iff _ _).mpr ⟨sp, sign, ds, rest, rfl, h1, h2, h3, h4, h5, h6, h7⟩]
      rfl

/-! ### Definitions -/

theorem located_iff (worker : List Bytes → Option Info) (path : List Bytes) (L : List Loc) :
    (defineSelector worker path = some L ↔ Located worker path L) ∧ (defineSelector worker path = none ↔ Unreadable worker path) := by
  unfold defineSelector
  rcases hw : worker path with _ | i
  · refine ⟨⟨fun h => ?_, fun h => ?_⟩, nofun, ?_⟩
    · cases h; exact .unknown hw
    · cases h with
      | unknown => rfl
      | package i p l h => rw [hw] at h; cases h
      | value i h => rw [hw] at h; cases h
    · rintro ⟨i, p, h, -⟩
      rw [hw] at h; cases h
  · simp only
    rcases hp : i.package.position with _ | p
    · refine ⟨⟨fun h => ?_, fun h => ?_⟩, nofun, ?_⟩
      · cases h; exact .value i hw hp
      · cases h with
        | unknown h => rw [hw] at h; cases h
        | package i' p l h h' => rw [hw] at h; cases h; rw [hp] at h'; cases h'
        | value i' h => rw [hw] at h; cases h; rfl
      · rintro ⟨i', p, h, h', -⟩
        rw [hw] at h; cases h
        rw [hp] at h'; cases h'
    · simp only
      refine ⟨⟨fun h => ?_, fun h => ?_⟩, fun h => ?_, ?_⟩
      · obtain ⟨l, hl, rfl⟩ := Option.map_eq_some_iff.mp h
        exact .package i p l hw hp ((C69_position _ _).mp hl)
      · cases h with
        | unknown h => rw [hw] at h; cases h
        | package i' p' l h h' h'' =>
          rw [hw] at h; cases h; rw [hp] at h'; cases h'
          rw [(C69_position _ _).mpr h'']
          rfl
        | value i' h h' => rw [hw] at h; cases h; rw [hp] at h'; cases h'
      · refine ⟨i, p, hw, hp, fun l hl => ?_⟩
        rw [(C69_position _ _).mpr hl] at h
        cases h
      · rintro ⟨i', p', h, h', h''⟩
        rw [hw] at h; cases h; rw [hp] at h'; cases h'
        rcases hl : parseLocation p with _ | l
        · rfl
        · exact absurd ((C69_position _ _).mp hl) (h'' l)

section
variable (P : PrimOps) {src : Bytes} {root : Node} {st : PState} (hp : parse src = some (root, st)) {fuel : Nat}
  (hfuel : sizeOf root ≤ fuel)
include hp hfuel

/-- The cursor on a variable: what is asked for is the definition of the variable. -/
theorem defineNode_var {v n : Node} (hc : CursorOn root n v) {w : Workers} {worker : List Bytes → Option Info} (hw : w.nixpkgs = some worker)
    (fs : Links.FS) (file : Bytes) (vl : VL) :
    defineNode fs file src vl (runPM root) fuel w n = defineVar vl (runPM root) fuel file src v worker := by
  rcases inheritVar_cursor hp hfuel hc with ⟨hi, l, S, hl, hS, hSk⟩ | ⟨hr, hv, hn⟩
  · have hnr : Reach root n := anc_reach hl
    obtain ⟨l', hl', hup⟩ := C26_upExpr hp n hnr
    rw [anc_unique hp hl' hl] at hup
    have hex : ∃ e, l.find? Node.isExpr = some e := by
      rw [← Option.isSome_iff_exists, List.find?_isSome]
      refine ⟨S, hS, ?_⟩
      cases S <;> first | rfl | cases hSk
    obtain ⟨e, he⟩ := hex
    unfold defineNode
    rw [hup fuel hfuel, he, hi, hw]
  · obtain ⟨l, t, hl, hlt, hnv, hnr⟩ := var_ancestors hp hfuel hv hr hn
    obtain ⟨l', hl', hup⟩ := C26_upExpr hp n hnr
    rw [anc_unique hp hl' hl] at hup
    have hfit := at_fits hp hr
    have hf : l.find? Node.isExpr = some v := by
      cases v <;> first | cases hv | skip
      case exprVar h i =>
        rcases hn with rfl | hn
        · obtain ⟨t', rfl⟩ := ancestors_head hl
          rfl
        · have hni : n = i := by
            simp only [Node.children, List.mem_filter, List.mem_cons, List.not_mem_nil, or_false] at hn
            exact hn.1
          subst hni
          obtain ⟨h', x, rfl⟩ := hfit
          rcases hlt with rfl | rfl
          · obtain ⟨t', ht'⟩ := ancestors_head hl
            cases ht'
          · rfl
    unfold defineNode
    rw [hup fuel hfuel, hf, inheritVar_var hp hfuel hv hr hn]
    cases v <;> first | (cases hv; done) | simp only [hw]

/-- What nixpkgs adds to the definition of a variable. -/
theorem nixpkgs_ok {Δ : List Frame} {v n : Node} (hv : Occurs root Δ v) (hc : CursorOn root n v) (worker : List Bytes → Option Info) :
    ∃ L, InNixpkgs P root Δ v worker L ∧ ∀ static : List Loc, (match mkVarSelector (runVL P fuel root) (runPM root) fuel v with
      | .error .fuel => .fuel
      | .error .assert_ => .assert_
      | .error _ => .ok static
      | .ok sel =>
        match defineSelector worker sel with
        | some ls => .ok (static ++ ls)
        | none => .ok static : Outcome (List Loc)) = .ok (static ++ L) := by
  have hsz : 2 ≤ sizeOf root := by
    cases hc with
    | var _ hr hv' hn => exact var_size hv hr
    | inherit h hb bs r st dy hi ns an x a hset hbs han hann hstat hr hfind hv' =>
      have := reach_size hset
      simp only [Node.exprAttrs.sizeOf_spec, Node.binds.sizeOf_spec] at this
      omega
  obtain ⟨k, rfl⟩ : ∃ k, fuel = k + 2 := ⟨fuel - 2, by omega⟩
  obtain ⟨s1, s2, s3⟩ := sel_ok P hp hfuel hv k
  rcases hsel : mkVarSelector (runVL P (k + 2) root) (runPM root) (k + 2) v with er | sel
  · refine ⟨[], .other fun l hl => ?_, fun static => ?_⟩
    · rw [(s1 l).mpr hl] at hsel
      cases hsel
    · rw [hsel] at s2 s3
      rw [List.append_nil]
      cases er <;> first | rfl | exact absurd rfl s2 | exact absurd rfl s3
  · have hd := (s1 sel).mp hsel
    rcases hl : defineSelector worker sel with _ | L
    · exact ⟨[], .unreadable sel hd ((located_iff worker sel []).2.mp hl), fun static => by simp [hl]⟩
    · exact ⟨L, .located sel L hd ((located_iff worker sel L).1.mp hl), fun static => by simp [hl]⟩

omit hp hfuel in
theorem occurs_notNull {Δ : List Frame} {v : Node} (hv : Occurs root Δ v) : root.isNull = false := by
  cases root <;> first | rfl | skip
  obtain ⟨hi, hk⟩ := hv
  cases hi with
  | here => cases hk
  | outer _ _ _ _ h => cases h
  | inner _ _ _ _ h => cases h

/-- C69. A name with a binder is defined where the innermost one has it; the locations in nixpkgs of what the variable is
taken for follow. -/
theorem C69_variable {Δ : List Frame} {v n : Node} (hv : Occurs root Δ v) (hc : CursorOn root n v) {def_ : Node} {k : DefSource}
    (hr : resolve Δ (varName v) = some (def_, k)) {w : Workers} {worker : List Bytes → Option Info} (hw : w.nixpkgs = some worker)
    (fs : Links.FS) (file : Bytes) :
    ∃ L, InNixpkgs P root Δ v worker L ∧
      defineNode fs file src (runVL P fuel root) (runPM root) fuel w n = .ok (⟨file, toLSPRange src def_.range⟩ :: L) := by
  obtain ⟨L, hL, hs⟩ := nixpkgs_ok P hp hfuel hv hc worker
  refine ⟨L, hL, ?_⟩
  rw [defineNode_var hp hfuel hc hw]
  obtain ⟨d, hq, h1, -⟩ := C22_innermost_binder P hp hfuel hv hr
  obtain ⟨Γ, m, us, hm, hb, -⟩ := C28_variable P hp hfuel hv hc hr []
  have hnn : def_.isNull = false := binds_node hp hm hb (occurs_notNull hv)
  unfold defineVar
  simp only [findVarDefinition, hq, h1, hnn]
  exact hs _

/-- C69. A name that may come from a `with` is defined at the keyword of the outermost one. -/
theorem C69_with {Δ : List Frame} {v n : Node} (hv : Occurs root Δ v) (hc : CursorOn root n v) (hf : Free Δ (varName v))
    (hg : ¬ Global P (varName v)) {h : Hd} {k s a b : Node} (hl : (withsOf Δ).getLast? = some (.exprWith h k s a b))
    {w : Workers} {worker : List Bytes → Option Info} (hw : w.nixpkgs = some worker) (fs : Links.FS) (file : Bytes) :
    ∃ L, InNixpkgs P root Δ v worker L ∧
      defineNode fs file src (runVL P fuel root) (runPM root) fuel w n = .ok (⟨file, toLSPRange src k.range⟩ :: L) := by
  obtain ⟨L, hL, hs⟩ := nixpkgs_ok P hp hfuel hv hc worker
  refine ⟨L, hL, ?_⟩
  rw [defineNode_var hp hfuel hc hw]
  have hrun := run_ok P hfuel (parse_wellFormed hp)
  have hne : withsOf Δ ≠ [] := by rintro e; rw [e] at hl; cases hl
  obtain ⟨d, hq⟩ := (C23_from_with_iff P hp hfuel hv).mpr ⟨hf, hg, hne⟩
  obtain ⟨w0, d, hlast, rfl, hwd⟩ := C23_definition_is_outermost P hp hfuel hv hq
  rw [hl] at hlast
  cases hlast
  have hwmem : Frame.with_ (.exprWith h k s a b) ∈ Δ := by
    have := List.mem_of_getLast? hl
    unfold withsOf at this
    obtain ⟨f, hf, he⟩ := List.mem_filterMap.mp this
    cases f
    · cases he
    · cases he; exact hf
  obtain ⟨Δ1, Δ2, c, rfl, hin, -⟩ := inside_with hv.1 hwmem
  obtain ⟨Γ, m, hm, hid, h', sm, w', e', hme⟩ := hrun.wdefSyn _ (ptrFind_mem hwd)
  obtain ⟨rfl, rfl⟩ := (parse_faithful hp) _ _ _ _ hm hin hid
  have hk : ((runVL P fuel root).get d).syntax_ = k := by injection hme with _ e; exact e.symm
  clear hme
  subst hk
  have hreach : Reach root (.exprWith h ((runVL P fuel root).get d).syntax_ s a b) :=
    ((parse_ids hp).vok.2 Γ _ hin).2.2 _ (by simp [keysOf])
  have hkn : ((runVL P fuel root).get d).syntax_.isNull = false := by
    have := (at_fits hp hreach).1
    generalize ((runVL P fuel root).get d).syntax_ = k at this
    cases k <;> first | rfl | exact absurd this (by simp [Grammar.IsMisc])
  unfold defineVar
  simp only [findVarDefinition, hq, hkn]
  exact hs _

/-- C69. Other names have no definition. -/
theorem C69_undefined {Δ : List Frame} {v n : Node} (hv : Occurs root Δ v) (hc : CursorOn root n v) (hf : Free Δ (varName v))
    (hg : Global P (varName v) ∨ withsOf Δ = []) {w : Workers} {worker : List Bytes → Option Info} (hw : w.nixpkgs = some worker)
    (fs : Links.FS) (file : Bytes) :
    defineNode fs file src (runVL P fuel root) (runPM root) fuel w n = .ok [] := by
  rw [defineNode_var hp hfuel hc hw]
  have hrun := run_ok P hfuel (parse_wellFormed hp)
  unfold defineVar
  rcases hq : (runVL P fuel root).query v with _ | ⟨k, d⟩
  · simp only [findVarDefinition, hq]
  · have hro := query_ok hrun (parse_faithful hp) hv hq
    cases k
    · simp only [findVarDefinition, hq]
    · exfalso
      obtain ⟨-, h2, h3⟩ := (C23_from_with_iff P hp hfuel hv).mp ⟨d, hq⟩
      exact hg.elim h2 h3
    · obtain ⟨d', rfl, hlt, h5, -⟩ := hro
      rcases resolve_full.mp h5 with h | ⟨-, -, this, -⟩
      · rw [← free_iff, free_iff_resolve, h] at hf; cases hf
      · have : ((runVL P fuel root).get d').syntax_ = .null := this
        simp only [findVarDefinition, hq, this]
        rfl

/-- The path of a select expression of a variable. -/
theorem selector_ok {Δ : List Frame} {hs : Hd} {b d p dd : Node} {f : Bool} (hr : Reach root (.exprSelect hs b d p dd f)) (hv : Occurs root Δ b) :
    (∀ l ts, Denotes P root Δ b l → pathTexts p = some ts →
      Inspect.mkSelector (runVL P fuel root) (runPM root) fuel b p = .ok (l ++ ts)) ∧
    ((∀ l, ¬ Denotes P root Δ b l) ∨ pathTexts p = none →
      ∃ e, Inspect.mkSelector (runVL P fuel root) (runPM root) fuel b p = .error e ∧ e ≠ .fuel ∧ e ≠ .assert_) := by
  have hbn : b.isNode = true := by cases b <;> first | rfl | cases hv.2
  have hbr : Reach root b := reach_child hr (List.mem_filter.mpr ⟨by simp, hbn⟩)
  have hsz := var_size hv hbr
  obtain ⟨k, rfl⟩ : ∃ k, fuel = k + 2 := ⟨fuel - 2, by omega⟩
  obtain ⟨s1, s2, s3⟩ := sel_ok P hp hfuel hv k
  have hps : ∀ base, selectSelector p base = match pathTexts p with
      | some ts => .ok (base ++ ts)
      | none => .error .dynamicName := by
    intro base
    rcases (at_fits hp hr).2.1 with rfl | ⟨hpp, ns, ds, rfl⟩
    · simp [selectSelector, pathTexts]
    · have hpr := reach_child hr (show Node.attrPath hpp ns ds ∈ _ from List.mem_filter.mpr ⟨by simp, rfl⟩)
      have hpf := at_fits hp hpr
      exact names_texts hp ns base fun n hn => ⟨reach_child hpr
        (List.mem_filter.mpr ⟨List.mem_append_left _ hn, name_node (hpf.2.1 n hn)⟩), hpf.2.1 n hn⟩
  cases b <;> first | (cases hv.2; done) | skip
  case exprVar h i =>
    constructor
    · intro l ts hd hts
      show (do selectSelector p (← mkVarSelector _ _ _ _)) = _
      rw [(s1 l).mpr hd]
      show selectSelector p l = _
      rw [hps, hts]
    · intro hno
      have e : Inspect.mkSelector (runVL P (k + 2) root) (runPM root) (k + 2) (.exprVar h i) p =
          (do selectSelector p (← mkVarSelector (runVL P (k + 2) root) (runPM root) (k + 2) (.exprVar h i))) := rfl
      rw [e]
      rcases hsel : mkVarSelector (runVL P (k + 2) root) (runPM root) (k + 2) (.exprVar h i) with er | l
      · rw [hsel] at s2 s3
        exact ⟨er, rfl, fun e => s3 (by rw [e]), fun e => s2 (by rw [e])⟩
      · have hno := hno.resolve_left fun h => h l ((s1 l).mp hsel)
        refine ⟨.dynamicName, ?_, nofun, nofun⟩
        show selectSelector p l = _
        rw [hps, hno]

omit P in
/-- Outside of `inherit`, the kind of the innermost expression decides. -/
theorem outside_inherit {n : Node} {a : List Node} (ha : Ancestors root n a) (hi : ∀ x ∈ a, isInherit x = false) :
    findInheritVar (runPM root) fuel n = .ok none := by
  obtain ⟨l, hl, h⟩ := upToE_eq hp hfuel isInherit (anc_reach ha)
  unfold findInheritVar
  rw [h, ancestors_unique hp (anc_reach ha) hl ha, List.find?_eq_none.mpr fun x hx => by rw [hi x hx]; simp]

omit P in
theorem upExpr_at {n : Node} {a : List Node} (ha : Ancestors root n a) : (runPM root).upExpr fuel n = some (a.find? Node.isExpr) := by
  obtain ⟨l, hl, h⟩ := C26_upExpr hp n (anc_reach ha)
  rw [h fuel hfuel, anc_unique hp hl ha]

/-- C69. In a select expression of a variable that stands for a path of nixpkgs, the location of the attribute at the whole
path is given. -/
theorem C69_select {Δ : List Frame} {n : Node} {a : List Node} {hs : Hd} {b d p dd : Node} {f : Bool} (ha : Ancestors root n a)
    (hi : ∀ x ∈ a, isInherit x = false) (hE : a.find? isExpr = some (.exprSelect hs b d p dd f)) (hv : Occurs root Δ b)
    {w : Workers} {worker : List Bytes → Option Info} (hw : w.nixpkgs = some worker) (fs : Links.FS) (file : Bytes) :
    (∀ l ts L, Denotes P root Δ b l → pathTexts p = some ts → Located worker (l ++ ts) L →
      defineNode fs file src (runVL P fuel root) (runPM root) fuel w n = .ok L) ∧
    ((∀ l, ¬ Denotes P root Δ b l) ∨ pathTexts p = none →
      defineNode fs file src (runVL P fuel root) (runPM root) fuel w n = .ok []) := by
  have hr : Reach root (.exprSelect hs b d p dd f) := by
    obtain ⟨aE, haE, -⟩ := anc_of_find ha hE
    exact anc_reach haE
  obtain ⟨h1, h2⟩ := selector_ok P hp hfuel hr hv
  have hdef : defineNode fs file src (runVL P fuel root) (runPM root) fuel w n =
      defineSelect (runVL P fuel root) (runPM root) fuel b p worker := by
    unfold defineNode
    rw [upExpr_at hp hfuel ha, hE, outside_inherit hp hfuel ha hi]
    simp only [hw]
  rw [hdef]
  constructor
  · intro l ts L hd hts hL
    unfold defineSelect
    rw [h1 l ts hd hts]
    simp only
    rw [(located_iff worker _ L).1.mpr hL]
  · intro hno
    obtain ⟨e, he, h3, h4⟩ := h2 hno
    unfold defineSelect
    rw [he]
    cases e <;> first | rfl | exact absurd rfl h3 | exact absurd rfl h4

/-- C69. If the position of the package cannot be read, an exception leaves the server. -/
theorem C69_unreadable_violated {Δ : List Frame} {n : Node} {a : List Node} {hs : Hd} {b d p dd : Node} {f : Bool} (ha : Ancestors root n a)
    (hi : ∀ x ∈ a, isInherit x = false) (hE : a.find? isExpr = some (.exprSelect hs b d p dd f)) (hv : Occurs root Δ b)
    {w : Workers} {worker : List Bytes → Option Info} (hw : w.nixpkgs = some worker) (fs : Links.FS) (file : Bytes) {l ts : List Bytes}
    (hd : Denotes P root Δ b l) (hts : pathTexts p = some ts) (hu : Unreadable worker (l ++ ts)) :
    defineNode fs file src (runVL P fuel root) (runPM root) fuel w n = .crash := by
  have hr : Reach root (.exprSelect hs b d p dd f) := by
    obtain ⟨aE, haE, -⟩ := anc_of_find ha hE
    exact anc_reach haE
  unfold defineNode
  rw [upExpr_at hp hfuel ha, hE, outside_inherit hp hfuel ha hi]
  simp only [hw]
  unfold defineSelect
  rw [(selector_ok P hp hfuel hr hv).1 l ts hd hts]
  simp only
  rw [(located_iff worker _ []).2.mpr hu]

/-- C69. A path literal is defined by the file that it leads to. -/
theorem C69_path {n : Node} {a : List Node} {h : Hd} {q : Node} (ha : Ancestors root n a) (hi : ∀ x ∈ a, isInherit x = false)
    (hE : a.find? isExpr = some (.exprPath h q)) (w : Workers) (fs : Links.FS) (file : Bytes) (vl : VL) :
    ∃ L, defineNode fs file src vl (runPM root) fuel w n = .ok L ∧
      ∀ l, l ∈ L ↔ ∃ t target, Links.Literal (.exprPath h q) t ∧ Links.resolveExprPath fs file t = some target ∧ l = lineStart target 0 := by
  refine ⟨definePath fs file (.exprPath h q), ?_, fun l => ?_⟩
  · unfold defineNode
    rw [upExpr_at hp hfuel ha, hE, outside_inherit hp hfuel ha hi]
  · unfold definePath
    simp only
    rcases hl : q.literal? with _ | t
    · simp only [List.not_mem_nil, false_iff]
      rintro ⟨t, target, ⟨h', hp', e⟩, -⟩
      cases e
      cases hl
    · have hq : ∃ hp', q = .parts hp' [.text t] := by
        unfold Node.literal? at hl
        split at hl
        · cases hl
          exact ⟨_, rfl⟩
        · cases hl
      obtain ⟨hp', rfl⟩ := hq
      simp only [Option.mem_toList, Option.map_eq_some_iff]
      constructor
      · rintro ⟨target, ht, rfl⟩
        exact ⟨t, target, ⟨h, hp', rfl⟩, ht, rfl⟩
      · rintro ⟨t', target, ⟨h'', hp'', e⟩, ht, rfl⟩
        cases e
        exact ⟨target, ht, rfl⟩

omit hp hfuel in
theorem option_answers (sel : List Bytes) (options : List (Bytes × Option (List Bytes → Option OptInfo))) :
    optionLocations sel options = (answers options sel).flatMap (·.declarations) ∧
    hoverOptions sel options = (answers options sel).head?.map aboutOption := by
  constructor
  · induction options with
    | nil => rfl
    | cons o os ih =>
      obtain ⟨nm, w⟩ := o
      rw [optionLocations, List.flatMap_cons]
      rw [optionLocations] at ih
      rw [ih]
      rcases w with _ | w
      · rfl
      · rcases hw : w sel with _ | d
        · simp [answers, hw]
        · simp [answers, hw]
  · induction options with
    | nil => rfl
    | cons o os ih =>
      obtain ⟨nm, w⟩ := o
      rw [hoverOptions, List.findSome?_cons]
      rw [hoverOptions] at ih
      have habout : ∀ d, optionText d = aboutOption d := by
        intro d
        unfold optionText aboutOption
        congr 1
        · rcases d.type with _ | ⟨a, b⟩ <;> rfl
        · rcases d.description with _ | t
          · rfl
          · simp [section_]
      rcases w with _ | w
      · simpa [answers] using ih
      · rcases hw : w sel with _ | d
        · simpa [answers, hw] using ih
        · simp [answers, hw, habout]

omit hfuel in
/-- The option that a name in an attribute set stands for. -/
theorem option_at {n E Q k : Node} {a l pre post : List Node} {ts : List Bytes} (ha : Ancestors root n a) (hi : ∀ x ∈ a, isInherit x = false)
    (hk : a.find? AttrPaths.isName = some k) (hE : Reach root E) (ho : AttrPaths.Owns E Q) (hQ : AttrPaths.namesOf Q = pre ++ k :: post)
    (hl : AttrPaths.Nested root E l) (hts : (l ++ pre ++ [k]).mapM AttrPaths.textOf = some ts) {fuel : Nat} (hf : sizeOf root ≤ fuel) :
    AttrPaths.forOptions (runPM root) (2 * fuel + 1) n = .ok (.ok, optionPath ts) := by
  have h1 := C45_name hp ha (fun x hx => by have := hi x hx; cases x <;> first | rfl | cases this) hk hE ho hQ hl (2 * fuel + 1) (by omega)
  have h2 : answer (l ++ pre ++ [k]) [] = (.ok, ts) := by
    unfold answer
    rw [hts]
    simp
  rw [h2] at h1
  unfold AttrPaths.forOptions
  rw [h1]
  simp only [optionPath, beq_iff_eq]
  rcases ts with _ | ⟨x, xs⟩
  · rfl
  · rfl

/-- C69. A name in an attribute set is defined by the declarations of the option at its path, of all option workers that
are there. -/
theorem C69_option {n E Q k : Node} {a l pre post : List Node} {ts : List Bytes} (ha : Ancestors root n a) (hi : ∀ x ∈ a, isInherit x = false)
    (hk : a.find? AttrPaths.isName = some k) (hE : a.find? isExpr = some E) (hS : Grammar.IsSet E) (ho : AttrPaths.Owns E Q)
    (hQ : AttrPaths.namesOf Q = pre ++ k :: post) (hl : AttrPaths.Nested root E l) (hts : (l ++ pre ++ [k]).mapM AttrPaths.textOf = some ts)
    (w : Workers) (fs : Links.FS) (file : Bytes) (vl : VL) :
    defineNode fs file src vl (runPM root) fuel w n = .ok ((answers w.options (optionPath ts)).flatMap (·.declarations)) := by
  have hr : Reach root E := by
    obtain ⟨aE, haE, -⟩ := anc_of_find ha hE
    exact anc_reach haE
  have h1 := option_at hp ha hi hk hr ho hQ hl hts hfuel
  obtain ⟨_, _, _, _, _, rfl⟩ := hS
  unfold defineNode
  rw [upExpr_at hp hfuel ha, hE, outside_inherit hp hfuel ha hi]
  simp only [defineAttrPath, h1, (option_answers _ _).1]

/-! ### Hover -/

omit hp hfuel in
theorem section_opt (a b : Bytes) (o : Option Bytes) : (match o with
    | some t => a ++ t ++ b
    | none => []) = section_ a b o := by cases o <;> rfl

omit hp hfuel in
theorem package_text (p : Package) : packageText p = packageSections p := by
  unfold packageText packageSections
  rcases p.name with _ | n <;> rcases p.homepage with _ | h <;> rcases p.description with _ | d <;> rcases p.longDescription with _ | l <;>
    simp [section_]

omit hp hfuel in
theorem args_text : ∀ as : List Bytes, argsText as = b!", ".intercalate (as.map fun a => b!"`" ++ a ++ b!"`")
  | [] => rfl
  | [a] => by simp [argsText, List.intercalate]
  | a :: b :: as => by
    have ih := args_text (b :: as)
    simp only [argsText, List.map_cons, List.intercalate, List.intersperse] at ih ⊢
    rw [ih]
    simp

omit hp hfuel in
theorem value_text (v : ValueDesc) : valueText v = valueSections v := by
  unfold valueText valueSections
  rw [args_text]
  rcases v with ⟨doc, arity, args⟩
  rcases doc with _ | ⟨c, doc⟩ <;> rcases arity with _ | arity <;> rcases args with _ | ⟨a, args⟩ <;> simp [section_]

omit hp hfuel in
theorem text_iff (i : Info) (t : Bytes) : TextOf i t ↔ infoText i = t := by
  have key : TextOf i (infoText i) := by
    unfold infoText
    rw [package_text]
    rcases hv : i.value with _ | v
    · simpa using TextOf.package hv
    · by_cases he : packageSections i.package = []
      · simpa [he, value_text] using TextOf.value v hv he
      · have he' : (packageSections i.package).isEmpty = false := by simpa using he
        simpa [he', value_text] using TextOf.both v hv he
  have uniq : ∀ {a b}, TextOf i a → TextOf i b → a = b := by
    intro a b h1 h2
    cases h1 <;> cases h2 <;> simp_all
  exact ⟨fun h => uniq key h, fun h => h ▸ key⟩

omit hp hfuel in
theorem shown_iff (worker : List Bytes → Option Info) (path : List Bytes) (r : Option Bytes) :
    hoverSelector worker path = r ↔ ShownFor worker path r := by
  have key : ShownFor worker path (hoverSelector worker path) := by
    unfold hoverSelector
    rcases hw : worker path with _ | i
    · exact .unknown hw
    · simp only
      split
      · rename_i h
        exact .empty i hw ((text_iff _ _).mpr (List.isEmpty_iff.mp h))
      · rename_i h
        exact .text i _ hw ((text_iff _ _).mpr rfl) (by simpa using h)
  refine ⟨fun h => h ▸ key, fun h => ?_⟩
  unfold hoverSelector
  cases h with
  | unknown h => rw [h]
  | empty i h ht => rw [h]; simp only [(text_iff _ _).mp ht]; rfl
  | text i t h ht hne => rw [h]; simp only [(text_iff _ _).mp ht]; rw [if_neg (by simpa using hne)]

/-- C70. At a variable the text of the attribute of nixpkgs that it is taken for is shown, next to the variable. -/
theorem C70_variable {Δ : List Frame} {v n : Node} (hv : Occurs root Δ v) (hr : Reach root v) (hn : n = v ∨ n ∈ v.children) {w : Workers}
    {worker : List Bytes → Option Info} (hw : w.nixpkgs = some worker) :
    (∀ l t, Denotes P root Δ v l → ShownFor worker l t →
      hoverNode src (runVL P fuel root) (runPM root) fuel w n = .ok (t.map fun t => (t, toLSPRange src v.range))) ∧
    ((∀ l, ¬ Denotes P root Δ v l) → hoverNode src (runVL P fuel root) (runPM root) fuel w n = .ok none) := by
  have hup : (runPM root).upExpr fuel n = some (some v) := by
    obtain ⟨l, t, hl, hlt, hnv, hnr⟩ := var_ancestors hp hfuel hv.2 hr hn
    rw [upExpr_at hp hfuel hl]
    have hfit := at_fits hp hr
    have hvk := hv.2
    cases v <;> first | (cases hvk; done) | skip
    case exprVar h i =>
      rcases hn with rfl | hn
      · obtain ⟨t', rfl⟩ := ancestors_head hl
        rfl
      · have hni : n = i := by
          simp only [Node.children, List.mem_filter, List.mem_cons, List.not_mem_nil, or_false] at hn
          exact hn.1
        subst hni
        obtain ⟨h', x, rfl⟩ := hfit
        rcases hlt with rfl | rfl
        · obtain ⟨t', ht'⟩ := ancestors_head hl
          cases ht'
        · rfl
  have hsel := C63_selector P hp hfuel hv hr
  have htot := C63_total P hp hfuel hv hr
  unfold hoverNode
  simp only [hup, hw]
  have hvk := hv.2
  cases v <;> first | (cases hvk; done) | skip
  case exprVar h i =>
    simp only
    constructor
    · intro l t hd ht
      rw [(hsel l).mpr hd]
      simp only [hoverIdiom, (shown_iff _ _ _).mpr ht]
    · intro hno
      rcases hs : mkVarSelector (runVL P fuel root) (runPM root) fuel (.exprVar h i) with er | l
      · rw [hs] at htot
        cases er <;> first | rfl | exact absurd rfl htot.1 | exact absurd rfl htot.2
      · exact absurd ((hsel l).mp hs) (hno l)

/-- C70. In a select expression of a variable, the text of the attribute at the whole path is shown, next to the expression. -/
theorem C70_select {Δ : List Frame} {n : Node} {a : List Node} {hs : Hd} {b d p dd : Node} {f : Bool} (ha : Ancestors root n a)
    (hE : a.find? isExpr = some (.exprSelect hs b d p dd f)) (hv : Occurs root Δ b)
    {w : Workers} {worker : List Bytes → Option Info} (hw : w.nixpkgs = some worker) :
    (∀ l ts t, Denotes P root Δ b l → pathTexts p = some ts → ShownFor worker (l ++ ts) t →
      hoverNode src (runVL P fuel root) (runPM root) fuel w n =
        .ok (t.map fun t => (t, toLSPRange src (Node.exprSelect hs b d p dd f).range))) ∧
    ((∀ l, ¬ Denotes P root Δ b l) ∨ pathTexts p = none →
      hoverNode src (runVL P fuel root) (runPM root) fuel w n = .ok none) := by
  have hr : Reach root (.exprSelect hs b d p dd f) := by
    obtain ⟨aE, haE, -⟩ := anc_of_find ha hE
    exact anc_reach haE
  obtain ⟨h1, h2⟩ := selector_ok P hp hfuel hr hv
  unfold hoverNode
  simp only [upExpr_at hp hfuel ha, hE, hw]
  constructor
  · intro l ts t hd hts ht
    rw [h1 l ts hd hts]
    simp only [hoverIdiom, (shown_iff _ _ _).mpr ht]
  · intro hno
    obtain ⟨e, he, h3, h4⟩ := h2 hno
    rw [he]
    cases e <;> first | rfl | exact absurd rfl h3 | exact absurd rfl h4

/-- C70. At a name in an attribute set, the first answer of the option workers is shown, next to what is at the cursor;
but only if there is a worker for nixpkgs. -/
theorem C70_option_partial {n E Q k : Node} {a l pre post : List Node} {ts : List Bytes} (ha : Ancestors root n a) (hi : ∀ x ∈ a, isInherit x = false)
    (hk : a.find? AttrPaths.isName = some k) (hE : a.find? isExpr = some E) (hS : Grammar.IsSet E) (ho : AttrPaths.Owns E Q)
    (hQ : AttrPaths.namesOf Q = pre ++ k :: post) (hl : AttrPaths.Nested root E l) (hts : (l ++ pre ++ [k]).mapM AttrPaths.textOf = some ts)
    {w : Workers} (hw : w.nixpkgs ≠ none) (vl : VL) :
    hoverNode src vl (runPM root) fuel w n =
      .ok ((answers w.options (optionPath ts)).head?.map fun d => (aboutOption d, toLSPRange src n.range)) := by
  have hr : Reach root E := by
    obtain ⟨aE, haE, -⟩ := anc_of_find ha hE
    exact anc_reach haE
  have h1 := option_at hp ha hi hk hr ho hQ hl hts hfuel
  obtain ⟨_, _, _, _, _, rfl⟩ := hS
  rcases hw' : w.nixpkgs with _ | worker
  · exact absurd hw' hw
  · unfold hoverNode
    simp only [upExpr_at hp hfuel ha, hE, hw', h1, (option_answers _ _).2, Option.map_map]
    rfl

omit hfuel in
/-- C70. Without a worker for nixpkgs nothing is shown, for options neither. -/
theorem C70_no_nixpkgs_violated {n : Node} (hr : Reach root n) (hf : sizeOf root ≤ fuel) {w : Workers} (hw : w.nixpkgs = none) (vl : VL) :
    hoverNode src vl (runPM root) fuel w n = .ok none := by
  obtain ⟨l, hl, h⟩ := C26_upExpr hp n hr
  unfold hoverNode
  simp only [h fuel hf, hw]
  rcases l.find? isExpr with _ | e <;> rfl

/-! ### Inlay hints -/

omit hp hfuel in
theorem packageEnv_iff {s : VL} : ∀ {Γ : List Frame} {env : Env}, EnvOk s Γ env → (packageEnv env = true ↔ ∃ w ∈ withsOf Γ, IsPkgs w)
  | [], [], _ => by simp [packageEnv, withsOf]
  | f :: Γ, sc :: env, h => by
    have ih := packageEnv_iff h.2
    unfold packageEnv at ih ⊢
    rw [List.any_cons, Bool.or_eq_true, ih]
    cases f with
    | names b =>
      have h1 := h.1.1
      have e : withsOf (Frame.names b :: Γ) = withsOf Γ := rfl
      rw [e]
      refine or_iff_right fun hc => ?_
      unfold isWith at h1
      split at hc
      · rename_i heq
        rw [heq] at h1
        cases h1
      · cases hc
    | with_ w =>
      have h2 := h.1.2.1
      have e : withsOf (Frame.with_ w :: Γ) = w :: withsOf Γ := rfl
      rw [e, List.exists_mem_cons_iff, h2]
      refine or_congr_left ?_
      cases w <;> first | (simp [IsPkgs]; done) | skip
      rename_i w' _
      cases w' <;> simp [IsPkgs, isVar, varName]

end

/-- The variables that get a hint. -/
def hinted (vl : VL) (m : PMap) (fuel : Nat) (range : Option PosRange) (n : Node) : Bool :=
  isVar n && havePackageScope vl m fuel n && match range with
    | some r => r.contains n.positionRange
    | none => true

theorem hints_nodes {src : Bytes} {vl : VL} {m : PMap} {fuel : Nat} {range : Option PosRange} {worker : List Bytes → Option Info} {root : Node}
    (hv : ∀ n, Reach root n → isVar n = true → ∀ c ∈ n.children, c.children = [] ∧ isVar c = false) :
    ∀ k n, Reach root n → hintsF src vl m fuel range worker k n = ((nodesTo k n).filter (hinted vl m fuel range)).flatMap (hintOf src worker) := by
  intro k
  induction k with
  | zero => intro n _; rfl
  | succ k ih =>
    intro n hr
    have hkids : n.children.flatMap (hintsF src vl m fuel range worker k) =
        ((n.children.flatMap (nodesTo k)).filter (hinted vl m fuel range)).flatMap (hintOf src worker) := by
      rw [List.filter_flatMap, List.flatMap_assoc]
      exact List.flatMap_congr fun c hc => ih c (reach_child hr hc)
    have hrest : isVar n = false → hintsF src vl m fuel range worker (k + 1) n = n.children.flatMap (hintsF src vl m fuel range worker k) := by
      intro h
      cases n <;> first | rfl | cases h
    rw [nodesTo, List.filter_cons]
    by_cases hk : isVar n = true
    · have hnone : (n.children.flatMap (nodesTo k)).filter (hinted vl m fuel range) = [] := by
        rw [List.filter_eq_nil_iff]
        intro c hc
        obtain ⟨d, hd, hc⟩ := List.mem_flatMap.mp hc
        obtain ⟨h1, h2⟩ := hv n hr hk d hd
        cases k with
        | zero => cases hc
        | succ k =>
          rw [nodesTo, h1] at hc
          rw [List.mem_singleton.mp hc]
          simp [hinted, h2]
      rw [hnone] at hkids
      rw [hnone]
      have hk' := hk
      cases n <;> first | (cases hk'; done) | skip
      rename_i h i
      simp only [hintsF]
      rw [hkids]
      simp only [hinted, hk, Bool.true_and, List.flatMap_nil, List.append_nil]
      by_cases hs : havePackageScope vl m fuel (.exprVar h i) = true
      · rw [if_pos hs, hs, Bool.true_and]
        rcases range with _ | r
        · simp
        · simp only
          split <;> simp
      · rw [if_neg hs]
        simp [hs]
    · rw [hrest (by simpa using hk), hkids, if_neg (by simp [hinted, hk])]

theorem mem_nodesTo {m : Node} : ∀ k n, sizeOf n ≤ k → (m ∈ nodesTo k n ↔ Reach n m) := by
  intro k
  induction k with
  | zero => intro n hn; exfalso; cases n <;> simp at hn
  | succ k ih =>
    intro n hn
    rw [nodesTo, List.mem_cons, List.mem_flatMap]
    constructor
    · rintro (rfl | ⟨c, hc, hm⟩)
      · exact .here _
      · exact .down _ _ _ hc ((ih c (by have := children_size hc; omega)).mp hm)
    · intro h
      cases h with
      | here => exact .inl rfl
      | down _ c _ hc h => exact .inr ⟨c, hc, (ih c (by have := children_size hc; omega)).mpr h⟩

/-- C71. The hints are those of some of the variables, in the order of the document: the version of the attribute of nixpkgs
with the name of the variable, at the end of the variable. Of the variables below binders these are the ones below
some `with pkgs` in the range. -/
theorem C71_exact (P : PrimOps) {src : Bytes} {root : Node} {st : PState} (hp : parse src = some (root, st)) {w : Workers}
    {worker : List Bytes → Option Info} (hw : w.nixpkgs = some worker) (range : Option PosRange) :
    ∃ chosen : Node → Bool,
      inlayHints P src root w range = .ok (((nodes root).filter chosen).flatMap fun v =>
        match worker [varName v] with
        | some i => i.package.version.toList.map fun t => ⟨toLSPPosition src v.rCur, b!": " ++ t, toLSPRange src v.range⟩
        | none => []) ∧
      (∀ v, v ∈ nodes root ↔ Reach root v) ∧ (∀ v, chosen v = true → isVar v = true) ∧
      ∀ Δ v, Occurs root Δ v → (chosen v = true ↔ (∃ w ∈ withsOf Δ, IsPkgs w) ∧ ∀ r, range = some r → r.contains v.positionRange = true) := by
  refine ⟨hinted (runVL P (sizeOf root) root) (runPM root) (sizeOf root) range, ?_, fun v => mem_nodesTo _ _ (Nat.le_refl _), fun v h => ?_,
    fun Δ v hv => ?_⟩
  · unfold inlayHints
    rw [hw]
    simp only
    rw [hints_nodes (fun n hr hk c hc => ?_) _ _ (.here root)]
    · congr 2
      funext v
      unfold hintOf
      rw [idName_eq]
      rcases worker [varName v] with _ | i
      · rfl
      · simp only [Option.bind_some]
        rcases i.package.version with _ | t <;> rfl
    · have hf := at_fits hp hr
      cases n <;> first | (cases hk; done) | skip
      rename_i h i
      simp only [Node.children, List.mem_filter, List.mem_cons, List.not_mem_nil, or_false] at hc
      obtain ⟨h', x, rfl⟩ := hf
      rw [hc.1]
      exact ⟨rfl, rfl⟩
  · simp only [hinted, Bool.and_eq_true] at h
    exact h.1.1
  · obtain ⟨env, he1, he2⟩ := env_at P hp (Nat.le_refl _) hv
    have hup : havePackageScope (runVL P (sizeOf root) root) (runPM root) (sizeOf root) v = packageEnv env := by
      have : ∃ k, sizeOf root = k + 1 := ⟨sizeOf root - 1, by cases root <;> simp <;> omega⟩
      obtain ⟨k, hk⟩ := this
      unfold havePackageScope
      rw [show upEnv (runVL P (sizeOf root) root) (runPM root) (sizeOf root) v = some (some env) by
        generalize hvl : runVL P (sizeOf root) root = vl at *
        rw [hk, upEnv, he1]]
    simp only [hinted, hv.2, hup, Bool.true_and, Bool.and_eq_true, packageEnv_iff he2, withsOf_full]
    refine and_congr_right fun _ => ?_
    rcases range with _ | r
    · simp
    · simp

/-! ### Programs -/

/-- Some workers, for examples: a package with a position, one with a version, a value, and a position that cannot be read. -/
def someWorkers : Workers where
  nixpkgs := some fun p =>
    if p = [b!"hello"] then some { package := { name := some b!"hello", version := some b!"2.12", position := some b!"/n/hello.nix:7" } }
    else if p = [b!"lib", b!"id"] then some { value := some ⟨b!"Identity", 1, [b!"x"]⟩, location := some ⟨b!"/n/lib.nix", ⟨⟨3, 2⟩, ⟨3, 2⟩⟩⟩ }
    else if p = [b!"odd"] then some { package := { longDescription := some b!"long", position := some b!"/n/odd.nix:x" } }
    else none
  options := [(b!"dead", none), (b!"nixos", some fun p => if p = [b!"a", b!"b"] then
    some ⟨some b!"About b.", [lineStart b!"/n/b.nix" 4], some (some b!"boolean", some b!"bool")⟩ else none)]

/-- The definitions found in a program, for examples. -/
noncomputable def defineAt (src : Bytes) (w : Workers) (col : Nat) : Option (Outcome (List Loc)) :=
  (parse src).map fun r => onDefinition [] someFS b!"/d/f.nix" src r.1 w ⟨0, col⟩

noncomputable def hoverAt (src : Bytes) (w : Workers) (col : Nat) : Option (Outcome (Option (Bytes × LRange))) :=
  (parse src).map fun r => onHover [] src r.1 w ⟨0, col⟩

noncomputable def hintsIn (src : Bytes) (w : Workers) (range : Option PosRange) : Option (Outcome (List (Int × Bytes))) :=
  (parse src).map fun r => match inlayHints [] src r.1 w range with
    | .ok hs => .ok (hs.map fun h => (h.position.character, h.label))
    | .undefined => .undefined
    | _ => .error

/-- A place in the document itself. -/
def here (a b : Int) : Loc := ⟨b!"/d/f.nix", ⟨⟨0, a⟩, ⟨0, b⟩⟩⟩

example : defineAt b!"x: x (x: x) x" someWorkers 9 = some (.ok [here 6 7]) ∧
    defineAt b!"a: { inherit a; }" someWorkers 13 = some (.ok [here 0 1]) ∧
    defineAt b!"with pkgs; hello" someWorkers 12 = some (.ok [here 0 4, lineStart b!"/n/hello.nix" 7]) ∧
    defineAt b!"builtins" someWorkers 1 = some (.ok []) ∧
    defineAt b!"pkgs.hello" someWorkers 6 = some (.ok [lineStart b!"/n/hello.nix" 7]) ∧
    defineAt b!"lib.id" someWorkers 5 = some (.ok [⟨b!"/n/lib.nix", ⟨⟨3, 2⟩, ⟨3, 2⟩⟩⟩]) ∧
    defineAt b!"[ ./a ]" someWorkers 3 = some (.ok [lineStart b!"/d/./a" 0]) ∧
    defineAt b!"{ config.a.b = 1; }" someWorkers 11 = some (.ok [lineStart b!"/n/b.nix" 4]) := by decide +kernel
example : hoverAt b!"lib.id" someWorkers 5 =
      some (.ok (some (b!"Identity\n\n**Arity:** 1\n**Args:** `x`\n", ⟨⟨0, 0⟩, ⟨0, 6⟩⟩))) ∧
    hoverAt b!"with pkgs; hello" someWorkers 12 = some (.ok (some (b!"`hello`\n", ⟨⟨0, 11⟩, ⟨0, 16⟩⟩))) ∧
    hoverAt b!"{ a.b = 1; }" someWorkers 4 = some (.ok (some (b!"bool (boolean)\n\nAbout b.", ⟨⟨0, 4⟩, ⟨0, 5⟩⟩))) := by decide +kernel
example : hintsIn b!"with pkgs; [ hello x hello ]" someWorkers none = some (.ok [(18, b!": 2.12"), (26, b!": 2.12")]) ∧
    hintsIn b!"with pkgs; [ hello x hello ]" someWorkers (some ⟨⟨0, 20⟩, ⟨0, 28⟩⟩) = some (.ok [(26, b!": 2.12")]) ∧
    hintsIn b!"with lib; hello" someWorkers none = some (.ok []) := by decide +kernel

/-- C69. The first line of a file has the number 0 in the protocol and the number 1 in nixpkgs. The number is taken over,
so that the location is one line too far, whatever the file and the line. -/
theorem C69_line_violated (f : Bytes) (hf : (58 : UInt8) ∉ f) (ds : Bytes) (h0 : ds ≠ []) (hd : ∀ c ∈ ds, isDigit c = true)
    (hm : value ds ≤ 2147483647) : parseLocation (f ++ 58 :: ds) = some (lineStart f (value ds)) ∧
      (lineStart f (value ds)).range.start.line ≠ (value ds : Int) - 1 := by
  refine ⟨(C69_position _ _).mpr ?_, ?_⟩
  · have := PositionOf.line f [] [] ds [] (value ds) hf nofun h0 hd nofun (.inl ⟨rfl, rfl⟩) (by omega) (by omega)
    simpa using this
  · show (value ds : Int) ≠ _
    omega

/-- C69. A position that cannot be read ends the server. -/
theorem C69_crash_violated : defineAt b!"pkgs.odd" someWorkers 6 = some .crash ∧
    defineAt b!"with pkgs; odd" someWorkers 12 = some (.ok [here 0 4]) := by decide +kernel

/-- C69. As does a name inside of a dynamic name of `inherit`; for other programs an `assert` fails. -/
theorem C69_inherit_violated : defineAt b!"{ inherit ${ { b = 1; }.b }; }" someWorkers 24 = some .crash ∧
    defineAt b!"{ x = 1; inherit x; }" someWorkers 17 = some .assert_ ∧
    defineAt b!"{ ${{ x = 1; }} = 2; }" someWorkers 6 = some .assert_ := by decide +kernel

/-- C69. Without a worker for nixpkgs a null pointer is dereferenced, also for a local variable. -/
theorem C69_no_worker_violated : defineAt b!"x: x" { someWorkers with nixpkgs := none } 3 = some .undefined := by decide +kernel

/-- C69. For other expressions the reply is an error. -/
theorem C69_no_definition_violated : defineAt b!"1" someWorkers 0 = some .error ∧ defineAt b!"x: 1" someWorkers 0 = some .error := by
  decide +kernel

/-- C70. Hover asks for the idioms only, so that a local variable called `lib` is taken for that of nixpkgs. -/
theorem C70_local_violated : hoverAt b!"let lib = { }; in lib.id" someWorkers 23 =
    some (.ok (some (b!"Identity\n\n**Arity:** 1\n**Args:** `x`\n", ⟨⟨0, 18⟩, ⟨0, 24⟩⟩))) := by decide +kernel

/-- C70. A long description is shown only if there is a short one as well. -/
theorem C70_long_violated : hoverAt b!"pkgs.odd" someWorkers 6 = some (.ok none) ∧
    (someWorkers.nixpkgs.bind fun w => (w [b!"odd"]).bind (·.package.longDescription)) = some b!"long" := by decide +kernel

/-- C70. For example here. -/
theorem C70_option_violated : hoverAt b!"{ a.b = 1; }" { someWorkers with nixpkgs := none } 4 = some (.ok none) := by decide +kernel

/-- C71. Variables with a binder get a hint as well, although they are not from nixpkgs. -/
theorem C71_bound_violated : hintsIn b!"with pkgs; let hello = 1; in hello" someWorkers none = some (.ok [(34, b!": 2.12")]) ∧
    defineAt b!"with pkgs; let hello = 1; in hello" someWorkers 30 = some (.ok [here 15 20]) := by decide +kernel

/-- C71. The same below a `with` that is nearer. -/
theorem C71_inner_with_violated : hintsIn b!"with pkgs; with { hello = 1; }; hello" someWorkers none = some (.ok [(37, b!": 2.12")]) := by
  decide +kernel

/-- C71. Without a worker for nixpkgs a null pointer is dereferenced. -/
theorem C71_no_worker_violated (P : PrimOps) (src : Bytes) (root : Node) (w : Workers) (range : Option PosRange) (hw : w.nixpkgs = none) :
    inlayHints P src root w range = .undefined := by
  unfold inlayHints
  rw [hw]

end Verif.Props
