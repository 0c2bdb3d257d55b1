import Verif.Model.Rename
import Verif.Spec.Rename
import Verif.Props.Scope
import Verif.Props.Descend
/-
C28 (rename) and C29 (references and highlights).
-/
namespace Verif.Props
open Nixf Scoping Server SourceCode

/-! ### Climbing -/

theorem ancestors_reach {root n : Node} {l : List Node} (h : Ancestors root n l) : ∀ a ∈ l, Reach a n := by
  induction h with
  | root => intro a ha; rw [List.mem_singleton.mp ha]; exact .here _
  | child p c l hp _ ih =>
    intro a ha
    rcases List.mem_cons.mp ha with rfl | ha
    · exact .here _
    · exact (ih a ha).trans (.down _ _ _ hp.2.1 (.here _))

theorem ancestors_head {root n : Node} {l : List Node} (h : Ancestors root n l) : ∃ t, l = n :: t := by
  cases h with
  | root => exact ⟨_, rfl⟩
  | child p _ l _ _ => exact ⟨_, rfl⟩

theorem isVar_iff {n : Node} : isExprVar n = true ↔ isVar n = true := by
  cases n <;> simp [isExprVar, isVar, Node.kind?]

/-- The nodes below a static attribute name. -/
def isNamePart : Node → Bool
  | .identifier .. | .exprString .. | .parts .. => true
  | _ => false

theorem static_below {an n : Node} {name : Bytes} (ht : Typed an) (hs : an.staticName? = some name) (hr : Reach an n) :
    n = an ∨ isNamePart n = true := by
  cases an <;> simp only [Node.staticName?] at hs
  case attrNameID h i =>
    cases i <;> simp only [Typed, IsIdent] at ht
    cases hr with
    | here => exact .inl rfl
    | down _ c _ hc hr =>
      simp only [Node.children, List.mem_filter, List.mem_cons, List.not_mem_nil, or_false] at hc
      rw [hc.1] at hr
      cases hr with
      | here => exact .inr rfl
      | down _ c _ hc hr => cases hc
  case attrNameString h s =>
    cases s <;> simp only at hs
    all_goals first | (cases hs; done) | skip
    case exprString h' p =>
      cases p <;> simp only [Node.literal?] at hs
      all_goals first | (cases hs; done) | skip
      case parts h'' fs =>
        split at hs
        · rename_i _ _ t heq
          cases heq
          cases hr with
          | here => exact .inl rfl
          | down _ c _ hc hr =>
            simp only [Node.children, List.mem_filter, List.mem_cons, List.not_mem_nil, or_false] at hc
            rw [hc.1] at hr
            cases hr with
            | here => exact .inr rfl
            | down _ c _ hc hr =>
              simp only [Node.children, List.mem_filter, List.mem_cons, List.not_mem_nil, or_false] at hc
              rw [hc.1] at hr
              cases hr with
              | here => exact .inr rfl
              | down _ c _ hc hr =>
                simp only [Node.children, List.mem_filter, List.mem_cons, List.not_mem_nil, or_false] at hc
                rw [hc.1] at hc
                cases hc.2
        · cases hs
  all_goals cases hs

/-- Nothing below a static attribute name is a variable. -/
theorem static_no_var {an v : Node} {name : Bytes} (ht : Typed an) (hs : an.staticName? = some name) (hr : Reach an v) : isVar v = false := by
  rcases static_below ht hs hr with rfl | h
  · cases v <;> simp only [Node.staticName?] at hs <;> first | rfl | cases hs
  · cases v <;> first | rfl | cases h

section
variable {src : Bytes} {root : Node} {st : PState} (hp : parse src = some (root, st)) {fuel : Nat} (hfuel : sizeOf root ≤ fuel)
include hp hfuel

theorem upToE_eq (kind : Node → Bool) {n : Node} (hr : Reach root n) :
    ∃ l, Ancestors root n l ∧ upToE (runPM root) fuel kind n = .ok (l.find? kind) := by
  obtain ⟨l, hl, h⟩ := C26_up hp kind n hr
  exact ⟨l, hl, by rw [upToE, h fuel hfuel]⟩

omit hfuel in
theorem ancestors_unique {n : Node} {l l' : List Node} (hr : Reach root n) (h : Ancestors root n l) (h' : Ancestors root n l') : l = l' := by
  induction h generalizing l' with
  | root =>
    cases h' with
    | root => rfl
    | child p _ l hp' _ => exact absurd rfl (child_ne hp'.1 hp'.2.1)
  | child p c l hpar _ ih =>
    cases h' with
    | root => exact absurd rfl (child_ne hpar.1 hpar.2.1)
    | child p' _ l' hp' hl' =>
      obtain ⟨q, -, hq⟩ := C26_unique hp c hr (child_ne hpar.1 hpar.2.1)
      have := (hq _ hpar).trans (hq _ hp').symm
      subst this
      rw [ih hpar.1 hl']

/-- The ancestors of a variable or of its identifier. -/
theorem var_ancestors {v n : Node} (hv : isVar v = true) (hr : Reach root v) (hn : n = v ∨ n ∈ v.children) :
    ∃ l t, Ancestors root n l ∧ (l = v :: t ∨ l = n :: v :: t) ∧ (isVar n = true → n = v) ∧ Reach root n := by
  obtain ⟨lv, hl, -⟩ := upToE_eq hp hfuel (fun _ => true) hr
  obtain ⟨t, rfl⟩ := ancestors_head hl
  rcases hn with rfl | hn
  · exact ⟨_, t, hl, .inl rfl, fun _ => rfl, hr⟩
  · have hnr := reach_child hr hn
    have hpar : ParentOf root v n := by
      refine ⟨hr, hn, fun q _ hk => ?_⟩
      obtain ⟨_, _, _, _, rfl, -⟩ := hk
      cases hv
    refine ⟨_, t, .child _ _ _ hpar hl, .inr rfl, fun hnv => ?_, hnr⟩
    exfalso
    have ht := (parse_ids hp).up.2 v hr
    cases v <;> simp only [isVar, Bool.false_eq_true] at hv
    case exprVar h i =>
      simp only [Node.children, List.mem_filter, List.mem_cons, List.not_mem_nil, or_false] at hn
      rw [hn.1] at hnv
      cases i <;> first | (cases hnv; done) | exact ht

/-- A variable itself is not a name of `inherit`. -/
theorem inheritVar_var {v n : Node} (hv : isVar v = true) (hr : Reach root v) (hn : n = v ∨ n ∈ v.children) :
    findInheritVar (runPM root) fuel n = .ok none := by
  obtain ⟨l, t, hl, hlt, hnv, hnr⟩ := var_ancestors hp hfuel hv hr hn
  have up : ∀ kind, upToE (runPM root) fuel kind n = .ok (l.find? kind) := by
    intro kind
    obtain ⟨l', hl', h⟩ := upToE_eq hp hfuel kind hnr
    rw [ancestors_unique hp hnr hl hl', h]
  unfold findInheritVar
  rw [up]
  rcases hi : l.find? isInherit with _ | inh
  · rfl
  · rw [up]
    rcases ha : l.find? isAttrName with _ | an
    · rfl
    · have hki := List.find?_some hi
      have hka := List.find?_some ha
      have ham := List.mem_of_find?_eq_some ha
      have hst : an.staticName? = none := by
        rcases hs : an.staticName? with _ | name
        · rfl
        · exfalso
          have hra : Reach an v := by
            have hnv' : isAttrName v = false := by cases v <;> simp [isVar] at hv <;> rfl
            rcases hlt with rfl | rfl
            · rcases hn with rfl | hn
              · exact ancestors_reach hl _ ham
              · exfalso
                obtain ⟨t', ht'⟩ := ancestors_head hl
                cases ht'
                have := children_size hn
                omega
            · have hlv : Ancestors root v (v :: t) ∨ n = v := by
                cases hl with
                | child p _ _ hpar hl' =>
                  obtain ⟨t', ht'⟩ := ancestors_head hl'
                  cases ht'
                  exact .inl hl'
              rcases List.mem_cons.mp ham with rfl | ham
              · -- the identifier is no attribute name
                exfalso
                rcases hn with rfl | hn
                · rw [hnv'] at hka; cases hka
                · have ht := (parse_ids hp).up.2 v hr
                  cases v <;> simp only [isVar, Bool.false_eq_true] at hv
                  case exprVar h i =>
                    simp only [Node.children, List.mem_filter, List.mem_cons, List.not_mem_nil, or_false] at hn
                    rw [hn.1] at hka
                    cases i <;> first | (cases hka; done) | exact ht
              · rcases hlv with hlv | rfl
                · exact ancestors_reach hlv _ ham
                · exact ancestors_reach hl _ (List.mem_cons_of_mem _ ham)
          have hroot : Reach root an := by
            have : ∀ {n l}, Ancestors root n l → ∀ a ∈ l, Reach root a := by
              intro n l h
              induction h with
              | root => intro a ha; rw [List.mem_singleton.mp ha]; exact .here _
              | child p c l hp _ ih =>
                intro a ha
                rcases List.mem_cons.mp ha with rfl | ha
                · exact reach_child hp.1 hp.2.1
                · exact ih a ha
            exact this hl _ ham
          have := static_no_var ((parse_ids hp).up.2 an hroot) hs hra
          rw [hv] at this; cases this
      cases inh <;> first | (cases hki; done) | skip
      case inherit h ns e =>
        simp only [hst]
        split <;> rfl

theorem findVar_var {v n : Node} (hv : isVar v = true) (hr : Reach root v) (hn : n = v ∨ n ∈ v.children) :
    findVar (runPM root) fuel n = .ok (some v) := by
  have hinh := inheritVar_var hp hfuel hv hr hn
  obtain ⟨l, t, hl, hlt, hnv, hnr⟩ := var_ancestors hp hfuel hv hr hn
  have up : ∀ kind, upToE (runPM root) fuel kind n = .ok (l.find? kind) := by
    intro kind
    obtain ⟨l', hl', h⟩ := upToE_eq hp hfuel kind hnr
    rw [ancestors_unique hp hnr hl hl', h]
  unfold findVar
  rw [hinh, up]
  have : l.find? isExprVar = some v := by
    have hv' := isVar_iff.mpr hv
    rcases hlt with rfl | rfl
    · rw [List.find?_cons_of_pos hv']
    · by_cases hx : isExprVar n = true
      · rw [hnv (isVar_iff.mp hx), List.find?_cons_of_pos hv']
      · rw [List.find?_cons_of_neg hx, List.find?_cons_of_pos hv']
  rw [this]

omit hp hfuel in
/-- The ancestors of a node below `an` go on with those of `an`. -/
theorem below_ancestors {an n : Node} {lan : List Node} (hr : Reach an n) (hl : Ancestors root an lan)
    (hk : ∀ m, Reach an m → m = an ∨ isNamePart m = true) (hroot : Reach root an) (ha : isExprAttrs an = false) :
    ∃ l, Ancestors root n (l ++ lan) ∧ ∀ y ∈ l, isNamePart y = true := by
  induction hr generalizing lan with
  | here => exact ⟨[], hl, nofun⟩
  | down p c m hc hr ih =>
    have hpar : ParentOf root p c := by
      refine ⟨hroot, hc, fun q _ hk' => ?_⟩
      obtain ⟨_, _, _, _, rfl, -⟩ := hk'
      cases ha
    have hcn : isNamePart c = true := by
      rcases hk c (.down _ _ _ hc (.here _)) with rfl | h
      · have := children_size hc; omega
      · exact h
    obtain ⟨l, h1, h2⟩ := ih (.child _ _ _ hpar hl) (fun m' hm' => by
        rcases hk m' (.down _ _ _ hc hm') with rfl | h
        · have := reach_size hm'; have := children_size hc; omega
        · exact .inr h) (reach_child hroot hc) (by cases c <;> first | rfl | cases hcn)
    refine ⟨l ++ [c], by simpa using h1, fun y hy => ?_⟩
    rcases List.mem_append.mp hy with hy | hy
    · exact h2 y hy
    · rw [List.mem_singleton.mp hy]; exact hcn

/-- The cursor on a variable: either a name of `inherit` leads to it, or it is there. -/
theorem inheritVar_cursor {v n : Node} (hc : CursorOn root n v) :
    (findInheritVar (runPM root) fuel n = .ok (some v) ∧ ∃ l S, Ancestors root n l ∧ S ∈ l ∧ isExprAttrs S = true) ∨
    Reach root v ∧ isVar v = true ∧ (n = v ∨ n ∈ v.children) := by
  cases hc with
  | var _ hr hv hn => exact .inr ⟨hr, hv, hn⟩
  | inherit h hb' bs r st dy hi ns an x a hset hbs han hann hstat hr hfind hv =>
    obtain ⟨b, hbe⟩ : ∃ b, b = Node.binds hb' bs := ⟨_, rfl⟩
    have hb : b ∈ (Node.exprAttrs h b r st dy).children := by
      simp [Node.children, hbe, Node.isNode, Node.hd?]
    have hinh : Node.inherit hi ns .null ∈ b.children := by
      rw [hbe]
      exact List.mem_filter.mpr ⟨hbs, rfl⟩
    rw [← hbe] at hset
    have hrb := reach_child hset hb
    have hrinh := reach_child hrb hinh
    have hanc : an ∈ (Node.inherit hi ns .null).children := by
      simp only [Node.children, List.mem_filter, List.mem_append, List.mem_singleton]
      exact ⟨.inl han, hann⟩
    have hran := reach_child hrinh hanc
    obtain ⟨ls, hls, -⟩ := upToE_eq hp hfuel (fun _ => true) hset
    obtain ⟨t, rfl⟩ := ancestors_head hls
    have p1 : ParentOf root (.exprAttrs h b r st dy) b := by
      refine ⟨hset, hb, fun q hq hk => ?_⟩
      obtain ⟨_, _, _, _, -, hk⟩ := hk
      have ht := (parse_ids hp).up.2 q hq
      have hb0 : b.children = [] := by
        rcases hk with ⟨_, _, _, rfl⟩ | ⟨_, rfl⟩
        · rcases ht with ht | ht
          · cases ht
          · exact ht.1
        · obtain ⟨⟨_, rfl⟩, -⟩ := ht; rfl
      rw [hb0] at hinh
      cases hinh
    have hbna : isExprAttrs b = false := by rw [hbe]; rfl
    have p2 : ParentOf root b (.inherit hi ns .null) := by
      refine ⟨hrb, hinh, fun q _ hk => ?_⟩
      obtain ⟨_, _, _, _, rfl, -⟩ := hk
      cases hbna
    have p3 : ParentOf root (.inherit hi ns .null) an := by
      refine ⟨hrinh, hanc, fun q _ hk => ?_⟩
      obtain ⟨_, _, _, _, he, -⟩ := hk
      cases he
    have hlan : Ancestors root an (an :: .inherit hi ns .null :: b :: .exprAttrs h b r st dy :: t) :=
      .child _ _ _ p3 (.child _ _ _ p2 (.child _ _ _ p1 hls))
    have hlinh : Ancestors root (.inherit hi ns .null) (.inherit hi ns .null :: b :: .exprAttrs h b r st dy :: t) :=
      .child _ _ _ p2 (.child _ _ _ p1 hls)
    have hanattr : isAttrName an = true := by
      cases an <;> simp only [Node.staticName?] at hstat <;> first | rfl | cases hstat
    have hanno : ∀ k, k ≠ NodeKind.AttrName → (an.kind? == some k) = false := by
      intro k hk
      cases an <;> first | (cases hanattr; done) | simpa [Node.kind?] using Ne.symm hk
    obtain ⟨l, hl, hlp⟩ := below_ancestors hr hlan
      (fun m hm => static_below ((parse_ids hp).up.2 an hran) hstat hm) hran (hanno _ (by decide))
    have hnp : ∀ k ∈ [NodeKind.AttrName, .Inherit], ∀ y ∈ l, (y.kind? == some k) = false := by
      intro k hk y hy
      have := hlp y hy
      simp only [List.mem_cons, List.not_mem_nil, or_false] at hk
      rcases hk with rfl | rfl <;> cases y <;> first | rfl | cases this
    have up : ∀ kind m lm, Reach root m → Ancestors root m lm → upToE (runPM root) fuel kind m = .ok (lm.find? kind) := by
      intro kind m lm hm h
      obtain ⟨l', hl', h'⟩ := upToE_eq hp hfuel kind hm
      rw [ancestors_unique hp hm h hl', h']
    have f1 : (l ++ an :: Node.inherit hi ns .null :: b :: .exprAttrs h b r st dy :: t).find? isInherit = some (.inherit hi ns .null) := by
      rw [List.find?_append, List.find?_eq_none.mpr (fun y hy => by rw [Bool.not_eq_true]; exact hnp .Inherit (by simp) y hy), Option.none_or,
        List.find?_cons_of_neg (by rw [Bool.not_eq_true]; exact hanno .Inherit (by decide)), List.find?_cons_of_pos rfl]
    have f2 : (l ++ an :: Node.inherit hi ns .null :: b :: .exprAttrs h b r st dy :: t).find? isAttrName = some an := by
      rw [List.find?_append, List.find?_eq_none.mpr (fun y hy => by rw [Bool.not_eq_true]; exact hnp .AttrName (by simp) y hy), Option.none_or,
        List.find?_cons_of_pos hanattr]
    have f3 : (Node.inherit hi ns .null :: b :: .exprAttrs h b r st dy :: t).find? isExprAttrs = some (.exprAttrs h b r st dy) := by
      rw [List.find?_cons_of_neg (by simp [isExprAttrs, Node.kind?]), List.find?_cons_of_neg (by simp [hbna]), List.find?_cons_of_pos rfl]
    have hnr := hran.trans hr
    refine .inl ⟨?_, _, .exprAttrs h b r st dy, hl, by simp, rfl⟩
    unfold findInheritVar
    rw [up _ _ _ hnr hl, f1, up _ _ _ hnr hl, f2]
    simp only [Node.isNull, Bool.not_true, Bool.false_eq_true, if_false, hstat]
    rw [up _ _ _ hrinh hlinh, f3]
    simp only [staticAttrAt, hfind, isVar_iff.mpr hv, if_true]

theorem findVar_cursor {v n : Node} (hc : CursorOn root n v) : findVar (runPM root) fuel n = .ok (some v) := by
  rcases inheritVar_cursor hp hfuel hc with ⟨h, -⟩ | ⟨hr, hv, hn⟩
  · rw [findVar, h]
  · exact findVar_var hp hfuel hv hr hn

end

section
variable (P : PrimOps) {src : Bytes} {root : Node} {st : PState} (hp : parse src = some (root, st)) {fuel : Nat}
  (hfuel : sizeOf root ≤ fuel)
include hp hfuel

/-- The edits for a definition of the analysis. -/
theorem edits_of_def {d : Nat} (hd : d < (runVL P fuel root).store.length) (h1 : ((runVL P fuel root).get d).source ≠ .with_)
    (h2 : ((runVL P fuel root).get d).source ≠ .builtin) :
    ∃ Γ m x k us, Inside root Γ m ∧ (frameOf m).binds x = some (((runVL P fuel root).get d).syntax_, k) ∧
      (∀ u, u ∈ us ↔ RefersTo m x u) ∧ us = ((runVL P fuel root).get d).uses := by
  obtain ⟨Γ, m, x, h3, h4, h5⟩ := C22_uses_exact P hp hfuel hd h1 h2
  exact ⟨Γ, m, x, _, _, h3, h4, h5, rfl⟩

/-- What `findDefinition` returns is a definition of the analysis. -/
theorem findDefinition_mem {pm : PMap} {f : Nat} {n : Node} {d : Def} (h : findDefinition pm (runVL P fuel root) f n = .ok d)
    (hw : d.source ≠ .with_) : ∃ i, i < (runVL P fuel root).store.length ∧ d = (runVL P fuel root).get i := by
  have hrun := run_ok P hfuel (parse_wellFormed hp)
  unfold findDefinition at h
  split at h
  · cases h
  · rename_i v _
    unfold findVarDefinition at h
    split at h
    · cases h
    · cases h
    · rename_i k i hk hq
      cases h
      obtain ⟨Δ, v', hv', hid, hr⟩ := hrun.resSound _ (ptrFind_mem hq)
      unfold ResOk at hr
      cases k
      · exact absurd rfl hk
      · obtain ⟨-, w, d, -, h2, h3⟩ := hr
        cases h2
        exact absurd (hrun.wdef _ (ptrFind_mem h3)) hw
      · obtain ⟨d, h1, h2, -⟩ := hr
        cases h1
        exact ⟨_, h2, rfl⟩
    · cases h
  · have key : ∀ m : Node, (runVL P fuel root).toDefOf m = some d → ∃ i, i < (runVL P fuel root).store.length ∧ d = (runVL P fuel root).get i := by
      intro m hm
      unfold VL.toDefOf at hm
      rw [Option.map_eq_some_iff] at hm
      obtain ⟨i, hi, rfl⟩ := hm
      exact ⟨i, (hrun.toDefFrom _ _ hi).1, rfl⟩
    split at h
    · rename_i d' hd
      cases h
      unfold findSelfDefinition at hd
      split at hd
      · rename_i hx
        cases hd
        exact key _ hx
      · split at hd
        · split at hd
          · exact key _ hd
          · cases hd
        · cases hd
    · cases h

/-- C28. Wherever the cursor is: if rename makes edits, there is a binder of a name such that these are, with the new name, the
ranges of its definition and of exactly the variables that refer to it. -/
theorem C28_sound {n : Node} {new : Bytes} {E : List (LRange × Bytes)}
    (h : rename (runPM root) (runVL P fuel root) fuel n new src = .ok E) :
    ∃ Γ m x def_ k us, Inside root Γ m ∧ (frameOf m).binds x = some (def_, k) ∧ (∀ u, u ∈ us ↔ RefersTo m x u) ∧
      E = editsOf src new us def_ := by
  unfold rename at h
  split at h
  · cases h
  · rename_i d hd
    split at h
    · cases h
    · split at h
      · cases h
      · rename_i h1 h2
        cases h
        obtain ⟨i, hi, rfl⟩ := findDefinition_mem P hp hfuel hd h1
        obtain ⟨Γ, m, x, k, us, h3, h4, h5, rfl⟩ := edits_of_def P hp hfuel hi h1 h2
        exact ⟨Γ, m, x, _, k, _, h3, h4, h5, rfl⟩

/-- C28. With the cursor on a variable that has a binder, the definition found by the innermost binder and all the variables that
refer to this binder are edited, the one at the cursor among them. -/
theorem C28_variable {Δ : List Frame} {v n : Node} (hv : Occurs root Δ v) (hc : CursorOn root n v) {def_ : Node} {k : DefSource}
    (hr : resolve Δ (varName v) = some (def_, k)) (new : Bytes) :
    ∃ Γ m us, Inside root Γ m ∧ (frameOf m).binds (varName v) = some (def_, k) ∧ RefersTo m (varName v) v ∧
      (∀ u, u ∈ us ↔ RefersTo m (varName v) u) ∧
      rename (runPM root) (runVL P fuel root) fuel n new src = .ok (editsOf src new us def_) := by
  obtain ⟨d, hq, h1, h2, h3⟩ := C22_innermost_binder P hp hfuel hv hr
  have hrun := run_ok P hfuel (parse_wellFormed hp)
  obtain ⟨d', hd', hlt, h2', h3', -⟩ : ResOk P (runVL P fuel root) (full P Δ, v) ⟨.defined, some d⟩ := query_ok hrun (parse_faithful hp) hv hq
  cases hd'
  have hb : ((runVL P fuel root).get d).source ≠ .builtin := by
    intro hb
    have hfr := hr
    unfold resolve at hfr
    obtain ⟨f, hf, hfb⟩ := List.exists_of_findSome?_eq_some hfr
    obtain ⟨m, rfl, hk⟩ : ∃ m, f = frameOf m ∧ True := by
      have : ∀ {a : Node} {Δ m}, Inside a Δ m → ∀ f ∈ Δ, ∃ m, f = frameOf m ∧ True := by
        intro a Δ m hi
        induction hi with
        | here => nofun
        | outer n c Δ m _ _ ih => exact ih
        | inner n c Δ m _ _ ih =>
          intro f hf
          rcases List.mem_append.mp hf with hf | hf
          · exact ih f hf
          · exact ⟨n, List.mem_singleton.mp hf, trivial⟩
      exact this hv.1 f hf
    have := (binds_kind hfb).2
    rw [h2] at hb
    exact this hb
  obtain ⟨Γ, m, x, h4, h5, h6⟩ := C22_uses_exact P hp hfuel hlt h3' hb
  have href := (h6 v).mp h3
  have hx : varName v = x := href.choose_spec.choose_spec.2.2.1
  subst hx
  rw [h1, h2] at h5
  refine ⟨Γ, m, _, h4, h5, href, h6, ?_⟩
  unfold rename findDefinition
  rw [findVar_cursor hp hfuel hc]
  simp only [findVarDefinition, hq]
  rw [if_neg h3', if_neg hb, h1]
  rfl

/-- C28. The name of a builtin is refused. -/
theorem C28_builtin_refused {Δ : List Frame} {v n : Node} (hv : Occurs root Δ v) (hc : CursorOn root n v) (hf : Free Δ (varName v))
    (hg : Global P (varName v)) (new : Bytes) :
    rename (runPM root) (runVL P fuel root) fuel n new src = .error .renameBuiltin := by
  obtain ⟨d, hq, h1, -⟩ := C22_builtin_otherwise P hp hfuel hv hf hg
  unfold rename findDefinition
  rw [findVar_cursor hp hfuel hc]
  simp only [findVarDefinition, hq]
  rw [if_neg (by rw [h1]; decide), if_pos h1]

/-- C28. A name that comes from a `with` is refused. -/
theorem C28_with_refused {Δ : List Frame} {v n : Node} (hv : Occurs root Δ v) (hc : CursorOn root n v) (hf : Free Δ (varName v))
    (hg : ¬ Global P (varName v)) (hw : withsOf Δ ≠ []) (new : Bytes) :
    rename (runPM root) (runVL P fuel root) fuel n new src = .error .renameWith := by
  have hrun := run_ok P hfuel (parse_wellFormed hp)
  obtain ⟨d, hq⟩ := (C23_from_with_iff P hp hfuel hv).mpr ⟨hf, hg, hw⟩
  have hro := query_ok hrun (parse_faithful hp) hv hq
  obtain ⟨-, w, d', -, h2, h3⟩ := hro
  cases h2
  have hs := hrun.wdef _ (ptrFind_mem h3)
  unfold rename findDefinition
  rw [findVar_cursor hp hfuel hc]
  simp only [findVarDefinition, hq]
  rw [if_pos hs]

/-- C28. Other names are refused as well. -/
theorem C28_undefined_refused {Δ : List Frame} {v n : Node} (hv : Occurs root Δ v) (hc : CursorOn root n v) (hf : Free Δ (varName v))
    (hg : ¬ Global P (varName v)) (hw : withsOf Δ = []) (new : Bytes) :
    rename (runPM root) (runVL P fuel root) fuel n new src = .error .undefinedVar ∨
      rename (runPM root) (runVL P fuel root) fuel n new src = .error .noSuchVar := by
  have hrun := run_ok P hfuel (parse_wellFormed hp)
  unfold rename findDefinition
  rw [findVar_cursor hp hfuel hc]
  rcases hq : (runVL P fuel root).query v with _ | ⟨k, d⟩
  · right
    simp only [findVarDefinition, hq]
  · left
    have hro := query_ok hrun (parse_faithful hp) hv hq
    cases k
    · simp only [findVarDefinition, hq]
    · obtain ⟨-, w, d, h1, -⟩ := hro
      simp only [withsOf_full, hw] at h1
      cases h1
    · exfalso
      rcases C22_defined_only P hp hfuel hv hq with ⟨p, h⟩ | ⟨-, h⟩
      · rw [← free_iff, free_iff_resolve, h] at hf; cases hf
      · exact hg h

omit hfuel in
/-- The definitions of binders are nodes of the tree. -/
theorem binds_reach {Γ : List Frame} {m n : Node} {x : Bytes} {k : DefSource} (hm : Inside root Γ m)
    (hb : (frameOf m).binds x = some (n, k)) : Reach root n := by
  refine ((parse_ids hp).vok.2 Γ m hm).2.2 n ?_
  unfold frameOf at hb
  split at hb
  · split at hb
    · cases hb
    · simp only [lambdaFrame, Frame.binds] at hb
      split at hb
      · rename_i m' hf
        cases hb
        have := List.find?_some hf
        simp only [Bool.and_eq_true] at this
        exact List.mem_cons_of_mem _ (List.mem_filter.mpr ⟨List.mem_cons_of_mem _ (List.mem_map_of_mem (List.mem_of_find?_eq_some hf)), this.1⟩)
      · split at hb
        · rename_i hc
          simp only [Bool.and_eq_true] at hc
          cases hb
          exact List.mem_cons_of_mem _ (List.mem_filter.mpr ⟨List.mem_cons_self, hc.1⟩)
        · cases hb
  · split at hb
    · cases hb
    · simp only [setFrame, Frame.binds, Option.map_eq_some_iff] at hb
      obtain ⟨a, ha, hb⟩ := hb
      cases hb
      exact List.mem_map_of_mem (List.mem_of_find?_eq_some ha)
  · simp only [setFrame, Frame.binds, Option.map_eq_some_iff] at hb
    obtain ⟨a, ha, hb⟩ := hb
    cases hb
    exact List.mem_map_of_mem (List.mem_of_find?_eq_some ha)
  · cases hb
  · cases hb

omit hfuel in
theorem binds_node {Γ : List Frame} {m n : Node} {x : Bytes} {k : DefSource} (hm : Inside root Γ m)
    (hb : (frameOf m).binds x = some (n, k)) (hr : root.isNull = false) : n.isNull = false := by
  have : ∀ {a b : Node}, Reach a b → a.isNull = false → b.isNull = false := by
    intro a b h
    induction h with
    | here => exact id
    | down p c m hc _ ih => exact fun _ => ih (isNull_of_isNode (children_isNode hc))
  exact this (binds_reach hp hm hb) hr

/-- C28. With the cursor on a definition (or the identifier in an attribute name that is a definition) that is not below an
`inherit`, this definition and the variables that refer to it are edited. -/
theorem C28_definition {Γ : List Frame} {m def_ n : Node} {x : Bytes} {k : DefSource} (hm : Inside root Γ m)
    (hb : (frameOf m).binds x = some (def_, k))
    (hn : n = def_ ∨ (n ∈ def_.children ∧ isAttrName def_ = true ∧ ∀ Γ m x k, Inside root Γ m → (frameOf m).binds x ≠ some (n, k)))
    (hnv : ∀ v, Reach root v → isVar v = true → ¬ Reach v n) (hni : ∀ i, Reach root i → isInherit i = true → ¬ Reach i n)
    (hnw : ∀ Δ h kw sm w e, Inside root Δ (.exprWith h kw sm w e) → kw.id ≠ def_.id ∧ kw.id ≠ n.id) (new : Bytes) :
    ∃ Γ m x k us, Inside root Γ m ∧ (frameOf m).binds x = some (def_, k) ∧ (∀ u, u ∈ us ↔ RefersTo m x u) ∧
      rename (runPM root) (runVL P fuel root) fuel n new src = .ok (editsOf src new us def_) := by
  have hrun := run_ok P hfuel (parse_wellFormed hp)
  have hrd := binds_reach hp hm hb
  have hrn : Reach root n := by
    rcases hn with rfl | ⟨h, -⟩
    · exact hrd
    · exact reach_child hrd h
  -- the entries of the map of definitions
  have entry : ∀ y d, Reach root y → ptrFind y.id (runVL P fuel root).toDef = some d →
      (∀ Δ h kw sm w e, Inside root Δ (.exprWith h kw sm w e) → kw.id ≠ y.id) →
      d < (runVL P fuel root).store.length ∧ ((runVL P fuel root).get d).source ≠ .with_ ∧ ((runVL P fuel root).get d).source ≠ .builtin ∧
      ((runVL P fuel root).get d).syntax_ = y ∧ ∃ Γ m x k, Inside root Γ m ∧ (frameOf m).binds x = some (y, k) := by
    intro y d hy hd hw
    obtain ⟨h1, h2, h3⟩ := hrun.toDefFrom _ _ hd
    have h4 : ((runVL P fuel root).get d).source ≠ .with_ := by
      intro h4
      obtain ⟨Δ, m, hm, -, h, sm, w, e, rfl⟩ := hrun.wsyn d h1 h4
      exact hw _ _ _ _ _ _ hm h2
    obtain ⟨Γ, m, x, h5, h6, -⟩ := hrun.defs d h1 h4 h3
    have h7 := (parse_ids hp).cinj _ _ (binds_reach hp h5 h6) hy h2
    rw [h7] at h6
    exact ⟨h1, h4, h3, h7, Γ, m, x, _, h5, h6⟩
  obtain ⟨d, hd, hdq, hk1, hk2⟩ := hrun.defAll Γ m x _ hm hb
  obtain ⟨d', hd'⟩ := hrun.toDefHas d hd (by rw [congrArg Prod.snd hdq] at hk2; exact hk2)
  have hde : def_ = ((runVL P fuel root).get d).syntax_ := congrArg Prod.fst hdq
  rw [← hde] at hd'
  obtain ⟨e1, e2, e3, e4, -⟩ := entry def_ d' hrd hd' (fun Δ h kw sm w e hw => (hnw Δ h kw sm w e hw).1)
  have up : ∀ kind : Node → Bool, (∀ a, Reach root a → kind a = true → ¬ Reach a n) → upToE (runPM root) fuel kind n = .ok none := by
    intro kind hk
    obtain ⟨l, hl, h⟩ := upToE_eq hp hfuel kind hrn
    rw [h, List.find?_eq_none.mpr]
    intro a ha hka
    have hra : Reach root a := by
      have : ∀ {n l}, Ancestors root n l → ∀ a ∈ l, Reach root a := by
        intro n l h
        induction h with
        | root => intro a ha; rw [List.mem_singleton.mp ha]; exact .here _
        | child p c l hp _ ih =>
          intro a ha
          rcases List.mem_cons.mp ha with rfl | ha
          · exact reach_child hp.1 hp.2.1
          · exact ih a ha
      exact this hl a ha
    exact hk a hra hka (ancestors_reach hl a ha)
  have hself : findSelfDefinition (runPM root) (runVL P fuel root) n = some ((runVL P fuel root).get d') := by
    have hdef : (runVL P fuel root).toDefOf def_ = some ((runVL P fuel root).get d') := by
      unfold VL.toDefOf
      rw [hd']
      rfl
    unfold findSelfDefinition
    rcases hn with rfl | ⟨h1, h2, h3⟩
    · rw [hdef]
    · have : (runVL P fuel root).toDefOf n = none := by
        unfold VL.toDefOf
        rcases hx : ptrFind n.id (runVL P fuel root).toDef with _ | j
        · rfl
        · obtain ⟨-, -, -, -, Γ, m, x, k, k1, k2⟩ := entry n j hrn hx (fun Δ h kw sm w e hw => (hnw Δ h kw sm w e hw).2)
          exact absurd k2 (h3 _ _ _ _ k1)
      rw [this]
      have hq : (runPM root).query n = some def_ := by
        refine (C26_parent hp n def_ hrn (child_ne hrd h1)).mpr ⟨hrd, h1, fun q _ hk => ?_⟩
        obtain ⟨_, _, _, _, rfl, -⟩ := hk
        cases h2
      simp only [hq, h2, if_true]
      exact hdef
  obtain ⟨Γ', m', x', k', us, h3, h4, h5, h6⟩ := edits_of_def P hp hfuel e1 e2 e3
  rw [e4] at h4
  refine ⟨Γ', m', x', k', us, h3, h4, h5, ?_⟩
  unfold rename findDefinition findVar findInheritVar
  rw [up _ hni, up _ (fun a ha hk => hnv a ha (isVar_iff.mp hk))]
  simp only [hself]
  rw [if_neg e2, if_neg e3, e4, h6]
  rfl

/-- C54, outside of `inherit`: with the cursor on a node that is not below an `inherit`, no assertion fails and `std::map::at`
does not throw; the definition is found or one of the exceptions of the lookup is thrown. Missing: the nodes below `inherit`, for
which see the violations. -/
theorem C54_outside_inherit_partial {n : Node} (hrn : Reach root n) (hni : ∀ i, Reach root i → isInherit i = true → ¬ Reach i n) :
    (∃ d, findDefinition (runPM root) (runVL P fuel root) fuel n = .ok d) ∨
      ∃ e ∈ [DefErr.cannotFindVar, .undefinedVar, .noSuchVar], findDefinition (runPM root) (runVL P fuel root) fuel n = .error e := by
  have hrun := run_ok P hfuel (parse_wellFormed hp)
  obtain ⟨l, hl, h⟩ := upToE_eq hp hfuel isInherit hrn
  have hno : l.find? isInherit = none := by
    rw [List.find?_eq_none]
    intro a ha hka
    have : ∀ {n l}, Ancestors root n l → ∀ a ∈ l, Reach root a := by
      intro n l h
      induction h with
      | root => intro a ha; rw [List.mem_singleton.mp ha]; exact .here _
      | child p c l hp _ ih =>
        intro a ha
        rcases List.mem_cons.mp ha with rfl | ha
        · exact reach_child hp.1 hp.2.1
        · exact ih a ha
    exact hni a (this hl a ha) hka (ancestors_reach hl a ha)
  rw [hno] at h
  obtain ⟨l', -, h'⟩ := upToE_eq hp hfuel isExprVar hrn
  unfold findDefinition findVar findInheritVar
  rw [h, h']
  rcases l'.find? isExprVar with _ | v
  · simp only
    rcases findSelfDefinition (runPM root) (runVL P fuel root) n with _ | d
    · exact .inr ⟨_, by simp, rfl⟩
    · exact .inl ⟨d, rfl⟩
  · simp only [findVarDefinition]
    rcases hq : (runVL P fuel root).query v with _ | ⟨k, d⟩
    · exact .inr ⟨_, by simp, rfl⟩
    · obtain ⟨Δ, v', hv', hid, hr⟩ := hrun.resSound _ (ptrFind_mem hq)
      unfold ResOk at hr
      cases k
      · exact .inr ⟨.undefinedVar, by simp, rfl⟩
      · obtain ⟨-, w, d, -, h2, h3⟩ := hr
        cases h2
        exact .inl ⟨_, rfl⟩
      · obtain ⟨d, h1, -⟩ := hr
        cases h1
        exact .inl ⟨_, rfl⟩

/-- C29. References, highlights and rename agree: the references are the ranges of the edits but the last one, which is that of
the definition; the highlights are the same ranges. -/
theorem C29_agree {n : Node} {new : Bytes} {E : List (LRange × Bytes)}
    (h : rename (runPM root) (runVL P fuel root) fuel n new src = .ok E) :
    ∃ us d, E = us.map (fun r => (r, new)) ++ [(d, new)] ∧
      findReferences (runPM root) (runVL P fuel root) fuel n src = .ok us ∧
      highlight (runPM root) (runVL P fuel root) fuel n src = .ok (us.map (fun r => (r, .read)) ++ [(d, .write)]) := by
  unfold rename at h
  split at h
  · cases h
  · rename_i d hd
    split at h
    · cases h
    · split at h
      · cases h
      · rename_i h1 h2
        cases h
        obtain ⟨i, hi, rfl⟩ := findDefinition_mem P hp hfuel hd h1
        obtain ⟨Γ, m, x, k, us, h3, h4, -⟩ := edits_of_def P hp hfuel hi h1 h2
        have hnn : ((runVL P fuel root).get i).syntax_.isNull = false := by
          refine binds_node hp h3 h4 ?_
          cases root <;> first | rfl | skip
          rw [(inside_null h3).2] at h4
          cases h4
        refine ⟨_, _, by rw [List.map_map]; rfl, ?_, ?_⟩
        · unfold findReferences
          rw [hd]
        · unfold highlight
          rw [hd]
          simp only [hnn, Bool.false_eq_true, if_false, List.map_map]
          rfl

omit hp hfuel in
/-- C29. References and highlights exist exactly when the definition is found; for builtins and names from `with`, which are not
renamed, they are the uses as well. -/
theorem C29_domain (n : Node) : (∃ r, findReferences (runPM root) (runVL P fuel root) fuel n src = .ok r) ↔
    ∃ r, highlight (runPM root) (runVL P fuel root) fuel n src = .ok r := by
  unfold findReferences highlight
  cases findDefinition (runPM root) (runVL P fuel root) fuel n <;> simp


end

/-! ### Examples and violations -/

/-- Rename with the cursor in the given column of the first line: the columns of the edits. -/
noncomputable def renameAt (P : PrimOps) (src : Bytes) (col : Nat) : Option (Except DefErr (List (Int × Int))) :=
  match parse src with
  | some (root, _) =>
    match root.descend ⟨⟨0, col⟩, ⟨0, col⟩⟩ with
    | some n =>
      some ((rename (runPM root) (runVL P (sizeOf root) root) (sizeOf root) n b!"new" src).map fun E =>
        E.map fun e => (e.1.start.character, e.1.stop.character))
    | none => none
  | none => none

/-- Shadowing is respected: the outer `x`, from a use and from the definition. -/
example : renameAt [] b!"x: x (x: x) x" 3 = some (.ok [(3, 4), (12, 13), (0, 1)]) := by decide +kernel
example : renameAt [] b!"x: x (x: x) x" 0 = some (.ok [(3, 4), (12, 13), (0, 1)]) := by decide +kernel
/-- The inner one. -/
example : renameAt [] b!"x: x (x: x) x" 9 = some (.ok [(9, 10), (6, 7)]) := by decide +kernel
/-- A formal, its default of another formal, and the body. -/
example : renameAt [] b!"{ a, b ? a }: a b" 2 = some (.ok [(9, 10), (14, 15), (2, 3)]) := by decide +kernel
/-- A name of `let`, with the cursor on the identifier of the definition, and in `inherit`. -/
example : renameAt [] b!"let x = 1; in { inherit x; y = x; }" 4 = some (.ok [(24, 25), (31, 32), (4, 5)]) := by decide +kernel
example : renameAt [] b!"let x = 1; in { inherit x; y = x; }" 24 = some (.ok [(24, 25), (31, 32), (4, 5)]) := by decide +kernel
/-- Refused names. -/
example : renameAt [] b!"x: true" 3 = some (.error .renameBuiltin) := by decide +kernel
example : renameAt [] b!"with { }; y" 10 = some (.error .renameWith) := by decide +kernel
example : renameAt [] b!"x: y" 3 = some (.error .undefinedVar) := by decide +kernel

/-- C28, "each once": the expression of `inherit (x) a b` is analysed once per name, so the use of `x` in it is edited twice, at the
same place. -/
theorem C28_each_once_violated :
    renameAt [] b!"let x = 1; in { inherit (x) a b; }" 4 = some (.ok [(25, 26), (25, 26), (4, 5)]) := by decide +kernel

/-- C28. In `let inherit x;` one name is both a use of the outer and the definition of the inner `x`; the edits for the outer one
make the inner use undefined. -/
theorem C28_let_inherit_violated : renameAt [] b!"x: let inherit x; in x" 0 = some (.ok [(15, 16), (0, 1)]) ∧
    vlDiags [] b!"x: let inherit x; in x" = [] ∧
    vlDiags [] b!"new: let inherit new; in x" = [(.undefinedVariable, 25, [b!"x"]), (.unusedDefLet, 17, [b!"new"])] := by
  decide +kernel

/-- C28. A variable that is defined by several bindings is renamed in the first of them only. -/
theorem C28_nested_definition_violated : renameAt [] b!"let a.b = 1; a.c = 2; in a.c" 4 = some (.ok [(25, 26), (4, 5)]) := by
  decide +kernel

/-- The names of the static attributes of `x: { .. }`. -/
def lambdaAttrs (src : Bytes) : List Bytes :=
  match parse src with
  | some (.exprLambda _ _ (.exprAttrs _ _ _ st _), _) => st.map attrName
  | _ => []

/-- C28. Renaming a variable that occurs in `inherit x;` changes the attribute name as well, which is no occurrence of the
variable. -/
theorem C28_inherit_attribute_violated : renameAt [] b!"x: { inherit x; }" 0 = some (.ok [(13, 14), (0, 1)]) ∧
    lambdaAttrs b!"x: { inherit x; }" = [b!"x"] ∧ lambdaAttrs b!"new: { inherit new; }" = [b!"new"] := by decide +kernel

/-- C54. With the cursor on a name of `inherit` that is also bound otherwise, an assertion fails. -/
theorem C54_duplicate_violated : renameAt [] b!"{ x = 1; inherit x; }" 17 = some (.error .badCast) := by decide +kernel

/-- C54. With the cursor on an attribute name inside of a dynamic name of `inherit`, `std::map::at` throws. -/
theorem C54_dynamic_violated : renameAt [] b!"{ inherit ${ { b = 1; }.b }; }" 24 = some (.error .outOfRange) := by decide +kernel

/-- C54. Or the definition of an unrelated variable is found: here that of `x`, from the attribute name `b`. -/
theorem C54_unrelated_violated :
    renameAt [] b!"x: { b = x; inherit ${ { b = 1; }.b }; }" 34 = some (.ok [(9, 10), (0, 1)]) := by decide +kernel

end Verif.Props
