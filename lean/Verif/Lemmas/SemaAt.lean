import Verif.Lemmas.Tree
import Verif.Model.Sema
/-
Semantic actions keep all cursors inside the source.
-/
namespace Verif.Nixf
open Lexical Node Tree

/-- What a semantic action does with the state. -/
structure SStep (src : Bytes) (s s' : SemaSt) : Prop where
  grow : s.diags <+: s'.diags
  at_ : ∀ d ∈ s'.diags, d ∈ s.diags ∨ ∀ c ∈ diagCursors d, At src c
  next : s.next ≤ s'.next

theorem SStep.refl {src : Bytes} (s : SemaSt) : SStep src s s := ⟨List.prefix_rfl, fun _ h => .inl h, Nat.le_refl _⟩

theorem SStep.trans {src : Bytes} {s s' s'' : SemaSt} (h : SStep src s s') (h' : SStep src s' s'') : SStep src s s'' :=
  ⟨h.grow.trans h'.grow, fun d hd => (h'.at_ d hd).elim (h.at_ d) .inr, Nat.le_trans h.next h'.next⟩

theorem SStep.emit {src : Bytes} {s : SemaSt} {d : Diagnostic} (h : ∀ c ∈ diagCursors d, At src c) :
    SStep src s (s.emit d) := by
  refine ⟨List.prefix_append _ _, fun e he => ?_, Nat.le_refl _⟩
  simp only [SemaSt.emit, List.mem_append, List.mem_singleton] at he
  rcases he with he | rfl
  · exact .inl he
  · exact .inr h

theorem SStep.bump {src : Bytes} {s s' : SemaSt} (hd : s'.diags = s.diags) (hn : s.next ≤ s'.next) : SStep src s s' :=
  ⟨hd ▸ List.prefix_rfl, fun _ h => .inl (hd ▸ h), hn⟩

structure SAok (src : Bytes) (sa : SA) : Prop where
  static : ∀ a ∈ sa.static, OkAll src a
  dynamic : ∀ a ∈ sa.dynamic, OkAll src a

theorem SAok.nil {src : Bytes} : SAok src {} := ⟨by simp, by simp⟩

/-- Both cursors of a range are positions of the source. -/
structure AtR (src : Bytes) (r : CRange) : Prop where
  l : At src r.l
  r : At src r.r

theorem Tree.All.atR {src : Bytes} {n : Node} (h : OkAll src n) : AtR src n.range := ⟨h.at_l, h.at_r⟩

theorem cur0 {src : Bytes} {d : Diagnostic} (hr : AtR src d.range) (hn : ∀ n ∈ d.notes, AtR src n.range)
    (hf : ∀ f ∈ d.fixes, ∀ e ∈ f.edits, AtR src e.oldRange) : ∀ c ∈ diagCursors d, At src c := by
  intro c hc
  simp only [diagCursors, List.mem_append, List.mem_cons, List.not_mem_nil, or_false, List.mem_flatMap] at hc
  rcases hc with ((rfl | rfl) | ⟨n, h1, rfl | rfl⟩) | ⟨f, h1, e, h2, rfl | rfl⟩
  · exact hr.l
  · exact hr.r
  · exact (hn n h1).l
  · exact (hn n h1).r
  · exact (hf f h1 e h2).l
  · exact (hf f h1 e h2).r

theorem dupAttr_step {src n : Bytes} {r p : CRange} {s : SemaSt} (hr : AtR src r) (hp : AtR src p) :
    SStep src s (dupAttr n r p s) := by
  refine .emit (cur0 hr ?_ ?_)
  · intro n hn; simp at hn; subst hn; exact hp
  · intro f hf; simp at hf

theorem okAll_key {src : Bytes} {a : Node} (h : OkAll src a) : OkAll src (attrKey a) := by
  cases a with
  | attr n k v kind => exact h.sub (by simp [attrKey, subs])
  | _ => exact okAll_null

theorem okAll_value {src : Bytes} {a : Node} (h : OkAll src a) : OkAll src (attrValue a) := by
  cases a with
  | attr n k v kind => exact h.sub (by simp [attrValue, subs])
  | _ => exact okAll_null

theorem checkRec_step {src : Bytes} {xr yr : CRange} {x y : Node} {s : SemaSt} (h1 : AtR src xr) (h2 : OkAll src x)
    (h3 : AtR src yr) (h4 : OkAll src y) : SStep src s (checkAttrRecursiveForMerge xr x yr y s) := by
  unfold checkAttrRecursiveForMerge
  dsimp only
  split
  · exact .refl s
  · refine .emit (cur0 ?_ ?_ ?_)
    · dsimp only; split
      · exact h2.atR
      · exact h4.atR
    · intro n hn
      simp only [List.mem_cons, List.not_mem_nil, or_false] at hn
      rcases hn with rfl | rfl
      · dsimp only; split
        · exact h2.atR
        · exact h1
      · dsimp only; split
        · exact h4.atR
        · exact h3
    · intro f hf; simp at hf

theorem insertStatic_ok {src : Bytes} {a : Node} {as : List Node} (ha : OkAll src a) (h : ∀ b ∈ as, OkAll src b) :
    ∀ b ∈ insertStatic a as, OkAll src b := by
  induction as with
  | nil => simpa [insertStatic] using ha
  | cons c cs ih =>
    intro b hb
    simp only [insertStatic] at hb
    split at hb
    · rcases List.mem_cons.mp hb with rfl | hb
      · exact ha
      · exact h b hb
    · rcases List.mem_cons.mp hb with rfl | hb
      · exact h _ (by simp)
      · exact ih (fun b hb => h b (by simp [hb])) b hb

theorem setStatic_ok {src n : Bytes} {v : Node} {as : List Node} (hv : OkAll src v) (h : ∀ b ∈ as, OkAll src b)
    (hr : ∀ a, findStatic n as = some a → (attrValue a).isNode = true ∧ (attrValue a).rCur = v.rCur) :
    ∀ b ∈ setStatic n v as, OkAll src b := by
  induction as with
  | nil => simp [setStatic]
  | cons c cs ih =>
    have ih := ih (fun b hb => h b (by simp [hb]))
    have hc : OkAll src c := h c (by simp)
    cases c with
    | attr m k w kind =>
      intro b hb
      simp only [setStatic] at hb
      split at hb
      · rename_i he
        rcases List.mem_cons.mp hb with rfl | hb
        · obtain ⟨h1, h2⟩ := hr (.attr m k w kind) (by simp [findStatic, attrName, he])
          exact okAll_attr (okAll_key hc) hv fun _ => by rw [← h2]; exact hc.here.2 h1
        · exact h b (by simp [hb])
      · rename_i he
        rcases List.mem_cons.mp hb with rfl | hb
        · exact hc
        · exact ih (fun a ha => hr a (by simpa [findStatic, attrName, he] using ha)) b hb
    | _ =>
      intro b hb
      simp only [setStatic] at hb
      rcases List.mem_cons.mp hb with rfl | hb
      · exact hc
      · refine ih (fun a ha => ?_) b hb
        by_cases he : n = []
        · have := (hr _ (by simp [findStatic, attrName, he]; rfl)).1
          simp [attrValue, isNode, hd?] at this
        · exact hr a (by simpa [findStatic, attrName, he] using ha)

theorem findStatic_mem {n : Bytes} {as : List Node} {a : Node} (h : findStatic n as = some a) : a ∈ as :=
  List.mem_of_find?_eq_some h

theorem mergeStatic_ok {src : Bytes} {ys xs : List Node} {s : SemaSt} (hy : ∀ b ∈ ys, OkAll src b)
    (hx : ∀ b ∈ xs, OkAll src b) :
    (∀ b ∈ (mergeStatic ys xs s).1, OkAll src b) ∧ SStep src s (mergeStatic ys xs s).2 := by
  induction ys generalizing xs s with
  | nil => exact ⟨hx, .refl s⟩
  | cons y ys ih =>
    have hy0 := hy y (by simp)
    have hy' : ∀ b ∈ ys, OkAll src b := fun b hb => hy b (by simp [hb])
    rw [mergeStatic]
    cases hf : findStatic (attrName y) xs with
    | some x =>
      have := ih (s := dupAttr (attrName y) (attrKey y).range (attrKey x).range s) hy' hx
      exact ⟨this.1, (dupAttr_step (okAll_key hy0).atR (okAll_key (hx x (findStatic_mem hf))).atR).trans this.2⟩
    | none => exact ih hy' (insertStatic_ok hy0 hx)

theorem okAll_attrs {src : Bytes} {h : Hd} {b r : Node} {st dy st' dy' : List Node}
    (hn : OkAll src (.exprAttrs h b r st dy)) (h1 : ∀ a ∈ st', OkAll src a) (h2 : ∀ a ∈ dy', OkAll src a) :
    OkAll src (.exprAttrs h b r st' dy') := by
  obtain ⟨k1, k2, k3⟩ := hn.here.1.1 h rfl
  refine okAll_mk rfl k1 k2 k3 (fun _ _ e => by cases e) fun m hm => ?_
  simp only [subs, List.mem_append, List.mem_cons, List.not_mem_nil, or_false] at hm
  rcases hm with (rfl | rfl) | hm | hm
  · exact hn.sub (by simp [subs])
  · exact hn.sub (by simp [subs])
  · exact h1 m hm
  · exact h2 m hm

theorem okAll_static {src : Bytes} {h : Hd} {b r : Node} {st dy : List Node} (hn : OkAll src (.exprAttrs h b r st dy)) :
    SAok src ⟨st, dy⟩ :=
  ⟨fun a ha => hn.sub (by simp [subs, ha]), fun a ha => hn.sub (by simp [subs, ha])⟩

theorem okAll_rec {src : Bytes} {h : Hd} {b r : Node} {st dy : List Node} (hn : OkAll src (.exprAttrs h b r st dy)) :
    OkAll src r := hn.sub (by simp [subs])

theorem okAll_range {src : Bytes} {h : Hd} {b r : Node} {st dy : List Node} (hn : OkAll src (.exprAttrs h b r st dy)) :
    AtR src h.range := ⟨(hn.here.1.1 h rfl).1, (hn.here.1.1 h rfl).2.1⟩

theorem insertAttr_ok {src : Bytes} {sa : SA} {name e : Node} {kind : AttrKind} {s : SemaSt} (hsa : SAok src sa)
    (hn : OkAll src name) (he : OkAll src e) (hr : e.isNode = true → name.rCur.offset ≤ e.rCur.offset) :
    SAok src (insertAttr sa name e kind s).1 ∧ SStep src s (insertAttr sa name e kind s).2 := by
  unfold insertAttr
  cases hs : name.staticName? with
  | none =>
    dsimp only
    split
    · exact ⟨hsa, .refl s⟩
    · refine ⟨⟨hsa.static, fun a ha => ?_⟩, .refl s⟩
      simp only [List.mem_append, List.mem_singleton] at ha
      rcases ha with ha | rfl
      · exact hsa.dynamic a ha
      · exact okAll_attr hn he hr
  | some n =>
    dsimp only
    cases hf : findStatic n sa.static with
    | none =>
      dsimp only
      split
      · exact ⟨hsa, .refl s⟩
      · exact ⟨⟨insertStatic_ok (okAll_attr hn he hr) hsa.static, hsa.dynamic⟩, .refl s⟩
    | some a =>
      have ha := hsa.static a (findStatic_mem hf)
      have hv := okAll_value ha
      dsimp only
      split
      · rename_i hx bx rx stx dyx hy by_ ry sty dyy hva
        rw [hva] at hv
        have hr' := checkRec_step (s := s) (okAll_range hv) (okAll_rec hv) (okAll_range he) (okAll_rec he)
        have hm := mergeStatic_ok (s := checkAttrRecursiveForMerge hx.range rx hy.range ry s) (okAll_static he).static
          (okAll_static hv).static
        refine ⟨⟨setStatic_ok (okAll_attrs hv hm.1 ?_) hsa.static ?_, hsa.dynamic⟩, hr'.trans hm.2⟩
        intro b hb
        rcases List.mem_append.mp hb with hb | hb
        · exact (okAll_static hv).dynamic b hb
        · exact (okAll_static he).dynamic b hb
        · intro a' ha'
          rw [hf] at ha'; cases ha'
          rw [hva]; exact ⟨rfl, rfl⟩
      · exact ⟨hsa, dupAttr_step hn.atR (okAll_key ha).atR⟩

theorem okAll_synth {src : Bytes} {i : Nat} {name : Node} {st dy : List Node} (hn : OkAll src name)
    (h1 : ∀ a ∈ st, OkAll src a) (h2 : ∀ a ∈ dy, OkAll src a) :
    OkAll src (.exprAttrs ⟨i, name.range⟩ .null .null st dy) := by
  refine okAll_mk rfl hn.at_l hn.at_r hn.le (fun _ _ e => by cases e) fun m hm => ?_
  simp only [subs, List.mem_append, List.mem_cons, List.not_mem_nil, or_false] at hm
  rcases hm with (rfl | rfl) | hm | hm
  · exact okAll_null
  · exact okAll_null
  · exact h1 m hm
  · exact h2 m hm

theorem addAttr_ok {src : Bytes} {sa : SA} {path : List Node} {e : Node} {s : SemaSt} (hsa : SAok src sa)
    (hp : ∀ n ∈ path, OkAll src n) (he : OkAll src e)
    (hr : ∀ n ∈ path, e.isNode = true → n.rCur.offset ≤ e.rCur.offset) :
    SAok src (addAttr sa path e s).1 ∧ SStep src s (addAttr sa path e s).2 := by
  fun_induction addAttr sa path e s with
  | case1 => exact ⟨hsa, .bump rfl (Nat.le_refl _)⟩
  | case2 => exact ⟨hsa, .refl _⟩
  | case3 sa s name hnull => exact insertAttr_ok hsa (hp name (by simp)) he (hr name (by simp))
  | case4 sa s name rest _ hnull ih => exact ih hsa (fun n hn => hp n (by simp [hn])) fun n hn => hr n (by simp [hn])
  | case5 sa s name rest _ hnull n hst a hfi h b r st dy hval hinh inner s' hadd ih =>
    have ha := okAll_value (hsa.static a (findStatic_mem hfi))
    rw [hval] at ha
    rw [hadd] at ih
    obtain ⟨h1, h2⟩ := ih (okAll_static ha) (fun n hn => hp n (by simp [hn])) fun n hn => hr n (by simp [hn])
    exact ⟨⟨setStatic_ok (okAll_attrs ha h1.static h1.dynamic) hsa.static fun a' ha' => by
      rw [hfi] at ha'; cases ha'
      rw [hval]; exact ⟨rfl, rfl⟩, hsa.dynamic⟩, h2⟩
  | case6 sa s name rest _ hnull n hst a hfi _ =>
    exact ⟨hsa, dupAttr_step (hp name (by simp)).atR (okAll_key (hsa.static a (findStatic_mem hfi))).atR⟩
  | case7 sa s name rest _ hnull n hst hfi h inner s' hadd ih =>
    rw [hadd] at ih
    obtain ⟨h1, h2⟩ := ih .nil (fun n hn => hp n (by simp [hn])) fun n hn => hr n (by simp [hn])
    have hn := hp name (by simp)
    exact ⟨⟨insertStatic_ok (okAll_attr hn (okAll_synth hn h1.static h1.dynamic) fun _ => Nat.le_refl _) hsa.static, hsa.dynamic⟩,
      .trans (s' := { s with next := s.next + 1 }) (.bump rfl (Nat.le_succ _)) h2⟩
  | case8 sa s name rest _ hnull hst h inner s' hadd ih =>
    rw [hadd] at ih
    obtain ⟨h1, h2⟩ := ih .nil (fun n hn => hp n (by simp [hn])) fun n hn => hr n (by simp [hn])
    have hn := hp name (by simp)
    refine ⟨⟨hsa.static, fun a ha => ?_⟩, .trans (s' := { s with next := s.next + 1 }) (.bump rfl (Nat.le_succ _)) h2⟩
    simp only [List.mem_append, List.mem_singleton] at ha
    rcases ha with ha | rfl
    · exact hsa.dynamic a ha
    · exact okAll_attr hn (okAll_synth hn h1.static h1.dynamic) fun _ => Nat.le_refl _

theorem desugar_ok {src : Bytes} {name e : Node} {s : SemaSt} (hn : OkAll src name) (he : OkAll src e) :
    OkAll src (desugarInheritExpr name e s).1 ∧ SStep src s (desugarInheritExpr name e s).2.2 := by
  unfold desugarInheritExpr
  split
  · split
    · refine ⟨okAll_mk rfl hn.at_l hn.at_r hn.le (fun _ _ e => by cases e) fun m hm => ?_, .bump rfl (Nat.le_succ _)⟩
      simp [subs] at hm; subst hm
      exact hn.sub (by simp [subs])
    · refine ⟨okAll_mk rfl hn.at_l hn.at_r hn.le (fun _ _ e => by cases e) fun m hm => ?_, .bump rfl (Nat.le_succ _)⟩
      simp [subs] at hm; subst hm
      exact okAll_null
  · refine ⟨okAll_mk rfl hn.at_l hn.at_r hn.le (fun _ _ e => by cases e) fun m hm => ?_, .bump rfl (Nat.le_add_right _ 2)⟩
    simp [subs] at hm
    rcases hm with rfl | rfl | rfl | rfl
    · exact he
    · exact okAll_null
    rotate_left
    · exact okAll_null
    · refine okAll_mk rfl hn.at_l hn.at_r hn.le (fun _ _ e => by cases e) (fun m hm => ?_) ?_
      · simp [subs] at hm; subst hm; exact hn
      · intro n hn; simp at hn; subst hn; exact Nat.le_refl _

theorem desugar_range {name e : Node} {s : SemaSt} : (desugarInheritExpr name e s).1.range = name.range := by
  unfold desugarInheritExpr
  split
  · split <;> rfl
  · rfl

theorem lowerInheritName_ok {src : Bytes} {sa : SA} {name e : Node} {kind : AttrKind} {s : SemaSt} (hsa : SAok src sa)
    (hn : OkAll src name) (he : OkAll src e) (hr : e.isNode = true → name.rCur.offset ≤ e.rCur.offset) :
    SAok src (lowerInheritName sa name e kind s).1 ∧ SStep src s (lowerInheritName sa name e kind s).2 := by
  unfold lowerInheritName
  split
  · exact ⟨hsa, .refl s⟩
  · split
    · refine ⟨hsa, .emit (cur0 hn.atR (by simp) ?_)⟩
      intro f hf e he
      simp at hf; subst hf; simp at he; subst he; exact hn.atR
    · split
      · rename_i a hf
        exact ⟨hsa, dupAttr_step hn.atR (okAll_key (hsa.static a (findStatic_mem hf))).atR⟩
      · exact ⟨⟨insertStatic_ok (okAll_attr hn he hr) hsa.static, hsa.dynamic⟩, .refl s⟩

theorem lowerInherit_ok {src : Bytes} {sa : SA} {e : Node} {names : List Node} {s : SemaSt} (hsa : SAok src sa)
    (he : OkAll src e) (hn : ∀ n ∈ names, OkAll src n) :
    SAok src (lowerInherit sa e names s).1 ∧ SStep src s (lowerInherit sa e names s).2 := by
  induction names generalizing sa s with
  | nil => exact ⟨hsa, .refl s⟩
  | cons n ns ih =>
    rw [lowerInherit]
    have h0 := hn n (by simp)
    have h1 := desugar_ok (s := s) h0 he
    have h2 := lowerInheritName_ok (kind := (desugarInheritExpr n e s).2.1) (s := (desugarInheritExpr n e s).2.2) hsa h0 h1.1
      (fun _ => by unfold rCur; rw [desugar_range]; exact Nat.le_refl _)
    have h3 := ih (s := (lowerInheritName sa n (desugarInheritExpr n e s).1 (desugarInheritExpr n e s).2.1
      (desugarInheritExpr n e s).2.2).2) h2.1 (fun m hm => hn m (by simp [hm]))
    exact ⟨h3.1, h1.2.trans (h2.2.trans h3.2)⟩

theorem lowerBinds_ok {src : Bytes} {sa : SA} {bs : List Node} {s : SemaSt} (hsa : SAok src sa)
    (hb : ∀ n ∈ bs, OkAll src n) : SAok src (lowerBinds sa bs s).1 ∧ SStep src s (lowerBinds sa bs s).2 := by
  fun_induction lowerBinds sa bs s with
  | case1 sa s => exact ⟨hsa, .refl s⟩
  | case2 sa h names e bs s sa' s' hl ih =>
    have h0 := hb _ List.mem_cons_self
    have h1 := lowerInherit_ok (s := s) hsa (h0.sub (m := e) (by simp [subs])) (names := names)
      (fun n hn => h0.sub (by simp [subs, hn]))
    rw [hl] at h1
    have h2 := ih h1.1 (fun m hm => hb m (by simp [hm]))
    exact ⟨h2.1, h1.2.trans h2.2⟩
  | case3 sa h ha names ds eq v bs s sa' s' hl ih =>
    have h0 := hb _ List.mem_cons_self
    have hp : OkAll src (.attrPath ha names ds) := h0.sub (by simp [subs])
    have h1 := addAttr_ok (s := s) hsa (path := names) (e := v) (fun n hn => hp.sub (by simp [subs, hn]))
      (h0.sub (by simp [subs])) fun n hn hv => Nat.le_trans (hp.here.2 n hn) (Nat.le_trans (h0.here.2 hv)
        (h0.sub (m := v) (by simp [subs])).le)
    rw [hl] at h1
    have h2 := ih h1.1 (fun m hm => hb m (by simp [hm]))
    exact ⟨h2.1, h1.2.trans h2.2⟩
  | case4 sa b bs s _ _ ih =>
    have h2 := ih hsa (fun m hm => hb m (by simp [hm]))
    exact ⟨h2.1, .trans (s' := { s with bad := true }) (.bump rfl (Nat.le_refl _)) h2.2⟩

theorem onExprAttrs_ok {src : Bytes} {r : CRange} {body rec : Node} {s : SemaSt} (hr : AtR src r)
    (hle : r.l.offset ≤ r.r.offset) (hb : OkAll src body) (hrec : OkAll src rec) :
    ∃ i st dy s', onExprAttrs r body rec s = (.exprAttrs ⟨i, r⟩ body rec st dy, s') ∧
      OkAll src (.exprAttrs ⟨i, r⟩ body rec st dy) ∧ SStep src s s' ∧ s.next ≤ i ∧ i < s'.next := by
  have key : ∀ sa s1, SAok src sa → SStep src s s1 →
      OkAll src (.exprAttrs ⟨s1.next, r⟩ body rec sa.static sa.dynamic) ∧ SStep src s { s1 with next := s1.next + 1 } ∧
        s.next ≤ s1.next ∧ s1.next < s1.next + 1 := by
    intro sa s1 h1 h2
    refine ⟨okAll_mk rfl hr.l hr.r hle (fun _ _ e => by cases e) fun m hm => ?_, h2.trans (.bump rfl (Nat.le_succ _)),
      h2.next, Nat.lt_succ_self _⟩
    simp only [subs, List.mem_append, List.mem_cons, List.not_mem_nil, or_false] at hm
    rcases hm with (rfl | rfl) | hm | hm
    · exact hb
    · exact hrec
    · exact h1.static m hm
    · exact h1.dynamic m hm
  unfold onExprAttrs
  cases body with
  | binds _ bs =>
    have h1 := lowerBinds_ok (s := s) SAok.nil (bs := bs) (fun n hn => hb.sub (by simp [subs, hn]))
    exact ⟨_, _, _, _, rfl, key _ _ h1.1 h1.2⟩
  | _ => exact ⟨_, _, _, _, rfl, key _ _ .nil (.refl s)⟩

/-! ### Formals -/

theorem List.mem_of_mem_dropLast' {α : Type} {l : List α} {a : α} (h : a ∈ l.dropLast) : a ∈ l :=
  (List.dropLast_sublist l).subset h


theorem okAll_formal {src : Bytes} {f : Node} (h : OkAll src f) :
    OkAll src (formalComma f) ∧ OkAll src (formalID f) ∧ OkAll src (formalDefault f) ∧ OkAll src (formalEllipsis f) := by
  cases f with
  | formal _ c i d e =>
    exact ⟨h.sub (by simp [subs, formalComma]), h.sub (by simp [subs, formalID]), h.sub (by simp [subs, formalDefault]),
      h.sub (by simp [subs, formalEllipsis])⟩
  | _ => exact ⟨okAll_null, okAll_null, okAll_null, okAll_null⟩

theorem foldl_step {src : Bytes} {α : Type} (g : SemaSt → α → SemaSt) (l : List α) (s : SemaSt)
    (h : ∀ s, ∀ a ∈ l, SStep src s (g s a)) : SStep src s (l.foldl g s) := by
  induction l generalizing s with
  | nil => exact .refl s
  | cons a as ih => exact (h s a (by simp)).trans (ih _ fun s b hb => h s b (by simp [hb]))

theorem removeFormal_ok {src : Bytes} {fv : List Node} {i : Nat} {f : Node} (hv : ∀ f ∈ fv, OkAll src f)
    (hf : OkAll src f) : ∀ e ∈ removeFormal fv i f, AtR src e.oldRange := by
  intro e he
  simp only [removeFormal, List.mem_cons] at he
  rcases he with rfl | he
  · exact hf.atR
  · split at he
    · split at he
      · rename_i x hx
        split at he
        · simp at he
        · simp only [List.mem_singleton] at he
          subst he
          exact (okAll_formal (hv _ (List.mem_of_getElem? hx))).1.atR
      · simp at he
    · simp at he

theorem ellipsisDiag_ok {src text : Bytes} {fv : List Node} {last : Node} {i : Nat} {f : Node} (hv : ∀ f ∈ fv, OkAll src f)
    (hf : OkAll src f) (hl : OkAll src last) : ∀ c ∈ diagCursors (ellipsisDiag text fv last i f), At src c := by
  unfold ellipsisDiag
  split
  · refine cur0 hf.atR (by simp) fun x hx e he => ?_
    simp at hx; subst hx
    exact removeFormal_ok hv hf e he
  · refine cur0 hf.atR (by simp) fun x hx e he => ?_
    simp at hx; subst hx
    rcases List.mem_append.mp he with he | he
    · exact removeFormal_ok hv hf e he
    · simp at he; subst he; exact ⟨hl.at_r, hl.at_r⟩

theorem dedupDiags_step {src : Bytes} {fs : List Node} {acc : List (Bytes × Node)} {s : SemaSt}
    (hf : ∀ f ∈ fs, OkAll src f) (ha : ∀ p ∈ acc, OkAll src p.2) : SStep src s (dedupDiags fs acc s) := by
  induction fs generalizing acc s with
  | nil => exact .refl s
  | cons f fs ih =>
    have h0 := hf f (by simp)
    have ih := fun {acc s} h => ih (acc := acc) (s := s) (fun m hm => hf m (by simp [hm])) h
    rw [dedupDiags]
    split
    · exact ih ha
    · split
      · rename_i p hp
        refine .trans (.emit (cur0 (okAll_formal h0).2.1.atR ?_ (by simp))) (ih ha)
        intro n hn
        simp at hn; subst hn
        exact (okAll_formal (ha p (List.mem_of_find?_eq_some hp))).2.1.atR
      · refine ih fun p hp => ?_
        rcases List.mem_append.mp hp with hp | hp
        · exact ha p hp
        · simp at hp; subst hp; exact h0

theorem onFormals_ok {src text : Bytes} {r : CRange} {fv : List Node} {s : SemaSt} (hv : ∀ f ∈ fv, OkAll src f) :
    ∃ i s', onFormals text r fv s = (.formals ⟨i, r⟩ fv, s') ∧ SStep src s s' ∧ s.next ≤ i ∧ i < s'.next := by
  have h1 : ∀ s, SStep src s (checkFormalSep fv s) := fun s => by
    refine foldl_step _ _ s fun s f hf => ?_
    have h0 := hv f (List.mem_of_mem_tail hf)
    split
    · refine .emit (cur0 h0.atR (by simp) fun x hx e he => ?_)
      simp at hx; subst hx; simp at he; subst he; exact ⟨h0.at_l, h0.at_l⟩
    · exact .refl s
  have h2 : ∀ s, SStep src s (checkFormalEllipsis text fv s) := fun s => by
    unfold checkFormalEllipsis
    split
    · exact .refl s
    · rename_i last hlast
      refine foldl_step _ _ s fun s p hp => ?_
      split
      · refine .emit (ellipsisDiag_ok hv (hv p.1 ?_) (hv last (List.mem_of_mem_getLast? hlast)))
        exact List.mem_of_mem_dropLast' (by
          have := List.fst_mem_of_mem_zipIdx hp
          exact this)
      · exact .refl s
  have h3 : ∀ s, SStep src s (checkFormalEmpty fv s) := fun s => by
    refine foldl_step _ _ s fun s f hf => ?_
    have h0 := hv f (List.mem_of_mem_dropLast' hf)
    split
    · refine .emit (cur0 h0.atR (by simp) fun x hx e he => ?_)
      simp at hx; subst hx; simp at he; subst he; exact h0.atR
    · exact .refl s
  have h4 : ∀ s, SStep src s (dedupDiags fv [] s) := fun s => dedupDiags_step hv (by simp)
  have h := (h1 s).trans ((h2 _).trans ((h3 _).trans (h4 _)))
  exact ⟨_, _, rfl, h.trans (.bump rfl (Nat.le_succ _)), h.next, Nat.lt_succ_self _⟩

theorem firstFormals_ok {src : Bytes} {fs : List Node} {acc : List (Bytes × Node)} (hf : ∀ f ∈ fs, OkAll src f)
    (ha : ∀ p ∈ acc, OkAll src p.2) : ∀ p ∈ firstFormals fs acc, OkAll src p.2 := by
  induction fs generalizing acc with
  | nil => exact ha
  | cons f fs ih =>
    have hf' : ∀ m ∈ fs, OkAll src m := fun m hm => hf m (by simp [hm])
    rw [firstFormals]
    split
    · exact ih hf' ha
    · split
      · exact ih hf' ha
      · refine ih hf' fun p hp => ?_
        rcases List.mem_append.mp hp with hp | hp
        · exact ha p hp
        · simp at hp; subst hp; exact hf f (by simp)

theorem mem_insertKey {α : Type} {p q : Bytes × α} {m : List (Bytes × α)} : q ∈ insertKey p m ↔ q = p ∨ q ∈ m := by
  induction m with
  | nil => simp [insertKey]
  | cons x xs ih =>
    rw [insertKey]
    split
    · simp
    · simp only [List.mem_cons, ih]
      constructor
      · rintro (h | h | h) <;> simp [h]
      · rintro (h | h | h) <;> simp [h]

theorem mem_dedup {fs : List Node} {p : Bytes × Node} : p ∈ dedup fs ↔ p ∈ firstFormals fs [] := by
  have : ∀ (l m : List (Bytes × Node)), p ∈ l.foldl (fun m p => insertKey p m) m ↔ p ∈ l ∨ p ∈ m := by
    intro l
    induction l with
    | nil => simp
    | cons x xs ih =>
      intro m
      rw [List.foldl_cons, ih, mem_insertKey, List.mem_cons]
      constructor
      · rintro (h | h | h) <;> simp [h]
      · rintro ((h | h) | h) <;> simp [h]
  simpa [dedup] using this (firstFormals fs []) []

theorem onLambdaArg_ok {src : Bytes} {r : CRange} {i f : Node} {s : SemaSt} (hi : OkAll src i) (hf : OkAll src f) :
    ∃ j s', onLambdaArg r i f s = (.lambdaArg ⟨j, r⟩ i f, s') ∧ SStep src s s' ∧ s.next ≤ j ∧ j < s'.next := by
  have hm : ∀ m ∈ formalMembers f, OkAll src m := by
    cases f with
    | formals _ ms => exact fun m hm => hf.sub hm
    | _ => simp [formalMembers]
  unfold onLambdaArg
  dsimp only
  split
  · exact ⟨_, _, rfl, .bump rfl (Nat.le_succ _), Nat.le_refl _, Nat.lt_succ_self _⟩
  · split
    · rename_i p hp
      refine ⟨_, _, rfl, ?_, Nat.le_refl _, Nat.lt_succ_self _⟩
      refine .trans (s' := s.emit _) (.emit (cur0 hi.atR ?_ (by simp))) (.bump rfl (Nat.le_succ _))
      intro n hn
      simp at hn; subst hn
      exact (firstFormals_ok hm (by simp) p (mem_dedup.mp (List.mem_of_find?_eq_some hp))).atR
    · exact ⟨_, _, rfl, .bump rfl (Nat.le_succ _), Nat.le_refl _, Nat.lt_succ_self _⟩

end Verif.Nixf
