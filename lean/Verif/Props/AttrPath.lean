import Verif.Spec.AttrPath
import Verif.Model.AttrPath
import Verif.Lemmas.Grammar
import Verif.Props.Parents
/-
C45: the attribute path at the cursor.
-/
namespace Verif.Props
open Nixf Node Scoping AttrPaths Grammar

section
variable {src : Bytes} {root : Node} {s : PState} (h : parse src = some (root, s))
include h

theorem anc_unique {n : Node} {l l' : List Node} (h1 : Ancestors root n l) (h2 : Ancestors root n l') : l = l' := by
  induction h1 generalizing l' with
  | root =>
    cases h2 with
    | root => rfl
    | child p _ _ hp _ => exact absurd rfl (child_ne hp.1 hp.2.1)
  | child p c l hp hl ih =>
    cases h2 with
    | root => exact absurd rfl (child_ne hp.1 hp.2.1)
    | child p' _ l2 hp' hl' =>
      obtain ⟨q, -, hq⟩ := C26_unique h c (reach_child hp.1 hp.2.1) (child_ne hp.1 hp.2.1)
      have e : p' = p := by rw [hq p' hp', hq p hp]
      subst e
      rw [ih hl']

theorem up_eq {n : Node} {l : List Node} (ha : Ancestors root n l) (hr : Reach root n) (kind : Node → Bool) {fuel : Nat} (hf : sizeOf root ≤ fuel) :
    (runPM root).upTo kind fuel n = some (l.find? kind) := by
  obtain ⟨l', hl', hk⟩ := C26_up h kind n hr
  rw [anc_unique h ha hl', hk fuel hf]

omit h in
theorem anc_reach {n : Node} {l : List Node} (ha : Ancestors root n l) : Reach root n := by
  cases ha with
  | root => exact .here _
  | child p _ _ hp _ => exact reach_child hp.1 hp.2.1

theorem ancestors_ex {n : Node} (hr : Reach root n) : ∃ l, Ancestors root n l := by
  obtain ⟨l, hl, -⟩ := C26_up h isExpr n hr
  exact ⟨l, hl⟩

theorem at_fits {n : Node} (hr : Reach root n) : Fits n := reach_fits (parse_class h).2 hr

/-- Children other than tokens have one parent. -/
theorem parent_mk {p c : Node} (hr : Reach root p) (hc : c ∈ p.children) (hm : ¬ IsMisc c) : ParentOf root p c := by
  refine ⟨hr, hc, fun q _ hk => ?_⟩
  obtain ⟨h', b, st, dy, rfl, -⟩ := hk
  rcases (at_fits h hr).2 with rfl | e
  · have := children_isNode hc
    cases this
  · exact hm e

theorem parent_slot {p c : Node} (hp : ParentOf root p c) : Slot p c := slot (at_fits h hp.1) hp.2.1

/-- A node of the tree that is no expression has a parent. -/
theorem above {n : Node} {l : List Node} (ha : Ancestors root n l) (hn : n.isExpr = false) (hn' : n.isNode = true) :
    ∃ q l', l = n :: l' ∧ ParentOf root q n ∧ Ancestors root q l' ∧ Slot q n ∧ l.find? isExpr = l'.find? isExpr := by
  cases ha with
  | root =>
    rcases (parse_class h).1 with e | e
    · rw [e] at hn'; cases hn'
    · rw [IsExpr, hn] at e; cases e
  | child p _ l' hp hl => exact ⟨p, l', rfl, hp, hl, parent_slot h hp, by rw [List.find?_cons_of_neg (by simp [hn])]⟩

omit h in
theorem anc_head {n : Node} {l : List Node} (ha : Ancestors root n l) : ∃ l', l = n :: l' := by
  cases ha with
  | root => exact ⟨_, rfl⟩
  | child p _ l' hp hl => exact ⟨_, rfl⟩

omit h in
theorem find_head {n : Node} {l : List Node} (ha : Ancestors root n l) (hn : n.isExpr = true) : l.find? isExpr = some n := by
  obtain ⟨l', rfl⟩ := anc_head ha
  simp [hn]

/-- What is above a binding. -/
theorem above_binding {n : Node} {l : List Node} (ha : Ancestors root n l) (hb : IsBind n) :
    ∃ h' hb' bs r st dy, Reach root (.exprAttrs h' (.binds hb' bs) r st dy) ∧ n ∈ bs ∧
      l.find? isExpr = some (.exprAttrs h' (.binds hb' bs) r st dy) := by
  have hn : n.isExpr = false ∧ n.isNode = true := by
    cases n <;> simp only [IsBind] at hb <;> exact ⟨rfl, rfl⟩
  obtain ⟨q, l1, -, -, h1, hs, e1⟩ := above h ha hn.1 hn.2
  obtain ⟨h2, bs, rfl, hm⟩ := parent_bind hb hs
  obtain ⟨q, l2, -, hp, h2, hs, e2⟩ := above h h1 rfl rfl
  obtain ⟨h3, r, st, dy, rfl⟩ := parent_binds hs
  exact ⟨_, _, _, _, _, _, hp.1, hm, by rw [e1, e2, find_head h2 rfl]⟩

/-- What is above a path. -/
theorem above_path {hd : Hd} {ns ds : List Node} {l : List Node} (ha : Ancestors root (.attrPath hd ns ds) l) :
    ∃ e, Reach root e ∧ Owns e (.attrPath hd ns ds) ∧ l.find? isExpr = some e := by
  obtain ⟨q, l1, -, hp, h1, hs, e1⟩ := above h ha rfl rfl
  rcases parent_path hs with ⟨_, _, _, rfl⟩ | ⟨_, _, _, _, _, rfl⟩ | ⟨_, _, _, rfl⟩
  · obtain ⟨_, _, _, _, _, _, hr, hm, e⟩ := above_binding h h1 trivial
    exact ⟨_, hr, .set _ _ _ _ _ _ _ _ _ _ hm, by rw [e1, e]⟩
  · exact ⟨_, hp.1, .select .., by rw [e1, find_head h1 rfl]⟩
  · exact ⟨_, hp.1, .hasAttr .., by rw [e1, find_head h1 rfl]⟩

/-- How an expression is in the set that is the next expression above it. -/
theorem below_set {n q S : Node} {l : List Node} (hn : n.isExpr = true) (hns : ¬ IsString n) (hp : ParentOf root q n) (hl : Ancestors root q l)
    (hi : ∀ x ∈ l, isInherit x = false) (hf : l.find? isExpr = some S) (hS : IsSet S) : (∃ p, ValueOf root S p n) ∨ InName root S n := by
  have hnode := children_isNode hp.2.1
  by_cases hq : q.isExpr = true
  · rw [find_head hl hq] at hf
    cases hf
    obtain ⟨_, _, _, _, _, rfl⟩ := hS
    rcases parent_slot h hp with ⟨-, _, _, rfl⟩ | ⟨-, _, rfl⟩ <;> cases hn
  · have hq' : q.isExpr = false := by simpa using hq
    have hs := parent_slot h hp
    have hqn : q.isNode = true := by
      cases q <;> first | rfl | exact absurd hs id
    cases q
    case interpolation h' e =>
      obtain ⟨rfl, -⟩ := hs
      obtain ⟨q, l1, e0, hp1, h1, hs1, e1⟩ := above h hl rfl rfl
      rcases parent_interp hs1 with ⟨_, _, rfl⟩ | ⟨ha, rfl⟩
      · obtain ⟨q, l2, -, -, h2, hs2, e2⟩ := above h h1 rfl rfl
        rw [e1, e2] at hf
        rcases parent_parts hs2 with ⟨_, _, rfl⟩ | ⟨_, _, rfl⟩
        all_goals
          rw [find_head h2 rfl] at hf
          cases hf
          obtain ⟨_, _, _, _, _, e⟩ := hS
          cases e
      · obtain ⟨q, l2, e00, hp2, h2, hs2, e2⟩ := above h h1 rfl rfl
        rcases parent_name (n := .attrNameInterp _ _) trivial hs2 with ⟨hp, ns, ds, rfl, hm⟩ | ⟨_, _, _, rfl⟩
        · obtain ⟨E, hr, ho, e3⟩ := above_path h h2
          rw [e1, e2, e3] at hf
          cases hf
          obtain ⟨_, _, _, _, _, rfl⟩ := hS
          cases ho with
          | set _ hb bs _ _ _ hn' _ eq v hmem =>
            exact .inr ⟨hr, hnode, _, _, _, _, _, _, _, _, _, _, _, _, _, _, rfl, hmem, hm⟩
        · obtain ⟨l3, rfl⟩ := anc_head h2
          have := hi (.inherit _ _ _) (by rw [e0, e00]; exact .tail _ (.tail _ (.head _)))
          cases this
    case attrNameString => exact absurd hs.2 hns
    case binding hb p eq v =>
      rcases hs with ⟨-, _, _, _, rfl⟩ | ⟨_, rfl⟩ | ⟨rfl, -⟩
      · cases hn
      · cases hn
      · obtain ⟨_, _, _, _, _, _, hr, hm, e⟩ := above_binding h hl trivial
        rw [e] at hf
        cases hf
        exact .inl ⟨p, hr, hnode, _, _, _, _, _, _, _, _, rfl, hm⟩
    case inherit =>
      obtain ⟨l3, rfl⟩ := anc_head hl
      have := hi (.inherit _ _ _) (.head _)
      cases this
    case formal =>
      obtain ⟨q, l1, -, -, h1, hs, e1⟩ := above h hl rfl rfl
      obtain ⟨_, _, rfl⟩ := parent_formal hs
      obtain ⟨q, l2, -, -, h2, hs, e2⟩ := above h h1 rfl rfl
      obtain ⟨_, _, _, rfl⟩ := parent_formals hs
      obtain ⟨q, l3, -, -, h3, hs, e3⟩ := above h h2 rfl rfl
      obtain ⟨_, _, rfl⟩ := parent_arg hs
      rw [e1, e2, e3, find_head h3 rfl] at hf
      cases hf
      obtain ⟨_, _, _, _, _, e⟩ := hS
      cases e
    all_goals first
      | (cases hq'; done)
      | exact absurd hs id
      | (exfalso
         cases n <;> first
           | (cases hn; done)
           | simp [Slot, Grammar.IsIdent, IsName, IsBind, IsFormal, IsFormals, IsInterp] at hs)


/-- The result for the names on the way. -/
def texts (path : List Bytes) (l : List Node) : Except Stop (List Bytes) :=
  match l.mapM textOf with
  | some xs => .ok (path ++ xs)
  | none => .error .dynamic

omit h in
theorem texts_append {path : List Bytes} {l l' : List Node} : (texts path l >>= fun p => texts p l') = texts path (l ++ l') := by
  unfold texts
  rw [List.mapM_append]
  cases l.mapM textOf with
  | none => rfl
  | some xs =>
    cases l'.mapM textOf with
    | none => rfl
    | some ys => simp [bind, Except.bind, pure]

theorem static_text {n : Node} (hr : Reach root n) (hn : IsName n) : n.staticName? = textOf n := by
  have hf := at_fits h hr
  cases n <;> simp only [IsName] at hn
  · obtain ⟨_, _, rfl⟩ := hf
    rfl
  · rename_i hd s
    obtain ⟨h', p, rfl⟩ := hf
    have hp := at_fits h (reach_child hr (show Node.exprString h' p ∈ _ from List.mem_filter.mpr ⟨.head _, rfl⟩))
    obtain ⟨_, fs, rfl⟩ := hp
    unfold staticName? textOf literal?
    split <;> split <;> simp_all
  · rfl

omit h in
theorem select_loop {k : Node} {post : List Node} : ∀ {pre : List Node} {path : List Bytes},
    (pre ++ k :: post).Pairwise (fun a b => a.isNode = true → b.isNode = true → a.id ≠ b.id) → (∀ x ∈ pre ++ k :: post, x.isNode = true) →
    (∀ x ∈ pre ++ k :: post, x.staticName? = textOf x) → selectLoop k (pre ++ k :: post) path = texts path (pre ++ [k]) := by
  intro pre
  induction pre with
  | nil =>
    intro path hd hn ht
    simp only [List.nil_append, selectLoop, texts, ht k (.head _)]
    rw [List.mapM_cons]
    cases textOf k <;> simp
  | cons x pre ih =>
    intro path hd hn ht
    simp only [List.cons_append, selectLoop, texts, ht x (.head _), List.mapM_cons]
    cases hx : textOf x with
    | none => simp
    | some name =>
      rw [List.cons_append, List.pairwise_cons] at hd
      have hne : (x.id == k.id) = false := by
        rw [beq_eq_false_iff_ne]
        exact hd.1 k (by simp) (hn x (.head _)) (hn k (by simp))
      simp only [hne, Bool.false_eq_true, if_false]
      rw [ih hd.2 (fun y hy => hn y (.tail _ hy)) (fun y hy => ht y (.tail _ hy))]
      unfold texts
      cases (pre ++ [k]).mapM textOf <;> simp [bind, pure]

omit h in
theorem name_not_misc {n : Node} (hn : IsName n) : ¬ IsMisc n := by
  rintro ⟨_, rfl⟩
  exact hn

omit h in
theorem name_node {n : Node} (hn : IsName n) : n.isNode = true := by
  cases n <;> first | rfl | exact absurd hn id

omit h in
theorem expr_node {n : Node} (hn : n.isExpr = true) : n.isNode = true := by
  cases n <;> first | rfl | cases hn

/-- Selecting a name of a path. -/
theorem select_ok {hp : Hd} {pre post ds : List Node} {k : Node} (hr : Reach root (.attrPath hp (pre ++ k :: post) ds)) (path : List Bytes) :
    selectPath (runPM root) k path = texts path (pre ++ [k]) := by
  have hf := at_fits h hr
  have hch : ∀ x ∈ pre ++ k :: post, x ∈ (Node.attrPath hp (pre ++ k :: post) ds).children := fun x hx =>
    List.mem_filter.mpr ⟨List.mem_append_left _ hx, name_node (hf.2.1 x hx)⟩
  have hk := hch k (by simp)
  have hq := (C26_parent h k _ (reach_child hr hk) (child_ne hr hk)).mpr (parent_mk h hr hk (name_not_misc (hf.2.1 k (by simp))))
  unfold selectPath
  rw [hq]
  exact select_loop ((parse_ids h).up.2 _ hr) (fun x hx => name_node (hf.2.1 x hx))
    fun x hx => static_text h (reach_child hr (hch x hx)) (hf.2.1 x hx)

/-- The binding of a value is found. -/
theorem find_value {hb : Hd} {bs0 : List Node} (hr : Reach root (.binds hb bs0)) {hn : Hd} {p eq n : Node} (hnode : n.isNode = true) :
    ∀ bs, (∀ x ∈ bs, x ∈ bs0) → .binding hn p eq n ∈ bs → findValue n bs = some (.ok p) := by
  have hf := at_fits h hr
  have hch : ∀ x ∈ bs0, x ∈ (Node.binds hb bs0).children := fun x hx => by
    refine List.mem_filter.mpr ⟨hx, ?_⟩
    have := hf.2 x hx
    cases x <;> first | rfl | exact absurd this id
  intro bs
  induction bs with
  | nil => intro _ hm; cases hm
  | cons b bs ih =>
    intro hsub hm
    have hb := hf.2 b (hsub b (.head _))
    cases b <;> simp only [IsBind] at hb
    · rename_i hd' p' eq' v'
      unfold findValue
      split
      · rename_i hc
        simp only [Bool.and_eq_true, Bool.not_eq_true', beq_iff_eq] at hc
        have hrb : Reach root (.binding hd' p' eq' v') := reach_child hr (hch _ (hsub _ (.head _)))
        have hrb' : Reach root (.binding hn p eq n) := reach_child hr (hch _ (hsub _ hm))
        have hv : v' ∈ (Node.binding hd' p' eq' v').children :=
          List.mem_filter.mpr ⟨.tail _ (.tail _ (.head _)), expr_node ((at_fits h hrb).2.2.resolve_left fun e => by rw [e] at hc; cases hc.1)⟩
        have hv' : n ∈ (Node.binding hn p eq n).children := List.mem_filter.mpr ⟨.tail _ (.tail _ (.head _)), hnode⟩
        have e := (parse_ids h).cinj _ _ (reach_child hrb hv) (reach_child hrb' hv') hc.2
        subst e
        obtain ⟨q, -, hq⟩ := C26_unique h v' (reach_child hrb hv) (child_ne hrb hv)
        have e1 := hq _ (⟨hrb, hv, fun q _ hk => by obtain ⟨_, _, _, _, e, -⟩ := hk; cases e⟩)
        have e2 := hq _ (⟨hrb', hv', fun q _ hk => by obtain ⟨_, _, _, _, e, -⟩ := hk; cases e⟩)
        rw [← e2] at e1
        cases e1
        rfl
      · rename_i hc
        cases hm with
        | head =>
          exfalso
          apply hc
          cases n <;> first | (cases hnode; done) | simp [isNull]
        | tail _ hm => exact ih (fun x hx => hsub x (.tail _ hx)) hm
    · unfold findValue
      cases hm with
      | tail _ hm => exact ih (fun x hx => hsub x (.tail _ hx)) hm

omit h in
theorem ancestors_tail {n : Node} {l : List Node} (ha : Ancestors root n l) (hne : n ≠ root) :
    ∃ q l', l = n :: l' ∧ ParentOf root q n ∧ Ancestors root q l' := by
  cases ha with
  | root => exact absurd rfl hne
  | child p _ l' hp hl => exact ⟨p, l', rfl, hp, hl⟩

/-- The path of a value. -/
theorem value_ok {n : Node} {l : List Node} (hl : Nested root n l) : ∀ {a : List Node}, Ancestors root n a → (∀ x ∈ a, isInherit x = false) →
    n.isExpr = true → ¬ IsString n → ∀ (fuel : Nat) (path : List Bytes), 2 * sizeOf root < fuel + sizeOf n →
    valuePath (runPM root) fuel n path = texts path l := by
  induction hl with
  | top n hv hin =>
    intro a ha hi hn hns fuel path hfuel
    have hr := anc_reach ha
    have hsz := reach_size hr
    cases fuel with
    | zero => omega
    | succ k =>
      have hnil : texts path [] = .ok path := by simp [texts, pure]
      unfold valuePath
      by_cases hroot : n = root
      · rw [if_pos ((C26_isRoot h n hr).mpr hroot), hnil]
      · rw [if_neg (fun e => hroot ((C26_isRoot h n hr).mp e))]
        obtain ⟨q, l', rfl, hp, hl'⟩ := ancestors_tail ha hroot
        rw [(C26_parent h n q hr hroot).mpr hp]
        simp only [PMap.upExpr]
        rw [up_eq h hl' hp.1 isExpr (by omega)]
        cases hf : l'.find? isExpr with
        | none => exact hnil.symm
        | some S =>
          by_cases hS : IsSet S
          · rcases below_set h hn hns hp hl' (fun x hx => hi x (.tail _ hx)) hf hS with ⟨p, hv'⟩ | hin'
            · exact absurd hv' (hv S p)
            · exact absurd hin' (hin S)
          · rw [hnil]
            cases S <;> first | rfl | exact absurd ⟨_, _, _, _, _, rfl⟩ hS
  | value n S p l hv hnest ih =>
    intro a ha hi hn hns fuel path hfuel
    obtain ⟨hrS, hnode, h', hb, bs, r, st, dy, hn', eq, rfl, hm⟩ := hv
    have hb1 : Node.binds hb bs ∈ (Node.exprAttrs h' (.binds hb bs) r st dy).children := List.mem_filter.mpr ⟨.head _, rfl⟩
    have hp1 := parent_mk h hrS hb1 (by rintro ⟨_, e⟩; cases e)
    have hr1 := reach_child hrS hb1
    have hb2 : Node.binding hn' p eq n ∈ (Node.binds hb bs).children := List.mem_filter.mpr ⟨hm, rfl⟩
    have hp2 := parent_mk h hr1 hb2 (by rintro ⟨_, e⟩; cases e)
    have hr2 := reach_child hr1 hb2
    have hb3 : n ∈ (Node.binding hn' p eq n).children := List.mem_filter.mpr ⟨.tail _ (.tail _ (.head _)), hnode⟩
    have hp3 := parent_mk h hr2 hb3 (by rintro ⟨_, rfl⟩; cases hn)
    have hr := reach_child hr2 hb3
    have hroot : n ≠ root := child_ne hr2 hb3
    obtain ⟨aS, haS⟩ := ancestors_ex h hrS
    have hanc : Ancestors root (.binding hn' p eq n) (.binding hn' p eq n :: .binds hb bs :: aS) :=
      .child _ _ _ hp2 (.child _ _ _ hp1 haS)
    have ea := anc_unique h ha (.child _ _ _ hp3 hanc)
    subst ea
    have hs1 := children_size hb1
    have hs2 := children_size hb2
    have hs3 := children_size hb3
    have hsz := reach_size hrS
    cases fuel with
    | zero => omega
    | succ k =>
      unfold valuePath
      rw [if_neg (fun e => hroot ((C26_isRoot h n hr).mp e)), (C26_parent h n _ hr hroot).mpr hp3]
      simp only [PMap.upExpr]
      rw [up_eq h hanc hr2 isExpr (by omega)]
      have hfind : (Node.binding hn' p eq n :: Node.binds hb bs :: aS).find? isExpr = some (.exprAttrs h' (.binds hb bs) r st dy) := by
        rw [List.find?_cons_of_neg (by simp [isExpr]), List.find?_cons_of_neg (by simp [isExpr]), find_head haS rfl]
      rw [hfind]
      have hrec := ih haS (fun x hx => hi x (.tail _ (.tail _ (.tail _ hx)))) rfl (by rintro ⟨_, _, e⟩; cases e) k path (by omega)
      obtain ⟨⟨hp, ns, ds, rfl⟩, -⟩ := at_fits h hr2
      have hb4 : Node.attrPath hp ns ds ∈ (Node.binding hn' (.attrPath hp ns ds) eq n).children := List.mem_filter.mpr ⟨.head _, rfl⟩
      have hr4 := reach_child hr2 hb4
      have hne := (at_fits h hr4).1
      rw [← List.dropLast_concat_getLast hne] at hr4
      have hsel : ∀ path', selectPath (runPM root) (ns.getLast hne) path' = texts path' ns := fun path' => by
        rw [select_ok h hr4 path', List.dropLast_concat_getLast]
      simp only [find_value h hr1 hnode bs (fun _ hx => hx) hm, lastName, List.getLast?_eq_some_getLast hne, namesOf, hsel]
      rw [← texts_append, ← hrec]
      split
      · rename_i hroot'
        cases k with
        | zero => omega
        | succ k => unfold valuePath; rw [if_pos hroot']
      · rfl

omit h in
theorem ancestors_mem {n : Node} {a : List Node} (ha : Ancestors root n a) : ∀ x ∈ a, ∃ a', Ancestors root x a' ∧ ∀ y ∈ a', y ∈ a := by
  induction ha with
  | root =>
    intro x hx
    cases hx with
    | head => exact ⟨_, .root, fun _ hy => hy⟩
    | tail _ hx => cases hx
  | child p c l hp hl ih =>
    intro x hx
    cases hx with
    | head => exact ⟨_, .child _ _ _ hp hl, fun _ hy => hy⟩
    | tail _ hx =>
      obtain ⟨a', h1, h2⟩ := ih x hx
      exact ⟨a', h1, fun y hy => .tail _ (h2 y hy)⟩

/-- The way up from a path. -/
theorem owns_up {E : Node} {hp : Hd} {ns ds aE : List Node} (ho : Owns E (.attrPath hp ns ds)) (hE : Ancestors root E aE) :
    ∃ b, Ancestors root (.attrPath hp ns ds) b ∧ b.find? isExpr = some E ∧ ∀ x ∈ aE, x ∈ b := by
  have hr := anc_reach hE
  cases ho with
  | set h' hb bs r st dy hn _ eq v hm =>
    have hb1 : Node.binds hb bs ∈ (Node.exprAttrs h' (.binds hb bs) r st dy).children := List.mem_filter.mpr ⟨.head _, rfl⟩
    have hp1 := parent_mk h hr hb1 (by rintro ⟨_, e⟩; cases e)
    have hb2 : Node.binding hn (.attrPath hp ns ds) eq v ∈ (Node.binds hb bs).children := List.mem_filter.mpr ⟨hm, rfl⟩
    have hp2 := parent_mk h (reach_child hr hb1) hb2 (by rintro ⟨_, e⟩; cases e)
    have hb3 : Node.attrPath hp ns ds ∈ (Node.binding hn (.attrPath hp ns ds) eq v).children := List.mem_filter.mpr ⟨.head _, rfl⟩
    have hp3 := parent_mk h (reach_child (reach_child hr hb1) hb2) hb3 (by rintro ⟨_, e⟩; cases e)
    refine ⟨_, .child _ _ _ hp3 (.child _ _ _ hp2 (.child _ _ _ hp1 hE)), ?_, fun x hx => .tail _ (.tail _ (.tail _ hx))⟩
    rw [List.find?_cons_of_neg (by simp [isExpr]), List.find?_cons_of_neg (by simp [isExpr]), List.find?_cons_of_neg (by simp [isExpr]),
      find_head hE rfl]
  | select h' e d _ f x =>
    have hb3 : Node.attrPath hp ns ds ∈ (Node.exprSelect h' e d (.attrPath hp ns ds) f x).children :=
      List.mem_filter.mpr ⟨.tail _ (.head _), rfl⟩
    have hp3 := parent_mk h hr hb3 (by rintro ⟨_, e⟩; cases e)
    refine ⟨_, .child _ _ _ hp3 hE, ?_, fun x hx => .tail _ hx⟩
    rw [List.find?_cons_of_neg (by simp [isExpr]), find_head hE rfl]
  | hasAttr h' o e _ =>
    have hb3 : Node.attrPath hp ns ds ∈ (Node.exprOpHasAttr h' o e (.attrPath hp ns ds)).children :=
      List.mem_filter.mpr ⟨.tail _ (.head _), rfl⟩
    have hp3 := parent_mk h hr hb3 (by rintro ⟨_, e⟩; cases e)
    refine ⟨_, .child _ _ _ hp3 hE, ?_, fun x hx => .tail _ hx⟩
    rw [List.find?_cons_of_neg (by simp [isExpr]), find_head hE rfl]

omit h in
theorem owns_expr {E P : Node} (ho : Owns E P) : E.isExpr = true ∧ ¬ IsString E := by
  cases ho <;> exact ⟨rfl, by rintro ⟨_, _, e⟩; cases e⟩

/-- The names up to a name of a path, after those of the place where the path is. -/
theorem nested_ok {E P k : Node} {l pre post ak : List Node} (hE : Reach root E) (ho : Owns E P) (hP : namesOf P = pre ++ k :: post)
    (hk : Ancestors root k ak) (hi : ∀ x ∈ ak, isInherit x = false) (hl : Nested root E l) (fuel : Nat) (hf : 2 * sizeOf root < fuel) :
    nestedPath (runPM root) fuel k [] = texts [] (l ++ pre ++ [k]) := by
  obtain ⟨hp, ns, ds, rfl⟩ : IsPath P := by
    cases P <;> first | exact ⟨_, _, _, rfl⟩ | simp [namesOf] at hP
  cases (show ns = _ from hP)
  obtain ⟨aE, haE⟩ := ancestors_ex h hE
  obtain ⟨b, hb, hfind, hsub⟩ := owns_up h ho haE
  have hrP := anc_reach hb
  have hname := (at_fits h hrP).2.1 k (by simp)
  have hch : k ∈ (Node.attrPath hp (pre ++ k :: post) ds).children :=
    List.mem_filter.mpr ⟨List.mem_append_left _ (by simp), name_node hname⟩
  have hpk := parent_mk h hrP hch (name_not_misc hname)
  have e := anc_unique h hk (.child _ _ _ hpk hb)
  subst e
  obtain ⟨hx, hs⟩ := owns_expr ho
  have hkE : k.isExpr = false := by cases k <;> first | rfl | exact absurd hname id
  unfold nestedPath
  simp only [PMap.upExpr]
  rw [up_eq h hk (reach_child hrP hch) isExpr (by omega), List.find?_cons_of_neg (by simp [hkE]), hfind]
  simp only
  rw [value_ok h hl haE (fun x hx => hi x (.tail _ (hsub x hx))) hx hs fuel [] (by omega)]
  rw [List.append_assoc, ← texts_append]
  congr 1
  funext path
  exact select_ok h hrP path

/-- The answer for a list of names: their texts, or refusal if one of them is dynamic. -/
def answer (l : List Node) (more : List Bytes) : Found × List Bytes :=
  match l.mapM textOf with
  | some xs => (.ok, xs ++ more)
  | none => (.withDynamic, [])

omit h in
theorem catch_texts (l : List Node) : catchDynamic (texts [] l) = .ok (answer l []) := by
  unfold texts answer
  cases l.mapM textOf <;> simp [catchDynamic]

omit h in
theorem catch_texts' (l : List Node) : catchDynamic ((texts [] l).map (· ++ [[]])) = .ok (answer l [[]]) := by
  unfold texts answer
  cases l.mapM textOf <;> simp [catchDynamic, Except.map]

theorem no_inherit {n : Node} {a : List Node} (ha : Ancestors root n a) (hi : ∀ x ∈ a, isInherit x = false) {fuel : Nat} (hf : sizeOf root ≤ fuel) :
    (runPM root).upTo isInherit fuel n = some none := by
  rw [up_eq h ha (anc_reach ha) isInherit hf, List.find?_eq_none.mpr (fun x hx => by simp [hi x hx])]

omit h in
theorem anc_of_find {n x : Node} {a : List Node} {kind : Node → Bool} (ha : Ancestors root n a) (hk : a.find? kind = some x) :
    ∃ a', Ancestors root x a' ∧ ∀ y ∈ a', y ∈ a :=
  ancestors_mem ha x (List.mem_of_find?_eq_some hk)

/-- At an attribute name: the names of the bindings the path of the name is nested in, from the outermost set, then the names of the path
up to the name at the cursor. -/
theorem C45_name {n E P k : Node} {a l pre post : List Node} (ha : Ancestors root n a) (hi : ∀ x ∈ a, isInherit x = false)
    (hk : a.find? isName = some k) (hE : Reach root E) (ho : Owns E P) (hP : namesOf P = pre ++ k :: post) (hl : Nested root E l)
    (fuel : Nat) (hf : 2 * sizeOf root < fuel) : findAttrPath (runPM root) fuel n = .ok (answer (l ++ pre ++ [k]) []) := by
  obtain ⟨ak, hak, hsub⟩ := anc_of_find ha hk
  unfold findAttrPath
  rw [no_inherit h ha hi (by omega), up_eq h ha (anc_reach ha) isName (by omega), hk]
  simp only
  rw [nested_ok h hE ho hP hak (fun x hx => hi x (hsub x hx)) hl fuel hf, catch_texts]

/-- In an `inherit`: refused. -/
theorem C45_inherit {n x : Node} {a : List Node} (ha : Ancestors root n a) (hx : x ∈ a) (hi : isInherit x = true)
    (fuel : Nat) (hf : sizeOf root ≤ fuel) : findAttrPath (runPM root) fuel n = .ok (.inherit_, []) := by
  unfold findAttrPath
  rw [up_eq h ha (anc_reach ha) isInherit hf]
  cases hfd : a.find? isInherit with
  | none => exact absurd hi (List.find?_eq_none.mp hfd x hx)
  | some y => rfl

/-- At a dot after the name `k`, which is in no other name: as for `k`, then the empty name. -/
theorem C45_dot {E k : Node} {hp hd : Hd} {nx : Option Nat} {a l pre post ds : List Node} (ha : Ancestors root (.dot hd k.id nx) a)
    (hi : ∀ x ∈ a, isInherit x = false) (hk : a.find? isName = none) (hE : Reach root E)
    (ho : Owns E (.attrPath hp (pre ++ k :: post) ds)) (hd' : .dot hd k.id nx ∈ ds) (hl : Nested root E l)
    (fuel : Nat) (hf : 2 * sizeOf root < fuel) : findAttrPath (runPM root) fuel (.dot hd k.id nx) = .ok (answer (l ++ pre ++ [k]) [[]]) := by
  obtain ⟨aE, haE⟩ := ancestors_ex h hE
  obtain ⟨b, hb, -, -⟩ := owns_up h ho haE
  have hrP := anc_reach hb
  have hch : Node.dot hd k.id nx ∈ (Node.attrPath hp (pre ++ k :: post) ds).children := List.mem_filter.mpr ⟨List.mem_append_right _ hd', rfl⟩
  have hpd := parent_mk h hrP hch (by rintro ⟨_, e⟩; cases e)
  have e := anc_unique h ha (.child _ _ _ hpd hb)
  subst e
  have hname := (at_fits h hrP).2.1 k (by simp)
  have hchk : k ∈ (Node.attrPath hp (pre ++ k :: post) ds).children :=
    List.mem_filter.mpr ⟨List.mem_append_left _ (by simp), name_node hname⟩
  have hpk := parent_mk h hrP hchk (name_not_misc hname)
  have hq := (C26_parent h _ _ (reach_child hrP hch) (child_ne hrP hch)).mpr hpd
  have hki : isInherit k = false := by cases k <;> first | rfl | exact absurd hname id
  have hprev : (pre ++ k :: post).find? (fun x => x.id == k.id) = some k := by
    cases hfd : (pre ++ k :: post).find? (fun x => x.id == k.id) with
    | none => exact absurd (beq_self_eq_true _) (List.find?_eq_none.mp hfd k (by simp))
    | some y =>
      have hy := List.find?_some hfd
      have hym := List.mem_of_find?_eq_some hfd
      have hyn := (at_fits h hrP).2.1 y hym
      exact congrArg some ((parse_ids h).cinj _ _
        (reach_child hrP (List.mem_filter.mpr ⟨List.mem_append_left _ hym, name_node hyn⟩)) (reach_child hrP hchk) (by simpa using hy))
  unfold findAttrPath
  rw [no_inherit h ha hi (by omega), up_eq h ha (anc_reach ha) isName (by omega), hk, up_eq h ha (anc_reach ha) isDot (by omega)]
  simp only [List.find?_cons, isDot, dotPrev, hq, hprev]
  rw [nested_ok h hE ho rfl (.child _ _ _ hpk hb) (fun x hx => by
    cases hx with
    | head => exact hki
    | tail _ hx => exact hi x (.tail _ hx)) hl fuel hf, catch_texts']

/-- Elsewhere in a set: the names the set is nested in, then the empty name. -/
theorem C45_set {n S : Node} {a l : List Node} (ha : Ancestors root n a) (hi : ∀ x ∈ a, isInherit x = false) (hk : a.find? isName = none)
    (hd : a.find? isDot = none) (hS : a.find? isExpr = some S) (hS' : IsSet S) (hl : Nested root S l)
    (fuel : Nat) (hf : 2 * sizeOf root < fuel) : findAttrPath (runPM root) fuel n = .ok (answer l [[]]) := by
  obtain ⟨aS, haS, hsub⟩ := anc_of_find ha hS
  obtain ⟨_, _, _, _, _, rfl⟩ := hS'
  unfold findAttrPath
  simp only [PMap.upExpr]
  rw [no_inherit h ha hi (by omega), up_eq h ha (anc_reach ha) isName (by omega), hk, up_eq h ha (anc_reach ha) isDot (by omega),
    hd, up_eq h ha (anc_reach ha) isExpr (by omega), hS]
  simp only
  rw [value_ok h hl haS (fun x hx => hi x (hsub x hx)) rfl (by rintro ⟨_, _, e⟩; cases e) fuel [] (by omega), catch_texts']

/-- In other expressions: no path. -/
theorem C45_elsewhere {n : Node} {a : List Node} (ha : Ancestors root n a) (hi : ∀ x ∈ a, isInherit x = false) (hk : a.find? isName = none)
    (hd : a.find? isDot = none) (hS : ∀ S, a.find? isExpr = some S → ¬ IsSet S)
    (fuel : Nat) (hf : 2 * sizeOf root < fuel) : findAttrPath (runPM root) fuel n = .ok (.notAttrPath, []) := by
  unfold findAttrPath
  simp only [PMap.upExpr]
  rw [no_inherit h ha hi (by omega), up_eq h ha (anc_reach ha) isName (by omega), hk, up_eq h ha (anc_reach ha) isDot (by omega),
    hd, up_eq h ha (anc_reach ha) isExpr (by omega)]
  cases hfd : a.find? isExpr with
  | none => rfl
  | some S => cases S <;> first | rfl | exact absurd ⟨_, _, _, _, _, rfl⟩ (hS _ hfd)

omit h in
/-- A dot is above nothing. -/
theorem dot_leaf {p c : Node} {l : List Node} (hl : Ancestors root p l) (hp : ParentOf root p c) {hd : Hd} {x : Nat} {y : Option Nat} :
    .dot hd x y ∉ l := by
  induction hl generalizing c with
  | root =>
    intro hm
    simp only [List.mem_singleton] at hm
    rw [← hm] at hp
    cases hp.2.1
  | child q p l hq hl ih =>
    intro hm
    cases hm with
    | head => cases hp.2.1
    | tail _ hm => exact ih hq hm

/-- Every attribute name outside of `inherit` is in the path of a set, a selection or a test. -/
theorem C45_owner {k : Node} {a : List Node} (ha : Ancestors root k a) (hk : IsName k) (hi : ∀ x ∈ a, isInherit x = false) :
    ∃ E P pre post, Reach root E ∧ Owns E P ∧ namesOf P = pre ++ k :: post ∧ E ∈ a := by
  obtain ⟨q, l', rfl, hp, hl, hs, -⟩ := above h ha (by cases k <;> first | rfl | exact absurd hk id) (name_node hk)
  rcases parent_name hk hs with ⟨hp', ns, ds, rfl, hm⟩ | ⟨_, _, _, rfl⟩
  · obtain ⟨E, hr, ho, hfd⟩ := above_path h hl
    obtain ⟨pre, post, rfl⟩ := List.append_of_mem hm
    exact ⟨E, _, pre, post, hr, ho, rfl, .tail _ (List.mem_of_find?_eq_some hfd)⟩
  · obtain ⟨l2, rfl⟩ := anc_head hl
    have := hi (.inherit _ _ _) (.tail _ (.head _))
    cases this

/-- Every expression has a place, unless something around it is the expression of a name of a binding. -/
theorem C45_place (N : Nat) : ∀ {n : Node} {a : List Node}, sizeOf root < sizeOf n + N → Ancestors root n a → (∀ x ∈ a, isInherit x = false) →
    (∀ x ∈ a, ∀ S, ¬ InName root S x) → ∃ l, Nested root n l := by
  induction N with
  | zero =>
    intro n a hN ha
    have := reach_size (anc_reach ha)
    omega
  | succ N ih =>
    intro n a hN ha hi hin
    by_cases hv : ∃ S p, ValueOf root S p n
    · obtain ⟨S, p, hv⟩ := hv
      have hv0 := hv
      obtain ⟨hrS, hnode, h', hb, bs, r, st, dy, hn', eq, rfl, hm⟩ := hv
      have hb1 : Node.binds hb bs ∈ (Node.exprAttrs h' (.binds hb bs) r st dy).children := List.mem_filter.mpr ⟨.head _, rfl⟩
      have hp1 := parent_mk h hrS hb1 (by rintro ⟨_, e⟩; cases e)
      have hr1 := reach_child hrS hb1
      have hb2 : Node.binding hn' p eq n ∈ (Node.binds hb bs).children := List.mem_filter.mpr ⟨hm, rfl⟩
      have hp2 := parent_mk h hr1 hb2 (by rintro ⟨_, e⟩; cases e)
      have hr2 := reach_child hr1 hb2
      have hb3 : n ∈ (Node.binding hn' p eq n).children := List.mem_filter.mpr ⟨.tail _ (.tail _ (.head _)), hnode⟩
      have hp3 : ParentOf root _ n := ⟨hr2, hb3, fun q _ hk => by obtain ⟨_, _, _, _, e, -⟩ := hk; cases e⟩
      obtain ⟨aS, haS⟩ := ancestors_ex h hrS
      have e := anc_unique h ha (.child _ _ _ hp3 (.child _ _ _ hp2 (.child _ _ _ hp1 haS)))
      subst e
      have hs1 := children_size hb1
      have hs2 := children_size hb2
      have hs3 := children_size hb3
      obtain ⟨l, hl⟩ := ih (by omega) haS (fun x hx => hi x (.tail _ (.tail _ (.tail _ hx)))) fun x hx => hin x (.tail _ (.tail _ (.tail _ hx)))
      exact ⟨_, .value _ _ _ _ hv0 hl⟩
    · obtain ⟨l2, rfl⟩ := anc_head ha
      exact ⟨[], .top _ (fun S p hv' => hv ⟨S, p, hv'⟩) (hin n (.head _))⟩

/-- A path is found or refused, without a failed assertion, unless the cursor is in the expression of a name of a binding. -/
theorem C45_total {n : Node} {a : List Node} (ha : Ancestors root n a) (hin : ∀ x ∈ a, ∀ S, ¬ InName root S x) (fuel : Nat)
    (hf : 2 * sizeOf root < fuel) : ∃ r, findAttrPath (runPM root) fuel n = .ok r := by
  by_cases hi : ∀ x ∈ a, isInherit x = false
  · cases hk : a.find? isName with
    | some k =>
      have hk' : IsName k := by
        have := List.find?_some hk
        cases k <;> first | trivial | cases this
      obtain ⟨ak, hak, hsub⟩ := anc_of_find ha hk
      obtain ⟨E, P, pre, post, hE, ho, hP, hEm⟩ := C45_owner h hak hk' fun x hx => hi x (hsub x hx)
      obtain ⟨aE, haE, hsubE⟩ := ancestors_mem hak E hEm
      obtain ⟨l, hl⟩ := C45_place h (sizeOf root + 1) (by omega) haE (fun x hx => hi x (hsub x (hsubE x hx)))
        fun x hx => hin x (hsub x (hsubE x hx))
      exact ⟨_, C45_name h ha hi hk hE ho hP hl fuel hf⟩
    | none =>
      cases hd : a.find? isDot with
      | some d =>
        obtain ⟨ad, had, hsub⟩ := anc_of_find ha hd
        obtain ⟨hdd, prev, nx, rfl⟩ : ∃ h p q, d = .dot h p q := by
          have := List.find?_some hd
          cases d <;> first | exact ⟨_, _, _, rfl⟩ | cases this
        obtain ⟨q, l', e, hp, hl, hs, -⟩ := above h had rfl rfl
        obtain ⟨hp', ns, ds, rfl, hm⟩ : ∃ h ns ds, q = .attrPath h ns ds ∧ .dot hdd prev nx ∈ ds := by
          cases q <;> slots hs
          exact ⟨_, _, _, rfl, hs.1⟩
        obtain ⟨_, _, _, e', k, hkm, hkid⟩ := (at_fits h hp.1).2.2 _ hm
        cases e'
        obtain ⟨pre, post, rfl⟩ := List.append_of_mem hkm
        obtain ⟨E, hE, ho, hfd⟩ := above_path h hl
        obtain ⟨aE, haE, hsubE⟩ := anc_of_find hl hfd
        have hsub' : ∀ x ∈ aE, x ∈ a := fun x hx => hsub x (by rw [e]; exact .tail _ (hsubE x hx))
        obtain ⟨l, hl⟩ := C45_place h (sizeOf root + 1) (by omega) haE (fun x hx => hi x (hsub' x hx))
          fun x hx => hin x (hsub' x hx)
        have hleaf : Ancestors root (.dot hdd prev nx) a := by
          have : n = .dot hdd prev nx := by
            have hmem := List.mem_of_find?_eq_some hd
            clear hd hk
            cases ha with
            | root =>
              cases hmem with
              | head => rfl
              | tail _ hmem => cases hmem
            | child p _ l2 hp2 hl2 =>
              cases hmem with
              | head => rfl
              | tail _ hmem => 
                exfalso
                exact dot_leaf hl2 hp2 hmem
          rw [← this]; exact ha
        subst hkid
        have : n = .dot hdd k.id nx := by
          obtain ⟨a1, ea⟩ := anc_head ha
          obtain ⟨a2, eb⟩ := anc_head hleaf
          rw [ea] at eb
          exact (List.cons.inj eb).1
        subst this
        exact ⟨_, C45_dot h ha hi hk hE ho hm hl fuel hf⟩
      | none =>
        by_cases hS : ∃ S, a.find? isExpr = some S ∧ IsSet S
        · obtain ⟨S, hS, hS'⟩ := hS
          obtain ⟨aS, haS, hsub⟩ := anc_of_find ha hS
          obtain ⟨l, hl⟩ := C45_place h (sizeOf root + 1) (by omega) haS (fun x hx => hi x (hsub x hx)) fun x hx => hin x (hsub x hx)
          exact ⟨_, C45_set h ha hi hk hd hS hS' hl fuel hf⟩
        · exact ⟨_, C45_elsewhere h ha hi hk hd (fun S h1 h2 => hS ⟨S, h1, h2⟩) fuel hf⟩
  · have : ∃ x ∈ a, isInherit x = true := by
      apply Classical.byContradiction
      intro hc
      exact hi fun x hx => by
        cases hb : isInherit x with
        | false => rfl
        | true => exact absurd ⟨x, hx, hb⟩ hc
    obtain ⟨x, hx, hxi⟩ := this
    exact ⟨_, C45_inherit h ha hx hxi fuel (by omega)⟩

omit h in
/-- For options, one leading `config` is left out. -/
theorem C45_options (m : PMap) (fuel : Nat) (n : Node) :
    (∀ p, findAttrPath m fuel n = .ok (.ok, b!"config" :: p) → forOptions m fuel n = .ok (.ok, p)) ∧
    (∀ p, findAttrPath m fuel n = .ok (.ok, p) → p.head? ≠ some b!"config" → forOptions m fuel n = .ok (.ok, p)) ∧
    ∀ r, (∀ p, r ≠ .ok (.ok, p)) → findAttrPath m fuel n = r → forOptions m fuel n = r := by
  refine ⟨fun p hp => ?_, fun p hp hc => ?_, fun r hr he => ?_⟩
  · simp [forOptions, hp]
  · simp only [forOptions, hp]
    cases p with
    | nil => rfl
    | cons x xs =>
      simp only [List.head?_cons, ne_eq, Option.some.injEq] at hc
      simp [hc]
  · subst he
    unfold forOptions
    split
    · rename_i p hp
      exact absurd hp (hr p)
    · rfl

end

/-- The path at a cursor. -/
noncomputable def attrPathAt (src : Bytes) (line col : Nat) : Option (Except Stop (Found × List Bytes)) :=
  (parse src).bind fun r => (r.1.descend ⟨⟨line, col⟩, ⟨line, col⟩⟩).map (findAttrPath (runPM r.1) (3 * sizeOf r.1))

noncomputable def optionPathAt (src : Bytes) (line col : Nat) : Option (Except Stop (Found × List Bytes)) :=
  (parse src).bind fun r => (r.1.descend ⟨⟨line, col⟩, ⟨line, col⟩⟩).map (forOptions (runPM r.1) (3 * sizeOf r.1))

/-- In a set that is the expression of an attribute name, an assertion fails. -/
theorem C45_crash_violated : ∃ src line col, attrPathAt src line col = some (.error .assert_) :=
  ⟨b!"{ ${{ x = 1; }} = 2; }", 0, 6, by decide +kernel⟩

/-- At a selection that is the value of an attribute, the selected names are added to those of the attribute. -/
theorem C45_select_violated : attrPathAt b!"{ a = x.b; }" 0 8 = some (.ok (.ok, [b!"a", b!"b"])) := by decide +kernel

/-- In a set in parentheses, the names around are left out. -/
theorem C45_paren_violated : attrPathAt b!"{ a = { b = 1; }; }" 0 8 = some (.ok (.ok, [b!"a", b!"b"])) ∧
    attrPathAt b!"{ a = ({ b = 1; }); }" 0 9 = some (.ok (.ok, [b!"b"])) := by decide +kernel

example : attrPathAt b!"{ a.b = { \"c\" = { d.e = 1; }; }; }" 0 19 = some (.ok (.ok, [b!"a", b!"b", b!"c", b!"d"])) ∧
    attrPathAt b!"{ a.b = { \"c\" = { d.e = 1; }; }; }" 0 2 = some (.ok (.ok, [b!"a"])) ∧
    attrPathAt b!"{ a.${x} = { b = 1; }; }" 0 13 = some (.ok (.withDynamic, [])) ∧
    attrPathAt b!"{ a = { inherit b; }; }" 0 16 = some (.ok (.inherit_, [])) ∧
    attrPathAt b!"{ a = { }; }" 0 8 = some (.ok (.ok, [b!"a", []])) ∧
    attrPathAt b!"{ a = 1; }" 0 6 = some (.ok (.notAttrPath, [])) := by
  refine ⟨?_, ?_, ?_, ?_, ?_, ?_⟩ <;> decide +kernel

example : optionPathAt b!"{ config = { config.a = 1; }; }" 0 20 = some (.ok (.ok, [b!"config", b!"a"])) := by decide +kernel

end Verif.Props
