import Verif.Lemmas.AsciiParser
import Verif.Lemmas.Filled
/-
For sources of ASCII characters, all strings in the diagnostics of the parser and of variable lookup are ASCII.
-/
namespace Verif.Nixf.Ascii
open Syntax
open Filling (withEntry dfsWith_eq)

/-- The parser. -/
theorem parse_ascii {src : Bytes} {n : Node} {s : PState} (hl : Low src) (h : parse src = some (n, s)) : NA n ∧ All s.lex.diags := by
  have : Va (parseTop (src.length + 3)) :=
    .bind (recN_va _).expr fun _ hn => .bind peek_va fun _ _ => .bind (.when (emitD_va (by ld))) fun _ _ => .pure hn
  obtain ⟨h1, h2⟩ := this _ _ _ h ⟨⟨hl, hl, .nil⟩, nofun, nofun⟩
  exact ⟨h1, h2.lex.diags⟩

/-! ### Variable lookup -/

theorem vemit_all {s : VL} {d : Diagnostic} (hs : All s.diags) (hd : AscD d) : All (s.emit d).diags := hs.snoc hd

/-- Names of definitions. -/
def Keys {α : Type} (m : List (Bytes × α)) : Prop := ∀ p ∈ m, Low p.1

theorem insertKey_keys {α : Type} {p : Bytes × α} {m : List (Bytes × α)} (hp : Low p.1) (hm : Keys m) : Keys (insertKey p m) := by
  induction m with
  | nil => intro q hq; rw [List.mem_singleton.mp hq]; exact hp
  | cons r m ih =>
    have h1 : Low r.1 := hm r (by simp)
    have h2 := ih fun q hq => hm q (by simp [hq])
    unfold insertKey
    split
    · intro q hq
      rcases List.mem_cons.mp hq with rfl | hq
      · exact hp
      · exact hm q hq
    · intro q hq
      rcases List.mem_cons.mp hq with rfl | hq
      · exact h1
      · exact h2 q hq

theorem na_formalID {f : Node} (h : NA f) : NA (formalID f) := by
  cases f <;> first | trivial | exact h.2.1
theorem na_formalDefault {f : Node} (h : NA f) : NA (formalDefault f) := by
  cases f <;> first | trivial | exact h.2.2.1
theorem na_members {f : Node} (h : NA f) : NAs (formalMembers f) := by
  cases f <;> first | trivial | exact h

theorem firstFormals_keys (fs : List Node) (acc : List (Bytes × Node)) (hf : NAs fs) (ha : Keys acc) : Keys (firstFormals fs acc) := by
  induction fs generalizing acc with
  | nil => exact ha
  | cons f fs ih =>
    unfold firstFormals
    repeat' split
    · exact ih _ hf.2 ha
    · exact ih _ hf.2 ha
    · refine ih _ hf.2 fun p hp => ?_
      rcases List.mem_append.mp hp with hp | hp
      · exact ha p hp
      · rw [List.mem_singleton.mp hp]; exact na_name (na_formalID hf.1)

theorem dedup_keys {fs : List Node} (hf : NAs fs) : Keys (dedup fs) := by
  have h := firstFormals_keys fs [] hf nofun
  exact foldl_all (I := Keys) _ _ (fun m p hp hm => insertKey_keys (h p hp) hm) _ nofun

theorem addDef_ok {P : PrimOps} {n : Bytes} {e : Node} {src : DefSource} {b : Bool} {m : List (Bytes × Nat)} {s : VL} (hn : Low n)
    (hm : Keys m) (hs : All s.diags) : Keys (addDef P n e src b m s).1 ∧ All (addDef P n e src b m s).2.diags := by
  unfold addDef
  simp only [VL.alloc]
  have h1 : All (if lookupPrimOp P n = .found ∧ b = false then
      s.emit { kind := .primOpOverridden, range := e.range, args := [n] } else s).diags := by
    split
    · exact vemit_all hs (by ld)
    · exact hs
  generalize (if lookupPrimOp P n = .found ∧ b = false then
      s.emit { kind := .primOpOverridden, range := e.range, args := [n] } else s) = s1 at h1
  constructor
  · split
    · exact hm
    · exact insertKey_keys hn hm
  · split
    · exact vemit_all h1 (by ld)
    · exact h1

theorem unusedLetFix_asc (r : CRange) (n : Node) : AscF (unusedLetFix r n) := by
  unfold unusedLetFix
  repeat' split
  all_goals first | exact trivial | exact ⟨⟨by low, .nil, trivial⟩, trivial⟩

theorem livenessOne_all {sc : Scope} {s : VL} {p : Bytes × Nat} (hp : Low p.1) (hs : All s.diags) : All (livenessOne sc s p).diags := by
  unfold livenessOne
  simp only
  repeat' split
  all_goals first
    | exact hs
    | exact vemit_all hs ⟨⟨hp, trivial⟩, trivial, unusedLetFix_asc _ _⟩
    | exact vemit_all hs ⟨⟨hp, trivial⟩, trivial, trivial⟩

theorem liveness_all {sc : Scope} {s : VL} (hk : Keys sc.defs) (hs : All s.diags) : All (emitEnvLivenessWarning sc s).diags :=
  foldl_all (I := fun s : VL => All s.diags) _ _ (fun _ p hp h => livenessOne_all (hk p hp) h) _ hs

theorem lookupVar_all {P : PrimOps} {v : Node} {env : Env} {s : VL} (hv : NA v) (hs : All s.diags) : All (lookupVar P v env s).diags := by
  unfold lookupVar
  simp only
  split
  · exact hs
  · split
    · exact foldl_all (I := fun s : VL => All s.diags) _ (fun s d => s.usedBy d v) (fun _ _ _ h => h) _ hs
    · split
      · exact hs
      · exact vemit_all hs (by ld)
      · refine vemit_all hs ⟨⟨?_, trivial⟩, trivial, trivial⟩
        split
        · exact na_name hv
        · exact .nil

/-- The recursive calls. -/
def Kd (rec : Dfs) : Prop := ∀ n env s, NA n → All s.diags → All (rec n env s).diags

/-- The result of a function that makes definitions. -/
def Defs (x : List (Bytes × Nat) × VL) : Prop := Keys x.1 ∧ All x.2.diags

theorem lambdaDefs_ok {P : PrimOps} {i f : Node} {s : VL} (hi : NA i) (hf : NA f) (hs : All s.diags) : Defs (lambdaDefs P i f s) := by
  unfold lambdaDefs
  simp only
  have h1 : Defs (if i.isNull then ([], s)
    else if f.isNull then addDef P i.name i .lambdaArg false [] s
    else if (dedup (formalMembers f)).any (fun p => p.1 == i.name) then ([], s)
    else addDef P i.name i .lambdaWithArgArg false [] s : List (Bytes × Nat) × VL) := by
    repeat' split
    all_goals first | exact ⟨nofun, hs⟩ | exact addDef_ok (na_name hi) nofun hs
  generalize (if i.isNull then ([], s)
    else if f.isNull then addDef P i.name i .lambdaArg false [] s
    else if (dedup (formalMembers f)).any (fun p => p.1 == i.name) then ([], s)
    else addDef P i.name i .lambdaWithArgArg false [] s : List (Bytes × Nat) × VL) = ms at h1
  split
  · exact h1
  · exact foldl_all (I := Defs) _ _ (fun _ p hp h => addDef_ok (dedup_keys (na_members hf) p hp) h.1 h.2) _ h1

theorem dfsLambda_all {P : PrimOps} {rec : Dfs} (hr : Kd rec) {n arg body : Node} {env : Env} {s : VL} (ha : NA arg) (hb : NA body)
    (hs : All s.diags) : All (dfsLambda P rec n arg body env s).diags := by
  unfold dfsLambda
  split
  · exact hs
  · split
    · have h := lambdaDefs_ok (P := P) ha.1 ha.2 hs
      refine liveness_all h.1 (hr _ _ _ hb (foldl_all (I := fun s : VL => All s.diags) _ _ (fun s m hm h => ?_) _ h.2))
      split
      · exact h
      · refine hr _ _ _ (na_formalDefault ?_) h
        split at hm
        · cases hm
        · exact nas_iff.mp (na_members ha.2) m hm
    · exact hs

theorem dfsDynamicAttrs_all {rec : Dfs} (hr : Kd rec) {as : List Node} {env : Env} {s : VL} (ha : NAs as) (hs : All s.diags) :
    All (dfsDynamicAttrs rec as env s).diags := by
  refine foldl_all (I := fun s : VL => All s.diags) _ _ (fun s a hm h => ?_) _ hs
  have := nas_iff.mp ha a hm
  split
  · exact h
  · exact hr _ _ _ (na_attrValue this) (hr _ _ _ (na_attrKey this) h)

theorem dfsAttrs_ok {P : PrimOps} {rec : Dfs} (hr : Kd rec) {r : Node} {st dy : List Node} {env : Env} {syn : Node} {src : DefSource}
    {s : VL} (hst : NAs st) (hdy : NAs dy) (hs : All s.diags) : All (dfsAttrs P rec r st dy env syn src s).1.diags ∧
      ∀ sc, (dfsAttrs P rec r st dy env syn src s).2 = some sc → Keys sc.defs := by
  unfold dfsAttrs
  split
  · refine ⟨dfsDynamicAttrs_all hr hdy (foldl_all (I := fun s : VL => All s.diags) _ _ (fun s a hm h => ?_) _ hs), nofun⟩
    split
    · exact h
    · exact hr _ _ _ (na_attrValue (nas_iff.mp hst a hm)) h
  · have h1 : Defs (attrsDefs P st src s) :=
      foldl_all (I := Defs) _ _ (fun _ a hm h => addDef_ok (na_attrName (nas_iff.mp hst a hm)) h.1 h.2) _ ⟨nofun, hs⟩
    refine ⟨dfsDynamicAttrs_all hr hdy (foldl_all (I := fun s : VL => All s.diags) _ _ (fun s a hm h => ?_) _ h1.2),
      fun sc hsc => ?_⟩
    · have := na_attrValue (nas_iff.mp hst a hm)
      repeat' split
      · exact h
      · exact hr _ _ _ this h
      · exact hr _ _ _ this h
    · cases hsc; exact h1.1

theorem dfsExprAttrs_all {P : PrimOps} {rec : Dfs} (hr : Kd rec) {n r : Node} {st dy : List Node} {env : Env} {s : VL} (hst : NAs st)
    (hdy : NAs dy) (hs : All s.diags) : All (dfsExprAttrs P rec n r st dy env s).diags := by
  have h1 := (dfsAttrs_ok (P := P) hr (r := r) (env := env) (syn := n) (src := .rec_) hst hdy hs).1
  unfold dfsExprAttrs
  split
  · rename_i h; rw [h] at h1; exact h1
  · rename_i h; rw [h] at h1
    split
    · exact h1
    · exact vemit_all h1 (by ld)

theorem dfsLet_all {P : PrimOps} {rec : Dfs} (hr : Kd rec) {n e attrs : Node} {env : Env} {s : VL} (he : NA e) (ha : NA attrs)
    (hs : All s.diags) : All (dfsLet P rec n e attrs env s).diags := by
  unfold dfsLet
  split
  · rename_i r st dy
    simp only
    have h0 : All (checkLetInheritBuiltins P st { s with bad := s.bad || r.isNull }).diags := by
      refine foldl_all (I := fun s : VL => All s.diags) _ _ (fun s a _ h => ?_) _ hs
      split
      · exact vemit_all h (by ld)
      · exact h
    have h1 := dfsAttrs_ok (P := P) hr (r := r) (env := env) (syn := n) (src := .let_) ha.2.2.1 ha.2.2.2 h0
    generalize dfsAttrs P rec r st dy env n .let_ (checkLetInheritBuiltins P st { s with bad := s.bad || r.isNull }) = x at h1
    obtain ⟨h1, h2⟩ := h1
    split
    · rename_i sc hsc
      refine liveness_all (h2 sc hsc) ?_
      split
      · exact h1
      · exact hr _ _ _ he h1
    · split
      · exact h1
      · exact hr _ _ _ he h1
  · simp only
    split
    · exact hs
    · exact hr _ _ _ he hs

theorem dfsWith_all {rec : Dfs} (hr : Kd rec) {n kw semi w e : Node} {env : Env} {s : VL} (hw : NA w) (he : NA e) (hs : All s.diags) :
    All (dfsWith rec n kw semi w e env s).diags := by
  rw [dfsWith_eq]
  simp only
  have h : ∀ {m : Node} {env : Env} {t : VL}, NA m → All t.diags → All (if m.isNull then t else rec m env t).diags := by
    intro m env t hm ht
    split
    · exact ht
    · exact hr _ _ _ hm ht
  have h2 : ∀ t : VL, t.diags = s.diags → All t.diags := fun t e => e ▸ hs
  have h2 : All (withEntry n kw s).diags := h2 _ (by unfold withEntry; split <;> rfl)
  generalize withEntry n kw s = t at h2
  have h3 := h (env := env) hw h2
  generalize (if w.isNull then t else rec w env t) = t' at h3
  have h4 := h (env := ⟨[], n⟩ :: env) he h3
  generalize (if e.isNull then t' else rec e (⟨[], n⟩ :: env) t') = t'' at h4
  split
  · refine vemit_all h4 ⟨trivial, trivial, ⟨by low, ?_⟩, trivial⟩
    refine AscE.append (AscE.append ⟨.nil, trivial⟩ ?_) ?_
    all_goals
      split
      · trivial
      · exact ⟨.nil, trivial⟩
  · exact h4

theorem checkBuiltins_all {P : PrimOps} {n : Node} {s : VL} (hn : NA n) (hs : All s.diags) : All (checkBuiltins P n s).diags := by
  unfold checkBuiltins
  split
  · split
    · split
      · exact hs
      · rename_i hst
        have hl := na_static hn.2.2.1.1.1 hst
        split
        · refine vemit_all hs ⟨trivial, trivial, ⟨by low, .nil, ?_⟩, trivial⟩
          split
          · trivial
          · exact ⟨.nil, trivial⟩
        · exact hs
        · split
          · exact hs
          · exact vemit_all hs (by ld)
    · exact hs
  · exact hs

theorem na_children {n c : Node} (h : NA n) (hc : c ∈ n.children) : NA c := by
  unfold Node.children at hc
  replace hc := (List.mem_filter.mp hc).1
  cases n <;> simp only [NA, nas_iff, List.mem_cons, List.mem_append, List.not_mem_nil, or_false] at h hc
  case formal => split at hc <;> simp only [List.mem_cons, List.not_mem_nil, or_false] at hc <;> (rcases hc with rfl | rfl <;> simp_all)
  all_goals first
    | exact h c hc
    | (rcases hc with rfl | rfl | rfl | rfl <;> simp_all; done)
    | (rcases hc with rfl | rfl | rfl <;> simp_all; done)
    | (rcases hc with rfl | rfl <;> simp_all; done)
    | (rcases hc with hc | hc <;> simp_all; done)
    | (subst hc; assumption)

theorem trivial_all {rec : Dfs} (hr : Kd rec) {n : Node} {env : Env} {s : VL} (hn : NA n) (hs : All s.diags) :
    All (trivialDispatch rec n env s).diags :=
  foldl_all (I := fun s : VL => All s.diags) _ _ (fun _ c hc h => hr _ _ _ (na_children hn hc) h) _ hs

theorem dfs_all (P : PrimOps) (k : Nat) : Kd (dfs P k) := by
  induction k with
  | zero => exact fun _ _ _ _ h => h
  | succ k ih =>
    intro n env s hn hs
    have h : All ({ s with envs := ptrInsert n.id env s.envs } : VL).diags := hs
    unfold dfs
    simp only
    split
    · exact lookupVar_all hn h
    · exact dfsLambda_all ih hn.1 hn.2 h
    · exact dfsExprAttrs_all ih hn.2.2.1 hn.2.2.2 h
    · exact dfsLet_all ih hn.2.2.1 hn.2.2.2 h
    · split
      · exact dfsExprAttrs_all ih hn.2.2.2.1 hn.2.2.2.2 h
      · exact h
    · exact dfsWith_all ih hn.2.2.1 hn.2.2.2 h
    · exact checkBuiltins_all hn (trivial_all ih hn h)
    · exact trivial_all ih hn h

theorem runVL_ascii (P : PrimOps) (fuel : Nat) {root : Node} (h : NA root) : All (runVL P fuel root).diags := by
  unfold runVL
  refine dfs_all P fuel _ _ _ h ?_
  refine foldl_all (I := fun x : List (Bytes × Nat) × VL => All x.2.diags) _ _ ?_ _ All.nil
  exact fun _ _ _ h => h

end Verif.Nixf.Ascii
