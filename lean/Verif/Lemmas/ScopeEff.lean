import Verif.Lemmas.ScopeEnts
/-
The effect of visiting a list of nodes on the state of variable lookup, and its composition.
-/
namespace Verif.Nixf.Scoping

/-- A visited node: the frames and the environment at some base above it, and the frames between the base and it. -/
structure Ev where
  rel : List Frame
  base : List Frame
  env : Env
  node : Node

/-- The node with all frames around it. -/
def Ev.key (e : Ev) : List Frame × Node := (e.rel ++ e.base, e.node)

/-- The node as a use of the definition `d`, which is in the environment of the base. -/
def useOf (d : Nat) (e : Ev) : Option Node :=
  if isVar e.node && free e.rel (varName e.node) && findDef (varName e.node) e.env == some d then some e.node else none

/-- The node as a use of a `with`. -/
def wuseOf (id : Nat) (p : List Frame × Node) : List Node :=
  if isVar p.2 && free p.1 (varName p.2) then
    (withsOf p.1).filterMap fun w => if w.id == id then some p.2 else none
  else []

/-- An assert fails for this variable. -/
def internalUse (P : PrimOps) (p : List Frame × Node) : Bool :=
  isVar p.2 && free p.1 (varName p.2) && (withsOf p.1).isEmpty && decide (lookupPrimOp P (varName p.2) = .found)

/-- The uses of a `with`. -/
def wuses (s : VL) (id : Nat) : List Node :=
  match ptrFind id s.withDefs with
  | some d => (s.get d).uses
  | none => []

def isWithN : Node → Bool
  | .exprWith .. => true
  | _ => false

/-- Diagnostics when a scope is entered. -/
def preDiags (P : PrimOps) (n : Node) : List Diagnostic :=
  (match n with
    | .exprLet _ _ _ _ (.exprAttrs _ _ _ st _) => (checkLetInheritBuiltins P st {}).diags
    | _ => []) ++ (entsOf n).flatMap (addDiags P)

/-- The diagnostic for an unused definition of a node. -/
def unusedDiag (n : Node) (e : Ent) : Option Diagnostic :=
  if (usesIn n e.1).isEmpty then
    match unusedKind e.2.2.1 with
    | some k =>
      some { kind := k, range := e.2.1.range, args := [e.1], tags := [.faded],
             fixes := if e.2.2.1 = .let_ then unusedLetFix e.2.1.range n else [] }
    | none => none
  else none

/-- The diagnostic for a needless `rec`. -/
def extraRecDiag (r : Node) : Diagnostic :=
  { kind := .extraRecursive, range := r.range, tags := [.faded],
    fixes := [{ message := b!"remove `rec` keyword", edits := [⟨r.range, []⟩] }] }

/-- The diagnostic for a needless `with`. -/
def withDiag : Node → Diagnostic
  | .exprWith _ kw semi w _ =>
    { kind := .extraWith, range := kw.range,
      fixes := [{ message := b!"remove `with` expression",
                  edits := [⟨kw.range, []⟩] ++ (if semi.isNull then [] else [⟨semi.range, []⟩]) ++
                    (if w.isNull then [] else [⟨w.range, []⟩]) }] }
  | _ => { kind := .extraWith, range := default }

/-- Diagnostics when a scope is left, except for those of `with`. -/
def postDiags (P : PrimOps) (n : Node) : List Diagnostic :=
  match n with
  | .exprLambda .. | .exprLet .. => (entsOf n).filterMap (unusedDiag n)
  | .exprAttrs _ _ r _ _ =>
    if r.isNull then []
    else if (entsOf n).any (fun e => !(usesIn n e.1).isEmpty) then [] else [extraRecDiag r]
  | .exprSelect .. => (checkBuiltins P n {}).diags
  | _ => []

def undefinedDiag (v : Node) : Diagnostic := { kind := .undefinedVariable, range := v.range, args := [varName v] }
def needsPrefixDiag (v : Node) : Diagnostic :=
  { kind := .primOpNeedsPrefix, range := v.range,
    fixes := [{ message := b!"use `builtins.` prefix", edits := [⟨⟨v.lCur, v.lCur⟩, b!"builtins."⟩] }] }

/-- Diagnostics of a variable. -/
def varDiags (P : PrimOps) (Γ : List Frame) (v : Node) : List Diagnostic :=
  if isVar v && free Γ (varName v) && (withsOf Γ).isEmpty then
    match lookupPrimOp P (varName v) with
    | .found => []
    | .prefixedFound => [needsPrefixDiag v]
    | .notFound => [undefinedDiag v]
  else []

/-- All diagnostics of a node, except for those of `with`. -/
def ownDiags (P : PrimOps) (p : List Frame × Node) : List Diagnostic :=
  preDiags P p.2 ++ postDiags P p.2 ++ varDiags P p.1 p.2

/-- The definitions that exist are kept. -/
structure Ext (s s' : VL) : Prop where
  len : s.store.length ≤ s'.store.length
  keep : ∀ d < s.store.length, (s'.get d).syntax_ = (s.get d).syntax_ ∧ (s'.get d).source = (s.get d).source
  wdefs : s.withDefs <+: s'.withDefs
  mono : ∀ d < s.store.length, (s.get d).uses <+: (s'.get d).uses

theorem Ext.refl (s : VL) : Ext s s := ⟨Nat.le_refl _, fun _ _ => ⟨rfl, rfl⟩, List.prefix_refl _, fun _ _ => List.prefix_refl _⟩
theorem Ext.trans {a b c : VL} (h1 : Ext a b) (h2 : Ext b c) : Ext a c where
  len := Nat.le_trans h1.len h2.len
  keep d hd := by
    have h := h1.keep d hd
    have h' := h2.keep d (Nat.lt_of_lt_of_le hd h1.len)
    exact ⟨h'.1.trans h.1, h'.2.trans h.2⟩
  wdefs := h1.wdefs.trans h2.wdefs
  mono d hd := (h1.mono d hd).trans (h2.mono d (Nat.lt_of_lt_of_le hd h1.len))

theorem ptrFind_ext {s s' : VL} (h : Ext s s') {i d : Nat} (hf : ptrFind i s.withDefs = some d) :
    ptrFind i s'.withDefs = some d := by
  obtain ⟨l, hl⟩ := h.wdefs
  rw [← hl, ptrFind_append, hf]
  rfl

/-- A scope of the analysis stands for a frame. -/
def ScopeOk (s : VL) : Frame → Scope → Prop
  | .names b, sc => isWith sc = false ∧ (∀ x, keyFind x sc.defs = none ↔ b x = none) ∧
      ∀ x d, keyFind x sc.defs = some d →
        d < s.store.length ∧ b x = some ((s.get d).syntax_, (s.get d).source) ∧ (s.get d).source ≠ .with_ ∧
          ∀ d', (x, d') ∈ sc.defs → d' = d
  | .with_ w, sc => isWith sc = true ∧ sc.syntax_ = w ∧ sc.defs = [] ∧ ∃ d, ptrFind w.id s.withDefs = some d

/-- An environment stands for a list of frames. -/
def EnvOk (s : VL) : List Frame → Env → Prop
  | [], [] => True
  | f :: Γ, sc :: env => ScopeOk s f sc ∧ EnvOk s Γ env
  | _, _ => False

theorem ScopeOk.mono {s s' : VL} (h : Ext s s') {f : Frame} {sc : Scope} (hs : ScopeOk s f sc) : ScopeOk s' f sc := by
  cases f with
  | names b =>
    refine ⟨hs.1, hs.2.1, fun x d hd => ?_⟩
    obtain ⟨h1, h2, h3, h4⟩ := hs.2.2 x d hd
    obtain ⟨k1, k2⟩ := h.keep d h1
    exact ⟨Nat.lt_of_lt_of_le h1 h.len, by rw [k1, k2]; exact h2, by rw [k2]; exact h3, h4⟩
  | with_ w =>
    obtain ⟨h1, h2, h3, d, hd⟩ := hs
    exact ⟨h1, h2, h3, d, ptrFind_ext h hd⟩

theorem EnvOk.mono {s s' : VL} (h : Ext s s') : ∀ {Γ : List Frame} {env : Env}, EnvOk s Γ env → EnvOk s' Γ env
  | [], [], _ => trivial
  | _ :: _, _ :: _, hs => ⟨hs.1.mono h, EnvOk.mono h hs.2⟩

theorem scopeOk_binds {s : VL} {f : Frame} {sc : Scope} (hs : ScopeOk s f sc) (x : Bytes) :
    keyFind x sc.defs = none ↔ f.binds x = none := by
  cases f with
  | names b => exact hs.2.1 x
  | with_ w => simp [hs.2.2.1, keyFind_nil, Frame.binds]

theorem scopeOk_find {s : VL} {f : Frame} {sc : Scope} (hs : ScopeOk s f sc) {x : Bytes} {d : Nat} (h : keyFind x sc.defs = some d) :
    d < s.store.length ∧ f.binds x = some ((s.get d).syntax_, (s.get d).source) ∧ (s.get d).source ≠ .with_ := by
  cases f with
  | names b =>
    obtain ⟨h1, h2, h3, -⟩ := hs.2.2 x d h
    exact ⟨h1, h2, h3⟩
  | with_ w => simp [hs.2.2.1, keyFind_nil] at h

theorem envOk_none {s : VL} {x : Bytes} : ∀ {Γ : List Frame} {env : Env}, EnvOk s Γ env →
    (findDef x env = none ↔ free Γ x = true)
  | [], [], _ => by simp [findDef, free]
  | f :: Γ, sc :: env, hs => by
    have hb := scopeOk_binds hs.1 x
    have hr := envOk_none (x := x) hs.2
    rw [findDef]
    rcases hk : keyFind x sc.defs with _ | d
    · have := hb.mp hk
      simp only [free, List.all_cons, this, Option.isNone_none, Bool.true_and]
      exact hr
    · simp only [free, List.all_cons, Bool.and_eq_true]
      constructor
      · intro h; cases h
      · rintro ⟨h, -⟩
        rw [Option.isNone_iff_eq_none, ← hb, hk] at h
        cases h

theorem envOk_some {s : VL} {x : Bytes} {d : Nat} : ∀ {Γ : List Frame} {env : Env}, EnvOk s Γ env → findDef x env = some d →
    d < s.store.length ∧ resolve Γ x = some ((s.get d).syntax_, (s.get d).source) ∧ (s.get d).source ≠ .with_
  | [], [], _, h => by simp [findDef] at h
  | f :: Γ, sc :: env, hs, h => by
    rw [findDef] at h
    rcases hk : keyFind x sc.defs with _ | d'
    · rw [hk] at h
      obtain ⟨h1, h2, h3⟩ := envOk_some hs.2 h
      refine ⟨h1, ?_, h3⟩
      unfold resolve
      rw [List.findSome?_cons, (scopeOk_binds hs.1 x).mp hk]
      exact h2
    · rw [hk] at h
      cases h
      obtain ⟨h1, h2, h3⟩ := scopeOk_find hs.1 hk
      refine ⟨h1, ?_, h3⟩
      unfold resolve
      rw [List.findSome?_cons, h2]

theorem envOk_withs {s : VL} : ∀ {Γ : List Frame} {env : Env}, EnvOk s Γ env →
    (env.filter isWith).map (·.syntax_) = withsOf Γ ∧
      ∀ sc ∈ env.filter isWith, ∃ d, ptrFind sc.syntax_.id s.withDefs = some d
  | [], [], _ => by simp [withsOf]
  | f :: Γ, sc :: env, hs => by
    obtain ⟨h1, h2⟩ := envOk_withs hs.2
    cases f with
    | names b =>
      rw [List.filter_cons_of_neg (by simp [hs.1.1])]
      exact ⟨h1, h2⟩
    | with_ w =>
      obtain ⟨a1, a2, a3, a4⟩ := hs.1
      rw [List.filter_cons_of_pos a1]
      refine ⟨?_, ?_⟩
      · rw [List.map_cons, h1, a2]
        rfl
      · intro sc' hsc
        rcases List.mem_cons.mp hsc with rfl | hsc
        · rw [a2]; exact a4
        · exact h2 _ hsc

/-- The definitions of `with`. -/
structure Inv (s : VL) : Prop where
  src : ∀ p ∈ s.withDefs, p.2 < s.store.length ∧ (s.get p.2).source = .with_
  inj : ∀ p ∈ s.withDefs, ∀ q ∈ s.withDefs, p.2 = q.2 → p.1 = q.1

/-- A lookup result is right. -/
def ResOk (P : PrimOps) (s : VL) (p : List Frame × Node) (r : LookupResult) : Prop :=
  match r.kind with
  | .defined => ∃ d, r.def_ = some d ∧ d < s.store.length ∧ resolve p.1 (varName p.2) = some ((s.get d).syntax_, (s.get d).source) ∧
      (s.get d).source ≠ .with_ ∧ p.2 ∈ (s.get d).uses
  | .fromWith => free p.1 (varName p.2) = true ∧ ∃ w d, (withsOf p.1).getLast? = some w ∧ r.def_ = some d ∧
      ptrFind w.id s.withDefs = some d
  | .undefined => free p.1 (varName p.2) = true ∧ withsOf p.1 = [] ∧ r.def_ = none ∧ lookupPrimOp P (varName p.2) ≠ .found

theorem ResOk.mono {P : PrimOps} {s s' : VL} (h : Ext s s') {p : List Frame × Node} {r : LookupResult} (hr : ResOk P s p r) :
    ResOk P s' p r := by
  unfold ResOk at hr ⊢
  split
  · rename_i hk
    rw [hk] at hr
    obtain ⟨d, h1, h2, h3, h4, h5⟩ := hr
    obtain ⟨k1, k2⟩ := h.keep d h2
    exact ⟨d, h1, Nat.lt_of_lt_of_le h2 h.len, by rw [k1, k2]; exact h3, by rw [k2]; exact h4, (h.mono d h2).subset h5⟩
  · rename_i hk
    rw [hk] at hr
    obtain ⟨h1, w, d, h2, h3, h4⟩ := hr
    exact ⟨h1, w, d, h2, h3, ptrFind_ext h h4⟩
  · rename_i hk
    rw [hk] at hr
    exact hr

/-- The effect of visiting the nodes `T`. -/
structure Eff (P : PrimOps) (T : List Ev) (s s' : VL) : Prop where
  ext : Ext s s'
  inv : Inv s'
  uses : ∀ d < s.store.length, (s.get d).source ≠ .with_ → (s'.get d).uses = (s.get d).uses ++ T.filterMap (useOf d)
  new : ∀ d, s.store.length ≤ d → d < s'.store.length → (s'.get d).source ≠ .with_ →
    ∃ p ∈ T.map Ev.key, ∃ x, (frameOf p.2).binds x = some ((s'.get d).syntax_, (s'.get d).source) ∧
      (s'.get d).uses = usesIn p.2 x
  wuses : ∀ id, wuses s' id = wuses s id ++ (T.map Ev.key).flatMap (wuseOf id)
  resSound : ∀ q ∈ s'.results, q ∈ s.results ∨ ∃ p ∈ T.map Ev.key, isVar p.2 = true ∧ p.2.id = q.1 ∧ ResOk P s' p q.2
  resMono : ∀ q ∈ s.results, q ∈ s'.results
  resAll : ∀ p ∈ T.map Ev.key, isVar p.2 = true → internalUse P p = false → ∃ r, (p.2.id, r) ∈ s'.results
  wsSound : ∀ q ∈ s'.withScopes, q ∈ s.withScopes ∨ ∃ p ∈ T.map Ev.key, isVar p.2 = true ∧ p.2.id = q.1 ∧
    free p.1 (varName p.2) = true ∧ withsOf p.1 ≠ [] ∧ q.2 = (withsOf p.1).map Node.id
  wsMono : ∀ q ∈ s.withScopes, q ∈ s'.withScopes
  wsAll : ∀ p ∈ T.map Ev.key, isVar p.2 = true → free p.1 (varName p.2) = true → withsOf p.1 ≠ [] →
    ∃ l, (p.2.id, l) ∈ s'.withScopes
  diags : ∀ g, g.kind ≠ .extraWith → (g ∈ s'.diags ↔ g ∈ s.diags ∨ ∃ p ∈ T.map Ev.key, g ∈ ownDiags P p)
  diagsMono : ∀ g ∈ s.diags, g ∈ s'.diags
  withSound : ∀ g, g.kind = .extraWith → g ∈ s'.diags → g ∈ s.diags ∨ ∃ p ∈ T.map Ev.key, isWithN p.2 = true ∧
    g = withDiag p.2 ∧ ∀ q ∈ inner p.2, isVar q.2 = true → free (q.1 ++ p.1) (varName q.2) = false
  withAll : ∀ p ∈ T.map Ev.key, isWithN p.2 = true → Scoping.wuses s' p.2.id = [] → withDiag p.2 ∈ s'.diags
  bad : s'.bad = (s.bad || (T.map Ev.key).any (internalUse P))
  deep : s'.deep = s.deep
  toDefFrom : ∀ j, ptrFind j s'.toDef = ptrFind j s.toDef ∨
    ∃ d, s.store.length ≤ d ∧ d < s'.store.length ∧ (s'.get d).syntax_.id = j ∧ ptrFind j s'.toDef = some d
  toDefHas : ∀ d, s.store.length ≤ d → d < s'.store.length → ∃ d', ptrFind (s'.get d).syntax_.id s'.toDef = some d'
  defAll : ∀ p ∈ T.map Ev.key, ∀ x q, (frameOf p.2).binds x = some q →
    ∃ d, s.store.length ≤ d ∧ d < s'.store.length ∧ q = ((s'.get d).syntax_, (s'.get d).source)
  wsyn : ∀ d, s.store.length ≤ d → d < s'.store.length → (s'.get d).source = .with_ →
    ∃ p ∈ T.map Ev.key, ptrFind p.2.id s'.withDefs = some d ∧ ∃ h sm w e, p.2 = .exprWith h (s'.get d).syntax_ sm w e
  envSound : ∀ q ∈ s'.envs, q ∈ s.envs ∨ ∃ p ∈ T.map Ev.key, p.2.id = q.1 ∧ EnvOk s' p.1 q.2
  envMono : ∀ q ∈ s.envs, q ∈ s'.envs
  envAll : ∀ p ∈ T.map Ev.key, isVar p.2 = true → ∃ e, (p.2.id, e) ∈ s'.envs
  wdef : ∀ q ∈ s'.withDefs, q ∈ s.withDefs ∨
    ∃ p ∈ T.map Ev.key, p.2.id = q.1 ∧ ∃ h sm w e, p.2 = .exprWith h (s'.get q.2).syntax_ sm w e

theorem Eff.nil {P : PrimOps} {s : VL} (h : Inv s) : Eff P [] s s where
  ext := .refl s
  inv := h
  uses := by simp
  new d h1 h2 := by omega
  wuses := by simp
  resSound q hq := .inl hq
  resMono q hq := hq
  resAll := by simp
  wsSound q hq := .inl hq
  wsMono q hq := hq
  wsAll := by simp
  diags := by simp
  diagsMono g hg := hg
  withSound g _ hg := .inl hg
  withAll := by simp
  bad := by simp
  deep := rfl
  toDefFrom j := .inl rfl
  toDefHas d h1 h2 := by omega
  defAll := by simp
  wsyn d h1 h2 := by omega
  envSound q hq := .inl hq
  envMono q hq := hq
  envAll := by simp
  wdef q hq := .inl hq

/-- The environments of the visited nodes only contain definitions below `N`. -/
def Below (N : Nat) (T : List Ev) : Prop := ∀ e ∈ T, ∀ x d, findDef x e.env = some d → d < N

theorem filterMap_below {N : Nat} {T : List Ev} (h : Below N T) {d : Nat} (hd : N ≤ d) : T.filterMap (useOf d) = [] := by
  rw [List.filterMap_eq_nil_iff]
  intro e he
  unfold useOf
  split
  · rename_i hc
    simp only [Bool.and_eq_true, beq_iff_eq] at hc
    have := h e he _ _ hc.2
    omega
  · rfl

theorem Eff.trans {P : PrimOps} {T U : List Ev} {a b c : VL} (h1 : Eff P T a b) (h2 : Eff P U b c)
    (hU : Below a.store.length U) : Eff P (T ++ U) a c where
  ext := h1.ext.trans h2.ext
  inv := h2.inv
  uses d hd hs := by
    have hk := h1.ext.keep d hd
    rw [h2.uses d (Nat.lt_of_lt_of_le hd h1.ext.len) (by rw [hk.2]; exact hs), h1.uses d hd hs, List.filterMap_append, List.append_assoc]
  new d hd hd' hs := by
    by_cases hb : d < b.store.length
    · have hk := h2.ext.keep d hb
      obtain ⟨p, hp, x, hx, hu⟩ := h1.new d hd hb (by rw [← hk.2]; exact hs)
      refine ⟨p, by rw [List.map_append]; exact List.mem_append_left _ hp, x, by rw [hk.1, hk.2]; exact hx, ?_⟩
      rw [h2.uses d hb (by rw [← hk.2]; exact hs), filterMap_below hU hd, List.append_nil]
      exact hu
    · obtain ⟨p, hp, h⟩ := h2.new d (by omega) hd' hs
      exact ⟨p, by rw [List.map_append]; exact List.mem_append_right _ hp, h⟩
  wuses id := by rw [h2.wuses, h1.wuses, List.map_append, List.flatMap_append, List.append_assoc]
  resSound q hq := by
    rw [List.map_append]
    rcases h2.resSound q hq with hq | ⟨p, hp, h⟩
    · rcases h1.resSound q hq with hq | ⟨p, hp, ha, hb, hc⟩
      · exact .inl hq
      · exact .inr ⟨p, List.mem_append_left _ hp, ha, hb, hc.mono h2.ext⟩
    · exact .inr ⟨p, List.mem_append_right _ hp, h⟩
  resMono q hq := h2.resMono q (h1.resMono q hq)
  resAll p hp hv hi := by
    rw [List.map_append] at hp
    rcases List.mem_append.mp hp with hp | hp
    · obtain ⟨r, hr⟩ := h1.resAll p hp hv hi
      exact ⟨r, h2.resMono _ hr⟩
    · exact h2.resAll p hp hv hi
  wsSound q hq := by
    rw [List.map_append]
    rcases h2.wsSound q hq with hq | ⟨p, hp, h⟩
    · rcases h1.wsSound q hq with hq | ⟨p, hp, h⟩
      · exact .inl hq
      · exact .inr ⟨p, List.mem_append_left _ hp, h⟩
    · exact .inr ⟨p, List.mem_append_right _ hp, h⟩
  wsMono q hq := h2.wsMono q (h1.wsMono q hq)
  wsAll p hp hv hi hw := by
    rw [List.map_append] at hp
    rcases List.mem_append.mp hp with hp | hp
    · obtain ⟨r, hr⟩ := h1.wsAll p hp hv hi hw
      exact ⟨r, h2.wsMono _ hr⟩
    · exact h2.wsAll p hp hv hi hw
  diags g hg := by
    rw [h2.diags g hg, h1.diags g hg, List.map_append]
    simp only [List.mem_append, or_and_right, exists_or, or_assoc]
  diagsMono g hg := h2.diagsMono g (h1.diagsMono g hg)
  withSound g hk hg := by
    rw [List.map_append]
    rcases h2.withSound g hk hg with hg | ⟨p, hp, h⟩
    · rcases h1.withSound g hk hg with hg | ⟨p, hp, h⟩
      · exact .inl hg
      · exact .inr ⟨p, List.mem_append_left _ hp, h⟩
    · exact .inr ⟨p, List.mem_append_right _ hp, h⟩
  withAll p hp hw hu := by
    rw [List.map_append] at hp
    rcases List.mem_append.mp hp with hp | hp
    · rw [h2.wuses, List.append_eq_nil_iff] at hu
      exact h2.diagsMono _ (h1.withAll p hp hw hu.1)
    · exact h2.withAll p hp hw hu
  bad := by rw [h2.bad, h1.bad, List.map_append, List.any_append, Bool.or_assoc]
  deep := h2.deep.trans h1.deep
  toDefFrom j := by
    rcases h2.toDefFrom j with h | ⟨d, hd1, hd2, hd3, hd4⟩
    · rcases h1.toDefFrom j with h' | ⟨d, hd1, hd2, hd3, hd4⟩
      · exact .inl (h.trans h')
      · exact .inr ⟨d, hd1, Nat.lt_of_lt_of_le hd2 h2.ext.len, by rw [(h2.ext.keep d hd2).1]; exact hd3, h.trans hd4⟩
    · exact .inr ⟨d, Nat.le_trans h1.ext.len hd1, hd2, hd3, hd4⟩
  toDefHas d hd hd' := by
    by_cases hb : d < b.store.length
    · rw [(h2.ext.keep d hb).1]
      obtain ⟨d', hd2⟩ := h1.toDefHas d hd hb
      rcases h2.toDefFrom (b.get d).syntax_.id with h | ⟨_, _, _, _, h⟩
      · exact ⟨d', h.trans hd2⟩
      · exact ⟨_, h⟩
    · exact h2.toDefHas d (by omega) hd'
  defAll p hp x q hx := by
    have hl := h1.ext.len
    have hl' := h2.ext.len
    rw [List.map_append] at hp
    rcases List.mem_append.mp hp with hp | hp
    · obtain ⟨d, k1, k2, k3⟩ := h1.defAll p hp x q hx
      have hk := h2.ext.keep d k2
      exact ⟨d, k1, by omega, by rw [hk.1, hk.2]; exact k3⟩
    · obtain ⟨d, k1, k2, k3⟩ := h2.defAll p hp x q hx
      exact ⟨d, by omega, k2, k3⟩
  wsyn d hd hd' hs := by
    by_cases hb : d < b.store.length
    · have hk := h2.ext.keep d hb
      obtain ⟨p, hp, hm, h⟩ := h1.wsyn d hd hb (by rw [← hk.2]; exact hs)
      exact ⟨p, by rw [List.map_append]; exact List.mem_append_left _ hp, ptrFind_ext h2.ext hm, by rw [hk.1]; exact h⟩
    · obtain ⟨p, hp, h⟩ := h2.wsyn d (by omega) hd' hs
      exact ⟨p, by rw [List.map_append]; exact List.mem_append_right _ hp, h⟩
  envSound q hq := by
    rw [List.map_append]
    rcases h2.envSound q hq with hq | ⟨p, hp, h⟩
    · rcases h1.envSound q hq with hq | ⟨p, hp, ha, hb⟩
      · exact .inl hq
      · exact .inr ⟨p, List.mem_append_left _ hp, ha, hb.mono h2.ext⟩
    · exact .inr ⟨p, List.mem_append_right _ hp, h⟩
  envMono q hq := h2.envMono q (h1.envMono q hq)
  envAll p hp hv := by
    rw [List.map_append] at hp
    rcases List.mem_append.mp hp with hp | hp
    · obtain ⟨r, hr⟩ := h1.envAll p hp hv
      exact ⟨r, h2.envMono _ hr⟩
    · exact h2.envAll p hp hv
  wdef q hq := by
    rw [List.map_append]
    rcases h2.wdef q hq with hq | ⟨p, hp, h⟩
    · rcases h1.wdef q hq with hq' | ⟨p, hp, ha, hb⟩
      · exact .inl hq'
      · exact .inr ⟨p, List.mem_append_left _ hp, ha, by rw [(h2.ext.keep q.2 (h1.inv.src q hq).1).1]; exact hb⟩
    · exact .inr ⟨p, List.mem_append_right _ hp, h⟩

/-! ### A node from its parts -/

/-- The visited nodes of a part, based at the node. -/
def partEv (Γ : List Frame) (env : Env) (f : Frame) (sc : Scope) (p : Bool × Node) : List Ev :=
  (vis p.2).map fun q => ⟨q.1, if p.1 then f :: Γ else Γ, if p.1 then sc :: env else env, q.2⟩

/-- The visited nodes of a node. -/
def nodeEv (Γ : List Frame) (env : Env) (n : Node) : List Ev := (vis n).map fun q => ⟨q.1, Γ, env, q.2⟩

/-- The visited nodes of a part, based above the node. -/
def partEv' (Γ : List Frame) (env : Env) (f : Frame) (p : Bool × Node) : List Ev :=
  (vis p.2).map fun q => ⟨if p.1 then q.1 ++ [f] else q.1, Γ, env, q.2⟩

theorem nodeEv_eq (Γ : List Frame) (env : Env) (n : Node) :
    nodeEv Γ env n = ⟨[], Γ, env, n⟩ :: (parts n).flatMap (partEv' Γ env (frameOf n)) := by
  unfold nodeEv partEv'
  rw [vis_eq, List.map_cons, List.map_flatMap]
  simp only [List.map_map, Function.comp_def]

theorem partEv_key (Γ : List Frame) (env : Env) (f : Frame) (sc : Scope) (p : Bool × Node) :
    (partEv Γ env f sc p).map Ev.key = (partEv' Γ env f p).map Ev.key := by
  unfold partEv partEv'
  rw [List.map_map, List.map_map]
  apply List.map_congr_left
  intro q _
  cases p.1 <;> simp [Ev.key]

theorem nodeEv_key (Γ : List Frame) (env : Env) (sc : Scope) (n : Node) :
    (nodeEv Γ env n).map Ev.key = (Γ, n) :: ((parts n).flatMap (partEv Γ env (frameOf n) sc)).map Ev.key := by
  rw [nodeEv_eq, List.map_cons, List.map_flatMap, List.map_flatMap]
  congr 1
  congr 1
  funext p
  exact (partEv_key ..).symm

/-- Before the parts of a node are visited. -/
structure Pre (P : PrimOps) (n : Node) (s : VL) (sc : Scope) (s1 : VL) : Prop where
  store : ∃ L, s1.store = s.store ++ L ∧ ∀ x ∈ L, x.uses = []
  scope : ScopeOk s1 (frameOf n) sc
  find_ge : ∀ x d, keyFind x sc.defs = some d → s.store.length ≤ d
  find_inj : ∀ x y d, keyFind x sc.defs = some d → keyFind y sc.defs = some d → x = y
  own : ∀ d, s.store.length ≤ d → d < s1.store.length → (s1.get d).source ≠ .with_ → ∃ x, keyFind x sc.defs = some d
  wdefs : s.withDefs <+: s1.withDefs
  inv : Inv s1
  wuses : ∀ id, wuses s1 id = wuses s id
  diags : ∀ g, g ∈ s1.diags ↔ g ∈ s.diags ∨ g ∈ preDiags P n
  kinds : ∀ g ∈ preDiags P n, g.kind ≠ .extraWith
  results : s1.results = s.results
  withScopes : s1.withScopes = s.withScopes
  bad : s1.bad = s.bad
  deep : s1.deep = s.deep
  toDefFrom : ∀ j, ptrFind j s1.toDef = ptrFind j s.toDef ∨
    ∃ d, s.store.length ≤ d ∧ d < s1.store.length ∧ (s1.get d).syntax_.id = j ∧ ptrFind j s1.toDef = some d
  toDefHas : ∀ d, s.store.length ≤ d → d < s1.store.length → ∃ d', ptrFind (s1.get d).syntax_.id s1.toDef = some d'
  wsyn : ∀ d, s.store.length ≤ d → d < s1.store.length → (s1.get d).source = .with_ →
    ptrFind n.id s1.withDefs = some d ∧ ∃ h sm w e, n = .exprWith h (s1.get d).syntax_ sm w e
  envs : s1.envs = s.envs
  wdef : ∀ q ∈ s1.withDefs, q ∈ s.withDefs ∨ n.id = q.1 ∧ ∃ h sm w e, n = .exprWith h (s1.get q.2).syntax_ sm w e

/-- After the parts of a node have been visited. -/
structure Post (P : PrimOps) (n : Node) (s2 s3 : VL) : Prop where
  store : s3.store = s2.store
  withDefs : s3.withDefs = s2.withDefs
  results : s3.results = s2.results
  withScopes : s3.withScopes = s2.withScopes
  toDef : s3.toDef = s2.toDef
  bad : s3.bad = s2.bad
  deep : s3.deep = s2.deep
  diagsMono : ∀ g ∈ s2.diags, g ∈ s3.diags
  diags : ∀ g, g.kind ≠ .extraWith → (g ∈ s3.diags ↔ g ∈ s2.diags ∨ g ∈ postDiags P n)
  withSound : ∀ g, g.kind = .extraWith → g ∈ s3.diags → g ∈ s2.diags ∨ isWithN n = true ∧ g = withDiag n ∧ wuses s2 n.id = []
  withAll : isWithN n = true → wuses s2 n.id = [] → withDiag n ∈ s3.diags
  envs : s3.envs = s2.envs

theorem get_of_store {s s' : VL} (h : s'.store = s.store) (d : Nat) : s'.get d = s.get d := by
  unfold VL.get
  rw [h]

theorem Pre.get {P : PrimOps} {n : Node} {s s1 : VL} {sc : Scope} (h : Pre P n s sc s1) {d : Nat} (hd : d < s.store.length) :
    s1.get d = s.get d := by
  obtain ⟨L, hL, -⟩ := h.store
  unfold VL.get
  rw [hL, List.getD_eq_getElem?_getD, List.getD_eq_getElem?_getD, List.getElem?_append_left hd]

theorem Pre.get_new {P : PrimOps} {n : Node} {s s1 : VL} {sc : Scope} (h : Pre P n s sc s1) {d : Nat} (hd : s.store.length ≤ d) :
    (s1.get d).uses = [] := by
  obtain ⟨L, hL, hu⟩ := h.store
  unfold VL.get
  rw [hL, List.getD_eq_getElem?_getD, List.getElem?_append_right hd]
  rcases hx : L[d - s.store.length]? with _ | x
  · rfl
  · exact hu x (List.mem_of_getElem? hx)

theorem Pre.ext {P : PrimOps} {n : Node} {s s1 : VL} {sc : Scope} (h : Pre P n s sc s1) : Ext s s1 where
  len := by
    obtain ⟨L, hL, -⟩ := h.store
    rw [hL]
    simp
  keep d hd := by rw [h.get hd]; exact ⟨rfl, rfl⟩
  wdefs := h.wdefs
  mono d hd := by rw [h.get hd]; exact List.prefix_refl _

theorem filterMap_flatMap' {α β γ : Type} (f : α → List β) (g : β → Option γ) (l : List α) :
    (l.flatMap f).filterMap g = l.flatMap fun a => (f a).filterMap g := by
  induction l with
  | nil => rfl
  | cons a l ih => simp [List.filterMap_append, ih]

theorem flatMap_congr' {α β : Type} {f g : α → List β} {l : List α} (h : ∀ a ∈ l, f a = g a) : l.flatMap f = l.flatMap g := by
  induction l with
  | nil => rfl
  | cons a l ih => simp [h a List.mem_cons_self, ih fun b hb => h b (List.mem_cons_of_mem _ hb)]

/-- Uses of old definitions: rebasing. -/
theorem uses_rebase {Γ : List Frame} {env : Env} {f : Frame} {sc : Scope} {N d : Nat} {L : List (Bool × Node)}
    (hb : ∀ x, keyFind x sc.defs = none ↔ f.binds x = none)
    (hg : ∀ x d, keyFind x sc.defs = some d → N ≤ d) (hd : d < N) :
    (L.flatMap (partEv Γ env f sc)).filterMap (useOf d) = (L.flatMap (partEv' Γ env f)).filterMap (useOf d) := by
  rw [filterMap_flatMap', filterMap_flatMap']
  apply flatMap_congr'
  intro p _
  unfold partEv partEv'
  rw [List.filterMap_map, List.filterMap_map]
  apply List.filterMap_congr
  intro q _
  simp only [Function.comp, useOf]
  cases p.1
  · rfl
  · simp only [if_true, free_append]
    rw [findDef]
    rcases hk : keyFind (varName q.2) sc.defs with _ | d'
    · have : free [f] (varName q.2) = true := by simp [free, (hb _).mp hk]
      simp [this]
    · have h1 := hg _ _ hk
      have h2 : free [f] (varName q.2) = false := by
        rcases hf : free [f] (varName q.2) with _ | _
        · rfl
        · simp [free] at hf
          rw [(hb _).mpr hf] at hk
          cases hk
      have h3 : (some d' == some d) = false := by simp; omega
      simp [h2, h3]

/-- Uses of the definitions of a node. -/
theorem uses_own {Γ : List Frame} {env : Env} {n : Node} {f : Frame} {sc : Scope} {N d : Nat} {x : Bytes}
    (he : ∀ x d, findDef x env = some d → d < N) (hd : N ≤ d) (hx : keyFind x sc.defs = some d)
    (hi : ∀ x y d, keyFind x sc.defs = some d → keyFind y sc.defs = some d → x = y) :
    ((parts n).flatMap (partEv Γ env f sc)).filterMap (useOf d) = usesIn n x := by
  unfold usesIn inner
  rw [filterMap_flatMap', filterMap_flatMap']
  apply flatMap_congr'
  intro p _
  unfold partEv
  rw [List.filterMap_map]
  rcases hp : p.1 with _ | _
  · simp only [Bool.false_eq_true, if_false, List.filterMap_nil]
    rw [List.filterMap_eq_nil_iff]
    intro q _
    simp only [Function.comp, useOf]
    split
    · rename_i hc
      simp only [Bool.and_eq_true, beq_iff_eq] at hc
      have := he _ _ hc.2
      omega
    · rfl
  · simp only [if_true]
    apply List.filterMap_congr
    intro q _
    simp only [Function.comp, useOf]
    by_cases hq : varName q.2 = x
    · have : findDef x (sc :: env) = some d := by rw [findDef, hx]
      rw [hq, this]
      simp
    · have : findDef (varName q.2) (sc :: env) ≠ some d := by
        rw [findDef]
        rcases hk : keyFind (varName q.2) sc.defs with _ | d'
        · intro h
          have := he _ _ h
          omega
        · simp only [ne_eq, Option.some.injEq]
          rintro rfl
          exact hq (hi _ _ _ hk hx)
      rw [beq_eq_false_iff_ne.mpr this, beq_eq_false_iff_ne.mpr hq]
      simp

theorem wuses_of_eq {s s' : VL} (h1 : s'.store = s.store) (h2 : s'.withDefs = s.withDefs) (id : Nat) : wuses s' id = wuses s id := by
  unfold wuses
  rw [h2]
  split <;> simp [get_of_store h1]

theorem node_eff {P : PrimOps} {n : Node} {Γ : List Frame} {env : Env} {sc : Scope} {s s1 s2 s3 : VL}
    (hv : isVar n = false) (he : EnvOk s Γ env) (pre : Pre P n s sc s1)
    (fold : Eff P ((parts n).flatMap (partEv Γ env (frameOf n) sc)) s1 s2)
    (hfr : isWithN n = true → frameOf n = .with_ n) (post : Post P n s2 s3) : Eff P (nodeEv Γ env n) s s3 := by
  have hkey := nodeEv_key Γ env sc n
  have hN : ∀ x d, findDef x env = some d → d < s.store.length := fun x d h => (envOk_some he h).1
  have hl := pre.ext.len
  have hl2 := fold.ext.len
  have hext : Ext s2 s3 := {
    len := by rw [post.store]; exact Nat.le_refl _
    keep := fun d _ => by rw [get_of_store post.store]; exact ⟨rfl, rfl⟩
    wdefs := by rw [post.withDefs]; exact List.prefix_refl _
    mono := fun d _ => by rw [get_of_store post.store]; exact List.prefix_refl _ }
  have hvar : varDiags P Γ n = [] := by unfold varDiags; simp [hv]
  have hiu : internalUse P (Γ, n) = false := by unfold internalUse; simp [hv]
  refine ⟨(pre.ext.trans fold.ext).trans hext, ?_, ?_, ?_, ?_, ?_, ?_, ?_, ?_, ?_, ?_, ?_, ?_, ?_, ?_, ?_, ?_, ?_, ?_, ?_, ?_, ?_, ?_, ?_, ?_⟩
  · constructor
    · intro p hp
      rw [post.withDefs] at hp
      rw [post.store, get_of_store post.store]
      exact fold.inv.src p hp
    · intro p hp q hq
      rw [post.withDefs] at hp hq
      exact fold.inv.inj p hp q hq
  · intro d hd hs
    rw [get_of_store post.store, fold.uses d (by omega) (by rw [pre.get hd]; exact hs), pre.get hd, nodeEv_eq, List.filterMap_cons]
    have : useOf d ⟨[], Γ, env, n⟩ = none := by unfold useOf; simp [hv]
    rw [this]
    simp only
    rw [uses_rebase (scopeOk_binds pre.scope) pre.find_ge hd]
  · intro d hd hd' hs
    rw [post.store] at hd'
    rw [get_of_store post.store] at hs ⊢
    rw [hkey]
    by_cases h1 : d < s1.store.length
    · have hk := fold.ext.keep d h1
      have hs1 : (s1.get d).source ≠ .with_ := by rw [← hk.2]; exact hs
      obtain ⟨x, hx⟩ := pre.own d hd h1 hs1
      refine ⟨(Γ, n), List.mem_cons_self, x, ?_, ?_⟩
      · rw [hk.1, hk.2]
        exact (scopeOk_find pre.scope hx).2.1
      · rw [fold.uses d h1 hs1, pre.get_new hd, List.nil_append]
        exact uses_own hN hd hx pre.find_inj
    · obtain ⟨p, hp, h⟩ := fold.new d (by omega) hd' hs
      exact ⟨p, List.mem_cons_of_mem _ hp, h⟩
  · intro id
    rw [wuses_of_eq post.store post.withDefs, fold.wuses, pre.wuses, hkey, List.flatMap_cons]
    have : wuseOf id (Γ, n) = [] := by unfold wuseOf; simp [hv]
    rw [this, List.nil_append]
  · intro q hq
    rw [post.results] at hq
    rw [hkey]
    rcases fold.resSound q hq with hq | ⟨p, hp, h1, h2, h3⟩
    · rw [pre.results] at hq
      exact .inl hq
    · exact .inr ⟨p, List.mem_cons_of_mem _ hp, h1, h2, h3.mono hext⟩
  · intro q hq
    rw [post.results]
    exact fold.resMono q (by rw [pre.results]; exact hq)
  · intro p hp h1 h2
    rw [hkey] at hp
    rw [post.results]
    rcases List.mem_cons.mp hp with rfl | hp
    · rw [hv] at h1; cases h1
    · exact fold.resAll p hp h1 h2
  · intro q hq
    rw [post.withScopes] at hq
    rw [hkey]
    rcases fold.wsSound q hq with hq | ⟨p, hp, h⟩
    · rw [pre.withScopes] at hq
      exact .inl hq
    · exact .inr ⟨p, List.mem_cons_of_mem _ hp, h⟩
  · intro q hq
    rw [post.withScopes]
    exact fold.wsMono q (by rw [pre.withScopes]; exact hq)
  · intro p hp h1 h2
    rw [hkey] at hp
    rw [post.withScopes]
    rcases List.mem_cons.mp hp with rfl | hp
    · rw [hv] at h1; cases h1
    · exact fold.wsAll p hp h1 h2
  · intro g hg
    rw [post.diags g hg, fold.diags g hg, pre.diags, hkey]
    simp only [List.mem_cons, exists_eq_or_imp, ownDiags, List.mem_append, hvar, List.not_mem_nil, or_false]
    constructor
    · rintro (((h | h) | h) | h)
      · exact .inl h
      · exact .inr (.inl (.inl h))
      · exact .inr (.inr h)
      · exact .inr (.inl (.inr h))
    · rintro (h | (h | h) | h)
      · exact .inl (.inl (.inl h))
      · exact .inl (.inl (.inr h))
      · exact .inr h
      · exact .inl (.inr h)
  · intro g hg
    exact post.diagsMono g (fold.diagsMono g ((pre.diags g).mpr (.inl hg)))
  · intro g hk hg
    rw [hkey]
    rcases post.withSound g hk hg with hg | ⟨h1, h2, h3⟩
    · rcases fold.withSound g hk hg with hg | ⟨p, hp, h⟩
      · rcases (pre.diags g).mp hg with hg | hg
        · exact .inl hg
        · exact absurd hk (pre.kinds g hg)
      · exact .inr ⟨p, List.mem_cons_of_mem _ hp, h⟩
    · refine .inr ⟨(Γ, n), List.mem_cons_self, h1, h2, ?_⟩
      intro q hq hvq
      rw [fold.wuses, List.append_eq_nil_iff] at h3
      obtain ⟨p, hp, hq⟩ := List.mem_flatMap.mp hq
      rcases hp1 : p.1 with _ | _
      · simp [hp1] at hq
      · simp only [hp1, if_true] at hq
        have hm : (q.1 ++ (frameOf n :: Γ), q.2) ∈ ((parts n).flatMap (partEv Γ env (frameOf n) sc)).map Ev.key := by
          refine List.mem_map.mpr ⟨⟨q.1, frameOf n :: Γ, sc :: env, q.2⟩, List.mem_flatMap.mpr ⟨p, hp, ?_⟩, rfl⟩
          unfold partEv
          refine List.mem_map.mpr ⟨q, hq, ?_⟩
          simp [hp1]
        have h4 := List.flatMap_eq_nil_iff.mp h3.2 _ hm
        rcases hf : free (q.1 ++ Γ) (varName q.2) with _ | _
        · rfl
        · exfalso
          have hf2 : free (q.1 ++ (frameOf n :: Γ)) (varName q.2) = true := by
            rw [free_append, Bool.and_eq_true] at hf ⊢
            refine ⟨hf.1, ?_⟩
            rw [hfr h1]
            simp only [free, List.all_cons, Frame.binds, Option.isNone_none, Bool.true_and]
            exact hf.2
          unfold wuseOf at h4
          simp only [hvq, hf2, Bool.and_self, if_true] at h4
          rw [List.filterMap_eq_nil_iff] at h4
          have := h4 n (by unfold withsOf; rw [hfr h1]; simp)
          simp at this
  · intro p hp h1 h2
    rw [wuses_of_eq post.store post.withDefs] at h2
    rw [hkey] at hp
    rcases List.mem_cons.mp hp with rfl | hp
    · exact post.withAll h1 h2
    · exact post.diagsMono _ (fold.withAll p hp h1 h2)
  · rw [post.bad, fold.bad, pre.bad, hkey, List.any_cons, hiu, Bool.false_or]
  · rw [post.deep, fold.deep, pre.deep]
  · intro j
    rw [post.toDef, post.store]
    rcases fold.toDefFrom j with h | ⟨d, hd1, hd2, hd3, hd4⟩
    · rcases pre.toDefFrom j with h' | ⟨d, hd1, hd2, hd3, hd4⟩
      · exact .inl (h.trans h')
      · exact .inr ⟨d, hd1, by omega, by rw [get_of_store post.store, (fold.ext.keep d hd2).1]; exact hd3, h.trans hd4⟩
    · exact .inr ⟨d, by omega, hd2, by rw [get_of_store post.store]; exact hd3, hd4⟩
  · intro d hd hd'
    rw [post.store] at hd'
    rw [post.toDef, get_of_store post.store]
    by_cases h1 : d < s1.store.length
    · rw [(fold.ext.keep d h1).1]
      obtain ⟨d', hd2⟩ := pre.toDefHas d hd h1
      rcases fold.toDefFrom (s1.get d).syntax_.id with h | ⟨_, _, _, _, h⟩
      · exact ⟨d', h.trans hd2⟩
      · exact ⟨_, h⟩
    · exact fold.toDefHas d (by omega) hd'
  · intro p hp x q hx
    rw [hkey] at hp
    rw [post.store]
    rcases List.mem_cons.mp hp with rfl | hp
    · rcases hk : keyFind x sc.defs with _ | d
      · rw [scopeOk_binds pre.scope, hx] at hk; cases hk
      · obtain ⟨k1, k2, -⟩ := scopeOk_find pre.scope hk
        rw [hx] at k2
        have hk' := fold.ext.keep d k1
        exact ⟨d, pre.find_ge _ _ hk, by omega, by rw [get_of_store post.store, hk'.1, hk'.2]; exact Option.some.inj k2⟩
    · obtain ⟨d, k1, k2, k3⟩ := fold.defAll p hp x q hx
      exact ⟨d, by omega, k2, by rw [get_of_store post.store]; exact k3⟩
  · intro d hd hd' hs
    rw [post.store] at hd'
    rw [get_of_store post.store] at hs ⊢
    rw [hkey]
    by_cases h1 : d < s1.store.length
    · have hk := fold.ext.keep d h1
      obtain ⟨hm, h⟩ := pre.wsyn d hd h1 (by rw [← hk.2]; exact hs)
      exact ⟨(Γ, n), List.mem_cons_self, by rw [post.withDefs]; exact ptrFind_ext fold.ext hm, by rw [hk.1]; exact h⟩
    · obtain ⟨p, hp, hm, h⟩ := fold.wsyn d (by omega) hd' hs
      exact ⟨p, List.mem_cons_of_mem _ hp, by rw [post.withDefs]; exact hm, h⟩
  · intro q hq
    rw [post.envs] at hq
    rw [hkey]
    rcases fold.envSound q hq with hq | ⟨p, hp, h1, h2⟩
    · rw [pre.envs] at hq
      exact .inl hq
    · exact .inr ⟨p, List.mem_cons_of_mem _ hp, h1, h2.mono hext⟩
  · intro q hq
    rw [post.envs]
    exact fold.envMono q (by rw [pre.envs]; exact hq)
  · intro p hp h1
    rw [hkey] at hp
    rw [post.envs]
    rcases List.mem_cons.mp hp with rfl | hp
    · rw [hv] at h1; cases h1
    · exact fold.envAll p hp h1
  · intro q hq
    rw [post.withDefs] at hq
    rw [hkey, get_of_store post.store]
    rcases fold.wdef q hq with hq | ⟨p, hp, h⟩
    · rcases pre.wdef q hq with hq' | ⟨ha, hb⟩
      · exact .inl hq'
      · exact .inr ⟨(Γ, n), List.mem_cons_self, ha, by rw [(fold.ext.keep q.2 (pre.inv.src q hq).1).1]; exact hb⟩
    · exact .inr ⟨p, List.mem_cons_of_mem _ hp, h⟩

end Verif.Nixf.Scoping
