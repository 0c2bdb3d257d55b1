import Verif.Lemmas.IdsSema
/-
Identities of nodes: the nodes with special scoping.
-/
namespace Verif.Nixf
open Scoping Node

/-- Nodes without special scoping. -/
def isPlain : Node → Bool
  | .null | .text _ | .attr .. | .exprAttrs .. | .exprLet .. | .exprLegacyLet .. | .exprLambda .. | .exprWith .. => false
  | _ => true

theorem plain_ok {n : Node} (h : isPlain n = true) {C : Node → Prop} :
    (∀ p ∈ Scoping.parts n, p.1 = false ∧ p.2 ∈ n.children) ∧ GoodN C n := by
  have aux : Scoping.parts n = n.children.map (fun c => (false, c)) → ∀ p ∈ Scoping.parts n, p.1 = false ∧ p.2 ∈ n.children := by
    intro he p hp
    rw [he] at hp
    obtain ⟨c, hc, rfl⟩ := List.mem_map.mp hp
    exact ⟨rfl, hc⟩
  cases n
  case exprVar => exact ⟨nofun, trivial, trivial, nofun⟩
  case exprAttrs | exprLet | exprLegacyLet | exprLambda | exprWith | null | text | attr => cases h
  all_goals exact ⟨aux rfl, trivial, trivial, nofun⟩

theorem G.plain {n : Node} {h : Hd} {a : Nat} {ns : List Node} (hp : isPlain n = true) (hh : n.hd? = some h) (hc : Cov a h.id ns)
    (ha : a ≤ h.id) (hs : ∀ c ∈ n.children, c ∈ ns) (ht : Typed n := by trivial) : G a (h.id + 1) n :=
  G.mk_reg hh hc ha hs (plain_ok (C := Reach n) hp).1 (plain_ok hp).2 ht

theorem child_mem {n c : Node} (h : c ∈ n.children) (ns : List Node) (hs : n.children = ns.filter Node.isNode) : c ∈ ns := by
  rw [hs] at h
  exact (List.mem_filter.mp h).1

theorem mem_children {n c : Node} {ns : List Node} (hs : n.children = ns.filter Node.isNode) (hc : c ∈ ns) (hn : c.isNode = true) :
    c ∈ n.children := by
  rw [hs]
  exact List.mem_filter.mpr ⟨hc, hn⟩

/-- Bounds for the identities of a node whose children are among `ns`. -/
theorem rid_bound {n : Node} {h : Hd} {a : Nat} {ns : List Node} (hh : n.hd? = some h) (hc : Cov a h.id ns) (ha : a ≤ h.id)
    (hs : ∀ c ∈ n.children, ∃ d ∈ ns, d.isNode = true ∧ Reach d c) :
    (∀ i, Rid n i → a ≤ i ∧ i < h.id + 1) ∧ ∀ c ∈ n.children, ¬ Rid c n.id := by
  have key : ∀ c ∈ n.children, ∀ i, Rid c i → a ≤ i ∧ i < h.id := by
    rintro c hcc i ⟨m, hm, rfl⟩
    obtain ⟨d, d1, d2, d3⟩ := hs c hcc
    exact (hc.all d d1).rid d2 _ ⟨m, d3.trans hm, rfl⟩
  have hid := id_of_hd hh
  constructor
  · intro i hi
    rcases rid_cases hi with rfl | ⟨c, hcc, hi⟩
    · omega
    · have := key c hcc i hi
      omega
  · intro c hcc hi
    have := key c hcc _ hi
    omega

/-! ### `with` -/

theorem G.with_ {h : Hd} {k s w e : Node} {a : Nat} (hc : Cov a h.id [k, w, s, e]) (ha : a ≤ h.id) (hl : Leaf k ∧ Leaf s) : G a (h.id + 1) (.exprWith h k s w e) := by
  have hs : ∀ c ∈ (Node.exprWith h k s w e).children, c ∈ [k, w, s, e] := fun c hcc => by
    have := child_mem hcc [k, s, w, e] rfl
    simp only [List.mem_cons, List.not_mem_nil, or_false] at this ⊢
    tauto
  have hw := hc.all w (by simp)
  have he := hc.all e (by simp)
  have hsep : Sep w e := by
    have := hc.sep
    simp only [List.pairwise_cons, List.mem_cons, List.not_mem_nil, or_false] at this
    exact this.2.1 e (.inr rfl)
  have hrb := rid_bound (n := .exprWith h k s w e) rfl hc ha (fun c hcc => ⟨c, hs c hcc, children_isNode hcc, .here c⟩)
  have hpm : ∀ p ∈ Scoping.parts (.exprWith h k s w e), (p = (false, w) ∧ w.isNode = true) ∨ (p = (true, e) ∧ e.isNode = true) := by
    intro p hp
    simp only [Scoping.parts, List.mem_append, inScope_mem] at hp
    rcases hp with hp | hp
    · split at hp
      · cases hp
      · rename_i hn
        simp only [List.mem_cons, List.not_mem_nil, or_false] at hp
        exact .inl ⟨hp, hw.nn (by simpa using hn)⟩
    · exact .inr ⟨hp.2, he.nn hp.1⟩
  have hpid : ∀ p ∈ Scoping.parts (.exprWith h k s w e), ∀ i, Pid p.2 i → a ≤ i ∧ i < h.id := by
    intro p hp i hi
    rcases hpm p hp with ⟨rfl, hn⟩ | ⟨rfl, hn⟩
    · exact hw.pid hn i hi
    · exact he.pid hn i hi
  refine ⟨fun _ => rfl, ?_, fun _ => hrb.1, cinj_of hc hs hrb.2, up_of hc (fun c h => .inl (hs c h)) trivial, VOk.of_parts (faithful_of_parts ?_ ?_ ?_) ⟨trivial, hl, fun c hc => by rw [List.mem_singleton.mp hc]; exact .here _⟩ ?_⟩
  · intro _ i hi
    rcases pid_cases hi with rfl | ⟨p, hp, hi⟩
    · have : (Node.exprWith h k s w e).id = h.id := rfl
      omega
    · have := hpid p hp i hi
      omega
  · intro p hp q hq hpq
    rcases hpm p hp with ⟨rfl, h1⟩ | ⟨rfl, h1⟩ <;> rcases hpm q hq with ⟨rfl, h2⟩ | ⟨rfl, h2⟩
    · exact hw.vok.1
    · cases hpq
    · cases hpq
    · exact he.vok.1
  · intro p hp q hq hpq
    rcases hpm p hp with ⟨rfl, h1⟩ | ⟨rfl, h1⟩ <;> rcases hpm q hq with ⟨rfl, h2⟩ | ⟨rfl, h2⟩
    · exact absurd rfl hpq
    · exact (hsep h1 h2).1
    · exact (hsep h2 h1).1.symm
    · exact absurd rfl hpq
  · intro p hp hc'
    have := hpid p hp _ hc'
    have : (Node.exprWith h k s w e).id = h.id := rfl
    omega
  · intro p hp
    rcases hpm p hp with ⟨rfl, h1⟩ | ⟨rfl, h1⟩
    · exact hw.vok.mono fun x hx => .down _ _ _ (mem_children (ns := [k, s, w, e]) rfl (by simp) h1) hx
    · exact he.vok.mono fun x hx => .down _ _ _ (mem_children (ns := [k, s, w, e]) rfl (by simp) h1) hx

/-! ### `let` -/

theorem G.let_ {h : Hd} {hk : Hd} {kin e attrs : Node} {a : Nat} (ha : a ≤ h.id) (hl : Leaf kin)
    (hc : (attrs = .null ∧ Cov a h.id [.misc hk, kin, e]) ∨
      ∃ h' body st dy, attrs = .exprAttrs h' body (.misc hk) st dy ∧ Cov a h.id [attrs, kin, e]) :
    G a (h.id + 1) (.exprLet h (.misc hk) kin e attrs) := by
  have hchm : ∀ c ∈ (Node.exprLet h (.misc hk) kin e attrs).children, c ∈ [.misc hk, attrs, kin, e] := fun c hcc => child_mem hcc _ rfl
  -- the list of children that share nothing
  have hns : ∃ ns, Cov a h.id ns ∧ e ∈ ns ∧ (∀ c ∈ (Node.exprLet h (.misc hk) kin e attrs).children, ∃ d ∈ ns, d.isNode = true ∧ Reach d c) := by
    rcases hc with ⟨rfl, hc⟩ | ⟨h', body, st, dy, rfl, hc⟩
    · refine ⟨_, hc, by simp, fun c hcc => ?_⟩
      have h1 := hchm c hcc
      have h2 := children_isNode hcc
      simp only [List.mem_cons, List.not_mem_nil, or_false] at h1
      rcases h1 with rfl | rfl | rfl | rfl
      · exact ⟨_, by simp, rfl, .here _⟩
      · cases h2
      · exact ⟨_, by simp, h2, .here _⟩
      · exact ⟨_, by simp, h2, .here _⟩
    · refine ⟨_, hc, by simp, fun c hcc => ?_⟩
      have h1 := hchm c hcc
      have h2 := children_isNode hcc
      simp only [List.mem_cons, List.not_mem_nil, or_false] at h1
      rcases h1 with rfl | rfl | rfl | rfl
      · exact ⟨.exprAttrs h' body (.misc hk) st dy, by simp, rfl,
          .down _ _ _ (mem_children (ns := [body, .misc hk]) rfl (by simp) rfl) (.here _)⟩
      · exact ⟨_, by simp, h2, .here _⟩
      · exact ⟨_, by simp, h2, .here _⟩
      · exact ⟨_, by simp, h2, .here _⟩
  obtain ⟨ns, hcov, hens, hs⟩ := hns
  have hrb := rid_bound (n := .exprLet h (.misc hk) kin e attrs) rfl hcov ha hs
  have he := hcov.all e hens
  -- the parts
  have hpm : ∀ p ∈ Scoping.parts (.exprLet h (.misc hk) kin e attrs), (p = (true, e) ∧ e.isNode = true) ∨
      ∃ h' body st dy, attrs = .exprAttrs h' body (.misc hk) st dy ∧ p ∈ attrParts true st dy := by
    intro p hp
    rcases hc with ⟨rfl, hc⟩ | ⟨h', body, st, dy, rfl, hc⟩
    · have hp : p ∈ inScope e := hp
      rw [inScope_mem] at hp
      exact .inl ⟨hp.2, he.nn hp.1⟩
    · have hp : p ∈ attrParts true st dy ++ inScope e := hp
      rw [List.mem_append, inScope_mem] at hp
      rcases hp with hp | hp
      · exact .inr ⟨h', body, st, dy, rfl, hp⟩
      · exact .inl ⟨hp.2, he.nn hp.1⟩
  -- the set
  have hset : ∀ h' body st dy, attrs = .exprAttrs h' body (.misc hk) st dy → G a h.id attrs ∧ (e.isNode = true → PDisj attrs e) ∧
      ∀ p ∈ attrParts true st dy, p ∈ Scoping.parts attrs := by
    rintro h' body st dy rfl
    rcases hc with ⟨hc, _⟩ | ⟨_, _, _, _, _, hc⟩
    · cases hc
    · refine ⟨hc.all _ (by simp), fun hn => ?_, fun p hp => hp⟩
      have := hc.sep
      simp only [List.pairwise_cons, List.mem_cons, List.not_mem_nil, or_false] at this
      exact (this.1 e (.inr rfl) rfl hn).1
  have hpid : ∀ p ∈ Scoping.parts (.exprLet h (.misc hk) kin e attrs), ∀ i, Pid p.2 i → a ≤ i ∧ i < h.id := by
    intro p hp i hi
    rcases hpm p hp with ⟨rfl, hn⟩ | ⟨h', body, st, dy, hat, hp⟩
    · exact he.pid hn i hi
    · obtain ⟨g, _, hpp⟩ := hset _ _ _ _ hat
      exact g.pid (by rw [hat]; rfl) i (pid_part (hpp p hp) hi)
  have hcross : ∀ h' body st dy, attrs = .exprAttrs h' body (.misc hk) st dy → e.isNode = true → ∀ p ∈ attrParts true st dy, PDisj p.2 e := by
    intro h' body st dy hat hn p hp i h1 h2
    obtain ⟨_, hd, hpp⟩ := hset _ _ _ _ hat
    exact hd hn i (pid_part (hpp p hp) h1) h2
  have hrel : ∀ p ∈ Scoping.parts (.exprLet h (.misc hk) kin e attrs), ∀ q ∈ Scoping.parts (.exprLet h (.misc hk) kin e attrs),
      (p.1 = q.1 → Compat p.2 q.2) ∧ (p.1 ≠ q.1 → PDisj p.2 q.2) := by
    intro p hp q hq
    rcases hpm p hp with ⟨rfl, h1⟩ | ⟨h', body, st, dy, hat, hp⟩ <;> rcases hpm q hq with ⟨rfl, h2⟩ | ⟨h'', body', st', dy', hat', hq⟩
    · exact ⟨fun _ => he.vok.1, fun hc => absurd rfl hc⟩
    · have := hcross _ _ _ _ hat' h1 q hq
      exact ⟨fun _ => this.symm.compat, fun _ => this.symm⟩
    · have := hcross _ _ _ _ hat h2 p hp
      exact ⟨fun _ => this.compat, fun _ => this⟩
    · obtain ⟨g, _, hpp⟩ := hset _ _ _ _ hat
      rw [hat] at hat'
      cases hat'
      rw [hat] at g
      have hsa := unSet g.vok
      exact attrParts_rel hsa.si (fun x hx => (hsa.sval x hx).1) (fun x hx => (hsa.dkey x hx).1) (fun x hx => (hsa.dval x hx).1) true p hp q hq
  have hreach : attrs.isNode = true → ∀ k, Reach attrs k → Reach (.exprLet h (.misc hk) kin e attrs) k := fun hn k hk' =>
    .down _ _ _ (mem_children (ns := [.misc hk, attrs, kin, e]) rfl (by simp) hn) hk'
  have hup : UPar (.exprLet h (.misc hk) kin e attrs) ∧ ∀ m, Reach (.exprLet h (.misc hk) kin e attrs) m → Typed m := by
    rcases hc with ⟨rfl, hc⟩ | ⟨h', body, st, dy, rfl, hc⟩
    · refine up_of hc (fun c hcc => .inl ?_) (.inl rfl)
      have h1 := hchm c hcc
      have h2 := children_isNode hcc
      simp only [List.mem_cons, List.not_mem_nil, or_false] at h1 ⊢
      rcases h1 with rfl | rfl | rfl | rfl
      · exact .inl rfl
      · cases h2
      · exact .inr (.inl rfl)
      · exact .inr (.inr rfl)
    · refine up_of hc (fun c hcc => ?_) (.inr ⟨rfl, _, _, _, _, rfl⟩)
      have h1 := hchm c hcc
      simp only [List.mem_cons, List.not_mem_nil, or_false] at h1
      rcases h1 with rfl | rfl | rfl | rfl
      · exact .inr ⟨.exprAttrs h' body (.misc hk) st dy, by simp, rfl, _, _, _, _, rfl, .inl ⟨_, _, _, rfl⟩⟩
      all_goals exact .inl (by simp)
  refine ⟨fun _ => rfl, ?_, fun _ => hrb.1, cinj_of' hcov hs hrb.2, hup,
    VOk.of_parts (faithful_of_parts (fun p hp q hq => (hrel p hp q hq).1) (fun p hp q hq => (hrel p hp q hq).2) ?_) ?_ ?_⟩
  · intro _ i hi
    rcases pid_cases hi with rfl | ⟨p, hp, hi⟩
    · have : (Node.exprLet h (.misc hk) kin e attrs).id = h.id := rfl
      omega
    · have := hpid p hp i hi
      omega
  · intro p hp hc'
    have := hpid p hp _ hc'
    have : (Node.exprLet h (.misc hk) kin e attrs).id = h.id := rfl
    omega
  · rcases hc with ⟨rfl, hc⟩ | ⟨h', body, st, dy, rfl, hc⟩
    · exact ⟨trivial, ⟨.inr ⟨_, rfl⟩, hl, .inl rfl⟩, nofun⟩
    · have g := hc.all _ (List.mem_cons_self ..)
      have hsa := unSet g.vok
      refine ⟨⟨rfl, hsa.si.goodSet⟩, ⟨.inr ⟨_, rfl⟩, hl, .inr ⟨_, _, _, _, _, rfl, hsa.si⟩⟩, fun k hk' => ?_⟩
      obtain ⟨x, hx, rfl⟩ := List.mem_map.mp hk'
      exact hreach rfl _ (hsa.keys x hx)
  · intro p hp
    rcases hpm p hp with ⟨rfl, hn⟩ | ⟨h', body, st, dy, hat, hp⟩
    · exact he.vok.mono fun k hk' => .down _ _ _ (mem_children (ns := [.misc hk, attrs, kin, e]) rfl (by simp) hn) hk'
    · obtain ⟨g, _, hpp⟩ := hset _ _ _ _ hat
      exact (g.vok.part (hpp p hp)).mono fun k hk' => hreach (by rw [hat]; rfl) k hk'

theorem G.legacyLet {h h' hk : Hd} {body : Node} {st dy : List Node} {a : Nat} (ha : a ≤ h.id)
    (hg : G a h.id (.exprAttrs h' body (.misc hk) st dy)) :
    G a (h.id + 1) (.exprLegacyLet h (.misc hk) (.exprAttrs h' body (.misc hk) st dy)) := by
  have hs : ∀ c ∈ (Node.exprLegacyLet h (.misc hk) (.exprAttrs h' body (.misc hk) st dy)).children,
      ∃ d ∈ [Node.exprAttrs h' body (.misc hk) st dy], d.isNode = true ∧ Reach d c := by
    intro c hcc
    have h1 := child_mem hcc [.misc hk, .exprAttrs h' body (.misc hk) st dy] rfl
    simp only [List.mem_cons, List.not_mem_nil, or_false] at h1
    refine ⟨.exprAttrs h' body (.misc hk) st dy, by simp, rfl, ?_⟩
    rcases h1 with rfl | rfl
    · exact .down _ _ _ (mem_children (ns := [body, .misc hk]) rfl (by simp) rfl) (.here _)
    · exact .here _
  have hrb := rid_bound (n := .exprLegacyLet h (.misc hk) (.exprAttrs h' body (.misc hk) st dy)) rfl (Cov.one hg) ha hs
  have hp1 : Scoping.parts (.exprLegacyLet h (.misc hk) (.exprAttrs h' body (.misc hk) st dy)) = [(false, .exprAttrs h' body (.misc hk) st dy)] := rfl
  have hid : (Node.exprLegacyLet h (.misc hk) (.exprAttrs h' body (.misc hk) st dy)).id = h.id := rfl
  have hup : UPar (.exprLegacyLet h (.misc hk) (.exprAttrs h' body (.misc hk) st dy)) ∧
      ∀ m, Reach (.exprLegacyLet h (.misc hk) (.exprAttrs h' body (.misc hk) st dy)) m → Typed m := by
    refine up_of (Cov.one hg) (fun c hcc => ?_) ⟨⟨_, rfl⟩, _, _, _, _, rfl⟩
    have h1 := child_mem hcc [.misc hk, .exprAttrs h' body (.misc hk) st dy] rfl
    simp only [List.mem_cons, List.not_mem_nil, or_false] at h1
    rcases h1 with rfl | rfl
    · exact .inr ⟨.exprAttrs h' body (.misc hk) st dy, by simp, rfl, _, _, _, _, rfl, .inr ⟨_, rfl⟩⟩
    · exact .inl (by simp)
  refine ⟨fun _ => rfl, ?_, fun _ => hrb.1, cinj_of' (Cov.one hg) hs hrb.2, hup, VOk.of_parts (faithful_of_parts ?_ ?_ ?_) ⟨trivial, ⟨.inr ⟨_, rfl⟩, _, _, _, _, _, rfl⟩, nofun⟩ ?_⟩
  · intro _ i hi
    rcases pid_cases hi with rfl | ⟨p, hp, hi⟩
    · omega
    · rw [hp1, List.mem_singleton] at hp
      subst hp
      have := hg.pid rfl i hi
      omega
  · rw [hp1]
    simp only [List.mem_singleton]
    rintro p rfl q rfl _
    exact hg.vok.1
  · rw [hp1]
    simp only [List.mem_singleton]
    rintro p rfl q rfl hc
    exact absurd rfl hc
  · rw [hp1]
    simp only [List.mem_singleton]
    rintro p rfl hc
    have := hg.pid rfl _ hc
    omega
  · rw [hp1]
    simp only [List.mem_singleton]
    rintro p rfl
    exact hg.vok.mono fun k hk' => .down _ _ _
      (mem_children (n := .exprLegacyLet h (.misc hk) (.exprAttrs h' body (.misc hk) st dy)) (ns := [.misc hk, .exprAttrs h' body (.misc hk) st dy]) rfl (by simp) rfl) hk'

/-! ### Lambda -/

/-- A formal as the parser makes it. -/
def FormalOk (m : Node) : Prop :=
  ∃ h c i d e, m = .formal h c i d e ∧ (e.isNull = true ∨ (i = .null ∧ d = .null)) ∧ (d.isNull = false → d.isNode = true) ∧
    (i.isNull = false → i.isNode = true)

/-- An argument as the parser makes it. -/
def ArgOk (n : Node) : Prop :=
  ∃ h i f, n = .lambdaArg h i f ∧ (i = .null → f ≠ .null) ∧ (i.isNull = false → i.isNode = true) ∧ (f = .null ∨ ∃ h' ms, f = .formals h' ms ∧ ∀ m ∈ ms, m.isNode = true ∧ FormalOk m)

theorem G.lambda {h : Hd} {arg e : Node} {a : Nat} (ha : a ≤ h.id) (hc : Cov a h.id [arg, e]) (harg : ArgOk arg) :
    G a (h.id + 1) (.exprLambda h arg e) := by
  obtain ⟨h', i, f, rfl, hif, hi, hf⟩ := harg
  have hs : ∀ c ∈ (Node.exprLambda h (.lambdaArg h' i f) e).children, c ∈ [.lambdaArg h' i f, e] := fun c hcc => child_mem hcc _ rfl
  have hrb := rid_bound (n := .exprLambda h (.lambdaArg h' i f) e) rfl hc ha (fun c hcc => ⟨c, hs c hcc, children_isNode hcc, .here c⟩)
  have hid : (Node.exprLambda h (.lambdaArg h' i f) e).id = h.id := rfl
  have hga := hc.all (.lambdaArg h' i f) (by simp)
  have hge := hc.all e (by simp)
  have hsep : e.isNode = true → PDisj (.lambdaArg h' i f) e := fun hn => by
    have := hc.sep
    simp only [List.pairwise_cons, List.mem_cons, List.not_mem_nil, or_false] at this
    exact (this.1 e rfl rfl hn).1
  -- the way down to the default of a formal
  have hmem : ∀ m ∈ formalMembers f, m.isNode = true ∧ FormalOk m ∧ (false, f) ∈ Scoping.parts (.lambdaArg h' i f) ∧ f ∈ (Node.lambdaArg h' i f).children ∧
      (false, m) ∈ Scoping.parts f ∧ m ∈ f.children := by
    intro m hm
    rcases hf with rfl | ⟨h'', ms, rfl, hms⟩
    · cases hm
    · have h1 : (Node.formals h'' ms) ∈ (Node.lambdaArg h' i (.formals h'' ms)).children :=
        mem_children (ns := [i, .formals h'' ms]) rfl (by simp) rfl
      have h2 : m ∈ (Node.formals h'' ms).children := mem_children (ns := ms) rfl hm (hms m hm).1
      exact ⟨(hms m hm).1, (hms m hm).2, List.mem_map.mpr ⟨_, h1, rfl⟩, h1, List.mem_map.mpr ⟨_, h2, rfl⟩, h2⟩
  have hdef : ∀ m ∈ formalMembers f, (formalDefault m).isNull = false → (formalDefault m).isNode = true ∧
      (false, formalDefault m) ∈ Scoping.parts m := by
    intro m hm hn
    obtain ⟨h1, ⟨hh, c, i', d, e', rfl, h2, h3, -⟩, -⟩ := hmem m hm
    simp only [formalDefault] at hn ⊢
    have hdn := h3 hn
    refine ⟨hdn, ?_⟩
    rcases h2 with h2 | ⟨-, rfl⟩
    · exact List.mem_map.mpr ⟨d, mem_children (n := .formal hh c i' d e') (ns := [i', d]) (by simp [Node.children, h2]) (by simp) hdn, rfl⟩
    · cases hn
  have hdin : ∀ m ∈ formalMembers f, (formalDefault m).isNull = false → ∀ Δ x, Inside (formalDefault m) Δ x → Inside (.lambdaArg h' i f) Δ x := by
    intro m hm hn Δ x hx
    obtain ⟨-, -, p1, -, p2, -⟩ := hmem m hm
    exact .outer _ _ _ _ p1 (.outer _ _ _ _ p2 (.outer _ _ _ _ (hdef m hm hn).2 hx))
  have hpm : ∀ p ∈ Scoping.parts (.exprLambda h (.lambdaArg h' i f) e), p.1 = true ∧ e.isNode = true ∧
      (p.2 = e ∨ ((∀ Δ x, Inside p.2 Δ x → Inside (.lambdaArg h' i f) Δ x) ∧ VOk (Reach (.lambdaArg h' i f)) p.2)) := by
    intro p hp
    simp only [Scoping.parts] at hp
    split at hp
    · cases hp
    · rename_i hn
      have hen := hge.nn (by simpa using hn)
      simp only [List.mem_append, List.mem_flatMap, inScope_mem, List.mem_cons, List.not_mem_nil, or_false] at hp
      rcases hp with ⟨m, hm, hn, rfl⟩ | rfl
      · obtain ⟨-, -, p1, -, p2, -⟩ := hmem m hm
        have hv : VOk (Reach (.lambdaArg h' i f)) (formalDefault m) := ((hga.vok.part p1).part p2).part (hdef m hm hn).2
        exact ⟨rfl, hen, .inr ⟨hdin m hm hn, hv⟩⟩
      · exact ⟨rfl, hen, .inl rfl⟩
  have hpid : ∀ p ∈ Scoping.parts (.exprLambda h (.lambdaArg h' i f) e), ∀ i, Pid p.2 i → a ≤ i ∧ i < h.id := by
    rintro p hp j hj
    obtain ⟨-, hen, hp | hp⟩ := hpm p hp
    · rw [hp] at hj; exact hge.pid hen _ hj
    · obtain ⟨Δ, m, hm, rfl⟩ := hj
      exact hga.pid rfl _ ⟨_, _, hp.1 _ _ hm, rfl⟩
  refine ⟨fun _ => rfl, ?_, fun _ => hrb.1, cinj_of hc hs hrb.2, up_of hc (fun c h => .inl (hs c h)) ⟨_, _, _, rfl, hif⟩, VOk.of_parts (faithful_of_parts ?_ ?_ ?_) ?_ ?_⟩
  · intro _ j hj
    rcases pid_cases hj with rfl | ⟨p, hp, hj⟩
    · omega
    · have := hpid p hp j hj
      omega
  · intro p hp q hq _
    obtain ⟨-, hen, hp | hp⟩ := hpm p hp <;> obtain ⟨-, -, hq | hq⟩ := hpm q hq
    · rw [hp, hq]; exact hge.vok.1
    · rw [hp]
      intro Δ m Δ' m' h1 h2 hid
      exact (hsep hen _ ⟨_, _, hq.1 _ _ h2, rfl⟩ ⟨_, _, h1, hid⟩).elim
    · rw [hq]
      intro Δ m Δ' m' h1 h2 hid
      exact (hsep hen _ ⟨_, _, hp.1 _ _ h1, rfl⟩ ⟨_, _, h2, hid.symm⟩).elim
    · intro Δ m Δ' m' h1 h2 hid
      exact hga.vok.1 _ _ _ _ (hp.1 _ _ h1) (hq.1 _ _ h2) hid
  · intro p hp q hq hne
    exact absurd ((hpm p hp).1.trans (hpm q hq).1.symm) hne
  · intro p hp hc'
    have := hpid p hp _ hc'
    omega
  · refine ⟨trivial, ⟨_, _, _, rfl, hif, hf.imp id fun ⟨h', ms, hf, _⟩ => ⟨h', ms, hf⟩⟩, fun k hk => ?_⟩
    rcases List.mem_cons.mp hk with rfl | hk
    · exact .here _
    have hk := List.mem_filter.mp hk
    have hk2 : k.isNull = false := by simpa using hk.2
    refine .down _ (.lambdaArg h' i f) _ (mem_children (ns := [.lambdaArg h' i f, e]) rfl (by simp) rfl) ?_
    rcases List.mem_cons.mp hk.1 with rfl | hk1
    · exact .down _ _ _ (mem_children (ns := [k, f]) rfl (by simp) (hi hk2)) (.here _)
    · obtain ⟨m, hm, rfl⟩ := List.mem_map.mp hk1
      obtain ⟨-, ⟨hh, c, i', d, e', rfl, h2, h3, h4⟩, -, c1, -, c2⟩ := hmem m hm
      refine .down _ _ _ c1 (.down _ _ _ c2 (.down _ _ _ ?_ (.here _)))
      rcases h2 with h2 | ⟨rfl, -⟩
      · exact mem_children (n := .formal hh c i' d e') (ns := [i', d]) (by simp [Node.children, h2]) (by simp [formalID]) (h4 hk2)
      · cases hk2
  · intro p hp
    obtain ⟨-, hen, hp | hp⟩ := hpm p hp
    · rw [hp]
      exact hge.vok.mono fun k hk => .down _ _ _ (mem_children (ns := [.lambdaArg h' i f, e]) rfl (by simp) hen) hk
    · exact hp.2.mono fun k hk => .down _ _ _ (mem_children (ns := [.lambdaArg h' i f, e]) rfl (by simp) rfl) hk

end Verif.Nixf
