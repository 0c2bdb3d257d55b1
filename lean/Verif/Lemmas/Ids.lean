import Verif.Lemmas.ScopeRun
import Verif.Spec.Parents
/-
Identities of nodes: which trees have distinct nodes with distinct identities.
-/
namespace Verif.Nixf
open Scoping Node

theorem Reach.trans {a b c : Node} (h : Reach a b) (h' : Reach b c) : Reach a c := by
  induction h with
  | here => exact h'
  | down n x m hx _ ih => exact .down _ _ _ hx (ih h')

/-- The identities of the parts of a node. -/
def Pid (n : Node) (i : Nat) : Prop := ∃ Δ m, Inside n Δ m ∧ m.id = i

/-- The identities of a node and what is below it. -/
def Rid (n : Node) (i : Nat) : Prop := ∃ m, Reach n m ∧ m.id = i

def PDisj (a b : Node) : Prop := ∀ i, Pid a i → Pid b i → False
def RDisj (a b : Node) : Prop := ∀ i, Rid a i → Rid b i → False

/-- Parts with the same identity are the same. -/
def Compat (a b : Node) : Prop :=
  ∀ Δ m Δ' m', Inside a Δ m → Inside b Δ' m' → m.id = m'.id → m = m' ∧ Δ = Δ'

theorem PDisj.symm {a b : Node} (h : PDisj a b) : PDisj b a := fun i x y => h i y x
theorem RDisj.symm {a b : Node} (h : RDisj a b) : RDisj b a := fun i x y => h i y x
theorem Compat.symm {a b : Node} (h : Compat a b) : Compat b a := fun Δ m Δ' m' h1 h2 h3 => by
  obtain ⟨rfl, rfl⟩ := h _ _ _ _ h2 h1 h3.symm
  exact ⟨rfl, rfl⟩
theorem PDisj.compat {a b : Node} (h : PDisj a b) : Compat a b := fun _ _ _ _ h1 h2 h3 =>
  absurd ⟨_, _, h2, h3.symm⟩ (h _ ⟨_, _, h1, rfl⟩)

theorem inside_cases {n m : Node} {Δ : List Frame} (h : Inside n Δ m) : (Δ = [] ∧ m = n) ∨
    ∃ p ∈ parts n, ∃ Δ', Inside p.2 Δ' m ∧ Δ = if p.1 then Δ' ++ [frameOf n] else Δ' := by
  cases h with
  | here => exact .inl ⟨rfl, rfl⟩
  | outer _ c _ _ hc h => exact .inr ⟨_, hc, _, h, rfl⟩
  | inner _ c _ _ hc h => exact .inr ⟨_, hc, _, h, rfl⟩

theorem inside_part {n m : Node} {Δ : List Frame} {p : Bool × Node} (hp : p ∈ parts n) (h : Inside p.2 Δ m) :
    Inside n (if p.1 then Δ ++ [frameOf n] else Δ) m := by
  obtain ⟨b, c⟩ := p
  cases b
  · exact .outer _ _ _ _ hp h
  · exact .inner _ _ _ _ hp h

theorem pid_self (n : Node) : Pid n n.id := ⟨[], n, .here n, rfl⟩
theorem rid_self (n : Node) : Rid n n.id := ⟨n, .here n, rfl⟩

theorem pid_cases {n : Node} {i : Nat} (h : Pid n i) : i = n.id ∨ ∃ p ∈ parts n, Pid p.2 i := by
  obtain ⟨Δ, m, hm, rfl⟩ := h
  rcases inside_cases hm with ⟨_, rfl⟩ | ⟨p, hp, Δ', h, _⟩
  · exact .inl rfl
  · exact .inr ⟨p, hp, Δ', m, h, rfl⟩

theorem pid_part {n : Node} {i : Nat} {p : Bool × Node} (hp : p ∈ parts n) (h : Pid p.2 i) : Pid n i := by
  obtain ⟨Δ, m, hm, rfl⟩ := h
  exact ⟨_, m, inside_part hp hm, rfl⟩

theorem rid_cases {n : Node} {i : Nat} (h : Rid n i) : i = n.id ∨ ∃ c ∈ n.children, Rid c i := by
  obtain ⟨m, hm, rfl⟩ := h
  cases hm with
  | here => exact .inl rfl
  | down _ c _ hc h => exact .inr ⟨c, hc, m, h, rfl⟩

theorem faithful_of_parts {n : Node} (h1 : ∀ p ∈ parts n, ∀ q ∈ parts n, p.1 = q.1 → Compat p.2 q.2)
    (h2 : ∀ p ∈ parts n, ∀ q ∈ parts n, p.1 ≠ q.1 → PDisj p.2 q.2) (h3 : ∀ p ∈ parts n, ¬ Pid p.2 n.id) : Faithful n := by
  intro Δ m Δ' m' hm hm' hid
  rcases inside_cases hm with ⟨rfl, rfl⟩ | ⟨p, hp, E, h, rfl⟩
  · rcases inside_cases hm' with ⟨rfl, rfl⟩ | ⟨q, hq, E', h', rfl⟩
    · exact ⟨rfl, rfl⟩
    · exact absurd ⟨_, _, h', hid.symm⟩ (h3 q hq)
  · rcases inside_cases hm' with ⟨rfl, rfl⟩ | ⟨q, hq, E', h', rfl⟩
    · exact absurd ⟨_, _, h, hid⟩ (h3 p hp)
    · by_cases hpq : p.1 = q.1
      · obtain ⟨rfl, rfl⟩ := h1 p hp q hq hpq _ _ _ _ h h' hid
        rw [hpq]; exact ⟨rfl, rfl⟩
      · exact (h2 p hp q hq hpq _ ⟨_, _, h, rfl⟩ ⟨_, _, h', hid.symm⟩).elim

theorem faithful_part {n : Node} (hf : Faithful n) {p : Bool × Node} (hp : p ∈ parts n) : Faithful p.2 := by
  intro Δ m Δ' m' hm hm' hid
  obtain ⟨rfl, h⟩ := hf _ _ _ _ (inside_part hp hm) (inside_part hp hm') hid
  refine ⟨rfl, ?_⟩
  split at h
  · exact List.append_cancel_right h
  · exact h

/-! ### Sets -/

/-- The values of two static attributes share nothing, or only the expression of an `inherit (e)`. -/
def RelS (x y : Node) : Prop :=
  PDisj (attrValue x) (attrValue y) ∨
    (attrKind x = .inheritFrom ∧ attrKind y = .inheritFrom ∧ Compat (attrValue x) (attrValue y))

theorem RelS.symm {x y : Node} (h : RelS x y) : RelS y x :=
  h.elim (fun h => .inl h.symm) (fun h => .inr ⟨h.2.1, h.1, h.2.2.symm⟩)

/-- The identities in a dynamic attribute. -/
def FootD (x : Node) (i : Nat) : Prop := Pid (attrKey x) i ∨ Pid (attrValue x) i

def DisjD (x y : Node) : Prop := ∀ i, FootD x i → FootD y i → False

theorem DisjD.symm {x y : Node} (h : DisjD x y) : DisjD y x := fun i a b => h i b a

def isSelect : Node → Bool
  | .exprSelect .. => true
  | _ => false

/-- The attributes of a set are as the parser makes them. -/
structure SI (st dy : List Node) : Prop where
  relS : st.Pairwise RelS
  relD : dy.Pairwise DisjD
  relSD : ∀ x ∈ st, ∀ y ∈ dy, ∀ i, Pid (attrValue x) i → FootD y i → False
  dyn : ∀ y ∈ dy, PDisj (attrKey y) (attrValue y)
  names : (st.map attrName).Nodup
  nodes : ∀ x ∈ st ++ dy, (attrKey x).isNode = true ∧ (attrValue x).isNode = true
  sel : ∀ x ∈ st, attrKind x = .inheritFrom → isSelect (attrValue x) = true
  static : ∀ x ∈ st, (attrKey x).staticName? = some (attrName x)

/-- A keyword or another token, or nothing. -/
def Leaf (n : Node) : Prop := n = .null ∨ ∃ h, n = .misc h

def SetInv : Node → Prop
  | .exprAttrs h _ _ st dy =>
    SI st dy ∧ (∀ x ∈ st, ¬ Pid (attrValue x) h.id) ∧ (∀ y ∈ dy, ¬ FootD y h.id)
  | .exprLet _ k i _ a => Leaf k ∧ Leaf i ∧ (a = .null ∨ ∃ h b r st dy, a = .exprAttrs h b r st dy ∧ SI st dy)
  | .exprLegacyLet _ k a => Leaf k ∧ ∃ h b r st dy, a = .exprAttrs h b r st dy
  | .exprWith _ k s _ _ => Leaf k ∧ Leaf s
  | .exprLambda _ a _ => ∃ h i f, a = .lambdaArg h i f ∧ (i = .null → f ≠ .null) ∧ (f = .null ∨ ∃ h' ms, f = .formals h' ms)
  | _ => True

/-- The nodes that define names here, and a function or a `with` itself. -/
def keysOf : Node → List Node
  | .exprAttrs _ _ _ st _ => st.map attrKey
  | .exprLet _ _ _ _ (.exprAttrs _ _ _ st _) => st.map attrKey
  | .exprLambda h (.lambdaArg ha i f) e => .exprLambda h (.lambdaArg ha i f) e :: (i :: (formalMembers f).map formalID).filter (!·.isNull)
  | .exprWith h k s w e => [.exprWith h k s w e]
  | _ => []

/-- What holds of every part of a parsed tree; `C` are the nodes of the tree. -/
def GoodN (C : Node → Prop) (m : Node) : Prop := Shape m ∧ SetInv m ∧ ∀ k ∈ keysOf m, C k

def VOk (C : Node → Prop) (v : Node) : Prop := Faithful v ∧ ∀ Δ m, Inside v Δ m → GoodN C m

theorem GoodN.mono {C C' : Node → Prop} {m : Node} (h : GoodN C m) (hc : ∀ k, C k → C' k) : GoodN C' m :=
  ⟨h.1, h.2.1, fun k hk => hc k (h.2.2 k hk)⟩

theorem VOk.mono {C C' : Node → Prop} {m : Node} (h : VOk C m) (hc : ∀ k, C k → C' k) : VOk C' m :=
  ⟨h.1, fun Δ m hm => (h.2 Δ m hm).mono hc⟩

theorem VOk.part {C : Node → Prop} {n : Node} (h : VOk C n) {p : Bool × Node} (hp : p ∈ parts n) : VOk C p.2 :=
  ⟨faithful_part h.1 hp, fun _ _ hm => h.2 _ _ (inside_part hp hm)⟩

theorem VOk.good {C : Node → Prop} {n : Node} (h : VOk C n) : GoodN C n := h.2 _ _ (.here n)

theorem VOk.of_parts {C : Node → Prop} {n : Node} (hf : Faithful n) (hg : GoodN C n) (h : ∀ p ∈ parts n, VOk C p.2) : VOk C n := by
  refine ⟨hf, fun Δ m hm => ?_⟩
  rcases inside_cases hm with ⟨_, rfl⟩ | ⟨p, hp, E, h', _⟩
  · exact hg
  · exact (h p hp).2 _ _ h'

/-- Nodes below have distinct identities. -/
def CInj (n : Node) : Prop := ∀ m m', Reach n m → Reach n m' → m.id = m'.id → m = m'

/-- A node below has one parent, except for the keyword `let`. -/
def UPar (n : Node) : Prop :=
  ∀ p p' c, Reach n p → Reach n p' → c ∈ p.children → c ∈ p'.children → p = p' ∨ LetKw p c p' ∨ LetKw p' c p

/-- A tree made by the parser with the identities from `a` to `b`. -/
structure G (a b : Nat) (n : Node) : Prop where
  nn : n.isNull = false → n.isNode = true
  pid : n.isNode = true → ∀ i, Pid n i → a ≤ i ∧ i < b
  rid : n.isNode = true → ∀ i, Rid n i → a ≤ i ∧ i < b
  cinj : CInj n
  up : UPar n ∧ ∀ m, Reach n m → Typed m
  vok : VOk (Reach n) n

theorem G.mono {a b a' b' : Nat} {n : Node} (h : G a b n) (ha : a' ≤ a) (hb : b ≤ b') : G a' b' n :=
  ⟨h.nn, fun hn i hi => by have := h.pid hn i hi; omega, fun hn i hi => by have := h.rid hn i hi; omega, h.cinj, h.up, h.vok⟩

theorem reach_null {m : Node} (h : Reach .null m) : m = .null := by
  cases h with
  | here => rfl
  | down _ c _ hc _ => cases hc

theorem inside_null {Δ : List Frame} {m : Node} (h : Inside .null Δ m) : Δ = [] ∧ m = .null := by
  rcases inside_cases h with h | ⟨p, hp, _⟩
  · exact h
  · cases hp

theorem G.null (a b : Nat) : G a b .null := by
  refine ⟨nofun, nofun, nofun, ?_, ?_, ?_, ?_⟩
  · intro m m' h h' _
    rw [reach_null h, reach_null h']
  · refine ⟨fun p p' c h _ hc _ => ?_, fun m h => ?_⟩
    · rw [reach_null h] at hc
      cases hc
    · rw [reach_null h]
      trivial
  · intro Δ m Δ' m' h h' _
    obtain ⟨rfl, rfl⟩ := inside_null h
    obtain ⟨rfl, rfl⟩ := inside_null h'
    exact ⟨rfl, rfl⟩
  · intro Δ m h
    obtain ⟨rfl, rfl⟩ := inside_null h
    exact ⟨trivial, trivial, nofun⟩

/-- Trees that share nothing. -/
def Sep (x y : Node) : Prop := x.isNode = true → y.isNode = true → PDisj x y ∧ RDisj x y

theorem Sep.symm {x y : Node} (h : Sep x y) : Sep y x := fun h1 h2 => ⟨(h h2 h1).1.symm, (h h2 h1).2.symm⟩

theorem G.sep {a b c d : Nat} {x y : Node} (hx : G a b x) (hy : G c d y) (h : b ≤ c) : Sep x y := fun h1 h2 =>
  ⟨fun i p q => by have := hx.pid h1 i p; have := hy.pid h2 i q; omega,
    fun i p q => by have := hx.rid h1 i p; have := hy.rid h2 i q; omega⟩

/-- Trees made by the parser one after the other. -/
structure Cov (a b : Nat) (ns : List Node) : Prop where
  all : ∀ n ∈ ns, G a b n
  sep : ns.Pairwise Sep

theorem Cov.nil (a b : Nat) : Cov a b [] := ⟨nofun, .nil⟩

theorem Cov.mono {a b a' b' : Nat} {ns : List Node} (h : Cov a b ns) (ha : a' ≤ a) (hb : b ≤ b') : Cov a' b' ns :=
  ⟨fun n hn => (h.all n hn).mono ha hb, h.sep⟩

theorem Cov.append {a b c : Nat} {ns ms : List Node} (h : Cov a b ns) (h' : Cov b c ms) (hab : a ≤ b) (hbc : b ≤ c) :
    Cov a c (ns ++ ms) := by
  refine ⟨fun n hn => ?_, List.pairwise_append.mpr ⟨h.sep, h'.sep, fun x hx y hy => (h.all x hx).sep (h'.all y hy) (Nat.le_refl _)⟩⟩
  rcases List.mem_append.mp hn with hn | hn
  · exact (h.all n hn).mono (Nat.le_refl _) hbc
  · exact (h'.all n hn).mono hab (Nat.le_refl _)

theorem Cov.one {a b : Nat} {n : Node} (h : G a b n) : Cov a b [n] :=
  ⟨fun m hm => by simp only [List.mem_singleton] at hm; exact hm ▸ h, List.pairwise_singleton ..⟩

theorem Cov.cons {a b c : Nat} {n : Node} {ns : List Node} (h : G a b n) (h' : Cov b c ns) (hab : a ≤ b) (hbc : b ≤ c) :
    Cov a c (n :: ns) := (Cov.one h).append h' hab hbc

theorem pairwise_sym {α : Type} {R : α → α → Prop} (hs : ∀ x y, R x y → R y x) {ns : List α} {x y : α} (h : ns.Pairwise R)
    (hx : x ∈ ns) (hy : y ∈ ns) (hxy : x ≠ y) : R x y := by
  induction h with
  | nil => cases hx
  | cons h1 _ ih =>
    rcases List.mem_cons.mp hx with hx | hx
    · rcases List.mem_cons.mp hy with hy | hy
      · exact absurd (hx.trans hy.symm) hxy
      · rw [hx]; exact h1 _ ‹_›
    · rcases List.mem_cons.mp hy with hy | hy
      · rw [hy]; exact hs _ _ (h1 _ ‹_›)
      · exact ih hx hy

theorem Cov.cases {a b : Nat} {ns : List Node} (h : Cov a b ns) {x y : Node} (hx : x ∈ ns) (hy : y ∈ ns) : x = y ∨ Sep x y := by
  by_cases hxy : x = y
  · exact .inl hxy
  · exact .inr (pairwise_sym (fun _ _ => Sep.symm) h.sep hx hy hxy)

theorem children_isNode {n c : Node} (h : c ∈ n.children) : c.isNode = true := (List.mem_filter.mp h).2

/-- Distinct identities below a node, if its children share nothing. A child may also be below another one. -/
theorem cinj_of' {n : Node} {a b : Nat} {ns : List Node} (hc : Cov a b ns)
    (hs : ∀ c ∈ n.children, ∃ d ∈ ns, d.isNode = true ∧ Reach d c) (hn : ∀ c ∈ n.children, ¬ Rid c n.id) : CInj n := by
  intro m m' h h' hid
  cases h with
  | here =>
    cases h' with
    | here => rfl
    | down _ c _ hc' h' => exact absurd ⟨_, h', hid.symm⟩ (hn c hc')
  | down _ c _ hc1 h =>
    cases h' with
    | here => exact absurd ⟨_, h, hid⟩ (hn c hc1)
    | down _ d _ hd h' =>
      obtain ⟨c', c1, c2, c3⟩ := hs c hc1
      obtain ⟨d', d1, d2, d3⟩ := hs d hd
      rcases hc.cases c1 d1 with rfl | hsep
      · exact (hc.all c' c1).cinj _ _ (c3.trans h) (d3.trans h') hid
      · exact ((hsep c2 d2).2 _ ⟨_, c3.trans h, rfl⟩ ⟨_, d3.trans h', hid.symm⟩).elim

theorem cinj_of {n : Node} {a b : Nat} {ns : List Node} (hc : Cov a b ns) (hs : ∀ c ∈ n.children, c ∈ ns)
    (hn : ∀ c ∈ n.children, ¬ Rid c n.id) : CInj n := by
  intro m m' h h' hid
  cases h with
  | here =>
    cases h' with
    | here => rfl
    | down _ c _ hc' h' => exact absurd ⟨_, h', hid.symm⟩ (hn c hc')
  | down _ c _ hc1 h =>
    cases h' with
    | here => exact absurd ⟨_, h, hid⟩ (hn c hc1)
    | down _ d _ hd h' =>
      rcases hc.cases (hs c hc1) (hs d hd) with rfl | hsep
      · exact (hc.all c (hs c hc1)).cinj _ _ h h' hid
      · exact ((hsep (children_isNode hc1) (children_isNode hd)).2 _ ⟨_, h, rfl⟩ ⟨_, h', hid.symm⟩).elim

theorem reach_size {a b : Node} (h : Reach a b) : sizeOf b ≤ sizeOf a := by
  induction h with
  | here => exact Nat.le_refl _
  | down n c m hc _ ih => have := children_size hc; omega

theorem LetKw.mem {p c q : Node} (h : LetKw p c q) (hn : c.isNode = true) : c ∈ p.children ∧ p ∈ q.children := by
  obtain ⟨h, b, st, dy, rfl, ⟨h', i, e, rfl⟩ | ⟨h', rfl⟩⟩ := h
  · exact ⟨List.mem_filter.mpr ⟨by simp, hn⟩, List.mem_filter.mpr ⟨by simp, rfl⟩⟩
  · exact ⟨List.mem_filter.mpr ⟨by simp, hn⟩, List.mem_filter.mpr ⟨by simp, rfl⟩⟩

/-- Parents are unique below a node, if its children share nothing but the keyword `let`. -/
theorem up_of {n : Node} {a b : Nat} {ns : List Node} (hc : Cov a b ns)
    (hs : ∀ c ∈ n.children, c ∈ ns ∨ ∃ d ∈ ns, d.isNode = true ∧ LetKw d c n) (hk : Typed n) :
    UPar n ∧ ∀ m, Reach n m → Typed m := by
  -- below which member of `ns` a node is
  have hb : ∀ p, Reach n p → p = n ∨ ∃ d ∈ ns, d.isNode = true ∧ Reach d p := by
    intro p h
    cases h with
    | here => exact .inl rfl
    | down _ c _ hcc h =>
      rcases hs c hcc with h1 | ⟨d, d1, d2, d3⟩
      · exact .inr ⟨c, h1, children_isNode hcc, h⟩
      · exact .inr ⟨d, d1, d2, .down _ _ _ (d3.mem (children_isNode hcc)).1 h⟩
  -- a child of the node and of something below
  have hx : ∀ p c, c ∈ n.children → c ∈ p.children → (∃ d ∈ ns, d.isNode = true ∧ Reach d p) → LetKw p c n := by
    rintro p c hcn hcp ⟨d, d1, d2, d3⟩
    rcases hs c hcn with h1 | ⟨d', d1', d2', d3'⟩
    · exfalso
      rcases hc.cases h1 d1 with rfl | hsep
      · have := reach_size d3
        have := children_size hcp
        omega
      · exact (hsep (children_isNode hcn) d2).2 _ ⟨_, .here _, rfl⟩ ⟨_, d3.trans (.down _ _ _ hcp (.here _)), rfl⟩
    · have hk := d3'.mem (children_isNode hcn)
      rcases hc.cases d1' d1 with rfl | hsep
      · rcases (hc.all _ d1).up.1 _ _ c d3 (.here _) hcp hk.1 with rfl | h | h
        · exact d3'
        · exfalso
          obtain ⟨h', b, st, dy, rfl, -⟩ := d3'
          obtain ⟨_, _, _, _, _, ⟨_, _, _, h⟩ | ⟨_, h⟩⟩ := h <;> cases h
        · exfalso
          have := reach_size d3
          have := children_size (h.mem (children_isNode hcn)).2
          omega
      · exact ((hsep d2' d2).2 _ ⟨_, .down _ _ _ hk.1 (.here _), rfl⟩ ⟨_, d3.trans (.down _ _ _ hcp (.here _)), rfl⟩).elim
  refine ⟨?_, fun m hm => ?_⟩
  rotate_left
  · rcases hb m hm with rfl | ⟨d, d1, -, d3⟩
    · exact hk
    · exact (hc.all _ d1).up.2 _ d3
  intro p p' c hp hp' h h'
  rcases hb p hp with rfl | hd
  · rcases hb p' hp' with rfl | hd'
    · exact .inl rfl
    · exact .inr (.inr (hx _ _ h h' hd'))
  · rcases hb p' hp' with rfl | hd'
    · exact .inr (.inl (hx _ _ h' h hd))
    · obtain ⟨d, d1, d2, d3⟩ := hd
      obtain ⟨d', d1', d2', d3'⟩ := hd'
      rcases hc.cases d1 d1' with rfl | hsep
      · exact (hc.all _ d1).up.1 _ _ _ d3 d3' h h'
      · exact ((hsep d2 d2').2 _ ⟨_, d3.trans (.down _ _ _ h (.here _)), rfl⟩ ⟨_, d3'.trans (.down _ _ _ h' (.here _)), rfl⟩).elim

theorem id_of_hd {n : Node} {h : Hd} (hh : n.hd? = some h) : n.id = h.id := by simp [Node.id, Node.hd, hh]

theorem isNode_of_hd {n : Node} {h : Hd} (hh : n.hd? = some h) : n.isNode = true := by simp [Node.isNode, hh]

/-- A node without special scoping. -/
theorem G.mk_reg {n : Node} {h : Hd} {a : Nat} {ns : List Node} (hh : n.hd? = some h) (hc : Cov a h.id ns) (ha : a ≤ h.id)
    (hs : ∀ c ∈ n.children, c ∈ ns) (hp : ∀ p ∈ parts n, p.1 = false ∧ p.2 ∈ n.children) (hg : GoodN (Reach n) n)
    (hk : Typed n) : G a (h.id + 1) n := by
  have hid := id_of_hd hh
  have hr : ∀ c ∈ n.children, ¬ Rid c n.id := fun c hcc hr => by
    have := (hc.all c (hs c hcc)).rid (children_isNode hcc) _ hr
    omega
  refine ⟨fun _ => isNode_of_hd hh, ?_, ?_, cinj_of hc hs hr, up_of hc (fun c h => .inl (hs c h)) hk, VOk.of_parts (faithful_of_parts ?_ ?_ ?_) hg ?_⟩
  · intro _ i hi
    rcases pid_cases hi with rfl | ⟨p, hpp, hi⟩
    · omega
    · have := (hc.all _ (hs _ (hp p hpp).2)).pid (children_isNode (hp p hpp).2) i hi
      omega
  · intro _ i hi
    rcases rid_cases hi with rfl | ⟨c, hcc, hi⟩
    · omega
    · have := (hc.all _ (hs _ hcc)).rid (children_isNode hcc) i hi
      omega
  · intro p h1 q h2 _
    rcases hc.cases (hs _ (hp p h1).2) (hs _ (hp q h2).2) with he | hsep
    · rw [he]; exact (hc.all _ (hs _ (hp q h2).2)).vok.1
    · exact (hsep (children_isNode (hp p h1).2) (children_isNode (hp q h2).2)).1.compat
  · intro p h1 q h2 hne
    exact absurd ((hp p h1).1.trans (hp q h2).1.symm) hne
  · intro p h1 hpid
    have := (hc.all _ (hs _ (hp p h1).2)).pid (children_isNode (hp p h1).2) _ hpid
    omega
  · intro p h1
    exact (hc.all _ (hs _ (hp p h1).2)).vok.mono fun k hk => .down _ _ _ (hp p h1).2 hk

end Verif.Nixf
