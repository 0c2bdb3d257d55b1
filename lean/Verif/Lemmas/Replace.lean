import Verif.Lemmas.Lead
import Verif.Lemmas.Located
import Verif.Spec.Subst
/-
A phrase inside of a phrase may be replaced.
-/
namespace Verif.Nixf.Syntax
open Lexical Strings Verif.Props

/-! ### Replacing parts of expressions -/

theorem SwapL.length {t t' : Syn} {l l' : List Syn} (h : SwapL t t' l l') : l'.length = l.length := by
  obtain ⟨a, c, c', b, rfl, rfl, -⟩ := h
  simp

theorem SwapL.holes {t t' : Syn} {l l' : List Syn} (h : SwapL t t' l l') : holes l' = holes l := by
  unfold Syntax.holes; rw [h.length]

theorem SwapL.one {t t' c : Syn} {l' : List Syn} (h : SwapL t t' [c] l') : ∃ c', l' = [c'] := by
  have := h.length
  match l', this with
  | [c'], _ => exact ⟨c', rfl⟩

theorem Swap.list {t t' c c' : Syn} (h : Swap t t' c c') : SwapL t t' [c] [c'] := ⟨[], c, c', [], rfl, rfl, h⟩

theorem SwapL.single {t t' c c' : Syn} (h : SwapL t t' [c] [c']) : Swap t t' c c' := by
  obtain ⟨a, d, d', b, h1, h2, h3⟩ := h
  cases a with
  | nil => simp at h1 h2; rw [h1.1, h2.1]; exact h3
  | cons x a => simp at h1

theorem SwapL.inside {t t' : Syn} {l l' : List Syn} (h : SwapL t t' l l') (u v : List Syn) {a a' : Syn} (hs : shape a = shape a')
    (h1 : kids a = u ++ l ++ v) (h2 : kids a' = u ++ l' ++ v) : Swap t t' a a' := by
  obtain ⟨p, c, c', q, rfl, rfl, h3⟩ := h
  exact .inside (l := u ++ p) (r := q ++ v) hs (by rw [h1]; simp) (by rw [h2]; simp) h3

theorem SwapL.app {t t' : Syn} {l l' : List Syn} (h : SwapL t t' l l') (u v : List Syn) : SwapL t t' (u ++ l ++ v) (u ++ l' ++ v) := by
  obtain ⟨p, c, c', q, rfl, rfl, h3⟩ := h
  exact ⟨u ++ p, c, c', q ++ v, by simp, by simp, h3⟩

theorem SwapL.left {t t' : Syn} {l l' : List Syn} (h : SwapL t t' l l') (v : List Syn) : SwapL t t' (l ++ v) (l' ++ v) := h.app [] v

theorem SwapL.right {t t' : Syn} {l l' : List Syn} (h : SwapL t t' l l') (u : List Syn) : SwapL t t' (u ++ l) (u ++ l') := by
  have := h.app u []
  simpa using this

theorem shape_facts {a b : Syn} (h : shape a = shape b) : hasComma a = hasComma b ∧ isLast a = isLast b ∧ (a = .comma ↔ b = .comma) := by
  cases a <;> cases b <;> simp_all [shape, hasComma, isLast]

theorem map_shape {l l' : List Syn} (h : l'.map shape = l.map shape) :
    l'.map hasComma = l.map hasComma ∧ l'.map isLast = l.map isLast := by
  induction l generalizing l' with
  | nil => simp at h; subst h; exact ⟨rfl, rfl⟩
  | cons a l ih =>
    cases l' with
    | nil => simp at h
    | cons b l' =>
      simp only [List.map_cons, List.cons.injEq] at h
      obtain ⟨h1, h2⟩ := ih h.2
      obtain ⟨h3, h4, -⟩ := shape_facts h.1
      simp only [List.map_cons, h1, h2, h3, h4, and_self]

theorem formalsOk_iff (l : List Syn) : FormalsOk l ↔ (∀ b ∈ (l.map hasComma).tail, b = true) ∧ ∀ b ∈ (l.map isLast).dropLast, b = false := by
  unfold FormalsOk
  rw [← List.map_tail, ← List.map_dropLast]
  simp only [List.mem_map, forall_exists_index, and_imp, forall_apply_eq_imp_iff₂]

theorem FormalsOk.shape {l l' : List Syn} (h : FormalsOk l) (hs : l'.map shape = l.map shape) : FormalsOk l' := by
  rw [formalsOk_iff] at h ⊢
  rw [(map_shape hs).1, (map_shape hs).2]; exact h

theorem head_shape {l l' : List Syn} (h : ∀ f ∈ l.head?, hasComma f = false) (hs : l'.map shape = l.map shape) :
    ∀ f ∈ l'.head?, hasComma f = false := by
  cases l' with
  | nil => intro f hf; cases hf
  | cons a l' =>
    cases l with
    | nil => simp at hs
    | cons b l =>
      simp only [List.map_cons, List.cons.injEq] at hs
      intro f hf
      simp at hf
      subst hf
      rw [(shape_facts hs.1).1]
      exact h b (by simp)

/-! ### Operators -/

theorem G.select_powers {nt : NT} {r r' : Bytes} {l : List Syn} (h : G nt r l r') (hn : nt = .app ∨ nt = .select ∨ nt = .simple) :
    ∀ t ∈ l, rightPowers t = [] := by
  induction h with
  | one _ i => exact i (.inr (.inl rfl))
  | simple _ i => exact i (.inr (.inr rfl))
  | _ =>
    first
    | (rcases hn with h | h | h <;> cases h; done)
    | (intro t ht; rw [List.mem_singleton] at ht; subst ht; rfl)

theorem G.app_powers {r r' : Bytes} {t : Syn} (h : G .app r [t] r') : rightPowers t = [] := h.select_powers (.inl rfl) t (by simp)

theorem G.tail_trans {nt : NT} {r r1 : Bytes} {l : List Syn} (h : G nt r l r1) {p : Nat} {a : Syn} (hn : nt = .tail p a) {b t : Syn}
    (hl : l = [b]) {r' : Bytes} (h2 : G (.tail p b) r1 [t] r') : G (.tail p a) r [t] r' := by
  induction h generalizing a with
  | stop => cases hn; cases hl; exact h2
  | bin t1 h1 h3 h4 g1 _ _ i2 => cases hn; exact .bin t1 h1 h3 h4 g1 (i2 rfl hl h2)
  | has t1 h1 g1 _ _ i2 => cases hn; exact .has t1 h1 g1 (i2 rfl hl h2)
  | hasNone t1 h1 h3 _ i2 => cases hn; exact .hasNone t1 h1 h3 (i2 rfl hl h2)
  | _ => cases hn

theorem G.extend {p : Nat} {q r r' : Bytes} {a t : Syn} (h : G (.op p) q [a] r) (h2 : G (.tail p a) r [t] r') : G (.op p) q [t] r' := by
  cases h with
  | opr g1 g2 => exact .opr g1 (g2.tail_trans rfl rfl h2)

theorem GN.tail_trans {src : Option Bytes} {nt : NK} {r r1 : Bytes} {l : List Node} (h : GN src nt r l r1) {p : Nat} {a : Node} {q : Bytes}
    (hn : nt = .tail p a q) {b t : Node} (hl : l = [b]) {r' : Bytes} (h2 : GN src (.tail p b q) r1 [t] r') : GN src (.tail p a q) r [t] r' := by
  induction h generalizing a with
  | stop => cases hn; cases hl; exact h2
  | bin t1 h1 h3 h4 g1 s _ _ i2 => cases hn; exact .bin t1 h1 h3 h4 g1 s (i2 rfl hl h2)
  | has t1 h1 g1 s s2 _ _ i2 => cases hn; exact .has t1 h1 g1 s s2 (i2 rfl hl h2)
  | hasNone t1 h1 h3 s _ i2 => cases hn; exact .hasNone t1 h1 h3 s (i2 rfl hl h2)
  | _ => cases hn

theorem GN.extend {src : Option Bytes} {p : Nat} {q r r' : Bytes} {a t : Node} (h : GN src (.op p) q [a] r)
    (h2 : GN src (.tail p a q) r [t] r') : GN src (.op p) q [t] r' := by
  cases h with
  | opr g1 g2 => exact .opr g1 (g2.tail_trans rfl rfl h2)

theorem GN.suf {src : Option Bytes} {K : NK} {r r' : Bytes} {l : List Node} (h : GN src K r l r') : r' <:+ r := h.toG.suf

/-! ### Holes -/

/-- The kinds of phrases that are one expression, attribute name or argument. -/
def NK.top : NK → Bool
  | .expr | .op _ | .atom | .app | .select | .simple | .name | .arg => true
  | _ => false

/-- What a phrase may be replaced by. -/
def NK.fill : NK → NT
  | .op _ | .atom | .app => .app
  | .select => .select
  | .simple => .simple
  | .name => .name
  | .arg => .arg
  | .binds => .binds
  | _ => .expr

/-- The node `n` is called, somewhere inside of the nodes. -/
def CalleeIn (l : List Node) (n : Node) : Prop := ∃ m ∈ l, ∃ h as, Part m (.exprCall h n as)

/-- The node is what an attribute is selected from. -/
def BaseIn (l : List Node) (n : Node) : Prop := ∃ m ∈ l, ∃ h dt p d b, Part m (.exprSelect h n dt p d b)

/-- What remains as it is. -/
def Keeps (C : Prop) (K : NK) (l l' : List Syn) : Prop :=
  match K with
  | .select | .simple => C → l.all callable = true → l'.all callable = true
  | .op _ | .atom => l'.flatMap rightPowers ⊆ l.flatMap rightPowers
  | .formals | .members | .member | .afterComma _ => l'.map shape = l.map shape
  | _ => True

/-- `x` is behind the start of a string or path. -/
def Deep (K : NK) (r x : Bytes) : Prop :=
  match K with
  | .body _ => x.length + 2 ≤ r.length
  | .pbody => ∃ k v r1, TokP r k v r1 ∧ x <:+ r1 ∧ x.length + 2 ≤ r1.length
  | _ => True

/-- The node `n` is inside of a phrase, and may be replaced. The new text may begin like the old one. -/
def Hole (src : Option Bytes) (K : NK) (r : Bytes) (l : List Node) (r' : Bytes) (n : Node) : Prop :=
  ∃ K0 r0 r0', GN src K0 r0 [n] r0' ∧ (K0.top = true ∨ K0 = .binds) ∧ r0 <:+ r ∧ r' <:+ r0' ∧ Deep K r (skip r0) ∧
    (oddL (K.syns l) = false → odd (syn n) = false) ∧ (K0 = .simple → BaseIn l n ∨ (K = .simple ∧ l = [n])) ∧
    ∀ P c x y t', skip r0 = c ++ x → Edge x y P → r <:+ P ++ x → oddL (K.syns l) = false → G K0.fill (c ++ y) [t'] r0' →
      (K0 = .select ∨ K0 = .simple → CalleeIn l n → callable (syn n) = true → callable t' = true) →
      ∃ l', SwapL (syn n) t' (K.syns l) l' ∧ G K.nt (sw x y r) l' r' ∧
        Keeps (K0 = .select ∨ K0 = .simple → l = [n] → callable (syn n) = true → callable t' = true) K (K.syns l) l'

theorem Deep.suf {K : NK} {r x x' : Bytes} (h : Deep K r x) (hx : x' <:+ x) : Deep K r x' := by
  cases K with
  | body R =>
    have h : x.length + 2 ≤ r.length := h
    have := hx.length_le
    show x'.length + 2 ≤ r.length
    omega
  | pbody =>
    obtain ⟨k, v, r1, h1, h2, h3⟩ := h
    have := hx.length_le
    exact ⟨k, v, r1, h1, hx.trans h2, by omega⟩
  | _ => trivial

theorem Hole.lift {src : Option Bytes} {Kc : NK} {rc : Bytes} {lc : List Node} {rc' : Bytes} {n : Node} (h : Hole src Kc rc lc rc' n)
    {K : NK} {r : Bytes} {l : List Node} {r' : Bytes} (L : List Syn) (Lc : List Syn) (e : K.syns l = L) (ec : Kc.syns lc = Lc)
    (h1 : rc <:+ r) (h2 : r' <:+ rc') (ho : oddL L = false → oddL Lc = false) (hca : ∀ q, phrase q = true → (∃ m ∈ lc, Part m q) → ∃ m ∈ l, Part m q)
    (hb : Kc = .simple → lc = [n] → BaseIn l n)
    (hd : ∀ x, x <:+ rc → Deep Kc rc x → Deep K r x)
    (f : ∀ {P x y t' lc'} {Q : Prop}, Edge x y P → x <:+ rc → Deep Kc rc x → r <:+ P ++ x → oddL L = false →
      (Q → CalleeIn l n → callable (syn n) = true → callable t' = true) → SwapL (syn n) t' Lc lc' → G Kc.nt (sw x y rc) lc' rc' →
      Keeps (Q → lc = [n] → callable (syn n) = true → callable t' = true) Kc Lc lc' →
      ∃ l', SwapL (syn n) t' L l' ∧ G K.nt (sw x y r) l' r' ∧ Keeps (Q → l = [n] → callable (syn n) = true → callable t' = true) K L l') :
    Hole src K r l r' n := by
  obtain ⟨K0, r0, r0', g, ht, h3, h4, h5, h7, h8, h6⟩ := h
  subst e ec
  have hca' : CalleeIn lc n → CalleeIn l n := fun ⟨m, hm, h, as, hp⟩ => by
    obtain ⟨m', hm', hp'⟩ := hca _ rfl ⟨m, hm, hp⟩
    exact ⟨m', hm', h, as, hp'⟩
  have hba' : BaseIn lc n → BaseIn l n := fun ⟨m, hm, h, dt, p, d, b, hp⟩ => by
    obtain ⟨m', hm', hp'⟩ := hca _ rfl ⟨m, hm, hp⟩
    exact ⟨m', hm', h, dt, p, d, b, hp'⟩
  refine ⟨K0, r0, r0', g, ht, h3.trans h1, h2.trans h4, hd _ ((skip_suf _).trans h3) h5, fun h => h7 (ho h),
    fun h => .inl ((h8 h).elim hba' fun h => hb h.1 h.2), ?_⟩
  intro P c x y t' hs hy hr hodd gy hcall
  obtain ⟨l', a1, a2, a3⟩ := h6 P c x y t' hs hy (h1.trans hr) (ho hodd) gy (fun hq h => hcall hq (hca' h))
  have hx : x <:+ skip r0 := by rw [hs]; exact List.suffix_append _ _
  exact f hy (hx.trans ((skip_suf _).trans h3)) (h5.suf hx) hr hodd hcall a1 a2 a3

theorem NK.top_syns {K : NK} (h : K.top = true) (l : List Node) : K.syns l = synL l := by
  cases K <;> first | rfl | cases h

theorem G.fill {K : NK} (h : K.top = true) {r r' : Bytes} {t : Syn} (g : G K.fill r [t] r') : G K.nt r [t] r' := by
  cases K <;> first | (cases h; done) | exact g | exact .app g | exact .opr (.app g) .stop

theorem NK.top_starts {K : NK} (h : K.top = true) : K.nt.starts = true := by
  cases K <;> first | rfl | cases h

theorem sw_lead {p c x y r : Bytes} (hp : r = p ++ skip r) (hs : skip r = c ++ x) : sw x y r = p ++ (c ++ y) := by
  rw [hs] at hp
  rw [hp, ← List.append_assoc, sw_app, List.append_assoc]

/-- A phrase may be replaced as a whole. -/
theorem Hole.top {src : Option Bytes} {K : NK} {r r' : Bytes} {n : Node} (g : GN src K r [n] r') (hK : K.top = true) :
    Hole src K r [n] r' n := by
  refine ⟨K, r, r', g, .inl hK, List.suffix_refl _, List.suffix_refl _, ?_, ?_, fun h => .inr ⟨h, rfl⟩, ?_⟩
  · cases K <;> first | trivial | cases hK
  · rw [NK.top_syns hK]
    intro h
    simpa [synL_eq, oddL] using h
  · intro P c x y t' hs hy hr ho gy hc
    obtain ⟨k, v, r1, t, hk⟩ := g.toG.first (NK.top_starts hK)
    obtain ⟨-, p, hp, hl⟩ := t.leads hk (c ++ y)
    refine ⟨[t'], ?_, ?_, ?_⟩
    · rw [NK.top_syns hK]; exact Swap.here.list
    · have : sw x y r = p ++ (c ++ y) := sw_lead hp hs
      rw [this]
      exact (G.fill hK gy).lead hl (NK.top_starts hK)
    · rw [NK.top_syns hK]
      have e : synL [n] = [syn n] := rfl
      rw [e]
      cases K with
      | select => intro hC h; simp at h ⊢; exact hC (.inl rfl) rfl h
      | simple => intro hC h; simp at h ⊢; exact hC (.inr rfl) rfl h
      | op p => unfold Keeps; simp [G.app_powers gy]
      | atom => unfold Keeps; simp [G.app_powers gy]
      | _ => first | trivial | cases hK

theorem G.binds_append {nt : NT} {r r1 : Bytes} {l : List Syn} (h : G nt r l r1) (hn : nt = .binds) {l2 : List Syn} {r' : Bytes} (h2 : G .binds r1 l2 r') :
    G .binds r (l ++ l2) r' := by
  induction h with
  | noBind => exact h2
  | binding g1 t1 g2 t2 g3 _ _ i => exact .binding g1 t1 g2 t2 (i rfl h2)
  | inherit t1 g1 t2 g2 _ i => exact .inherit t1 g1 t2 (i rfl h2)
  | inheritFrom t1 t2 g1 t3 g2 t4 g3 _ _ i => exact .inheritFrom t1 t2 g1 t3 g2 t4 (i rfl h2)
  | _ => cases hn

/-- A binding may be replaced. -/
theorem Hole.bind {src : Option Bytes} {r r1 r' : Bytes} {n : Node} {bs : List Node} (g : GN src .binds r [n] r1) (g2 : GN src .binds r1 bs r') :
    Hole src .binds r (n :: bs) r' n := by
  refine ⟨.binds, r, r1, g, .inr rfl, List.suffix_refl _, g2.suf, trivial, ?_, (fun h => nomatch h), ?_⟩
  · intro h
    have h : oddL (synL (n :: bs)) = false := h
    simp [synL_eq, oddL] at h
    exact h.1
  intro P c x y t' hs hy hr ho gy hc
  obtain ⟨k, v, r1, t, hk⟩ := G.first_binds g.toG
  obtain ⟨-, p, hp, hl⟩ := t.leads hk (c ++ y)
  refine ⟨[t'] ++ synL bs, Swap.here.list.left (synL bs), ?_, trivial⟩
  rw [sw_lead hp hs]
  exact (G.lead_binds hl gy).binds_append rfl g2.toG

/-- Every part of the phrase may be replaced. -/
def Std (src : Option Bytes) (K : NK) (r : Bytes) (l : List Node) (r' : Bytes) : Prop :=
  ∀ m ∈ l, ∀ n, Part m n → phrase n = true → (K.top = true ∧ l = [n]) ∨ Hole src K r l r' n

theorem Std.hole {src : Option Bytes} {K : NK} {r : Bytes} {l : List Node} {r' : Bytes} (h : Std src K r l r') (g : GN src K r l r') {m n : Node}
    (hm : m ∈ l) (hp : Part m n) (hn : phrase n = true) : Hole src K r l r' n := by
  rcases h m hm n hp hn with ⟨h1, rfl⟩ | h
  · exact .top g h1
  · exact h

/-- What the induction proves. -/
def Inv (src : Option Bytes) (K : NK) (r : Bytes) (l : List Node) (r' : Bytes) : Prop :=
  match K with
  | .tail p a q => GN src (.op p) q [a] r → (∀ n, Part a n → phrase n = true → n = a ∨ Hole src (.op p) q [a] r n) →
      ∀ t, l = [t] → ∀ n, Part t n → phrase n = true → n = t ∨ Hole src (.op p) q [t] r' n
  | .body R => Known R → Std src (.body R) r l r'
  | K => Std src K r l r'

theorem Part.split {m n : Node} (h : Part m n) : n = m ∨ ∃ c ∈ inner m, Part c n := by
  cases h with
  | here => exact .inl rfl
  | down h1 h2 => exact .inr ⟨_, h1, h2⟩

theorem part_text {t : Bytes} {n : Node} (h : Part (.text t) n) (hn : phrase n = true) : False := by
  cases h with
  | here => cases hn
  | down h1 h2 => cases h1

theorem part_null {n : Node} (h : Part .null n) (hn : phrase n = true) : False := by
  cases h with
  | here => cases hn
  | down h1 h2 => cases h1

theorem part_chars {t : Bytes} {m n : Node} (h : m ∈ chars t) (hp : Part m n) (hn : phrase n = true) : False := by
  simp only [chars, List.mem_map] at h
  obtain ⟨c, -, rfl⟩ := h
  exact part_text hp hn

theorem part_explode {fs : List Node} {m n : Node} (h : m ∈ fs) (hp : Part m n) (hn : phrase n = true) : m ∈ explode fs := by
  induction fs with
  | nil => cases h
  | cons f fs ih =>
    rcases List.mem_cons.mp h with rfl | h
    · cases m with
      | text t => exact (part_text hp hn).elim
      | _ => exact List.mem_cons_self
    · have := ih h
      cases f with
      | text t => exact List.mem_append_right _ this
      | _ => exact List.mem_cons_of_mem _ this

theorem mem_explode {fs : List Node} {m n : Node} (h : m ∈ explode fs) (hp : Part m n) (hn : phrase n = true) : m ∈ fs := by
  induction fs with
  | nil => cases h
  | cons f fs ih =>
    cases f with
    | text t =>
      rcases List.mem_append.mp h with h | h
      · exact (part_chars h hp hn).elim
      · exact List.mem_cons_of_mem _ (ih h)
    | _ =>
      rcases List.mem_cons.mp h with rfl | h
      · exact List.mem_cons_self
      · exact List.mem_cons_of_mem _ (ih h)

theorem LetOf.mem {a : Node} {bs : List Node} (h : LetOf a bs) {hd : Hd} {k1 k2 e c : Node} (hc : c ∈ bs ∨ c = e) :
    c ∈ Syntax.inner (.exprLet hd k1 k2 e a) := by
  rcases h with ⟨rfl, rfl⟩ | ⟨_, _, _, _, _, rfl⟩
  · simpa [Syntax.inner] using hc
  · simpa [Syntax.inner] using hc

theorem BindsOf.mem {a : Node} {bs : List Node} (h : BindsOf a bs) {hd : Hd} {rc : Node} {st dy : List Node} {c : Node} (hc : c ∈ bs) :
    c ∈ Syntax.inner (.exprAttrs hd a rc st dy) ∧ ∀ {h' k}, c ∈ Syntax.inner (.exprLegacyLet h' k (.exprAttrs hd a rc st dy)) := by
  rcases h with ⟨rfl, rfl⟩ | ⟨_, rfl⟩
  · cases hc
  · exact ⟨by simpa [Syntax.inner] using hc, by simpa [Syntax.inner] using hc⟩

theorem LetOf.inner {a : Node} {bs : List Node} (h : LetOf a bs) {hd : Hd} {k1 k2 e c : Node} (hc : c ∈ Syntax.inner (.exprLet hd k1 k2 e a)) :
    c ∈ bs ∨ c = e := by
  rcases h with ⟨rfl, rfl⟩ | ⟨_, _, _, _, _, rfl⟩
  · simp [Syntax.inner] at hc; exact .inr hc
  · simp [Syntax.inner] at hc; exact hc

theorem BindsOf.inner {a : Node} {bs : List Node} (h : BindsOf a bs) {hd : Hd} {rc : Node} {st dy : List Node} {c : Node} :
    (c ∈ Syntax.inner (.exprAttrs hd a rc st dy) → c ∈ bs) ∧ ∀ {h' k}, c ∈ Syntax.inner (.exprLegacyLet h' k (.exprAttrs hd a rc st dy)) → c ∈ bs := by
  rcases h with ⟨rfl, rfl⟩ | ⟨_, rfl⟩
  · constructor
    · intro h; simp [Syntax.inner] at h
    · intro _ _ h; simp [Syntax.inner] at h
  · exact ⟨fun h => by simpa [Syntax.inner] using h, fun h => by simpa [Syntax.inner] using h⟩

theorem contR_swap {p x y : Bytes} (hp : 2 ≤ p.length) (h : contR (p ++ x) = true) : contR (p ++ y) = true := by
  match p, hp with
  | c :: d :: p, _ => exact h

/-- A path remains one. -/
theorem swPath' {P x y r v r1 rp w : Bytes} {k : TK} (hy : Edge x y P) (t : Tok r .path_fragment v r1) (h3 : TokP (skip r) k w rp) (hx : x <:+ rp)
    (hl : x.length + 2 ≤ rp.length) (hr : r <:+ P ++ x) : Tok (sw x y r) .path_fragment v (sw x y r1) ∧ x <:+ r1 := by
  obtain ⟨h1, h2⟩ := path_start t
  have h5 := h2 h3
  have h6 : rp <:+ r1 := h5 ▸ dropWhile_suffix isFrag r1
  have hx1 : x <:+ r1 := hx.trans h6
  refine ⟨?_, hx1⟩
  obtain ⟨p, rfl⟩ := hx1.trans t.suf
  obtain ⟨p', rfl⟩ := hx1
  rw [sw_app, sw_app]
  have := h6.length_le
  rw [List.length_append] at this
  exact t.edge (hy.suffix (suf_cancel hr)) (by decide) (fun _ => contR_swap (by omega) h1)

end Verif.Nixf.Syntax
