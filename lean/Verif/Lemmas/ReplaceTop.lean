import Verif.Lemmas.ReplaceInd
import Verif.Lemmas.SynTop
/-
Documents: every expression, attribute name and binding of a document without syntax errors may be replaced, and its text is a
phrase of its own.
-/
namespace Verif.Nixf.Syntax
open Lexical Strings Verif.Props

theorem G.tail_zero {nt : NT} {r r' : Bytes} {l : List Syn} (h : G nt r l r') {p : Nat} {a : Syn} (hn : nt = .tail p a) : G (.tail 0 a) r l r' := by
  induction h generalizing p a with
  | stop => cases hn; exact .stop
  | bin t hp hlt hq g1 g2 _ i => cases hn; exact .bin t hp (Nat.zero_lt_of_lt hlt) hq g1 (i rfl)
  | has t hp g1 g2 _ i => cases hn; exact .has t hp g1 (i rfl)
  | hasNone t hp hk g2 i => cases hn; exact .hasNone t hp hk (i rfl)
  | _ => cases hn

/-- All kinds of expressions are expressions. -/
theorem G.toExpr {K : NK} (h : K.isExpr = true) {r r' : Bytes} {t : Syn} (g : G K.nt r [t] r') : G .expr r [t] r' := by
  cases K with
  | expr => exact g
  | op p =>
    cases g with
    | opr g1 g2 => exact .op (.opr g1 (g2.tail_zero rfl))
  | atom => exact .op (.opr g .stop)
  | app => exact .op (.opr (.app g) .stop)
  | select => exact .op (.opr (.app (.one g)) .stop)
  | simple => exact .op (.opr (.app (.one (.simple g))) .stop)
  | _ => cases h

theorem G.simple_fill {K : NK} (h : K.isExpr = true) {r r' : Bytes} {t : Syn} (g : G .simple r [t] r') : G K.fill r [t] r' := by
  cases K with
  | expr => exact .op (.opr (.app (.one (.simple g))) .stop)
  | op p => exact .one (.simple g)
  | atom => exact .one (.simple g)
  | app => exact .one (.simple g)
  | select => exact .simple g
  | simple => exact g
  | _ => cases h

/-- Expressions of the kind of statements: they are not operands. -/
def isOpen : Node → Bool
  | .exprLambda .. | .exprIf .. | .exprAssert .. | .exprWith .. | .exprLet .. | .exprLegacyLet .. => true
  | _ => false

theorem GN.closed {src : Option Bytes} {K : NK} {r r' : Bytes} {l : List Node} (h : GN src K r l r') :
    (K.isExpr = true → K ≠ .expr → ∀ a, l = [a] → isOpen a = false) ∧ ∀ p a q, K = .tail p a q → isOpen a = false → ∀ t, l = [t] → isOpen t = false := by
  induction h with
  | opr _ _ i1 i2 => exact ⟨fun _ _ => i2.2 _ _ _ rfl (i1.1 rfl (by simp) _ rfl), fun _ _ _ h => (nomatch h)⟩
  | app _ ih => exact ⟨fun _ _ => ih.1 rfl (by simp), fun _ _ _ h => (nomatch h)⟩
  | one _ ih => exact ⟨fun _ _ => ih.1 rfl (by simp), fun _ _ _ h => (nomatch h)⟩
  | simple _ ih => exact ⟨fun _ _ => ih.1 rfl (by simp), fun _ _ _ h => (nomatch h)⟩
  | stop => exact ⟨fun h => (by cases h), fun _ _ _ h hs t ht => by cases h; cases ht; exact hs⟩
  | bin _ _ _ _ _ hs _ _ ih => exact ⟨fun h => (by cases h), fun _ _ _ h _ => by cases h; exact ih.2 _ _ _ rfl rfl⟩
  | has _ _ _ _ hs _ _ ih => exact ⟨fun h => (by cases h), fun _ _ _ h _ => by cases h; exact ih.2 _ _ _ rfl rfl⟩
  | hasNone _ _ _ hs _ ih => exact ⟨fun h => (by cases h), fun _ _ _ h _ => by cases h; exact ih.2 _ _ _ rfl rfl⟩
  | _ =>
    refine ⟨fun h h' a ha => ?_, fun _ _ _ h => (nomatch h)⟩
    first
    | (cases h; done)
    | (exact absurd rfl h'; done)
    | (cases ha; rfl)

/-- The kinds of nodes in a phrase that is one node. -/
theorem GN.kind {src : Option Bytes} {K : NK} {r r' : Bytes} {l : List Node} (h : GN src K r l r') :
    (K.isExpr = true → ∀ a ∈ l, a.isExpr = true) ∧ (K = .name → ∀ a ∈ l, isName a = true) ∧ (K = .arg → ∀ a ∈ l, isArg a = true) ∧
      (K = .binds → ∀ a ∈ l, isBind a = true) ∧ ∀ p a q, K = .tail p a q → a.isExpr = true → ∀ t ∈ l, t.isExpr = true := by
  induction h with
  | op _ ih => exact ⟨fun _ => ih.1 rfl, (fun h => nomatch h), (fun h => nomatch h), (fun h => nomatch h), fun _ _ _ h => (nomatch h)⟩
  | opr _ _ i1 i2 => exact ⟨fun _ => i2.2.2.2.2 _ _ _ rfl (i1.1 rfl _ (by simp)), (fun h => nomatch h), (fun h => nomatch h), (fun h => nomatch h), fun _ _ _ h => (nomatch h)⟩
  | app _ ih => exact ⟨fun _ => ih.1 rfl, (fun h => nomatch h), (fun h => nomatch h), (fun h => nomatch h), fun _ _ _ h => (nomatch h)⟩
  | one _ ih => exact ⟨fun _ => ih.1 rfl, (fun h => nomatch h), (fun h => nomatch h), (fun h => nomatch h), fun _ _ _ h => (nomatch h)⟩
  | simple _ ih => exact ⟨fun _ => ih.1 rfl, (fun h => nomatch h), (fun h => nomatch h), (fun h => nomatch h), fun _ _ _ h => (nomatch h)⟩
  | stop => exact ⟨fun h => (by cases h), (fun h => nomatch h), (fun h => nomatch h), (fun h => nomatch h), fun _ _ _ h hs t ht => by cases h; rw [List.mem_singleton] at ht; subst ht; exact hs⟩
  | bin _ _ _ _ _ hs _ _ ih => exact ⟨fun h => (by cases h), (fun h => nomatch h), (fun h => nomatch h), (fun h => nomatch h), fun _ _ _ h _ => by cases h; exact ih.2.2.2.2 _ _ _ rfl rfl⟩
  | has _ _ _ _ hs _ _ ih => exact ⟨fun h => (by cases h), (fun h => nomatch h), (fun h => nomatch h), (fun h => nomatch h), fun _ _ _ h _ => by cases h; exact ih.2.2.2.2 _ _ _ rfl rfl⟩
  | hasNone _ _ _ hs _ ih => exact ⟨fun h => (by cases h), (fun h => nomatch h), (fun h => nomatch h), (fun h => nomatch h), fun _ _ _ h _ => by cases h; exact ih.2.2.2.2 _ _ _ rfl rfl⟩
  | binding _ _ _ _ _ _ _ _ _ ih =>
    refine ⟨fun h => (by cases h), (fun h => nomatch h), (fun h => nomatch h), fun _ a ha => ?_, fun _ _ _ h => (nomatch h)⟩
    rcases List.mem_cons.mp ha with rfl | ha
    · rfl
    · exact ih.2.2.2.1 rfl a ha
  | inherit _ _ _ _ _ _ ih =>
    refine ⟨fun h => (by cases h), (fun h => nomatch h), (fun h => nomatch h), fun _ a ha => ?_, fun _ _ _ h => (nomatch h)⟩
    rcases List.mem_cons.mp ha with rfl | ha
    · rfl
    · exact ih.2.2.2.1 rfl a ha
  | inheritFrom _ _ _ _ _ _ _ _ _ _ _ ih =>
    refine ⟨fun h => (by cases h), (fun h => nomatch h), (fun h => nomatch h), fun _ a ha => ?_, fun _ _ _ h => (nomatch h)⟩
    rcases List.mem_cons.mp ha with rfl | ha
    · rfl
    · exact ih.2.2.2.1 rfl a ha
  | noBind => exact ⟨fun h => (by cases h), (fun h => nomatch h), (fun h => nomatch h), (fun _ a ha => nomatch ha), fun _ _ _ h => (nomatch h)⟩
  | _ =>
    refine ⟨fun h a ha => ?_, fun h a ha => ?_, fun h a ha => ?_, fun h a ha => ?_, fun _ _ _ h => (nomatch h)⟩ <;>
    first
    | (cases h; done)
    | (rw [List.mem_singleton] at ha; subst ha; rfl)

/-- The range of a binding. -/
theorem GN.placeBind {src : Option Bytes} {r : Bytes} {a : Node} {r' : Bytes} (h : GN src .binds r [a] r') : Spans src a.range r r' := by
  cases h with
  | binding _ _ _ _ _ sp g => cases g; exact sp
  | inherit _ _ _ sp g => cases g; exact sp
  | inheritFrom _ _ _ _ _ _ _ sp g => cases g; exact sp

theorem NK.sort {K : NK} (h : K.top = true ∨ K = .binds) : K.isExpr = true ∨ K = .name ∨ K = .arg ∨ K = .binds := by
  cases K <;> simp_all [NK.top, NK.isExpr]

/-- A part of a document: where it is, and that something else may come to its place. -/
theorem document_part {src : Bytes} {a : Node} {s : PState} (e : parse src = some (a, s)) (hc : Clean s) {n : Node} (hp : Part a n) (hn : phrase n = true) :
    ∃ K r0 r0' P, GN (some src) K r0 [n] r0' ∧ (K.top = true ∨ K = .binds) ∧ src = P ++ skip r0 ∧ r0' <:+ skip r0 ∧ G K.nt (skip r0) [syn n] r0' ∧
      (odd (syn a) = false → odd (syn n) = false) ∧ (K = .simple → ∃ h dt p d b, Part a (.exprSelect h n dt p d b)) ∧
      ∀ c x y t', odd (syn a) = false → skip r0 = c ++ x → Edge x y (P ++ c) → G K.fill (c ++ y) [t'] r0' →
        (K = .select ∨ K = .simple → (∃ h as, Part a (.exprCall h n as)) → callable (syn n) = true → callable t' = true) → ∃ t2, Accepts (P ++ (c ++ y)) t2 ∧ Swap (syn n) t' (syn a) t2 := by
  rcases parse_located e hc with ⟨rfl, -⟩ | ⟨-, r1, v, g, t⟩
  · exfalso
    cases hp with
    | here => cases hn
    | down h _ => simp [inner] at h
  · obtain ⟨K, r0, r0', gn, hK, h1, h2, -, hodd, hbase, H⟩ := mk_hole g g.inv (List.mem_singleton_self a) hp hn
    obtain ⟨P, hP⟩ : ∃ P, P ++ skip r0 = src := ((skip_suf r0).trans h1)
    have hG : G K.nt (skip r0) [syn n] r0' := by
      rcases hK with h | rfl
      · have := gn.toG.unlead (NK.top_starts h)
        rwa [NK.top_syns h] at this
      · exact G.unlead_binds gn.toG
    refine ⟨K, r0, r0', P, gn, hK, hP.symm, hG.suf, hG, fun h => hodd (by simpa [NK.syns, synL_eq, oddL] using h), ?_, ?_⟩
    · intro h
      rcases hbase h with ⟨m, hm, h⟩ | ⟨h, -⟩
      · rw [List.mem_singleton] at hm; subst hm; exact h
      · cases h
    intro c x y t' ho hs hy gy hcall
    have hsrc : (P ++ c) ++ x = src := by rw [List.append_assoc, ← hs, hP]
    obtain ⟨l', a1, a2, -⟩ := H (P ++ c) c x y t' hs hy (by rw [hsrc]) (by simpa [NK.syns, synL_eq, oddL] using ho) gy
      (by rintro hq ⟨m, hm, h⟩; rw [List.mem_singleton] at hm; subst hm; exact hcall hq h)
    obtain ⟨t2, rfl⟩ := SwapL.one a1
    have a2 : G .expr (sw x y src) [t2] r1 := a2
    rw [← hsrc, sw_app, List.append_assoc] at a2
    exact ⟨t2, ⟨r1, v, a2, t⟩, SwapL.single a1⟩

theorem GN.isExpr_of {src : Option Bytes} {K : NK} {r r' : Bytes} {n : Node} (h : GN src K r [n] r') (hK : K.top = true ∨ K = .binds) (hn : n.isExpr = true) :
    K.isExpr = true := by
  rcases NK.sort hK with h1 | h1 | h1 | h1
  · exact h1
  · have := h.kind.2.1 h1 n (by simp); cases n <;> first | (cases this; done) | (cases hn; done)
  · have := h.kind.2.2.1 h1 n (by simp); cases n <;> first | (cases this; done) | (cases hn; done)
  · have := h.kind.2.2.2.1 h1 n (by simp); cases n <;> first | (cases this; done) | (cases hn; done)

theorem GN.isName_of {src : Option Bytes} {K : NK} {r r' : Bytes} {n : Node} (h : GN src K r [n] r') (hK : K.top = true ∨ K = .binds) (hn : isName n = true) :
    K = .name := by
  rcases NK.sort hK with h1 | h1 | h1 | h1
  · have := h.kind.1 h1 n (by simp); cases n <;> first | (cases this; done) | (cases hn; done)
  · exact h1
  · have := h.kind.2.2.1 h1 n (by simp); cases n <;> first | (cases this; done) | (cases hn; done)
  · have := h.kind.2.2.2.1 h1 n (by simp); cases n <;> first | (cases this; done) | (cases hn; done)

theorem GN.isBind_of {src : Option Bytes} {K : NK} {r r' : Bytes} {n : Node} (h : GN src K r [n] r') (hK : K.top = true ∨ K = .binds) (hn : isBind n = true) :
    K = .binds := by
  rcases NK.sort hK with h1 | h1 | h1 | h1
  · have := h.kind.1 h1 n (by simp); cases n <;> first | (cases this; done) | (cases hn; done)
  · have := h.kind.2.1 h1 n (by simp); cases n <;> first | (cases this; done) | (cases hn; done)
  · have := h.kind.2.2.1 h1 n (by simp); cases n <;> first | (cases this; done) | (cases hn; done)
  · exact h1

/-- The place of a range, in numbers. -/
theorem place_of {src P r0 r0' : Bytes} {x : CRange} (hs : Spans (some src) x r0 r0') (hP : src = P ++ skip r0) (h0 : skip r0 ≠ []) (h1 : r0' <:+ skip r0) :
    src.take x.l.offset = P ∧ src.drop x.l.offset = skip r0 ∧ src.drop x.r.offset = r0' ∧ x.l.offset ≤ x.r.offset ∧
      skip r0 = (src.drop x.l.offset).take (x.r.offset - x.l.offset) ++ r0' := by
  have e1 : src.drop x.l.offset = skip r0 := hs.1 src rfl
  have e2 : src.drop x.r.offset = r0' := hs.2 src rfl
  have l1 : src.length - x.l.offset = (skip r0).length := by rw [← e1, List.length_drop]
  have l2 : src.length - x.r.offset = r0'.length := by rw [← e2, List.length_drop]
  have l3 : src.length = P.length + (skip r0).length := by rw [← List.length_append, ← hP]
  have l4 : 0 < (skip r0).length := List.length_pos_iff.mpr h0
  have l5 := h1.length_le
  have e3 : x.l.offset = P.length := by omega
  have e4 : x.l.offset ≤ x.r.offset := by omega
  refine ⟨?_, e1, e2, e4, ?_⟩
  · rw [e3]
    conv_lhs => rw [hP]
    exact List.take_left
  · have : r0' = (skip r0).drop (x.r.offset - x.l.offset) := by
      rw [← e2, ← e1, List.drop_drop, Nat.add_sub_cancel' e4]
    rw [this, e1, List.take_append_drop]

theorem GN.skip_ne {src : Option Bytes} {K : NK} {r r' : Bytes} {n : Node} (h : GN src K r [n] r') (hK : K.top = true ∨ K = .binds) : skip r ≠ [] := by
  rcases hK with h1 | rfl
  · obtain ⟨k, v, r1, t, hk⟩ := h.toG.first (NK.top_starts h1)
    exact (t.leads hk []).1
  · obtain ⟨k, v, r1, t, hk⟩ := G.first_binds h.toG
    exact (t.leads hk []).1

/-- Nodes whose range is known. -/
def placed (n : Node) : Bool := n.isExpr || isName n || isBind n

theorem GN.placeAny {src : Option Bytes} {K : NK} {r r' : Bytes} {n : Node} (h : GN src K r [n] r') (hK : K.top = true ∨ K = .binds) (hn : placed n = true) :
    Spans src n.range r r' := by
  rcases NK.sort hK with h1 | rfl | h1 | rfl
  · exact h.place h1
  · exact h.placeName
  · have := h.kind.2.2.1 h1 n (by simp); cases n <;> first | (cases this; done) | (cases hn; done)
  · exact h.placeBind

/-- A part of a document, with its place in numbers. If it is what an attribute is selected from, so it is in the tree. -/
theorem document_at' {src : Bytes} {a : Node} {s : PState} (e : parse src = some (a, s)) (hc : Clean s) {n : Node} (hp : Part a n) (hn : placed n = true) :
    ∃ K r0, (K = .simple → ∃ h dt p d b, Part a (.exprSelect h n dt p d b)) ∧ GN (some src) K r0 [n] (src.drop n.rCur.offset) ∧ (K.top = true ∨ K = .binds) ∧ src.drop n.lCur.offset = skip r0 ∧ skip r0 ≠ [] ∧
      n.lCur.offset ≤ n.rCur.offset ∧ src.drop n.lCur.offset = n.src src ++ src.drop n.rCur.offset ∧
      G K.nt (src.drop n.lCur.offset) [syn n] (src.drop n.rCur.offset) ∧ (odd (syn a) = false → odd (syn n) = false) ∧
      ∀ c x y t', odd (syn a) = false → src.drop n.lCur.offset = c ++ x → Edge x y (src.take n.lCur.offset ++ c) → G K.fill (c ++ y) [t'] (src.drop n.rCur.offset) →
        (K = .select ∨ K = .simple → (∃ h as, Part a (.exprCall h n as)) → callable (syn n) = true → callable t' = true) →
        ∃ t2, Accepts (src.take n.lCur.offset ++ (c ++ y)) t2 ∧ Swap (syn n) t' (syn a) t2 := by
  have hn' : phrase n = true := by
    simp only [placed, phrase, Bool.or_eq_true] at hn ⊢
    exact .inl hn
  obtain ⟨K, r0, r0', P, gn, hK, hP, h1, hG, ho, hbase, H⟩ := document_part e hc hp hn'
  have h0 := gn.skip_ne hK
  obtain ⟨e1, e2, e3, e4, e5⟩ := place_of (gn.placeAny hK hn) hP h0 h1
  have e1 : src.take n.lCur.offset = P := e1
  have e2 : src.drop n.lCur.offset = skip r0 := e2
  have e3 : src.drop n.rCur.offset = r0' := e3
  have e5 : skip r0 = n.src src ++ r0' := e5
  refine ⟨K, r0, ?_⟩
  rw [e3, e2, e1]
  exact ⟨hbase, gn, hK, rfl, h0, e4, e5, hG, ho, H⟩

/-- A part of a document, with its place in numbers. -/
theorem document_at {src : Bytes} {a : Node} {s : PState} (e : parse src = some (a, s)) (hc : Clean s) {n : Node} (hp : Part a n) (hn : placed n = true) :
    ∃ K r0, GN (some src) K r0 [n] (src.drop n.rCur.offset) ∧ (K.top = true ∨ K = .binds) ∧ src.drop n.lCur.offset = skip r0 ∧ skip r0 ≠ [] ∧
      n.lCur.offset ≤ n.rCur.offset ∧ src.drop n.lCur.offset = n.src src ++ src.drop n.rCur.offset ∧
      G K.nt (src.drop n.lCur.offset) [syn n] (src.drop n.rCur.offset) ∧ (odd (syn a) = false → odd (syn n) = false) ∧
      ∀ c x y t', odd (syn a) = false → src.drop n.lCur.offset = c ++ x → Edge x y (src.take n.lCur.offset ++ c) → G K.fill (c ++ y) [t'] (src.drop n.rCur.offset) →
        (K = .select ∨ K = .simple → (∃ h as, Part a (.exprCall h n as)) → callable (syn n) = true → callable t' = true) →
        ∃ t2, Accepts (src.take n.lCur.offset ++ (c ++ y)) t2 ∧ Swap (syn n) t' (syn a) t2 := by
  obtain ⟨K, r0, -, h⟩ := document_at' e hc hp hn
  exact ⟨K, r0, h⟩

/-- The text of a phrase, when something else comes after it. -/
theorem G.alone {nt : NT} {w x y : Bytes} {l : List Syn} (h : G nt (w ++ x) l x) (ho : oddL l = false) (hn : ∀ R, nt ≠ .body R) (hp : nt ≠ .pbody)
    (hy : Edge x y w) : G nt (w ++ y) l y := by
  have := h.rest (p := []) hy ho hn hp
  exact this

end Verif.Nixf.Syntax
