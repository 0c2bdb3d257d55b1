import Verif.Props.Rewrites
import Verif.Props.CodeAction
import Verif.Props.Formals
/-
C43: adding a variable to the formals of a function, for documents without syntax errors.
-/
namespace Verif.Props
open Verif.Nixf Verif.Nixf.Syntax Node Lexical

variable {src : Bytes} {root n : Node} {s : PState}

/-- A list of formals with one more. -/
inductive Added (x : Bytes) : List Syn → List Syn → Prop
  | only : Added x [] [.formal false x]
  /-- in front of an ellipsis -/
  | front : Added x [.ellipsis false] [.formal false x, .ellipsis true]
  /-- at the end -/
  | behind {l : List Syn} {f : Syn} : isLast f = false → Added x (l ++ [f]) (l ++ [f, .formal true x])
  /-- between the last formal and an ellipsis -/
  | before {l : List Syn} {f : Syn} {c : Bool} : isLast f = false → Added x (l ++ [f, .ellipsis c]) (l ++ [f, .formal true x, .ellipsis c])

/-- The same argument with other formals. -/
inductive Reformed (fs fs' : List Syn) : Syn → Syn → Prop
  | set : Reformed fs fs' (.argSet fs) (.argSet fs')
  | both (v : Bytes) : Reformed fs fs' (.argBoth v fs) (.argBoth v fs')

/-- The default of a formal. -/
def defaultOf : Node → Node
  | .formal _ _ _ d _ => d
  | _ => .null

/-- There is room for the insertion of `t` at the offset `o`: the formals do not end with a comma, no comma is in front of a lone ellipsis, and
the comma in `t` does not become a part of a default that is a URI. For the latter it is asked that the default in front of the comma has no
colon, or ends in a bracket or a quote, or that there is a comma already. -/
structure Room (src : Bytes) (fs : List Node) (o : Nat) (t : Bytes) : Prop where
  trailing : ∀ f ∈ fs.getLast?, syn f ≠ .comma
  leading : synL fs ≠ [.ellipsis true]
  uri : ∀ f ∈ fs, f.rCur.offset = o → (defaultOf f).isNull = false → Edge (src.drop o) (t ++ src.drop o) ((defaultOf f).src src)

theorem members_split {src : Option Bytes} {a b : List Node} : ∀ {r r' : Bytes}, GN src .members r (a ++ b) r' →
    ∃ r1, GN src .members r a r1 ∧ GN src .members r1 b r' := by
  induction a with
  | nil => intro r r' h; exact ⟨r, .noMember, h⟩
  | cons f a ih =>
    intro r r' h
    cases h with
    | members h1 h2 h3 =>
      obtain ⟨r1, i1, i2⟩ := ih h3
      exact ⟨r1, .members h1 h2 i1, i2⟩

theorem members_join {a b : List Syn} : ∀ {r r1 r' : Bytes}, G .members r a r1 → G .members r1 b r' → G .members r (a ++ b) r' := by
  induction a with
  | nil => intro r r1 r' h h'; cases h; exact h'
  | cons f a ih =>
    intro r r1 r' h h'
    cases h with
    | members h1 h2 => exact .members h1 (ih h2 h')

/-- A name in front of white space, a comment, a comma or a closing brace. -/
theorem tok_name_before {x r z : Bytes} {c : UInt8} (hx : quoteNixAttrKey x = x) (hc : c = 44 ∨ c = 125) (h : Syntax.skip r = c :: z) :
    Tok (x ++ r) .id_ x r := by
  cases r with
  | nil =>
    have := (skip_suf []).length_le
    rw [h] at this; simp at this
  | cons d t =>
  have f : ∀ d : UInt8, isWhite d = true ∨ d = 35 ∨ d = 44 ∨ d = 125 → (d ∉ 47 :: 126 :: pathChars ∧ d ∉ 58 :: letters ++ schemeChars) ∧ d ∉ identChars := by
    apply forall_byte; decide +kernel
  have easy : isWhite d = true ∨ d = 35 ∨ d = 44 ∨ d = 125 → Tok (x ++ d :: t) .id_ x (d :: t) := fun hd =>
    tok_name' hx (fun y hy => by simp at hy; subst hy; exact (f _ hd).2) (.at (f _ hd).1)
  by_cases h1 : isWhite d = true
  · exact easy (.inl h1)
  by_cases h2 : d = 35
  · exact easy (.inr (.inl h2))
  by_cases h3 : b!"/*" <+: d :: t
  · obtain ⟨u, hu⟩ := h3
    simp only [List.cons_append, List.nil_append, List.cons.injEq] at hu
    obtain ⟨rfl, rfl⟩ := hu
    obtain ⟨⟨c, w, rfl, hc, hw⟩, h4, -⟩ := (C35_unquoted_iff x).mp hx
    obtain ⟨f1, f2, f3, -⟩ := identStart_facts c hc
    have hs : ∀ x ∈ c :: w, x ≠ 47 ∧ x ≠ 126 ∧ x ≠ 58 := by
      intro x hx
      rcases List.mem_cons.mp hx with rfl | hx
      · exact word_sep _ (.inl hc)
      · exact word_sep _ (.inr (hw x hx))
    have hk : wordKind (c :: w) = .id_ := by
      unfold wordKind
      cases hl : reserved.lookup (c :: w) with
      | none => rfl
      | some k =>
        obtain ⟨p, hp, hpe, rfl⟩ := lookup_mem hl
        exact absurd hpe.symm (h4 p hp)
    have := C15_word (.init (c :: w ++ 47 :: 42 :: u)) [] c w (47 :: 42 :: u) rfl (.nil _) hc hw (fun y hy => by simp at hy; subst hy; decide) ?_ ?_
    · rw [hk] at this
      exact tok_of_lex (noTrivia_of_head f1 f2 f3) (by decide) this
    · rintro ⟨v, t, e, hv, ht⟩
      have key : ∀ (k v : Bytes), (∀ x ∈ k, x ≠ 47 ∧ x ≠ 126 ∧ x ≠ 58) → k ++ 47 :: 42 :: u = v ++ 47 :: t → (v = [126] ∨ ∀ c ∈ v, c ∈ pathChars) → False := by
        intro k
        induction k with
        | nil =>
          intro v _ e hv
          cases v with
          | nil =>
            simp only [List.nil_append, List.cons.injEq, true_and] at e
            subst e
            rcases ht with ⟨c, h5, h6⟩ | ⟨q, hq⟩
            · simp at h5; subst h5; exact absurd h6 (by decide)
            · simp at hq
          | cons y v =>
            simp only [List.nil_append, List.cons_append, List.cons.injEq] at e
            obtain ⟨rfl, -⟩ := e
            rcases hv with h | h
            · cases h
            · exact absurd (h 47 (by simp)) (by decide)
        | cons x k ih =>
          intro v hk e hv
          cases v with
          | nil => simp at e; exact (hk x (by simp)).1 e.1
          | cons y v =>
            simp only [List.cons_append, List.cons.injEq] at e
            rcases hv with h | h
            · cases h; exact (hk x (by simp)).2.1 e.1
            · exact ih v (fun x hx => hk x (by simp [hx])) e.2 (.inr fun c hc => h c (by simp [hc]))
      exact key (c :: w) v hs e hv
    · exact no_uri (fun x hx => (hs x hx).2.2) (fun y hy => by simp at hy; subst hy; decide)
  · have hn : NoTrivia (d :: t) := ⟨by simpa using h1, fun ⟨q, hq⟩ => by simp at hq; exact h2 hq.1.symm, h3⟩
    have : Syntax.skip (d :: t) = d :: t := by unfold Syntax.skip; rw [consumeTrivia_id (s := .init _) hn]; rfl
    rw [this] at h
    simp only [List.cons.injEq] at h
    rcases hc with rfl | rfl
    · exact easy (.inr (.inr (.inl h.1)))
    · exact easy (.inr (.inr (.inr h.1)))

theorem quiet_comma (x y : Bytes) : Quiet' x (44 :: y) := by
  intro d hd; simp at hd; subst hd; exact ⟨by decide, fun h => absurd h (by decide)⟩
theorem quiet_question (x y : Bytes) : Quiet' x (63 :: y) := by
  intro d hd; simp at hd; subst hd; exact ⟨by decide, fun h => absurd h (by decide)⟩

theorem id_colon {r v r' : Bytes} (h : Tok r .id_ v r') : 58 ∉ v := by
  obtain ⟨c, w, rfl, h1, h2, -⟩ := word_of h (.inl rfl)
  intro h3
  rcases List.mem_cons.mp h3 with h4 | h4
  · exact (word_sep c (.inl h1)).2.2 h4.symm
  · exact (word_sep 58 (.inr (h2 58 h4))).2.2 rfl

theorem lead_after {c : Bool} {q y r' : Bytes} {t : Syn} (hl : Leads q y) (g : G (.afterComma c) y [t] r') (ht : t ≠ .comma) :
    G (.afterComma c) (q ++ y) [t] r' := by
  cases g with
  | formal t => exact .formal (hl.tok t)
  | formalOr t1 t2 g => exact .formalOr (hl.tok t1) t2 g
  | ellipsis t => exact .ellipsis (hl.tok t)
  | lone => exact absurd rfl ht

theorem comma_after {c : Bool} {r r' : Bytes} {t : Syn} (g : G (.afterComma c) r [t] r') (ht : t ≠ .comma) : hasComma t = c := by
  cases g with
  | formal t => rfl
  | formalOr t1 t2 g => rfl
  | ellipsis t => rfl
  | lone => exact absurd rfl ht

theorem lead_member {q y r' : Bytes} {t : Syn} (hl : Leads q y) (g : G .member y [t] r') : G .member (q ++ y) [t] r' := by
  cases g with
  | plain g hne => exact .plain (lead_after hl g hne) hne
  | comma t g => exact .comma (hl.tok t) g

theorem synL_append (a b : List Node) : synL (a ++ b) = synL a ++ synL b := by rw [synL_eq, synL_eq, synL_eq, List.map_append]

theorem ne_comma {t : Syn} (h : isLast t = false) : t ≠ .comma := by rintro rfl; cases h

/-- A formal without its comma, and a comma after it. -/
theorem after_onto {c : Bool} {r r' y : Bytes} {f : Node} (g : GN (some src) (.afterComma c) r [f] r') (ho : odd (syn f) = false) (hl : isLast (syn f) = false)
    (hd : (defaultOf f).isNull = false → Edge r' (44 :: y) ((defaultOf f).src src)) :
    ∃ q D, r = q ++ (D ++ r') ∧ D ≠ [] ∧ (∀ z, Leads q z) ∧ G (.afterComma c) (D ++ 44 :: y) [syn f] (44 :: y) := by
  cases g with
  | @formal _ _ v _ h cm h' t hc sp =>
    obtain ⟨-, q, hq, -⟩ := t.leads (by decide) []
    refine ⟨q, v, by rw [← t.text]; exact hq, t.ne (by decide), fun z => ?_, ?_⟩
    · obtain ⟨-, q', hq', hz⟩ := t.leads (by decide) z
      have : q' = q := List.append_cancel_right (hq'.symm.trans hq)
      rw [← this]; exact hz
    · have t1 := t.skip
      rw [t.text] at t1
      have t2 : Tok (v ++ 44 :: y) .id_ v ([] ++ 44 :: y) :=
        Tok.swap (x := r') (p' := []) (quiet_comma _ _) (fun d hd hs => .inr (id_colon t)) t1 (by decide) (fun h => absurd h (by decide))
      rw [← hc]
      exact .formal t2
  | @formalOr _ _ v r1 v1 r2 d _ h cm h' t1 t2 ge hd0 hc sp =>
    have hv1 : v1 = b!"?" := t2.punct (by decide) (by decide) (by decide)
    subst hv1
    have hs := syn_formalOr (h := h) (c := cm) (hi := h') (x := v) (e := .null) hd0
    rw [hs] at ho
    have ge2 := ge.toG.unlead rfl
    obtain ⟨k0, v0, z0, t0, hk0⟩ := ge.toG.first rfl
    have h0 : Syntax.skip r2 ≠ [] := (t0.leads hk0 []).1
    have hpl : Spans (some src) d.range r2 r' := ge.place rfl
    obtain ⟨-, -, -, -, eD⟩ := place_of (P := src.take d.lCur.offset) hpl (by rw [← hpl.1 src rfl]; exact (List.take_append_drop _ _).symm) h0 ge2.suf
    have eD : Syntax.skip r2 = d.src src ++ r' := eD
    rw [eD] at ge2 h0
    have ge2 : G .expr (d.src src ++ r') [syn d] r' := ge2
    have ge3 : G .expr (d.src src ++ 44 :: y) [syn d] (44 :: y) :=
      G.alone (nt := .expr) ge2 (by simpa [oddL, odd] using ho) (by simp) (by simp) (hd hd0)
    have lead : ∀ {r v r1 : Bytes} {k : TK} (t : Tok r k v r1) (hk : k ≠ .eof), ∃ q, r = q ++ Syntax.skip r ∧ ∀ z, Leads q z := by
      intro r v r1 k t hk
      obtain ⟨-, q, hq, -⟩ := t.leads hk []
      refine ⟨q, hq, fun z => ?_⟩
      obtain ⟨-, q', hq', hz⟩ := t.leads hk z
      have : q' = q := List.append_cancel_right (hq'.symm.trans hq)
      rw [← this]; exact hz
    obtain ⟨q2, e2, l2⟩ := lead t0 hk0
    obtain ⟨q1, e1, l1⟩ := lead t2 (by decide)
    obtain ⟨q0, e0, l0⟩ := lead t1 (by decide)
    rw [eD] at e2
    rw [t2.text] at e1
    have t1' := t1.skip
    rw [t1.text] at e0 t1'
    refine ⟨q0, v ++ (q1 ++ (63 :: (q2 ++ d.src src))), ?_, ?_, l0, ?_⟩
    · rw [e0, e1, e2]; simp
    · have := t1.ne (by decide); simp [this]
    · rw [hs, hc]
      have e : v ++ (q1 ++ 63 :: (q2 ++ d.src src)) ++ 44 :: y = v ++ (q1 ++ 63 :: (q2 ++ (d.src src ++ 44 :: y))) := by simp
      rw [e]
      refine .formalOr ?_ ((l1 _).tok (tok_question _)) (G.lead (l2 _) ge3 rfl)
      rw [e1] at t1'
      have := Tok.swap (x := 63 :: r2) (y := 63 :: (q2 ++ (d.src src ++ 44 :: y))) (p := v ++ q1) (p' := q1) (quiet_question _ _)
        (fun d hd hs => .inl hd) (by simpa using t1') (by decide) (fun h => absurd h (by decide))
      simpa using this
  | ellipsis t he hc => exfalso; revert hl; rw [syn_ellipsis he]; intro h; cases h
  | lone => cases hl

/-- A formal, and a comma after it. -/
theorem member_onto {r r' y : Bytes} {f : Node} (g : GN (some src) .member r [f] r') (ho : odd (syn f) = false) (hl : isLast (syn f) = false)
    (hd : (defaultOf f).isNull = false → Edge r' (44 :: y) ((defaultOf f).src src)) :
    ∃ q D, r = q ++ (D ++ r') ∧ (∀ z, Leads q z) ∧ G .member (D ++ 44 :: y) [syn f] (44 :: y) ∧ (hasComma (syn f) = true → ∃ D', D = 44 :: D') := by
  cases g with
  | plain g hne =>
    obtain ⟨q, D, e, h1, h2, h3⟩ := after_onto g ho hl hd
    refine ⟨q, D, e, h2, .plain h3 hne, fun hc => ?_⟩
    rw [comma_after h3 hne] at hc; cases hc
  | comma t g =>
    obtain ⟨q, D, e, h1, h2, h3⟩ := after_onto g ho hl hd
    have hv := t.text
    have hk : _ = b!"," := t.punct (by decide) (by decide) (by decide)
    obtain ⟨-, q', hq', -⟩ := t.leads (by decide) []
    have hz : ∀ z, Leads q' z := fun z => by
      obtain ⟨-, q'', hq'', hz⟩ := t.leads (by decide) z
      have : q'' = q' := List.append_cancel_right (hq''.symm.trans hq')
      rw [← this]; exact hz
    refine ⟨q', 44 :: (q ++ D), ?_, hz, ?_, fun _ => ⟨_, rfl⟩⟩
    · rw [hv, hk] at hq'
      rw [hq', e]; simp
    · have e2 : 44 :: (q ++ D) ++ 44 :: y = 44 :: (q ++ (D ++ 44 :: y)) := by simp
      rw [e2]
      exact .comma (tok_comma _) (lead_after (h2 _) h3 (ne_comma hl))

/-- A new formal after another one. -/
theorem insert_after {r r2 rb z x : Bytes} {c : UInt8} {pre post : List Node} {f : Node} (g : GN (some src) .members r (pre ++ f :: post) r2)
    (hb : src.drop f.rCur.offset = rb) (hx : quoteNixAttrKey x = x) (hok : FormalsOk (synL (pre ++ f :: post))) (ho : oddL (synL (pre ++ f :: post)) = false)
    (hl : isLast (syn f) = false) (hc : c = 44 ∨ c = 125) (hn : Syntax.skip rb = c :: z)
    (hd : (defaultOf f).isNull = false → Edge rb (b!", " ++ x ++ rb) ((defaultOf f).src src)) :
    ∃ u, r = u ++ rb ∧ G .members (u ++ (b!", " ++ x ++ rb)) (synL pre ++ syn f :: .formal true x :: synL post) r2 := by
  obtain ⟨ra, g1, g2⟩ := members_split g
  rw [synL_append] at ho hok
  cases g2 with
  | members gf sp gp =>
  have hb : rb = _ := hb.symm.trans (sp.2 src rfl)
  subst hb
  rw [oddL_append] at ho
  simp only [synL, oddL, Bool.or_eq_false_iff] at ho
  have ey : b!", " ++ x ++ rb = 44 :: (32 :: (x ++ rb)) := by simp
  rw [ey] at hd ⊢
  obtain ⟨q, D, e, h1, h2, h3⟩ := member_onto gf ho.2.1 hl hd
  have gx : G .members (44 :: (32 :: (x ++ rb))) (.formal true x :: synL post) r2 := by
    refine .members (.comma (tok_comma _) (.formal ?_)) gp.toG
    exact .ws (g := [32]) (by decide) (tok_name_before hx hc hn)
  cases pre with
  | nil =>
    cases g1
    refine ⟨q ++ D, by rw [e]; simp, ?_⟩
    rw [List.append_assoc]
    exact .members (lead_member (h1 _) h2) gx
  | cons p pre =>
    have hcm : hasComma (syn f) = true := hok.1 _ (by simp [synL])
    obtain ⟨D', rfl⟩ := h3 hcm
    obtain ⟨w, hw⟩ := g1.suf
    refine ⟨w ++ (q ++ 44 :: D'), by rw [← hw, e]; simp, ?_⟩
    have g1' : G .members (w ++ q ++ 44 :: (D' ++ rb)) (synL (p :: pre)) (q ++ 44 :: (D' ++ rb)) := by
      have := g1.toG
      rw [← hw, e] at this
      have e' : w ++ q ++ 44 :: (D' ++ rb) = w ++ (q ++ (44 :: D' ++ rb)) := by simp
      rw [e']; exact this
    have g3 := G.rest (x := 44 :: (D' ++ rb)) (P := w ++ q) (p := q) (nt := .members) (y := 44 :: (D' ++ 44 :: (32 :: (x ++ rb)))) (.inl ⟨quiet_comma _ _, fun d hd hs => .inl hd⟩) g1' ho.1 (by simp) (by simp)
    have e3 : w ++ (q ++ 44 :: D') ++ 44 :: (32 :: (x ++ rb)) = w ++ q ++ 44 :: (D' ++ 44 :: (32 :: (x ++ rb))) := by simp
    rw [e3]
    exact members_join g3 (.members (lead_member (h1 _) h2) gx)

theorem take_of {A R : Bytes} {o : Nat} (h : src = A ++ R) (ho : src.drop o = R) (hR : R ≠ []) : src.take o = A := by
  have h1 : src.take o ++ R = A ++ R := by rw [← ho, List.take_append_drop, ho]; exact h
  exact List.append_cancel_right h1

theorem member_kind {r r' : Bytes} {f : Node} (g : GN (some src) .member r [f] r') :
    (formalIsEllipsis f = true ∧ ∃ c, syn f = .ellipsis c) ∨ formalIsEllipsis f = false ∧ (isLast (syn f) = false ∨ syn f = .comma) := by
  have key : ∀ {c : Bool} {r : Bytes}, GN (some src) (.afterComma c) r [f] r' →
      (formalIsEllipsis f = true ∧ ∃ c, syn f = .ellipsis c) ∨ formalIsEllipsis f = false ∧ (isLast (syn f) = false ∨ syn f = .comma) := by
    intro c r g
    cases g with
    | formal => exact .inr ⟨rfl, .inl rfl⟩
    | formalOr _ _ _ hd => exact .inr ⟨rfl, .inl (by rw [syn_formalOr hd]; rfl)⟩
    | ellipsis t he hc => exact .inl ⟨by simp [formalIsEllipsis, formalEllipsis, he], _, syn_ellipsis he⟩
    | lone => exact .inr ⟨rfl, .inr rfl⟩
  cases g with
  | plain g => exact key g
  | comma _ g => exact key g

theorem member_comma {r r' : Bytes} {t : Syn} (g : G .member r [t] r') (h : hasComma t = true) : ∃ z, Syntax.skip r = 44 :: z := by
  cases g with
  | plain g hne => rw [comma_after g hne] at h; cases h
  | comma t g =>
    have hv := t.text
    rw [t.punct (w := b!",") (by decide) (by decide) (by decide)] at hv
    exact ⟨_, hv⟩

/-- What is inserted, and what the formals become. -/
theorem inserted {hf : Hd} {fs : List Node} {r r1 r2 r3 v1 v2 x t : Bytes} {o : Nat} (hi : formalInsertion (.formals hf fs) x = some (o, t))
    (hx : quoteNixAttrKey x = x) (ho : oddL (synL fs) = false) (sp : Spans (some src) hf.range r r3) (t1 : Tok r .l_curly v1 r1)
    (g : GN (some src) .members r1 fs r2) (t2 : Tok r2 .r_curly v2 r3) (ok : FormalsOk (synL fs)) (hroom : Room src fs o t) :
    ∃ u z fs' r2' v2', r1 = u ++ z ∧ src.drop o = z ∧ z ≠ [] ∧ Added x (synL fs) fs' ∧ G .members (u ++ (t ++ z)) fs' r2' ∧ Tok r2' .r_curly v2' r3 ∧
      FormalsOk fs' ∧ ((∀ f ∈ (synL fs).head?, hasComma f = false) → ∀ f ∈ fs'.head?, hasComma f = false) := by
  have hv1 : v1 = b!"{" := t1.punct (by decide) (by decide) (by decide)
  subst hv1
  have hne : ∀ {r v r' : Bytes} {k : TK}, Tok r k v r' → k ≠ .eof → r ≠ [] := by
    intro r v r' k t hk h
    subst h
    have := t.text
    have h2 := (skip_suf []).length_le
    have h3 := t.ne hk
    rw [this] at h2
    simp at h2
    exact h3 h2.1
  unfold formalInsertion at hi
  simp only [formalMembers, hx] at hi
  cases hlast : fs.getLast? with
  | none =>
    rw [hlast] at hi
    simp only [Option.some.injEq, Prod.mk.injEq] at hi
    obtain ⟨rfl, rfl⟩ := hi
    have : fs = [] := List.getLast?_eq_none_iff.mp hlast
    subst this
    cases g
    have e1 : src.drop hf.range.l.offset = 123 :: r1 := by
      have := sp.1 src rfl
      rw [t1.text] at this; exact this
    refine ⟨[], r1, [.formal false x], 32 :: r1, v2, rfl, ?_, hne t2 (by decide), .only, ?_, .ws (g := [32]) (by decide) t2, ?_, ?_⟩
    · show src.drop (hf.range.l.offset + 1) = r1
      rw [← List.drop_drop, e1]; rfl
    · have e : [] ++ (b!" " ++ x ++ b!" " ++ r1) = b!" " ++ (x ++ (32 :: r1)) := by simp
      rw [e]
      refine .members (.plain (.formal (.ws (g := [32]) (by decide) ?_)) (by simp)) .noMember
      exact tok_name' hx (fun y hy => by simp at hy; subst hy; decide) (.at (by decide))
    · exact ⟨by simp, by simp⟩
    · intro _ f hf; simp at hf; subst hf; rfl
  | some last =>
    rw [hlast] at hi
    obtain ⟨ini, rfl⟩ : ∃ ini, fs = ini ++ [last] := by
      obtain ⟨h1, h2⟩ := List.getLast?_eq_some_iff.mp hlast
      exact ⟨h1, h2⟩
    obtain ⟨ra, g1, g2⟩ := members_split g
    cases g2 with
    | members gl sl gn =>
    cases gn
    simp only at hi
    have hskip2 : Syntax.skip r2 = 125 :: r3 := by rw [t2.text, t2.r_curly]; rfl
    rw [synL_append] at ok ho
    rcases member_kind gl with ⟨k1, c, k2⟩ | ⟨k1, k2⟩
    · simp only [k1, if_true] at hi
      cases ini using List.reverseRecOn with
      | nil =>
        cases g1
        simp only [List.nil_append, List.length_singleton, if_true, Option.some.injEq, Prod.mk.injEq] at hi
        obtain ⟨rfl, rfl⟩ := hi
        have hc : c = false := by
          cases c with
          | false => rfl
          | true => exact absurd (by simp [synL, k2]) hroom.leading
        subst hc
        have gl := gl.toG
        have gl : G .member r1 [syn last] r2 := gl
        rw [k2] at gl
        cases gl with
        | comma _ g => exact absurd (comma_after g (by simp)) (by simp [hasComma])
        | plain g =>
        cases g with
        | ellipsis te =>
        obtain ⟨hs0, q, hq, hz⟩ := te.leads (by decide) (x ++ (44 :: 32 :: Syntax.skip r1))
        refine ⟨q, Syntax.skip r1, [.formal false x, .ellipsis true], r2, _, hq, sl.1 src rfl, hs0, ?_, ?_, t2, ?_, ?_⟩
        · have : synL ([] ++ [last]) = [.ellipsis false] := by simp [synL, k2]
          rw [this]; exact .front
        · have e : q ++ (x ++ b!", " ++ Syntax.skip r1) = q ++ (x ++ (44 :: 32 :: Syntax.skip r1)) := by simp
          rw [e]
          refine .members (.plain (.formal (hz.tok (tok_name' hx (fun y hy => by simp at hy; subst hy; decide) (.at (by decide))))) (by simp)) ?_
          exact .members (.comma (tok_comma _) (.ellipsis (.ws (g := [32]) (by decide) te.skip))) .noMember
        · exact ⟨by simp [hasComma], by simp [isLast]⟩
        · intro _ f hf; simp at hf; subst hf; rfl
      | append_singleton ini f =>
        obtain ⟨rf, g3, g4⟩ := members_split g1
        cases g4 with
        | members gf sf gn =>
        cases gn
        rw [synL_append, List.append_assoc] at ok
        have kf : isLast (syn f) = false := ok.2 (syn f) (by simp [synL])
        have kf2 : formalIsEllipsis f = false := by
          rcases member_kind gf with ⟨-, c, h⟩ | ⟨h, -⟩
          · rw [h] at kf; cases kf
          · exact h
        have hlen : (ini ++ [f] ++ [last]).length ≠ 1 := by simp
        rw [if_neg hlen] at hi
        have hfind : (ini ++ [f] ++ [last]).reverse.find? (fun f => !formalIsEllipsis f) = some f := by simp [k1, kf2]
        simp only [hfind, Option.some.injEq, Prod.mk.injEq] at hi
        obtain ⟨rfl, rfl⟩ := hi
        have hcl : hasComma (syn last) = true := ok.1 _ (by cases ini <;> simp [synL])
        obtain ⟨z, hz⟩ := member_comma (show G .member _ [syn last] r2 from gl.toG) hcl
        have eq : ini ++ [f] ++ [last] = ini ++ f :: [last] := by simp
        have hdef := hroom.uri f (by simp) rfl
        have hdrop : src.drop f.rCur.offset = _ := sf.2 src rfl
        rw [hdrop] at hdef
        rw [eq] at g
        obtain ⟨u, e1, e2⟩ := insert_after g hdrop hx (by rw [synL_append]; simpa [synL] using ok) (by rw [synL_append]; simpa [synL, synL_append] using ho) kf (.inl rfl) hz hdef
        refine ⟨u, _, _, r2, _, e1, hdrop, ?_, ?_, e2, t2, ?_, ?_⟩
        · intro h; rw [h] at hz
          have := (skip_suf []).length_le
          rw [hz] at this; simp at this
        · have e3 : synL (ini ++ [f] ++ [last]) = synL ini ++ [syn f, .ellipsis c] := by rw [eq, synL_append]; simp [synL, k2]
          rw [e3]
          simp only [synL, k2]
          exact .before kf
        · simp only [synL, k2] at ok ⊢
          refine ⟨?_, ?_⟩
          · intro g hg
            cases hini : synL ini with
            | nil =>
              rw [hini] at hg ok
              simp only [List.nil_append, List.tail_cons, List.mem_cons, List.not_mem_nil, or_false] at hg
              rcases hg with rfl | rfl
              · rfl
              · exact ok.1 _ (by simp)
            | cons a l =>
              rw [hini] at hg ok
              simp only [List.cons_append, List.tail_cons, List.mem_append, List.mem_cons, List.not_mem_nil, or_false] at hg
              rcases hg with hg | rfl | rfl | rfl
              · exact ok.1 _ (by simp [hg])
              · exact ok.1 _ (by simp)
              · rfl
              · exact ok.1 _ (by simp)
          · intro g hg
            have e4 : (synL ini ++ [syn f, Syn.formal true x, Syn.ellipsis c]).dropLast = synL ini ++ [syn f, Syn.formal true x] := by
              rw [show synL ini ++ [syn f, Syn.formal true x, Syn.ellipsis c] = (synL ini ++ [syn f, Syn.formal true x]) ++ [Syn.ellipsis c] by simp, List.dropLast_concat]
            rw [e4] at hg
            have e5 : (synL ini ++ ([syn f] ++ [Syn.ellipsis c])).dropLast = synL ini ++ [syn f] := by
              rw [← List.append_assoc, List.dropLast_concat]
            have ok2 := ok.2
            rw [e5] at ok2
            simp only [List.mem_append, List.mem_cons, List.not_mem_nil, or_false] at hg
            rcases hg with hg | rfl | rfl
            · exact ok2 _ (by simp [hg])
            · exact kf
            · rfl
        · intro hh g hg
          refine hh g ?_
          rw [eq, synL_append]
          cases hini : synL ini <;> simpa [hini, synL] using hg
    · have hlt : isLast (syn last) = false := k2.resolve_right (hroom.trailing last (by simp))
      simp only [k1, Bool.false_eq_true, if_false, Option.some.injEq, Prod.mk.injEq] at hi
      obtain ⟨rfl, rfl⟩ := hi
      have hdef := hroom.uri last (by simp) rfl
      have hdrop : src.drop last.rCur.offset = _ := sl.2 src rfl
      rw [hdrop] at hdef
      obtain ⟨u, e1, e2⟩ := insert_after g hdrop hx (by rw [synL_append]; exact ok) (by rw [synL_append]; exact ho) hlt (.inr rfl) hskip2 hdef
      refine ⟨u, _, _, r2, _, e1, hdrop, hne t2 (by decide), ?_, e2, t2, ?_, ?_⟩
      · rw [synL_append]
        exact .behind hlt
      · simp only [synL] at ok ⊢
        refine ⟨?_, ?_⟩
        · intro g hg
          cases hini : synL ini with
          | nil =>
            rw [hini] at hg
            simp at hg
            subst hg; rfl
          | cons a l =>
            rw [hini] at hg ok
            simp only [List.cons_append, List.tail_cons, List.mem_append, List.mem_cons, List.not_mem_nil, or_false] at hg
            rcases hg with hg | rfl | rfl
            · exact ok.1 _ (by simp [hg])
            · exact ok.1 _ (by simp)
            · rfl
        · intro g hg
          have e4 : (synL ini ++ [syn last, Syn.formal true x]).dropLast = synL ini ++ [syn last] := by
            rw [show synL ini ++ [syn last, Syn.formal true x] = (synL ini ++ [syn last]) ++ [Syn.formal true x] by simp, List.dropLast_concat]
          rw [e4] at hg
          have ok2 := ok.2
          rw [List.dropLast_concat] at ok2
          simp only [List.mem_append, List.mem_cons, List.not_mem_nil, or_false] at hg
          rcases hg with hg | rfl
          · exact ok2 _ hg
          · exact hlt
      · intro hh g hg
        refine hh g ?_
        rw [synL_append]
        cases hini : synL ini <;> simpa [hini, synL] using hg

/-- A function is always a part of its document. -/
theorem part_open (h : parse src = some (root, s)) (hr : Reach root n) (hn : isOpen n = true) : Part root n := by
  have hx : n.isExpr = true := by cases n <;> first | rfl | cases hn
  rcases C72_parts h hr (by simp [phrase, hx]) with h1 | ⟨q, -, -, h1⟩
  · exact h1
  · exfalso
    rcases h1 with ⟨⟨_, _, rfl⟩, -⟩ | ⟨⟨_, _, _, _, _, rfl⟩, -⟩ <;> cases hn

theorem hard_curly {p : Bytes} (x y : Bytes) : Edge x y (p ++ [123]) := .inr fun c hc => by
  rw [List.getLast?_concat] at hc
  cases hc
  decide

/-- The name is added to the formals, and nothing else changes. -/
theorem C43_insertion {hl ha hf : Hd} {i b : Node} {fs : List Node} {x t : Bytes} {o : Nat} (h : parse src = some (root, s)) (hc : NoErrors s)
    (ho : odd (syn root) = false) (hr : Reach root (.exprLambda hl (.lambdaArg ha i (.formals hf fs)) b)) (hx : quoteNixAttrKey x = x)
    (hi : formalInsertion (.formals hf fs) x = some (o, t)) (hroom : Room src fs o t) :
    ∃ fs' arg' t2, ReadAs (src.take o ++ t ++ src.drop o) t2 ∧ Added x (synL fs) fs' ∧
      Reformed (synL fs) fs' (syn (.lambdaArg ha i (.formals hf fs))) arg' ∧
      Swap (.lambda (syn (.lambdaArg ha i (.formals hf fs))) (syn b)) (.lambda arg' (syn b)) (syn root) t2 := by
  have hp := part_open h hr rfl
  obtain ⟨K, r0, gn, hK, e0, e00, -, e1, -, go, H⟩ := document_at h hc hp rfl
  have hE := gn.isExpr_of hK rfl
  have : K = .expr := by
    by_contra hne
    have := gn.closed.1 hE hne _ rfl
    cases this
  subst this
  have go : odd (.lambda (syn (.lambdaArg ha i (.formals hf fs))) (syn b)) = false := go ho
  generalize src.drop (exprLambda hl (.lambdaArg ha i (.formals hf fs)) b).rCur.offset = R at gn H e1
  have hsrc := (List.take_append_drop (exprLambda hl (.lambdaArg ha i (.formals hf fs)) b).lCur.offset src).symm
  generalize src.take (exprLambda hl (.lambdaArg ha i (.formals hf fs)) b).lCur.offset = P at H hsrc
  rw [e0] at H hsrc
  have key : ∀ {p u z t'}, Syntax.skip r0 = p ++ [123] ++ (u ++ z) → src.drop o = z → z ≠ [] → G .expr (p ++ [123] ++ (u ++ (t ++ z))) [t'] R →
      ∃ t2, ReadAs (src.take o ++ t ++ src.drop o) t2 ∧ Swap (.lambda (syn (.lambdaArg ha i (.formals hf fs))) (syn b)) t' (syn root) t2 := by
    intro p u z t' h1 h2 h3 h4
    obtain ⟨t2, a1, a2⟩ := H (p ++ [123]) (u ++ z) (u ++ (t ++ z)) t' ho h1 (by rw [← List.append_assoc P]; exact hard_curly _ _) h4
      (fun h => by rcases h with h | h <;> cases h)
    refine ⟨t2, ?_, a2⟩
    have := take_of (A := P ++ (p ++ [123] ++ u)) (R := z) (src := src) (o := o) (by rw [hsrc, h1]; simp) h2 h3
    rw [this, h2]
    have e : P ++ (p ++ [123] ++ u) ++ t ++ z = P ++ (p ++ [123] ++ (u ++ (t ++ z))) := by simp
    rw [e]
    exact readAs_of a1
  have harg : ∃ fs' arg', Added x (synL fs) fs' ∧ Reformed (synL fs) fs' (syn (.lambdaArg ha i (.formals hf fs))) arg' ∧
      ∃ p u z, Syntax.skip r0 = p ++ [123] ++ (u ++ z) ∧ src.drop o = z ∧ z ≠ [] ∧ G .expr (p ++ [123] ++ (u ++ (t ++ z))) [.lambda arg' (syn b)] R := by
    cases gn with
    | op g => have := g.closed.1 rfl (by simp) _ rfl; cases this
    | lambda ga tc gb =>
    have gb : G .expr _ [syn b] R := gb.toG
    simp only [odd, Bool.or_eq_false_iff] at go
    cases ga with
    | argSet gf hh sp =>
      cases gf with
      | formals t1 gm t2 ok =>
      obtain ⟨u, z, fs', r2', v2', rfl, a2, a3, a4, a5, a6, a7, a8⟩ := inserted hi hx go.1 sp t1 gm t2 ok hroom
      refine ⟨fs', _, a4, .set, [], u, z, ?_, a2, a3, ?_⟩
      · rw [t1.text, t1.punct (w := b!"{") (by decide) (by decide) (by decide)]; rfl
      · exact .lambda (.argSet (.formals (tok_lcurly _) a5 a6 a7) (a8 (head_synL (P := fun f => hasComma f = false) hh))) tc gb
    | atArg gf hh ta ti si sp =>
      cases gf with
      | formals t1 gm t2 ok =>
      obtain ⟨u, z, fs', r2', v2', rfl, a2, a3, a4, a5, a6, a7, a8⟩ := inserted hi hx go.1 sp t1 gm t2 ok hroom
      refine ⟨fs', _, a4, .both _, [], u, z, ?_, a2, a3, ?_⟩
      · rw [t1.text, t1.punct (w := b!"{") (by decide) (by decide) (by decide)]; rfl
      · exact .lambda (.atArg (.formals (tok_lcurly _) a5 a6 a7) (a8 (head_synL (P := fun f => hasComma f = false) hh)) ta ti) tc gb
    | @argAt _ v ra v1 rb _ _ _ h' _ ti ta gf si sp =>
      cases gf with
      | formals t1 gm t2 ok =>
      obtain ⟨u, z, fs', r2', v2', rfl, a2, a3, a4, a5, a6, a7, a8⟩ := inserted hi hx go.1 sp t1 gm t2 ok hroom
      obtain ⟨-, q1, b1, -⟩ := ta.leads (by decide) []
      obtain ⟨-, q2, b2, -⟩ := t1.leads (by decide) []
      have b3 := t1.text
      rw [t1.punct (w := b!"{") (by decide) (by decide) (by decide)] at b3
      rw [ta.text] at b1
      rw [b3] at b2
      have ti' := ti.skip
      have b4 := ti.text
      subst b2 b1
      refine ⟨fs', _, a4, .both _, v ++ (q1 ++ (v1 ++ q2)), u, z, by rw [b4]; simp, a2, a3, ?_⟩
      have c1 : Tok ((v ++ (q1 ++ (v1 ++ q2)) ++ [123]) ++ (u ++ (t ++ z))) .id_ v (((q1 ++ (v1 ++ q2)) ++ [123]) ++ (u ++ (t ++ z))) := by
        refine Tok.edge (x := u ++ z) (hard_curly _ _) ?_ (by decide) (by simp)
        rw [b4] at ti'
        simpa using ti'
      have c2 : Tok (((q1 ++ (v1 ++ q2)) ++ [123]) ++ (u ++ (t ++ z))) .at_ v1 ((q2 ++ [123]) ++ (u ++ (t ++ z))) := by
        refine Tok.edge (x := u ++ z) (hard_curly _ _) ?_ (by decide) (by simp)
        simpa using ta
      have c3 : Tok ((q2 ++ [123]) ++ (u ++ (t ++ z))) .l_curly b!"{" (u ++ (t ++ z)) := by
        refine Tok.edge (x := u ++ z) (p' := []) (hard_curly _ _) ?_ (by decide) (by simp)
        have := t1
        rw [t1.punct (w := b!"{") (by decide) (by decide) (by decide)] at this
        simpa using this
      exact .lambda (.argAt c1 c2 (.formals c3 a5 a6 a7)) tc gb
  obtain ⟨fs', arg', a1, a2, p, u, z, a3, a4, a5, a6⟩ := harg
  obtain ⟨t2, a7, a8⟩ := key a3 a4 a5 a6
  exact ⟨fs', arg', t2, a7, a1, a2, a8⟩

/-- The name of a variable of the document is written without quotes, unless it is one of three. -/
theorem var_unquoted {hd hi : Hd} {x : Bytes} (h : parse src = some (root, s)) (hc : NoErrors s) (hr : Reach root (.exprVar hd (.identifier hi x)))
    (h1 : x ≠ b!"true") (h2 : x ≠ b!"false") (h3 : x ≠ b!"null") : quoteNixAttrKey x = x := by
  have hp : Part root (.exprVar hd (.identifier hi x)) := by
    rcases C72_parts h hr rfl with h1 | ⟨q, -, -, h1⟩
    · exact h1
    · rcases h1 with ⟨⟨_, _, h⟩, -⟩ | ⟨⟨_, _, _, _, _, h⟩, -⟩ <;> cases h
  obtain ⟨K, r0, gn, hK, -⟩ := document_at h hc hp rfl
  have := (gn.ofSimple rfl rfl).1 (gn.isExpr_of hK rfl)
  cases this with
  | var t =>
    obtain ⟨c, w, rfl, a1, a2, a3⟩ := word_of t (.inl rfl)
    refine (C35_unquoted_iff _).mpr ⟨⟨c, w, rfl, a1, a2⟩, ?_, h1, h2, h3⟩
    intro p hp e
    rw [e] at a3
    have : ∀ p ∈ reserved, wordKind p.1 ≠ .id_ := by decide
    exact this p hp a3

theorem first_of {fs : List Node} {f : Node} {x : Bytes} (hf : f ∈ fs) (hx : HasName f x) : ∃ g, FirstOf fs x g := by
  induction fs with
  | nil => cases hf
  | cons a fs ih =>
    by_cases ha : HasName a x
    · exact ⟨a, [], fs, rfl, ha, by simp⟩
    · rcases List.mem_cons.mp hf with rfl | hf
      · exact absurd hx ha
      · obtain ⟨g, pre, post, rfl, h1, h2⟩ := ih hf
        refine ⟨g, a :: pre, post, rfl, h1, fun k hk => ?_⟩
        rcases List.mem_cons.mp hk with rfl | hk
        · exact ha
        · exact h2 k hk

/-- C43. The offered change adds the name of the variable at the cursor, which is undefined, to the formals of the nearest function, which
do not have it. If there is room for it, then the new document has no syntax errors, and it is the old one with this one change. -/
theorem C43_action {vl : VL} {fuel : Nat} {l : List Insertion} {ins : Insertion} (h : parse src = some (root, s)) (hc : NoErrors s)
    (ho : odd (syn root) = false) (hr : Reach root n) (hf : sizeOf root ≤ fuel) (ha : addToFormalsAction (runPM root) vl fuel n = some l)
    (hm : ins ∈ l) :
    ∃ as hv hi x hl ha i hf fs b, Ancestors root n as ∧ as.find? (isKind .ExprVar) = some (.exprVar hv (.identifier hi x)) ∧
      (∃ d, vl.query (.exprVar hv (.identifier hi x)) = some ⟨.undefined, d⟩) ∧
      as.find? (isKind .ExprLambda) = some (.exprLambda hl (.lambdaArg ha i (.formals hf fs)) b) ∧ (∀ f ∈ fs, ¬ HasName f x) ∧
      (x ≠ b!"true" → x ≠ b!"false" → x ≠ b!"null" → Room src fs ins.offset ins.text →
        ∃ fs' arg' t2, ReadAs (src.take ins.offset ++ ins.text ++ src.drop ins.offset) t2 ∧ Added x (synL fs) fs' ∧
          Reformed (synL fs) fs' (syn (.lambdaArg ha i (.formals hf fs))) arg' ∧
          Swap (.lambda (syn (.lambdaArg ha i (.formals hf fs))) (syn b)) (.lambda arg' (syn b)) (syn root) t2) := by
  unfold addToFormalsAction at ha
  rcases atNode_reach h hr hf ha with rfl | ⟨v, as, h1, h2, h3, h4, h5⟩
  · cases hm
  obtain ⟨hv, j, rfl⟩ : ∃ hv j, v = .exprVar hv j := by cases v <;> first | exact ⟨_, _, rfl⟩ | cases h4
  obtain ⟨hi, x, rfl⟩ := at_fits h h3
  split at h5
  · rename_i d hd
    rcases atNode_reach h hr hf h5 with rfl | ⟨m, as', k1, k2, k3, k4, k5⟩
    · cases hm
    obtain rfl := anc_unique h h1 k1
    obtain ⟨hl, a, b, rfl⟩ : ∃ hl a b, m = .exprLambda hl a b := by cases m <;> first | exact ⟨_, _, _, rfl⟩ | cases k4
    simp only at k5
    split at k5
    · cases k5; cases hm
    rename_i hn
    obtain ⟨ha', i, f, rfl⟩ : ∃ ha i f, a = .lambdaArg ha i f := by
      cases a <;> first | exact ⟨_, _, _, rfl⟩ | exact absurd rfl hn
    obtain ⟨hf', fs, rfl⟩ : ∃ hf fs, f = .formals hf fs := by
      have h6 : Reach root (.lambdaArg ha' i f) := reach_child k3 (List.mem_filter.mpr ⟨by simp [Node.children], rfl⟩)
      rcases (at_fits h h6).2 with rfl | h7
      · exact absurd rfl hn
      · obtain ⟨h8, ms, rfl⟩ := h7; exact ⟨_, _, rfl⟩
    split at k5
    · cases k5; cases hm
    rename_i hk
    simp only [lambdaFormals, formalMembers, useName, Node.name] at hk k5
    have hk : keyFind x (dedup fs) = none := by simpa using hk
    split at k5
    · cases k5; cases hm
    rename_i o t hins
    cases k5
    simp only [List.mem_singleton] at hm
    subst hm
    refine ⟨as, hv, hi, x, hl, ha', i, hf', fs, b, h1, h2, ⟨_, hd⟩, k2, ?_, fun n1 n2 n3 room => ?_⟩
    · intro f hf hx
      obtain ⟨g, hg⟩ := first_of hf hx
      exact Scoping.keyFind_none.mp hk _ (((C21_kept_once fs).2 x g).mpr hg) rfl
    · exact C43_insertion h hc ho k3 (var_unquoted h hc h3 n1 n2 n3) hins room
  · cases h5; cases hm

/-- After the change: the text, the diagnostics and the syntax. -/
noncomputable def formalsTest (src : Bytes) (column : Nat) : List (Bytes × List DK × Option Bytes) :=
  (afterFormals src column).map fun t => (t, allKinds t, syntaxOf t)

example : formalsTest b!"{ }: x" 5 = [(b!"{ x  }: x", [], some b!"(fun { x } x)")] := by decide +kernel
example : formalsTest b!"a@{ ... }: a x" 13 = [(b!"a@{ x, ... }: a x", [], some b!"(fun a@{ x ,... } (call a x))")] := by decide +kernel
example : formalsTest b!"{ a ? 1, ... }@b: [ a b x ]" 24 =
    [(b!"{ a ? 1, x, ... }@b: [ a b x ]", [], some b!"(fun b@{ a?1 ,x ,... } [ a b x ])")] := by decide +kernel
example : formalsTest b!"{ a, b /* c */ }: [ a b x ]" 24 =
    [(b!"{ a, b, x /* c */ }: [ a b x ]", [], some b!"(fun { a ,b ,x } [ a b x ])")] := by decide +kernel

instance (t : Syn) : Decidable (t = .comma) :=
  decidable_of_iff ((match t with | .comma => true | _ => false) = true) ⟨fun h => (by split at h <;> first | rfl | cases h), fun h => (by subst h; rfl)⟩

instance (l : List Syn) : Decidable (l = [.ellipsis true]) :=
  decidable_of_iff ((match l with | [.ellipsis true] => true | _ => false) = true) ⟨fun h => (by split at h <;> first | rfl | cases h), fun h => (by subst h; rfl)⟩

instance (x y p : Bytes) : Decidable (Edge x y p) := by unfold Edge Quiet' Apart; infer_instance

instance {fs : List Node} {o : Nat} {t : Bytes} : Decidable (Room src fs o t) :=
  decidable_of_iff ((match fs.getLast? with | none => true | some f => decide (syn f ≠ .comma)) = true ∧ synL fs ≠ [.ellipsis true] ∧
      ∀ f ∈ fs, f.rCur.offset = o → (defaultOf f).isNull = false → Edge (src.drop o) (t ++ src.drop o) ((defaultOf f).src src))
    ⟨fun ⟨h1, h2, h3⟩ => ⟨fun f hf => by
      have hf : fs.getLast? = some f := hf
      simpa [hf] using h1, h2, h3⟩, fun ⟨h1, h2, h3⟩ => ⟨by
      split
      · rfl
      · rename_i f hf
        exact decide_eq_true (h1 f hf), h2, h3⟩⟩

/-- Whether there is room, for a document that is a function. -/
def roomIn (src : Bytes) (x : Bytes) : Option Bool :=
  (parse src).bind fun r => (formalInsertion (lambdaFormals r.1) x).map fun i => decide (Room src (formalMembers (lambdaFormals r.1)) i.1 i.2)

/-- There is room next to defaults that are not URIs, and not after a URI, after a trailing comma, or after a leading one. -/
example : [b!"{ }: x", b!"a@{ ... }: x", b!"{ a ? 1, ... }: x", b!"{ a, b ? [d:e] /* c */ }: x", b!"{ a ? \"x:y\" }: x", b!"{ a ? x:y /**/ }: x", b!"{ a, }: x", b!"a@{, ...}: x"].map
    (roomIn · b!"x") = [some true, some true, some true, some true, some true, some false, some false, some false] := by decide +kernel

/-- **C43**, violated: the inserted comma becomes a part of a default that is a URI. The new document has a syntax error. -/
theorem C43_uri_violated :
    afterFormals b!"{ a ? x:y }: [ a b ]" 17 = [b!"{ a ? x:y, b }: [ a b ]"] ∧
    allKinds b!"{ a ? x:y }: [ a b ]" = [.deprecatedURL, .undefinedVariable] ∧
    allKinds b!"{ a ? x:y, b }: [ a b ]" = [.deprecatedURL, .formalMissingComma] := by decide +kernel

/-- **C43**, violated: with a comma in front of a lone ellipsis, the new list has an empty formal. -/
theorem C43_leading_violated :
    afterFormals b!"a@{, ...}: b" 11 = [b!"a@{b, , ...}: b"] ∧ DK.emptyFormal ∉ allKinds b!"a@{, ...}: b" ∧
    DK.emptyFormal ∈ allKinds b!"a@{b, , ...}: b" := by decide +kernel

end Verif.Props
