import Verif.Props.Parens
import Verif.Props.Rewrites
import Verif.Props.Builtins
/-
C82: what the document is after the fixes that are proposed for URLs and by the analysis of variables.
-/
namespace Verif.Props
open Verif.Nixf Verif.Nixf.Syntax Node

/-- The edits in the order of the text. -/
def inOrder : List TextEdit → List TextEdit
  | [] => []
  | e :: es => place e (inOrder es)
where
  /-- Puts an edit in front of the first one that is not before it. -/
  place (e : TextEdit) : List TextEdit → List TextEdit
    | [] => [e]
    | f :: fs => if e.oldRange.l.offset ≤ f.oldRange.l.offset then e :: f :: fs else f :: place e fs

/-- The document after all edits of a fix. -/
def afterFix (src : Bytes) (f : Fix) : Bytes := fixed src (inOrder f.edits)

/-- The documents after the fixes for a kind of diagnostic, of the parser and of the analysis of variables. -/
def fixesOf (P : PrimOps) (k : DK) (src : Bytes) : List Bytes :=
  match parse src with
  | some (root, s) => ((s.lex.diags ++ (runVL P 100000 root).diags).filter fun d => d.kind == k).flatMap fun d => d.fixes.map (afterFix src)
  | none => []

/-- An edit in front of what is already changed. -/
theorem spliced_before {src z w : Bytes} {r : CRange} {k : Nat} (h : r.l.offset ≤ r.r.offset) (h1 : r.r.offset ≤ k) (h2 : r.r.offset ≤ src.length) :
    spliced (src.take k ++ z) r w = src.take r.l.offset ++ w ++ ((src.drop r.r.offset).take (k - r.r.offset) ++ z) := by
  have : (src.take k).length = min k src.length := List.length_take
  unfold spliced
  rw [List.take_append_of_le_length (by omega), List.drop_append_of_le_length (by omega), List.take_take, Nat.min_eq_left (by omega), List.drop_take]

/-! ### URLs -/

theorem lexOp_uri : ∀ c : UInt8, ∀ t, (lexOp (c :: t)).1 ≠ .uri := by
  intro c t h
  unfold lexOp at h
  split at h
  · rename_i p k hf
    have : ∀ q ∈ opTable, q.2 ≠ .uri := by decide
    exact this _ (List.mem_of_find?_eq_some hf) h
  · cases h

theorem tokR_uri {r r' : Bytes} (h : tokR r = (.uri, r', true)) : uriR r = some r' := by
  unfold tokR at h
  split at h
  · cases h
  · rename_i c t
    split at h
    · cases h
    · split at h
      · rename_i u hu
        cases h
        split at hu
        · exact hu
        · cases hu
      · split at h
        · unfold numR at h; simp only at h; split at h <;> cases h
        · split at h
          · have h1 : maybeKW _ = .uri := congrArg Prod.fst h
            unfold maybeKW at h1
            cases h2 : keywords.lookup ((c :: t).take ((c :: t).length - (t.dropWhile isIdentifierChar).length)) with
            | none => rw [h2] at h1; cases h1
            | some k =>
              rw [h2] at h1
              have f : ∀ q ∈ keywords, q.2 ≠ .uri := by decide
              obtain ⟨q, hq, -, rfl⟩ := lookup_mem h2
              exact absurd h1 (f _ hq)
          · split at h
            · cases h
            · exact absurd (congrArg Prod.fst h) (lexOp_uri c t)

theorem uri_chars {r v r' : Bytes} (t : Tok r .uri v r') : v ≠ [] ∧ ∀ c ∈ v, c ∉ b!"\"\\\n\r\t{" := by
  have f : ∀ c : UInt8, (isUriSchemeChar c = true ∨ c = 58 ∨ isUriPathChar c = true) → c ∉ b!"\"\\\n\r\t{" := by apply forall_byte; decide +kernel
  obtain ⟨-, h1, h2⟩ := tok_iff.mp t
  have h := tokR_uri h1
  rw [h2] at h
  unfold uriR at h
  simp only at h
  split at h
  · rename_i h3
    split at h
    · have h4 := Option.some.inj h
      have e1 := List.takeWhile_append_dropWhile (p := isUriSchemeChar) (l := v ++ r')
      cases e2 : (v ++ r').dropWhile isUriSchemeChar with
      | nil => rw [e2] at h3; cases h3
      | cons d w =>
        rw [e2] at h3 h4 e1
        simp only [List.head?_cons, Option.some.injEq] at h3
        subst h3
        simp only [List.drop_succ_cons, List.drop_zero] at h4
        have e3 := List.takeWhile_append_dropWhile (p := isUriPathChar) (l := w)
        rw [h4] at e3
        rw [← e3] at e1
        have e4 : v = (v ++ r').takeWhile isUriSchemeChar ++ 58 :: w.takeWhile isUriPathChar := by
          have : ((v ++ r').takeWhile isUriSchemeChar ++ 58 :: w.takeWhile isUriPathChar) ++ r' = v ++ r' := by simpa using e1
          exact (List.append_cancel_right this).symm
        refine ⟨by rw [e4]; simp, fun c hc => f _ ?_⟩
        rw [e4, List.mem_append, List.mem_cons] at hc
        rcases hc with hc | hc | hc
        · exact .inl (List.mem_takeWhile_imp hc)
        · exact .inr (.inl hc)
        · exact .inr (.inr (List.mem_takeWhile_imp hc))
    · cases h
  · cases h

theorem escape_same {t : Bytes} (h : ∀ c ∈ t, c ∉ b!"\"\\\n\r\t{") : escapeNixString t = t := by
  induction t with
  | nil => rfl
  | cons c t ih =>
    have hc := h c (by simp)
    have ih := ih fun d hd => h d (by simp [hd])
    rw [escapeNixString.eq_8, ih]
    all_goals first
      | (intro e; subst e; simp at hc; done)
      | (intro r e1 e2; subst e2; have := h 123 (by simp); simp at this)

/-- **C82.** A string that is written without quotes is a URL. Writing it in double quotes, which is what the fix for URLs does, does not change how the
document is read. -/
theorem C82_url {src : Bytes} {root : Node} {s : PState} {hd : Hd} {p : Node} (h : parse src = some (root, s)) (hc : NoErrors s)
    (ho : odd (syn root) = false) (hp : Part root (.exprString hd p)) (hq : ∀ c ∈ (src.drop hd.range.l.offset).head?, c ≠ 34 ∧ c ≠ 39) (m : Bytes) :
    ReadAs (afterFix src ⟨m, [.mkInsertion hd.range.l b!"\"", .mkInsertion hd.range.r b!"\""]⟩) (syn root) := by
  obtain ⟨K, r0, gn, hK, e0, hne, hle0, e2, -, -, -⟩ := document_at h hc hp rfl
  have hE := gn.isExpr_of hK rfl
  have g := (gn.ofSimple rfl rfl).1 hE
  have e1 : src.drop hd.range.l.offset = skip r0 := e0
  have hle : hd.range.l.offset ≤ hd.range.r.offset := hle0
  rw [e1] at hq
  cases g with
  | str t => have := t.text; rw [this, t.punct (w := b!"\"") (by decide) (by decide) (by decide)] at hq; exact absurd rfl (hq 34 rfl).1
  | ind t => have := t.text; rw [this, t.punct (w := b!"''") (by decide) (by decide) (by decide)] at hq; exact absurd rfl (hq 39 rfl).2
  | @uri _ v _ _ h' fs t hx sp =>
    have hv : (Node.exprString hd (.parts h' fs)).src src = v := by
      have := t.text
      rw [← e1] at this
      exact List.append_cancel_right (e2.symm.trans this)
    have hs : syn (.exprString hd (.parts h' fs)) = .str (v.map .ch) := by
      show Syn.str (synParts _) = _
      rw [synParts_explode, hx, synP_chars]
    have hesc := escape_same (uri_chars t).2
    have g : Text .simple (b!"\"" ++ v ++ b!"\"") (.str (v.map .ch)) := by
      refine ⟨.str (tok_quote _) ?_, by simp [odd, oddL_chars]⟩
      have := g_escape v []
      rw [hesc] at this
      exact this
    obtain ⟨t2, a1, a2⟩ := C73_replace h hc ho hp rfl g (fun _ h => by rw [hs] at h; exact h) (fits_closed (by decide) (by decide))
    rw [hs] at a2
    rw [Swap.same a2]
    have : spliced src (Node.exprString hd (.parts h' fs)).range (b!"\"" ++ v ++ b!"\"") =
        afterFix src ⟨m, [.mkInsertion hd.range.l b!"\"", .mkInsertion hd.range.r b!"\""]⟩ := by
      unfold afterFix
      have : inOrder [TextEdit.mkInsertion hd.range.l b!"\"", .mkInsertion hd.range.r b!"\""] =
          [TextEdit.mkInsertion hd.range.l b!"\"", .mkInsertion hd.range.r b!"\""] := by
        simp only [inOrder, inOrder.place, TextEdit.mkInsertion]
        rw [if_pos hle]
      show _ = fixed src (inOrder [TextEdit.mkInsertion hd.range.l b!"\"", .mkInsertion hd.range.r b!"\""])
      rw [this]
      show src.take hd.range.l.offset ++ (b!"\"" ++ v ++ b!"\"") ++ src.drop hd.range.r.offset =
        spliced (spliced src ⟨hd.range.r, hd.range.r⟩ b!"\"") ⟨hd.range.l, hd.range.l⟩ b!"\""
      have n1 : hd.range.l.offset ≤ src.length := by
        have := List.length_pos_iff.mpr hne
        rw [← e1, List.length_drop] at this
        omega
      have n2 : v = (src.drop hd.range.l.offset).take (hd.range.r.offset - hd.range.l.offset) := hv.symm
      show _ = spliced (src.take hd.range.r.offset ++ b!"\"" ++ src.drop hd.range.r.offset) ⟨hd.range.l, hd.range.l⟩ b!"\""
      rw [List.append_assoc (src.take hd.range.r.offset), spliced_before (r := ⟨hd.range.l, hd.range.l⟩) (Nat.le_refl _) hle n1, ← n2]
      simp
    rw [← this]
    exact a1

example : fixesOf [] .deprecatedURL b!"f http://a.b/$ x" = [b!"f \"http://a.b/$\" x"] ∧
    syntaxOf b!"f http://a.b/$ x" = some b!"(call f \"http://a.b/$\" x)" ∧ syntaxOf b!"f \"http://a.b/$\" x" = some b!"(call f \"http://a.b/$\" x)" := by
  decide +kernel

/-! ### `rec` -/

/-- **C82.** Removing `rec` from a set, which is what the fix for extra `rec`s does, changes exactly that. The text behind `rec` must not run into what is
in front of it; with white space behind `rec` it does not. -/
theorem C82_rec {src : Bytes} {root : Node} {s : PState} {hd : Hd} {a rc : Node} {st dy : List Node} (h : parse src = some (root, s)) (hc : NoErrors s)
    (ho : odd (syn root) = false) (hp : Part root (.exprAttrs hd a rc st dy)) (hr : rc.isNull = false)
    (hl : Edge (src.drop rc.lCur.offset) (src.drop rc.rCur.offset) (src.take rc.lCur.offset)) (m : Bytes) :
    ∃ bs t2, ReadAs (afterFix src ⟨m, [⟨rc.range, []⟩]⟩) t2 ∧ syn (.exprAttrs hd a rc st dy) = .set true bs ∧ Swap (.set true bs) (.set false bs) (syn root) t2 := by
  obtain ⟨K, r0, gn, hK, e0, -, -, -, -, -, H⟩ := document_at h hc hp rfl
  have hE := gn.isExpr_of hK rfl
  have g := (gn.ofSimple rfl rfl).1 hE
  cases g with
  | set => cases hr
  | @recSet _ v0 r1 v1 r2 bs r3 v2 _ _ _ _ _ _ t0 t1 g1 t2 hb hrc sp spr =>
    have hs : syn (.exprAttrs hd a rc st dy) = .set true (synL bs) := by rw [hb.set, hrc]
    have p1 : src.drop rc.lCur.offset = skip r0 := spr.1 src rfl
    have p2 : src.drop rc.rCur.offset = r1 := spr.2 src rfl
    have hoff : (Node.exprAttrs hd a rc st dy).lCur.offset = rc.lCur.offset := by
      have e1 := congrArg List.length (e0.trans p1.symm)
      have e2 := t0.text
      have e3 := t0.ne (by decide)
      rw [← p1] at e2
      have e4 := congrArg List.length e2
      have e5 := List.length_pos_iff.mpr e3
      simp only [List.length_drop, List.length_append] at e1 e4
      omega
    have g' : G .simple r1 [.set false (synL bs)] (src.drop (Node.exprAttrs hd a rc st dy).rCur.offset) := .set t1 g1.toG t2
    rw [hoff] at H
    obtain ⟨t', a1, a2⟩ := H [] (src.drop rc.lCur.offset) (src.drop rc.rCur.offset) (.set false (synL bs)) ho rfl (by rw [List.append_nil]; exact hl)
      (G.simple_fill hE (by rw [p2]; exact g')) (fun _ _ hx => by rw [hs] at hx; cases hx)
    rw [hs] at a2
    refine ⟨synL bs, t', readAs_of ?_, hs, a2⟩
    have : afterFix src ⟨m, [⟨rc.range, []⟩]⟩ = src.take rc.lCur.offset ++ ([] ++ src.drop rc.rCur.offset) := by
      show src.take rc.range.l.offset ++ [] ++ src.drop rc.range.r.offset = _
      rw [List.append_nil]; rfl
    rw [this]; exact a1

example : fixesOf [] .extraRecursive b!"f rec { x = 1; }" = [b!"f  { x = 1; }"] ∧ fixesOf [] .extraRecursive b!"f rec{ x = 1; }" = [b!"f { x = 1; }"] ∧
    syntaxOf b!"f rec{ x = 1; }" = some b!"(call f (rec (= x 1)))" ∧ syntaxOf b!"f { x = 1; }" = some b!"(call f (set (= x 1)))" := by
  decide +kernel

/-! ### `with` -/

theorem not_readAs_nil {t : Syn} (h : ReadAs [] t) : False := by
  obtain ⟨a, s, h1, -, h2, -⟩ := h
  have : (match parse [] with | some (a, _) => a.isNull | none => true) = true := by decide +kernel
  rw [h1] at this
  exact absurd (h2.symm.trans this) (by simp)

/-- Expressions are not empty. -/
theorem not_empty {src : Bytes} {root n : Node} {s : PState} (h : parse src = some (root, s)) (hc : NoErrors s) (ho : odd (syn root) = false)
    (hp : Part root n) (hn : n.isExpr = true) : n.lCur.offset < n.rCur.offset := by
  obtain ⟨-, -, -, -, -, -, hle, -, -, hodd, -⟩ := document_at h hc hp (by simp [placed, hn])
  by_contra hlt
  have e : n.lCur.offset = n.rCur.offset := by omega
  have := C72_text h hc hp hn (hodd ho)
  have e2 : n.src src = [] := by
    show (src.drop n.lCur.offset).take (n.rCur.offset - n.lCur.offset) = []
    rw [e, Nat.sub_self, List.take_zero]
  rw [e2] at this
  exact not_readAs_nil this

/-- White space and comments in front of a phrase, as the part of the text between two offsets. -/
theorem gap {src r : Bytes} {i j : Nat} (h1 : src.drop i = r) (h2 : src.drop j = skip r) {v r1 : Bytes} {k : TK} (t : Tok r k v r1) (hk : k ≠ .eof) :
    i ≤ j ∧ j ≤ src.length ∧ ∀ y, Leads ((src.drop i).take (j - i)) y := by
  have key := t.leads hk
  obtain ⟨hne, p, hp, -⟩ := key []
  have e1 := congrArg List.length h1
  have e2 := congrArg List.length h2
  have e3 := congrArg List.length hp
  have e4 := List.length_pos_iff.mpr hne
  simp only [List.length_drop, List.length_append] at e1 e2 e3
  refine ⟨by omega, by omega, fun y => ?_⟩
  obtain ⟨-, q, hq, hl⟩ := key y
  have : (src.drop i).take (j - i) = q := by
    have e5 := congrArg List.length hq
    simp only [List.length_append] at e5
    rw [h1, hq, List.take_append_of_le_length (by omega), List.take_of_length_le (by omega)]
  rw [this]; exact hl

/-- **C82.** Removing a `with`, which is what the fix for extra `with`s does, changes exactly that: its body takes its place. -/
theorem C82_with {src : Bytes} {root : Node} {s : PState} {hd : Hd} {kw semi w e : Node} (h : parse src = some (root, s)) (hc : NoErrors s)
    (ho : odd (syn root) = false) (hp : Part root (.exprWith hd kw semi w e))
    (hl : Edge (src.drop kw.lCur.offset) (between src kw w ++ (between src w semi ++ src.drop semi.rCur.offset)) (src.take kw.lCur.offset)) (m : Bytes) :
    ∃ t2, ReadAs (afterFix src ⟨m, [⟨kw.range, []⟩, ⟨semi.range, []⟩, ⟨w.range, []⟩]⟩) t2 ∧ Swap (.with_ (syn w) (syn e)) (syn e) (syn root) t2 := by
  obtain ⟨K, r0, gn, hK, e0, -, -, -, -, -, H⟩ := document_at h hc hp rfl
  have hE := gn.isExpr_of hK rfl
  have : K = .expr := by
    by_contra hne
    have := gn.closed.1 hE hne _ rfl
    cases this
  subst this
  cases gn with
  | op g =>
    have := g.closed.1 rfl (by simp) _ rfl
    cases this
  | @with_ _ v1 r1 _ r2 v2 r3 _ _ _ _ _ t1 g1 t2 g2 sp s1 s2 =>
    have p1 : src.drop kw.lCur.offset = skip r0 := s1.1 src rfl
    have p2 : src.drop kw.rCur.offset = r1 := s1.2 src rfl
    have p3 : src.drop w.lCur.offset = skip r1 := (g1.place rfl).1 src rfl
    have p4 : src.drop w.rCur.offset = r2 := (g1.place rfl).2 src rfl
    have p5 : src.drop semi.lCur.offset = skip r2 := s2.1 src rfl
    have p6 : src.drop semi.rCur.offset = r3 := s2.2 src rfl
    obtain ⟨kd, vd, rd, td, hkd⟩ := G.first g1.toG rfl
    obtain ⟨o1, o2, l1⟩ := gap p2 p3 td hkd
    obtain ⟨o3, o4, l2⟩ := gap p4 p5 t2 (by decide)
    have x1 := t1.text
    have y1 := t1.ne (by decide)
    have x2 := t2.text
    have y2 := t2.ne (by decide)
    rw [← p1] at x1
    rw [← p5] at x2
    have n1 := congrArg List.length x1
    have n2 := congrArg List.length x2
    have n3 := List.length_pos_iff.mpr y1
    have n4 := List.length_pos_iff.mpr y2
    have n5 := congrArg List.length p2
    have n6 := congrArg List.length p6
    simp only [List.length_drop, List.length_append] at n1 n2 n5 n6
    have o5 := not_empty h hc ho (Part.trans hp (.down (c := w) (by simp [inner]) .here)) (g1.kind.1 rfl _ (by simp))
    have hoff : (Node.exprWith hd kw semi w e).lCur.offset = kw.lCur.offset := by
      have e1 := congrArg List.length (e0.trans p1.symm)
      simp only [List.length_drop] at e1
      omega
    have g3 : G .expr (between src kw w ++ (between src w semi ++ src.drop semi.rCur.offset)) [syn e]
        (src.drop (Node.exprWith hd kw semi w e).rCur.offset) := by
      refine G.lead (l1 _) (G.lead (l2 _) ?_ rfl) rfl
      rw [p6]; exact g2.toG
    rw [hoff] at H
    obtain ⟨t', a1, a2⟩ := H [] (src.drop kw.lCur.offset) _ (syn e) ho rfl (by rw [List.append_nil]; exact hl) g3
      (fun h => by rcases h with h | h <;> cases h)
    refine ⟨t', readAs_of ?_, a2⟩
    have : afterFix src ⟨m, [⟨kw.range, []⟩, ⟨semi.range, []⟩, ⟨w.range, []⟩]⟩ =
        src.take kw.lCur.offset ++ ([] ++ (between src kw w ++ (between src w semi ++ src.drop semi.rCur.offset))) := by
      have c1 : ¬ semi.range.l.offset ≤ w.range.l.offset := by show ¬ semi.lCur.offset ≤ w.lCur.offset; omega
      have c2 : kw.range.l.offset ≤ w.range.l.offset := by show kw.lCur.offset ≤ w.lCur.offset; omega
      have : inOrder [⟨kw.range, []⟩, ⟨semi.range, []⟩, ⟨w.range, []⟩] = [⟨kw.range, []⟩, ⟨w.range, []⟩, ⟨semi.range, []⟩] := by
        simp only [inOrder, inOrder.place]
        rw [if_neg c1]
        show inOrder.place _ _ = _
        simp only [inOrder.place]
        rw [if_pos c2]
      show fixed src (inOrder [⟨kw.range, []⟩, ⟨semi.range, []⟩, ⟨w.range, []⟩]) = _
      rw [this]
      show spliced (spliced (src.take semi.lCur.offset ++ [] ++ src.drop semi.rCur.offset) w.range []) kw.range [] = _
      rw [List.append_nil, spliced_before (k := semi.lCur.offset) (Nat.le_of_lt o5) o3 (by show w.rCur.offset ≤ _; omega), List.append_nil,
        spliced_before (k := w.range.l.offset) (by show kw.lCur.offset ≤ kw.rCur.offset; omega) o1 (by show kw.rCur.offset ≤ _; omega), List.append_nil]
      rfl
    rw [this]; exact a1

example : fixesOf [] .extraWith b!"x: with /* a */ x ; 1 + 1" = [b!"x:  /* a */   1 + 1"] ∧ fixesOf [] .extraWith b!"(with{};y:y)" = [b!"(y:y)"] ∧
    syntaxOf b!"x: with /* a */ x ; 1 + 1" = some b!"(fun x (with x (+ 1 1)))" ∧ syntaxOf b!"x:  /* a */   1 + 1" = some b!"(fun x (+ 1 1))" := by
  decide +kernel

/-! ### `builtins.` -/

theorem GN.ofSelect {src : Option Bytes} {K : Syntax.NK} {r r' : Bytes} {l : List Node} (h : GN src K r l r') {hd : Hd} {e dt p d : Node} {b : Bool}
    (hl : l = [.exprSelect hd e dt p d b]) : (K.isExpr = true → GN src .select r l r') ∧ ∀ pw a q, K = .tail pw a q → a = .exprSelect hd e dt p d b ∧ r = r' := by
  induction h with
  | op _ ih => exact ⟨fun _ => (ih hl).1 rfl, fun _ _ _ h => (nomatch h)⟩
  | opr _ _ i1 i2 =>
    obtain ⟨rfl, rfl⟩ := (i2 hl).2 _ _ _ rfl
    cases hl
    exact ⟨fun _ => (i1 rfl).1 rfl, fun _ _ _ h => (nomatch h)⟩
  | app _ ih => exact ⟨fun _ => (ih hl).1 rfl, fun _ _ _ h => (nomatch h)⟩
  | one _ ih => exact ⟨fun _ => (ih hl).1 rfl, fun _ _ _ h => (nomatch h)⟩
  | stop => exact ⟨fun h => (by cases h), fun _ _ _ h => by cases h; cases hl; exact ⟨rfl, rfl⟩⟩
  | bin _ _ _ _ _ hs _ _ ih => exact absurd ((ih hl).2 _ _ _ rfl).1 (by rintro ⟨⟩)
  | has _ _ _ _ hs _ _ ih => exact absurd ((ih hl).2 _ _ _ rfl).1 (by rintro ⟨⟩)
  | hasNone _ _ _ hs _ ih => exact absurd ((ih hl).2 _ _ _ rfl).1 (by rintro ⟨⟩)
  | simple h _ => cases hl; exact absurd h.simple_is (by simp [isSimple])
  | select a b c d e f => exact ⟨fun _ => .select a b c d e f, fun _ _ _ h => (nomatch h)⟩
  | selectOr a b c d e f g h => exact ⟨fun _ => .selectOr a b c d e f g h, fun _ _ _ h => (nomatch h)⟩
  | _ =>
    refine ⟨fun h => ?_, fun _ _ _ h => (nomatch h)⟩
    first
    | (cases h; done)
    | (cases hl; done)

/-- **C82.** Removing the prefix `builtins.` from a selection, which is what the fix for removable prefixes does, changes exactly that: the variable takes the
place of the selection. This is so for a name that is written as an identifier, and without a default. -/
theorem C82_prefix {src : Bytes} {root : Node} {s : PState} {hd hv hi hp' hn hx : Hd} {x y : Bytes} {dot : Node} {ds : List Node} {b : Bool}
    (h : parse src = some (root, s)) (hc : NoErrors s) (ho : odd (syn root) = false)
    (hp : Part root (.exprSelect hd (.exprVar hv (.identifier hi y)) dot (.attrPath hp' [.attrNameID hn (.identifier hx x)] ds) .null b)) (hor : x ≠ b!"or")
    (hl : Edge (src.drop hv.range.l.offset) (between src (.exprVar hv (.identifier hi y)) dot ++ src.drop dot.rCur.offset) (src.take hv.range.l.offset)) (m : Bytes) :
    ∃ t2, ReadAs (afterFix src ⟨m, [⟨hv.range, []⟩, ⟨dot.range, []⟩]⟩) t2 ∧ Swap (.select (.var y) [.name x]) (.var x) (syn root) t2 := by
  obtain ⟨K, r0, gn, hK, e0, -, -, -, -, -, H⟩ := document_at h hc hp rfl
  have hE := gn.isExpr_of hK rfl
  have g := (GN.ofSelect gn rfl).1 hE
  cases g with
  | simple g => cases g
  | selectOr _ _ _ _ _ hd => cases hd
  | @select _ _ r1 v r2 _ _ _ _ _ _ _ g1 t g2 sp1 sp2 spd =>
    have p1 : src.drop hv.range.l.offset = skip r0 := (g1.place rfl).1 src rfl
    have p2 : src.drop hv.range.r.offset = r1 := (g1.place rfl).2 src rfl
    have p3 : src.drop dot.lCur.offset = skip r1 := spd.1 src rfl
    have p4 : src.drop dot.rCur.offset = r2 := spd.2 src rfl
    obtain ⟨o1, o2, l1⟩ := gap p2 p3 t (by decide)
    have o5 : hv.range.l.offset < hv.range.r.offset := not_empty h hc ho (Part.trans hp (.down (c := .exprVar hv (.identifier hi y)) (by simp [inner]) .here)) rfl
    have hoff : (Node.exprSelect hd (.exprVar hv (.identifier hi y)) dot (.attrPath hp' [.attrNameID hn (.identifier hx x)] ds) .null b).lCur.offset = hv.range.l.offset := by
      have e1 := congrArg List.length (e0.trans p1.symm)
      simp only [List.length_drop] at e1
      omega
    have g3 : G .simple r2 [.var x] (src.drop (Node.exprSelect hd (.exprVar hv (.identifier hi y)) dot (.attrPath hp' [.attrNameID hn (.identifier hx x)] ds) .null b).rCur.offset) := by
      cases g2 with
      | path g d =>
        cases d
        cases g with
        | name t => exact .var t
        | orName t =>
          obtain ⟨c, w, rfl, -, -, hk⟩ := word_of t (.inr rfl)
          unfold wordKind at hk
          cases hk2 : Lexical.reserved.lookup (c :: w) with
          | none => rw [hk2] at hk; cases hk
          | some k =>
            rw [hk2] at hk
            obtain ⟨q, hq, hq1, hq2⟩ := lookup_mem hk2
            have f : ∀ q ∈ Lexical.reserved, q.2 = .kw_or → q.1 = b!"or" := by decide
            exact absurd (hq1.symm.trans (f q hq (hq2.trans hk))) hor
    rw [← p4] at g3
    rw [hoff] at H
    obtain ⟨t', a1, a2⟩ := H [] (src.drop hv.range.l.offset) _ (.var x) ho rfl (by rw [List.append_nil]; exact hl)
      (G.simple_fill hE (G.lead (l1 _) g3 rfl)) (fun _ _ _ => rfl)
    refine ⟨t', readAs_of ?_, a2⟩
    have : afterFix src ⟨m, [⟨hv.range, []⟩, ⟨dot.range, []⟩]⟩ =
        src.take hv.range.l.offset ++ ([] ++ (between src (.exprVar hv (.identifier hi y)) dot ++ src.drop dot.rCur.offset)) := by
      have c2 : hv.range.l.offset ≤ dot.range.l.offset := by show _ ≤ dot.lCur.offset; omega
      have : inOrder [⟨hv.range, []⟩, ⟨dot.range, []⟩] = [⟨hv.range, []⟩, ⟨dot.range, []⟩] := by
        simp only [inOrder, inOrder.place]
        rw [if_pos c2]
      show fixed src (inOrder [⟨hv.range, []⟩, ⟨dot.range, []⟩]) = _
      rw [this]
      show spliced (src.take dot.lCur.offset ++ [] ++ src.drop dot.rCur.offset) hv.range [] = _
      rw [List.append_nil, spliced_before (k := dot.lCur.offset) (Nat.le_of_lt o5) o1 (by omega), List.append_nil]
      rfl
    rw [this]; exact a1

/-- Two primitive operations, one of them with a prefix. -/
def somePrims : PrimOps := [(b!"map", false), (b!"__add", false)]

example : fixesOf somePrims .primOpRemovablePrefix b!"[ builtins.map ]" = [b!"[ map ]"] ∧
    syntaxOf b!"[ builtins.map ]" = some b!"[ (select builtins map) ]" ∧ syntaxOf b!"[ map ]" = some b!"[ map ]" := by
  decide +kernel
example : fixesOf somePrims .primOpNeedsPrefix b!"f add" = [b!"f builtins.add"] := by decide +kernel

/-- The conditions of `C82_url`, `C82_rec`, `C82_with` and `C82_prefix` hold for the argument. -/
def fixOk (src : Bytes) : Bool :=
  match parse src with
  | some (.exprCall h f [e], s) =>
    s.lex.diags.all (fun d => !isSyntaxError d.kind) && !odd (syn (.exprCall h f [e])) &&
      match e with
      | .exprString hd _ => (src.drop hd.range.l.offset).head?.all fun c => c != 34 && c != 39
      | .exprAttrs _ _ rc _ _ => !rc.isNull && (src.take rc.lCur.offset).getLast?.all hard
      | .exprParen _ (.exprWith _ kw _ _ _) _ _ => (src.take kw.lCur.offset).getLast?.all hard
      | .exprSelect _ (.exprVar hv _) _ (.attrPath _ [.attrNameID _ (.identifier _ x)] _) .null _ =>
        decide (x ≠ b!"or") && (src.take hv.range.l.offset).getLast?.all hard
      | _ => false
  | _ => false

example : fixOk b!"f http://a.b" = true ∧ fixOk b!"f rec { x = 1; }" = true ∧ fixOk b!"f (with { }; 1)" = true ∧ fixOk b!"f builtins.map" = true ∧
    fixOk b!"f \"a\"" = false ∧ fixOk b!"f { x = 1; }" = false ∧ fixOk b!"f (builtins.map or 1)" = false := by decide +kernel

/-- **C82 is violated** for names in quotes: without the prefix a string is left, instead of the function. -/
theorem C82_quoted_violated : fixesOf somePrims .primOpRemovablePrefix b!"builtins.\"map\"" = [b!"\"map\""] ∧
    syntaxOf b!"builtins.\"map\"" = some b!"(select builtins \"map\")" ∧ syntaxOf b!"\"map\"" = some b!"\"map\"" := by
  decide +kernel

/-- **C82 is violated** for selections with a default: without the prefix the document has a syntax error. -/
theorem C82_default_violated : fixesOf somePrims .primOpRemovablePrefix b!"builtins.map or 1" = [b!"map or 1"] ∧
    (syntaxOf b!"builtins.map or 1").isSome = true ∧ syntaxOf b!"map or 1" = none := by
  decide +kernel

/-- **C82 is violated** for inherited names: the prefix is written into the `inherit`, where it is a syntax error. -/
theorem C82_inherit_violated : fixesOf somePrims .primOpNeedsPrefix b!"{ inherit add; }" = [b!"{ inherit builtins.add; }"] ∧
    (syntaxOf b!"{ inherit add; }").isSome = true ∧ syntaxOf b!"{ inherit builtins.add; }" = none := by
  decide +kernel

end Verif.Props
