import Verif.Lemmas.ReplaceTop
import Verif.Lemmas.TokMake
/-
Strings that are written anew from what has been recorded for them.
-/
namespace Verif.Nixf.Syntax
open Lexical Strings Props

/-- The text of an interpolation, with any text after it. -/
theorem interp_onto {R : Rules} (hR : Known R) {r r1 v r2 I : Bytes} {x : Syn} (g : G .expr r [x] r1) (ho : odd x = false) (t : Tok r1 .r_curly v r2)
    (hI : 36 :: 123 :: r = I ++ r2) {y e : Bytes} {l : List Syn} (h : G (.body R) y l e) : G (.body R) (I ++ y) (.interp x :: l) e := by
  have hv := t.r_curly
  subst hv
  obtain ⟨h1, h2, h3⟩ := tok_iff.mp t
  obtain ⟨w, hw⟩ := g.suf
  obtain ⟨q, hq⟩ := skip_suf r1
  have hr1 : r1 = q ++ 125 :: r2 := by rw [← hq, h3]; rfl
  have hI' : I = 36 :: 123 :: (w ++ q ++ [125]) := by
    have : I ++ r2 = 36 :: 123 :: (w ++ q ++ [125]) ++ r2 := by rw [← hI, ← hw, hr1]; simp
    exact List.append_cancel_right this
  rw [hr1] at h1 h3 g
  obtain ⟨h4, h5⟩ := skip_hard y (by decide) h1 h3
  have g' : G .expr (w ++ q ++ 125 :: y) [x] (q ++ 125 :: y) := by
    refine G.rest (x := 125 :: r2) (P := w ++ q) (Edge.stop ?_) ?_ (by simpa [oddL] using ho) (by simp) (by simp)
    · intro d hd; simp at hd; subst hd; exact ⟨by decide, fun h => absurd h (by decide)⟩
    · rw [← hw, hr1] at g
      rw [List.append_assoc]; exact g
  have t' : Tok (q ++ 125 :: y) .r_curly b!"}" y := by
    refine tok_iff.mpr ⟨h5, ?_, h4⟩
    have := tok_iff.mp (tok_rcurly y)
    rw [h4]
    rw [this.2.2] at this
    exact this.2.1
  rw [hI']
  have e : 36 :: 123 :: (w ++ q ++ [125]) ++ y = 36 :: 123 :: (w ++ q ++ 125 :: y) := by simp
  rw [e]
  exact .interp (by rcases hR with rfl | rfl <;> rfl) g' t' h

/-- Escaped text in front of the rest of a string. -/
theorem escape_onto {y e : Bytes} {l : List Syn} (h : G (.body dqCode) y l e) (t : Bytes) (ht : t.getLast? ≠ some 36) :
    G (.body dqCode) (escapeNixString t ++ y) (t.map .ch ++ l) e := by
  generalize hn : t.length = n
  induction n using Nat.strongRecOn generalizing t with
  | ind n ih =>
  have hlast : ∀ (c : UInt8) (r : Bytes), t = c :: r → r.getLast? ≠ some 36 := by
    rintro c r rfl
    cases r with
    | nil => simp
    | cons d r => simpa using ht
  have hesc : ∀ (d c : UInt8) (r : Bytes), t = c :: r → escaped d = c →
      G (.body dqCode) (92 :: d :: (escapeNixString r ++ y)) ((c :: r).map .ch ++ l) e := by
    rintro d c r rfl rfl
    exact .esc (R := dqCode) (n := 2) (t := [escaped d]) rfl (by simp) (ih r.length (by simp at hn; omega) r (hlast _ _ rfl) rfl)
  cases t with
  | nil => exact h
  | cons c r =>
    simp only [List.length_cons] at hn
    by_cases c1 : c = 34
    · subst c1; exact hesc 34 _ r rfl rfl
    by_cases c2 : c = 92
    · subst c2; exact hesc 92 _ r rfl rfl
    by_cases c3 : c = 10
    · subst c3; exact hesc 110 _ r rfl rfl
    by_cases c4 : c = 13
    · subst c4; exact hesc 114 _ r rfl rfl
    by_cases c5 : c = 9
    · subst c5; exact hesc 116 _ r rfl rfl
    have hr := hlast _ _ rfl
    by_cases c6 : c = 36
    · subst c6
      cases r with
      | nil => simp at ht
      | cons d r =>
      by_cases d1 : d = 123
      · subst d1
        have := ih r.length (by simp at hn; omega) r (by cases r <;> simp_all) rfl
        have := G.char (R := dqCode) (c := 123) (by decide) (by simp [dqCode]) rfl this
        exact .esc (R := dqCode) (n := 2) (t := [36]) (r := 92 :: 36 :: 123 :: (escapeNixString r ++ y)) rfl (by simp) this
      · have e1 : escapeNixString (36 :: d :: r) = 36 :: escapeNixString (d :: r) :=
          escape_plain (by decide) (by decide) (by decide) (by decide) (by decide) (fun _ => by simpa using Ne.symm d1)
        rw [e1]
        have hd : dqCode.dollar (36 :: (escapeNixString (d :: r) ++ y)) = 1 := by
          by_cases d2 : d = 36
          · subst d2
            cases r with
            | nil => simp at hr
            | cons f r =>
            by_cases f1 : f = 123
            · subst f1; rfl
            · rw [escape_plain (by decide) (by decide) (by decide) (by decide) (by decide) (fun _ => by simpa using Ne.symm f1)]
              have : ∀ z, ∃ c w, escapeNixString (f :: r) ++ z = c :: w ∧ c ≠ 123 := by
                intro z
                rw [escapeNixString.eq_def]
                split <;> first | (cases ‹_ :: _ = _›; done) | skip
                all_goals first
                  | (exact ⟨_, _, rfl, by decide⟩)
                  | (rename_i h; cases h; exact ⟨_, _, rfl, f1⟩)
              obtain ⟨c, w, e2, e3⟩ := this y
              rw [List.cons_append, e2]
              show codeDollars _ = 1
              unfold codeDollars
              split <;> simp_all
          · have : ∀ z, ∃ c w, escapeNixString (d :: r) ++ z = c :: w ∧ c ≠ 123 ∧ c ≠ 36 := by
              intro z
              rw [escapeNixString.eq_def]
              split <;> first | (cases ‹_ :: _ = _›; done) | skip
              all_goals first
                | (exact ⟨_, _, rfl, by decide, by decide⟩)
                | (rename_i h; cases h; exact ⟨_, _, rfl, d1, d2⟩)
            obtain ⟨c, w, e2, e3, e4⟩ := this y
            rw [e2]
            show codeDollars _ = 1
            unfold codeDollars
            split <;> simp_all
        have := ih (d :: r).length (by omega) (d :: r) hr rfl
        have := G.dollar (R := dqCode) (r := escapeNixString (d :: r) ++ y) (by rw [hd]; simp) (by rw [hd]; exact this)
        rw [hd] at this
        exact this
    · rw [escape_plain c1 c2 c3 c4 c5 (fun h => absurd h c6)]
      exact .char (R := dqCode) c6 (by simpa [dqCode] using Ne.symm c1) (dqEsc_none c2) (ih r.length (by omega) r hr rfl)

/-- Plain text in front of the rest of a string. -/
theorem plain_onto {y e : Bytes} {l : List Syn} (h : G (.body indCode) y l e) (t : Bytes) (ht : 36 ∉ t ∧ 39 ∉ t) :
    escapeForIndentedString t = t ∧ G (.body indCode) (t ++ y) (t.map .ch ++ l) e := by
  induction t with
  | nil => exact ⟨rfl, h⟩
  | cons c t ih =>
    simp only [List.mem_cons, not_or] at ht
    obtain ⟨h1, h2⟩ := ih ⟨ht.1.2, ht.2.2⟩
    refine ⟨?_, .char (R := indCode) (Ne.symm ht.1.1) ?_ (codeIndEsc_none ?_) h2⟩
    · rw [escapeForIndentedString.eq_4, h1]
      · rintro r rfl; exact absurd rfl ht.2.1
      · rintro r rfl; exact absurd rfl ht.1.1
    all_goals
      rintro ⟨q, hq⟩
      simp [indCode] at hq
      exact absurd hq.1 ht.2.1

/-- What is known about an interpolation in a string. -/
def Known.Interp (src : Bytes) (f : Node) : Prop :=
  ∃ h e, f = .interpolation h e ∧ ∃ r r1 v r2, G .expr r [syn e] r1 ∧ Tok r1 .r_curly v r2 ∧ 36 :: 123 :: r = f.src src ++ r2

theorem GN.interps {src : Bytes} {K : NK} {r r' : Bytes} {l : List Node} (h : GN (some src) K r l r') {R : Rules} (hK : K = .body R) :
    ∀ f ∈ l, (∃ c, f = .text [c]) ∨ Known.Interp src f := by
  have hch : ∀ {t : Bytes} {f : Node}, f ∈ chars t → ∃ c, f = .text [c] := by
    intro t f hf
    unfold chars at hf
    obtain ⟨c, -, rfl⟩ := List.mem_map.mp hf
    exact ⟨c, rfl⟩
  induction h with
  | close => intro f hf; cases hf
  | esc _ _ _ ih =>
    intro f hf
    rcases List.mem_append.mp hf with hf | hf
    · exact .inl (hch hf)
    · exact ih hK f hf
  | char _ _ _ _ ih =>
    intro f hf
    rcases List.mem_cons.mp hf with rfl | hf
    · exact .inl ⟨_, rfl⟩
    · exact ih hK f hf
  | dollar _ _ ih =>
    intro f hf
    rcases List.mem_append.mp hf with hf | hf
    · exact .inl (hch hf)
    · exact ih hK f hf
  | @interp R r e r1 v r2 l r' h h1 g1 t1 g2 p1 p2 i1 i2 =>
    intro f hf
    rcases List.mem_cons.mp hf with rfl | hf
    · refine .inr ⟨h, e, rfl, r, r1, v, r2, g1.toG, t1, ?_⟩
      have e1 : src.drop h.range.l.offset = 36 :: 123 :: r := p1 src rfl
      have e2 : src.drop h.range.r.offset = r2 := p2 src rfl
      have e3 : r2 <:+ 36 :: 123 :: r := (((t1.suf.trans g1.suf).trans (List.suffix_cons _ _)).trans (List.suffix_cons _ _))
      show _ = (src.drop h.range.l.offset).take (h.range.r.offset - h.range.l.offset) ++ r2
      have l1 : h.range.l.offset ≤ h.range.r.offset := by
        have := (t1.suf.trans g1.suf).length_le
        have a1 := congrArg List.length e1
        have a2 := congrArg List.length e2
        simp only [List.length_drop, List.length_cons] at a1 a2
        omega
      conv => rhs; rw [← e2, show h.range.r.offset = h.range.l.offset + (h.range.r.offset - h.range.l.offset) by omega, ← List.drop_drop]
      rw [Nat.add_sub_cancel_left, List.take_append_drop, e1]
    · exact i2 hK f hf
  | _ => cases hK

theorem explode_mem {fs : List Node} {f : Node} (h : f ∈ fs) : (∃ t, f = .text t) ∨ f ∈ explode fs := by
  induction fs with
  | nil => cases h
  | cons g fs ih =>
    rcases List.mem_cons.mp h with rfl | h
    · cases f
      case text t => exact .inl ⟨t, rfl⟩
      all_goals exact .inr (.head _)
    · rcases ih h with ih | ih
      · exact .inl ih
      · right
        cases g
        case text t => exact List.mem_append_right _ ih
        all_goals exact .tail _ ih

/-- A double-quoted string made from fragments that do not end in a dollar sign, except the last one. -/
theorem dq_built {src : Bytes} {fs : List Node} (hi : ∀ f ∈ fs, (∃ t, f = .text t) ∨ Known.Interp src f) (ho : oddL (synParts fs) = false)
    (hd : ∀ t ∈ fs.dropLast, ∀ u, t = .text u → u.getLast? ≠ some 36) (rest : Bytes) :
    G (.body dqCode) (buildFragments escapeNixString src fs ++ 34 :: rest) (synParts fs) (34 :: rest) := by
  induction fs with
  | nil => exact .close ⟨rest, rfl⟩ rfl
  | cons f fs ih =>
    by_cases hl : fs = [] ∧ ∃ t, f = .text t
    · obtain ⟨rfl, t, rfl⟩ := hl
      show G _ ((escapeNixString t ++ []) ++ 34 :: rest) (t.map Syn.ch ++ []) _
      rw [List.append_nil, List.append_nil]
      exact g_escape t rest
    have hfs : ∀ t ∈ fs.dropLast, ∀ u, t = .text u → u.getLast? ≠ some 36 := by
      intro t ht
      refine hd t ?_
      cases fs with
      | nil => cases ht
      | cons g fs => rw [List.dropLast_cons₂]; exact .tail _ ht
    rcases hi f (.head _) with ⟨t, rfl⟩ | ⟨h, e, rfl, r, r1, v, r2, g, tk, hI⟩
    · have hne : fs ≠ [] := fun h => hl ⟨h, t, rfl⟩
      have ho' : oddL (t.map Syn.ch ++ synParts fs) = false := ho
      rw [oddL_append, Bool.or_eq_false_iff] at ho'
      have := ih (fun f hf => hi f (.tail _ hf)) ho'.2 hfs
      have := escape_onto this t (hd _ (by
        cases fs with
        | nil => exact absurd rfl hne
        | cons g fs => rw [List.dropLast_cons₂]; exact .head _) t rfl)
      show G _ ((escapeNixString t ++ buildFragments escapeNixString src fs) ++ 34 :: rest) (t.map Syn.ch ++ synParts fs) _
      rw [List.append_assoc]
      exact this
    · have ho' : oddL (.interp (syn e) :: synParts fs) = false := ho
      simp only [oddL, odd, Bool.or_eq_false_iff] at ho'
      have := ih (fun f hf => hi f (.tail _ hf)) ho'.2 hfs
      have := interp_onto (.inl rfl) g ho'.1 tk hI this
      show G _ ((Node.src (.interpolation h e) src ++ buildFragments escapeNixString src fs) ++ 34 :: rest) (.interp (syn e) :: synParts fs) _
      rw [List.append_assoc]
      exact this

/-- An indented string made from fragments without dollar signs and quotes. -/
theorem ind_built {src : Bytes} {fs : List Node} (hi : ∀ f ∈ fs, (∃ t, f = .text t) ∨ Known.Interp src f) (ho : oddL (synParts fs) = false)
    (hd : ∀ t ∈ fs, ∀ u, t = .text u → 36 ∉ u ∧ 39 ∉ u) {rest : Bytes} (hr : NotStarting b!"'$\\" rest) :
    G (.body indCode) (buildFragments escapeForIndentedString src fs ++ 39 :: 39 :: rest) (synParts fs) (39 :: 39 :: rest) := by
  induction fs with
  | nil =>
    refine .close ⟨rest, rfl⟩ ?_
    show codeIndEsc (39 :: 39 :: rest) = none
    unfold codeIndEsc
    cases rest with
    | nil => rfl
    | cons c r =>
      have := hr c (by simp)
      split <;> simp_all
  | cons f fs ih =>
    rcases hi f (.head _) with ⟨t, rfl⟩ | ⟨h, e, rfl, r, r1, v, r2, g, tk, hI⟩
    · have ho' : oddL (t.map Syn.ch ++ synParts fs) = false := ho
      rw [oddL_append, Bool.or_eq_false_iff] at ho'
      have := ih (fun f hf => hi f (.tail _ hf)) ho'.2 (fun f hf => hd f (.tail _ hf))
      obtain ⟨e1, e2⟩ := plain_onto this t (hd _ (.head _) t rfl)
      show G _ ((escapeForIndentedString t ++ buildFragments escapeForIndentedString src fs) ++ 39 :: 39 :: rest) (t.map Syn.ch ++ synParts fs) _
      rw [List.append_assoc, e1]
      exact e2
    · have ho' : oddL (.interp (syn e) :: synParts fs) = false := ho
      simp only [oddL, odd, Bool.or_eq_false_iff] at ho'
      have := ih (fun f hf => hi f (.tail _ hf)) ho'.2 (fun f hf => hd f (.tail _ hf))
      have := interp_onto (.inr rfl) g ho'.1 tk hI this
      show G _ ((Node.src (.interpolation h e) src ++ buildFragments escapeForIndentedString src fs) ++ 39 :: 39 :: rest) (.interp (syn e) :: synParts fs) _
      rw [List.append_assoc]
      exact this

/-- Simple expressions. -/
def isSimple : Node → Bool
  | .exprVar .. | .exprInt .. | .exprFloat .. | .exprString .. | .exprPath .. | .exprSPath .. | .exprParen .. | .exprList .. | .exprAttrs .. => true
  | _ => false

/-- A node of a simple expression is read as one. -/
theorem GN.ofSimple {src : Option Bytes} {K : NK} {r r' : Bytes} {l : List Node} (h : GN src K r l r') {n : Node} (hl : l = [n]) (hn : isSimple n = true) :
    (K.isExpr = true → GN src .simple r l r') ∧ ∀ pw a q, K = .tail pw a q → a = n ∧ r = r' := by
  induction h with
  | op _ ih => exact ⟨fun _ => (ih hl).1 rfl, fun _ _ _ h => (nomatch h)⟩
  | opr _ _ i1 i2 =>
    obtain ⟨rfl, rfl⟩ := (i2 hl).2 _ _ _ rfl
    rw [hl]
    exact ⟨fun _ => (i1 rfl).1 rfl, fun _ _ _ h => (nomatch h)⟩
  | app _ ih => exact ⟨fun _ => (ih hl).1 rfl, fun _ _ _ h => (nomatch h)⟩
  | one _ ih => exact ⟨fun _ => (ih hl).1 rfl, fun _ _ _ h => (nomatch h)⟩
  | simple h _ => exact ⟨fun _ => h, fun _ _ _ h => (nomatch h)⟩
  | stop => exact ⟨fun h => (by cases h), fun _ _ _ h => by cases h; cases hl; exact ⟨rfl, rfl⟩⟩
  | bin _ _ _ _ _ hs _ _ ih => exact absurd ((ih hl).2 _ _ _ rfl).1 (by rintro rfl; cases hn)
  | has _ _ _ _ hs _ _ ih => exact absurd ((ih hl).2 _ _ _ rfl).1 (by rintro rfl; cases hn)
  | hasNone _ _ _ hs _ ih => exact absurd ((ih hl).2 _ _ _ rfl).1 (by rintro rfl; cases hn)
  | var a b => exact ⟨fun _ => .var a b, fun _ _ _ h => (nomatch h)⟩
  | int a b c => exact ⟨fun _ => .int a b c, fun _ _ _ h => (nomatch h)⟩
  | float a b => exact ⟨fun _ => .float a b, fun _ _ _ h => (nomatch h)⟩
  | spath a b => exact ⟨fun _ => .spath a b, fun _ _ _ h => (nomatch h)⟩
  | uri a b c => exact ⟨fun _ => .uri a b c, fun _ _ _ h => (nomatch h)⟩
  | str a b c => exact ⟨fun _ => .str a b c, fun _ _ _ h => (nomatch h)⟩
  | ind a b c => exact ⟨fun _ => .ind a b c, fun _ _ _ h => (nomatch h)⟩
  | pathLit a b c => exact ⟨fun _ => .pathLit a b c, fun _ _ _ h => (nomatch h)⟩
  | paren a b c d e f => exact ⟨fun _ => .paren a b c d e f, fun _ _ _ h => (nomatch h)⟩
  | list a b c d => exact ⟨fun _ => .list a b c d, fun _ _ _ h => (nomatch h)⟩
  | set a b c d e => exact ⟨fun _ => .set a b c d e, fun _ _ _ h => (nomatch h)⟩
  | recSet a b c d e f g i => exact ⟨fun _ => .recSet a b c d e f g i, fun _ _ _ h => (nomatch h)⟩
  | _ =>
    refine ⟨fun h => ?_, fun _ _ _ h => (nomatch h)⟩
    first
    | (cases h; done)
    | (cases hl; cases hn; done)

theorem GN.simple_is {src : Option Bytes} {r r' : Bytes} {n : Node} (h : GN src .simple r [n] r') : isSimple n = true := by
  cases h <;> rfl

/-- One selects from simple expressions. -/
theorem GN.base {src : Option Bytes} {K : NK} {r r' : Bytes} {l : List Node} (h : GN src K r l r') {hd : Hd} {e dt p d : Node} {b : Bool}
    (hl : l = [.exprSelect hd e dt p d b]) : (K.isExpr = true → isSimple e = true) ∧ ∀ pw a q, K = .tail pw a q → a = .exprSelect hd e dt p d b := by
  induction h with
  | op _ ih => exact ⟨fun _ => (ih hl).1 rfl, fun _ _ _ h => (nomatch h)⟩
  | opr _ _ i1 i2 =>
    obtain rfl := (i2 hl).2 _ _ _ rfl
    exact ⟨fun _ => (i1 rfl).1 rfl, fun _ _ _ h => (nomatch h)⟩
  | app _ ih => exact ⟨fun _ => (ih hl).1 rfl, fun _ _ _ h => (nomatch h)⟩
  | one _ ih => exact ⟨fun _ => (ih hl).1 rfl, fun _ _ _ h => (nomatch h)⟩
  | stop => exact ⟨fun h => (by cases h), fun _ _ _ h => by cases h; cases hl; rfl⟩
  | bin _ _ _ _ _ hs _ _ ih => exact absurd ((ih hl).2 _ _ _ rfl) (by rintro ⟨⟩)
  | has _ _ _ _ hs _ _ ih => exact absurd ((ih hl).2 _ _ _ rfl) (by rintro ⟨⟩)
  | hasNone _ _ _ hs _ ih => exact absurd ((ih hl).2 _ _ _ rfl) (by rintro ⟨⟩)
  | simple h _ => cases hl; exact absurd h.simple_is (by simp [isSimple])
  | select h => cases hl; exact ⟨fun _ => h.simple_is, fun _ _ _ h => (nomatch h)⟩
  | selectOr h => cases hl; exact ⟨fun _ => h.simple_is, fun _ _ _ h => (nomatch h)⟩
  | _ =>
    refine ⟨fun h => ?_, fun _ _ _ h => (nomatch h)⟩
    first
    | (cases h; done)
    | (cases hl; done)

end Verif.Nixf.Syntax
