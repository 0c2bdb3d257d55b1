import Verif.Lemmas.GSwap
/-
White space and comments in front of a phrase remain what they are if the phrase is replaced.
-/
namespace Verif.Nixf.Syntax
open Lexical Strings Verif.Props

theorem line_swap' {p x : Bytes} (y : Bytes) (hx : x ≠ []) (h : lineComment (p ++ x) ≤ p.length) :
    lineComment (p ++ y) = lineComment (p ++ x) := by
  rcases Nat.lt_or_ge (lineComment (p ++ x)) p.length with h' | h'
  · exact line_swap y rfl h'
  induction p with
  | nil =>
    have : lineComment x = 0 := by simpa using h
    cases x with
    | nil => exact absurd rfl hx
    | cons c x =>
      rw [lineComment] at this
      split at this
      · cases this
      · split at this <;> omega
  | cons c p ih =>
    rw [List.cons_append, lineComment] at h h'
    show lineComment (c :: (p ++ y)) = lineComment (c :: (p ++ x))
    rw [lineComment, lineComment]
    cases p with
    | nil =>
      simp only [List.nil_append, List.length_cons, List.length_nil] at h h' ⊢
      split at h
      · omega
      · rename_i h1
        split at h
        · rename_i h2
          have hc : c = 10 := by
            simp only [List.isPrefixOf, Bool.and_eq_true, beq_iff_eq] at h2; exact h2.1.symm
          subst hc
          simp [List.isPrefixOf]
        · have : lineComment x = 0 := by omega
          cases x with
          | nil => exact absurd rfl hx
          | cons c x =>
            rw [lineComment] at this
            split at this
            · cases this
            · split at this <;> omega
    | cons d p =>
      have e1 : ∀ z : Bytes, b!"\r\n".isPrefixOf (c :: (d :: p ++ z)) = ((13 : UInt8) == c && ((10 : UInt8) == d && true)) := fun _ => rfl
      have e2 : ∀ z : Bytes, b!"\n".isPrefixOf (c :: (d :: p ++ z)) = ((10 : UInt8) == c && true) := fun _ => rfl
      rw [e1, e2] at h h'
      simp only [e1, e2]
      split
      · rfl
      · rename_i hc; rw [if_neg hc] at h h'
        split
        · rfl
        · rename_i hc; rw [if_neg hc] at h h'
          rw [ih (by simp only [List.length_cons] at h ⊢; omega) (by simp only [List.length_cons] at h' ⊢; omega)]

/-- White space and comments depend on the rest of the source only. -/
theorem trivia_same {s t : St} (h : s.rem = t.rem) (hs : s.diags = []) (ht : t.diags = []) :
    (consumeTrivia s).rem = (consumeTrivia t).rem ∧ ((consumeTrivia t).diags = [] → (consumeTrivia s).diags = []) := by
  obtain ⟨a1, -, a2, h1, h2, -⟩ := (sim_init s).trivia
  obtain ⟨b1, -, b2, h3, h4, -⟩ := (sim_init t).trivia
  rw [h] at a1 h2
  refine ⟨a1.trans b1.symm, fun h5 => ?_⟩
  rw [h5, ht] at h3
  obtain ⟨-, rfl⟩ := List.append_eq_nil_iff.mp h3.symm
  rw [h1, hs, List.eq_nil_of_length_eq_zero (h2.trans h4.symm)]
  rfl

theorem suffix_same {x u p : Bytes} (h : x <:+ u) (hu : u <:+ p ++ x) : ∃ q, u = q ++ x := by
  obtain ⟨q, rfl⟩ := h; exact ⟨q, rfl⟩

theorem drop_split' {p x q : Bytes} {n : Nat} (h : (p ++ x).drop n = q ++ x) (hx : x ≠ []) : n ≤ p.length ∧ ∀ z : Bytes, (p ++ z).drop n = q ++ z := by
  have hl := congrArg List.length h
  have hx' := List.length_pos_of_ne_nil hx
  simp only [List.length_drop, List.length_append] at hl
  have hn : n ≤ p.length := by omega
  refine ⟨hn, fun z => ?_⟩
  rw [List.drop_append_of_le_length hn] at h ⊢
  rw [List.append_cancel_right h]

theorem trivia_lead {x : Bytes} (y : Bytes) (hx : x ≠ []) (s : St) : ∀ {p : Bytes} {s' : St}, (consumeTrivia s).diags = [] → (consumeTrivia s).rem = x →
    s.rem = p ++ x → s'.rem = p ++ y → s'.diags = [] →
    (consumeTrivia s').rem = skip y ∧ ((consumeTrivia (.init y)).diags = [] → (consumeTrivia s').diags = []) := by
  have base : ∀ {s' : St}, s'.rem = y → s'.diags = [] → (consumeTrivia s').rem = skip y ∧ ((consumeTrivia (.init y)).diags = [] → (consumeTrivia s').diags = []) :=
    fun h hd => trivia_same (t := .init y) h hd rfl
  fun_induction consumeTrivia s with
  | case1 s hs =>
    intro p s' hd hr hp
    exact absurd (hr.symm.trans hs) hx
  | case2 s c r hs hc ih =>
    intro p s' hd hr hp hs' hd'
    have h1 := trivia_suffix (consumeWhile isSpace s)
    rw [hr] at h1
    obtain ⟨p', hp'⟩ := suffix_same (p := p) h1 (by rw [consumeWhile_rem, hp]; exact dropWhile_suffix _ _)
    have hp2 := hp'
    rw [consumeWhile_rem, hp] at hp2
    rcases dropWhile_cases isSpace p with h | ⟨a, b, hb, h⟩
    · have e := h y
      rw [← trivia_white s']
      have e2 : (consumeWhile isSpace s').rem = (consumeWhile isSpace (.init y)).rem := by
        rw [consumeWhile_rem, consumeWhile_rem, hs', e]; rfl
      obtain ⟨h3, h4⟩ := trivia_same e2 (by rw [consumeWhile_diags, hd']) (by rw [consumeWhile_diags]; rfl)
      rw [trivia_white (.init y)] at h3 h4
      exact ⟨h3, h4⟩
    · rw [← trivia_white s']
      refine ih hd hr hp' ?_ (by rw [consumeWhile_diags, hd'])
      rw [consumeWhile_rem, hs', h]
      rw [h] at hp2
      rw [List.append_cancel_right hp2]
  | case3 s c r hs hc s1 hcm ih =>
    intro p s' hd hr hp hs' hd'
    have hd1 := trivia_clean hd
    have h1 := trivia_suffix s1
    rw [hr] at h1
    have hl := List.length_pos_of_ne_nil hx
    unfold consumeComments at hcm
    split at hcm
    · rename_i hpre
      simp only at hcm
      split at hcm
      · rename_i hcl
        cases hcm
        simp only [consume_rem, hp] at h1 hcl ih hd hr
        have hsuf : ((p ++ x).drop 2).drop (blockComment ((p ++ x).drop 2)).1 <:+ (p ++ x).drop 2 := List.drop_suffix _ _
        obtain ⟨p1, hp1⟩ := suffix_same (p := p) h1 ((List.drop_suffix _ _).trans (List.drop_suffix _ _))
        obtain ⟨p2, hp2⟩ := suffix_same (p := p) (h1.trans hsuf) (List.drop_suffix _ _)
        rw [hp2] at hp1 hcl
        obtain ⟨a1, a2⟩ := drop_split' hp2 hx
        obtain ⟨b1, b2⟩ := drop_split' hp1 hx
        have hb := block_swap y (n := (blockComment (p2 ++ x)).1) (Prod.ext rfl hcl) b1
        have hpre' : peekPrefix b!"/*" s' = true := by
          rw [peekPrefix, hp] at hpre
          rw [peekPrefix, hs']
          exact prefix_of_longer hpre (by simp; omega) _
        have hcm2 : consumeComments s' = some (consume (blockComment (p2 ++ x)).1 (consume 2 s')) := by
          unfold consumeComments
          rw [if_pos hpre']
          simp only [consume_rem, hs', a2, hb, if_true]
        rw [trivia_step hcm2]
        refine ih hd hr (p := p1) ?_ ?_ ?_
        · rw [hp2]; exact hp1
        · simp only [consume_rem, hs', a2, b2]
        · simp [consume_diags, hd']
      · cases hcm; simp [St.emit] at hd1
    · rename_i hnp
      split at hcm
      · rename_i hpre
        cases hcm
        simp only [consume_rem, hp] at h1 ih hd hr
        have hsuf : ((p ++ x).drop 1).drop (lineComment ((p ++ x).drop 1)) <:+ (p ++ x).drop 1 := List.drop_suffix _ _
        obtain ⟨p1, hp1⟩ := suffix_same (p := p) h1 ((List.drop_suffix _ _).trans (List.drop_suffix _ _))
        obtain ⟨p2, hp2⟩ := suffix_same (p := p) (h1.trans hsuf) (List.drop_suffix _ _)
        rw [hp2] at hp1
        obtain ⟨a1, a2⟩ := drop_split' hp2 hx
        obtain ⟨b1, b2⟩ := drop_split' hp1 hx
        have hb := line_swap' y hx b1
        have hpre' : peekPrefix b!"#" s' = true := by
          rw [peekPrefix, hp] at hpre
          rw [peekPrefix, hs']
          exact prefix_of_longer hpre (by simp; omega) _
        have hnp' : ¬ peekPrefix b!"/*" s' = true := by
          intro h
          unfold peekPrefix at h hpre'
          cases hr : s'.rem with
          | nil => rw [hr] at h; cases h
          | cons a b =>
            rw [hr] at h hpre'
            simp only [List.isPrefixOf, Bool.and_eq_true, beq_iff_eq] at h hpre'
            rw [← h.1] at hpre'
            exact absurd hpre'.1 (by decide)
        have hcm2 : consumeComments s' = some (consume (lineComment (p2 ++ x)) (consume 1 s')) := by
          unfold consumeComments
          rw [if_neg hnp', if_pos hpre']
          simp only [consume_rem, hs', a2, hb]
        rw [trivia_step hcm2]
        refine ih hd hr (p := p1) ?_ ?_ ?_
        · rw [hp2]; exact hp1
        · simp only [consume_rem, hs', a2, b2]
        · simp [consume_diags, hd']
      · cases hcm
  | case4 s c r hs hc hcm =>
    intro p s' hd hr hp hs' hd'
    rw [hp] at hr
    have : p = [] := by
      have := congrArg List.length hr
      simp only [List.length_append] at this
      exact List.eq_nil_of_length_eq_zero (by omega)
    subst this
    exact base hs' hd'

/-- White space and comments in front of `x`; then `y` instead. -/
structure Leads (p y : Bytes) : Prop where
  skip : Syntax.skip (p ++ y) = Syntax.skip y
  clean : CleanSkip y → CleanSkip (p ++ y)

theorem leads {p x : Bytes} (y : Bytes) (hx : x ≠ []) (hc : CleanSkip (p ++ x)) (h : skip (p ++ x) = x) : Leads p y := by
  obtain ⟨h1, h2⟩ := trivia_lead y hx (.init (p ++ x)) (s' := .init (p ++ y)) hc h rfl rfl rfl
  exact ⟨h1, h2⟩

theorem Leads.tok {p y v r' : Bytes} {k : TK} (h : Leads p y) (t : Tok y k v r') : Tok (p ++ y) k v r' := by
  rw [tok_iff] at t ⊢
  rw [h.skip]
  exact ⟨h.clean t.1, t.2⟩

/-- The kinds of phrases that begin with a token. -/
def NT.starts : NT → Bool
  | .expr | .op _ | .atom | .app | .select | .simple | .name | .path | .arg | .formals => true
  | _ => false

theorem G.lead {p y : Bytes} (hl : Leads p y) {nt : NT} {r' : Bytes} {l : List Syn} (h : G nt y l r') (hn : nt.starts = true) :
    G nt (p ++ y) l r' := by
  generalize hr : y = r at h
  induction h with
  | op _ i => subst hr; exact .op (i rfl rfl)
  | lambda _ t g i => subst hr; exact .lambda (i rfl rfl) t g
  | ite t g1 t2 g2 t3 g3 => subst hr; exact .ite (hl.tok t) g1 t2 g2 t3 g3
  | assert t g1 t2 g2 => subst hr; exact .assert (hl.tok t) g1 t2 g2
  | with_ t g1 t2 g2 => subst hr; exact .with_ (hl.tok t) g1 t2 g2
  | let_ t g1 t2 g2 => subst hr; exact .let_ (hl.tok t) g1 t2 g2
  | legacyLet t t2 g t3 => subst hr; exact .legacyLet (hl.tok t) t2 g t3
  | opr _ g i => subst hr; exact .opr (i rfl rfl) g
  | app _ i => subst hr; exact .app (i rfl rfl)
  | un t h g => subst hr; exact .un (hl.tok t) h g
  | one _ i => subst hr; exact .one (i rfl rfl)
  | call _ h g i => subst hr; exact .call (i rfl rfl) h g
  | simple _ i => subst hr; exact .simple (i rfl rfl)
  | select _ t g i => subst hr; exact .select (i rfl rfl) t g
  | selectOr _ t g t2 g2 i => subst hr; exact .selectOr (i rfl rfl) t g t2 g2
  | var t => subst hr; exact .var (hl.tok t)
  | int t h => subst hr; exact .int (hl.tok t) h
  | float t => subst hr; exact .float (hl.tok t)
  | spath t => subst hr; exact .spath (hl.tok t)
  | uri t => subst hr; exact .uri (hl.tok t)
  | str t g => subst hr; exact .str (hl.tok t) g
  | ind t g => subst hr; exact .ind (hl.tok t) g
  | pathLit t g => subst hr; exact .pathLit (hl.tok t) (by rw [hl.skip]; exact g)
  | paren t g t2 => subst hr; exact .paren (hl.tok t) g t2
  | list t g t2 => subst hr; exact .list (hl.tok t) g t2
  | set t g t2 => subst hr; exact .set (hl.tok t) g t2
  | recSet t t1 g t2 => subst hr; exact .recSet (hl.tok t) t1 g t2
  | name t => subst hr; exact .name (hl.tok t)
  | orName t => subst hr; exact .orName (hl.tok t)
  | strName t g => subst hr; exact .strName (hl.tok t) g
  | interpName t g t2 => subst hr; exact .interpName (hl.tok t) g t2
  | path _ g i => subst hr; exact .path (i rfl rfl) g
  | argName t => subst hr; exact .argName (hl.tok t)
  | argAt t t2 g => subst hr; exact .argAt (hl.tok t) t2 g
  | argSet _ h i => subst hr; exact .argSet (i rfl rfl) h
  | atArg _ h t1 t2 i => subst hr; exact .atArg (i rfl rfl) h t1 t2
  | formals t g t2 h => subst hr; exact .formals (hl.tok t) g t2 h
  | _ => cases hn

theorem G.lead_binds {p y : Bytes} (hl : Leads p y) {r' : Bytes} {t : Syn} {l : List Syn} (h : G .binds y (t :: l) r') : G .binds (p ++ y) (t :: l) r' := by
  cases h with
  | binding g1 t1 g2 t2 g3 => exact .binding (g1.lead hl rfl) t1 g2 t2 g3
  | inherit t1 g1 t2 g2 => exact .inherit (hl.tok t1) g1 t2 g2
  | inheritFrom t1 t2 g1 t3 g2 t4 g3 => exact .inheritFrom (hl.tok t1) t2 g1 t3 g2 t4 g3

/-- White space and comments in front of a phrase do not matter. -/
theorem G.unlead {nt : NT} {r r' : Bytes} {l : List Syn} (h : G nt r l r') (hn : nt.starts = true) : G nt (skip r) l r' := by
  induction h with
  | op _ i => exact .op (i rfl)
  | lambda _ t g i => exact .lambda (i rfl) t g
  | ite t g1 t2 g2 t3 g3 => exact .ite t.skip g1 t2 g2 t3 g3
  | assert t g1 t2 g2 => exact .assert t.skip g1 t2 g2
  | with_ t g1 t2 g2 => exact .with_ t.skip g1 t2 g2
  | let_ t g1 t2 g2 => exact .let_ t.skip g1 t2 g2
  | legacyLet t t2 g t3 => exact .legacyLet t.skip t2 g t3
  | opr _ g i => exact .opr (i rfl) g
  | app _ i => exact .app (i rfl)
  | un t h g => exact .un t.skip h g
  | one _ i => exact .one (i rfl)
  | call _ h g i => exact .call (i rfl) h g
  | simple _ i => exact .simple (i rfl)
  | select _ t g i => exact .select (i rfl) t g
  | selectOr _ t g t2 g2 i => exact .selectOr (i rfl) t g t2 g2
  | var t => exact .var t.skip
  | int t h => exact .int t.skip h
  | float t => exact .float t.skip
  | spath t => exact .spath t.skip
  | uri t => exact .uri t.skip
  | str t g => exact .str t.skip g
  | ind t g => exact .ind t.skip g
  | pathLit t g => exact .pathLit t.skip (by rw [skip_skip]; exact g)
  | paren t g t2 => exact .paren t.skip g t2
  | list t g t2 => exact .list t.skip g t2
  | set t g t2 => exact .set t.skip g t2
  | recSet t t1 g t2 => exact .recSet t.skip t1 g t2
  | name t => exact .name t.skip
  | orName t => exact .orName t.skip
  | strName t g => exact .strName t.skip g
  | interpName t g t2 => exact .interpName t.skip g t2
  | path _ g i => exact .path (i rfl) g
  | argName t => exact .argName t.skip
  | argAt t t2 g => exact .argAt t.skip t2 g
  | argSet _ h i => exact .argSet (i rfl) h
  | atArg _ h t1 t2 i => exact .atArg (i rfl) h t1 t2
  | formals t g t2 h => exact .formals t.skip g t2 h
  | _ => cases hn

/-- The first token of a phrase. -/
theorem G.first {nt : NT} {r r' : Bytes} {l : List Syn} (h : G nt r l r') (hn : nt.starts = true) : ∃ k v r1, Tok r k v r1 ∧ k ≠ .eof := by
  induction h with
  | op _ i => exact i rfl
  | lambda _ t g i => exact i rfl
  | opr _ g i => exact i rfl
  | app _ i => exact i rfl
  | one _ i => exact i rfl
  | call _ h g i => exact i rfl
  | simple _ i => exact i rfl
  | select _ t g i => exact i rfl
  | selectOr _ t g t2 g2 i => exact i rfl
  | argSet _ h i => exact i rfl
  | atArg _ h t1 t2 i => exact i rfl
  | path _ g i => exact i rfl
  | un t h => exact ⟨_, _, _, t, (unPower_ne h).1⟩
  | _ =>
    first
    | (cases hn; done)
    | exact ⟨_, _, _, by assumption, by decide⟩

theorem G.unlead_binds {r r' : Bytes} {t : Syn} {l : List Syn} (h : G .binds r (t :: l) r') : G .binds (skip r) (t :: l) r' := by
  cases h with
  | binding g1 t1 g2 t2 g3 => exact .binding (g1.unlead rfl) t1 g2 t2 g3
  | inherit t1 g1 t2 g2 => exact .inherit t1.skip g1 t2 g2
  | inheritFrom t1 t2 g1 t3 g2 t4 g3 => exact .inheritFrom t1.skip t2 g1 t3 g2 t4 g3

theorem G.first_binds {r r' : Bytes} {t : Syn} {l : List Syn} (h : G .binds r (t :: l) r') : ∃ k v r1, Tok r k v r1 ∧ k ≠ .eof := by
  cases h with
  | binding g1 => exact g1.first rfl
  | inherit t1 => exact ⟨_, _, _, t1, by decide⟩
  | inheritFrom t1 => exact ⟨_, _, _, t1, by decide⟩

theorem Tok.leads {r v r1 : Bytes} {k : TK} (t : Tok r k v r1) (hk : k ≠ .eof) (y : Bytes) :
    Syntax.skip r ≠ [] ∧ ∃ p, r = p ++ Syntax.skip r ∧ Leads p y := by
  have hne : Syntax.skip r ≠ [] := by
    rw [t.text]
    intro h
    exact t.ne hk (List.append_eq_nil_iff.mp h).1
  obtain ⟨p, hp⟩ := skip_suf r
  refine ⟨hne, p, hp.symm, Syntax.leads y hne (x := Syntax.skip r) ?_ ?_⟩
  · rw [hp]; exact (tok_iff.mp t).1
  · rw [hp]

end Verif.Nixf.Syntax
