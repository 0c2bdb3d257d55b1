import Verif.Lemmas.Replace
/-
Every expression and attribute name inside of a phrase may be replaced.
-/
namespace Verif.Nixf.Syntax
open Lexical Strings Verif.Props

theorem mk_hole {src : Option Bytes} {K : NK} {r : Bytes} {l : List Node} {r' : Bytes} (g : GN src K r l r') (h : Std src K r l r') {m n : Node}
    (hm : m ∈ l) (hp : Part m n) (hn : phrase n = true) : Hole src K r l r' n := h.hole g hm hp hn

theorem sw_drop {x y r : Bytes} {n : Nat} (hx : x <:+ r.drop n) (hn : n ≤ r.length) :
    (sw x y r).drop n = sw x y (r.drop n) ∧ (sw x y r).take n = r.take n ∧ n ≤ (sw x y r).length := by
  obtain ⟨a, ha⟩ := hx
  have he : r = (r.take n ++ a) ++ x := by
    conv_lhs => rw [← List.take_append_drop n r, ← ha]
    simp
  have h1 : sw x y r = r.take n ++ (a ++ y) := by
    conv_lhs => rw [he]
    rw [sw_app, List.append_assoc]
  have hl : (r.take n).length = n := by simp; omega
  rw [h1, ← ha, sw_app]
  exact ⟨List.drop_left' hl, List.take_left' hl, by rw [List.length_append, hl]; omega⟩

theorem codeDollars_swap {p x y : Bytes} (hp : 2 ≤ p.length) : codeDollars (36 :: (p ++ x)) = codeDollars (36 :: (p ++ y)) := by
  match p, hp with
  | c :: d :: p, _ =>
    have key : ∀ z, codeDollars (36 :: c :: d :: z) = if c = 123 then 0 else if c = 36 ∧ d = 123 then 3 else 1 := by
      intro z
      by_cases h1 : c = 123
      · subst h1; rfl
      · rw [if_neg h1]
        by_cases h2 : c = 36
        · subst h2
          by_cases h3 : d = 123
          · subst h3; rfl
          · rw [if_neg (by simp [h3])]
            unfold codeDollars
            split <;> simp_all
        · rw [if_neg (by simp [h2])]
          unfold codeDollars
          split <;> simp_all
    show codeDollars (36 :: c :: d :: (p ++ x)) = codeDollars (36 :: c :: d :: (p ++ y))
    rw [key, key]

set_option hygiene false in
/-- Suffixes, along the phrase. -/
macro "walk2" : tactic => `(tactic| with_reducible repeat first
  | exact List.suffix_refl _
  | refine List.IsSuffix.trans ?_ (Tok.suf (by assumption))
  | refine List.IsSuffix.trans ?_ (TokP.suf (by assumption))
  | refine List.IsSuffix.trans ?_ (GN.suf (by assumption)))

set_option hygiene false in
macro "T2!" t:ident : term => `(swT hy $t (by refine hx.trans ?_; walk2) (by refine List.IsSuffix.trans ?_ hr; walk2) (by first | decide | assumption) (by first | decide | assumption))

set_option hygiene false in
macro "S!" g:ident : term => `(G.swap hy (GN.toG $g) (by refine hx.trans ?_; walk2) (by refine List.IsSuffix.trans ?_ hr; walk2) (by simp [NK.syns, odd, oddL, oddL_append, synL_eq, ho]) (fun _ h => nomatch h) (fun h => nomatch h))

set_option hygiene false in
macro "odd!" : tactic => `(tactic| (intro ho; (try simp [odd, oddL, oddL_append, synL_eq] at ho); (first | done | simp [odd, oddL, oddL_append, synL_eq, ho])))

set_option hygiene false in
macro "callee!" : tactic => `(tactic| (intro q9 hq9; rintro ⟨c9, hc9, hk9⟩; first
  | exact ⟨c9, hc9, hk9⟩
  | exact ⟨c9, List.mem_cons_of_mem _ hc9, hk9⟩
  | exact ⟨c9, List.mem_append_right _ hc9, hk9⟩
  | exact ⟨c9, List.mem_append_right _ (List.mem_cons_of_mem _ hc9), hk9⟩
  | exact ⟨c9, by rw [List.mem_singleton] at hc9; rw [hc9]; exact List.mem_cons_self, hk9⟩
  | exact ⟨_, List.mem_cons_self, .down (by
      simp only [inner, List.mem_cons, List.mem_append, List.not_mem_nil, or_false] at hc9 ⊢
      first | exact hc9 | exact .inl hc9 | exact .inr hc9 | exact .inr (.inl hc9) | exact .inr (.inr hc9)) hk9⟩
  | exact ⟨_, List.mem_cons_self, .down (mem_explode hc9 hk9 hq9) hk9⟩
  | exact ⟨_, List.mem_append_right _ List.mem_cons_self, .down hc9 hk9⟩
  | exact ⟨_, List.mem_cons_self, .down (LetOf.mem hl (.inl hc9)) hk9⟩
  | exact ⟨_, List.mem_cons_self, .down (LetOf.mem hl (.inr (List.mem_singleton.mp hc9))) hk9⟩
  | exact ⟨_, List.mem_cons_self, .down (BindsOf.mem hl hc9).2 hk9⟩
  | exact ⟨_, List.mem_cons_self, .down (BindsOf.mem hb hc9).1 hk9⟩))

set_option hygiene false in
/-- The phrase is not what an attribute is selected from, or it is the selection. -/
macro "base!" : tactic => `(tactic| first
  | (intro h9; cases h9; done)
  | (intro h9 h8; cases h8; exact ⟨_, List.mem_cons_self, _, _, _, _, _, .here⟩)
  | (intro h9 h8; exact absurd h8 hne))

set_option hygiene false in
macro "lift2!" H:term "," L:term "," Lc:term "," e:term "," ec:term : tactic => `(tactic|
  (refine Hole.lift $H $L $Lc $e $ec (by walk2) (by walk2) (by odd!) (by callee!) (by base!) (fun _ _ _ => trivial) ?_
   intro P x y u' lc' Q hy hx hd hr ho hcal sl g' ks
   try simp [odd, oddL, oddL_append, synL_eq] at ho))

set_option hygiene false in
macro "lift!" H:term "," L:term "," Lc:term : tactic => `(tactic| lift2! $H, $L, $Lc, rfl, rfl)

set_option hygiene false in
macro "one!" : tactic => `(tactic| obtain ⟨c', rfl⟩ := SwapL.one sl)

set_option hygiene false in
macro "sw!" u:term "," v:term : term => `(SwapL.inside sl $u $v (by simp [shape, SwapL.holes sl, NK.syns]) (by simp [kids, NK.syns]) (by simp [kids, NK.syns]))

set_option hygiene false in
/-- A phrase that is one node. -/
macro "enter" : tactic => `(tactic|
  (intro m hm n hp hn
   rw [List.mem_singleton] at hm
   subst hm
   rcases Part.split hp with rfl | ⟨cc, hc, hp⟩
   · exact .inl ⟨rfl, rfl⟩
   right))

set_option hygiene false in
/-- A phrase that is one node, but not one that may be replaced. -/
macro "enter'" : tactic => `(tactic|
  (intro m hm n hp hn
   rw [List.mem_singleton] at hm
   subst hm
   rcases Part.split hp with rfl | ⟨cc, hc, hp⟩
   · cases hn
   right))

set_option hygiene false in
macro "inn" : tactic => `(tactic| simp only [inner, List.mem_cons, List.mem_append, List.not_mem_nil, or_false] at hc)

set_option maxHeartbeats 8000000 in
theorem GN.inv {src : Option Bytes} {K : NK} {r : Bytes} {l : List Node} {r' : Bytes} (h : GN src K r l r') : Inv src K r l r' := by
  induction h with
  | @op r t r' g i =>
    intro m hm n hp hn
    rcases i m hm n hp hn with ⟨-, h⟩ | H
    · exact .inl ⟨rfl, h⟩
    · right
      lift! H, [syn t], [syn t]
      one!
      exact ⟨_, sl, .op g', trivial⟩
  | @lambda r a r1 v r2 b r' h g1 t1 g2 sp i1 i2 =>
    enter
    inn
    rcases hc with h1 | h1 <;> rw [h1] at hp
    · lift! (mk_hole g1 i1 (by simp) hp hn), [.lambda (syn a) (syn b)], [syn a]
      one!
      exact ⟨_, (sw! [], [syn b]).list, .lambda g' t1 g2.toG, trivial⟩
    · lift! (mk_hole g2 i2 (by simp) hp hn), [.lambda (syn a) (syn b)], [syn b]
      one!
      exact ⟨_, (sw! [syn a], []).list, .lambda (S! g1) (T2! t1) g', trivial⟩
  | @ite r v1 r1 c r2 v2 r3 t r4 v3 r5 e r' h t1 g1 t2 g2 t3 g3 sp i1 i2 i3 =>
    enter
    inn
    rcases hc with h1 | h1 | h1 <;> rw [h1] at hp
    · lift! (mk_hole g1 i1 (by simp) hp hn), [.ite (syn c) (syn t) (syn e)], [syn c]
      one!
      exact ⟨_, (sw! [], [syn t, syn e]).list, .ite (T2! t1) g' t2 g2.toG t3 g3.toG, trivial⟩
    · lift! (mk_hole g2 i2 (by simp) hp hn), [.ite (syn c) (syn t) (syn e)], [syn t]
      one!
      exact ⟨_, (sw! [syn c], [syn e]).list, .ite (T2! t1) (S! g1) (T2! t2) g' t3 g3.toG, trivial⟩
    · lift! (mk_hole g3 i3 (by simp) hp hn), [.ite (syn c) (syn t) (syn e)], [syn e]
      one!
      exact ⟨_, (sw! [syn c, syn t], []).list, .ite (T2! t1) (S! g1) (T2! t2) (S! g2) (T2! t3) g', trivial⟩
  | @assert r v1 r1 c r2 v2 r3 e r' h t1 g1 t2 g2 sp i1 i2 =>
    enter
    inn
    rcases hc with h1 | h1 <;> rw [h1] at hp
    · lift! (mk_hole g1 i1 (by simp) hp hn), [.assert (syn c) (syn e)], [syn c]
      one!
      exact ⟨_, (sw! [], [syn e]).list, .assert (T2! t1) g' t2 g2.toG, trivial⟩
    · lift! (mk_hole g2 i2 (by simp) hp hn), [.assert (syn c) (syn e)], [syn e]
      one!
      exact ⟨_, (sw! [syn c], []).list, .assert (T2! t1) (S! g1) (T2! t2) g', trivial⟩
  | @with_ r v1 r1 w r2 v2 r3 e r' h k1 k2 t1 g1 t2 g2 sp sk1 sk2 i1 i2 =>
    enter
    inn
    rcases hc with h1 | h1 <;> rw [h1] at hp
    · lift! (mk_hole g1 i1 (by simp) hp hn), [.with_ (syn w) (syn e)], [syn w]
      one!
      exact ⟨_, (sw! [], [syn e]).list, .with_ (T2! t1) g' t2 g2.toG, trivial⟩
    · lift! (mk_hole g2 i2 (by simp) hp hn), [.with_ (syn w) (syn e)], [syn e]
      one!
      exact ⟨_, (sw! [syn w], []).list, .with_ (T2! t1) (S! g1) (T2! t2) g', trivial⟩
  | @let_ r v1 r1 bs r2 v2 r3 e r' h k1 k2 a t1 g1 t2 g2 hl sp i1 i2 =>
    enter
    have es : NK.expr.syns [.exprLet h k1 k2 e a] = [.let_ (synL bs) (syn e)] := by
      show [syn _] = _
      rw [hl.syn]
    rcases hl.inner hc with h1 | h1
    · lift2! (mk_hole g1 i1 h1 hp hn), [.let_ (synL bs) (syn e)], (synL bs), es, rfl
      exact ⟨_, (sw! [], [syn e]).list, .let_ (T2! t1) g' t2 g2.toG, trivial⟩
    · rw [h1] at hp
      lift2! (mk_hole g2 i2 (by simp) hp hn), [.let_ (synL bs) (syn e)], [syn e], es, rfl
      one!
      exact ⟨_, (sw! (synL bs), []).list, .let_ (T2! t1) (S! g1) (T2! t2) g', trivial⟩
  | @legacyLet r v1 r1 v2 r2 bs r3 v3 r' h k1 h' a rc st dy t1 t2 g1 t3 hl sp i1 =>
    enter
    have es : NK.expr.syns [.exprLegacyLet h k1 (.exprAttrs h' a rc st dy)] = [.legacyLet (synL bs)] := by
      show [syn _] = _
      rw [hl.legacy]
    lift2! (mk_hole g1 i1 (hl.inner.2 hc) hp hn), [.legacyLet (synL bs)], (synL bs), es, rfl
    exact ⟨_, (sw! [], []).list, .legacyLet (T2! t1) (T2! t2) g' t3, trivial⟩
  | @opr p r a r1 t r' g1 g2 i1 i2 =>
    intro m hm n hp hn
    rw [List.mem_singleton] at hm
    subst hm
    have Ha : ∀ n, Part a n → phrase n = true → n = a ∨ Hole src (.op p) r [a] r1 n := by
      intro n hp hn
      rcases i1 a (by simp) n hp hn with ⟨-, h⟩ | H
      · left; simpa using h.symm
      · right
        lift! H, [syn a], [syn a]
        one!
        exact ⟨_, sl, .opr g' .stop, ks⟩
    rcases i2 (.opr g1 .stop) Ha m rfl n hp hn with rfl | H
    · exact .inl ⟨rfl, rfl⟩
    · exact .inr H
  | @app r t r' g i =>
    intro m hm n hp hn
    rcases i m hm n hp hn with ⟨-, h⟩ | H
    · exact .inl ⟨rfl, h⟩
    · right
      lift! H, [syn t], [syn t]
      one!
      exact ⟨_, sl, .app g', by unfold Keeps; simp [G.app_powers g']⟩
  | @un k p r v r1 e r' h ho t1 hk g sp i =>
    enter
    inn
    rw [hc] at hp
    have ⟨n1, n2⟩ := unPower_ne hk
    lift! (mk_hole g i (by simp) hp hn), [.un k (syn e)], [syn e]
    one!
    refine ⟨_, (sw! [], []).list, .un (T2! t1) hk g', ?_⟩
    unfold Keeps at ks ⊢
    simp [rightPowers] at ks ⊢
    exact List.subset_cons_of_subset _ ks
  | @stop p a q r =>
    intro ga Ha t ht n hp hn
    cases ht
    exact Ha n hp hn
  | @bin p a q k pl pr r v r1 e r2 t r' h ho t1 hk hlt hrp g1 sp g2 i1 i2 =>
    intro ga Ha t ht n hp hn
    have ⟨n1, n2⟩ := powers_ne hk
    refine i2 (ga.extend (.bin t1 hk hlt hrp g1 sp .stop)) ?_ t ht n hp hn
    clear hn hp n ht t
    intro n hp hn
    rcases hp.split with rfl | ⟨cc, hc, hp⟩
    · exact .inl rfl
    right
    inn
    rcases hc with h1 | h1 <;> rw [h1] at hp
    · have H : Hole src (.op p) q [a] r n := by
        rcases Ha n hp hn with rfl | H
        · exact .top ga rfl
        · exact H
      lift! H, [.bin k (syn a) (syn e)], [syn a]
      one!
      refine ⟨_, (sw! [], [syn e]).list, g'.extend (.bin t1 hk hlt (fun q hq => hrp q ?_) g1.toG .stop), ?_⟩
      · unfold Keeps at ks
        simp at ks
        exact ks hq
      · unfold Keeps; simp [rightPowers]
    · lift! (mk_hole g1 i1 (by simp) hp hn), [.bin k (syn a) (syn e)], [syn e]
      one!
      refine ⟨_, (sw! [syn a], []).list, (S! ga).extend (.bin (T2! t1) hk hlt hrp g' .stop), ?_⟩
      unfold Keeps at ks ⊢
      simp [rightPowers] at ks ⊢
      exact List.subset_cons_of_subset _ ks
  | @has p a q r v r1 ns r2 t r' h ho hpa ds t1 hrp g1 sp sp2 g2 i1 i2 =>
    intro ga Ha t ht n hp hn
    refine i2 (ga.extend (.has t1 hrp g1 sp sp2 .stop)) ?_ t ht n hp hn
    clear hn hp n ht t
    intro n hp hn
    rcases hp.split with rfl | ⟨cc, hc, hp⟩
    · exact .inl rfl
    right
    inn
    rcases hc with h1 | h1
    · rw [h1] at hp
      have H : Hole src (.op p) q [a] r n := by
        rcases Ha n hp hn with rfl | H
        · exact .top ga rfl
        · exact H
      lift! H, [.has (syn a) (synL ns)], [syn a]
      one!
      refine ⟨_, (sw! [], (synL ns)).list, g'.extend (.has t1 ?_ g1.toG .stop), ?_⟩
      · unfold Keeps at ks
        simp [hrp] at ks
        exact ks
      · unfold Keeps; simp [rightPowers]
    · lift! (mk_hole g1 i1 h1 hp hn), [.has (syn a) (synL ns)], (synL ns)
      refine ⟨_, (sw! [syn a], []).list, (S! ga).extend (.has (T2! t1) hrp g' .stop), ?_⟩
      unfold Keeps; simp [rightPowers]
  | @hasNone p a q r v r1 t r' h ho t1 hrp hno sp g2 i2 =>
    intro ga Ha t ht n hp hn
    refine i2 (ga.extend (.hasNone t1 hrp hno sp .stop)) ?_ t ht n hp hn
    clear hn hp n ht t
    intro n hp hn
    rcases hp.split with rfl | ⟨cc, hc, hp⟩
    · exact .inl rfl
    right
    inn
    rw [hc] at hp
    have H : Hole src (.op p) q [a] r n := by
      rcases Ha n hp hn with rfl | H
      · exact .top ga rfl
      · exact H
    refine Hole.lift H [.has (syn a) []] [syn a] rfl rfl (by walk2) (by walk2) (by odd!) (by callee!) (by base!) (fun _ _ _ => trivial) ?_
    intro P x y u' lc' Q hy hx hd hr ho
    simp [odd, oddL] at ho
  | @one r t r' g i =>
    intro m hm n hp hn
    rcases i m hm n hp hn with ⟨-, h⟩ | H
    · exact .inl ⟨rfl, h⟩
    · right
      lift! H, [syn t], [syn t]
      one!
      exact ⟨_, sl, .one g', trivial⟩
  | @call r f r1 as r' h g1 hf g2 sp i1 i2 =>
    enter
    inn
    rcases hc with h1 | h1
    · rw [h1] at hp
      lift! (mk_hole g1 i1 (by simp) hp hn), [.call (syn f) (synL as)], [syn f]
      one!
      exact ⟨_, (sw! [], (synL as)).list, .call g' (by unfold Keeps at ks; simpa [hf] using ks fun hq e => hcal hq ⟨_, List.mem_singleton_self _, h, as, by cases e; exact .here⟩) g2.toG, trivial⟩
    · lift! (mk_hole g2 i2 h1 hp hn), [.call (syn f) (synL as)], (synL as)
      exact ⟨_, (sw! [syn f], []).list, .call (S! g1) hf g', trivial⟩
  | @lastArg r e r' g i =>
    intro m hm n hp hn
    right
    lift! (mk_hole g i hm hp hn), [syn e], [syn e]
    one!
    exact ⟨_, sl, .lastArg g', trivial⟩
  | @moreArgs r e r1 es r' g1 g2 i1 i2 =>
    intro m hm n hp hn
    right
    rcases List.mem_cons.mp hm with h1 | h1
    · rw [h1] at hp
      lift! (mk_hole g1 i1 (by simp) hp hn), (syn e :: synL es), [syn e]
      one!
      exact ⟨_, sl.left (synL es), .moreArgs g' g2.toG, trivial⟩
    · lift! (mk_hole g2 i2 h1 hp hn), (syn e :: synL es), (synL es)
      exact ⟨_, sl.right [syn e], .moreArgs (S! g1) g', trivial⟩
  | @simple r t r' g i =>
    intro m hm n hp hn
    by_cases hne : [t] = [n]
    · exact .inl ⟨rfl, hne⟩
    rcases i m hm n hp hn with ⟨-, h⟩ | H
    · exact .inl ⟨rfl, h⟩
    · right
      lift! H, [syn t], [syn t]
      one!
      exact ⟨_, sl, .simple g', ks⟩
  | @select r e r1 v r2 ns r' h d hpa ds b g1 t1 g2 sp sp2 spd i1 i2 =>
    enter
    inn
    rcases hc with h1 | h1 | h1
    · rw [h1] at hp
      lift! (mk_hole g1 i1 (by simp) hp hn), [.select (syn e) (synL ns)], [syn e]
      one!
      exact ⟨_, (sw! [], (synL ns)).list, .select g' t1 g2.toG, fun _ _ => rfl⟩
    · lift! (mk_hole g2 i2 h1 hp hn), [.select (syn e) (synL ns)], (synL ns)
      exact ⟨_, (sw! [syn e], []).list, .select (S! g1) (T2! t1) g', fun _ _ => rfl⟩
    · rw [h1] at hp; exact (part_null hp hn).elim
  | @selectOr r e r1 v r2 ns r3 v' r4 d r' h dt hpa ds b g1 t1 g2 t2 g3 hdn sp sp2 i1 i2 i3 =>
    enter
    inn
    have es : NK.select.syns [.exprSelect h e dt (.attrPath hpa ns ds) d b] = [.selectOr (syn e) (synL ns) (syn d)] := by
      show [syn _] = _
      rw [syn_selectOr hdn]
    rcases hc with h1 | h1 | h1
    · rw [h1] at hp
      lift2! (mk_hole g1 i1 (by simp) hp hn), [.selectOr (syn e) (synL ns) (syn d)], [syn e], es, rfl
      one!
      exact ⟨_, (sw! [], (synL ns ++ [syn d])).list, .selectOr g' t1 g2.toG t2 g3.toG, fun _ _ => rfl⟩
    · lift2! (mk_hole g2 i2 h1 hp hn), [.selectOr (syn e) (synL ns) (syn d)], (synL ns), es, rfl
      exact ⟨_, (sw! [syn e], [syn d]).list, .selectOr (S! g1) (T2! t1) g' t2 g3.toG, fun _ _ => rfl⟩
    · rw [h1] at hp
      lift2! (mk_hole g3 i3 (by simp) hp hn), [.selectOr (syn e) (synL ns) (syn d)], [syn d], es, rfl
      one!
      exact ⟨_, (sw! (syn e :: synL ns), []).list, .selectOr (S! g1) (T2! t1) (S! g2) (T2! t2) g', fun _ _ => rfl⟩
  | var => enter; inn
  | int => enter; inn
  | float => enter; inn
  | spath => enter; inn
  | uri t hf =>
    enter
    inn
    have := part_explode hc hp hn
    rw [hf] at this
    exact (part_chars this hp hn).elim
  | @str r v r1 fs r' h h' t1 g sp i =>
    enter
    inn
    refine Hole.lift (mk_hole g (i (.inl rfl)) (part_explode hc hp hn) hp hn) [.str (synParts fs)] (synParts fs) rfl (synParts_explode _).symm t1.suf
      (List.suffix_cons _ _) (by odd!) (by callee!) (by base!) (fun _ _ _ => trivial) ?_
    intro P x y u' lc' Q hy hx hd hr ho hcal sl g' ks
    exact ⟨_, (sw! [], []).list, .str (T2! t1) g', fun _ h => by simp [callable] at h⟩
  | @ind r v r1 fs r' h h' t1 g sp i =>
    enter
    inn
    refine Hole.lift (mk_hole g (i (.inr rfl)) (part_explode hc hp hn) hp hn) [.str (synParts fs)] (synParts fs) rfl (synParts_explode _).symm t1.suf
      ((List.suffix_cons _ _).trans (List.suffix_cons _ _)) (by odd!) (by callee!) (by base!) (fun _ _ _ => trivial) ?_
    intro P x y u' lc' Q hy hx hd hr ho hcal sl g' ks
    exact ⟨_, (sw! [], []).list, .ind (T2! t1) g', fun _ h => by simp [callable] at h⟩
  | @pathLit r v r1 fs r' h h' t1 g sp i =>
    enter
    inn
    refine Hole.lift (mk_hole g i (part_explode hc hp hn) hp hn) [.path (synParts fs)] (synParts fs) rfl (synParts_explode _).symm (skip_suf _)
      (List.suffix_refl _) (by odd!) (by callee!) (by base!) (fun _ _ _ => trivial) ?_
    intro P x y u' lc' Q hy hx hd hr ho hcal sl g' ks
    obtain ⟨k1, w, rp, tp, hx1, hl⟩ := hd
    obtain ⟨h1, h2⟩ := swPath' hy t1 tp hx1 hl hr
    refine ⟨[.path lc'], (sw! [], []).list, .pathLit h1 ?_, fun _ h => by simp [callable] at h⟩
    have h3 : skip (sw x y r) = sw x y (skip r) := by
      rw [h1.text, t1.text]
      obtain ⟨p, rfl⟩ := h2
      rw [← List.append_assoc, sw_app, sw_app, List.append_assoc]
    rw [h3]
    exact g'
  | @paren r v1 r1 e r2 v2 r' h m1 m2 t1 g t2 sp sp1 sp2 i =>
    enter
    inn
    rw [hc] at hp
    lift! (mk_hole g i (by simp) hp hn), [.paren (syn e)], [syn e]
    one!
    exact ⟨_, (sw! [], []).list, .paren (T2! t1) g' t2, fun _ _ => rfl⟩
  | @list r v1 r1 es r2 v2 r' h t1 g t2 sp i =>
    enter
    inn
    lift! (mk_hole g i hc hp hn), [.list (synL es)], (synL es)
    exact ⟨_, (sw! [], []).list, .list (T2! t1) g' t2, fun _ _ => rfl⟩
  | @set r v1 r1 bs r2 v2 r' h a st dy t1 g t2 hb sp i =>
    enter
    have es : NK.simple.syns [.exprAttrs h a .null st dy] = [.set false (synL bs)] := by
      show [syn _] = _
      rw [hb.set]; rfl
    lift2! (mk_hole g i (hb.inner.1 hc) hp hn), [.set false (synL bs)], (synL bs), es, rfl
    exact ⟨_, (sw! [], []).list, .set (T2! t1) g' t2, fun _ h => by simp [callable] at h⟩
  | @recSet r v0 r0 v1 r1 bs r2 v2 r' h a rc st dy t0 t1 g t2 hb hrc sp spr i =>
    enter
    have es : NK.simple.syns [.exprAttrs h a rc st dy] = [.set true (synL bs)] := by
      show [syn _] = _
      rw [hb.set, hrc]
    lift2! (mk_hole g i (hb.inner.1 hc) hp hn), [.set true (synL bs)], (synL bs), es, rfl
    exact ⟨_, (sw! [], []).list, .recSet (T2! t0) (T2! t1) g' t2, fun _ h => by simp [callable] at h⟩
  | noElem => intro m hm; cases hm
  | @elem r e r1 es r' g1 g2 i1 i2 =>
    intro m hm n hp hn
    right
    rcases List.mem_cons.mp hm with h1 | h1
    · rw [h1] at hp
      lift! (mk_hole g1 i1 (by simp) hp hn), (syn e :: synL es), [syn e]
      one!
      exact ⟨_, sl.left (synL es), .elem g' g2.toG, trivial⟩
    · lift! (mk_hole g2 i2 h1 hp hn), (syn e :: synL es), (synL es)
      exact ⟨_, sl.right [syn e], .elem (S! g1) g', trivial⟩
  | name => enter; inn
  | orName => enter; inn
  | @strName r v r1 fs r' h h' h2 t1 g sp i =>
    enter
    inn
    refine Hole.lift (mk_hole g (i (.inl rfl)) (part_explode hc hp hn) hp hn) [.strName (synParts fs)] (synParts fs) rfl (synParts_explode _).symm t1.suf
      (List.suffix_cons _ _) (by odd!) (by callee!) (by base!) (fun _ _ _ => trivial) ?_
    intro P x y u' lc' Q hy hx hd hr ho hcal sl g' ks
    exact ⟨_, (sw! [], []).list, .strName (T2! t1) g', trivial⟩
  | @interpName r v1 r1 e r2 v2 r' h h' t1 g t2 sp i =>
    enter
    inn
    rw [hc] at hp
    lift! (mk_hole g i (by simp) hp hn), [.interpName (syn e)], [syn e]
    one!
    exact ⟨_, (sw! [], []).list, .interpName (T2! t1) g' t2, trivial⟩
  | @path r e r1 es r' g1 g2 i1 i2 =>
    intro m hm n hp hn
    right
    rcases List.mem_cons.mp hm with h1 | h1
    · rw [h1] at hp
      lift! (mk_hole g1 i1 (by simp) hp hn), (syn e :: synL es), [syn e]
      one!
      exact ⟨_, sl.left (synL es), .path g' g2.toG, trivial⟩
    · lift! (mk_hole g2 i2 h1 hp hn), (syn e :: synL es), (synL es)
      exact ⟨_, sl.right [syn e], .path (S! g1) g', trivial⟩
  | noDot => intro m hm; cases hm
  | @dot r v r1 e r2 es r' t1 g1 g2 i1 i2 =>
    intro m hm n hp hn
    right
    rcases List.mem_cons.mp hm with h1 | h1
    · rw [h1] at hp
      lift! (mk_hole g1 i1 (by simp) hp hn), (syn e :: synL es), [syn e]
      one!
      exact ⟨_, sl.left (synL es), .dot (T2! t1) g' g2.toG, trivial⟩
    · lift! (mk_hole g2 i2 h1 hp hn), (syn e :: synL es), (synL es)
      exact ⟨_, sl.right [syn e], .dot (T2! t1) (S! g1) g', trivial⟩
  | noName => intro m hm; cases hm
  | @names r e r1 es r' g1 g2 i1 i2 =>
    intro m hm n hp hn
    right
    rcases List.mem_cons.mp hm with h1 | h1
    · rw [h1] at hp
      lift! (mk_hole g1 i1 (by simp) hp hn), (syn e :: synL es), [syn e]
      one!
      exact ⟨_, sl.left (synL es), .names g' g2.toG, trivial⟩
    · lift! (mk_hole g2 i2 h1 hp hn), (syn e :: synL es), (synL es)
      exact ⟨_, sl.right [syn e], .names (S! g1) g', trivial⟩
  | noBind => intro m hm; cases hm
  | @binding r ns r1 v1 r2 e r3 v2 r4 bs r' h hpa ds q g1 t1 g2 t2 sp sp2 g3 i1 i2 i3 =>
    intro m hm n hp hn
    right
    rcases List.mem_cons.mp hm with h1 | h1
    · rw [h1] at hp
      rcases hp.split with rfl | ⟨cc, hc, hp⟩
      · exact .bind (.binding g1 t1 g2 t2 sp sp2 .noBind) g3
      inn
      rcases hc with h1 | h1
      · lift! (mk_hole g1 i1 h1 hp hn), (.binding (synL ns) (syn e) :: synL bs), (synL ns)
        exact ⟨_, (sw! [], [syn e]).list.left (synL bs), .binding g' t1 g2.toG t2 g3.toG, trivial⟩
      · rw [h1] at hp
        lift! (mk_hole g2 i2 (by simp) hp hn), (.binding (synL ns) (syn e) :: synL bs), [syn e]
        one!
        exact ⟨_, (sw! (synL ns), []).list.left (synL bs), .binding (S! g1) (T2! t1) g' t2 g3.toG, trivial⟩
    · lift! (mk_hole g3 i3 h1 hp hn), (.binding (synL ns) (syn e) :: synL bs), (synL bs)
      exact ⟨_, sl.right [.binding (synL ns) (syn e)], .binding (S! g1) (T2! t1) (S! g2) (T2! t2) g', trivial⟩
  | @inherit r v1 r1 ns r2 v2 r3 bs r' h t1 g1 t2 sp g2 i1 i2 =>
    intro m hm n hp hn
    right
    rcases List.mem_cons.mp hm with h1 | h1
    · rw [h1] at hp
      rcases hp.split with rfl | ⟨cc, hc, hp⟩
      · exact .bind (.inherit t1 g1 t2 sp .noBind) g2
      inn
      rcases hc with h1 | h1
      · lift! (mk_hole g1 i1 h1 hp hn), (.inherit (synL ns) :: synL bs), (synL ns)
        exact ⟨_, (sw! [], []).list.left (synL bs), .inherit (T2! t1) g' t2 g2.toG, trivial⟩
      · rw [h1] at hp; exact (part_null hp hn).elim
    · lift! (mk_hole g2 i2 h1 hp hn), (.inherit (synL ns) :: synL bs), (synL bs)
      exact ⟨_, sl.right [.inherit (synL ns)], .inherit (T2! t1) (S! g1) (T2! t2) g', trivial⟩
  | @inheritFrom r v1 r1 v2 r2 e r3 v3 r4 ns r5 v4 r6 bs r' h t1 t2 g1 t3 g2 t4 he sp g3 i1 i2 i3 =>
    intro m hm n hp hn
    right
    have es : NK.binds.syns (.inherit h ns e :: bs) = .inheritFrom (syn e) (synL ns) :: synL bs := by
      show syn _ :: _ = _
      rw [syn_inherit he]
    rcases List.mem_cons.mp hm with h1 | h1
    · rw [h1] at hp
      rcases hp.split with rfl | ⟨cc, hc, hp⟩
      · exact .bind (.inheritFrom t1 t2 g1 t3 g2 t4 he sp .noBind) g3
      inn
      rcases hc with h1 | h1
      · lift2! (mk_hole g2 i2 h1 hp hn), (.inheritFrom (syn e) (synL ns) :: synL bs), (synL ns), es, rfl
        exact ⟨_, (sw! [syn e], []).list.left (synL bs), .inheritFrom (T2! t1) (T2! t2) (S! g1) (T2! t3) g' t4 g3.toG, trivial⟩
      · rw [h1] at hp
        lift2! (mk_hole g1 i1 (by simp) hp hn), (.inheritFrom (syn e) (synL ns) :: synL bs), [syn e], es, rfl
        one!
        exact ⟨_, (sw! [], (synL ns)).list.left (synL bs), .inheritFrom (T2! t1) (T2! t2) g' t3 g2.toG t4 g3.toG, trivial⟩
    · lift2! (mk_hole g3 i3 h1 hp hn), (.inheritFrom (syn e) (synL ns) :: synL bs), (synL bs), es, rfl
      exact ⟨_, sl.right [.inheritFrom (syn e) (synL ns)], .inheritFrom (T2! t1) (T2! t2) (S! g1) (T2! t3) (S! g2) (T2! t4) g', trivial⟩
  | argName => enter; inn
  | @argAt r v r1 v1 r2 fs r' h h' hf t1 t2 g sp sp2 i =>
    enter
    inn
    lift! (mk_hole g i hc hp hn), [.argBoth v (synL fs)], (synL fs)
    exact ⟨_, (sw! [], []).list, .argAt (T2! t1) (T2! t2) g', trivial⟩
  | @argSet r fs r' h hf g hh sp i =>
    enter
    inn
    lift! (mk_hole g i hc hp hn), [.argSet (synL fs)], (synL fs)
    exact ⟨_, (sw! [], []).list, .argSet g' (head_shape (head_synL (P := fun f => hasComma f = false) hh) ks), trivial⟩
  | @atArg r fs r1 v1 r2 v r' h h' hf g hh t1 t2 sp sp2 i =>
    enter
    inn
    lift! (mk_hole g i hc hp hn), [.argBoth v (synL fs)], (synL fs)
    exact ⟨_, (sw! [], []).list, .atArg g' (head_shape (head_synL (P := fun f => hasComma f = false) hh) ks) t1 t2, trivial⟩
  | @formals r v1 r1 fs r2 v2 r' t1 g t2 hf i =>
    intro m hm n hp hn
    right
    lift! (mk_hole g i hm hp hn), (synL fs), (synL fs)
    exact ⟨_, sl, .formals (T2! t1) g' t2 (hf.shape ks), ks⟩
  | noMember => intro m hm; cases hm
  | @members r e r1 es r' g1 sp g2 i1 i2 =>
    intro m hm n hp hn
    right
    rcases List.mem_cons.mp hm with h1 | h1
    · rw [h1] at hp
      lift! (mk_hole g1 i1 (by simp) hp hn), (syn e :: synL es), [syn e]
      one!
      exact ⟨_, sl.left (synL es), .members g' g2.toG, by unfold Keeps at ks ⊢; simp at ks ⊢; exact ks⟩
    · lift! (mk_hole g2 i2 h1 hp hn), (syn e :: synL es), (synL es)
      exact ⟨_, sl.right [syn e], .members (S! g1) g', by unfold Keeps at ks ⊢; simpa using ks⟩
  | @plain r f r' g hf i =>
    intro m hm n hp hn
    right
    lift! (mk_hole g i hm hp hn), [syn f], [syn f]
    one!
    refine ⟨_, sl, .plain g' (fun h => ?_), ks⟩
    unfold Keeps at ks
    simp at ks
    exact hf ((shape_facts ks).2.2.mp h)
  | @comma r v r1 f r' t1 g i =>
    intro m hm n hp hn
    right
    lift! (mk_hole g i hm hp hn), [syn f], [syn f]
    one!
    exact ⟨_, sl, .comma (T2! t1) g', ks⟩
  | formal => enter'; inn; rw [hc] at hp; exact (part_null hp hn).elim
  | @formalOr c0 r v r1 v1 r2 d r' h cm h' t1 t2 g hd0 hc0 sp i =>
    enter'
    inn
    rw [hc] at hp
    have es : (NK.afterComma c0).syns [.formal h cm (.identifier h' v) d .null] = [.formalOr c0 v (syn d)] := by
      show [syn _] = _
      rw [syn_formalOr hd0, hc0]
    lift2! (mk_hole g i (by simp) hp hn), [.formalOr c0 v (syn d)], [syn d], es, rfl
    one!
    exact ⟨_, (sw! [], []).list, .formalOr (T2! t1) (T2! t2) g', by unfold Keeps; simp [shape]⟩
  | ellipsis => enter'; inn; rw [hc] at hp; exact (part_null hp hn).elim
  | lone => enter'; inn; rw [hc] at hp; exact (part_null hp hn).elim
  | close => intro _ m hm; cases hm
  | @esc R r n t l r' h1 h2 g i =>
    intro hR m hm n' hp hn
    right
    have hm : m ∈ l := (List.mem_append.mp hm).resolve_left fun h => part_chars h hp hn
    refine Hole.lift (mk_hole g (i hR) hm hp hn) (t.map .ch ++ l.map synP) (l.map synP) (by show List.map synP _ = _; rw [List.map_append, synP_chars]) rfl
      (List.drop_suffix _ _) (List.suffix_refl _) (by odd!) (by callee!) (by base!) ?_ ?_
    · intro x hx hd
      have hd : x.length + 2 ≤ (r.drop n).length := hd
      show x.length + 2 ≤ r.length
      rw [List.length_drop] at hd; omega
    · intro P x y u' lc' Q hy hx hd hr ho hcal sl g' ks
      have hd : x.length + 2 ≤ (r.drop n).length := hd
      obtain ⟨e1, e2, e3⟩ := sw_drop (y := y) hx h2
      refine ⟨_, sl.right _, .esc ?_ e3 (by rw [e1]; exact g'), trivial⟩
      obtain ⟨a, ha⟩ := hx.trans (List.drop_suffix _ _)
      rw [← ha, sw_app]
      rw [← ha] at h1
      refine esc_swap hR h1 ?_ y
      have := congrArg List.length ha
      rw [List.length_drop] at hd
      simp only [List.length_append] at this
      omega
  | @char R c r l r' h1 h2 h3 g i =>
    intro hR m hm n' hp hn
    right
    have hm : m ∈ l := by
      rcases List.mem_cons.mp hm with h | h
      · rw [h] at hp; exact (part_text hp hn).elim
      · exact h
    refine Hole.lift (mk_hole g (i hR) hm hp hn) (.ch c :: l.map synP) (l.map synP) rfl rfl
      (List.suffix_cons _ _) (List.suffix_refl _) (by odd!) (by callee!) (by base!) ?_ ?_
    · intro x hx hd
      have hd : x.length + 2 ≤ r.length := hd
      show x.length + 2 ≤ (c :: r).length
      simp; omega
    · intro P x y u' lc' Q hy hx hd hr ho hcal sl g' ks
      have hd : x.length + 2 ≤ r.length := hd
      rw [sw_cons _ hx]
      obtain ⟨a, rfl⟩ := hx
      rw [sw_app] at g' ⊢
      rw [List.length_append] at hd
      obtain ⟨h5, h6⟩ := char_swap hR h2 h3 (by rcases hR with rfl | rfl <;> simp [dqCode, indCode] <;> omega) y
      exact ⟨_, sl.right [.ch c], .char h1 h5 h6 g', trivial⟩
  | @dollar R r l r' h1 g i =>
    intro hR m hm n' hp hn
    right
    have hm : m ∈ l := (List.mem_append.mp hm).resolve_left fun h => part_chars h hp hn
    refine Hole.lift (mk_hole g (i hR) hm hp hn) (((36 :: r).take (R.dollar (36 :: r))).map .ch ++ l.map synP) (l.map synP)
      (by show List.map synP _ = _; rw [List.map_append, synP_chars]) rfl
      (List.drop_suffix _ _) (List.suffix_refl _) (by odd!) (by callee!) (by base!) ?_ ?_
    · intro x hx hd
      have hd : x.length + 2 ≤ ((36 :: r).drop (R.dollar (36 :: r))).length := hd
      show x.length + 2 ≤ (36 :: r).length
      rw [List.length_drop] at hd; omega
    · intro P x y u' lc' Q hy hx hd hr ho hcal sl g' ks
      have hd : x.length + 2 ≤ ((36 :: r).drop (R.dollar (36 :: r))).length := hd
      have hl : R.dollar (36 :: r) ≤ (36 :: r).length := by rw [List.length_drop] at hd; omega
      obtain ⟨e1, e2, e3⟩ := sw_drop (y := y) hx hl
      have hx2 : x <:+ r := by
        refine hx.trans ?_
        obtain ⟨d, hd⟩ : ∃ d, R.dollar (36 :: r) = d + 1 := ⟨R.dollar (36 :: r) - 1, by omega⟩
        rw [hd, List.drop_succ_cons]
        exact List.drop_suffix _ _
      have hD : R.dollar (36 :: sw x y r) = R.dollar (36 :: r) := by
        obtain ⟨a, rfl⟩ := hx2
        rw [sw_app]
        have : 2 ≤ a.length := by
          rw [List.length_drop] at hd
          simp only [List.length_cons, List.length_append] at hd
          omega
        rcases hR with rfl | rfl <;> exact (codeDollars_swap this).symm
      rw [sw_cons _ hx2] at e1 e2 ⊢
      have h7 := G.dollar (R := R) (r := sw x y r) (l := lc') (r' := r') (by rw [hD]; exact h1) (by rw [hD, e1]; exact g')
      rw [hD, e2] at h7
      exact ⟨_, sl.right _, h7, trivial⟩
  | @interp R r e r1 v r2 l r' h h1 g1 t1 g2 p1 p2 i1 i2 =>
    intro hR m hm n hp hn
    right
    have hrr : r <:+ 36 :: 123 :: r := (List.suffix_cons _ _).trans (List.suffix_cons _ _)
    rcases List.mem_cons.mp hm with h2 | h2
    · rw [h2] at hp
      rcases hp.split with rfl | ⟨cc, hc, hp⟩
      · cases hn
      inn
      rw [hc] at hp
      refine Hole.lift (mk_hole g1 i1 (by simp) hp hn) (.interp (syn e) :: l.map synP) [syn e] rfl rfl hrr (by walk2) (by odd!) (by callee!) (by base!) ?_ ?_
      · intro x hx _
        have := hx.length_le
        show x.length + 2 ≤ (36 :: 123 :: r).length
        simp; omega
      · intro P x y u' lc' Q hy hx hd hr ho hcal sl g' ks
        one!
        rw [sw_cons _ (hx.trans (List.suffix_cons _ _)), sw_cons _ hx]
        exact ⟨_, (sw! [], []).list.left (l.map synP), .interp (by rcases hR with rfl | rfl <;> rfl) g' t1 g2.toG, trivial⟩
    · refine Hole.lift (mk_hole g2 (i2 hR) h2 hp hn) (.interp (syn e) :: l.map synP) (l.map synP) rfl rfl
        (((by walk2 : r2 <:+ r)).trans hrr) (List.suffix_refl _) (by odd!) (by callee!) (by base!) ?_ ?_
      · intro x hx _
        have := (hx.trans (by walk2 : r2 <:+ r)).length_le
        show x.length + 2 ≤ (36 :: 123 :: r).length
        simp; omega
      · intro P x y u' lc' Q hy hx hd hr ho hcal sl g' ks
        have hr := hrr.trans hr
        simp [odd, oddL] at ho
        have hx2 : x <:+ r := hx.trans (by walk2)
        rw [sw_cons _ (hx2.trans (List.suffix_cons _ _)), sw_cons _ hx2]
        exact ⟨_, sl.right [.interp (syn e)], .interp (by rcases hR with rfl | rfl <;> rfl) (S! g1) (T2! t1) g', trivial⟩
  | pend =>
    intro m hm n hp hn
    exact (part_chars hm hp hn).elim
  | @pinterp r k v r1 v1 r2 e r3 v2 r4 l r' h t1 t2 g1 t3 g2 i1 i2 =>
    intro m hm n hp hn
    right
    have hlen := t2.ne (by decide)
    have h2 : r2.length + 2 = r1.length := by
      have := congrArg List.length (tokP_pure.mp t2).2
      rw [t2.dollar] at this
      simp at this; omega
    rcases List.mem_append.mp hm with h3 | h3
    · exact (part_chars h3 hp hn).elim
    have es : NK.pbody.syns (chars v ++ .interpolation h e :: l) = v.map .ch ++ .interp (syn e) :: l.map synP := by
      show List.map synP _ = _
      rw [List.map_append, synP_chars]; rfl
    rcases List.mem_cons.mp h3 with h3 | h3
    · rw [h3] at hp
      rcases hp.split with rfl | ⟨cc, hc, hp⟩
      · cases hn
      inn
      rw [hc] at hp
      refine Hole.lift (mk_hole g1 i1 (by simp) hp hn) (v.map .ch ++ .interp (syn e) :: l.map synP) [syn e] es rfl (by walk2) (by walk2) (by odd!) (by callee!) (by base!) ?_ ?_
      · intro x hx _
        have := hx.length_le
        exact ⟨_, _, _, t1, hx.trans t2.suf, by omega⟩
      · intro P x y u' lc' Q hy hx hd hr ho hcal sl g' ks
        one!
        have hlx := hx.length_le
        have hl1 := t1.suf.length_le
        refine ⟨_, ((sw! [], []).list.left (l.map synP)).right (v.map .ch),
          .pinterp (swP hy t1 (hx.trans t2.suf) hr (.inl ?_)) (swP hy t2 hx (t1.suf.trans hr) (.inl ?_)) g' t3 g2.toG, trivial⟩
        · rintro rfl; omega
        · rintro rfl; omega
    · refine Hole.lift (mk_hole g2 i2 h3 hp hn) (v.map .ch ++ .interp (syn e) :: l.map synP) (l.map synP) es rfl (by walk2) (List.suffix_refl _) (by odd!) (by callee!) (by base!) ?_ ?_
      · intro x hx _
        have hx2 : x <:+ r2 := hx.trans (by walk2)
        have := hx2.length_le
        exact ⟨_, _, _, t1, hx2.trans t2.suf, by omega⟩
      · intro P x y u' lc' Q hy hx hd hr ho hcal sl g' ks
        rw [oddL_append] at ho
        simp [odd, oddL] at ho
        have hx2 : x <:+ r2 := hx.trans (by walk2)
        have hlx := hx2.length_le
        have hl1 := t1.suf.length_le
        have sl' := (sl.right [.interp (syn e)]).right (v.map .ch)
        refine ⟨_, sl',
          .pinterp (swP hy t1 (hx2.trans t2.suf) hr (.inl ?_)) (swP hy t2 hx2 (t1.suf.trans hr) (.inl ?_)) (S! g1) (T2! t3) g', trivial⟩
        · rintro rfl; omega
        · rintro rfl; omega
  | @ptext r k v r1 k1 v1 r2 l r' t1 t2 n1 n2 g i =>
    intro m hm n hp hn
    right
    have hm : m ∈ l := (List.mem_append.mp hm).resolve_left fun h => part_chars h hp hn
    have es : NK.pbody.syns (chars v ++ l) = v.map .ch ++ l.map synP := by
      show List.map synP _ = _
      rw [List.map_append, synP_chars]
    refine Hole.lift (mk_hole g i hm hp hn) (v.map .ch ++ l.map synP) (l.map synP) es rfl t1.suf (List.suffix_refl _) (by odd!) (by callee!) (by base!) ?_ ?_
    · intro x hx hd
      obtain ⟨k', v', r2', t2', h1, h2⟩ := hd
      have := t2'.suf.length_le
      exact ⟨_, _, _, t1, hx, by omega⟩
    · intro P x y u' lc' Q hy hx hd hr ho hcal sl g' ks
      obtain ⟨k', v', r2', t2', h1, h2⟩ := hd
      have := (TokP.eq t2 t2').2.2
      subst this
      have hlen := t2.suf.length_le
      have hl1 := t1.suf.length_le
      refine ⟨_, sl.right (v.map .ch), .ptext (swP hy t1 hx hr (.inl ?_)) (swP hy t2 h1 (t1.suf.trans hr) (.inl ?_)) n1 n2 g', trivial⟩
      · rintro rfl; omega
      · rintro rfl; omega

end Verif.Nixf.Syntax
