import Verif.Lemmas.Prec
/-
From binding powers to the table of the manual, and why conflicting operators have no grouping at all.
-/
namespace Verif.Nixf.Prec
open Tr

/-- The items for which the binding powers of the code agree with the table. -/
structure Documented (is : List Item) : Prop where
  noDiv : .bin .op_div ∉ is
  noPipeInto : .bin .op_pipe_into ∉ is
  noPipeFrom : .bin .op_pipe_from ∉ is
  notUpdate : ¬ (.un .op_not ∈ is ∧ .bin .op_update ∈ is)
  negateHas : ¬ (.un .op_negate ∈ is ∧ ∃ p, .has p ∈ is)
  hasHas : ∀ a p q b, is ≠ a ++ .has p :: .has q :: b

theorem Documented.sub {is a b c : List Item} (h : Documented is) (e : is = a ++ b ++ c) : Documented b := by
  subst e
  refine ⟨fun h' => h.noDiv (by simp [h']), fun h' => h.noPipeInto (by simp [h']), fun h' => h.noPipeFrom (by simp [h']),
    fun ⟨h1, h2⟩ => h.notUpdate ⟨by simp [h1], by simp [h2]⟩, fun ⟨h1, p, h2⟩ => h.negateHas ⟨by simp [h1], p, by simp [h2]⟩, ?_⟩
  rintro x p q y rfl
  exact h.hasHas (a ++ x) p q (y ++ c) (by simp)

/-- The item of an operator. -/
def OprIn (o : Opr) (is : List Item) : Prop :=
  match o with
  | .bin k => .bin k ∈ is
  | .un k => .un k ∈ is
  | .has => ∃ p, .has p ∈ is

theorem OprIn.append_left {o a b} (h : OprIn o a) : OprIn o (a ++ b) := by
  cases o with
  | has => obtain ⟨p, h⟩ := h; exact ⟨p, by simp [h]⟩
  | _ => simp only [OprIn] at *; simp [h]
theorem OprIn.append_right {o a b} (h : OprIn o b) : OprIn o (a ++ b) := by
  cases o with
  | has => obtain ⟨p, h⟩ := h; exact ⟨p, by simp [h]⟩
  | _ => simp only [OprIn] at *; simp [h]

theorem mem_left {t : Tr} {o : Opr} (h : o ∈ leftSpine t) : OprIn o t.yield := by
  induction t with
  | leaf | un => simp [leftSpine] at h
  | bin k l r ihl _ =>
    rcases List.mem_cons.mp h with rfl | h
    · simp [OprIn, Tr.yield]
    · exact (ihl h).append_left
  | has e p ih =>
    rcases List.mem_cons.mp h with rfl | h
    · exact ⟨p, by simp [Tr.yield]⟩
    · exact (ih h).append_left

theorem mem_right {t : Tr} {o : Opr} (h : o ∈ rightSpine t) : OprIn o t.yield := by
  induction t with
  | leaf | has => simp [rightSpine] at h
  | bin k l r _ ihr =>
    rcases List.mem_cons.mp h with rfl | h
    · simp [OprIn, Tr.yield]
    · exact (OprIn.append_right (a := [.bin k]) (ihr h)).append_right
  | un k e ih =>
    rcases List.mem_cons.mp h with rfl | h
    · simp [OprIn, Tr.yield]
    · exact OprIn.append_right (a := [.un k]) (ih h)

/-- Operators whose binding powers agree with the table. -/
def plain : TK → Bool
  | .op_impl | .op_or | .op_and | .op_eq | .op_neq | .op_lt | .op_le | .op_ge | .op_gt | .op_update | .op_add | .op_negate
  | .op_mul | .op_concat => true
  | _ => false

/-- The table of a plain operator in terms of its binding powers. -/
theorem plain_table {k : TK} (h : plain k = true) : ∃ l a, table (.bin k) = some (l, a) ∧
    (l, a, lbp (.bin k), rbp (.bin k)) ∈ [(2, .right, 4, 3), (3, .left, 5, 6), (4, .left, 7, 8), (5, .non, 9, 9), (6, .non, 10, 10),
       (7, Assoc.right, 12, 11), (9, .left, 14, 15), (10, .left, 16, 17), (11, .right, 19, 18)] := by
  cases k <;> first | (simp [plain] at h; done) | exact ⟨_, _, rfl, by decide⟩

theorem plain_of {k : TK} {is : List Item} (hd : Documented is) (hk : (getBP k).isSome) (h : .bin k ∈ is) : plain k = true := by
  cases k <;> first
    | rfl
    | (simp [getBP] at hk; done)
    | exact absurd h hd.noDiv
    | exact absurd h hd.noPipeInto
    | exact absurd h hd.noPipeFrom

theorem leftOk_bin {a b : TK} (ha : plain a = true) (hb : plain b = true) (h : lbp (.bin b) < rbp (.bin a)) :
    LeftOk (.bin a) (.bin b) := by
  obtain ⟨la, aa, h1, h2⟩ := plain_table ha
  obtain ⟨lb, ab, h3, h4⟩ := plain_table hb
  refine ⟨la, aa, lb, ab, h1, h3, ?_⟩
  generalize lbp (.bin a) = x at *; generalize rbp (.bin a) = y at *; generalize lbp (.bin b) = z at *
  generalize rbp (.bin b) = w at *
  simp only [List.mem_cons, Prod.mk.injEq, List.not_mem_nil, or_false] at h2 h4
  rcases h2 with ⟨rfl, rfl, rfl, rfl⟩ | ⟨rfl, rfl, rfl, rfl⟩ | ⟨rfl, rfl, rfl, rfl⟩ | ⟨rfl, rfl, rfl, rfl⟩ | ⟨rfl, rfl, rfl, rfl⟩ |
    ⟨rfl, rfl, rfl, rfl⟩ | ⟨rfl, rfl, rfl, rfl⟩ | ⟨rfl, rfl, rfl, rfl⟩ | ⟨rfl, rfl, rfl, rfl⟩ <;>
  rcases h4 with ⟨rfl, rfl, rfl, rfl⟩ | ⟨rfl, rfl, rfl, rfl⟩ | ⟨rfl, rfl, rfl, rfl⟩ | ⟨rfl, rfl, rfl, rfl⟩ | ⟨rfl, rfl, rfl, rfl⟩ |
    ⟨rfl, rfl, rfl, rfl⟩ | ⟨rfl, rfl, rfl, rfl⟩ | ⟨rfl, rfl, rfl, rfl⟩ | ⟨rfl, rfl, rfl, rfl⟩ <;>
  revert h <;> decide

theorem rightOk_bin {a b : TK} (ha : plain a = true) (hb : plain b = true) (h : rbp (.bin a) < lbp (.bin b)) :
    RightOk (.bin a) (.bin b) := by
  obtain ⟨la, aa, h1, h2⟩ := plain_table ha
  obtain ⟨lb, ab, h3, h4⟩ := plain_table hb
  refine ⟨la, aa, lb, ab, h1, h3, ?_⟩
  generalize lbp (.bin a) = x at *; generalize rbp (.bin a) = y at *; generalize lbp (.bin b) = z at *
  generalize rbp (.bin b) = w at *
  simp only [List.mem_cons, Prod.mk.injEq, List.not_mem_nil, or_false] at h2 h4
  rcases h2 with ⟨rfl, rfl, rfl, rfl⟩ | ⟨rfl, rfl, rfl, rfl⟩ | ⟨rfl, rfl, rfl, rfl⟩ | ⟨rfl, rfl, rfl, rfl⟩ | ⟨rfl, rfl, rfl, rfl⟩ |
    ⟨rfl, rfl, rfl, rfl⟩ | ⟨rfl, rfl, rfl, rfl⟩ | ⟨rfl, rfl, rfl, rfl⟩ | ⟨rfl, rfl, rfl, rfl⟩ <;>
  rcases h4 with ⟨rfl, rfl, rfl, rfl⟩ | ⟨rfl, rfl, rfl, rfl⟩ | ⟨rfl, rfl, rfl, rfl⟩ | ⟨rfl, rfl, rfl, rfl⟩ | ⟨rfl, rfl, rfl, rfl⟩ |
    ⟨rfl, rfl, rfl, rfl⟩ | ⟨rfl, rfl, rfl, rfl⟩ | ⟨rfl, rfl, rfl, rfl⟩ | ⟨rfl, rfl, rfl, rfl⟩ <;>
  revert h <;> decide

/-- `a` is a prefix operator. -/
theorem leftOk_un {a b : TK} (ha : a = .op_not ∨ a = .op_negate) (hb : plain b = true) (h : lbp (.bin b) < rbp (.un a)) :
    LeftOk (.un a) (.bin b) := by
  obtain ⟨lb, ab, h3, h4⟩ := plain_table hb
  generalize lbp (.bin b) = z at *; generalize rbp (.bin b) = w at *
  simp only [List.mem_cons, Prod.mk.injEq, List.not_mem_nil, or_false] at h4
  rcases ha with rfl | rfl
  · refine ⟨8, .left, lb, ab, rfl, h3, ?_⟩
    have h : z < 11 := h
    omega
  · refine ⟨13, .left, lb, ab, rfl, h3, ?_⟩
    omega

theorem getBP_un (t : Tr) : BGrouped t → ∀ o ∈ rightSpine t, (∃ k, o = .bin k ∧ (getBP k).isSome) ∨
    (∃ k, o = .un k ∧ (k = .op_not ∨ k = .op_negate)) := by
  induction t with
  | leaf | has => intro _ o ho; simp [rightSpine] at ho
  | bin k l r _ ihr =>
    rintro ⟨h1, -, -, -, h5⟩ o ho
    rcases List.mem_cons.mp ho with rfl | ho
    · exact .inl ⟨k, rfl, h1⟩
    · exact ihr h5 o ho
  | un k e ih =>
    rintro ⟨h1, -, h3⟩ o ho
    rcases List.mem_cons.mp ho with rfl | ho
    · exact .inr ⟨k, rfl, h1⟩
    · exact ih h3 o ho

theorem getBP_left (t : Tr) : BGrouped t → ∀ o ∈ leftSpine t, o = .has ∨ (o ∈ leftBins t ∧ ∃ k, o = .bin k ∧ (getBP k).isSome) := by
  induction t with
  | leaf | un => intro _ o ho; simp [leftSpine] at ho
  | bin k l r ihl _ =>
    rintro ⟨h1, -, -, h4, -⟩ o ho
    rcases List.mem_cons.mp ho with rfl | ho
    · exact .inr ⟨mem_leftBins_bin.mpr (.inl rfl), k, rfl, h1⟩
    · exact (ihl h4 o ho).imp id fun h => ⟨mem_leftBins_bin.mpr (.inr h.1), h.2⟩
  | has e p ih =>
    rintro ⟨-, h2⟩ o ho
    rcases List.mem_cons.mp ho with rfl | ho
    · exact .inl rfl
    · exact (ih h2 o ho).imp id fun h => ⟨by rw [leftBins_has]; exact h.1, h.2⟩

/-- The grouping by binding powers is the one of the table, for the items for which they agree. -/
theorem grouped_of_bp (t : Tr) : BGrouped t → Documented t.yield → Grouped t := by
  induction t with
  | leaf n => intro _ _; trivial
  | bin k l r ihl ihr =>
    rintro ⟨h1, h2, h3, h4, h5⟩ hd
    have dl : Documented l.yield := hd.sub (a := []) (c := .bin k :: r.yield) (by simp [Tr.yield])
    have dr : Documented r.yield := hd.sub (a := l.yield ++ [.bin k]) (c := []) (by simp [Tr.yield])
    have pk := plain_of hd h1 (by simp [Tr.yield])
    refine ⟨?_, ?_, ihl h4 dl, ihr h5 dr⟩
    · intro o ho
      rcases getBP_un l h4 o ho with ⟨k', rfl, hk'⟩ | ⟨k', rfl, hk'⟩
      · exact leftOk_bin (plain_of dl hk' (mem_right ho)) pk (h2 _ ho)
      · exact leftOk_un hk' pk (h2 _ ho)
    · intro o ho
      rcases getBP_left r h5 o ho with rfl | ⟨ho', k', rfl, hk'⟩
      · obtain ⟨lk, ak, e1, e2⟩ := plain_table pk
        refine ⟨lk, ak, 12, .non, e1, rfl, .inl ?_⟩
        simp only [List.mem_cons, Prod.mk.injEq, List.not_mem_nil, or_false] at e2
        omega
      · exact rightOk_bin pk (plain_of dr hk' (mem_left ho)) (h3 _ ho')
  | un k e ih =>
    rintro ⟨h1, h2, h3⟩ hd
    have de : Documented e.yield := hd.sub (a := [.un k]) (c := []) (by simp [Tr.yield])
    refine ⟨?_, ih h3 de⟩
    intro o ho
    rcases h1 with rfl | rfl
    · rcases getBP_left e h3 o ho with rfl | ⟨ho', k', rfl, hk'⟩
      · exact ⟨8, .left, 12, .non, rfl, rfl, .inl (by decide)⟩
      · have pk' := plain_of de hk' (mem_left ho)
        obtain ⟨lk, ak, e1, e2⟩ := plain_table pk'
        refine ⟨8, .left, lk, ak, rfl, e1, .inl ?_⟩
        have hlt : 11 < lbp (.bin k') := h2 _ ho'
        have hu : k' ≠ .op_update := by
          rintro rfl
          have hm : OprIn (.bin .op_update) e.yield := mem_left ho
          simp only [OprIn] at hm
          exact hd.notUpdate ⟨by simp [Tr.yield], by simp [Tr.yield, hm]⟩
        have h7 : lk ≠ 7 := by
          rintro rfl
          cases k' <;> first | (simp [plain] at pk'; done) | exact hu rfl | (simp [table] at e1; done)
        simp only [List.mem_cons, Prod.mk.injEq, List.not_mem_nil, or_false] at e2
        omega
    · rcases getBP_left e h3 o ho with rfl | ⟨ho', k', rfl, hk'⟩
      · obtain ⟨p, hp⟩ := mem_left ho
        exact absurd ⟨by simp [Tr.yield], p, by simp [Tr.yield, hp]⟩ hd.negateHas
      · have hlt : 100 < lbp (.bin k') := h2 _ ho'
        obtain ⟨p, hp⟩ := Option.isSome_iff_exists.mp hk'
        have := lb_vals hp
        rw [(lbp_of hp).1] at hlt
        simp only [List.mem_cons, List.not_mem_nil, or_false] at this
        omega
  | has e p ih =>
    rintro ⟨h1, h2⟩ hd
    cases e with
    | leaf n => exact ⟨by simp [leftSpine], by simp [rightSpine], trivial⟩
    | has e' q => exact absurd (by simp [Tr.yield]) (hd.hasHas e'.yield q p [])
    | bin => simp [isPost] at h1
    | un => simp [isPost] at h1

/-! ### Conflicts -/

/-- The level of an item. -/
def lev (o : Opr) : Nat := ((table o).getD (0, .non)).1

/-- All operators of `is` are in the table at a level larger than `l`. -/
def Above (l : Nat) (is : List Item) : Prop := ∀ o, OprIn o is → l < lev o

theorem Above.left {l a b} (h : Above l (a ++ b)) : Above l a := fun o ho => h o ho.append_left
theorem Above.right {l a b} (h : Above l (a ++ b)) : Above l b := fun o ho => h o ho.append_right

theorem lev_of {o : Opr} {l a} (h : table o = some (l, a)) : lev o = l := by simp [lev, h]

theorem RightOk.lev {a b : Opr} (h : RightOk a b) : lev a ≤ lev b := by
  obtain ⟨la, aa, lb, ab, h1, h2, h3⟩ := h
  rw [lev_of h1, lev_of h2]; omega
theorem LeftOk.lev {a b : Opr} (h : LeftOk a b) : lev b ≤ lev a := by
  obtain ⟨la, aa, lb, ab, h1, h2, h3⟩ := h
  rw [lev_of h1, lev_of h2]; omega

/-- If everything in front of an operator binds tighter, the operator is at the left end of the tree. -/
theorem in_left (t : Tr) : ∀ x o b, Grouped t → t.yield = x ++ .bin o :: b → Above (lev (.bin o)) x → .bin o ∈ leftSpine t := by
  induction t with
  | leaf n =>
    intro x o b _ he
    rcases cons_split he with ⟨-, h, -⟩ | ⟨c', -, h⟩
    · cases h
    · simp at h
  | bin k l r ihl ihr =>
    rintro x o b ⟨g1, g2, g3, g4⟩ he ha
    rcases append_split he with ⟨d', h1, -⟩ | ⟨c', rfl, h2⟩
    · exact List.mem_cons_of_mem _ (ihl x o d' g3 h1 ha)
    · rcases cons_split h2 with ⟨-, h, -⟩ | ⟨c2, rfl, h⟩
      · cases h; simp [leftSpine]
      · have hm := ihr c2 o b g4 h (Above.right (a := l.yield ++ [.bin k]) (by simpa using ha))
        have h1 := (g2 _ hm).lev
        have h2 := ha (.bin k) (by simp [OprIn])
        omega
  | un k e ih =>
    rintro x o b ⟨g1, g2⟩ he ha
    rcases cons_split he with ⟨-, h, -⟩ | ⟨c', rfl, h⟩
    · cases h
    · have hm := ih c' o b g2 h (Above.right (a := [.un k]) (by simpa using ha))
      have h1 := (g1 _ hm).lev
      have h2 := ha (.un k) (by simp [OprIn])
      omega
  | has e p ih =>
    rintro x o b ⟨-, g1, g2⟩ he ha
    rcases append_split he with ⟨d', h1, -⟩ | ⟨c', rfl, h2⟩
    · exact List.mem_cons_of_mem _ (ih x o d' g2 h1 ha)
    · rcases cons_split h2 with ⟨-, h, -⟩ | ⟨c2, -, h⟩
      · cases h
      · simp at h

/-- If everything after an operator binds tighter, the operator is at the right end of the tree. -/
theorem in_right (t : Tr) : ∀ a o x, Grouped t → t.yield = a ++ .bin o :: x → Above (lev (.bin o)) x → .bin o ∈ rightSpine t := by
  induction t with
  | leaf n =>
    intro x o b _ he
    rcases cons_split he with ⟨-, h, -⟩ | ⟨c', -, h⟩
    · cases h
    · simp at h
  | bin k l r ihl ihr =>
    rintro a o x ⟨g1, g2, g3, g4⟩ he ha
    rcases append_split he with ⟨d', h1, rfl⟩ | ⟨c', rfl, h2⟩
    · have hm := ihl a o d' g3 h1 ha.left
      have h1 := (g1 _ hm).lev
      have h2 := ha (.bin k) (by simp [OprIn])
      omega
    · rcases cons_split h2 with ⟨-, h, -⟩ | ⟨c2, rfl, h⟩
      · cases h; simp [rightSpine]
      · exact List.mem_cons_of_mem _ (ihr c2 o x g4 h ha)
  | un k e ih =>
    rintro a o x ⟨g1, g2⟩ he ha
    rcases cons_split he with ⟨-, h, -⟩ | ⟨c', rfl, h⟩
    · cases h
    · exact List.mem_cons_of_mem _ (ih c' o x g2 h ha)
  | has e p ih =>
    rintro a o x ⟨-, g1, g2⟩ he ha
    rcases append_split he with ⟨d', h1, rfl⟩ | ⟨c', rfl, h2⟩
    · have hm := ih a o d' g2 h1 ha.left
      have h1 := (g1 _ hm).lev
      have h2 := ha .has ⟨p, by simp⟩
      omega
    · rcases cons_split h2 with ⟨-, h, -⟩ | ⟨c2, -, h⟩
      · cases h
      · simp at h

/-- Two operators of the same level that do not associate, with only tighter ones in between, cannot be grouped. -/
theorem no_tree (t : Tr) : ∀ a o' x o b, Grouped t → t.yield = a ++ .bin o' :: (x ++ .bin o :: b) → lev (.bin o') = lev (.bin o) →
    ¬ RightOk (.bin o') (.bin o) → ¬ LeftOk (.bin o') (.bin o) → Above (lev (.bin o)) x → False := by
  induction t with
  | leaf n =>
    intro a o' x o b _ he
    rcases cons_split he with ⟨-, h, -⟩ | ⟨c', -, h⟩
    · cases h
    · simp at h
  | bin k l r ihl ihr =>
    rintro a o' x o b ⟨g1, g2, g3, g4⟩ he hlev hr hl ha
    rcases append_split he with ⟨d', h1, h2⟩ | ⟨c', rfl, h2⟩
    · -- `o'` is in the left operand
      rcases append_split h2.symm with ⟨d2, rfl, h3⟩ | ⟨c2, rfl, h3⟩
      · exact ihl a o' x o d2 g3 h1 hlev hr hl ha
      · rcases cons_split h3 with ⟨rfl, h, -⟩ | ⟨c3, rfl, h⟩
        · cases h
          exact hl (g1 _ (in_right l a o' d' g3 h1 (by rw [hlev]; simpa using ha)))
        · have hm := in_right l a o' d' g3 h1 (by rw [hlev]; exact ha.left)
          have h1 := (g1 _ hm).lev
          have h2 := ha (.bin k) (by simp [OprIn])
          omega
    · rcases cons_split h2 with ⟨rfl, h, h3⟩ | ⟨c2, rfl, h⟩
      · cases h
        exact hr (g2 _ (in_left r x o b g4 h3 ha))
      · exact ihr c2 o' x o b g4 h hlev hr hl ha
  | un k e ih =>
    rintro a o' x o b ⟨g1, g2⟩ he hlev hr hl ha
    rcases cons_split he with ⟨-, h, -⟩ | ⟨c', rfl, h⟩
    · cases h
    · exact ih c' o' x o b g2 h hlev hr hl ha
  | has e p ih =>
    rintro a o' x o b ⟨-, g1, g2⟩ he hlev hr hl ha
    rcases append_split he with ⟨d', h1, h2⟩ | ⟨c', rfl, h2⟩
    · rcases append_split h2.symm with ⟨d2, rfl, h3⟩ | ⟨c2, rfl, h3⟩
      · exact ih a o' x o d2 g2 h1 hlev hr hl ha
      · rcases cons_split h3 with ⟨-, h, -⟩ | ⟨c3, -, h⟩
        · cases h
        · simp at h
    · rcases cons_split h2 with ⟨-, h, -⟩ | ⟨c2, -, h⟩
      · cases h
      · simp at h

end Verif.Nixf.Prec
