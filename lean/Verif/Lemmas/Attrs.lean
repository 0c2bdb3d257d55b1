import Verif.Spec.Attrs
import Verif.Lemmas.IdsParse
/-
Attribute sets: what the semantic actions on bindings do to the content of a set.
-/
namespace Verif.Nixf.Attrs

/-- No set. -/
def notSet (v : Node) : Prop := ∀ h b r st dy, v ≠ .exprAttrs h b r st dy

/-- The static attributes of a set as they are made by the semantic actions: names are distinct, inherited attributes are no sets. -/
inductive SetOk : Node → Prop
  | leaf (v) : notSet v → SetOk v
  | set (h b r st dy) : (st.map attrName).Nodup →
      (∀ a ∈ st, ∃ n k v kd, a = .attr n k v kd ∧ (kd ≠ .plain → notSet v)) →
      (∀ a ∈ st, SetOk (attrValue a)) → SetOk (.exprAttrs h b r st dy)

structure StOk (st : List Node) : Prop where
  nodup : (st.map attrName).Nodup
  shape : ∀ a ∈ st, ∃ n k v kd, a = .attr n k v kd ∧ (kd ≠ .plain → notSet v)
  vals : ∀ a ∈ st, SetOk (attrValue a)

theorem StOk.nil : StOk [] := ⟨by simp, nofun, nofun⟩

theorem SetOk.st {h b r st dy} (hs : SetOk (.exprAttrs h b r st dy)) : StOk st := by
  cases hs with
  | leaf _ h => exact absurd rfl (h _ _ _ _ _)
  | set _ _ _ _ _ h1 h2 h3 => exact ⟨h1, h2, h3⟩

theorem StOk.set {st} (h : StOk st) (hd b r dy) : SetOk (.exprAttrs hd b r st dy) := .set _ _ _ _ _ h.1 h.2 h.3

theorem SetOk.sub {v} (h : SetOk v) : StOk (statics v) := by
  cases h with
  | leaf _ h =>
    have : statics v = [] := by
      cases v <;> first | rfl | exact absurd rfl (h _ _ _ _ _)
    rw [this]
    exact .nil
  | set _ _ _ _ _ h1 h2 h3 => exact ⟨h1, h2, h3⟩

/-! ### Searching -/

theorem find_insert {a : Node} {st : List Node} {x : Bytes} (h : findStatic (attrName a) st = none) :
    findStatic x (insertStatic a st) = if attrName a = x then some a else findStatic x st := by
  induction st with
  | nil => simp [insertStatic, findStatic, List.find?_cons]; split <;> simp_all
  | cons b bs ih =>
    have hb : attrName b ≠ attrName a := by
      intro e
      simp [findStatic, e] at h
    have hbs : findStatic (attrName a) bs = none := by
      simp only [findStatic, List.find?_cons] at h
      split at h
      · cases h
      · exact h
    rw [insertStatic]
    split
    · simp only [findStatic, List.find?_cons (a := a)]
      by_cases hx : attrName a = x
      · simp [hx]
      · rw [if_neg hx, show (attrName a == x) = false from by simpa using hx]
    · simp only [findStatic, List.find?_cons (a := b)]
      by_cases hx : attrName b = x
      · have : attrName a ≠ x := fun e => hb (hx.trans e.symm)
        simp [hx, this]
      · rw [show (attrName b == x) = false from by simpa using hx]
        simp only
        exact ih hbs

theorem mem_insertStatic {a b : Node} {st : List Node} : b ∈ insertStatic a st ↔ b = a ∨ b ∈ st := by
  induction st with
  | nil => simp [insertStatic]
  | cons c cs ih =>
    rw [insertStatic]
    split
    · simp
    · simp only [List.mem_cons, ih]
      constructor
      · rintro (h | h | h) <;> simp [h]
      · rintro (h | h | h) <;> simp [h]

theorem perm_insertStatic (a : Node) (st : List Node) : (insertStatic a st).Perm (a :: st) := by
  induction st with
  | nil => exact .refl _
  | cons c cs ih =>
    rw [insertStatic]
    split
    · exact .refl _
    · exact (List.Perm.cons c ih).trans (.swap _ _ _)

theorem find_none {x : Bytes} {st : List Node} : findStatic x st = none ↔ x ∉ st.map attrName := by
  simp only [findStatic, List.find?_eq_none, List.mem_map, not_exists, not_and, beq_iff_eq]

theorem find_name {x : Bytes} {st : List Node} {a : Node} (h : findStatic x st = some a) : attrName a = x ∧ a ∈ st :=
  ⟨by simpa using List.find?_some h, List.mem_of_find?_eq_some h⟩

theorem find_mem {st : List Node} (hn : (st.map attrName).Nodup) {a : Node} (ha : a ∈ st) : findStatic (attrName a) st = some a := by
  induction st with
  | nil => cases ha
  | cons b bs ih =>
    rw [List.map_cons, List.nodup_cons] at hn
    rw [findStatic, List.find?_cons]
    rcases List.mem_cons.mp ha with rfl | ha
    · simp
    · have : attrName b ≠ attrName a := fun e => hn.1 (e ▸ List.mem_map_of_mem ha)
      rw [show (attrName b == attrName a) = false from by simpa using this]
      exact ih hn.2 ha

theorem names_setStatic (n : Bytes) (v : Node) (st : List Node) : (setStatic n v st).map attrName = st.map attrName := by
  fun_induction setStatic n v st <;> simp_all [attrName]

theorem find_set {st : List Node} {n x : Bytes} {v : Node} {m : Bytes} {k w : Node} {kd : AttrKind}
    (h : findStatic n st = some (.attr m k w kd)) :
    findStatic x (setStatic n v st) = if x = n then some (.attr n k v kd) else findStatic x st := by
  have hm : m = n := (find_name h).1
  subst hm
  fun_induction setStatic m v st with
  | case1 => cases h
  | case2 m' k' w' kd' as hm =>
    rw [beq_iff_eq] at hm
    subst hm
    simp only [findStatic, List.find?_cons, attrName, beq_self_eq_true, Option.some.injEq, Node.attr.injEq] at h
    obtain ⟨-, rfl, rfl, rfl⟩ := h
    simp only [findStatic, List.find?_cons, attrName]
    by_cases hx : x = m'
    · simp [hx]
    · rw [show (m' == x) = false from by simpa using Ne.symm hx, if_neg hx]
  | case3 m' k' w' kd' as hm ih =>
    have : findStatic m as = some (.attr m k w kd) := by
      simpa [findStatic, List.find?_cons, attrName, show (m' == m) = false from by simpa using hm] using h
    simp only [findStatic, List.find?_cons, attrName]
    by_cases hx : m' = x
    · subst hx
      have : m' ≠ m := by simpa using hm
      simp [this]
    · rw [show (m' == x) = false from by simpa using hx]
      exact ih this
  | case4 a as ha ih =>
    have hn : findStatic m as = some (.attr m k w kd) ∨ a = .attr m k w kd := by
      simp only [findStatic, List.find?_cons] at h
      split at h
      · cases h; exact .inr rfl
      · exact .inl h
    rcases hn with hn | rfl
    · simp only [findStatic, List.find?_cons]
      by_cases hx : attrName a = x
      · rw [show (attrName a == x) = true from by simpa using hx]
        have hax : attrName a ≠ m := by
          intro e
          simp only [findStatic, List.find?_cons, show (attrName a == m) = true from by simpa using e] at h
          cases h
          exact ha _ _ _ _ rfl
        rw [if_neg (fun e => hax (hx.trans e))]
      · rw [show (attrName a == x) = false from by simpa using hx]
        exact ih hn
    · exact absurd rfl (ha _ _ _ _)

/-! ### Content -/

theorem content_nil (st : List Node) : content st [] = none := rfl

theorem content_cons (st : List Node) (x : Bytes) (p : List Bytes) : content st (x :: p) =
    match findStatic x st with
    | none => none
    | some a => if p = [] then some (entryOf a) else content (statics (attrValue a)) p := rfl

theorem content_empty (q : List Bytes) : content [] q = none := by
  cases q <;> rfl

/-- Replace the entry `x` and what is below it. -/
def put (C : Content) (x : Bytes) (e : Entry) (D : Content) : Content
  | [] => none
  | y :: r => if y = x then (if r = [] then some e else D r) else C (y :: r)

theorem content_insert {a : Node} {st : List Node} (h : findStatic (attrName a) st = none) :
    content (insertStatic a st) = put (content st) (attrName a) (entryOf a) (content (statics (attrValue a))) := by
  funext q
  cases q with
  | nil => rfl
  | cons y r =>
    rw [content_cons, find_insert h]
    simp only [put]
    by_cases hy : attrName a = y
    · simp [hy]
    · rw [if_neg hy, if_neg (Ne.symm hy), content_cons]

theorem content_set {st : List Node} {n : Bytes} {v : Node} {m : Bytes} {k w : Node} {kd : AttrKind}
    (h : findStatic n st = some (.attr m k w kd)) :
    content (setStatic n v st) = put (content st) n (entryOf (.attr n k v kd)) (content (statics v)) := by
  funext q
  cases q with
  | nil => rfl
  | cons y r =>
    rw [content_cons, find_set h]
    simp only [put]
    by_cases hy : y = n
    · simp [hy, attrValue]
    · rw [if_neg hy, if_neg hy, content_cons]

theorem entry_set {n : Bytes} {k : Node} {kd : AttrKind} {h : Hd} {b r : Node} {st dy : List Node} :
    entryOf (.attr n k (.exprAttrs h b r st dy) kd) = ⟨k, .set (!r.isNull)⟩ := by
  unfold entryOf
  rfl

theorem entry_notSet {n : Bytes} {k v : Node} {kd : AttrKind} (h : notSet v) : ¬ (entryOf (.attr n k v kd)).isSet := by
  rintro ⟨r, hr⟩
  unfold entryOf at hr
  split at hr
  · rename_i heq
    cases heq
    exact h _ _ _ _ _ rfl
  · cases hr
  · cases hr
  · cases hr
  · cases hr

theorem isSet_cases (v : Node) : notSet v ∨ ∃ h b r st dy, v = .exprAttrs h b r st dy := by
  cases v
  case exprAttrs => exact .inr ⟨_, _, _, _, _, rfl⟩
  all_goals exact .inl (by intro _ _ _ _ _ h; cases h)

theorem entry_key {n : Bytes} {k v : Node} {kd : AttrKind} : (entryOf (.attr n k v kd)).key = k := by
  unfold entryOf
  split <;> simp_all [attrKey]

theorem content_none {st : List Node} {x : Bytes} (h : findStatic x st = none) (r : List Bytes) : content st (x :: r) = none := by
  rw [content_cons, h]

theorem content_some {st : List Node} {x : Bytes} {a : Node} (h : findStatic x st = some a) {r : List Bytes} (hr : r ≠ []) :
    content st (x :: r) = content (statics (attrValue a)) r := by
  rw [content_cons, h]
  simp only [if_neg hr]

theorem content_one {st : List Node} {x : Bytes} {a : Node} (h : findStatic x st = some a) : content st [x] = some (entryOf a) := by
  rw [content_cons, h]
  rfl

theorem statics_notSet {v : Node} (h : notSet v) : statics v = [] := by
  cases v <;> first | rfl | exact absurd rfl (h _ _ _ _ _)

theorem StOk.insert {a : Node} {st : List Node} (h : StOk st) (hf : findStatic (attrName a) st = none)
    (ha : ∃ n k v kd, a = .attr n k v kd ∧ (kd ≠ .plain → notSet v)) (hv : SetOk (attrValue a)) : StOk (insertStatic a st) := by
  refine ⟨?_, fun b hb => ?_, fun b hb => ?_⟩
  · rw [((perm_insertStatic a st).map attrName).nodup_iff, List.map_cons, List.nodup_cons]
    exact ⟨find_none.mp hf, h.nodup⟩
  · rcases mem_insertStatic.mp hb with rfl | hb
    · exact ha
    · exact h.shape b hb
  · rcases mem_insertStatic.mp hb with rfl | hb
    · exact hv
    · exact h.vals b hb

theorem mem_setStatic {n : Bytes} {v b : Node} {st : List Node} (h : b ∈ setStatic n v st) :
    b ∈ st ∨ ∃ k w kd, Node.attr n k w kd ∈ st ∧ b = .attr n k v kd := by
  fun_induction setStatic n v st with
  | case1 => cases h
  | case2 m k w kd as hm =>
    rw [beq_iff_eq] at hm
    subst hm
    rcases List.mem_cons.mp h with rfl | h
    · exact .inr ⟨k, w, kd, List.mem_cons_self, rfl⟩
    · exact .inl (List.mem_cons_of_mem _ h)
  | case3 m k w kd as hm ih =>
    rcases List.mem_cons.mp h with rfl | h
    · exact .inl List.mem_cons_self
    · rcases ih h with h | ⟨k', w', kd', h1, h2⟩
      · exact .inl (List.mem_cons_of_mem _ h)
      · exact .inr ⟨k', w', kd', List.mem_cons_of_mem _ h1, h2⟩
  | case4 a as ha ih =>
    rcases List.mem_cons.mp h with rfl | h
    · exact .inl List.mem_cons_self
    · rcases ih h with h | ⟨k', w', kd', h1, h2⟩
      · exact .inl (List.mem_cons_of_mem _ h)
      · exact .inr ⟨k', w', kd', List.mem_cons_of_mem _ h1, h2⟩

theorem StOk.set_ {n : Bytes} {v : Node} {st : List Node} (h : StOk st)
    (hk : ∀ k w kd, Node.attr n k w kd ∈ st → kd ≠ .plain → notSet v) (hv : SetOk v) : StOk (setStatic n v st) := by
  refine ⟨by rw [names_setStatic]; exact h.nodup, fun b hb => ?_, fun b hb => ?_⟩
  · rcases mem_setStatic hb with hb | ⟨k, w, kd, hb', rfl⟩
    · exact h.shape b hb
    · exact ⟨n, k, v, kd, rfl, hk k w kd hb'⟩
  · rcases mem_setStatic hb with hb | ⟨k, w, kd, hb, rfl⟩
    · exact h.vals b hb
    · exact hv

/-! ### Merging -/

/-- The diagnostic of a duplicate. -/
def dupDiag (x : Bytes) (n prev : Node) : Diagnostic :=
  { kind := .duplicatedAttrName, range := n.range, args := [x], notes := [{ kind := .prevDeclared, range := prev.range }] }

theorem dupAttr_diags (x : Bytes) (n prev : Node) (s : SemaSt) : (dupAttr x n.range prev.range s).diags = s.diags ++ [dupDiag x n prev] := rfl

theorem mergeStatic_spec (ys xs : List Node) (s : SemaSt) (hy : StOk ys) (hx : StOk xs) :
    StOk (mergeStatic ys xs s).1 ∧
    (content (mergeStatic ys xs s).1 = fun
      | [] => none
      | y :: r => if findStatic y xs = none then content ys (y :: r) else content xs (y :: r)) ∧
    ∃ ds, (mergeStatic ys xs s).2.diags = s.diags ++ ds ∧
      ∀ d, d ∈ ds ↔ ∃ y e e', content ys [y] = some e ∧ content xs [y] = some e' ∧ d = dupDiag y e.key e'.key := by
  induction ys generalizing xs s with
  | nil =>
    refine ⟨hx, ?_, [], by simp [mergeStatic], ?_⟩
    · funext q
      cases q with
      | nil => rfl
      | cons y r =>
        simp only [mergeStatic]
        split
        · rename_i h
          rw [content_none h, content_empty]
        · rfl
    · simp [content_empty]
  | cons b ys ih =>
    have hnd := hy.nodup
    rw [List.map_cons, List.nodup_cons] at hnd
    have hys : StOk ys := ⟨hnd.2, fun a ha => hy.shape a (List.mem_cons_of_mem _ ha), fun a ha => hy.vals a (List.mem_cons_of_mem _ ha)⟩
    have hb0 : findStatic (attrName b) ys = none := find_none.mpr hnd.1
    obtain ⟨nb, kb, vb, kdb, rfl, hkb⟩ := hy.shape b List.mem_cons_self
    simp only [attrName] at hb0
    have hcy : ∀ y r, content (.attr nb kb vb kdb :: ys) (y :: r) =
        if nb = y then (if r = [] then some (entryOf (.attr nb kb vb kdb)) else content (statics vb) r) else content ys (y :: r) := by
      intro y r
      rw [content_cons, findStatic, List.find?_cons]
      simp only [attrName]
      by_cases h : nb = y
      · subst h
        simp [attrValue]
      · rw [if_neg h, show (nb == y) = false from by simpa using h]
        rfl
    simp only [mergeStatic, attrName, attrKey]
    split
    · rename_i x hfx
      obtain ⟨h1, h2, ds, h3, h4⟩ := ih xs (dupAttr nb kb.range (attrKey x).range s) hys hx
      obtain ⟨nx, kx, vx, kdx, rfl, hkx⟩ := hx.shape x (find_name hfx).2
      refine ⟨h1, h2.trans ?_, dupDiag nb kb kx :: ds, h3.trans ?_, ?_⟩
      · funext q
        cases q with
        | nil => rfl
        | cons y r =>
          simp only
          rw [hcy]
          by_cases h : nb = y
          · subst h
            rw [if_neg (by rw [hfx]; simp), if_neg (by rw [hfx]; simp)]
          · rw [if_neg h]
      · rw [attrKey, dupAttr_diags]; simp
      · intro d
        rw [List.mem_cons, h4]
        constructor
        · rintro (rfl | ⟨y, e, e', k1, k2, k3⟩)
          · exact ⟨nb, _, _, by rw [hcy, if_pos rfl, if_pos rfl], content_one hfx, by rw [entry_key, entry_key]⟩
          · refine ⟨y, e, e', ?_, k2, k3⟩
            rw [hcy, if_neg]
            · exact k1
            · rintro rfl
              rw [content_none hb0] at k1
              cases k1
        · rintro ⟨y, e, e', k1, k2, k3⟩
          rw [hcy] at k1
          split at k1
          · rename_i hy
            subst hy
            rw [if_pos rfl] at k1
            cases k1
            cases (content_one hfx).symm.trans k2
            rw [entry_key, entry_key] at k3
            exact .inl k3
          · exact .inr ⟨y, e, e', k1, k2, k3⟩
    · rename_i hfx
      have hins : StOk (insertStatic (.attr nb kb vb kdb) xs) := hx.insert hfx ⟨_, _, _, _, rfl, hkb⟩ (hy.vals _ List.mem_cons_self)
      obtain ⟨h1, h2, ds, h3, h4⟩ := ih (insertStatic (.attr nb kb vb kdb) xs) s hys hins
      have hci := content_insert (a := .attr nb kb vb kdb) hfx
      have hmeet : ∀ y e, content ys [y] = some e → content (insertStatic (.attr nb kb vb kdb) xs) [y] = content xs [y] := by
        intro y e he
        rw [hci, put, if_neg]
        intro hyn
        rw [hyn, show attrName (Node.attr nb kb vb kdb) = nb from rfl, content_none hb0] at he
        cases he
      refine ⟨h1, ?_, ds, h3, ?_⟩
      · rw [h2]
        funext q
        cases q with
        | nil => rfl
        | cons y r =>
          simp only
          rw [find_insert (a := .attr nb kb vb kdb) hfx, hcy, hci]
          simp only [attrName, put, attrValue]
          by_cases h : nb = y
          · subst h
            simp only [hfx, reduceCtorEq, if_false, if_true]
          · have h' : ¬ y = nb := fun e => h e.symm
            simp only [h, h', if_false]
      · intro d
        rw [h4]
        constructor
        · rintro ⟨y, e, e', k1, k2, k3⟩
          refine ⟨y, e, e', ?_, by rw [← hmeet y e k1]; exact k2, k3⟩
          rw [hcy, if_neg]
          · exact k1
          · rintro rfl
            rw [content_none hb0] at k1
            cases k1
        · rintro ⟨y, e, e', k1, k2, k3⟩
          have hne : nb ≠ y := by
            rintro rfl
            rw [content_none hfx] at k2
            cases k2
          rw [hcy, if_neg hne] at k1
          exact ⟨y, e, e', k1, by rw [hmeet y e k1]; exact k2, k3⟩

/-! ### Adding one binding -/

/-- What adding the binding `it` to a set with content `C` does. -/
structure Adds (C C' : Content) (it : Item) (ds : List Diagnostic) : Prop where
  keep : ∀ q e, C q = some e → C' q = some e
  sound : ∀ q e, C' q = some e → C q = some e ∨ (C q = none ∧ Gives it q e)
  full : ∀ q e, Gives it q e → (∀ x n p, ¬ Clash (Has C) it x n p q) → ∃ e', C' q = some e' ∧ (e' = e ∨ (e'.isSet ∧ e.isSet))
  clash : ∀ d, (d ∈ ds ∧ d.kind = .duplicatedAttrName) ↔ ∃ x n p q, Clash (Has C) it x n p q ∧ d = dupDiag x n p
  recs : (∃ d ∈ ds, d.kind = .mergeDiffRec) ↔ MixedRec (Has C) it
  lost : ∀ x n p q, Clash (Has C) it x n p q → C' q = C q

theorem StaticPath.nil_iff {q : List Bytes} : StaticPath [] q ↔ q = [] := by
  unfold StaticPath
  constructor
  · intro h
    exact List.map_eq_nil_iff.mp h.symm
  · rintro rfl; rfl

theorem StaticPath.cons_iff {d : Node} {ds : List Node} {q : List Bytes} :
    StaticPath (d :: ds) q ↔ ∃ x r, q = x :: r ∧ d.staticName? = some x ∧ StaticPath ds r := by
  unfold StaticPath
  cases q with
  | nil => simp
  | cons x r =>
    simp only [List.map_cons, List.cons.injEq]
    constructor
    · rintro ⟨h1, h2⟩
      exact ⟨x, r, ⟨rfl, rfl⟩, h1, h2⟩
    · rintro ⟨_, _, ⟨rfl, rfl⟩, h1, h2⟩
      exact ⟨h1, h2⟩

/-- With no beginning of the path. -/
theorem gives_nil {it : Item} (hd : it.dirs = []) {q : List Bytes} {e : Entry} : Gives it q e ↔
    ∃ x, it.last.staticName? = some x ∧ ((q = [x] ∧ it.present ∧ e = ⟨it.last, it.val⟩) ∨ ∃ y r, q = x :: y :: r ∧ it.below (y :: r) = some e) := by
  constructor
  · intro h
    cases h with
    | dir pre n post q x h => rw [hd] at h; cases pre <;> cases h
    | value q x h h1 h2 =>
      rw [hd, StaticPath.nil_iff] at h
      subst h
      exact ⟨x, h1, .inl ⟨rfl, h2, rfl⟩⟩
    | below q x y r _ h h1 h2 =>
      rw [hd, StaticPath.nil_iff] at h
      subst h
      exact ⟨x, h1, .inr ⟨y, r, rfl, h2⟩⟩
  · rintro ⟨x, h1, ⟨rfl, h2, rfl⟩ | ⟨y, r, rfl, h2⟩⟩
    · exact .value [] x (by rw [hd, StaticPath.nil_iff]) h1 h2
    · exact .below [] x y r e (by rw [hd, StaticPath.nil_iff]) h1 h2

theorem clash_nil {it : Item} (hd : it.dirs = []) {E : List Bytes → Entry → Prop} {z : Bytes} {n p : Node} {l : List Bytes} : Clash E it z n p l ↔
    ∃ x, it.last.staticName? = some x ∧ ((∃ e r, E [x] e ∧ ¬ (e.isSet ∧ it.isSet) ∧ z = x ∧ n = it.last ∧ p = e.key ∧ l = x :: r) ∨
      (it.isSet ∧ ∃ e e' r, E [x, z] e ∧ it.below [z] = some e' ∧ n = e'.key ∧ p = e.key ∧ l = x :: z :: r)) := by
  constructor
  · intro h
    cases h with
    | dir pre n post q x e r h => rw [hd] at h; cases pre <;> cases h
    | bound q x e r h h1 h2 h3 =>
      rw [hd, StaticPath.nil_iff] at h
      subst h
      exact ⟨_, h1, .inl ⟨e, r, h2, h3, rfl, rfl, rfl, rfl⟩⟩
    | both q x y e e' r h h1 h2 h3 h4 =>
      rw [hd, StaticPath.nil_iff] at h
      subst h
      exact ⟨x, h1, .inr ⟨h2, e, e', r, h3, h4, rfl, rfl, rfl⟩⟩
  · rintro ⟨x, h1, ⟨e, r, h2, h3, rfl, rfl, rfl, rfl⟩ | ⟨h2, e, e', r, h3, h4, rfl, rfl, rfl⟩⟩
    · exact .bound [] _ e r (by rw [hd, StaticPath.nil_iff]) h1 h2 h3
    · exact .both [] x _ e e' r (by rw [hd, StaticPath.nil_iff]) h1 h2 h3 h4

/-- The same binding, from the next name on. -/
def Item.tail (it : Item) : Item := { it with dirs := it.dirs.tail }

theorem gives_cons {it : Item} {d : Node} {ds : List Node} (hd : it.dirs = d :: ds) {q : List Bytes} {e : Entry} : Gives it q e ↔
    ∃ x r, d.staticName? = some x ∧ q = x :: r ∧ ((r = [] ∧ e = ⟨d, .set false⟩) ∨ Gives it.tail r e) := by
  have ht : it.tail.dirs = ds := by simp [Item.tail, hd]
  constructor
  · intro h
    cases h with
    | dir pre n post q x h h1 h2 =>
      rw [hd] at h
      cases pre with
      | nil =>
        cases h
        rw [StaticPath.nil_iff] at h1
        subst h1
        exact ⟨x, [], h2, rfl, .inl ⟨rfl, rfl⟩⟩
      | cons p pre =>
        cases h
        obtain ⟨y, r, rfl, h3, h4⟩ := StaticPath.cons_iff.mp h1
        exact ⟨y, r ++ [x], h3, rfl, .inr (.dir pre n post r x ht h4 h2)⟩
    | value q x h h1 h2 =>
      rw [hd] at h
      obtain ⟨y, r, rfl, h3, h4⟩ := StaticPath.cons_iff.mp h
      exact ⟨y, r ++ [x], h3, rfl, .inr (.value (it := it.tail) r x (by rw [ht]; exact h4) h1 h2)⟩
    | below q x y r _ h h1 h2 =>
      rw [hd] at h
      obtain ⟨z, r', rfl, h3, h4⟩ := StaticPath.cons_iff.mp h
      exact ⟨z, _, h3, rfl, .inr (.below (it := it.tail) r' x y r e (by rw [ht]; exact h4) h1 h2)⟩
  · rintro ⟨x, r, h1, rfl, ⟨rfl, rfl⟩ | h⟩
    · exact .dir [] d ds [] x hd (by rw [StaticPath.nil_iff]) h1
    · cases h with
      | dir pre n post q y h h2 h3 =>
        rw [ht] at h
        exact .dir (d :: pre) n post (x :: q) y (by rw [hd, h]; rfl) (StaticPath.cons_iff.mpr ⟨x, q, rfl, h1, h2⟩) h3
      | value q y h h2 h3 =>
        rw [ht] at h
        exact .value (x :: q) y (by rw [hd]; exact StaticPath.cons_iff.mpr ⟨x, q, rfl, h1, h⟩) h2 h3
      | below q y z r _ h h2 h3 =>
        rw [ht] at h
        exact .below (x :: q) y z r e (by rw [hd]; exact StaticPath.cons_iff.mpr ⟨x, q, rfl, h1, h⟩) h2 h3

theorem clash_cons {it : Item} {d : Node} {ds : List Node} (hd : it.dirs = d :: ds) {E : List Bytes → Entry → Prop} {z : Bytes} {n p : Node}
    {l : List Bytes} : Clash E it z n p l ↔
    ∃ x r, d.staticName? = some x ∧ l = x :: r ∧ ((∃ e, E [x] e ∧ ¬ e.isSet ∧ z = x ∧ n = d ∧ p = e.key) ∨ Clash (fun r e => E (x :: r) e) it.tail z n p r) := by
  have ht : it.tail.dirs = ds := by simp [Item.tail, hd]
  constructor
  · intro h
    cases h with
    | dir pre n post q x e r h h1 h2 h3 h4 =>
      rw [hd] at h
      cases pre with
      | nil =>
        cases h
        rw [StaticPath.nil_iff] at h1
        subst h1
        exact ⟨_, r, h2, rfl, .inl ⟨e, h3, h4, rfl, rfl, rfl⟩⟩
      | cons p pre =>
        cases h
        obtain ⟨y, r', rfl, h5, h6⟩ := StaticPath.cons_iff.mp h1
        exact ⟨y, _, h5, rfl, .inr (.dir pre n post r' _ e r ht h6 h2 h3 h4)⟩
    | bound q x e r h h1 h2 h3 =>
      rw [hd] at h
      obtain ⟨y, r', rfl, h5, h6⟩ := StaticPath.cons_iff.mp h
      exact ⟨y, _, h5, rfl, .inr (.bound (it := it.tail) r' _ e r (by rw [ht]; exact h6) h1 h2 h3)⟩
    | both q x y e e' r h h1 h2 h3 h4 =>
      rw [hd] at h
      obtain ⟨z, r', rfl, h5, h6⟩ := StaticPath.cons_iff.mp h
      exact ⟨z, _, h5, rfl, .inr (.both (it := it.tail) r' x _ e e' r (by rw [ht]; exact h6) h1 h2 h3 h4)⟩
  · rintro ⟨x, r, h1, rfl, ⟨e, h2, h3, rfl, rfl, rfl⟩ | h⟩
    · exact .dir [] _ ds [] _ e r hd (by rw [StaticPath.nil_iff]) h1 h2 h3
    · cases h with
      | dir pre n post q y e r h h2 h3 h4 h5 =>
        rw [ht] at h
        exact .dir (d :: pre) n post (x :: q) _ e r (by rw [hd, h]; rfl) (StaticPath.cons_iff.mpr ⟨x, q, rfl, h1, h2⟩) h3 h4 h5
      | bound q y e r h h2 h3 h4 =>
        rw [ht] at h
        exact .bound (x :: q) _ e r (by rw [hd]; exact StaticPath.cons_iff.mpr ⟨x, q, rfl, h1, h⟩) h2 h3 h4
      | both q y z e e' r h h2 h3 h4 h5 =>
        rw [ht] at h
        exact .both (x :: q) y _ e e' r (by rw [hd]; exact StaticPath.cons_iff.mpr ⟨x, q, rfl, h1, h⟩) h2 h3 h4 h5

theorem Clash.mono {it : Item} {E E' : List Bytes → Entry → Prop} {z : Bytes} {n p : Node} {l : List Bytes}
    (h : ∀ q e, q ≠ [] → E q e → E' q e) (hc : Clash E it z n p l) : Clash E' it z n p l := by
  cases hc with
  | dir pre n post q x e r h1 h2 h3 h4 h5 => exact .dir pre n post q _ e r h1 h2 h3 (h _ _ (by simp) h4) h5
  | bound q x e r h1 h2 h3 h4 => exact .bound q _ e r h1 h2 (h _ _ (by simp) h3) h4
  | both q x y e e' r h1 h2 h3 h4 h5 => exact .both q x _ e e' r h1 h2 h3 (h _ _ (by simp) h4) h5

theorem gives_ne_nil {it : Item} {q : List Bytes} {e : Entry} (h : Gives it q e) : q ≠ [] := by
  cases h <;> simp

theorem mixed_nil {it : Item} (hd : it.dirs = []) {E : List Bytes → Entry → Prop} : MixedRec E it ↔
    ∃ x e r r', it.last.staticName? = some x ∧ E [x] e ∧ e.val = .set r ∧ it.val = .set r' ∧ r ≠ r' := by
  unfold MixedRec
  rw [hd]
  constructor
  · rintro ⟨q, x, e, r, r', h, h'⟩
    rw [StaticPath.nil_iff] at h
    subst h
    exact ⟨x, e, r, r', h'⟩
  · rintro ⟨x, e, r, r', h'⟩
    exact ⟨[], x, e, r, r', StaticPath.nil_iff.mpr rfl, h'⟩

theorem mixed_cons {it : Item} {d : Node} {ds : List Node} (hd : it.dirs = d :: ds) {E : List Bytes → Entry → Prop} : MixedRec E it ↔
    ∃ x, d.staticName? = some x ∧ MixedRec (fun r e => E (x :: r) e) it.tail := by
  have ht : it.tail.dirs = ds := by simp [Item.tail, hd]
  unfold MixedRec
  rw [hd, ht]
  constructor
  · rintro ⟨q, x, e, r, r', h, h'⟩
    obtain ⟨y, q', rfl, h1, h2⟩ := StaticPath.cons_iff.mp h
    exact ⟨y, h1, q', x, e, r, r', h2, h'⟩
  · rintro ⟨y, h1, q, x, e, r, r', h2, h'⟩
    exact ⟨y :: q, x, e, r, r', StaticPath.cons_iff.mpr ⟨y, q, rfl, h1, h2⟩, h'⟩

theorem MixedRec.mono {it : Item} {E E' : List Bytes → Entry → Prop} (h : ∀ q e, q ≠ [] → E q e → E' q e) (hc : MixedRec E it) :
    MixedRec E' it := by
  obtain ⟨q, x, e, r, r', h1, h2, h3, h4⟩ := hc
  exact ⟨q, x, e, r, r', h1, h2, h _ _ (by simp) h3, h4⟩

/-- Neither of the two kinds of diagnostics. -/
def Silent (ds : List Diagnostic) : Prop := ∀ d ∈ ds, d.kind ≠ .duplicatedAttrName ∧ d.kind ≠ .mergeDiffRec

/-- Nothing happens. -/
theorem Adds.refl' {C : Content} {it : Item} {ds : List Diagnostic} (hds : Silent ds) (h1 : ∀ q e, ¬ Gives it q e)
    (h2 : ∀ x n p q, ¬ Clash (Has C) it x n p q) (h3 : ¬ MixedRec (Has C) it) : Adds C C it ds where
  keep _ _ h := h
  sound _ _ h := .inl h
  full q e h := absurd h (h1 q e)
  clash d := ⟨fun ⟨h, hk⟩ => absurd hk (hds d h).1, fun ⟨_, _, _, _, h, _⟩ => absurd h (h2 _ _ _ _)⟩
  recs := ⟨fun ⟨d, h, hk⟩ => absurd hk (hds d h).2, fun h => absurd h h3⟩
  lost _ _ _ _ _ := rfl

/-- The entry is new. -/
theorem Adds.new {C : Content} {it : Item} {x : Bytes} {e : Entry} {D : Content} {ds : List Diagnostic} (hds : Silent ds)
    (hx : ∀ r, C (x :: r) = none) (hn : C [] = none) (hD : D [] = none)
    (hs : ∀ r e', (r = [] ∧ e' = e ∨ D r = some e') → Gives it (x :: r) e')
    (hg : ∀ q e', Gives it q e' → ∃ r, q = x :: r ∧ (r = [] ∧ e' = e ∨ ∃ e'', D r = some e'' ∧ (e'' = e' ∨ (e''.isSet ∧ e'.isSet))))
    (hc : ∀ x n p q, ¬ Clash (Has C) it x n p q) (hr : ¬ MixedRec (Has C) it) : Adds C (put C x e D) it ds where
  keep q e h := by
    cases q with
    | nil => rw [hn] at h; cases h
    | cons y r =>
      rw [put, if_neg]
      · exact h
      · rintro rfl
        rw [hx] at h
        cases h
  sound q e' h := by
    cases q with
    | nil => cases h
    | cons y r =>
      rw [put] at h
      split at h
      · rename_i hy
        subst hy
        refine .inr ⟨hx r, hs r e' ?_⟩
        split at h
        · rename_i hr
          cases h
          exact .inl ⟨hr, rfl⟩
        · exact .inr h
      · exact .inl h
  full q e' h _ := by
    obtain ⟨r, rfl, h | ⟨e'', h, h'⟩⟩ := hg _ _ h
    · obtain ⟨rfl, rfl⟩ := h
      exact ⟨_, by rw [put, if_pos rfl, if_pos rfl], .inl rfl⟩
    · refine ⟨e'', ?_, h'⟩
      rw [put, if_pos rfl, if_neg]
      · exact h
      · rintro rfl
        rw [hD] at h
        cases h
  clash d := ⟨fun ⟨h, hk⟩ => absurd hk (hds d h).1, fun ⟨_, _, _, _, h, _⟩ => absurd h (hc _ _ _ _)⟩
  recs := ⟨fun ⟨d, h, hk⟩ => absurd hk (hds d h).2, fun h => absurd h hr⟩
  lost _ _ _ _ h := absurd h (hc _ _ _ _)

theorem Silent.nil : Silent [] := nofun

/-- A duplicate. -/
theorem Adds.dup {C : Content} {it : Item} {n : Node} {x : Bytes} {e : Entry}
    (hc : ∀ z m p l, Clash (Has C) it z m p l ↔ z = x ∧ m = n ∧ p = e.key ∧ ∃ r, l = x :: r) (hg : ∀ q e, Gives it q e → ∃ r, q = x :: r)
    (hr : ¬ MixedRec (Has C) it) : Adds C C it [dupDiag x n e.key] where
  keep _ _ h := h
  sound _ _ h := .inl h
  full q e h hn := absurd ((hc _ _ _ _).mpr ⟨rfl, rfl, rfl, hg q e h⟩) (hn _ _ _)
  clash d := by
    rw [List.mem_singleton]
    constructor
    · rintro ⟨rfl, -⟩
      exact ⟨x, n, e.key, [x], (hc _ _ _ _).mpr ⟨rfl, rfl, rfl, [], rfl⟩, rfl⟩
    · rintro ⟨z, m, p, l, h, rfl⟩
      obtain ⟨rfl, rfl, rfl, -⟩ := (hc _ _ _ _).mp h
      exact ⟨rfl, rfl⟩
  recs := by
    refine ⟨?_, fun h => absurd h hr⟩
    rintro ⟨d, h, hk⟩
    rw [List.mem_singleton.mp h] at hk
    cases hk
  lost _ _ _ _ _ := rfl

theorem val_notSet {it : Item} (hk : it.kind = .plain) (h : notSet it.value) : it.val = .expr it.value := by
  unfold Item.val
  rw [hk]
  cases hv : it.value
  case exprAttrs => exact absurd hv (h _ _ _ _ _)
  all_goals rfl

theorem entry_plain {n : Bytes} {it : Item} (hk : it.kind = .plain) : entryOf (.attr n it.last it.value .plain) = ⟨it.last, it.val⟩ := by
  unfold Item.val entryOf
  rw [hk]
  cases it.value <;> rfl

theorem isSet_iff {it : Item} (hk : it.kind = .plain) : it.isSet ↔ ∃ h b r st dy, it.value = .exprAttrs h b r st dy := by
  constructor
  · rintro ⟨r, hr⟩
    rcases isSet_cases it.value with h | h
    · rw [val_notSet hk h] at hr; cases hr
    · exact h
  · rintro ⟨h, b, r, st, dy, hv⟩
    refine ⟨!r.isNull, ?_⟩
    unfold Item.val
    rw [hk, hv]

theorem recDiag (xr yr : CRange) (x y : Node) (s : SemaSt) : ∃ ds, (checkAttrRecursiveForMerge xr x yr y s).diags = s.diags ++ ds ∧
    (∀ d ∈ ds, d.kind = .mergeDiffRec) ∧ (ds ≠ [] ↔ (!x.isNull) ≠ (!y.isNull)) := by
  unfold checkAttrRecursiveForMerge
  simp only
  split
  · rename_i h
    refine ⟨[], by simp, by simp, ?_⟩
    simp only [ne_eq, not_true_eq_false, false_iff]
    simpa using h
  · rename_i h
    refine ⟨[_], rfl, ?_, by simpa using h⟩
    intro d hd
    rw [List.mem_singleton.mp hd]

/-- Both are sets. -/
def bothSets (v w : Node) : Prop := ¬ notSet v ∧ ¬ notSet w

theorem insertAttr_dup {sa : SA} {name e : Node} {n : Bytes} {m : Bytes} {k v : Node} {kd kind : AttrKind} (s : SemaSt) (hn : name.staticName? = some n)
    (ha : findStatic n sa.static = some (.attr m k v kd)) (h : ¬ bothSets v e) :
    insertAttr sa name e kind s = (sa, dupAttr n name.range k.range s) := by
  unfold insertAttr
  simp only [hn, ha, attrValue, attrKey]
  split
  · exact absurd ⟨fun h => h _ _ _ _ _ rfl, fun h => h _ _ _ _ _ rfl⟩ h
  · rfl

theorem insertAttr_merge {sa : SA} {name : Node} {n : Bytes} {m : Bytes} {k : Node} {kd kind : AttrKind} {hx bx rx stx dyx hy yb ry sty dyy} (s : SemaSt)
    (hn : name.staticName? = some n) (ha : findStatic n sa.static = some (.attr m k (.exprAttrs hx bx rx stx dyx) kd)) :
    insertAttr sa name (.exprAttrs hy yb ry sty dyy) kind s =
      ({ sa with static := setStatic n (.exprAttrs hx bx rx
        (mergeStatic sty stx (checkAttrRecursiveForMerge hx.range rx hy.range ry s)).1 (dyx ++ dyy)) sa.static },
      (mergeStatic sty stx (checkAttrRecursiveForMerge hx.range rx hy.range ry s)).2) := by
  unfold insertAttr
  simp only [hn, ha, attrValue, mergeAttrSets]

theorem insertAttr_new {sa : SA} {name e : Node} {n : Bytes} {kind : AttrKind} (s : SemaSt) (hn : name.staticName? = some n)
    (ha : findStatic n sa.static = none) :
    insertAttr sa name e kind s = (if e.isNull then sa else { sa with static := insertStatic (.attr n name e kind) sa.static }, s) := by
  unfold insertAttr
  simp only [hn, ha]

theorem insertAttr_dyn {sa : SA} {name e : Node} {kind : AttrKind} (s : SemaSt) (hn : name.staticName? = none) :
    insertAttr sa name e kind s = (if e.isNull then sa else { sa with dynamic := sa.dynamic ++ [.attr [] name e kind] }, s) := by
  unfold insertAttr
  simp only [hn]

theorem below_plain {it : Item} (hk : it.kind = .plain) : it.below = content (statics it.value) := by
  unfold Item.below
  rw [hk]

theorem insertAttr_adds (sa : SA) (name e : Node) (s : SemaSt) (hst : StOk sa.static) (he : SetOk e) :
    StOk (insertAttr sa name e .plain s).1.static ∧ ∃ ds, (insertAttr sa name e .plain s).2.diags = s.diags ++ ds ∧
      Adds (content sa.static) (content (insertAttr sa name e .plain s).1.static) ⟨[], name, e, .plain⟩ ds := by
  cases hn : name.staticName? with
  | none =>
    rw [insertAttr_dyn s hn]
    have : (if e.isNull = true then sa else { sa with dynamic := sa.dynamic ++ [.attr [] name e .plain] } : SA).static = sa.static := by
      split <;> rfl
    simp only [this]
    refine ⟨hst, [], by simp, .refl' .nil (fun q e' h => ?_) (fun _ _ _ _ h => ?_) (fun h => ?_)⟩
    · obtain ⟨x, h, -⟩ := (gives_nil rfl).mp h
      rw [hn] at h; cases h
    · obtain ⟨x, h, -⟩ := (clash_nil rfl).mp h
      rw [hn] at h; cases h
    · obtain ⟨x, _, _, _, h, -⟩ := (mixed_nil rfl).mp h
      rw [hn] at h; cases h
  | some n =>
    cases ha : findStatic n sa.static with
    | none =>
      rw [insertAttr_new s hn ha]
      have hno := content_none ha
      have hc : ∀ z n p q, ¬ Clash (Has (content sa.static)) ⟨[], name, e, .plain⟩ z n p q := by
        intro z n p q h
        obtain ⟨x, h1, ⟨e', _, h2, -⟩ | ⟨-, e', e'', _, h2, -⟩⟩ := (clash_nil rfl).mp h
        · cases hn.symm.trans h1
          exact absurd ((hno _).symm.trans h2) nofun
        · cases hn.symm.trans h1
          exact absurd ((hno _).symm.trans h2) nofun
      have hr : ¬ MixedRec (Has (content sa.static)) ⟨[], name, e, .plain⟩ := by
        intro h
        obtain ⟨x, e', r, r', h1, h2, -⟩ := (mixed_nil rfl).mp h
        cases hn.symm.trans h1
        exact absurd ((hno _).symm.trans h2) nofun
      by_cases hnull : e.isNull = true
      · simp only [if_pos hnull]
        refine ⟨hst, [], by simp, .refl' .nil (fun q e' h => ?_) hc hr⟩
        obtain ⟨x, -, ⟨-, h, -⟩ | ⟨y, r, -, h⟩⟩ := (gives_nil rfl).mp h
        · rcases h with h | h
          · exact h rfl
          · simp only [hnull] at h
            cases h
        · rw [below_plain rfl] at h
          cases e <;> first | (cases hnull; done) | (simp only [statics, content_empty] at h; cases h)
      · simp only [if_neg hnull]
        refine ⟨hst.insert ha ⟨n, name, e, .plain, rfl, fun h => absurd rfl h⟩ he, [], by simp, ?_⟩
        rw [content_insert (a := .attr n name e .plain) ha]
        rw [entry_plain (it := ⟨[], name, e, .plain⟩) rfl]
        refine .new .nil hno rfl rfl (fun r e' h => ?_) (fun q e' h => ?_) hc hr
        · rw [gives_nil rfl, below_plain rfl]
          rcases h with ⟨rfl, rfl⟩ | h
          · exact ⟨n, hn, .inl ⟨rfl, .inr (by simpa using hnull), rfl⟩⟩
          · cases r with
            | nil => cases h
            | cons y r => exact ⟨n, hn, .inr ⟨y, r, rfl, h⟩⟩
        · rw [gives_nil rfl, below_plain rfl] at h
          obtain ⟨x, h1, ⟨rfl, -, rfl⟩ | ⟨y, r, rfl, h2⟩⟩ := h
          · cases hn.symm.trans h1
            exact ⟨[], rfl, .inl ⟨rfl, rfl⟩⟩
          · cases hn.symm.trans h1
            exact ⟨y :: r, rfl, .inr ⟨_, h2, .inl rfl⟩⟩
    | some a =>
      obtain ⟨m, k, v, kd, rfl, hkd⟩ := hst.shape a (find_name ha).2
      obtain rfl : m = n := (find_name ha).1
      have hv : SetOk v := hst.vals _ (find_name ha).2
      have hC := content_one ha
      by_cases hb : bothSets v e
      · obtain ⟨hx, bx, rx, stx, dyx, rfl⟩ := (isSet_cases v).resolve_left hb.1
        obtain ⟨hy, yb, ry, sty, dyy, rfl⟩ := (isSet_cases e).resolve_left hb.2
        rw [insertAttr_merge s hn ha]
        obtain ⟨h1, h2, ds, h3, h4⟩ := mergeStatic_spec sty stx (checkAttrRecursiveForMerge hx.range rx hy.range ry s) he.st hv.st
        obtain ⟨rs, h6, h7, h8⟩ := recDiag hx.range hy.range rx ry s
        rw [entry_set] at hC
        have hkp : kd = .plain := by
          by_cases h : kd = .plain
          · exact h
          · exact absurd rfl (hkd h _ _ _ _ _)
        subst hkp
        refine ⟨hst.set_ (fun k' w' kd' hm hne => ?_) (h1.set _ _ _ _), rs ++ ds, by rw [h3, h6, List.append_assoc], ?_⟩
        · have := find_mem hst.nodup hm
          rw [attrName, ha] at this
          cases this
          exact absurd rfl hne
        have hset : (⟨[], name, .exprAttrs hy yb ry sty dyy, .plain⟩ : Item).isSet := (isSet_iff rfl).mpr ⟨_, _, _, _, _, rfl⟩
        have hdk : ∀ d ∈ ds, d.kind = .duplicatedAttrName := by
          intro d hd
          obtain ⟨y, e, e', -, -, rfl⟩ := (h4 d).mp hd
          rfl
        have hcl : ∀ z n p l, Clash (Has (content sa.static)) ⟨[], name, .exprAttrs hy yb ry sty dyy, .plain⟩ z n p l ↔
            ∃ e e' r, content sty [z] = some e ∧ content stx [z] = some e' ∧ n = e.key ∧ p = e'.key ∧ l = m :: z :: r := by
          intro z n p l
          rw [clash_nil rfl]
          constructor
          · rintro ⟨x, k1, ⟨e, r, k2, k3, -⟩ | ⟨-, e, e', r, k2, k3, k4, k5, k6⟩⟩
            · cases hn.symm.trans k1
              cases hC.symm.trans k2
              exact absurd ⟨⟨_, rfl⟩, hset⟩ k3
            · cases hn.symm.trans k1
              rw [Has, content_some ha (by simp)] at k2
              exact ⟨e', e, r, k3, k2, k4, k5, k6⟩
          · rintro ⟨e, e', r, k1, k2, k3, k4, k5⟩
            refine ⟨m, hn, .inr ⟨hset, e', e, r, ?_, k1, k3, k4, k5⟩⟩
            rw [Has, content_some ha (by simp)]
            exact k2
        rw [content_set ha, entry_set]
        simp only [statics]
        rw [h2]
        refine ⟨?_, ?_, ?_, ?_, ?_, ?_⟩
        · intro q e hq
          cases q with
          | nil => cases hq
          | cons y r =>
            rw [put]
            split
            · rename_i hy
              subst hy
              cases r with
              | nil => rw [if_pos rfl, ← hC, hq]
              | cons z r =>
                rw [content_some ha (by simp)] at hq
                rw [if_neg (by simp)]
                simp only
                rw [if_neg]
                · exact hq
                · intro h
                  simp only [attrValue, statics, content_none h] at hq
                  cases hq
            · exact hq
        · intro q e hq
          cases q with
          | nil => cases hq
          | cons y r =>
            rw [put] at hq
            split at hq
            · rename_i hy
              subst hy
              cases r with
              | nil =>
                rw [if_pos rfl] at hq
                exact .inl (hC.trans hq)
              | cons z r =>
                rw [if_neg (by simp)] at hq
                simp only at hq
                rw [content_some ha (by simp)]
                simp only [attrValue, statics]
                split at hq
                · rename_i h
                  refine .inr ⟨content_none h _, (gives_nil rfl).mpr ⟨y, hn, .inr ⟨z, r, rfl, ?_⟩⟩⟩
                  rw [below_plain rfl]
                  exact hq
                · exact .inl hq
            · exact .inl hq
        · intro q e hg hnc
          obtain ⟨x, k1, ⟨rfl, -, rfl⟩ | ⟨y, r, rfl, k2⟩⟩ := (gives_nil rfl).mp hg
          · cases hn.symm.trans k1
            exact ⟨_, by rw [put, if_pos rfl, if_pos rfl], .inr ⟨⟨_, rfl⟩, hset⟩⟩
          · cases hn.symm.trans k1
            refine ⟨e, ?_, .inl rfl⟩
            rw [put, if_pos rfl, if_neg (by simp)]
            simp only
            rw [below_plain rfl] at k2
            rw [if_pos]
            · exact k2
            · cases hfa : findStatic y stx with
              | none => rfl
              | some a =>
                cases hfa' : findStatic y sty with
                | none =>
                  simp only [statics, content_none hfa'] at k2
                  cases k2
                | some a' => exact absurd ((hcl _ _ _ _).mpr ⟨_, _, r, content_one hfa', content_one hfa, rfl, rfl, rfl⟩) (hnc _ _ _)
        · intro d
          constructor
          · rintro ⟨hd, hk⟩
            rcases List.mem_append.mp hd with hd | hd
            · rw [h7 d hd] at hk
              cases hk
            · obtain ⟨y, e, e', k1, k2, rfl⟩ := (h4 d).mp hd
              exact ⟨y, _, _, _, (hcl _ _ _ _).mpr ⟨e, e', [], k1, k2, rfl, rfl, rfl⟩, rfl⟩
          · rintro ⟨y, n, p, l, k1, rfl⟩
            obtain ⟨e, e', r, k3, k2, rfl, rfl, rfl⟩ := (hcl _ _ _ _).mp k1
            exact ⟨List.mem_append_right _ ((h4 _).mpr ⟨y, e, e', k3, k2, rfl⟩), rfl⟩
        · rw [mixed_nil rfl]
          constructor
          · rintro ⟨d, hd, hk⟩
            rcases List.mem_append.mp hd with hd | hd
            · exact ⟨m, _, _, _, hn, hC, rfl, rfl, h8.mp (List.ne_nil_of_mem hd)⟩
            · rw [hdk d hd] at hk
              cases hk
          · rintro ⟨x, e, r, r', k1, k2, k3, k4, k5⟩
            cases hn.symm.trans k1
            cases hC.symm.trans k2
            cases k3
            cases k4
            obtain ⟨d, hd⟩ := List.exists_mem_of_ne_nil rs (h8.mpr k5)
            exact ⟨d, List.mem_append_left _ hd, h7 d hd⟩
        · intro z n p l hc
          obtain ⟨e, e', r, k1, k2, rfl, rfl, rfl⟩ := (hcl _ _ _ _).mp hc
          rw [put, if_pos rfl, if_neg (by simp), content_some ha (by simp)]
          simp only
          rw [if_neg]
          · rfl
          · intro h
            rw [content_none h] at k2
            cases k2
      · rw [insertAttr_dup s hn ha hb]
        refine ⟨hst, _, rfl, ?_⟩
        have hns : ¬ ((entryOf (.attr m k v kd)).isSet ∧ (⟨[], name, e, .plain⟩ : Item).isSet) := by
          rintro ⟨h1, h2⟩
          refine hb ⟨fun h => entry_notSet h h1, fun h => ?_⟩
          obtain ⟨_, _, _, _, _, h2⟩ := (isSet_iff rfl).mp h2
          exact h _ _ _ _ _ h2
        have := Adds.dup (C := content sa.static) (it := ⟨[], name, e, .plain⟩) (x := m) (n := name) (e := entryOf (.attr m k v kd))
          (fun z n p l => by
            rw [clash_nil rfl]
            constructor
            · rintro ⟨x, k1, ⟨e, r, k2, k3, rfl, rfl, rfl, rfl⟩ | ⟨k0, e, e', r, k2, k3, -⟩⟩
              · cases hn.symm.trans k1
                cases hC.symm.trans k2
                exact ⟨rfl, rfl, rfl, r, rfl⟩
              · cases hn.symm.trans k1
                have hvs : notSet v := (isSet_cases v).resolve_right (by
                  rintro ⟨_, _, _, _, _, rfl⟩
                  exact hns ⟨by rw [entry_set]; exact ⟨_, rfl⟩, k0⟩)
                rw [Has, content_some ha (by simp)] at k2
                simp only [attrValue, statics_notSet hvs, content_empty] at k2
                cases k2
            · rintro ⟨rfl, rfl, rfl, r, rfl⟩
              exact ⟨_, hn, .inl ⟨_, r, hC, hns, rfl, rfl, rfl, rfl⟩⟩)
          (fun q e' hg => by
            obtain ⟨x, k1, ⟨rfl, -⟩ | ⟨y, r, rfl, -⟩⟩ := (gives_nil rfl).mp hg
            · cases hn.symm.trans k1
              exact ⟨[], rfl⟩
            · cases hn.symm.trans k1
              exact ⟨_, rfl⟩)
          (fun h => by
            obtain ⟨x, _, r, r', h1, h2, h3, h4, h5⟩ := (mixed_nil rfl).mp h
            cases hn.symm.trans h1
            cases hC.symm.trans h2
            exact hns ⟨⟨r, h3⟩, ⟨r', h4⟩⟩)
        rw [entry_key] at this
        exact this

/-- The binding with this path and value. -/
def bindingItem (names : List Node) (v : Node) : Item := ⟨names.dropLast.filter (!·.isNull), names.getLastD .null, v, .plain⟩

theorem not_clash_empty {it : Item} {z : Bytes} {n p : Node} {l : List Bytes} : ¬ Clash (Has (content [])) it z n p l := by
  intro h
  cases h with
  | dir pre n post q x e _ _ _ _ h => rw [Has, content_empty] at h; cases h
  | bound q x e _ _ _ h => rw [Has, content_empty] at h; cases h
  | both q x y e e' _ _ _ _ h => rw [Has, content_empty] at h; cases h

theorem not_mixed_empty {it : Item} : ¬ MixedRec (Has (content [])) it := by
  rintro ⟨q, x, e, r, r', _, _, h, _⟩
  rw [Has, content_empty] at h
  cases h

theorem Adds.silent {D : Content} {it : Item} {ds : List Diagnostic} (h : Adds (content []) D it ds) : Silent ds := by
  intro d hd
  exact ⟨fun hk => let ⟨_, _, _, _, hc, _⟩ := (h.clash d).mp ⟨hd, hk⟩; not_clash_empty hc, fun hk => not_mixed_empty (h.recs.mp ⟨d, hd, hk⟩)⟩

theorem Adds.fresh {C D : Content} {it : Item} {ds : List Diagnostic} {d : Node} {dirs : List Node} {x : Bytes} (hd : it.dirs = d :: dirs)
    (hx : d.staticName? = some x) (h : Adds (content []) D it.tail ds) (hC : ∀ r, C (x :: r) = none) (hn : C [] = none) (hD : D [] = none) :
    Adds C (put C x ⟨d, .set false⟩ D) it ds := by
  refine .new h.silent hC hn hD (fun r e' hr => ?_) (fun q e' hg => ?_) (fun _ _ _ _ hc => ?_) (fun hc => ?_)
  · refine (gives_cons hd).mpr ⟨x, r, hx, rfl, hr.imp id fun hr => ?_⟩
    rcases h.sound _ _ hr with k | k
    · rw [content_empty] at k; cases k
    · exact k.2
  · obtain ⟨y, r, k1, rfl, k2⟩ := (gives_cons hd).mp hg
    cases hx.symm.trans k1
    exact ⟨r, rfl, k2.imp id fun k2 => h.full _ _ k2 fun _ _ _ => not_clash_empty⟩
  · obtain ⟨y, _, k1, -, ⟨e, k2, -⟩ | k2⟩ := (clash_cons hd).mp hc
    · cases hx.symm.trans k1
      exact absurd ((hC _).symm.trans k2) nofun
    · cases hx.symm.trans k1
      refine not_clash_empty (k2.mono fun q e _ k => ?_)
      exact absurd ((hC _).symm.trans k) nofun
  · obtain ⟨y, k1, k2⟩ := (mixed_cons hd).mp hc
    cases hx.symm.trans k1
    refine not_mixed_empty (k2.mono fun q e _ k => ?_)
    exact absurd ((hC _).symm.trans k) nofun

theorem Adds.under {C C1 D : Content} {it : Item} {ds : List Diagnostic} {d : Node} {dirs : List Node} {x : Bytes} {e : Entry} (hd : it.dirs = d :: dirs)
    (hx : d.staticName? = some x) (h : Adds C1 D it.tail ds) (hC : ∀ r, r ≠ [] → C (x :: r) = C1 r) (hn : C [] = none)
    (he : C [x] = some e) (hes : e.isSet) : Adds C (put C x e D) it ds where
  keep q e' hq := by
    cases q with
    | nil => rw [hn] at hq; cases hq
    | cons y r =>
      rw [put]
      split
      · rename_i hy
        subst hy
        split
        · rename_i hr
          subst hr
          rw [← hq, he]
        · rename_i hr
          rw [hC r hr] at hq
          exact h.keep _ _ hq
      · exact hq
  sound q e' hq := by
    cases q with
    | nil => cases hq
    | cons y r =>
      rw [put] at hq
      split at hq
      · rename_i hy
        subst hy
        split at hq
        · rename_i hr
          subst hr
          exact .inl (he.trans hq)
        · rename_i hr
          rw [hC r hr]
          refine (h.sound _ _ hq).imp id fun k => ⟨k.1, ?_⟩
          exact (gives_cons hd).mpr ⟨y, r, hx, rfl, .inr k.2⟩
      · exact .inl hq
  full q e' hg hnc := by
    obtain ⟨y, r, k1, rfl, k2⟩ := (gives_cons hd).mp hg
    cases hx.symm.trans k1
    rw [put, if_pos rfl]
    rcases k2 with ⟨rfl, rfl⟩ | k2
    · exact ⟨e, by rw [if_pos rfl], .inr ⟨hes, ⟨_, rfl⟩⟩⟩
    · rw [if_neg (gives_ne_nil k2)]
      refine h.full _ _ k2 (fun z n p hc => hnc z n p ?_)
      refine (clash_cons hd).mpr ⟨x, r, hx, rfl, .inr (hc.mono fun q e hq k => ?_)⟩
      rw [Has, hC q hq]
      exact k
  clash d' := by
    rw [h.clash]
    constructor
    · rintro ⟨z, n, p, l, hc, rfl⟩
      refine ⟨z, n, p, x :: l, (clash_cons hd).mpr ⟨x, l, hx, rfl, .inr (hc.mono fun q e hq k => ?_)⟩, rfl⟩
      rw [Has, hC q hq]
      exact k
    · rintro ⟨z, n, p, l, hc, rfl⟩
      obtain ⟨y, r, k1, rfl, ⟨e', k2, k3, -⟩ | k2⟩ := (clash_cons hd).mp hc
      · cases hx.symm.trans k1
        cases he.symm.trans k2
        exact absurd hes k3
      · cases hx.symm.trans k1
        refine ⟨z, n, p, r, k2.mono fun q e hq k => ?_, rfl⟩
        rw [Has, ← hC q hq]
        exact k
  recs := by
    rw [h.recs, mixed_cons hd]
    constructor
    · intro hc
      refine ⟨x, hx, hc.mono fun q e hq k => ?_⟩
      rw [Has, hC q hq]
      exact k
    · rintro ⟨y, k1, k2⟩
      cases hx.symm.trans k1
      refine k2.mono fun q e hq k => ?_
      rw [Has, ← hC q hq]
      exact k
  lost z n p l hc := by
    obtain ⟨y, r, k1, rfl, ⟨e', k2, k3, -⟩ | k2⟩ := (clash_cons hd).mp hc
    · cases hx.symm.trans k1
      cases he.symm.trans k2
      exact absurd hes k3
    · cases hx.symm.trans k1
      have hr : r ≠ [] := by
        cases k2 <;> simp
      rw [put, if_pos rfl, if_neg hr, hC r hr]
      refine h.lost z n p r (k2.mono fun q e hq k => ?_)
      rw [Has, ← hC q hq]
      exact k

theorem addAttr_adds (sa : SA) (path : List Node) (e : Node) (s : SemaSt) (hst : StOk sa.static) (he : SetOk e) :
    StOk (addAttr sa path e s).1.static ∧ ∃ ds, (addAttr sa path e s).2.diags = s.diags ++ ds ∧
      Adds (content sa.static) (content (addAttr sa path e s).1.static) (bindingItem path e) ds := by
  induction path generalizing sa s with
  | nil =>
    refine ⟨hst, [], by simp [addAttr], .refl' .nil (fun q e' h => ?_) (fun _ _ _ _ h => ?_) (fun h => ?_)⟩
    · obtain ⟨x, h, -⟩ := (gives_nil rfl).mp h
      cases h
    · obtain ⟨x, h, -⟩ := (clash_nil rfl).mp h
      cases h
    · obtain ⟨x, _, _, _, h, -⟩ := (mixed_nil rfl).mp h
      cases h
  | cons name rest ih =>
    cases rest with
    | nil =>
      simp only [addAttr]
      split
      · rename_i hnull
        have : name.staticName? = none := by cases name <;> first | rfl | cases hnull
        refine ⟨hst, [], by simp, .refl' .nil (fun q e' h => ?_) (fun _ _ _ _ h => ?_) (fun h => ?_)⟩
        · obtain ⟨x, h, -⟩ := (gives_nil rfl).mp h
          exact absurd (this.symm.trans h) nofun
        · obtain ⟨x, h, -⟩ := (clash_nil rfl).mp h
          exact absurd (this.symm.trans h) nofun
        · obtain ⟨x, _, _, _, h, -⟩ := (mixed_nil rfl).mp h
          exact absurd (this.symm.trans h) nofun
      · exact insertAttr_adds sa name e s hst he
    | cons name2 rest =>
      have hlast : (name :: name2 :: rest).getLastD .null = (name2 :: rest).getLastD .null := by
        rw [List.getLastD_cons, List.getLastD_cons, List.getLastD_cons]
      by_cases hnull : name.isNull = true
      · have hit : bindingItem (name :: name2 :: rest) e = bindingItem (name2 :: rest) e := by
          simp only [bindingItem, hlast, List.dropLast_cons_cons, List.filter_cons, hnull]
          rfl
        have : addAttr sa (name :: name2 :: rest) e s = addAttr sa (name2 :: rest) e s := by
          conv => lhs; unfold addAttr
          simp only [hnull, if_true]
        rw [this, hit]
        exact ih sa s hst
      · have hd : (bindingItem (name :: name2 :: rest) e).dirs = name :: (bindingItem (name2 :: rest) e).dirs := by
          simp only [bindingItem, List.dropLast_cons_cons, List.filter_cons, hnull]
          rfl
        have ht : (bindingItem (name :: name2 :: rest) e).tail = bindingItem (name2 :: rest) e := by
          unfold Item.tail
          rw [hd]
          simp only [bindingItem, hlast, List.tail_cons]
        cases hn : name.staticName? with
        | none =>
          have heq : addAttr sa (name :: name2 :: rest) e s =
              ({ sa with dynamic := sa.dynamic ++ [.attr [] name (.exprAttrs ⟨s.next, name.range⟩ .null .null
                (addAttr {} (name2 :: rest) e { s with next := s.next + 1 }).1.static
                (addAttr {} (name2 :: rest) e { s with next := s.next + 1 }).1.dynamic) .plain] },
               (addAttr {} (name2 :: rest) e { s with next := s.next + 1 }).2) := by
            conv => lhs; unfold addAttr
            simp only [hnull, hn]
            rfl
          rw [heq]
          obtain ⟨h1, ds, h2, h3⟩ := ih {} { s with next := s.next + 1 } .nil
          refine ⟨hst, ds, h2, .refl' h3.silent (fun q e' h => ?_) (fun _ _ _ _ h => ?_) (fun h => ?_)⟩
          · obtain ⟨x, _, h, -⟩ := (gives_cons hd).mp h
            exact absurd (hn.symm.trans h) nofun
          · obtain ⟨x, _, h, -⟩ := (clash_cons hd).mp h
            exact absurd (hn.symm.trans h) nofun
          · obtain ⟨x, h, -⟩ := (mixed_cons hd).mp h
            exact absurd (hn.symm.trans h) nofun
        | some n =>
          cases ha : findStatic n sa.static with
          | none =>
            have heq : addAttr sa (name :: name2 :: rest) e s =
                ({ sa with static := insertStatic (.attr n name (.exprAttrs ⟨s.next, name.range⟩ .null .null
                  (addAttr {} (name2 :: rest) e { s with next := s.next + 1 }).1.static
                  (addAttr {} (name2 :: rest) e { s with next := s.next + 1 }).1.dynamic) .plain) sa.static },
                 (addAttr {} (name2 :: rest) e { s with next := s.next + 1 }).2) := by
              conv => lhs; unfold addAttr
              simp only [hnull, hn, ha]
              rfl
            rw [heq]
            obtain ⟨h1, ds, h2, h3⟩ := ih {} { s with next := s.next + 1 } .nil
            refine ⟨hst.insert ha ⟨_, _, _, _, rfl, fun h => absurd rfl h⟩ (h1.set _ _ _ _), ds, h2, ?_⟩
            rw [content_insert (a := .attr n name (.exprAttrs _ _ _ _ _) .plain) ha, entry_set]
            rw [← ht] at h3
            exact .fresh hd hn h3 (content_none ha) rfl rfl
          | some a =>
            obtain ⟨m, k, v, kd, rfl, hkd⟩ := hst.shape a (find_name ha).2
            obtain rfl : m = n := (find_name ha).1
            have hv : SetOk v := hst.vals _ (find_name ha).2
            have hC := content_one ha
            rcases isSet_cases v with hvs | ⟨hx, bx, rx, stx, dyx, rfl⟩
            · have heq : addAttr sa (name :: name2 :: rest) e s = (sa, dupAttr m name.range k.range s) := by
                conv => lhs; unfold addAttr
                simp only [hnull, hn, ha, attrValue, attrKey]
                simp only [Bool.false_eq_true, if_false]
                split
                · exact absurd rfl (hvs _ _ _ _ _)
                · rfl
              rw [heq]
              refine ⟨hst, _, rfl, ?_⟩
              have hnone : ∀ r, r ≠ [] → content sa.static (m :: r) = none := by
                intro r hr
                rw [content_some ha hr]
                simp only [attrValue, statics_notSet hvs, content_empty]
              have := Adds.dup (C := content sa.static) (it := bindingItem (name :: name2 :: rest) e) (x := m) (n := name)
                (e := entryOf (.attr m k v kd))
                (fun z n p l => by
                  rw [clash_cons hd]
                  constructor
                  · rintro ⟨x, r, k1, rfl, ⟨e, k2, k3, rfl, rfl, rfl⟩ | k2⟩
                    · cases hn.symm.trans k1
                      cases hC.symm.trans k2
                      exact ⟨rfl, rfl, rfl, r, rfl⟩
                    · cases hn.symm.trans k1
                      refine absurd (k2.mono fun q e hq k => ?_) not_clash_empty
                      rw [Has, hnone q hq] at k
                      cases k
                  · rintro ⟨rfl, rfl, rfl, r, rfl⟩
                    exact ⟨_, r, hn, rfl, .inl ⟨_, hC, entry_notSet hvs, rfl, rfl, rfl⟩⟩)
                (fun q e' hg => by
                  obtain ⟨x, r, k1, rfl, -⟩ := (gives_cons hd).mp hg
                  cases hn.symm.trans k1
                  exact ⟨r, rfl⟩)
                (fun h => by
                  obtain ⟨x, k1, k2⟩ := (mixed_cons hd).mp h
                  cases hn.symm.trans k1
                  refine not_mixed_empty (k2.mono fun q e hq k => ?_)
                  rw [Has, hnone q hq] at k
                  cases k)
              rw [entry_key] at this
              exact this
            · have hkp : kd = .plain := by
                by_cases h : kd = .plain
                · exact h
                · exact absurd rfl (hkd h _ _ _ _ _)
              subst hkp
              have heq : addAttr sa (name :: name2 :: rest) e s =
                  ({ sa with static := setStatic m (.exprAttrs hx bx rx (addAttr ⟨stx, dyx⟩ (name2 :: rest) e s).1.static
                    (addAttr ⟨stx, dyx⟩ (name2 :: rest) e s).1.dynamic) sa.static },
                   (addAttr ⟨stx, dyx⟩ (name2 :: rest) e s).2) := by
                conv => lhs; unfold addAttr
                simp only [hnull, hn, ha, attrValue, attrFromInherit]
                rfl
              rw [heq]
              obtain ⟨h1, ds, h2, h3⟩ := ih ⟨stx, dyx⟩ s hv.st
              refine ⟨hst.set_ (fun k' w' kd' hm hne => ?_) (h1.set _ _ _ _), ds, h2, ?_⟩
              · have := find_mem hst.nodup hm
                rw [attrName, ha] at this
                cases this
                exact absurd rfl hne
              · rw [content_set ha, entry_set]
                rw [← ht] at h3
                rw [entry_set] at hC
                exact .under hd hn h3 (fun r hr => content_some ha hr) rfl hC ⟨_, rfl⟩

/-! ### Inherited names -/

/-- One name of `inherit`, with the expression in parentheses or `null`. -/
def inheritItem (e name : Node) : Item := ⟨[], name, e, if e.isNull then .inherit else .inheritFrom⟩

theorem desugar_cases (name e : Node) (s : SemaSt) :
    (desugarInheritExpr name e s).2.2.diags = s.diags ∧
    ((e.isNull = true ∧ (desugarInheritExpr name e s).2.1 = .inherit ∧ ∃ h i, (desugarInheritExpr name e s).1 = .exprVar h i) ∨
     (e.isNull = false ∧ (desugarInheritExpr name e s).2.1 = .inheritFrom ∧ ∃ h d p r t, (desugarInheritExpr name e s).1 = .exprSelect h e d p r t)) := by
  unfold desugarInheritExpr
  split
  · rename_i h
    refine ⟨by split <;> rfl, .inl ⟨h, by split <;> rfl, ?_⟩⟩
    split <;> exact ⟨_, _, rfl⟩
  · rename_i h
    exact ⟨rfl, .inr ⟨by simpa using h, rfl, _, _, _, _, _, rfl⟩⟩

theorem lowerInheritName_adds (sa : SA) (name e : Node) (s : SemaSt) (hst : StOk sa.static) :
    let d := desugarInheritExpr name e s
    StOk (lowerInheritName sa name d.1 d.2.1 d.2.2).1.static ∧ ∃ ds, (lowerInheritName sa name d.1 d.2.1 d.2.2).2.diags = s.diags ++ ds ∧
      Adds (content sa.static) (content (lowerInheritName sa name d.1 d.2.1 d.2.2).1.static) (inheritItem e name) ds := by
  obtain ⟨hdd, hcase⟩ := desugar_cases name e s
  generalize desugarInheritExpr name e s = d at hdd hcase
  obtain ⟨v, kd, s1⟩ := d
  simp only at hdd hcase ⊢
  have hv : notSet v := by
    rcases hcase with ⟨-, -, _, _, rfl⟩ | ⟨-, -, _, _, _, _, _, rfl⟩ <;> exact nofun
  have hent : ∀ n, entryOf (.attr n name v kd) = ⟨name, (inheritItem e name).val⟩ := by
    intro n
    rcases hcase with ⟨h, rfl, _, _, rfl⟩ | ⟨h, rfl, _, _, _, _, _, rfl⟩ <;> simp [inheritItem, Item.val, h, entryOf]
  have hkind : (inheritItem e name).kind = kd ∧ kd ≠ .plain := by
    rcases hcase with ⟨h, rfl, _, _, rfl⟩ | ⟨h, rfl, _, _, _, _, _, rfl⟩ <;> simp [inheritItem, h]
  have hbelow : ∀ q, (inheritItem e name).below q = none := by
    intro q
    unfold Item.below
    rw [hkind.1]
    cases kd <;> first | rfl | exact absurd rfl hkind.2
  have hns : ¬ (inheritItem e name).isSet := by
    rintro ⟨r, hr⟩
    unfold Item.val at hr
    rw [hkind.1] at hr
    cases kd <;> first | (cases hr; done) | exact absurd rfl hkind.2
  have hmix : ∀ C, ¬ MixedRec (Has C) (inheritItem e name) := by
    intro C h
    obtain ⟨x, _, r, r', h1, h2, h3, h4, h5⟩ := (mixed_nil rfl).mp h
    exact hns ⟨r', h4⟩
  have hdyn : name.staticName? = none → ∀ ds, Silent ds → Adds (content sa.static) (content sa.static) (inheritItem e name) ds := by
    intro hn ds hds
    refine .refl' hds (fun q e' h => ?_) (fun _ _ _ _ h => ?_) (hmix _)
    · obtain ⟨x, h, -⟩ := (gives_nil rfl).mp h
      exact absurd (hn.symm.trans h) nofun
    · obtain ⟨x, h, -⟩ := (clash_nil rfl).mp h
      exact absurd (hn.symm.trans h) nofun
  unfold lowerInheritName
  split
  · rename_i hnull
    refine ⟨hst, [], by simp [hdd], hdyn ?_ [] .nil⟩
    cases name <;> first | rfl | cases hnull
  · split
    · rename_i hn
      refine ⟨hst, [_], by rw [← hdd]; rfl, hdyn hn _ ?_⟩
      intro d hd
      rw [List.mem_singleton.mp hd]
      exact ⟨nofun, nofun⟩
    · rename_i n hn
      split
      · rename_i a ha
        obtain ⟨m, k, w, kd', rfl, hkd⟩ := hst.shape a (find_name ha).2
        obtain rfl : m = n := (find_name ha).1
        have hC := content_one ha
        refine ⟨hst, [dupDiag m name k], by rw [← hdd]; rfl, ?_⟩
        have := Adds.dup (C := content sa.static) (it := inheritItem e name) (x := m) (n := name) (e := entryOf (.attr m k w kd'))
          (fun z n p l => by
            rw [clash_nil rfl]
            constructor
            · rintro ⟨x, k1, ⟨e, r, k2, k3, rfl, rfl, rfl, rfl⟩ | ⟨k0, _⟩⟩
              · cases hn.symm.trans k1
                cases hC.symm.trans k2
                exact ⟨rfl, rfl, rfl, r, rfl⟩
              · exact absurd k0 hns
            · rintro ⟨rfl, rfl, rfl, r, rfl⟩
              exact ⟨_, hn, .inl ⟨_, r, hC, fun h => hns h.2, rfl, rfl, rfl, rfl⟩⟩)
          (fun q e' hg => by
            obtain ⟨x, k1, ⟨rfl, -⟩ | ⟨y, r, rfl, -⟩⟩ := (gives_nil rfl).mp hg
            · cases hn.symm.trans k1
              exact ⟨[], rfl⟩
            · cases hn.symm.trans k1
              exact ⟨_, rfl⟩)
          (hmix _)
        rw [entry_key] at this
        exact this
      · rename_i ha
        refine ⟨hst.insert ha ⟨_, _, _, _, rfl, fun _ => hv⟩ (.leaf _ hv), [], by simp [hdd], ?_⟩
        have hno := content_none ha
        rw [content_insert (a := .attr n name v kd) ha, hent]
        refine .new .nil hno rfl rfl (fun r e' h => ?_) (fun q e' h => ?_) (fun z n' p l h => ?_) (hmix _)
        · rcases h with ⟨rfl, rfl⟩ | h
          · refine (gives_nil rfl).mpr ⟨n, hn, .inl ⟨rfl, .inl ?_, rfl⟩⟩
            rw [hkind.1]
            exact hkind.2
          · simp only [attrValue, statics_notSet hv, content_empty] at h
            cases h
        · obtain ⟨x, h1, ⟨rfl, -, rfl⟩ | ⟨y, r, rfl, h2⟩⟩ := (gives_nil rfl).mp h
          · cases hn.symm.trans h1
            exact ⟨[], rfl, .inl ⟨rfl, rfl⟩⟩
          · rw [hbelow] at h2
            cases h2
        · obtain ⟨x, h1, ⟨e', _, h2, -⟩ | ⟨h0, -⟩⟩ := (clash_nil rfl).mp h
          · cases hn.symm.trans h1
            exact absurd ((hno _).symm.trans h2) nofun
          · exact hns h0

/-! ### All bindings -/

/-- Adding bindings one after the other. -/
inductive Chain : Content → List Item → List Diagnostic → Content → Prop
  | nil (C) : Chain C [] [] C
  | cons (C C1 C2 it its ds ds') : Adds C C1 it ds → Chain C1 its ds' C2 → Chain C (it :: its) (ds ++ ds') C2

theorem Chain.append {C C1 C2 : Content} {a b : List Item} {ds ds' : List Diagnostic} (h1 : Chain C a ds C1) (h2 : Chain C1 b ds' C2) :
    Chain C (a ++ b) (ds ++ ds') C2 := by
  induction h1 with
  | nil => exact h2
  | cons C C' C'' it its d1 d2 h _ ih =>
    rw [List.append_assoc]
    exact .cons _ _ _ _ _ _ _ h (ih h2)

theorem lowerInherit_chain (sa : SA) (e : Node) (names : List Node) (s : SemaSt) (hst : StOk sa.static) :
    StOk (lowerInherit sa e names s).1.static ∧ ∃ ds, (lowerInherit sa e names s).2.diags = s.diags ++ ds ∧
      Chain (content sa.static) (names.map (inheritItem e)) ds (content (lowerInherit sa e names s).1.static) := by
  induction names generalizing sa s with
  | nil => exact ⟨hst, [], by simp [lowerInherit], .nil _⟩
  | cons name names ih =>
    obtain ⟨h1, ds, h2, h3⟩ := lowerInheritName_adds sa name e s hst
    obtain ⟨h4, ds', h5, h6⟩ := ih _ _ h1
    refine ⟨h4, ds ++ ds', ?_, .cons _ _ _ _ _ _ _ h3 h6⟩
    rw [← List.append_assoc, ← h2]
    exact h5

/-- The value of a binding, if it is one. -/
def bindingValue : Node → Node
  | .binding _ _ _ v => v
  | _ => .null

theorem lowerBinds_chain (sa : SA) (bs : List Node) (s : SemaSt) (hst : StOk sa.static) (hv : ∀ b ∈ bs, SetOk (bindingValue b)) :
    StOk (lowerBinds sa bs s).1.static ∧ ∃ ds, (lowerBinds sa bs s).2.diags = s.diags ++ ds ∧
      Chain (content sa.static) (items bs) ds (content (lowerBinds sa bs s).1.static) := by
  fun_induction lowerBinds sa bs s with
  | case1 sa s => exact ⟨hst, [], by simp, .nil _⟩
  | case2 sa h names e bs s sa1 s1 heq ih =>
    obtain ⟨h1, ds, h2, h3⟩ := lowerInherit_chain sa e names s hst
    rw [heq] at h1 h2 h3
    obtain ⟨h4, ds', h5, h6⟩ := ih h1 (fun b hb => hv b (List.mem_cons_of_mem _ hb))
    refine ⟨h4, ds ++ ds', ?_, h3.append h6⟩
    rw [h5, h2, List.append_assoc]
  | case3 sa h h' names dots eq v bs s sa1 s1 heq ih =>
    obtain ⟨h1, ds, h2, h3⟩ := addAttr_adds sa names v s hst (hv _ List.mem_cons_self)
    rw [heq] at h1 h2 h3
    obtain ⟨h4, ds', h5, h6⟩ := ih h1 (fun b hb => hv b (List.mem_cons_of_mem _ hb))
    refine ⟨h4, ds ++ ds', ?_, .cons _ _ _ _ _ _ _ h3 h6⟩
    rw [h5, h2, List.append_assoc]
  | case4 sa b bs s hb1 hb2 ih =>
    obtain ⟨h4, ds', h5, h6⟩ := ih hst (fun b hb => hv b (List.mem_cons_of_mem _ hb))
    refine ⟨h4, ds', h5, ?_⟩
    have : items (b :: bs) = items bs := by
      cases b
      case inherit => exact absurd rfl (hb1 _ _ _)
      case binding h p e v =>
        cases p
        case attrPath => exact absurd rfl (hb2 _ _ _ _ _ _)
        all_goals rfl
      all_goals rfl
    rw [this]
    exact h6

theorem gives_fun {it : Item} {q : List Bytes} {e e' : Entry} (h : Gives it q e) (h' : Gives it q e') : e = e' := by
  obtain ⟨dirs, last, value, kind⟩ := it
  induction dirs generalizing q with
  | nil =>
    obtain ⟨x, h1, h2⟩ := (gives_nil rfl).mp h
    obtain ⟨x', h1', h2'⟩ := (gives_nil rfl).mp h'
    rcases h2 with ⟨rfl, -, rfl⟩ | ⟨y, r, rfl, h2⟩ <;> rcases h2' with ⟨h3, -, rfl⟩ | ⟨y', r', h3, h2'⟩
    · rfl
    · cases h3
    · cases h3
    · cases h3
      exact Option.some.inj (h2.symm.trans h2')
  | cons d ds ih =>
    obtain ⟨x, r, h1, rfl, h2⟩ := (gives_cons rfl).mp h
    obtain ⟨x', r', h1', h3, h2'⟩ := (gives_cons rfl).mp h'
    cases h3
    rcases h2 with ⟨rfl, rfl⟩ | h2 <;> rcases h2' with ⟨h3, rfl⟩ | h2'
    · rfl
    · exact absurd rfl (gives_ne_nil h2')
    · exact absurd h3 (gives_ne_nil h2)
    · exact ih h2 h2'

theorem Adds.exact {C C' : Content} {it : Item} {ds : List Diagnostic} (h : Adds C C' it ds) (q : List Bytes) (e : Entry) :
    C' q = some e ↔ C q = some e ∨ ((∀ e', ¬ C q = some e') ∧ Gives it q e ∧ ∀ x n p, ¬ Clash (Has C) it x n p q) := by
  constructor
  · intro hq
    rcases h.sound q e hq with k | ⟨k1, k2⟩
    · exact .inl k
    · refine .inr ⟨by rw [k1]; exact nofun, k2, fun x n p hc => ?_⟩
      rw [h.lost x n p q hc, k1] at hq
      cases hq
  · rintro (k | ⟨k1, k2, k3⟩)
    · exact h.keep q e k
    · obtain ⟨e', k4, -⟩ := h.full q e k2 k3
      rcases h.sound q e' k4 with k | ⟨-, k⟩
      · exact absurd k (k1 _)
      · rw [gives_fun k2 k]
        exact k4

theorem Clash.congr {E E' : List Bytes → Entry → Prop} (h : ∀ q e, E q e ↔ E' q e) : E = E' := by
  funext q e
  exact propext (h q e)

/-- The chain from the empty set, with the contents as unions of bindings. -/
theorem Chain.union {C C' : Content} {its pre : List Item} {ds : List Diagnostic} (h : Chain C its ds C') (hC : Has C = Joint pre) :
    Has C' = Joint (its.reverse ++ pre) := by
  induction h generalizing pre with
  | nil => exact hC
  | cons C C1 C2 it its d1 d2 h _ ih =>
    rw [List.reverse_cons, List.append_assoc]
    refine ih ?_
    funext q e
    show (C1 q = some e) = _
    rw [propext (h.exact q e)]
    simp only [List.singleton_append, Joint]
    rw [← hC]
    rfl

theorem Chain.diags {C C' : Content} {its pre : List Item} {ds : List Diagnostic} (h : Chain C its ds C') (hC : Has C = Joint pre) (d : Diagnostic) :
    (d ∈ ds ∧ d.kind = .duplicatedAttrName) ↔ ∃ a it b, its = a ++ it :: b ∧ ∃ x n p q, Clash (Joint (a.reverse ++ pre)) it x n p q ∧ d = dupDiag x n p := by
  induction h generalizing pre with
  | nil => simp
  | cons C C1 C2 it its d1 d2 h hc ih =>
    have h1 : Has C1 = Joint (it :: pre) := (Chain.cons _ _ _ _ _ _ _ h (.nil _)).union hC
    rw [List.mem_append, or_and_right, h.clash d, ih h1, hC]
    constructor
    · rintro (h2 | ⟨a, it', b, rfl, h2⟩)
      · exact ⟨[], it, its, rfl, h2⟩
      · refine ⟨it :: a, it', b, rfl, ?_⟩
        rw [List.reverse_cons, List.append_assoc]
        exact h2
    · rintro ⟨a, it', b, h3, h2⟩
      cases a with
      | nil => cases h3; exact .inl h2
      | cons i a =>
        cases h3
        rw [List.reverse_cons, List.append_assoc] at h2
        exact .inr ⟨a, it', b, rfl, h2⟩

theorem Chain.recs {C C' : Content} {its pre : List Item} {ds : List Diagnostic} (h : Chain C its ds C') (hC : Has C = Joint pre) :
    (∃ d ∈ ds, d.kind = .mergeDiffRec) ↔ ∃ a it b, its = a ++ it :: b ∧ MixedRec (Joint (a.reverse ++ pre)) it := by
  induction h generalizing pre with
  | nil => simp
  | cons C C1 C2 it its d1 d2 h hc ih =>
    have h1 : Has C1 = Joint (it :: pre) := (Chain.cons _ _ _ _ _ _ _ h (.nil _)).union hC
    have : (∃ d ∈ d1 ++ d2, d.kind = .mergeDiffRec) ↔ (∃ d ∈ d1, d.kind = .mergeDiffRec) ∨ (∃ d ∈ d2, d.kind = .mergeDiffRec) := by
      simp only [List.mem_append, or_and_right, exists_or]
    rw [this, h.recs, ih h1, hC]
    constructor
    · rintro (h2 | ⟨a, it', b, rfl, h2⟩)
      · exact ⟨[], it, its, rfl, h2⟩
      · refine ⟨it :: a, it', b, rfl, ?_⟩
        rw [List.reverse_cons, List.append_assoc]
        exact h2
    · rintro ⟨a, it', b, h3, h2⟩
      cases a with
      | nil => cases h3; exact .inl h2
      | cons i a =>
        cases h3
        rw [List.reverse_cons, List.append_assoc] at h2
        exact .inr ⟨a, it', b, rfl, h2⟩

theorem union_gives {its : List Item} {q : List Bytes} {e : Entry} (h : Joint its q e) : ∃ it ∈ its, Gives it q e := by
  induction its with
  | nil => cases h
  | cons it its ih =>
    rcases h with h | ⟨-, h, -⟩
    · obtain ⟨it', h1, h2⟩ := ih h
      exact ⟨it', List.mem_cons_of_mem _ h1, h2⟩
    · exact ⟨it, List.mem_cons_self, h⟩

theorem Clash.ex {E : List Bytes → Entry → Prop} {it : Item} {x : Bytes} {n p : Node} {l : List Bytes} (h : Clash E it x n p l) :
    ∃ q e, E q e ∧ ∀ E', (∃ e', E' q e' ∧ (e' = e ∨ (e'.isSet ∧ e.isSet))) → ∃ p', Clash E' it x n p' l := by
  cases h with
  | dir pre n post q x e r h1 h2 h3 h4 h5 =>
    refine ⟨_, e, h4, fun E' ⟨e', h6, h7⟩ => ⟨_, .dir pre n post q x e' r h1 h2 h3 h6 ?_⟩⟩
    rcases h7 with rfl | h7
    · exact h5
    · exact absurd h7.2 h5
  | bound q x e r h1 h2 h3 h4 =>
    refine ⟨_, e, h3, fun E' ⟨e', h6, h7⟩ => ⟨_, .bound q x e' r h1 h2 h6 ?_⟩⟩
    rcases h7 with rfl | h7
    · exact h4
    · exact fun h8 => h4 ⟨h7.2, h8.2⟩
  | both q x y e e0 r h1 h2 h3 h4 h5 =>
    exact ⟨_, e, h4, fun E' ⟨e', h6, h7⟩ => ⟨_, .both q x _ e' e0 r h1 h2 h3 h6 h5⟩⟩

theorem Chain.keep {C C' : Content} {its : List Item} {ds : List Diagnostic} (h : Chain C its ds C') {q : List Bytes} {e : Entry}
    (hq : C q = some e) : C' q = some e := by
  induction h with
  | nil => exact hq
  | cons C C1 C2 it its d1 d2 h _ ih => exact ih (h.keep _ _ hq)

/-- Without clashes nothing is lost. -/
theorem Chain.full {C C' : Content} {its : List Item} {ds : List Diagnostic} (h : Chain C its ds C') (hds : ∀ d ∈ ds, d.kind ≠ .duplicatedAttrName)
    {it : Item} (hi : it ∈ its) {q : List Bytes} {e : Entry} (hg : Gives it q e) : ∃ e', C' q = some e' ∧ (e' = e ∨ (e'.isSet ∧ e.isSet)) := by
  induction h with
  | nil => cases hi
  | cons C C1 C2 it' its d1 d2 h hc ih =>
    rcases List.mem_cons.mp hi with rfl | hi
    · obtain ⟨e', h1, h2⟩ := h.full q e hg (fun x n p hcl => by
        obtain ⟨h1, h2⟩ := (h.clash _).mpr ⟨x, n, p, q, hcl, rfl⟩
        exact hds _ (List.mem_append_left _ h1) h2)
      exact ⟨e', hc.keep h1, h2⟩
    · exact ih (fun d hd => hds d (List.mem_append_right _ hd)) hi

theorem Chain.split {C C' : Content} {a : List Item} {it : Item} {b : List Item} {ds : List Diagnostic} (h : Chain C (a ++ it :: b) ds C') :
    ∃ C1 C2 d1 d2 d3, Chain C a d1 C1 ∧ Adds C1 C2 it d2 ∧ Chain C2 b d3 C' ∧ ds = d1 ++ d2 ++ d3 := by
  induction a generalizing C ds with
  | nil =>
    cases h with
    | cons _ C1 _ _ _ d1 d2 h hc => exact ⟨C, C1, [], d1, d2, .nil _, h, hc, rfl⟩
  | cons i a ih =>
    cases h with
    | cons _ C1 _ _ _ d1 d2 h hc =>
      obtain ⟨C2, C3, e1, e2, e3, k1, k2, k3, rfl⟩ := ih hc
      exact ⟨C2, C3, d1 ++ e1, e2, e3, .cons _ _ _ _ _ _ _ h k1, k2, k3, by simp⟩

/-- Duplicates are reported exactly if a binding clashes with an earlier one. -/
theorem Chain.pairwise {C' : Content} {its : List Item} {ds : List Diagnostic} (h : Chain (content []) its ds C') :
    (∃ d ∈ ds, d.kind = .duplicatedAttrName) ↔
    ∃ a it b, its = a ++ it :: b ∧ ∃ it' ∈ a, ∃ x n p q, Clash (Gives it') it x n p q := by
  have h0 : Has (content []) = Joint [] := by
    funext q e
    rw [Has, content_empty]
    simp [Joint]
  constructor
  · rintro ⟨d, hd, hk⟩
    obtain ⟨a, it, b, rfl, x, n, p, q, h1, -⟩ := (h.diags h0 d).mp ⟨hd, hk⟩
    rw [List.append_nil] at h1
    obtain ⟨q', e, h2, h3⟩ := h1.ex
    obtain ⟨it', h4, h5⟩ := union_gives h2
    obtain ⟨p', h6⟩ := h3 (Gives it') ⟨e, h5, .inl rfl⟩
    exact ⟨a, it, b, rfl, it', List.mem_reverse.mp h4, x, n, p', q, h6⟩
  · rintro ⟨a, it, b, rfl, it', hi, x, n, p, q, hc⟩
    obtain ⟨C1, C2, d1, d2, d3, k1, k2, k3, rfl⟩ := h.split
    by_cases hd : ∀ d ∈ d1, d.kind ≠ .duplicatedAttrName
    · obtain ⟨q', e, h2, h3⟩ := hc.ex
      obtain ⟨e', h4, h5⟩ := k1.full hd hi h2
      obtain ⟨p', h6⟩ := h3 (Has C1) ⟨e', h4, h5⟩
      obtain ⟨h7, h8⟩ := (k2.clash _).mpr ⟨x, n, p', q, h6, rfl⟩
      exact ⟨_, List.mem_append_left _ (List.mem_append_right _ h7), h8⟩
    · simp only [ne_eq, Classical.not_forall, Classical.not_not] at hd
      obtain ⟨d, hd, hk⟩ := hd
      exact ⟨d, List.mem_append_left _ (List.mem_append_left _ hd), hk⟩

/-- Without clashes each path has what the first binding for it gives. -/
theorem Chain.first {C' : Content} {its : List Item} {ds : List Diagnostic} (h : Chain (content []) its ds C')
    (hds : ∀ d ∈ ds, d.kind ≠ .duplicatedAttrName) (q : List Bytes) (e : Entry) :
    C' q = some e ↔ ∃ a it b, its = a ++ it :: b ∧ Gives it q e ∧ ∀ it' ∈ a, ∀ e', ¬ Gives it' q e' := by
  constructor
  · generalize hC : content [] = C at h
    have hn : C q = none := by rw [← hC]; exact content_empty q
    clear hC
    intro hq
    induction h with
    | nil => rw [hn] at hq; cases hq
    | cons C C1 C2 it its d1 d2 h hc ih =>
      cases h1 : C1 q with
      | none =>
        obtain ⟨a, it', b, rfl, h3, h4⟩ := ih (fun d hd => hds d (List.mem_append_right _ hd)) h1 hq
        refine ⟨it :: a, it', b, rfl, h3, fun i hi => ?_⟩
        rcases List.mem_cons.mp hi with rfl | hi
        · intro e' hg
          obtain ⟨e'', h5, -⟩ := h.full q e' hg (fun x n p hcl => by
            obtain ⟨h1, h2⟩ := (h.clash _).mpr ⟨x, n, p, q, hcl, rfl⟩
            exact hds _ (List.mem_append_left _ h1) h2)
          rw [h1] at h5
          cases h5
        · exact h4 i hi
      | some e1 =>
        cases (hc.keep h1).symm.trans hq
        rcases h.sound q e h1 with k | ⟨-, k⟩
        · rw [hn] at k; cases k
        · exact ⟨[], it, its, rfl, k, nofun⟩
  · rintro ⟨a, it, b, rfl, hg, hf⟩
    obtain ⟨C1, C2, d1, d2, d3, k1, k2, k3, rfl⟩ := h.split
    refine k3.keep ((k2.exact q e).mpr (.inr ⟨fun e' he => ?_, hg, fun x n p hcl => ?_⟩))
    · have h0 : Has (content []) = Joint [] := by
        funext q e
        rw [Has, content_empty]
        simp [Joint]
      have := k1.union h0
      rw [List.append_nil] at this
      have he' : Has C1 q e' := he
      rw [this] at he'
      obtain ⟨it', h4, h5⟩ := union_gives he'
      exact hf it' (List.mem_reverse.mp h4) e' h5
    · obtain ⟨h1, h2⟩ := (k2.clash _).mpr ⟨x, n, p, q, hcl, rfl⟩
      exact hds _ (List.mem_append_left _ (List.mem_append_right _ h1)) h2

/-! ### Dynamic attributes -/

theorem insertAttr_dynamic (sa : SA) (name e : Node) (s : SemaSt) (hn : name.isNull = false) :
    ∃ l, (insertAttr sa name e .plain s).1.dynamic = sa.dynamic ++ l ∧
      List.Forall₂ DynAttr (if (⟨[], name, e, .plain⟩ : Item).isDyn then [⟨[], name, e, .plain⟩] else []) l := by
  cases hs : name.staticName? with
  | none =>
    rw [insertAttr_dyn s hs]
    cases he : e.isNull with
    | true => exact ⟨[], by simp, by simp [Item.isDyn, Item.first, he]⟩
    | false =>
      refine ⟨[.attr [] name e .plain], by simp, ?_⟩
      rw [if_pos (by simp [Item.isDyn, Item.first, he, hs, hn])]
      exact .cons ⟨e, rfl, .inl ⟨rfl, rfl⟩⟩ .nil
  | some n =>
    have hd : (⟨[], name, e, .plain⟩ : Item).isDyn = false := by simp [Item.isDyn, Item.first, hs]
    rw [if_neg (by rw [hd]; simp)]
    refine ⟨[], ?_, .nil⟩
    rw [List.append_nil]
    unfold insertAttr
    simp only [hs]
    split
    · split <;> rfl
    · split <;> rfl

theorem addAttr_dynamic (sa : SA) (path : List Node) (e : Node) (s : SemaSt) (he : SetOk e) :
    ∃ l, (addAttr sa path e s).1.dynamic = sa.dynamic ++ l ∧
      List.Forall₂ DynAttr (if (bindingItem path e).isDyn then [bindingItem path e] else []) l := by
  induction path generalizing sa s with
  | nil => exact ⟨[], by simp [addAttr], by simp [bindingItem, Item.isDyn, Item.first, Node.isNull]⟩
  | cons name rest ih =>
    cases rest with
    | nil =>
      simp only [addAttr]
      split
      · rename_i hnull
        exact ⟨[], by simp, by simp [bindingItem, Item.isDyn, Item.first, hnull]⟩
      · rename_i hnull
        exact insertAttr_dynamic sa name e s (by simpa using hnull)
    | cons name2 rest =>
      have hlast : (name :: name2 :: rest).getLastD .null = (name2 :: rest).getLastD .null := by
        rw [List.getLastD_cons, List.getLastD_cons, List.getLastD_cons]
      by_cases hnull : name.isNull = true
      · have hit : bindingItem (name :: name2 :: rest) e = bindingItem (name2 :: rest) e := by
          simp only [bindingItem, hlast, List.dropLast_cons_cons, List.filter_cons, hnull]
          rfl
        have : addAttr sa (name :: name2 :: rest) e s = addAttr sa (name2 :: rest) e s := by
          conv => lhs; unfold addAttr
          simp only [hnull, if_true]
        rw [this, hit]
        exact ih sa s
      · have hd : (bindingItem (name :: name2 :: rest) e).dirs = name :: (bindingItem (name2 :: rest) e).dirs := by
          simp only [bindingItem, List.dropLast_cons_cons, List.filter_cons, hnull]
          rfl
        have hf : (bindingItem (name :: name2 :: rest) e).first = name := by
          unfold Item.first
          rw [hd]
          rfl
        have hk : (bindingItem (name :: name2 :: rest) e).kind = .plain := rfl
        have ht : ({ bindingItem (name :: name2 :: rest) e with dirs := (bindingItem (name :: name2 :: rest) e).dirs.tail } : Item) = bindingItem (name2 :: rest) e := by
          rw [hd]
          simp only [bindingItem, hlast, List.tail_cons]
        cases hn : name.staticName? with
        | none =>
          have heq : addAttr sa (name :: name2 :: rest) e s =
              ({ sa with dynamic := sa.dynamic ++ [.attr [] name (.exprAttrs ⟨s.next, name.range⟩ .null .null
                (addAttr {} (name2 :: rest) e { s with next := s.next + 1 }).1.static
                (addAttr {} (name2 :: rest) e { s with next := s.next + 1 }).1.dynamic) .plain] },
               (addAttr {} (name2 :: rest) e { s with next := s.next + 1 }).2) := by
            conv => lhs; unfold addAttr
            simp only [hnull, hn]
            rfl
          rw [heq]
          refine ⟨_, rfl, ?_⟩
          rw [if_pos]
          · refine .cons ⟨_, by rw [hf], .inr ⟨by rw [hd]; simp, _, _, _, rfl, fun q e' => ?_⟩⟩ .nil
            obtain ⟨-, ds, -, h3⟩ := addAttr_adds {} (name2 :: rest) e { s with next := s.next + 1 } .nil he
            rw [h3.exact, ht]
            show content [] q = some e' ∨ _ ↔ _
            rw [content_empty]
            constructor
            · rintro (h | h)
              · cases h
              · exact h.2.1
            · exact fun h => .inr ⟨nofun, h, fun _ _ _ => not_clash_empty⟩
          · simp [Item.isDyn, hf, hn, hd, hnull, hk]
        | some n =>
          have hdyn : (bindingItem (name :: name2 :: rest) e).isDyn = false := by simp [Item.isDyn, hf, hn]
          rw [if_neg (by rw [hdyn]; simp)]
          refine ⟨[], ?_, .nil⟩
          rw [List.append_nil]
          unfold addAttr
          simp only [hnull, hn]
          simp only [Bool.false_eq_true, if_false]
          split
          · split <;> rfl
          · rfl

theorem lowerInherit_dynamic (sa : SA) (e : Node) (names : List Node) (s : SemaSt) : (lowerInherit sa e names s).1.dynamic = sa.dynamic := by
  induction names generalizing sa s with
  | nil => rfl
  | cons name names ih =>
    simp only [lowerInherit]
    rw [ih]
    unfold lowerInheritName
    split
    · rfl
    · split
      · rfl
      · split <;> rfl

theorem lowerBinds_dynamic (sa : SA) (bs : List Node) (s : SemaSt) (hv : ∀ b ∈ bs, SetOk (bindingValue b)) :
    ∃ l, (lowerBinds sa bs s).1.dynamic = sa.dynamic ++ l ∧ List.Forall₂ DynAttr ((items bs).filter Item.isDyn) l := by
  fun_induction lowerBinds sa bs s with
  | case1 sa s => exact ⟨[], by simp, .nil⟩
  | case2 sa h names e bs s sa1 s1 heq ih =>
    obtain ⟨l, h1, h2⟩ := ih (fun b hb => hv b (List.mem_cons_of_mem _ hb))
    have h3 := lowerInherit_dynamic sa e names s
    rw [heq] at h3
    refine ⟨l, by rw [h1, h3], ?_⟩
    have : (names.map (inheritItem e)).filter Item.isDyn = [] := by
      rw [List.filter_eq_nil_iff]
      intro it hit
      obtain ⟨n, -, rfl⟩ := List.mem_map.mp hit
      simp only [Item.isDyn, inheritItem]
      split <;> simp
    rw [show items (.inherit h names e :: bs) = names.map (inheritItem e) ++ items bs from rfl, List.filter_append, this]
    exact h2
  | case3 sa h h' names dots eq v bs s sa1 s1 heq ih =>
    obtain ⟨l, h1, h2⟩ := ih (fun b hb => hv b (List.mem_cons_of_mem _ hb))
    obtain ⟨l', h3, h4⟩ := addAttr_dynamic sa names v s (hv _ List.mem_cons_self)
    rw [heq] at h3
    refine ⟨l' ++ l, by rw [h1, h3, List.append_assoc], ?_⟩
    rw [show items (.binding h (.attrPath h' names dots) eq v :: bs) = [bindingItem names v] ++ items bs from rfl, List.filter_append]
    refine List.rel_append ?_ h2
    rw [List.filter_cons, List.filter_nil]
    exact h4
  | case4 sa b bs s hb1 hb2 ih =>
    obtain ⟨l, h1, h2⟩ := ih (fun b hb => hv b (List.mem_cons_of_mem _ hb))
    refine ⟨l, h1, ?_⟩
    have : items (b :: bs) = items bs := by
      cases b
      case inherit => exact absurd rfl (hb1 _ _ _)
      case binding h p e v =>
        cases p
        case attrPath => exact absurd rfl (hb2 _ _ _ _ _ _)
        all_goals rfl
      all_goals rfl
    rw [this]
    exact h2

end Verif.Nixf.Attrs
