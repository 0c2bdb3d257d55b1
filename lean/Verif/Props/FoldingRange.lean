import Verif.Model.FoldingRange
import Verif.Spec.FoldingRange
import Verif.Lemmas.Positions
import Verif.Props.Descend
/-
C31 (folding ranges) and C60 (what the client makes of them).
-/
namespace Verif.Props
open Nixf Node SourceCode Server Folding Lexical Tree
open Scoping (children_size)

/-- The nodes whose ranges are collected. -/
def ownFold (src : Bytes) (n : Node) : List Node :=
  match n with
  | .exprAttrs .. | .exprList .. | .exprLambda .. | .exprLet .. | .exprWith .. | .exprIf .. | .exprString .. =>
    if isMultiLine (toLSPRange src n.range) then [n] else []
  | _ => []

def foldNodes (src : Bytes) : Nat → Node → List Node
  | 0, _ => []
  | k + 1, n => ownFold src n ++ (kids n).flatMap (foldNodes src k)

/-- The range sent for a node. -/
def foldOf (src : Bytes) (n : Node) : FoldingRange := toFoldingRange (toLSPRange src n.range)

theorem collect_foldNodes (src : Bytes) : ∀ k n, collect src k n = (foldNodes src k n).map (foldOf src) := by
  intro k
  induction k with
  | zero => intro n; rfl
  | succ k ih =>
    intro n
    have hfm : ∀ l : List Node, l.flatMap (collect src k) = (l.flatMap (foldNodes src k)).map (foldOf src) := by
      intro l
      rw [List.map_flatMap]
      congr 1
      funext n
      exact ih n
    have hadd : ∀ n, addRange src n = (if isMultiLine (toLSPRange src n.range) then [n] else []).map (foldOf src) := by
      intro n
      unfold addRange foldOf
      split <;> rfl
    cases n <;> simp only [collect, foldNodes, ownFold, kids, List.map_append, hadd, hfm, ih, List.flatMap_cons, List.flatMap_nil, List.map_nil,
      List.append_nil, List.nil_append, List.append_assoc]

theorem mem_ownFold (src : Bytes) (m n : Node) : m ∈ ownFold src n ↔ m = n ∧ Foldable m ∧ isMultiLine (toLSPRange src m.range) = true := by
  have hif : ∀ n, m ∈ (if isMultiLine (toLSPRange src n.range) = true then [n] else []) ↔
      m = n ∧ isMultiLine (toLSPRange src m.range) = true := by
    intro n
    split
    · rename_i h
      simp only [List.mem_cons, List.not_mem_nil, or_false]
      exact ⟨fun e => ⟨e, by rw [e]; exact h⟩, fun h => h.1⟩
    · rename_i h
      simp only [List.not_mem_nil, false_iff]
      rintro ⟨rfl, h'⟩
      exact h h'
  have hyes : Foldable n → ((m = n ∧ isMultiLine (toLSPRange src m.range) = true) ↔
      m = n ∧ Foldable m ∧ isMultiLine (toLSPRange src m.range) = true) :=
    fun h => ⟨fun ⟨a, b⟩ => ⟨a, by rw [a]; exact h, b⟩, fun ⟨a, _, b⟩ => ⟨a, b⟩⟩
  have hno : ¬ Foldable n → (m ∈ ([] : List Node) ↔ m = n ∧ Foldable m ∧ isMultiLine (toLSPRange src m.range) = true) := by
    intro h
    simp only [List.not_mem_nil, false_iff]
    rintro ⟨rfl, h', _⟩
    exact h h'
  cases n <;> first | exact (hif _).trans (hyes trivial) | exact hno (fun h => h)

theorem mem_foldNodes (src : Bytes) (m : Node) : ∀ k n, m ∈ foldNodes src k n ↔
    ∃ d < k, Below n d m ∧ Foldable m ∧ isMultiLine (toLSPRange src m.range) = true := by
  intro k
  induction k with
  | zero => intro n; simp [foldNodes]
  | succ k ih =>
    intro n
    rw [foldNodes, List.mem_append, mem_ownFold, List.mem_flatMap]
    constructor
    · rintro (⟨rfl, h⟩ | ⟨c, hc, hm⟩)
      · exact ⟨0, by omega, .here _, h⟩
      · obtain ⟨d, hd, hb, h⟩ := (ih c).mp hm
        exact ⟨d + 1, by omega, .step _ _ _ _ hc hb, h⟩
    · rintro ⟨d, hd, hb, h⟩
      cases hb with
      | here => exact .inl ⟨rfl, h⟩
      | step _ c d _ hc hb => exact .inr ⟨c, hc, (ih c).mpr ⟨d, by omega, hb, h⟩⟩

theorem kids_size {n c : Node} (hc : c ∈ kids n) : sizeOf c < sizeOf n := by
  cases n
  case exprAttrs hh b r st dy => have := children_size (show c ∈ b.children from hc); simp; omega
  case exprLambda => simp only [kids, List.mem_singleton] at hc; subst hc; simp; omega
  case exprLet => simp only [kids, List.mem_cons, List.not_mem_nil, or_false] at hc; rcases hc with rfl | rfl <;> simp <;> omega
  case exprWith => simp only [kids, List.mem_cons, List.not_mem_nil, or_false] at hc; rcases hc with rfl | rfl <;> simp <;> omega
  case exprIf => simp only [kids, List.mem_cons, List.not_mem_nil, or_false] at hc; rcases hc with rfl | rfl | rfl <;> simp <;> omega
  case exprString => cases hc
  all_goals exact children_size hc

theorem below_size {n m : Node} {d : Nat} (h : Below n d m) : sizeOf m ≤ sizeOf n := by
  induction h with
  | here => exact Nat.le_refl _
  | step n c d m hc _ ih => have := kids_size hc; omega

/-- The parts are children, except for the bindings of a set. -/
theorem kids_children {n c : Node} (h : c ∈ kids n) (hc : c.isNode = true) :
    (c ∈ n.children ∧ ∀ h b r st dy, n ≠ .exprAttrs h b r st dy) ∨
      ∃ hh b r st dy, n = .exprAttrs hh b r st dy ∧ b ∈ n.children ∧ c ∈ b.children := by
  have key : ∀ {n : Node} {l : List Node}, n.children = l.filter Node.isNode → c ∈ l → c ∈ n.children := by
    intro n l hl hm
    rw [hl]
    exact List.mem_filter.mpr ⟨hm, hc⟩
  cases n
  case exprAttrs hh b r st dy =>
    refine .inr ⟨hh, b, r, st, dy, rfl, ?_, h⟩
    have : b.isNode = true := by
      cases hb : b.isNode with
      | true => rfl
      | false =>
        exfalso
        simp only [kids] at h
        cases b <;> first | (cases hb; done) | (simp [Node.children] at h)
    exact List.mem_filter.mpr ⟨by simp, this⟩
  case exprLambda hh a b => exact .inl ⟨key (l := [a, b]) rfl (by simp only [kids, List.mem_singleton] at h; simp [h]), nofun⟩
  case exprLet hh k i e a =>
    exact .inl ⟨key (l := [k, a, i, e]) rfl (by simp only [kids, List.mem_cons, List.not_mem_nil, or_false] at h; rcases h with rfl | rfl <;> simp), nofun⟩
  case exprWith hh k s w e =>
    exact .inl ⟨key (l := [k, s, w, e]) rfl (by simp only [kids, List.mem_cons, List.not_mem_nil, or_false] at h; rcases h with rfl | rfl <;> simp), nofun⟩
  case exprIf hh c' t e => exact .inl ⟨key (l := [c', t, e]) rfl h, nofun⟩
  case exprString => cases h
  all_goals exact .inl ⟨h, nofun⟩

theorem kid_reach {n c : Node} (h : c ∈ kids n) (hc : c.isNode = true) : Reach n c := by
  rcases kids_children h hc with ⟨h, -⟩ | ⟨_, b, _, _, _, -, hb, hcb⟩
  · exact .down _ _ _ h (.here _)
  · exact .down _ _ _ hb (.down _ _ _ hcb (.here _))

/-- A part lies inside the node. -/
theorem kid_inside {src : Bytes} {n c : Node} (hf : ∀ m, Reach n m → Fine src m) (h : c ∈ kids n) (hc : c.isNode = true) :
    Tree.Inside c n := by
  rcases kids_children h hc with ⟨h, hne⟩ | ⟨hh, b, r, st, dy, rfl, hb, hcb⟩
  · rcases (hf n (.here _)).nest.1 c h with h | ⟨h', b, st, dy, e, -⟩
    · exact h
    · exact absurd e (hne _ _ _ _ _)
  · have hfb := hf b (.down _ _ _ hb (.here _))
    obtain ⟨hb', hr', -⟩ := (hf _ (.here _)).kw
    have h1 : Tree.Inside b (.exprAttrs hh b r st dy) := by
      rcases (hf _ (.here _)).nest.1 b hb with h | ⟨h', b', st', dy', e, -⟩
      · exact h
      · cases e
        rcases hr' with rfl | ⟨_, rfl⟩ <;> cases hcb
    have h2 : Tree.Inside c b := by
      rcases hfb.nest.1 c hcb with h | ⟨h', b', st', dy', rfl, -⟩
      · exact h
      · rcases hb' with hb' | ⟨_, _, hb'⟩ <;> cases hb'
    exact ⟨Nat.le_trans h1.1 h2.1, Nat.le_trans h2.2 h1.2⟩

theorem below_nonnode {n m : Node} {d : Nat} (hn : n.isNode = false) (h : Below n d m) : m = n := by
  cases h with
  | here => rfl
  | step _ c _ _ hc =>
    cases n <;> first | (cases hn; done) | (simp [kids, Node.children] at hc)

theorem below_reach {n m : Node} {d : Nat} (h : Below n d m) (hm : m.isNode = true) : Reach n m := by
  induction h with
  | here => exact .here _
  | step n c d m hc hb ih =>
    have hcn : c.isNode = true := by
      cases e : c.isNode with
      | true => rfl
      | false => rw [below_nonnode e hb, e] at hm; cases hm
    exact (kid_reach hc hcn).trans (ih hm)

theorem below_inside {src : Bytes} {n m : Node} {d : Nat} (hf : ∀ m, Reach n m → Fine src m) (h : Below n d m) (hm : m.isNode = true) :
    Tree.Inside m n := by
  induction h with
  | here => exact ⟨Nat.le_refl _, Nat.le_refl _⟩
  | step n c d m hc hb ih =>
    have hcn : c.isNode = true := by
      cases e : c.isNode with
      | true => rfl
      | false => rw [below_nonnode e hb, e] at hm; cases hm
    have h1 := kid_inside hf hc hcn
    have h2 := ih (fun m hm => hf m ((kid_reach hc hcn).trans hm)) hm
    exact ⟨Nat.le_trans h1.1 h2.1, Nat.le_trans h2.2 h1.2⟩

/-- Parts do not overlap; the keyword of an old `let` is no exception as it has nothing to fold. -/
def Off (a b : Node) : Prop := (a.isNode = true → b.isNode = true → Apart a b) ∨ (∃ h, a = .misc h) ∨ ∃ h, b = .misc h

theorem kids_apart {src : Bytes} {n : Node} (hf : ∀ m, Reach n m → Fine src m) : (kids n).Pairwise Off := by
  have fn := hf n (.here _)
  have key : ∀ {n : Node}, Fine src n → isLegacyLet n = false → n.children.Pairwise Off :=
    fun fn h => (fn.nest.2.1 h).imp fun h => .inl fun _ _ => h
  have key2 : ∀ {l : List Node}, (l.filter Node.isNode).Pairwise Apart → l.Pairwise Off := by
    intro l h
    rw [List.pairwise_filter] at h
    exact h.imp fun h => .inl h
  cases n
  case exprAttrs hh b r st dy =>
    obtain ⟨hb', -, -⟩ := fn.kw
    rcases hb' with rfl | ⟨h', bs, rfl⟩
    · exact .nil
    · exact key (n := .binds h' bs) (hf _ (.down _ (.binds h' bs) _ (List.mem_filter.mpr ⟨by simp, rfl⟩) (.here _))) rfl
  case exprLambda hh a b => simp [kids]
  case exprLet hh k i e a =>
    have : List.Pairwise Off [k, a, i, e] := key2 (fn.nest.2.1 rfl)
    exact this.sublist (by simp [kids])
  case exprWith hh k s w e =>
    have : List.Pairwise Off [k, s, w, e] := key2 (fn.nest.2.1 rfl)
    exact this.sublist (by simp [kids])
  case exprIf hh c t e => exact key2 (fn.nest.2.1 rfl)
  case exprString => exact .nil
  case exprLegacyLet hh k a =>
    obtain ⟨⟨hm, rfl⟩, -⟩ := fn.kw
    have : List.Pairwise Off [.misc hm, a] := by
      simp only [List.pairwise_cons, List.mem_cons, List.not_mem_nil, or_false]
      exact ⟨fun _ _ => .inr (.inl ⟨_, rfl⟩), nofun, .nil⟩
    exact this.sublist (List.filter_sublist)
  all_goals exact key fn rfl

theorem multi_nonempty {src : Bytes} {n : Node} (hf : Fine src n) (h : isMultiLine (toLSPRange src n.range) = true) :
    n.lCur.offset < n.rCur.offset := by
  apply Classical.byContradiction
  intro hc
  unfold isMultiLine at h
  simp only [decide_eq_true_eq] at h
  have h1 : (toLSPRange src n.range).start = offsetToPosition src n.range.l.offset := rfl
  have h2 : (toLSPRange src n.range).stop = offsetToPosition src n.range.r.offset := rfl
  rw [h1, h2] at h
  have := offsetToPosition_mono src (a := n.range.r.offset) (b := n.range.l.offset) (by
    show n.rCur.offset ≤ n.lCur.offset
    omega)
  unfold PosLe at this
  omega

theorem foldNodes_nodup {src : Bytes} : ∀ k n, (∀ m, Reach n m → Fine src m) → (foldNodes src k n).Nodup := by
  intro k
  induction k with
  | zero => intro n _; exact .nil
  | succ k ih =>
    intro n hf
    have hfold : ∀ {m}, Foldable m → m.isNode = true := by
      intro m hm
      cases m <;> first | rfl | cases hm
    have hpart : ∀ c ∈ kids n, ∀ m ∈ foldNodes src k c, c.isNode = true ∧ Tree.Inside m c ∧ m.lCur.offset < m.rCur.offset ∧ ∀ h, c ≠ .misc h := by
      intro c hc m hm
      obtain ⟨d, -, hb, hfm, hml⟩ := (mem_foldNodes src m k c).mp hm
      have hmn := hfold hfm
      have hcn : c.isNode = true := by
        cases e : c.isNode with
        | true => rfl
        | false => rw [below_nonnode e hb, e] at hmn; cases hmn
      have hfc : ∀ m, Reach c m → Fine src m := fun m hm => hf m ((kid_reach hc hcn).trans hm)
      refine ⟨hcn, below_inside hfc hb hmn, multi_nonempty (hfc m (below_reach hb hmn)) hml, ?_⟩
      rintro h rfl
      cases hb with
      | here => exact hfm
      | step _ _ _ _ hc' => cases hc'
    rw [foldNodes, List.nodup_append]
    refine ⟨?_, ?_, ?_⟩
    · have : ∀ n : Node, (if isMultiLine (toLSPRange src n.range) = true then [n] else []).Nodup := by
        intro n
        split <;> simp
      cases n <;> first | exact this _ | exact .nil
    · rw [List.Nodup, List.pairwise_flatMap]
      refine ⟨fun c hc => ?_, ?_⟩
      · by_cases hcn : c.isNode = true
        · exact ih c fun m hm => hf m ((kid_reach hc hcn).trans hm)
        · have : foldNodes src k c = [] := by
            rw [List.eq_nil_iff_forall_not_mem]
            intro m hm
            exact hcn (hpart c hc m hm).1
          rw [this]
          exact .nil
      · refine List.Pairwise.imp_of_mem ?_ (kids_apart hf)
        intro a b ha hb hab m hma m' hmb e
        subst e
        obtain ⟨a1, a2, a3, a4⟩ := hpart a ha m hma
        obtain ⟨b1, b2, b3, b4⟩ := hpart b hb m hmb
        rcases hab with h | ⟨h, e⟩ | ⟨h, e⟩
        · have := h a1 b1
          unfold Apart at this
          unfold Tree.Inside at a2 b2
          omega
        · exact a4 h e
        · exact b4 h e
    · intro a ha b hb e
      subst e
      obtain ⟨rfl, -⟩ := (mem_ownFold src a n).mp ha
      obtain ⟨c, hc, hm⟩ := List.mem_flatMap.mp hb
      obtain ⟨d, -, hb, -⟩ := (mem_foldNodes src a k c).mp hm
      have h1 := below_size hb
      have h2 := kids_size hc
      omega

theorem isMultiLine_iff {src : Bytes} {n : Node} (hf : n.lCur.offset ≤ n.rCur.offset) :
    isMultiLine (toLSPRange src n.range) = true ↔ NL ∈ slice src n.range := by
  unfold isMultiLine
  rw [decide_eq_true_eq]
  exact lines_iff src n.range hf

/-- C31. The folding ranges are those of the foldable nodes, less than 256 levels deep, whose text has a line break; each
node is there once. -/
theorem C31_exact {src : Bytes} {root : Node} {st : PState} (hp : parse src = some (root, st)) :
    ∃ ns : List Node, foldingRanges src root = ns.map (foldOf src) ∧ ns.Nodup ∧
      ∀ n, n ∈ ns ↔ ∃ d < 256, Below root d n ∧ Foldable n ∧ NL ∈ slice src n.range := by
  have hf : ∀ m, Reach root m → Fine src m := fun m hm => parse_fine hp m hm
  refine ⟨foldNodes src 256 root, collect_foldNodes src 256 root, foldNodes_nodup 256 root hf, fun n => ?_⟩
  rw [mem_foldNodes]
  have hle : ∀ d, Below root d n → Foldable n → n.lCur.offset ≤ n.rCur.offset := by
    intro d hb hfo
    have hn : n.isNode = true := by cases n <;> first | rfl | cases hfo
    exact (all_reach children_subs (parse_okAll hp) (below_reach hb hn)).le
  constructor
  · rintro ⟨d, hd, hb, hfo, hm⟩
    exact ⟨d, hd, hb, hfo, (isMultiLine_iff (hle d hb hfo)).mp hm⟩
  · rintro ⟨d, hd, hb, hfo, hm⟩
    exact ⟨d, hd, hb, hfo, (isMultiLine_iff (hle d hb hfo)).mpr hm⟩

/-- C31. Every range spans at least two lines. -/
theorem C31_multi_line {src : Bytes} {root : Node} {r : FoldingRange} (h : r ∈ foldingRanges src root) : r.startLine < r.endLine := by
  rw [foldingRanges, collect_foldNodes, List.mem_map] at h
  obtain ⟨n, hn, rfl⟩ := h
  obtain ⟨d, -, -, -, hm⟩ := (mem_foldNodes _ _ _ _).mp hn
  unfold isMultiLine at hm
  rw [decide_eq_true_eq] at hm
  have h1 := (offsetToPosition_bound src n.range.l.offset).1
  have h2 : (toLSPRange src n.range).start = offsetToPosition src n.range.l.offset := rfl
  rw [← h2] at h1
  unfold foldOf toFoldingRange
  simp only
  omega

/-- The folding ranges of a program, for examples. -/
def foldsOf (src : Bytes) : List (Nat × Nat × Nat × Nat) :=
  match parse src with
  | some (root, _) => (foldingRanges src root).map fun r => (r.startLine, r.startCharacter, r.endLine, r.endCharacter)
  | none => []

example : foldsOf b!"{ a = [\n 1 ];\n b = x:\n  y; c = [ 1 ]; }" = [(0, 0, 3, 17), (0, 6, 1, 4), (2, 5, 3, 3)] := by decide +kernel

/-- Following children by index. -/
def childAt : List Nat → Node → Option Node
  | [], n => some n
  | i :: is, n => (n.children[i]?).bind (childAt is)

theorem childAt_reach {is : List Nat} {n m : Node} (h : childAt is n = some m) : Reach n m := by
  induction is generalizing n with
  | nil => cases h; exact .here _
  | cons i is ih =>
    rw [childAt] at h
    cases hc : n.children[i]? with
    | none => rw [hc] at h; cases h
    | some c => rw [hc] at h; exact .down _ _ _ (List.mem_of_getElem? hc) (ih h)

/-- There is a node that can be folded and has a line break, but is not reported. -/
def Missed (src : Bytes) : Prop := ∃ root st n, parse src = some (root, st) ∧
    Reach root n ∧ Foldable n ∧ NL ∈ slice src n.range ∧ foldOf src n ∉ foldingRanges src root

theorem missed_of (src : Bytes) (is : List Nat) (h : (match parse src with
      | some (root, _) => match childAt is root with
        | some (.exprList hh es) => (slice src hh.range).contains NL && !(foldingRanges src root).contains (foldOf src (.exprList hh es))
        | _ => false
      | none => false) = true) : Missed src := by
  split at h
  · rename_i root st hp
    split at h
    · rename_i hh es hc
      simp only [Bool.and_eq_true, List.contains_iff_mem, Bool.not_eq_true', Bool.eq_false_iff, ne_eq] at h
      exact ⟨root, st, _, hp, childAt_reach hc, trivial, h.1, h.2⟩
    · cases h
  · cases h

/-- C31. Lists in defaults of arguments and in interpolations cannot be folded. -/
theorem C31_unvisited_violated : ∀ src ∈ [b!"{ a ? [\n] }: a", b!"\"${[\n]}\""], Missed src := by
  intro src hs
  simp only [List.mem_cons, List.not_mem_nil, or_false] at hs
  rcases hs with rfl | rfl
  · exact missed_of _ [0, 0, 0, 1] (by decide +kernel)
  · exact missed_of _ [0, 0, 0] (by decide +kernel)

/-! ### What the client sees -/

/-- C60. If neither end is at the start of a line, the client gets the range. -/
theorem C60_partial (src : Bytes) (r : FoldingRange) (h1 : r.startCharacter ≠ 0) (h2 : r.endCharacter ≠ 0) :
    seen src (toJSON r) = (r.startLine, r.startCharacter, r.endLine, r.endCharacter) := by
  simp [seen, toJSON, h1, h2]

/-- C60. A character 0 is left out, and the client takes the end of the line instead: of the set `{ \n}`, it folds from the
end of the first line, position 1, not from position 0. The set is reported for the range of positions 0 of line 0 to 1 of
line 1. -/
theorem C60_violated : ∃ root st r, parse b!"{\n}" = some (root, st) ∧ foldingRanges b!"{\n}" root = [r] ∧
    (r.startLine, r.startCharacter, r.endLine, r.endCharacter) = (0, 0, 1, 1) ∧ seen b!"{\n}" (toJSON r) = (0, 1, 1, 1) := by
  have h : (match parse b!"{\n}" with
    | some (root, _) => decide (foldingRanges b!"{\n}" root = [⟨0, 0, 1, 1, b!"region"⟩])
    | none => false) = true := by decide +kernel
  split at h
  · rename_i root st hp
    exact ⟨root, st, _, hp, of_decide_eq_true h, rfl, by decide +kernel⟩
  · cases h

end Verif.Props
