import Verif.Spec.DocumentSymbol
import Verif.Props.DocumentLink
import Verif.Props.SemanticTokens
/-
C44: the outline of a document.
-/
namespace Verif.Props
open Nixf Nixf.Node Nixf.Tree Nixf.Scoping Nixf.Outline SourceCode Server Draft

/-! ### The forest -/

theorem listed_append {a b : List Symbol} {s : Symbol} : Listed (a ++ b) s ↔ Listed a s ∨ Listed b s := by
  constructor
  · intro h
    cases h with
    | here _ _ h => exact (List.mem_append.mp h).imp (.here _ _) (.here _ _)
    | inner _ t _ h h' => exact (List.mem_append.mp h).imp (.inner _ _ _ · h') (.inner _ _ _ · h')
  · rintro (h | h) <;> cases h with
    | here _ _ h => exact .here _ _ (by simp [h])
    | inner _ t _ h h' => exact .inner _ t _ (by simp [h]) h'

theorem listed_nil {s : Symbol} : ¬ Listed [] s := by
  intro h
  cases h with
  | here _ _ h => cases h
  | inner _ t _ h h' => cases h

theorem listed_one {t s : Symbol} : Listed [t] s ↔ s = t ∨ Listed t.children s := by
  constructor
  · intro h
    cases h with
    | here _ _ h => exact .inl (by simpa using h)
    | inner _ t' _ h h' => simp at h; subst h; exact .inr h'
  · rintro (rfl | h)
    · exact .here _ _ (by simp)
    · exact .inner _ t _ (by simp) h

theorem listed_flatMap {α : Type} {l : List α} {f : α → List Symbol} {s : Symbol} :
    Listed (l.flatMap f) s ↔ ∃ x ∈ l, Listed (f x) s := by
  induction l with
  | nil => simp [listed_nil]
  | cons x xs ih => simp only [List.flatMap_cons, listed_append, ih, List.mem_cons, exists_eq_or_imp]

theorem listed_map {α : Type} {l : List α} {f : α → Symbol} {s : Symbol} :
    Listed (l.map f) s ↔ ∃ x ∈ l, s = f x ∨ Listed (f x).children s := by
  rw [show l.map f = l.flatMap fun x => [f x] by induction l <;> simp_all, listed_flatMap]
  simp only [listed_one]

/-- What a symbol says, but for its children. -/
def face (s : Symbol) : Bytes × Bytes × SymbolKind × Bool × LRange × LRange :=
  (s.name, s.detail, s.kind, s.deprecated, s.range, s.selectionRange)

section
variable (vl : VL) (src : Bytes) (ft : Bytes → Bytes)

/-- The symbols of a node itself. -/
def ownFaces : Node → List (Bytes × Bytes × SymbolKind × Bool × LRange × LRange)
  | .exprAttrs _ _ _ st dy =>
    (st.filter fun a => !(attrValue a).isNull).map (fun a => (attrName a, b!"attribute", .field, false, attrRange src a, toLSPRange src (attrKey a).range)) ++
    dy.map fun a => (b!"${dynamic attribute}", b!"attribute", .field, false, attrRange src a, toLSPRange src (attrKey a).range)
  | n => match n with
    | .exprString .. | .exprInt .. | .exprFloat .. | .attrNameID .. | .attrNameString .. | .attrNameInterp .. | .exprVar ..
    | .exprLambda .. | .exprList .. => (collectF vl src ft 1 n).map face
    | _ => []

theorem outlineParts_size {n c : Node} (h : c ∈ outlineParts n) : sizeOf c < sizeOf n := by
  cases n
  case exprLambda => simp [outlineParts] at h; subst h; simp; omega
  case exprAttrs hd b r st dy =>
    simp only [outlineParts, List.mem_map, List.mem_append] at h
    obtain ⟨a, ha, rfl⟩ := h
    have h1 : sizeOf (attrValue a) ≤ sizeOf a := by
      cases a <;> simp [attrValue] <;> omega
    rcases ha with ha | ha <;> have := mem_size ha <;> simp <;> omega
  all_goals first | exact children_size h | (simp [outlineParts] at h; done)

theorem collectF_null (k : Nat) : collectF vl src ft k .null = [] := by
  cases k <;> rfl

theorem faces_iff : ∀ (k : Nat) (n : Node), sizeOf n ≤ k → ∀ x,
    (∃ s, Listed (collectF vl src ft k n) s ∧ face s = x) ↔ x ∈ ownFaces vl src ft n ∨
      ∃ c ∈ outlineParts n, ∃ s, Listed (collectF vl src ft (k - 1) c) s ∧ face s = x := by
  intro k n hk x
  cases k with
  | zero => exfalso; cases n <;> simp at hk
  | succ k =>
    have hch : (∃ s, Listed (n.children.flatMap (collectF vl src ft k)) s ∧ face s = x) ↔
        ∃ c ∈ n.children, ∃ s, Listed (collectF vl src ft k c) s ∧ face s = x := by
      simp only [listed_flatMap]
      constructor
      · rintro ⟨s, ⟨c, hc, h⟩, e⟩; exact ⟨c, hc, s, h, e⟩
      · rintro ⟨c, hc, s, h, e⟩; exact ⟨s, ⟨c, hc, h⟩, e⟩
    have hleaf : ∀ t : Symbol, t.children = [] → ((∃ s, Listed [t] s ∧ face s = x) ↔ x = face t) := by
      intro t ht
      simp only [listed_one, ht, listed_nil, or_false]
      constructor
      · rintro ⟨s, rfl, rfl⟩; rfl
      · rintro rfl; exact ⟨t, rfl, rfl⟩
    have hone : ∀ t : Symbol, (∃ s, Listed [t] s ∧ face s = x) ↔ x = face t ∨ ∃ s, Listed t.children s ∧ face s = x := by
      intro t
      simp only [listed_one]
      constructor
      · rintro ⟨s, rfl | h, rfl⟩
        · exact .inl rfl
        · exact .inr ⟨s, h, rfl⟩
      · rintro (rfl | ⟨s, h, rfl⟩)
        · exact ⟨t, .inl rfl, rfl⟩
        · exact ⟨s, .inr h, rfl⟩
    cases n
    case exprAttrs hd b r st dy =>
      simp only [collectF, ownFaces, outlineParts, Nat.add_sub_cancel, listed_append, listed_flatMap, listed_map, List.mem_append,
        List.mem_map, List.mem_filter, Bool.not_eq_true']
      constructor
      · rintro ⟨s, ⟨a, ha, h⟩ | ⟨a, ha, h⟩, rfl⟩
        · split at h
          · exact absurd h listed_nil
          · rename_i hn
            rcases listed_one.mp h with rfl | h
            · exact .inl (.inl ⟨a, ⟨ha, by simpa using hn⟩, rfl⟩)
            · exact .inr ⟨_, ⟨a, .inl ha, rfl⟩, s, h, rfl⟩
        · rcases h with rfl | h
          · exact .inl (.inr ⟨a, ha, rfl⟩)
          · exact .inr ⟨_, ⟨a, .inr ha, rfl⟩, s, h, rfl⟩
      · rintro ((⟨a, ⟨ha, hn⟩, rfl⟩ | ⟨a, ha, rfl⟩) | ⟨c, ⟨a, ha | ha, rfl⟩, s, h, rfl⟩)
        · exact ⟨_, .inl ⟨a, ha, by rw [if_neg (by simp [hn])]; exact .here _ _ (by simp; rfl)⟩, rfl⟩
        · exact ⟨_, .inr ⟨a, ha, .inl rfl⟩, rfl⟩
        · refine ⟨s, .inl ⟨a, ha, ?_⟩, rfl⟩
          split
          · rename_i hn
            have : attrValue a = .null := by
              revert hn
              cases attrValue a <;> simp [isNull]
            rw [this, collectF_null] at h
            exact absurd h listed_nil
          · exact listed_one.mpr (.inr h)
        · exact ⟨s, .inr ⟨a, ha, .inr h⟩, rfl⟩
    case exprLambda hd a e =>
      refine (hone _).trans (or_congr ?_ ?_)
      · simp [ownFaces, collectF, face, Symbol.name, Symbol.detail, Symbol.kind, Symbol.deprecated, Symbol.range, Symbol.selectionRange]
      · simp [outlineParts, Symbol.children]
    case exprList hd es =>
      refine (hone _).trans (or_congr ?_ hch)
      simp [ownFaces, collectF, face, Symbol.name, Symbol.detail, Symbol.kind, Symbol.deprecated, Symbol.range, Symbol.selectionRange]
    all_goals first
      | (simp only [collectF, ownFaces, outlineParts, List.map_cons, List.map_nil, List.mem_singleton, List.not_mem_nil, false_and,
          exists_false, or_false]
         exact hleaf _ rfl)
      | (simp only [collectF, ownFaces, outlineParts, List.not_mem_nil, false_or, Nat.add_sub_cancel]
         exact hch)

theorem visited_cases {n m : Node} : Visited n m ↔ m = n ∨ ∃ c ∈ outlineParts n, Visited c m := by
  constructor
  · intro h
    induction h with
    | here => exact .inl rfl
    | down a c _ hc ih =>
      rcases ih with rfl | ⟨d, hd, h⟩
      · exact .inr ⟨c, hc, .here⟩
      · exact .inr ⟨d, hd, .down _ _ h hc⟩
  · rintro (rfl | ⟨c, hc, h⟩)
    · exact .here
    · induction h with
      | here => exact .down _ _ .here hc
      | down a d _ hd ih => exact .down _ _ ih hd

theorem faces_visited : ∀ (k : Nat) (n : Node), sizeOf n ≤ k → ∀ x,
    (∃ s, Listed (collectF vl src ft k n) s ∧ face s = x) ↔ ∃ m, Visited n m ∧ x ∈ ownFaces vl src ft m := by
  intro k
  induction k with
  | zero => intro n hk; exfalso; cases n <;> simp at hk
  | succ k ih =>
    intro n hk x
    rw [faces_iff vl src ft (k + 1) n hk x]
    simp only [Nat.add_sub_cancel]
    constructor
    · rintro (h | ⟨c, hc, h⟩)
      · exact ⟨n, .here, h⟩
      · obtain ⟨m, hm, hx⟩ := (ih c (by have := outlineParts_size hc; omega) x).mp h
        exact ⟨m, visited_cases.mpr (.inr ⟨c, hc, hm⟩), hx⟩
    · rintro ⟨m, hm, hx⟩
      rcases visited_cases.mp hm with rfl | ⟨c, hc, hm⟩
      · exact .inl hx
      · exact .inr ⟨c, hc, (ih c (by have := outlineParts_size hc; omega) x).mpr ⟨m, hm, hx⟩⟩

theorem collectF_fuel : ∀ (k : Nat) (n : Node), sizeOf n ≤ k → ∀ k', sizeOf n ≤ k' → collectF vl src ft k n = collectF vl src ft k' n := by
  intro k
  induction k with
  | zero => intro n hk; exfalso; cases n <;> simp at hk
  | succ k ih =>
    intro n hk k' hk'
    have hk0 : k' ≠ 0 := by rintro rfl; cases n <;> simp at hk'
    obtain ⟨k', rfl⟩ := Nat.exists_eq_succ_of_ne_zero hk0
    have part : ∀ c ∈ outlineParts n, collectF vl src ft k c = collectF vl src ft k' c := fun c hc => by
      have := outlineParts_size hc
      exact ih c (by omega) k' (by omega)
    have children : (∀ c ∈ n.children, c ∈ outlineParts n) → n.children.flatMap (collectF vl src ft k) = n.children.flatMap (collectF vl src ft k') := by
      intro h
      rw [List.flatMap, List.flatMap, List.map_congr_left fun c hc => part c (h c hc)]
    cases n
    case exprAttrs h b r sa da =>
      have value : ∀ a ∈ sa ++ da, collectF vl src ft k (attrValue a) = collectF vl src ft k' (attrValue a) := fun a ha =>
        part _ (List.mem_map.mpr ⟨a, ha, rfl⟩)
      simp only [collectF]
      congr 1
      · rw [List.flatMap, List.flatMap, List.map_congr_left fun a ha => ?_]
        rw [value a (by simp [ha])]
      · refine List.map_congr_left fun a ha => ?_
        rw [value a (by simp [ha])]
    case exprLambda h a e => simp only [collectF, part e (by simp [outlineParts])]
    case exprList h es => simp only [collectF, children fun c hc => hc]
    all_goals first | rfl | exact children fun c hc => hc

end

theorem visited_ok {src : Bytes} {n m : Node} (h : OkAll src n) (hv : Visited n m) : OkAll src m := by
  induction hv with
  | here => exact h
  | down a c _ hc ih =>
    cases a
    case exprLambda => simp [outlineParts] at hc; subst hc; exact ih.sub (by simp [subs])
    case exprAttrs hd b r st dy =>
      simp only [outlineParts, List.mem_map, List.mem_append] at hc
      obtain ⟨a, ha, rfl⟩ := hc
      exact okAll_value (ih.sub (by rcases ha with ha | ha <;> simp [subs, ha]))
    all_goals first | exact ih.sub (children_subs hc) | (simp [outlineParts] at hc; done)

/-- A node of the outline is part of the program, or the set of a `let`, or a keyword. -/
theorem visited_place {src : Bytes} {root m : Node} {st : PState} (hp : parse src = some (root, st)) (hv : Visited root m) :
    (∃ Δ, Inside root Δ m) ∨ (∃ Δ h k i e, Inside root Δ (.exprLet h k i e m)) ∨ Leaf m := by
  have hset : ∀ Δ m, Inside root Δ m → SetInv m := fun Δ m hm => ((parse_ids hp).vok.2 Δ m hm).2.1
  have down : ∀ {Δ n} {p : Bool × Node}, Inside root Δ n → p ∈ Scoping.parts n → ∃ Δ, Inside root Δ p.2 := by
    intro Δ n p h hpn
    exact ⟨_, inside_trans h (inside_part hpn (.here _))⟩
  have attrs : ∀ (r : Bool) (st dy : List Node), ∀ a ∈ st ++ dy, (attrValue a).isNull = false →
      ∃ f, (f, attrValue a) ∈ attrParts r st dy := by
    intro r st dy a ha hn
    unfold attrParts
    rcases List.mem_append.mp ha with ha | ha
    · exact ⟨_, List.mem_append_left _ (List.mem_map.mpr ⟨a, List.mem_filter.mpr ⟨ha, by simp [hn]⟩, rfl⟩)⟩
    · exact ⟨r, List.mem_append_right _ (List.mem_flatMap.mpr ⟨a, List.mem_filter.mpr ⟨ha, by simp [hn]⟩, by simp⟩)⟩
  have null : ∀ {n : Node}, n.isNull = true → Leaf n := fun {n} h => by
    cases n <;> first | exact .inl rfl | (cases h; done)
  induction hv with
  | here => exact .inl ⟨_, .here _⟩
  | down n c hvn hc ih =>
    clear hvn
    rcases ih with ⟨Δ, ih⟩ | ⟨Δ, h, k, i, e, ih⟩ | ih
    · have hg := hset Δ n ih
      cases n
      case exprLambda hd a e =>
        obtain ⟨h', i, f, rfl, -⟩ := hg
        simp [outlineParts] at hc
        subst hc
        by_cases hn : c.isNull = true
        · exact .inr (.inr (null hn))
        · exact .inl (down (p := (true, c)) ih (by simp [Scoping.parts, hn]))
      case exprAttrs hd b r sa da =>
        simp only [outlineParts, List.mem_map] at hc
        obtain ⟨a, ha, rfl⟩ := hc
        by_cases hn : (attrValue a).isNull = true
        · exact .inr (.inr (null hn))
        · obtain ⟨f, hf⟩ := attrs (!r.isNull) sa da a ha (by simpa using hn)
          exact .inl (down (p := (f, attrValue a)) ih hf)
      case exprLet hd kl ki e a =>
        obtain ⟨l1, l2, hat⟩ := hg
        have hc := List.mem_filter.mp (show c ∈ (Node.exprLet hd kl ki e a).children from hc)
        have hn : c.isNull = false := by
          cases c <;> first | rfl | (simp [isNode, hd?] at hc; done)
        simp only [List.mem_cons, List.not_mem_nil, or_false] at hc
        rcases hc.1 with rfl | rfl | rfl | rfl
        · exact .inr (.inr l1)
        · exact .inr (.inl ⟨_, _, _, _, _, ih⟩)
        · exact .inr (.inr l2)
        · refine .inl (down (p := (true, c)) ih ?_)
          have he : (true, c) ∈ inScope c := by simp [inScope, hn]
          rcases hat with rfl | ⟨h', b, r, sa, da, rfl, -⟩
          · exact he
          · exact List.mem_append_right _ he
      case exprLegacyLet hd kl a =>
        obtain ⟨l1, h', b, r, sa, da, rfl⟩ := hg
        have hc := List.mem_filter.mp (show c ∈ (Node.exprLegacyLet hd kl _).children from hc)
        simp only [List.mem_cons, List.not_mem_nil, or_false] at hc
        rcases hc.1 with rfl | rfl
        · exact .inr (.inr l1)
        · exact .inl (down (p := (false, _)) ih (by simp [Scoping.parts]))
      case exprWith hd kw ks w e =>
        obtain ⟨l1, l2⟩ := hg
        have hc := List.mem_filter.mp (show c ∈ (Node.exprWith hd kw ks w e).children from hc)
        have hn : c.isNull = false := by
          cases c <;> first | rfl | (simp [isNode, hd?] at hc; done)
        simp only [List.mem_cons, List.not_mem_nil, or_false] at hc
        rcases hc.1 with rfl | rfl | rfl | rfl
        · exact .inr (.inr l1)
        · exact .inr (.inr l2)
        · exact .inl (down (p := (false, c)) ih (by simp [Scoping.parts, hn]))
        · exact .inl (down (p := (true, c)) ih (by simp [Scoping.parts, inScope, hn]))
      all_goals first
        | (simp [outlineParts] at hc; done)
        | exact .inl (down (p := (false, c)) ih (List.mem_map.mpr ⟨c, hc, rfl⟩))
    · obtain ⟨-, -, rfl | ⟨h', b, r, sa, da, rfl, -⟩⟩ := hset _ _ ih
      · simp [outlineParts, Node.children] at hc
      · simp only [outlineParts, List.mem_map] at hc
        obtain ⟨a, ha, rfl⟩ := hc
        by_cases hn : (attrValue a).isNull = true
        · exact .inr (.inr (null hn))
        · obtain ⟨f, hf⟩ := attrs true sa da a ha (by simpa using hn)
          exact .inl (down (p := (f, attrValue a)) ih (List.mem_append_left _ hf))
    · rcases ih with rfl | ⟨h, rfl⟩ <;> simp [outlineParts, Node.children] at hc

/-- The symbol that a row stands for. -/
def rowFace (src : Bytes) (r : Row) : Bytes × Bytes × SymbolKind × Bool × LRange × LRange :=
  (r.name, r.detail, r.kind, r.deprecated, toLSPRange src r.range, toLSPRange src r.selection)

section C44
variable (P : PrimOps) (ft : Bytes → Bytes) {src : Bytes} {root : Node} {st : PState} (hp : parse src = some (root, st)) {fuel : Nat}
  (hfuel : sizeOf root ≤ fuel)
include hp hfuel

/-- C44. What is said of a variable is what its class asks for: the kind is the one of its class, and it is marked as deprecated if it is unknown. -/
theorem C44_variable {Δ : List Frame} {v : Node} (hv : Occurs root Δ v) {c : SemanticTokens.VarClass}
    (hc : SemanticTokens.IsClass P Δ (varName v) c) : richVar (runVL P fuel root) v (varName v) = classSymbol c := by
  have hrun := run_ok P hfuel (parse_wellFormed hp)
  cases c with
  | bool => rcases hc with h | h <;> (rw [richVar, h]; rfl)
  | null => rw [richVar, show varName v = _ from hc]; rfl
  | bound =>
    obtain ⟨h1, h2, h3, h4⟩ := hc
    rw [richVar, if_neg (by simp [h1, h2]), if_neg (by simp [h3])]
    rcases hr : resolve Δ (varName v) with _ | ⟨n, kind⟩
    · rw [← free_iff, free_iff_resolve] at h4
      exact absurd hr h4
    · obtain ⟨d, hq, -, hk, -⟩ := C22_innermost_binder P hp hfuel hv hr
      have hb : kind ≠ .builtin := by
        obtain ⟨f, hf, he⟩ := resolve_binds hr
        obtain ⟨m, rfl⟩ := inside_frames hv.1 f hf
        exact (binds_kind he).2
      rw [hq]
      simp [hk, hb, classSymbol]
  | global =>
    obtain ⟨h1, h2, h3, h4, h5⟩ := hc
    rw [richVar, if_neg (by simp [h1, h2]), if_neg (by simp [h3])]
    obtain ⟨d, hq, hk, -⟩ := C22_builtin_otherwise P hp hfuel hv h4 h5
    rw [hq]
    simp [hk, classSymbol]
  | fromWith =>
    obtain ⟨h1, h2, h3, h4⟩ := hc
    rw [richVar, if_neg (by simp [h1, h2]), if_neg (by simp [h3])]
    obtain ⟨d, hq⟩ := (C23_from_with_iff P hp hfuel hv).mpr h4
    obtain ⟨w, d', -, rfl, hw⟩ := C23_definition_is_outermost P hp hfuel hv hq
    have := hrun.wdef _ (ptrFind_mem hw)
    simp only at this
    rw [hq]
    simp [this, classSymbol]
  | unknown =>
    obtain ⟨h1, h2, h3, h4, h5, h6⟩ := hc
    rw [richVar, if_neg (by simp [h1, h2]), if_neg (by simp [h3])]
    rcases hq : (runVL P fuel root).query v with _ | ⟨k, d⟩
    · rfl
    · cases k with
      | defined =>
        rcases C22_defined_only P hp hfuel hv hq with ⟨q, hr⟩ | h
        · rw [← free_iff, free_iff_resolve, hr] at h4; cases h4
        · exact absurd h.2 h5
      | fromWith => exact absurd h6 ((C23_from_with_iff P hp hfuel hv).mp ⟨d, hq⟩).2.2
      | undefined => rfl

/-- C44. The null pointer is not dereferenced for the definition of a variable. -/
theorem C44_safe {Δ : List Frame} {v : Node} (hv : Occurs root Δ v) : varSafe (runVL P fuel root) v := by
  intro k d hq hk
  have hrun := run_ok P hfuel (parse_wellFormed hp)
  have := query_ok hrun (parse_faithful hp) hv hq
  rcases hk with rfl | rfl
  · obtain ⟨d', h, -⟩ := this
    rw [show d = some d' from h]; rfl
  · obtain ⟨-, w, d', -, h, -⟩ := this
    rw [show d = some d' from h]; rfl

omit hfuel in
/-- The attributes of the sets in the outline. -/
theorem visited_set {h : Hd} {b r : Node} {sa da : List Node} (hv : Visited root (.exprAttrs h b r sa da)) : SI sa da := by
  have hset : ∀ Δ m, Inside root Δ m → SetInv m := fun Δ m hm => ((parse_ids hp).vok.2 Δ m hm).2.1
  rcases visited_place hp hv with ⟨Δ, hm⟩ | ⟨Δ, h', k, i, e, hm⟩ | hm | ⟨_, hm⟩
  · exact (hset _ _ hm).1
  · obtain ⟨-, -, hc | ⟨h'', b', r', sa', da', hc, hs⟩⟩ := hset _ _ hm
    · cases hc
    · cases hc; exact hs
  · cases hm
  · cases hm

/-- The symbols of a node are those of its rows. -/
theorem own_rows {m : Node} (hv : Visited root m) (x : Bytes × Bytes × SymbolKind × Bool × LRange × LRange) :
    x ∈ ownFaces (runVL P fuel root) src ft m ↔ ∃ r, Rows P ft root m r ∧ x = rowFace src r := by
  have hset : ∀ Δ m, Inside root Δ m → SetInv m := fun Δ m hm => ((parse_ids hp).vok.2 Δ m hm).2.1
  have hok := visited_ok (parse_okAll hp) hv
  have hplace := visited_place hp hv
  cases m
  case exprVar h i =>
    have hocc : ∃ Δ, Occurs root Δ (.exprVar h i) := by
      rcases hplace with ⟨Δ, hm⟩ | ⟨Δ, h', k, i', e, hm⟩ | hm | ⟨_, hm⟩
      · exact ⟨Δ, hm, rfl⟩
      · obtain ⟨-, -, hc | ⟨h'', b', r', sa', da', hc, hs⟩⟩ := hset _ _ hm <;> cases hc
      · cases hm
      · cases hm
    obtain ⟨Δ, hocc⟩ := hocc
    simp only [ownFaces, collectF, List.map_cons, List.map_nil, List.mem_singleton]
    constructor
    · rintro rfl
      obtain ⟨c, hc⟩ := class_exists P Δ (varName (.exprVar h i))
      refine ⟨_, .var Δ _ c hocc hc, ?_⟩
      rw [show i.name = varName (.exprVar h i) from rfl, C44_variable P hp hfuel hocc hc]
      rfl
    · rintro ⟨r, hr, rfl⟩
      cases hr with
      | var Δ' _ c hv' hc' =>
        rw [show i.name = varName (.exprVar h i) from rfl, C44_variable P hp hfuel hv' hc']
        rfl
  case exprString h p =>
    simp only [ownFaces, collectF, List.map_cons, List.map_nil, List.mem_singleton]
    constructor
    · rintro rfl
      by_cases hl : ∃ hp t, p = .parts hp [.text t]
      · obtain ⟨hp, t, rfl⟩ := hl
        exact ⟨_, .text h hp t, rfl⟩
      · refine ⟨_, .string h p fun hp t e => hl ⟨hp, t, e⟩, ?_⟩
        have : p.literal? = none := by
          unfold Node.literal?
          split
          · exact absurd ⟨_, _, rfl⟩ hl
          · rfl
        rw [this]
        rfl
    · rintro ⟨r, hr, rfl⟩
      cases hr with
      | text _ hp t => rfl
      | string _ _ hl =>
        have : p.literal? = none := by
          unfold Node.literal?
          split
          · exact absurd rfl (hl _ _)
          · rfl
        rw [this]
        rfl
      | var _ _ _ hv => cases hv.2
  case exprInt h v =>
    simp only [ownFaces, collectF, List.map_cons, List.map_nil, List.mem_singleton]
    have hv : 0 ≤ v := by
      obtain ⟨n, -, rfl⟩ := hok.here.2
      split
      · exact Int.natCast_nonneg _
      · exact Int.le_refl _
    have hd : intDigits v = natDigits v.toNat := by
      unfold intDigits
      rw [if_neg (by omega), show v.natAbs = v.toNat by omega]
    constructor
    · rintro rfl
      refine ⟨_, .nat h v hv, ?_⟩
      rw [hd]; rfl
    · rintro ⟨r, hr, rfl⟩
      cases hr with
      | nat _ _ _ => rw [hd]; rfl
      | var _ _ _ hv => cases hv.2
  case exprFloat h t =>
    simp only [ownFaces, collectF, List.map_cons, List.map_nil, List.mem_singleton]
    constructor
    · rintro rfl
      exact ⟨_, .float h t, rfl⟩
    · rintro ⟨r, hr, rfl⟩
      cases hr with
      | float _ _ => rfl
      | var _ _ _ hv => cases hv.2
  case attrNameID h i =>
    simp only [ownFaces, collectF, List.map_cons, List.map_nil, List.mem_singleton]
    constructor
    · rintro rfl
      exact ⟨_, .nameID h i, rfl⟩
    · rintro ⟨r, hr, rfl⟩
      cases hr with
      | nameID _ _ => rfl
      | var _ _ _ hv => cases hv.2
  case attrNameString h n =>
    simp only [ownFaces, collectF, List.map_cons, List.map_nil, List.mem_singleton]
    have hnone : (∀ h' hp t, n ≠ .exprString h' (.parts hp [.text t])) → (Node.attrNameString h n).staticName? = none := by
      intro hl
      cases n
      case exprString h' p =>
        show p.literal? = none
        unfold Node.literal?
        split
        · exact absurd rfl (hl _ _ _)
        · rfl
      all_goals rfl
    constructor
    · rintro rfl
      by_cases hl : ∃ h' hp t, n = .exprString h' (.parts hp [.text t])
      · obtain ⟨h', hp, t, rfl⟩ := hl
        exact ⟨_, .nameText h h' hp t, rfl⟩
      · have hl' : ∀ h' hp t, n ≠ .exprString h' (.parts hp [.text t]) := fun h' hp t e => hl ⟨h', hp, t, e⟩
        refine ⟨_, .nameString h n hl', ?_⟩
        rw [hnone hl']
        rfl
    · rintro ⟨r, hr, rfl⟩
      cases hr with
      | nameText _ h' hp t => rfl
      | nameString _ _ hl => rw [hnone hl]; rfl
      | var _ _ _ hv => cases hv.2
  case attrNameInterp h n =>
    simp only [ownFaces, collectF, List.map_cons, List.map_nil, List.mem_singleton]
    constructor
    · rintro rfl
      exact ⟨_, .nameInterp h n, rfl⟩
    · rintro ⟨r, hr, rfl⟩
      cases hr with
      | nameInterp _ _ => rfl
      | var _ _ _ hv => cases hv.2
  case exprLambda h a e =>
    simp only [ownFaces, collectF, List.map_cons, List.map_nil, List.mem_singleton]
    have hg : SetInv (.exprLambda h a e) := by
      rcases hplace with ⟨Δ, hm⟩ | ⟨Δ, h', k, i', e, hm⟩ | hm | ⟨_, hm⟩
      · exact hset _ _ hm
      · obtain ⟨-, -, hc | ⟨h'', b', r', sa', da', hc, hs⟩⟩ := hset _ _ hm <;> cases hc
      · cases hm
      · cases hm
    obtain ⟨ha, i, f, rfl, -⟩ := hg
    constructor
    · rintro rfl
      by_cases hn : i.isNull = true
      · have : i = .null := by
          revert hn
          cases i <;> simp [isNull]
        subst this
        exact ⟨_, .anonymous h ha f e, rfl⟩
      · refine ⟨_, .lambda h ha i f e (by simpa using hn), ?_⟩
        simp only [face, Symbol.name, Symbol.detail, Symbol.kind, Symbol.deprecated, Symbol.range, Symbol.selectionRange, lambdaName,
          lambdaSelection, if_neg hn]
        rfl
    · rintro ⟨r, hr, rfl⟩
      cases hr with
      | lambda _ _ _ _ _ hn =>
        simp only [face, Symbol.name, Symbol.detail, Symbol.kind, Symbol.deprecated, Symbol.range, Symbol.selectionRange, lambdaName,
          lambdaSelection, hn]
        rfl
      | anonymous _ _ _ _ => rfl
      | var _ _ _ hv => cases hv.2
  case exprList h es =>
    simp only [ownFaces, collectF, List.map_cons, List.map_nil, List.mem_singleton]
    constructor
    · rintro rfl
      exact ⟨_, .list h es, rfl⟩
    · rintro ⟨r, hr, rfl⟩
      cases hr with
      | list _ _ => rfl
      | var _ _ _ hv => cases hv.2
  case exprAttrs h b r sa da =>
    have hs := visited_set hp hv
    have hat : ∀ a ∈ sa ++ da, (attrValue a).isNull = false ∧ ∃ x k v kind, a = .attr x k v kind := by
      intro a ha
      have := (hs.nodes a ha).2
      cases a <;> first | (cases this; done) | skip
      refine ⟨?_, _, _, _, _, rfl⟩
      revert this
      simp only [attrValue]
      rename_i v _
      cases v <;> simp [isNull, isNode, hd?]
    simp only [ownFaces, List.mem_append, List.mem_map, List.mem_filter, Bool.not_eq_true']
    constructor
    · rintro (⟨a, ⟨ha, hn⟩, rfl⟩ | ⟨a, ha, rfl⟩)
      · obtain ⟨-, x, k, v, kind, rfl⟩ := hat a (by simp [ha])
        refine ⟨_, .attr h b r sa da x k v kind ha, ?_⟩
        have hn : v.isNull = false := hn
        simp only [attrRange, attrName, attrKey, attrValue, hn]
        rfl
      · obtain ⟨hn, x, k, v, kind, rfl⟩ := hat a (by simp [ha])
        refine ⟨_, .dynamic h b r sa da x k v kind ha, ?_⟩
        have hn : v.isNull = false := hn
        simp only [attrRange, attrKey, attrValue, hn]
        rfl
    · rintro ⟨r, hr, rfl⟩
      cases hr with
      | attr _ _ _ _ _ x k v kind ha =>
        obtain ⟨hn, -⟩ := hat _ (List.mem_append_left _ ha)
        refine .inl ⟨_, ⟨ha, hn⟩, ?_⟩
        have hn : v.isNull = false := hn
        simp only [attrRange, attrName, attrKey, attrValue, hn]
        rfl
      | dynamic _ _ _ _ _ x k v kind ha =>
        obtain ⟨hn, -⟩ := hat _ (List.mem_append_right _ ha)
        refine .inr ⟨_, ha, ?_⟩
        have hn : v.isNull = false := hn
        simp only [attrRange, attrKey, attrValue, hn]
        rfl
      | var _ _ _ hv => cases hv.2
  all_goals
    simp only [ownFaces, List.not_mem_nil, false_iff]
    rintro ⟨r, hr, rfl⟩
    cases hr with
    | var _ _ _ hv => cases hv.2

/-- C44. The symbols in the outline are those of the nodes that it gets to. -/
theorem C44_exact (x : Bytes × Bytes × SymbolKind × Bool × LRange × LRange) :
    (∃ s, Listed (documentSymbols (runVL P fuel root) src ft root) s ∧ face s = x) ↔
      ∃ m r, Visited root m ∧ Rows P ft root m r ∧ x = rowFace src r := by
  unfold documentSymbols
  rw [faces_visited _ _ _ _ _ (Nat.le_refl _)]
  constructor
  · rintro ⟨m, hv, hx⟩
    obtain ⟨r, hr, rfl⟩ := (own_rows P ft hp hfuel hv _).mp hx
    exact ⟨m, r, hv, hr, rfl⟩
  · rintro ⟨m, r, hv, hr, rfl⟩
    exact ⟨m, hv, (own_rows P ft hp hfuel hv _).mpr ⟨r, hr, rfl⟩⟩

omit hfuel in
/-- C44. A set has one symbol for each attribute, below which there is the outline of the value. The names of static
attributes are distinct. -/
theorem C44_attributes (vl : VL) {h : Hd} {b r : Node} {sa da : List Node} (hv : Visited root (.exprAttrs h b r sa da)) :
    (sa.map attrName).Nodup ∧ ∃ f g : Node → Symbol, documentSymbols vl src ft (.exprAttrs h b r sa da) = sa.map f ++ da.map g ∧
      (∀ a ∈ sa, (f a).name = attrName a ∧ (f a).selectionRange = toLSPRange src (attrKey a).range ∧
        (f a).children = documentSymbols vl src ft (attrValue a)) ∧
      ∀ a ∈ da, (g a).selectionRange = toLSPRange src (attrKey a).range ∧ (g a).children = documentSymbols vl src ft (attrValue a) := by
  have hs := visited_set hp hv
  have hsize : ∀ a ∈ sa ++ da, sizeOf (attrValue a) < sizeOf (Node.exprAttrs h b r sa da) := fun a ha =>
    outlineParts_size (n := .exprAttrs h b r sa da) (List.mem_map.mpr ⟨a, ha, rfl⟩)
  have hnull : ∀ a ∈ sa ++ da, (attrValue a).isNull = false := by
    intro a ha
    have := (hs.nodes a ha).2
    revert this
    cases attrValue a <;> simp [isNull, isNode, hd?]
  refine ⟨hs.names, fun a => .mk (attrName a) b!"attribute" .field false (attrRange src a) (toLSPRange src (attrKey a).range)
      (documentSymbols vl src ft (attrValue a)), fun a => .mk b!"${dynamic attribute}" b!"attribute" .field false (attrRange src a)
      (toLSPRange src (attrKey a).range) (documentSymbols vl src ft (attrValue a)), ?_, fun a _ => ⟨rfl, rfl, rfl⟩, fun a _ => ⟨rfl, rfl⟩⟩
  unfold documentSymbols
  generalize hk : sizeOf (Node.exprAttrs h b r sa da) = k at hsize
  cases k with
  | zero => simp at hk
  | succ k =>
    have hfuel : ∀ a ∈ sa ++ da, collectF vl src ft k (attrValue a) = collectF vl src ft (sizeOf (attrValue a)) (attrValue a) :=
      fun a ha => collectF_fuel vl src ft k _ (by have := hsize a ha; omega) _ (Nat.le_refl _)
    simp only [collectF]
    congr 1
    · have : ∀ l : List Node, (∀ a ∈ l, a ∈ sa) → l.flatMap (fun a => if (attrValue a).isNull then [] else
          [Symbol.mk (attrName a) b!"attribute" .field false (attrRange src a) (toLSPRange src (attrKey a).range)
            (collectF vl src ft k (attrValue a))]) = l.map fun a => Symbol.mk (attrName a) b!"attribute" .field false (attrRange src a)
              (toLSPRange src (attrKey a).range) (collectF vl src ft (sizeOf (attrValue a)) (attrValue a)) := by
        intro l hl
        induction l with
        | nil => rfl
        | cons a as ih =>
          have ha := hl a (by simp)
          rw [List.flatMap_cons, List.map_cons, ih fun b hb => hl b (by simp [hb]), hfuel a (by simp [ha])]
          simp [hnull a (by simp [ha])]
      exact this sa fun _ h => h
    · refine List.map_congr_left fun a ha => ?_
      rw [hfuel a (by simp [ha])]

omit hfuel in
/-- C44. The assertion on the arguments of lambdas holds. -/
theorem C44_lambda_safe {h : Hd} {a e : Node} (hv : Visited root (.exprLambda h a e)) : lambdaSafe a = true := by
  have hok := visited_ok (parse_okAll hp) hv
  cases a
  case lambdaArg ha i f =>
    have hoka : OkAll src (.lambdaArg ha i f) := hok.sub (by simp [subs])
    have nn : ∀ n : Node, n.isNode = true → n.isNull = false := by intro n; cases n <;> simp [isNull, isNode, hd?]
    rcases hoka.here.2.1 with hi | ⟨rfl, hf⟩
    · simp [lambdaSafe, nn i hi]
    · simp [lambdaSafe, nn f hf]
  all_goals rfl

omit hfuel in
/-- C44. The selected range of every symbol lies in its range. -/
theorem C44_selection (vl : VL) {s : Symbol} (hs : Listed (documentSymbols vl src ft root) s) : Within s.selectionRange s.range := by
  obtain ⟨m, hv, hx⟩ := (faces_visited vl src ft _ root (Nat.le_refl _) (face s)).mp ⟨s, hs, rfl⟩
  have hok := visited_ok (parse_okAll hp) hv
  have within : ∀ {a b c d : Nat}, a ≤ b → b ≤ c → c ≤ d → Within ⟨offsetToPosition src b, offsetToPosition src c⟩
      ⟨offsetToPosition src a, offsetToPosition src d⟩ := fun h1 h2 h3 =>
    ⟨offsetToPosition_mono src h1, offsetToPosition_mono src h2, offsetToPosition_mono src h3⟩
  have self : ∀ {n : Node}, OkAll src n → Within (toLSPRange src n.range) (toLSPRange src n.range) := fun h =>
    within (Nat.le_refl _) h.le (Nat.le_refl _)
  have key : ∀ p ∈ ownFaces vl src ft m, Within p.2.2.2.2.2 p.2.2.2.2.1 := by
    intro p hp'
    cases m
    case exprLambda h a e =>
      simp only [ownFaces, collectF, List.map_cons, List.map_nil, List.mem_singleton] at hp'
      subst hp'
      cases a
      case lambdaArg ha i f =>
        have h1 := hok.here.2 rfl
        have hoka : OkAll src (.lambdaArg ha i f) := hok.sub (by simp [subs])
        obtain ⟨h2, h3⟩ := hoka.here.2
        show Within (if i.isNull then toLSPRange src f.range else toLSPRange src i.range) (toLSPRange src h.range)
        have sub : ∀ c ∈ [i, f], c.isNode = true → Within (toLSPRange src c.range) (toLSPRange src h.range) := by
          intro c hc hn
          have := h3 c hc hn
          have hcok : OkAll src c := hoka.sub (by simpa [subs] using hc)
          have e1 : (Node.lambdaArg ha i f).lCur = ha.range.l := rfl
          have e2 : (Node.lambdaArg ha i f).rCur = ha.range.r := rfl
          rw [e1, e2] at h1
          exact within (Nat.le_trans h1.1 this.1) hcok.le (Nat.le_trans this.2 h1.2)
        rcases h2 with hi | ⟨rfl, hf⟩
        · rw [if_neg (by revert hi; cases i <;> simp [isNull, isNode, hd?])]
          exact sub i (by simp) hi
        · exact sub f (by simp) hf
      all_goals exact self hok
    case exprAttrs h b r sa da =>
      have hs := visited_set hp hv
      have hat : ∀ a ∈ sa ++ da, Within (toLSPRange src (attrKey a).range) (attrRange src a) := by
        intro a ha
        have ha' : OkAll src a := hok.sub (by rcases List.mem_append.mp ha with ha | ha <;> simp [subs, ha])
        have hn := (hs.nodes a ha).2
        cases a <;> first | (cases hn; done) | skip
        rename_i x k v kind
        have hn : v.isNode = true := hn
        unfold attrRange
        simp only [attrValue, attrKey]
        have hnull : v.isNull = false := by revert hn; cases v <;> simp [isNull, isNode, hd?]
        simp only [hnull, Bool.false_eq_true, if_false]
        exact within (Nat.le_refl _) (okAll_key ha').le (ha'.here.2 hn)
      simp only [ownFaces, List.mem_append, List.mem_map, List.mem_filter] at hp'
      rcases hp' with ⟨a, ⟨ha, -⟩, rfl⟩ | ⟨a, ha, rfl⟩
      · exact hat a (by simp [ha])
      · exact hat a (by simp [ha])
    all_goals first
      | (simp [ownFaces] at hp'; done)
      | (simp only [ownFaces, collectF, List.map_cons, List.map_nil, List.mem_singleton] at hp'
         subst hp'
         exact self hok)
  exact key _ hx

end C44

/-- The outline of a program, for examples: names, with depth. -/
def outlineNames : Nat → Nat → List Symbol → List (Nat × Bytes)
  | 0, _, _ => []
  | k + 1, d, ss => ss.flatMap fun s => (d, s.name) :: outlineNames k (d + 1) s.children

noncomputable def outlineOf (src : Bytes) : List (Nat × Bytes) :=
  match parse src with
  | some (root, _) => outlineNames 20 0 (documentSymbols (runVL [] (sizeOf root) root) src id root)
  | none => []

example : outlineOf b!"x: { a = [ 1 x ]; b.c = \"s\"; ${x} = x.y; }" =
    [(0, b!"x"), (1, b!"a"), (2, b!"{anonymous}"), (3, b!"1"), (3, b!"x"), (1, b!"b"), (2, b!"c"), (3, b!"s"), (1, b!"${dynamic attribute}"),
      (2, b!"x"), (2, b!"y")] := by decide +kernel

/-- C44. An attribute in the expression of `inherit (e) a b;` is there twice. -/
theorem C44_twice_violated : outlineOf b!"{ inherit ({ z = 1; }) a b; }" =
    [(0, b!"a"), (1, b!"z"), (2, b!"1"), (1, b!"a"), (0, b!"b"), (1, b!"z"), (2, b!"1"), (1, b!"b")] := by decide +kernel

/-- The ranges of the first symbol and of its first child, for examples. -/
noncomputable def firstRanges (src : Bytes) : Option (LRange × LRange) :=
  match parse src with
  | some (root, _) =>
    match documentSymbols (runVL [] (sizeOf root) root) src id root with
    | .mk _ _ _ _ r _ (.mk _ _ _ _ r' _ _ :: _) :: _ => some (r, r')
    | _ => none
  | none => none

/-- C61. The symbol of `b` is a child of the symbol of `a`, but is not in its range, which is that of the name. -/
theorem C61_violated : firstRanges b!"{ a.b = 1; }" = some (⟨⟨0, 2⟩, ⟨0, 3⟩⟩, ⟨⟨0, 4⟩, ⟨0, 9⟩⟩) := by decide +kernel
end Verif.Props
