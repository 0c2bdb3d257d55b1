import Verif.Model.DocumentLink
import Verif.Spec.DocumentLink
import Verif.Props.FoldingRange
/-
C59 (links of paths).
-/
namespace Verif.Props
open Nixf Node SourceCode Server Links Lexical Tree
open Scoping (children_size)

/-- The target of a path. -/
def targetOf (fs : FS) (base : Bytes) : Node → Option Bytes
  | .exprPath _ p => p.literal?.bind (resolveExprPath fs base)
  | _ => none

/-- The nodes that get a link. -/
def linkNodes (fs : FS) (base : Bytes) : Nat → Node → List Node
  | 0, _ => []
  | k + 1, n =>
    match n with
    | .exprPath .. => if (targetOf fs base n).isSome then [n] else []
    | n => n.children.flatMap (linkNodes fs base k)

/-- The link of a node. -/
def linkOf (fs : FS) (base src : Bytes) (n : Node) : Link := ⟨toLSPRange src n.range, (targetOf fs base n).getD []⟩

theorem links_nodes (fs : FS) (base src : Bytes) : ∀ k n, linksF fs base src k n = (linkNodes fs base k n).map (linkOf fs base src) := by
  intro k
  induction k with
  | zero => intro n; rfl
  | succ k ih =>
    intro n
    have hfm : ∀ l : List Node, l.flatMap (linksF fs base src k) = (l.flatMap (linkNodes fs base k)).map (linkOf fs base src) := by
      intro l
      rw [List.map_flatMap]
      congr 1
      funext n
      exact ih n
    cases n
    case exprPath h p =>
      simp only [linksF, linkNodes, targetOf]
      split
      · rename_i hl
        simp [hl]
      · rename_i t hl
        split
        · rename_i hr
          simp [hl, hr]
        · rename_i hr
          simp [hl, hr, linkOf, targetOf]
    all_goals exact hfm _

theorem outer_reach {n m : Node} (h : Outer n m) : Reach n m := by
  induction h with
  | here => exact .here _
  | down n c m _ hc _ ih => exact .down _ _ _ hc ih

theorem mem_linkNodes (fs : FS) (base : Bytes) (m : Node) : ∀ k n, sizeOf n ≤ k →
    (m ∈ linkNodes fs base k n ↔ Outer n m ∧ (targetOf fs base m).isSome = true) := by
  intro k
  induction k with
  | zero => intro n hn; exfalso; cases n <;> simp at hn
  | succ k ih =>
    intro n hn
    have step : ¬ IsPath n → (m ∈ n.children.flatMap (linkNodes fs base k) ↔ Outer n m ∧ (targetOf fs base m).isSome = true) := by
      intro hnp
      rw [List.mem_flatMap]
      constructor
      · rintro ⟨c, hc, hm⟩
        obtain ⟨h1, h2⟩ := (ih c (by have := children_size hc; omega)).mp hm
        exact ⟨.down _ _ _ hnp hc h1, h2⟩
      · rintro ⟨h1, h2⟩
        cases h1 with
        | here => exfalso; cases m <;> first | (cases h2; done) | exact hnp trivial
        | down _ c _ _ hc h1 => exact ⟨c, hc, (ih c (by have := children_size hc; omega)).mpr ⟨h1, h2⟩⟩
    cases n
    case exprPath h p =>
      simp only [linkNodes]
      constructor
      · intro hm
        split at hm
        · rename_i hs
          simp only [List.mem_cons, List.not_mem_nil, or_false] at hm
          subst hm
          exact ⟨.here _, hs⟩
        · cases hm
      · rintro ⟨h1, h2⟩
        cases h1 with
        | here => rw [if_pos h2]; simp
        | down _ _ _ hnp => exact absurd trivial hnp
    all_goals exact step (fun h => h)

/-- Children lie inside the node, except for keywords. -/
theorem child_inside {src : Bytes} {n c : Node} (fn : Fine src n) (hc : c ∈ n.children) (hm : ∀ h, c ≠ .misc h) : Tree.Inside c n := by
  rcases fn.nest.1 c hc with h | ⟨h', b, st, dy, rfl, -⟩
  · exact h
  · obtain ⟨-, hr | ⟨h'', hr⟩, -⟩ := fn.kw
    · subst hr
      cases (List.mem_filter.mp hc).2
    · exact absurd hr (hm _)

theorem reach_inside {src : Bytes} {n m : Node} (hf : ∀ m, Reach n m → Fine src m) (h : Reach n m) (hm : ∀ h, m ≠ .misc h) : Tree.Inside m n := by
  induction h with
  | here => exact ⟨Nat.le_refl _, Nat.le_refl _⟩
  | down n c m hc hr ih =>
    have hcm : ∀ h, c ≠ .misc h := by
      rintro h rfl
      cases hr with
      | here => exact hm _ rfl
      | down _ _ _ hc' => cases hc'
    have h1 := child_inside (hf n (.here _)) hc hcm
    have h2 := ih (fun m hm => hf m (.down _ _ _ hc hm)) hm
    exact ⟨Nat.le_trans h1.1 h2.1, Nat.le_trans h2.2 h1.2⟩

theorem children_apart {src : Bytes} {n : Node} (fn : Fine src n) : n.children.Pairwise Off := by
  by_cases h : isLegacyLet n = true
  · cases n with
    | exprLegacyLet hh k a =>
      obtain ⟨⟨hm, rfl⟩, -⟩ := fn.kw
      have : List.Pairwise Off [.misc hm, a] := by
        simp only [List.pairwise_cons, List.mem_cons, List.not_mem_nil, or_false]
        exact ⟨fun _ _ => .inr (.inl ⟨_, rfl⟩), nofun, .nil⟩
      exact this.sublist (List.filter_sublist)
    | _ => cases h
  · exact (fn.nest.2.1 (by simpa using h)).imp fun h => .inl fun _ _ => h

theorem verbatim_length {src : Bytes} (t : Bytes) : ∀ o e, Strings.Verbatim src o (Strings.chars t) e → e = o + t.length := by
  induction t with
  | nil => intro o e h; cases h; rfl
  | cons c t ih =>
    intro o e h
    have h : Strings.Verbatim src o (.inr c :: Strings.chars t) e := h
    cases h with
    | char _ _ _ _ _ _ h => have := ih _ _ h; simp; omega

/-- A path with a target is not empty. -/
theorem target_nonempty {fs : FS} {base src : Bytes} {n : Node} (hok : OkAll src n) (h : (targetOf fs base n).isSome = true) :
    n.lCur.offset < n.rCur.offset ∧ ∃ h' hp t, n = .exprPath h' (.parts hp [.text t]) := by
  cases n with
  | exprPath h' p =>
    have hl : ∃ hp t, p = .parts hp [.text t] ∧ resolveExprPath fs base t ≠ none := by
      unfold targetOf at h
      simp only at h
      cases hl : p.literal? with
      | none => rw [hl] at h; cases h
      | some t =>
        rw [hl] at h
        unfold Node.literal? at hl
        split at hl
        · cases hl
          exact ⟨_, _, rfl, by intro hc; rw [Option.bind_some, hc] at h; cases h⟩
        · cases hl
    obtain ⟨hp, t, rfl, ht⟩ := hl
    refine ⟨?_, _, _, _, rfl⟩
    have hne : t ≠ [] := by
      rintro rfl
      exact ht rfl
    obtain ⟨-, hp', fs', e, hv⟩ := hok.here
    cases e
    have hv' : Strings.Verbatim src h'.range.l.offset (Strings.chars t) h'.range.r.offset := by
      simpa [Strings.pieces] using hv
    have := verbatim_length t _ _ hv'
    cases t with
    | nil => exact absurd rfl hne
    | cons c t => show h'.range.l.offset < h'.range.r.offset; simp at this; omega
  | _ => cases h

theorem linkNodes_nodup {fs : FS} {base src : Bytes} : ∀ k n, sizeOf n ≤ k → (∀ m, Reach n m → Fine src m) →
    (∀ m, Reach n m → OkAll src m) → (linkNodes fs base k n).Nodup := by
  intro k
  induction k with
  | zero => intro n _ _ _; exact .nil
  | succ k ih =>
    intro n hk hf hok
    have step : (n.children.flatMap (linkNodes fs base k)).Nodup := by
      rw [List.Nodup, List.pairwise_flatMap]
      refine ⟨fun c hc => ih c (by have := children_size hc; omega) (fun m hm => hf m (.down _ _ _ hc hm)) (fun m hm => hok m (.down _ _ _ hc hm)), ?_⟩
      have hpart : ∀ c ∈ n.children, ∀ m ∈ linkNodes fs base k c, Tree.Inside m c ∧ m.lCur.offset < m.rCur.offset ∧ ∀ h, c ≠ .misc h := by
        intro c hc m hm
        obtain ⟨ho, ht⟩ := (mem_linkNodes fs base m k c (by have := children_size hc; omega)).mp hm
        have hr := outer_reach ho
        obtain ⟨hlt, h', hp, t, e⟩ := target_nonempty (hok m (.down _ _ _ hc hr)) ht
        refine ⟨reach_inside (fun m hm => hf m (.down _ _ _ hc hm)) hr (by rw [e]; nofun), hlt, ?_⟩
        rintro h rfl
        cases hr with
        | here => cases e
        | down _ _ _ hc' => cases hc'
      refine List.Pairwise.imp_of_mem ?_ (children_apart (hf n (.here _)))
      intro a b ha hb hab m hma m' hmb e
      subst e
      obtain ⟨a2, a3, a4⟩ := hpart a ha m hma
      obtain ⟨b2, b3, b4⟩ := hpart b hb m hmb
      rcases hab with h | ⟨h, e⟩ | ⟨h, e⟩
      · have := h (children_isNode ha) (children_isNode hb)
        unfold Apart at this
        unfold Tree.Inside at a2 b2
        omega
      · exact a4 h e
      · exact b4 h e
    cases n
    case exprPath h p =>
      simp only [linkNodes]
      split <;> simp
    all_goals exact step

/-- C59. The links are those of the paths without interpolations that have a target, except for those inside a path; each
path once, with its range. -/
theorem C59_exact (fs : FS) (base : Bytes) {src : Bytes} {root : Node} {st : PState} (hp : parse src = some (root, st)) :
    ∃ ns : List (Node × Bytes), documentLinks fs base src root = ns.map (fun p => ⟨toLSPRange src p.1.range, p.2⟩) ∧
      (ns.map (·.1)).Nodup ∧
      ∀ n target, (n, target) ∈ ns ↔ Outer root n ∧ ∃ t, Literal n t ∧ resolveExprPath fs base t = some target := by
  have hlit : ∀ n target, targetOf fs base n = some target ↔ ∃ t, Literal n t ∧ resolveExprPath fs base t = some target := by
    intro n target
    constructor
    · intro h
      cases n with
      | exprPath h' p =>
        simp only [targetOf, Option.bind_eq_some_iff] at h
        obtain ⟨t, hl, hr⟩ := h
        unfold Node.literal? at hl
        split at hl
        · cases hl
          exact ⟨t, ⟨_, _, rfl⟩, hr⟩
        · cases hl
      | _ => cases h
    · rintro ⟨t, ⟨h, hp, rfl⟩, hr⟩
      exact hr
  refine ⟨(linkNodes fs base (sizeOf root) root).map fun n => (n, (targetOf fs base n).getD []), ?_, ?_, ?_⟩
  · rw [documentLinks, links_nodes, List.map_map]
    rfl
  · rw [List.map_map]
    have : (linkNodes fs base (sizeOf root) root).map ((fun p : Node × Bytes => p.1) ∘ fun n => (n, (targetOf fs base n).getD [])) =
        linkNodes fs base (sizeOf root) root := by
      rw [show ((fun p : Node × Bytes => p.1) ∘ fun n => (n, (targetOf fs base n).getD [])) = fun n => n from rfl]
      simp
    rw [this]
    exact linkNodes_nodup _ _ (Nat.le_refl _) (fun m hm => parse_fine hp m hm) fun m hm => all_reach children_subs (parse_okAll hp) hm
  · intro n target
    rw [List.mem_map]
    constructor
    · rintro ⟨m, hm, e⟩
      obtain ⟨h1, h2⟩ := (mem_linkNodes fs base m _ root (Nat.le_refl _)).mp hm
      cases e
      refine ⟨h1, (hlit _ _).mp ?_⟩
      obtain ⟨x, hx⟩ := Option.isSome_iff_exists.mp h2
      rw [hx]
      rfl
    · rintro ⟨h1, h2⟩
      have h2 := (hlit _ _).mpr h2
      exact ⟨n, (mem_linkNodes fs base n _ root (Nat.le_refl _)).mpr ⟨h1, by rw [h2]; rfl⟩, by rw [h2]; rfl⟩

/-- A file system with only the files `/d/a` and `/d/b`. -/
def someFS : FS where
  parent _ := b!"/d"
  canonical d := some d
  join d p := d ++ b!"/" ++ p
  weaklyCanonical p := some p
  status p := if p = b!"/d/./a" ∨ p = b!"/d/./b" then some false else none
  exists_ _ := false

noncomputable def linksOf (src : Bytes) : List (Int × Int × Bytes) :=
  match parse src with
  | some (root, _) => (documentLinks someFS b!"/d/default.nix" src root).map fun l => (l.range.start.character, l.range.stop.character, l.target)
  | none => []

example : linksOf b!"{ x = ./a; y = [ ./b ./c ]; z = ./b/${x}; }" = [(6, 9, b!"/d/./a"), (17, 20, b!"/d/./b")] := by decide +kernel

/-- C59. A path inside a path has no link. -/
theorem C59_nested_violated : linksOf b!"./c/${./a}" = [] ∧ linksOf b!"[ ./a ]" ≠ [] ∧
    ∃ root st n, parse b!"./c/${./a}" = some (root, st) ∧ Reach root n ∧ ∃ h hp, n = .exprPath h (.parts hp [.text b!"./a"]) := by
  refine ⟨by decide +kernel, by decide +kernel, ?_⟩
  have h : (match parse b!"./c/${./a}" with
    | some (root, _) => match childAt [0, 0, 0] root with
      | some (.exprPath _ (.parts _ [.text t])) => decide (t = b!"./a")
      | _ => false
    | none => false) = true := by decide +kernel
  split at h
  · rename_i root st hp
    split at h
    · rename_i hc
      have := of_decide_eq_true h
      subst this
      exact ⟨root, st, _, hp, childAt_reach hc, _, _, rfl⟩
    · cases h
  · cases h

end Verif.Props
