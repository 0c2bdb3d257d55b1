import Verif.Model.SemanticTokens
import Verif.Spec.SemanticTokens
import Verif.Lemmas.Positions
import Verif.Props.Scope
import Verif.Props.Formals
import Verif.Props.Descend
import Verif.Lemmas.Shown
/-
C30 (encoding of semantic tokens) and C58 (which tokens there are).
-/
namespace Verif.Props
open Nixf Node SourceCode Server SemanticTokens Scoping Lexical Tree

theorem toU32_of {x : Int} (h0 : 0 ≤ x) (h : x < 2 ^ 32) : toU32 x = x.toNat := by
  unfold toU32
  rw [Int.emod_eq_of_lt h0 h]

/-- The positions can be sent. -/
def Sendable (p : Position) : Prop := 0 ≤ p.line ∧ p.line < 2 ^ 32 ∧ 0 ≤ p.character ∧ p.character < 2 ^ 32

def absToken (t : Raw) : AbsToken := (t.pos.line.toNat, t.pos.character.toNat, t.length, t.type, t.mods)

theorem decode_encode (ts : List Raw) : ∀ prev : Position, Sendable prev → (∀ t ∈ ts, Sendable t.pos) →
    (∀ t ∈ ts, PosLe prev t.pos) → ts.Pairwise (fun a b => PosLe a.pos b.pos) →
    decode prev.line.toNat prev.character.toNat (flat (encode prev ts)) = ts.map absToken ∧ assertOk prev ts := by
  induction ts with
  | nil => intro _ _ _ _ _; exact ⟨rfl, trivial⟩
  | cons t ts ih =>
    intro prev hp hs hle hpw
    have hst := hs t (by simp)
    have hpt := hle t (by simp)
    obtain ⟨hall, hpw⟩ := List.pairwise_cons.mp hpw
    obtain ⟨ih1, ih2⟩ := ih t.pos hst (fun u hu => hs u (by simp [hu])) (fun u hu => hall u hu) hpw
    obtain ⟨p1, p2, p3, p4⟩ := hp
    obtain ⟨s1, s2, s3, s4⟩ := hst
    have hdl : toU32 (t.pos.line - prev.line) = (t.pos.line - prev.line).toNat := by
      apply toU32_of <;> (unfold PosLe at hpt; omega)
    refine ⟨?_, by unfold PosLe at hpt; omega, ih2⟩
    rw [SemanticTokens.encode]
    simp only [flat, List.flatMap_cons, List.cons_append, List.nil_append, decode, List.map_cons, List.cons.injEq]
    have hline : prev.line.toNat + toU32 (t.pos.line - prev.line) = t.pos.line.toNat := by
      rw [hdl]; unfold PosLe at hpt; omega
    have hstart : (if toU32 (t.pos.line - prev.line) = 0 then
        prev.character.toNat + (if toU32 (t.pos.line - prev.line) ≠ 0 then toU32 t.pos.character
          else toU32 (t.pos.character - prev.character))
        else (if toU32 (t.pos.line - prev.line) ≠ 0 then toU32 t.pos.character
          else toU32 (t.pos.character - prev.character))) = t.pos.character.toNat := by
      by_cases hz : toU32 (t.pos.line - prev.line) = 0
      · rw [if_pos hz, if_neg (by simp [hz])]
        rw [hdl] at hz
        have hc : prev.character ≤ t.pos.character := by unfold PosLe at hpt; omega
        rw [toU32_of (by omega) (by omega)]
        omega
      · rw [if_neg hz, if_pos hz, toU32_of s3 s4]
    rw [hline, hstart]
    exact ⟨rfl, ih1⟩

/-- C30. Whatever the order in which tokens were collected, and whatever sorted order `std::sort` makes of them: a client
decodes what is sent to the collected tokens, in this order, and no assertion fails. -/
theorem C30_decode (raw sorted : List Raw) (hperm : raw.Perm sorted)
    (hsorted : sorted.Pairwise fun a b => SemanticTokens.lt b.pos a.pos = false) (hs : ∀ t ∈ raw, Sendable t.pos) :
    decode 0 0 (flat (encode ⟨0, 0⟩ sorted)) = sorted.map absToken ∧ assertOk ⟨0, 0⟩ sorted ∧
    (decode 0 0 (flat (encode ⟨0, 0⟩ sorted))).Perm (raw.map absToken) := by
  have hs' : ∀ t ∈ sorted, Sendable t.pos := fun t ht => hs t (hperm.mem_iff.mpr ht)
  have h := decode_encode sorted ⟨0, 0⟩ (by unfold Sendable; decide) hs'
    (fun t ht => by have := hs' t ht; unfold Sendable at this; show (0 : Int) < _ ∨ (0 : Int) = _ ∧ (0 : Int) ≤ _; omega)
    (hsorted.imp fun {a b} h => by
      unfold SemanticTokens.lt at h
      simp only [Bool.or_eq_false_iff, decide_eq_false_iff_not, Bool.and_eq_false_iff, beq_eq_false_iff_ne] at h
      unfold PosLe
      omega)
  exact ⟨h.1, h.2, h.1 ▸ (hperm.map absToken).symm⟩

example : ∃ sorted : List Raw, [⟨⟨1, 2⟩, 3, 4, 0⟩, ⟨⟨0, 5⟩, 1, 2, 1⟩, ⟨⟨0, 1⟩, 2, 5, 0⟩].Perm sorted ∧
    sorted.Pairwise (fun a b => SemanticTokens.lt b.pos a.pos = false) ∧
    flat (encode ⟨0, 0⟩ sorted) = [0, 1, 2, 5, 0, 0, 4, 1, 2, 1, 1, 2, 3, 4, 0] :=
  ⟨[⟨⟨0, 1⟩, 2, 5, 0⟩, ⟨⟨0, 5⟩, 1, 2, 1⟩, ⟨⟨1, 2⟩, 3, 4, 0⟩], by decide, by decide, by decide⟩

/-! ### The tokens of a tree -/

theorem resolve_binds {Δ : List Frame} {x : Bytes} {q : Node × DefSource} (h : resolve Δ x = some q) : ∃ f ∈ Δ, f.binds x = some q := by
  unfold resolve at h
  obtain ⟨f, hf, he⟩ := List.exists_of_findSome?_eq_some h
  exact ⟨f, hf, he⟩

theorem inside_frames {n m : Node} {Δ : List Frame} (h : Inside n Δ m) : ∀ f ∈ Δ, ∃ c, f = frameOf c := by
  induction h with
  | here => intro f hf; cases hf
  | outer _ _ _ _ _ _ ih => exact ih
  | inner n _ _ _ _ _ ih =>
    intro f hf
    rcases List.mem_append.mp hf with hf | hf
    · exact ih f hf
    · simp at hf; exact ⟨n, hf⟩

section C58
variable (P : PrimOps) {src : Bytes} {root : Node} {st : PState} (hp : parse src = some (root, st)) {fuel : Nat}
  (hfuel : sizeOf root ≤ fuel)
include hp hfuel

/-- C58. The kind of token of a variable is the one of its class. -/
theorem C58_variable {Δ : List Frame} {v : Node} (hv : Occurs root Δ v) {c : VarClass} (hc : IsClass P Δ (varName v) c) :
    ((varType (runVL P fuel root) v (varName v)).1.code, (varType (runVL P fuel root) v (varName v)).2) = c.token := by
  have hrun := run_ok P hfuel (parse_wellFormed hp)
  cases c with
  | bool => rcases hc with h | h <;> (rw [varType, h]; rfl)
  | null => rw [varType, show varName v = _ from hc]; rfl
  | bound =>
    obtain ⟨h1, h2, h3, h4⟩ := hc
    rw [varType, if_neg (by simp [h1, h2]), if_neg (by simp [h3])]
    rcases hr : resolve Δ (varName v) with _ | ⟨n, kind⟩
    · rw [← free_iff, free_iff_resolve] at h4
      exact absurd hr h4
    · obtain ⟨d, hq, -, hk, -⟩ := C22_innermost_binder P hp hfuel hv hr
      have hb : kind ≠ .builtin := by
        obtain ⟨f, hf, he⟩ := resolve_binds hr
        obtain ⟨m, rfl⟩ := inside_frames hv.1 f hf
        exact (binds_kind he).2
      rw [hq]
      simp only [hk, if_neg hb]
      rfl
  | global =>
    obtain ⟨h1, h2, h3, h4, h5⟩ := hc
    rw [varType, if_neg (by simp [h1, h2]), if_neg (by simp [h3])]
    obtain ⟨d, hq, hk, -⟩ := C22_builtin_otherwise P hp hfuel hv h4 h5
    rw [hq]
    simp only [hk, if_true]
    rfl
  | fromWith =>
    obtain ⟨h1, h2, h3, h4⟩ := hc
    rw [varType, if_neg (by simp [h1, h2]), if_neg (by simp [h3])]
    obtain ⟨d, hq⟩ := (C23_from_with_iff P hp hfuel hv).mpr h4
    obtain ⟨w, d', -, rfl, hw⟩ := C23_definition_is_outermost P hp hfuel hv hq
    have := hrun.wdef _ (ptrFind_mem hw)
    simp only at this
    rw [hq]
    simp only [this]
    rfl
  | unknown =>
    obtain ⟨h1, h2, h3, h4, h5, h6⟩ := hc
    rw [varType, if_neg (by simp [h1, h2]), if_neg (by simp [h3])]
    rcases hq : (runVL P fuel root).query v with _ | ⟨k, d⟩
    · rfl
    · cases k with
      | defined =>
        rcases C22_defined_only P hp hfuel hv hq with ⟨q, hr⟩ | h
        · rw [← free_iff, free_iff_resolve, hr] at h4; cases h4
        · exact absurd h.2 h5
      | fromWith => exact absurd h6 ((C23_from_with_iff P hp hfuel hv).mp ⟨d, hq⟩).2.2
      | undefined =>
        have := query_ok hrun (parse_faithful hp) hv hq
        have hd : d = none := this.2.2.1
        subst hd
        rfl

omit hp hfuel in
theorem class_exists (Δ : List Frame) (x : Bytes) : ∃ c, IsClass P Δ x c := by
  by_cases h1 : x = b!"true" ∨ x = b!"false"
  · exact ⟨.bool, h1⟩
  · by_cases h2 : x = b!"null"
    · exact ⟨.null, h2⟩
    · have h1' : x ≠ b!"true" ∧ x ≠ b!"false" := ⟨fun h => h1 (.inl h), fun h => h1 (.inr h)⟩
      by_cases h3 : Free Δ x
      · by_cases h4 : Global P x
        · exact ⟨.global, h1'.1, h1'.2, h2, h3, h4⟩
        · by_cases h5 : withsOf Δ = []
          · exact ⟨.unknown, h1'.1, h1'.2, h2, h3, h4, h5⟩
          · exact ⟨.fromWith, h1'.1, h1'.2, h2, h3, h4, h5⟩
      · exact ⟨.bound, h1'.1, h1'.2, h2, h3⟩

/-- C58. The tokens that are collected are those of the nodes that are shown, each with the type and the modifiers of its
class, as far as the node is on one line. -/
theorem C58_exact (t : Raw) : t ∈ collect (runVL P fuel root) src root ↔
    ∃ m type mods, Marks P root m type mods ∧ m.lCur.line = m.rCur.line ∧ t = ⟨toLSPPosition src m.lCur, len m, type, mods⟩ := by
  have hgood := (parse_ids hp).vok.2
  have hset : ∀ Δ m, Inside root Δ m → SetInv m := fun Δ m hm => (hgood Δ m hm).2.1
  have hadd : ∀ n (ty : SemaType) (mods : Nat), t ∈ add src n ty mods ↔
      n.lCur.line = n.rCur.line ∧ t = ⟨toLSPPosition src n.lCur, len n, ty.code, mods⟩ := by
    intro n ty mods
    unfold add skip
    by_cases h : n.lCur.line = n.rCur.line
    · simp [h]
    · rw [if_pos (by simpa using h)]; simp [h]
  have hattr : ∀ Δ m, Shown root Δ m → t ∈ ((staticOf m).flatMap fun a =>
      if (attrValue a).isNull then [] else if attrFromInherit a then [] else add src (attrKey a) .attrName 0) →
      ∃ m type mods, Marks P root m type mods ∧ m.lCur.line = m.rCur.line ∧ t = ⟨toLSPPosition src m.lCur, len m, type, mods⟩ := by
    intro Δ m hm ht
    obtain ⟨a, ha, ht⟩ := List.mem_flatMap.mp ht
    split at ht
    · cases ht
    · split at ht
      · cases ht
      · rename_i h1 h2
        obtain ⟨h3, h4⟩ := (hadd _ _ _).mp ht
        refine ⟨attrKey a, 10, 0, ?_, h3, h4⟩
        have hk := attrFromInherit_iff.mp (by simpa using h2)
        cases a with
        | attr x k v kind =>
          simp only [attrKind] at hk
          subst hk
          exact .attr Δ m x k v hm ha (by simpa [attrValue] using h1)
        | _ => simp [attrValue, Node.isNull] at h1
  rw [collect, mem_tokens _ src t _ root (Nat.le_refl _) hset _ (Nat.le_refl _)]
  constructor
  · rintro ⟨Δ, m, hm, ht⟩
    have hin := shown_inside hset hm
    unfold own at ht
    split at ht
    · split at ht
      · rename_i h p hl
        obtain ⟨h1, h2⟩ := (hadd _ _ _).mp ht
        simp only [isLiteralString] at hl
        have : ∃ hp' t', p = .parts hp' [.text t'] := by
          unfold Node.literal? at hl
          split at hl
          · exact ⟨_, _, rfl⟩
          · cases hl
        obtain ⟨hp', t', rfl⟩ := this
        exact ⟨_, 1, 0, .string Δ _ _ _ hm, h1, h2⟩
      · cases ht
    · rename_i h i
      obtain ⟨h1, h2⟩ := (hadd _ _ _).mp ht
      have ho : Occurs root Δ (.exprVar h i) := ⟨hin, rfl⟩
      obtain ⟨c, hc⟩ := class_exists P Δ (varName (.exprVar h i))
      have := C58_variable P hp hfuel ho hc
      refine ⟨_, _, _, .var Δ _ c hm rfl hc, h1, ?_⟩
      rw [← this]
      exact h2
    · rename_i p _ _
      obtain ⟨a, ha, ht2⟩ := List.mem_flatMap.mp ht
      unfold pathNames at ha
      split at ha
      · unfold selectName at ht2
        split at ht2
        · obtain ⟨h1, h2⟩ := (hadd _ _ _).mp ht2
          exact ⟨_, 3, 0, .select Δ _ _ _ _ _ _ _ _ _ _ hm ha, h1, h2⟩
        · cases ht2
      · cases ha
    · obtain ⟨ha, i, f, rfl, -⟩ := hset Δ _ hin
      simp only [lambdaArgTokens, List.mem_append] at ht
      rcases ht with ht | ht
      · split at ht
        · cases ht
        · rename_i hi
          obtain ⟨h1, h2⟩ := (hadd _ _ _).mp ht
          exact ⟨_, 11, 0, .arg Δ _ _ _ _ _ hm (by simpa using hi), h1, h2⟩
      · obtain ⟨q, hq, ht⟩ := List.mem_flatMap.mp ht
        split at ht
        · cases ht
        · obtain ⟨h1, h2⟩ := (hadd _ _ _).mp ht
          exact ⟨_, 12, 0, .formal Δ _ _ _ _ _ _ _ hm (((C21_kept_once _).2 q.1 q.2).mp hq), h1, h2⟩
    · exact hattr Δ m hm ht
  · rintro ⟨m, type, mods, hm, h1, h2⟩
    cases hm with
    | string Δ h hp' t' hs => exact ⟨Δ, _, hs, by
        exact (hadd _ _ _).mpr ⟨h1, h2⟩⟩
    | var Δ v c hs hv hc =>
      have ho : Occurs root Δ m := ⟨shown_inside hset hs, hv⟩
      have := C58_variable P hp hfuel ho hc
      cases m with
      | exprVar h i =>
        refine ⟨Δ, _, hs, (hadd _ _ _).mpr ⟨h1, ?_⟩⟩
        rw [h2, ← this]
        rfl
      | _ => cases hv
    | select Δ h e o hp' ns ds d b hn i hs hmem =>
      exact ⟨Δ, _, hs, List.mem_flatMap.mpr ⟨_, hmem, (hadd _ _ _).mpr ⟨h1, h2⟩⟩⟩
    | attr Δ n x k v hs hmem hv =>
      refine ⟨Δ, n, hs, ?_⟩
      have hmem2 : t ∈ ((staticOf n).flatMap fun a =>
          if (attrValue a).isNull then [] else if attrFromInherit a then [] else add src (attrKey a) .attrName 0) := by
        refine List.mem_flatMap.mpr ⟨_, hmem, ?_⟩
        rw [if_neg (by simp [attrValue, hv]), if_neg (by simp [attrFromInherit])]
        exact (hadd _ _ _).mpr ⟨h1, h2⟩
      cases n <;> first | exact hmem2 | cases hmem
    | arg Δ h ha i f e hs hi =>
      refine ⟨Δ, _, hs, List.mem_append_left _ ?_⟩
      rw [if_neg (by simp [hi])]
      exact (hadd _ _ _).mpr ⟨h1, h2⟩
    | formal Δ h ha i f e x g hs hf =>
      refine ⟨Δ, _, hs, List.mem_append_right _ (List.mem_flatMap.mpr ⟨(x, g), ((C21_kept_once _).2 x g).mpr hf, ?_⟩)⟩
      have : (formalID g).isNull = false := by obtain ⟨_, _, _, h, _⟩ := hf; exact h.1
      rw [if_neg (by simp [this])]
      exact (hadd _ _ _).mpr ⟨h1, h2⟩

end C58

/-! ### Lengths and positions -/

theorem shownAttrs_ok {src : Bytes} {r : Bool} {h' : Hd} {b r' : Node} {st dy : List Node} (hn : OkAll src (.exprAttrs h' b r' st dy))
    {p : Bool × Node} (hp : p ∈ shownAttrs r st dy) : OkAll src p.2 := by
  unfold shownAttrs at hp
  simp only [List.mem_append, List.mem_map, List.mem_filter] at hp
  rcases hp with ⟨a, ⟨ha, -⟩, rfl⟩ | ⟨a, ⟨ha, -⟩, rfl⟩ <;> exact okAll_value (hn.sub (by simp [subs, ha]))

theorem shown_ok {src : Bytes} {n m : Node} {Δ : List Frame} (hn : OkAll src n) (h : Shown n Δ m) : OkAll src m := by
  have step : ∀ n, OkAll src n → ∀ p ∈ shownParts n, OkAll src p.2 := by
    intro n hn p hp
    have hin : ∀ e, OkAll src e → p ∈ inScope e → OkAll src p.2 := by
      intro e he hp
      unfold inScope at hp
      split at hp
      · cases hp
      · simp at hp; subst hp; exact he
    unfold shownParts at hp
    split at hp
    · cases hp
    · cases hp
    · exact hin _ (hn.sub (by simp [subs])) hp
    · simp only [List.mem_map, List.mem_filter, List.mem_cons, List.not_mem_nil, or_false] at hp
      obtain ⟨c, ⟨rfl | rfl, -⟩, rfl⟩ := hp <;> exact hn.sub (by simp [subs])
    · exact shownAttrs_ok hn hp
    · rcases List.mem_append.mp hp with hp | hp
      · exact shownAttrs_ok (hn.sub (m := .exprAttrs _ _ _ _ _) (.tail _ (.head _))) hp
      · exact hin _ (hn.sub (by simp [subs])) hp
    · exact hin _ (hn.sub (by simp [subs])) hp
    · split at hp
      · cases hp
      · simp at hp; subst hp; exact hn.sub (by simp [subs])
    · rcases List.mem_append.mp hp with hp | hp
      · split at hp
        · cases hp
        · simp at hp; subst hp; exact hn.sub (by simp [subs])
      · exact hin _ (hn.sub (by simp [subs])) hp
    · obtain ⟨c, hc, rfl⟩ := List.mem_map.mp hp
      exact hn.sub (children_subs hc)
  induction h with
  | here => exact hn
  | outer n c Δ m hc _ ih => exact ih (step n hn _ hc)
  | inner n c Δ m hc _ ih => exact ih (step n hn _ hc)

theorem marks_ok {P : PrimOps} {src : Bytes} {root m : Node} {type mods : Nat} (hn : OkAll src root) (h : Marks P root m type mods) :
    OkAll src m := by
  cases h with
  | string _ _ _ _ hs => exact shown_ok hn hs
  | var _ _ _ hs => exact shown_ok hn hs
  | select _ _ _ _ hp ns ds _ _ _ _ hs hm =>
    have h1 : OkAll src (.attrPath hp ns ds) := (shown_ok hn hs).sub (by simp [subs])
    exact h1.sub (by simp [subs, hm])
  | attr _ n x k v hs hm =>
    have h1 := shown_ok hn hs
    have h2 : OkAll src (.attr x m v .plain) := by
      unfold staticOf at hm
      split at hm
      · exact h1.sub (by simp [subs, hm])
      · rename_i h' b r st dy
        have h3 : OkAll src (.exprAttrs h' b r st dy) := h1.sub (by simp [subs])
        exact h3.sub (by simp [subs, hm])
      · cases hm
    exact h2.sub (by simp [subs])
  | arg _ h ha i f e hs =>
    have h1 : OkAll src (.lambdaArg ha m f) := (shown_ok hn hs).sub (by simp [subs])
    exact h1.sub (by simp [subs])
  | formal _ h ha i f e x g hs hf =>
    have h1 : OkAll src (.lambdaArg ha i f) := (shown_ok hn hs).sub (by simp [subs])
    have h2 : OkAll src f := h1.sub (by simp [subs])
    obtain ⟨pre, post, he, hf, -⟩ := hf
    cases f with
    | formals hh ms =>
      have h3 : OkAll src g := h2.sub (by simp only [formalMembers] at he; simp [subs, he])
      exact (okAll_formal h3).2.1
    | _ => simp [formalMembers] at he

theorem lines_cursor {src : Bytes} {n : Node} (h : OkAll src n) : n.lCur.line = n.rCur.line ↔ NL ∉ slice src n.range := by
  have h1 : At src n.lCur := h.at_l
  have h2 : At src n.rCur := h.at_r
  have h3 : n.lCur.offset ≤ n.rCur.offset := h.le
  rw [h1.2, h2.2]
  unfold posOf
  simp only
  rw [take_split (src := src) h3, List.count_append]
  have : (src.take n.rCur.offset).drop n.lCur.offset = slice src n.range := by
    unfold slice
    rw [List.drop_take]
    rfl
  rw [this, ← List.count_eq_zero]
  omega

theorem codepoints_ascii (l : Bytes) (h : ∀ c ∈ l, c < 128) : lspLength l = l.length := by
  induction l with
  | nil => simp [lspLength, codepoints]
  | cons c l ih =>
    have hc : c &&& 0x80 = 0 := by
      have hb := forall_byte (P := fun c => c < 128 → c &&& 0x80 = 0) (by decide +kernel) c
      exact hb (h c (by simp))
    have ih := ih fun d hd => h d (by simp [hd])
    unfold lspLength at ih ⊢
    rw [codepoints]
    simp [hc, ih]
    omega

section C30
variable (P : PrimOps) {src : Bytes} {root : Node} {st : PState} (hp : parse src = some (root, st)) {fuel : Nat}
  (hfuel : sizeOf root ≤ fuel)
include hp hfuel

/-- C30. For a document of less than 2 GiB, what is sent for it decodes to what was collected. -/
theorem C30_document (hlen : 2 * src.length < 2 ^ 32) (sorted : List Raw)
    (hperm : (collect (runVL P fuel root) src root).Perm sorted)
    (hsorted : sorted.Pairwise fun a b => SemanticTokens.lt b.pos a.pos = false) :
    decode 0 0 (flat (encode ⟨0, 0⟩ sorted)) = sorted.map absToken ∧ assertOk ⟨0, 0⟩ sorted ∧
    ∀ a, a ∈ decode 0 0 (flat (encode ⟨0, 0⟩ sorted)) ↔
      ∃ m type mods, Marks P root m type mods ∧ NL ∉ slice src m.range ∧
        a = ((toLSPPosition src m.lCur).line.toNat, (toLSPPosition src m.lCur).character.toNat, (slice src m.range).length, type, mods) := by
  have hok := parse_okAll hp
  have hlen' : ∀ m, OkAll src m → len m = (slice src m.range).length := by
    intro m hm
    have h1 : m.rCur.offset ≤ src.length := hm.at_r.1
    have h2 : m.lCur.offset ≤ m.rCur.offset := hm.le
    unfold len
    rw [toU32_of (by omega) (by omega)]
    unfold slice
    rw [List.length_take, List.length_drop]
    show _ = min (m.rCur.offset - m.lCur.offset) (src.length - m.lCur.offset)
    omega
  obtain ⟨h1, h2, h3⟩ := C30_decode _ sorted hperm hsorted (by
    intro t ht
    obtain ⟨m, ty, mods, -, -, rfl⟩ := (C58_exact P hp hfuel t).mp ht
    have := offsetToPosition_bound src m.lCur.offset
    unfold Sendable
    show 0 ≤ (offsetToPosition src m.lCur.offset).line ∧ _ < _ ∧ 0 ≤ (offsetToPosition src m.lCur.offset).character ∧ _ < _
    simp only [toLSPPosition]
    omega)
  refine ⟨h1, h2, fun a => ?_⟩
  rw [h3.mem_iff, List.mem_map]
  constructor
  · rintro ⟨t, ht, rfl⟩
    obtain ⟨m, ty, mods, hm, hl, rfl⟩ := (C58_exact P hp hfuel t).mp ht
    have hmo := marks_ok hok hm
    exact ⟨m, ty, mods, hm, (lines_cursor hmo).mp hl, by rw [← hlen' m hmo]; rfl⟩
  · rintro ⟨m, ty, mods, hm, hl, rfl⟩
    have hmo := marks_ok hok hm
    exact ⟨_, (C58_exact P hp hfuel _).mpr ⟨m, ty, mods, hm, (lines_cursor hmo).mpr hl, rfl⟩, by rw [← hlen' m hmo]; rfl⟩

end C30

/-- C30, lengths. If the text of a node is ASCII, the length that is sent is the one in UTF-16 units. -/
theorem C30_length_partial {src : Bytes} {m : Node} (h : ∀ c ∈ slice src m.range, c < 128) :
    (slice src m.range).length = lspLength (slice src m.range) := (codepoints_ascii _ h).symm

/-- The tokens of a program, for examples: start, length, type, modifiers. -/
noncomputable def tokensOf (P : PrimOps) (src : Bytes) : List (Nat × Nat × Nat × Nat) :=
  match parse src with
  | some (root, _) => (collect (runVL P (sizeOf root) root) src root).map fun t => (t.pos.character.toNat, t.length, t.type, t.mods)
  | none => []

example : tokensOf [(b!"toString", false)] b!"let a = true; in {b, a}: [ a b c toString (with x; y) d.e \"s\" ]" =
    [(4, 1, 10, 0), (8, 4, 9, 1), (21, 1, 12, 0), (18, 1, 12, 0), (27, 1, 5, 0), (29, 1, 5, 0), (31, 1, 5, 2),
      (33, 8, 4, 1), (48, 1, 5, 2), (51, 1, 6, 4), (54, 1, 5, 2), (56, 1, 3, 0), (58, 3, 1, 0)] := by decide +kernel

/-- C30. Lengths are sent in bytes: of the three characters of this string, the client is told there are four. -/
theorem C30_length_violated : tokensOf [] b!"\"é\"" = [(0, 4, 1, 0)] ∧ lspLength b!"\"é\"" = 3 := by
  decide +kernel

/-- There is a variable, on one line, that no token starts at. -/
def Unmarked (src : Bytes) : Prop := ∃ root st Δ v, parse src = some (root, st) ∧ Occurs root Δ v ∧ v.lCur.line = v.rCur.line ∧
  ∀ t ∈ collect (runVL [] (sizeOf root) root) src root, t.pos ≠ toLSPPosition src v.lCur

theorem unmarked_of (src : Bytes) (is : List Nat) (h : (match parse src with
      | some (root, _) => match walk is root with
        | some (Δ, v) => isVar v && (fun root (_ : List Frame) v => v.lCur.line == v.rCur.line &&
          (collect (runVL [] (sizeOf root) root) src root).all fun t => t.pos != toLSPPosition src v.lCur) root Δ v
        | none => false
      | none => false) = true) : Unmarked src := by
  obtain ⟨root, st, Δ, v, h1, h2, h3⟩ := occurs_of_check (src := src) (is := is) (fun root _ v => v.lCur.line == v.rCur.line &&
    (collect (runVL [] (sizeOf root) root) src root).all fun t => t.pos != toLSPPosition src v.lCur) h
  simp only [Bool.and_eq_true, beq_iff_eq, List.all_eq_true, bne_iff_ne] at h3
  exact ⟨root, st, Δ, v, h1, h2, h3.1, h3.2⟩

/-- C58. Variables inside strings, in `inherit`, in defaults of formals and in attribute paths get no tokens. -/
theorem C58_missing_violated : ∀ src ∈ [b!"x: \"${x}\"", b!"x: { inherit x; }", b!"x: { inherit (x) y; }", b!"x: { a ? x }: 1",
    b!"x: x.${x}"], Unmarked src := by
  intro src hs
  simp only [List.mem_cons, List.not_mem_nil, or_false] at hs
  rcases hs with rfl | rfl | rfl | rfl | rfl
  · exact unmarked_of _ [0, 0, 0, 0] (by decide +kernel)
  · exact unmarked_of _ [0, 0] (by decide +kernel)
  · exact unmarked_of _ [0, 0, 0] (by decide +kernel)
  · exact unmarked_of _ [0, 0] (by decide +kernel)
  · exact unmarked_of _ [0, 1, 0, 0, 0] (by decide +kernel)

end Verif.Props
