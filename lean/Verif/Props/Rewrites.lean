import Verif.Props.Replace
import Verif.Lemmas.StringRewrite
import Verif.Lemmas.TokPath
import Verif.Props.JsonToNix
import Verif.Props.AttrPath
/-
What the documents produced by code actions mean: C67, C57, C39, C37 for documents without syntax errors.
-/
namespace Verif.Props
open Verif.Nixf Verif.Nixf.Syntax Node

variable {src : Bytes} {root n : Node} {s : PState}

theorem anc_all {l : List Node} (ha : Ancestors root n l) : ∀ m ∈ l, Reach root m := by
  induction ha with
  | root => intro m hm; simp at hm; subst hm; exact .here _
  | child p c l hp _ ih =>
    intro m hm
    rcases List.mem_cons.mp hm with rfl | hm
    · exact reach_child hp.1 hp.2.1
    · exact ih m hm

/-- The node an action is made for is the nearest one of its kind around the node at the cursor. -/
theorem atNode_reach {α : Type} {fuel : Nat} {k : NodeKind} {f : Node → Option (List α)} {l : List α} (h : parse src = some (root, s))
    (hr : Reach root n) (hf : sizeOf root ≤ fuel) (ha : atNode (runPM root) fuel k n f = some l) :
    l = [] ∨ ∃ m as, Ancestors root n as ∧ as.find? (isKind k) = some m ∧ Reach root m ∧ isKind k m = true ∧ f m = some l := by
  obtain ⟨as, h1, h2⟩ := C26_up h (isKind k) n hr
  unfold atNode at ha
  rw [h2 fuel hf] at ha
  cases e : as.find? (isKind k) with
  | none => rw [e] at ha; cases ha; exact .inl rfl
  | some m =>
    rw [e] at ha
    have h3 := List.find?_some e
    exact .inr ⟨m, as, h1, e, anc_all h1 m (List.mem_of_find?_eq_some e), h3, ha⟩

/-- Names and bindings are never hidden. -/
theorem part_of (h : parse src = some (root, s)) (hr : Reach root n) (hn : isName n = true ∨ isBind n = true) : Part root n := by
  rcases C72_parts h hr (by rcases hn with hn | hn <;> simp [phrase, hn]) with h1 | ⟨q, -, -, h1⟩
  · exact h1
  · exfalso
    rcases h1 with ⟨⟨_, _, rfl⟩, -⟩ | ⟨⟨_, _, _, _, _, rfl⟩, -⟩ <;> rcases hn with hn | hn <;> cases hn

theorem isKind_name (h : isKind .AttrName n = true) : isName n = true := by cases n <;> first | rfl | cases h
theorem isKind_binding (h : isKind .Binding n = true) : ∃ hd p eq v, n = .binding hd p eq v := by
  cases n <;> first | exact ⟨_, _, _, _, rfl⟩ | cases h
theorem isKind_inherit (h : isKind .Inherit n = true) : ∃ hd ns e, n = .inherit hd ns e := by
  cases n <;> first | exact ⟨_, _, _, rfl⟩ | cases h

/-- Text without quotes, backslashes, dollars and the like is not escaped. -/
theorem escape_id {t : Bytes} (h : ∀ c ∈ t, c ∉ b!"\"\\\n\r\t$") : escapeNixString t = t := by
  induction t with
  | nil => rfl
  | cons c t ih =>
    have hc := h c (by simp)
    have ih := ih fun d hd => h d (by simp [hd])
    rw [escapeNixString.eq_8, ih]
    all_goals first | (intro e; subst e; simp at hc; done) | (intro r e; subst e; simp at hc)

theorem Part.trans {a b c : Node} (h : Part a b) (h' : Part b c) : Part a c := by
  induction h with
  | here => exact h'
  | down hc _ ih => exact .down hc (ih h')

/-- An identifier in the tree is a word. -/
theorem word_of {r v r' : Bytes} {k : TK} (h : Tok r k v r') (hk : k = .id_ ∨ k = .kw_or) :
    ∃ c w, v = c :: w ∧ (c ∈ Lexical.letters ∨ c = 95) ∧ (∀ x ∈ w, x ∈ Lexical.identChars) ∧ wordKind (c :: w) = k := by
  obtain ⟨t, s, h1, h2, rfl, -, -⟩ := h
  have h3 : (lex (.init r)).1 = t := by rw [h1]
  obtain ⟨c, w, e1, e2, e3, -, -, -, e4⟩ := C15_word_only (.init r) (by
    rw [h3, h2]
    rcases hk with rfl | rfl
    · exact .inl rfl
    · exact .inr ⟨(b!"or", .kw_or), by decide, rfl⟩)
  exact ⟨c, w, by rw [← e1, h3], e2, e3, by rw [← e4, h3, h2]⟩

theorem word_plain {c : UInt8} {w : Bytes} (hc : c ∈ Lexical.letters ∨ c = 95) (hw : ∀ x ∈ w, x ∈ Lexical.identChars) : ∀ x ∈ c :: w, x ∉ b!"\"\\\n\r\t$" := by
  have f1 : ∀ c : UInt8, (c ∈ Lexical.letters ∨ c = 95) → c ∉ b!"\"\\\n\r\t$" := by apply forall_byte; decide +kernel
  have f2 : ∀ c : UInt8, c ∈ Lexical.identChars → c ∉ b!"\"\\\n\r\t$" := by apply forall_byte; decide +kernel
  intro x hx
  rcases List.mem_cons.mp hx with rfl | hx
  · exact f1 _ hc
  · exact f2 _ (hw x hx)

/-- The name of an attribute that is written as an identifier. -/
theorem name_word {hd : Hd} {i : Node} (h : parse src = some (root, s)) (hc : NoErrors s) (hr : Reach root (.attrNameID hd i)) :
    syn (.attrNameID hd i) = .name i.name ∧ ∃ c w, i.name = c :: w ∧ (c ∈ Lexical.letters ∨ c = 95) ∧ ∀ x ∈ w, x ∈ Lexical.identChars := by
  obtain ⟨hi, x, rfl⟩ := at_fits h hr
  refine ⟨rfl, ?_⟩
  obtain ⟨K, r0, gn, hK, -, -, -, -, g, -, -⟩ := document_at h hc (part_of h hr (.inl rfl)) rfl
  have := gn.isName_of hK rfl
  subst this
  have g : G .name _ [.name x] _ := g
  cases g with
  | name t => obtain ⟨c, w, h1, h2, h3, -⟩ := word_of t (.inl rfl); exact ⟨c, w, h1, h2, h3⟩
  | orName t => obtain ⟨c, w, h1, h2, h3, -⟩ := word_of t (.inr rfl); exact ⟨c, w, h1, h2, h3⟩

/-! ### C67 -/

/-- Quoting an attribute name changes the document in exactly this: the name is written as a string, of the same characters. -/
theorem C67_quote {fuel : Nat} {l : List Action} {act : Action} (h : parse src = some (root, s)) (hc : NoErrors s) (ho : odd (syn root) = false)
    (hr : Reach root n) (hf : sizeOf root ≤ fuel) (ha : addAttrNameActions (runPM root) fuel n = some l) (hm : act ∈ l)
    (ht : act.title = b!"Quote attribute name") :
    ∃ x t2, ReadAs (spliced src act.range act.newText) t2 ∧ Swap (.name x) (.strName (x.map .ch)) (syn root) t2 := by
  rcases atNode_reach h hr hf ha with rfl | ⟨m, -, -, -, h1, h2, h3⟩
  · cases hm
  have hm' := isKind_name h2
  have hp := part_of h h1 (.inl hm')
  cases m <;> simp only [isName, Bool.false_eq_true] at hm'
  · rename_i hd i
    simp only [Option.some.injEq] at h3
    subst h3
    simp only [List.mem_singleton] at hm
    subst hm
    obtain ⟨e, c, w, e1, e2, e3⟩ := name_word h hc h1
    have h4 : escapeNixString i.name = i.name := escape_id (e1 ▸ word_plain e2 e3)
    have g : Text .name (b!"\"" ++ i.name ++ b!"\"") (.strName (i.name.map .ch)) := by
      refine ⟨.strName (tok_quote _) ?_, by simp [odd, oddL_chars]⟩
      have := g_escape i.name []
      rw [h4] at this
      exact this
    obtain ⟨t2, a1, a2⟩ := C73_replace h hc ho hp rfl g (fun _ _ => rfl) (fits_closed (by decide) (by decide))
    rw [e] at a2
    exact ⟨_, t2, a1, a2⟩
  · rename_i hd e
    simp only at h3
    split at h3
    · simp only [Option.some.injEq] at h3
      subst h3
      split at hm
      · simp at hm; subst hm; simp at ht
      · cases hm
    · cases h3; cases hm
  · cases h3; cases hm

/-- A static name is the name with these characters. -/
theorem static_is {k : Bytes} (h : parse src = some (root, s)) (hr : Reach root n) (hk : n.staticName? = some k) : NameIs (syn n) k := by
  have hf := at_fits h hr
  cases n <;> try (cases hk; done)
  · obtain ⟨hi, x, rfl⟩ := hf
    cases hk
    exact .id x
  · obtain ⟨hq, p, rfl⟩ := hf
    have hk : p.literal? = some k := hk
    unfold literal? at hk
    split at hk
    · cases hk
      show NameIs (Syn.strName (k.map .ch ++ [])) k
      rw [List.append_nil]
      exact .str k
    · cases hk

/-- Taking the quotes away changes the document in exactly this, provided that the name is not read together with its neighbours. -/
theorem C67_unquote {fuel : Nat} {l : List Action} {act : Action} (h : parse src = some (root, s)) (hc : NoErrors s) (ho : odd (syn root) = false)
    (hr : Reach root n) (hf : sizeOf root ≤ fuel) (ha : addAttrNameActions (runPM root) fuel n = some l) (hm : act ∈ l)
    (ht : act.title = b!"Unquote attribute name") (hfit : Fitting src act.range act.newText) :
    ∃ x t2, ReadAs (spliced src act.range act.newText) t2 ∧ Swap (.strName (x.map .ch)) (.name x) (syn root) t2 := by
  rcases atNode_reach h hr hf ha with rfl | ⟨m, -, -, -, h1, h2, h3⟩
  · cases hm
  have hm' := isKind_name h2
  have hp := part_of h h1 (.inl hm')
  cases m <;> simp only [isName, Bool.false_eq_true] at hm'
  · simp only [Option.some.injEq] at h3
    subst h3
    simp only [List.mem_singleton] at hm
    subst hm
    simp at ht
  · rename_i hd e
    simp only at h3
    split at h3
    · rename_i x hx
      simp only [Option.some.injEq] at h3
      subst h3
      split at hm
      · rename_i hv
        simp only [List.mem_singleton] at hm
        subst hm
        have h5 := static_is h h1 hx
        have h6 : syn (.attrNameString hd e) = .strName (x.map .ch) := by
          obtain ⟨_, _, rfl⟩ := at_fits h h1
          obtain ⟨_, _, rfl⟩ := at_fits h (reach_child h1 (show _ ∈ _ from List.mem_filter.mpr ⟨.head _, rfl⟩))
          generalize hs : syn _ = sy at h5
          cases h5 with
          | id => cases hs
          | str => rfl
        have g : Text .name x (.name x) := by
          have := tok_name (w := x) (rest := []) (by unfold quoteNixAttrKey; rw [if_pos hv]) fresh_nil (by simp)
          rw [List.append_nil] at this
          exact ⟨.name this, rfl⟩
        obtain ⟨t2, a1, a2⟩ := C73_replace h hc ho hp rfl g (fun _ _ => rfl) hfit
        rw [h6] at a2
        exact ⟨_, t2, a1, a2⟩
      · cases hm
    · cases h3; cases hm
  · cases h3; cases hm

/-! ### C57 -/

theorem holes_eq {a b : List Syn} (h : holes a = holes b) : a.length = b.length := by
  have := congrArg List.length h
  simpa [holes] using this

/-- Shape and parts determine an expression. -/
theorem syn_ext {a b : Syn} (h1 : shape a = shape b) (h2 : kids a = kids b) : a = b := by
  cases a <;> cases b <;> simp only [shape, Syn.interp.injEq, Syn.paren.injEq, Syn.un.injEq, Syn.interpName.injEq, Syn.formalOr.injEq, Syn.str.injEq, Syn.path.injEq,
    Syn.list.injEq, Syn.set.injEq, Syn.legacyLet.injEq, Syn.strName.injEq, Syn.inherit.injEq, Syn.argSet.injEq, Syn.argBoth.injEq, Syn.select.injEq, Syn.has.injEq,
    Syn.call.injEq, Syn.inheritFrom.injEq, Syn.selectOr.injEq, Syn.bin.injEq, Syn.lambda.injEq, Syn.assert.injEq, Syn.with_.injEq, Syn.ite.injEq, Syn.let_.injEq,
    Syn.binding.injEq, reduceCtorEq] at h1 <;> first | exact h1 | skip
  all_goals simp only [kids, List.cons.injEq, List.append_cancel_right_eq, and_true] at h2
  all_goals first
    | (subst h2; simp_all; done)
    | (simp_all; done)
    | (have := holes_eq h1.1
       obtain ⟨h3, h4⟩ := List.append_inj h2 this
       simp_all)
    | (have := holes_eq h1.2.1
       obtain ⟨h5, h2⟩ := h2
       obtain ⟨h3, h4⟩ := List.append_inj h2 this
       simp_all)
  
/-- To replace something by itself changes nothing. -/
theorem Swap.same {t a b : Syn} (h : Swap t t a b) : a = b := by
  induction h with
  | here => rfl
  | inside h1 h2 h3 _ ih => exact syn_ext h1 (by rw [h2, h3, ih])

/-- The string that is rewritten is not the name of an attribute. -/
theorem rewritten_part {fuel : Nat} {act : Action} (h : parse src = some (root, s)) (hr : Reach root n) (hf : sizeOf root ≤ fuel)
    (ha : addRewriteStringAction src (runPM root) fuel n = some (some act)) :
    ∃ hd p, Reach root (.exprString hd p) ∧ Part root (.exprString hd p) ∧ rewriteString src (.exprString hd p) = some act := by
  obtain ⟨as, h1, h2⟩ := C26_up h isExprString n hr
  unfold addRewriteStringAction at ha
  rw [h2 fuel hf] at ha
  cases e : as.find? isExprString with
  | none => rw [e] at ha; cases ha
  | some m =>
    rw [e] at ha
    have h3 := List.find?_some e
    have h4 := anc_all h1 m (List.mem_of_find?_eq_some e)
    obtain ⟨hd, p, rfl⟩ : ∃ hd p, m = .exprString hd p := by cases m <;> first | exact ⟨_, _, rfl⟩ | cases h3
    obtain ⟨bs, h5, h6⟩ := C26_up h (fun n => n.kind? == some .AttrName) _ h4
    simp only at ha
    rw [h6 fuel hf] at ha
    cases e' : bs.find? (fun n => n.kind? == some .AttrName) with
    | some q => rw [e'] at ha; cases ha
    | none =>
      rw [e'] at ha
      simp only [Option.some.injEq] at ha
      refine ⟨hd, p, h4, ?_, ha⟩
      rcases C72_parts h h4 rfl with hp | ⟨q, -, hq, hh⟩
      · exact hp
      · exfalso
        rcases hh with ⟨-, hh, rfl⟩ | ⟨⟨_, _, _, _, _, hh⟩, -⟩
        · have hpar := parent_mk h hq (show Node.exprString hd p ∈ _ from List.mem_filter.mpr ⟨.head _, rfl⟩) (by rintro ⟨_, h⟩; cases h)
          obtain ⟨ls, hl⟩ := ancestors_ex h hq
          have := anc_unique h h5 (.child _ _ _ hpar hl)
          subst this
          rw [List.find?_eq_none] at e'
          have hin : Node.attrNameString hh (.exprString hd p) ∈ ls := by cases hl <;> simp
          exact absurd rfl (e' (.attrNameString hh (.exprString hd p)) (List.mem_cons_of_mem _ hin))
        · cases hh

theorem tok_quote2 (r : Bytes) : Tok (39 :: 39 :: r) .quote2 b!"''" r := by
  refine tok_op (n := 2) (by decide) ?_ rfl (by decide) rfl rfl (by simp)
  exact no_path (k := []) (rest := 39 :: 39 :: r) (by simp) (fun x hx => by simp at hx; subst hx; decide)

/-- What is known about the fragments of a string. -/
theorem string_parts {hd hp : Hd} {fs : List Node} (h : parse src = some (root, s)) (hc : NoErrors s) (ho : odd (syn root) = false)
    (hm : Part root (.exprString hd (.parts hp fs))) :
    (∀ f ∈ fs, (∃ t, f = .text t) ∨ Known.Interp src f) ∧ oddL (synParts fs) = false := by
  obtain ⟨K, r0, gn, hK, -, -, -, -, -, g, -⟩ := document_at h hc hm rfl
  refine ⟨?_, g ho⟩
  have gs := (gn.ofSimple rfl rfl).1 (gn.isExpr_of hK rfl)
  intro f hf
  rcases explode_mem hf with hf | hf
  · exact .inl hf
  · cases gs with
    | uri _ e _ =>
      rw [e] at hf
      unfold chars at hf
      obtain ⟨c, -, rfl⟩ := List.mem_map.mp hf
      exact .inl ⟨_, rfl⟩
    | str _ g _ => exact (g.interps rfl f hf).imp_left fun ⟨c, h⟩ => ⟨_, h⟩
    | ind _ g _ => exact (g.interps rfl f hf).imp_left fun ⟨c, h⟩ => ⟨_, h⟩

/-- Rewriting an indented string as a double-quoted one does not change what nixd reads, unless a fragment in front of another one
ends in a dollar sign. -/
theorem C57_double {fuel : Nat} {act : Action} (h : parse src = some (root, s)) (hc : NoErrors s) (ho : odd (syn root) = false)
    (hr : Reach root n) (hf : sizeOf root ≤ fuel) (ha : addRewriteStringAction src (runPM root) fuel n = some (some act))
    (ht : act.title = b!"Convert to double-quoted string") :
    ∃ hd hp fs, Reach root (.exprString hd (.parts hp fs)) ∧ act.range = hd.range ∧
      ((∀ f ∈ fs.dropLast, ∀ t, f = .text t → t.getLast? ≠ some 36) → ReadAs (spliced src act.range act.newText) (syn root)) := by
  obtain ⟨hd, p, h1, h2, h3⟩ := rewritten_part h hr hf ha
  obtain ⟨hp, fs, rfl⟩ := at_fits h h1
  refine ⟨hd, hp, fs, h1, ?_⟩
  simp only [rewriteString] at h3
  split at h3
  · cases h3
    refine ⟨rfl, fun hd => ?_⟩
    obtain ⟨h4, h5⟩ := string_parts h hc ho h2
    have g : Text .simple (buildDoubleQuotedString fs src) (.str (synParts fs)) := by
      refine ⟨.str (tok_quote _) ?_, h5⟩
      exact dq_built h4 h5 hd []
    obtain ⟨t2, a1, a2⟩ := C73_replace h hc ho h2 rfl g (fun _ h => h) (fits_closed (by decide) (by decide))
    have := Swap.same (t := .str (synParts fs)) a2
    rwa [← this] at a1
  · cases h3
    simp at ht

/-- Rewriting a string as an indented one does not change what nixd reads, if no fragment has a dollar sign or a quote, and the
string is not read together with its neighbours. -/
theorem C57_indented {fuel : Nat} {act : Action} (h : parse src = some (root, s)) (hc : NoErrors s) (ho : odd (syn root) = false)
    (hr : Reach root n) (hf : sizeOf root ≤ fuel) (ha : addRewriteStringAction src (runPM root) fuel n = some (some act))
    (ht : act.title = b!"Convert to indented string") (hfit : Fitting src act.range act.newText) :
    ∃ hd hp fs, Reach root (.exprString hd (.parts hp fs)) ∧ act.range = hd.range ∧
      ((∀ f ∈ fs, ∀ t, f = .text t → 36 ∉ t ∧ 39 ∉ t) → ReadAs (spliced src act.range act.newText) (syn root)) := by
  obtain ⟨hd, p, h1, h2, h3⟩ := rewritten_part h hr hf ha
  obtain ⟨hp, fs, rfl⟩ := at_fits h h1
  refine ⟨hd, hp, fs, h1, ?_⟩
  simp only [rewriteString] at h3
  split at h3
  · cases h3
    simp at ht
  · cases h3
    refine ⟨rfl, fun hd => ?_⟩
    obtain ⟨h4, h5⟩ := string_parts h hc ho h2
    have g : Text .simple (buildIndentedString fs src) (.str (synParts fs)) := by
      refine ⟨.ind (v := b!"''") (r1 := buildFragments escapeForIndentedString src fs ++ b!"''") ?_ ?_, h5⟩
      · exact tok_quote2 _
      · exact ind_built h4 h5 hd (rest := []) (fun _ h => by cases h)
    obtain ⟨t2, a1, a2⟩ := C73_replace h hc ho h2 rfl g (fun _ h => h) hfit
    have := Swap.same (t := .str (synParts fs)) a2
    rwa [← this] at a1

/-! ### C39 -/

theorem name_odd {n : Syn} {k : Bytes} (h : NameIs n k) : odd n = false := by
  cases h with
  | id => rfl
  | str => simp [odd, chs, oddL_chars]

theorem tok_inherit {r : Bytes} (h : Ends r) : Tok (b!"inherit" ++ r) .kw_inherit b!"inherit" r :=
  tok_word (c := 105) (w := b!"nherit") (.inl (by decide)) (by decide) h.1 h.2

theorem ends_space (r : Bytes) : Ends (32 :: r) := ⟨fresh_cons (by decide), by simp⟩

/-- A simple expression or a selection as an expression. -/
theorem G.ofSelect {r r' : Bytes} {t : Syn} (h : G .select r [t] r') : G .expr r [t] r' := .op (.opr (.app (.one h)) .stop)

/-- The action is made for a binding of the tree. -/
theorem converted {fuel : Nat} {l : List Action} {act : Action} (h : parse src = some (root, s)) (hr : Reach root n) (hf : sizeOf root ≤ fuel)
    (ha : addConvertToInheritAction src (runPM root) fuel n = some l) (hm : act ∈ l) :
    ∃ hd p eq v, Reach root (.binding hd p eq v) ∧ act ∈ convertBinding src (.binding hd p eq v) := by
  rcases atNode_reach h hr hf ha with rfl | ⟨m, -, -, -, h1, h2, h3⟩
  · cases hm
  obtain ⟨hd, p, eq, v, rfl⟩ := isKind_binding h2
  cases h3
  exact ⟨hd, p, eq, v, h1, hm⟩

theorem binding_reach {hd : Hd} {p eq v : Node} (hr : Reach root (.binding hd p eq v)) {c : Node} (hc : c = p ∨ c = v) (hn : c.isNode = true) : Reach root c := by
  refine reach_child hr (List.mem_filter.mpr ⟨?_, hn⟩)
  rcases hc with rfl | rfl
  · exact .head _
  · exact .tail _ (.tail _ (.head _))

theorem name_isNode {a : Node} (h : Grammar.IsName a) : a.isNode = true := by
  cases a <;> first | rfl | cases h

theorem path_reach {hp : Hd} {ns ds : List Node} (h : parse src = some (root, s)) (hr : Reach root (.attrPath hp ns ds)) {a : Node} (ha : a ∈ ns) : Reach root a :=
  reach_child hr (List.mem_filter.mpr ⟨List.mem_append_left _ ha, name_isNode ((at_fits h hr).2.1 a ha)⟩)

/-- `x = x;` becomes `inherit x;`, and nothing else changes. -/
theorem C39_variable {hd hv : Hd} {p eq i : Node} {act : Action} (h : parse src = some (root, s)) (hc : NoErrors s) (ho : odd (syn root) = false)
    (hr : Reach root (.binding hd p eq (.exprVar hv i))) (ha : act ∈ convertBinding src (.binding hd p eq (.exprVar hv i)))
    (hfit : Fitting src act.range act.newText) :
    ∃ nm nm' x t2, NameIs nm x ∧ NameIs nm' x ∧ ReadAs (spliced src act.range act.newText) t2 ∧
      Swap (.binding [nm] (.var x)) (.inherit [nm']) (syn root) t2 := by
  obtain ⟨⟨hp, ns, ds, rfl⟩, -, -⟩ := at_fits h hr
  have hpr := binding_reach hr (.inl rfl) rfl
  obtain ⟨hi, x, rfl⟩ := at_fits h (binding_reach hr (.inr rfl) rfl)
  simp only [convertBinding, pathNames] at ha
  split at ha
  · rename_i a
    split at ha
    · cases ha
    · rename_i y hy
      split at ha
      · rename_i e
        subst e
        simp only [List.mem_singleton] at ha
        subst ha
        have h1 := static_is h (path_reach h hpr (.head _)) hy
        obtain ⟨nm, h2, h3⟩ := g_name x
        have g : Text .binds (b!"inherit " ++ quoteNixAttrKey x ++ b!";") (.inherit [nm]) := by
          refine ⟨?_, by simp [odd, oddL, name_odd h2]⟩
          have e : b!"inherit " ++ quoteNixAttrKey x ++ b!";" = b!"inherit" ++ (32 :: (quoteNixAttrKey x ++ b!";")) := by simp
          rw [e]
          exact .inherit (tok_inherit (ends_space _)) (.names (h3 [32] b!";" (by decide) (ends_semi _)) .noName) (tok_semi _) .noBind
        obtain ⟨t2, a1, a2⟩ := C73_replace h hc ho (part_of h hr (.inr rfl)) rfl g (fun _ _ => rfl) hfit
        exact ⟨_, _, _, t2, h1, h2, a1, a2⟩
      · cases ha
  · cases ha

/-- The text of a simple expression, with a different text after it. -/
theorem simple_onto {e : Node} {y : Bytes} (h : parse src = some (root, s)) (hc : NoErrors s) (ho : odd (syn root) = false) (hp : Part root e)
    (hs : isSimple e = true)
    (hy : (∀ c ∈ (e.src src).getLast?, hard c = true) ∨ ((∃ hv i, e = .exprVar hv i) ∧ Lexical.NotStarting Lexical.identChars y ∧ Calm y)) :
    G .simple (e.src src ++ y) [syn e] y := by
  have hx : e.isExpr = true := by cases e <;> first | rfl | cases hs
  obtain ⟨K, r0, gn, hK, e0, -, -, e1, -, g, -⟩ := document_at h hc hp (by simp [placed, hx])
  have gs : G .simple r0 [syn e] _ := ((gn.ofSimple rfl hs).1 (gn.isExpr_of hK hx)).toG
  have gs := gs.unlead rfl
  rcases hy with hy | ⟨⟨hv, i, rfl⟩, h1, h2⟩
  · rw [← e0, e1] at gs
    exact gs.alone (by simpa [oddL] using g ho) (by simp) (by simp) (.inr hy)
  · obtain ⟨hi, x, rfl⟩ : ∃ hi x, i = .identifier hi x := by
      have := (gn.ofSimple rfl hs).1 (gn.isExpr_of hK hx)
      cases this with
      | var => exact ⟨_, _, rfl⟩
    have gs : G .simple (skip r0) [.var x] _ := gs
    cases gs with
    | var t =>
      obtain ⟨c, w, rfl, a1, a2, a3⟩ := word_of t (.inl rfl)
      have a4 : skip (skip r0) = (c :: w) ++ _ := t.text
      rw [skip_skip, ← e0, e1, List.append_cancel_right_eq] at a4
      rw [a4]
      have := tok_word' a1 a2 h1 h2
      rw [a3] at this
      exact .var this

theorem segments {ns : List Node} (h : parse src = some (root, s)) (hr : ∀ a ∈ ns, Reach root a) {t : Bytes} (ht : segmentsText ns = some t) :
    ∃ ks, t = dotted ks ∧ List.Forall₂ NameIs (synL ns) ks := by
  induction ns generalizing t with
  | nil => cases ht; exact ⟨[], rfl, .nil⟩
  | cons a ns ih =>
    simp only [segmentsText] at ht
    split at ht
    · rename_i k r h1 h2
      cases ht
      obtain ⟨ks, rfl, h3⟩ := ih (fun b hb => hr b (.tail _ hb)) h2
      exact ⟨k :: ks, by simp [dotted], .cons (static_is h (hr a (.head _)) h1) h3⟩
    · cases ht

/-- `x = e.a.b.x;` becomes `inherit (e.a.b) x;`, and nothing else changes. If more than one name is selected, then `e` must be a variable, or
its text must end in a bracket or a quote: `1 .a.x` would become `1.a`. -/
theorem C39_select {hd hs : Hd} {p eq e dt sp d : Node} {b : Bool} {act : Action} (h : parse src = some (root, s)) (hc : NoErrors s)
    (ho : odd (syn root) = false) (hr : Reach root (.binding hd p eq (.exprSelect hs e dt sp d b)))
    (ha : act ∈ convertBinding src (.binding hd p eq (.exprSelect hs e dt sp d b))) (hfit : Fitting src act.range act.newText)
    (he : (pathNames sp).length = 1 ∨ (∃ hv i, e = .exprVar hv i) ∨ ∀ c ∈ (e.src src).getLast?, hard c = true) :
    ∃ nm nm' nl ns x te te' t2, NameIs nm x ∧ NameIs nl x ∧ NameIs nm' x ∧ ReadAs (spliced src act.range act.newText) t2 ∧
      ((ns = [] ∧ te' = te) ∨ ∃ ns' ks, te' = .select te ns' ∧ List.Forall₂ NameIs ns ks ∧ List.Forall₂ NameIs ns' ks) ∧
      Swap (.binding [nm] (.select te (ns ++ [nl]))) (.inheritFrom te' [nm']) (syn root) t2 := by
  obtain ⟨⟨hp, pn, ds, rfl⟩, -, -⟩ := at_fits h hr
  have hpr := binding_reach hr (.inl rfl) rfl
  have hvr := binding_reach hr (.inr rfl) rfl
  have hpe : Part root (.exprSelect hs e dt sp d b) :=
    Part.trans (part_of h hr (.inr rfl)) (.down (by simp [inner]) .here)
  obtain ⟨-, hsp, -⟩ := at_fits h hvr
  simp only [convertBinding, pathNames] at ha
  split at ha
  · rename_i a
    split at ha
    · cases ha
    · rename_i x hx
      split at ha
      · cases ha
      · rename_i hd'
        split at ha
        · cases ha
        · rename_i l hl
          split at ha
          · rename_i hlx
            split at ha
            · cases ha
            · rename_i t ht
              simp only [List.mem_singleton] at ha
              subst ha
              have hdn : d = .null := by cases d <;> first | rfl | (simp [Node.isNull] at hd'; done)
              subst hdn
              obtain ⟨hq, ns, es, rfl⟩ : ∃ hq ns es, sp = .attrPath hq ns es := by
                rcases hsp with rfl | h
                · cases hl
                · exact h
              have hpe' : Part root e := Part.trans hpe (.down (by simp [inner]) .here)
              have hsr : Reach root (.attrPath hq ns es) := reach_child hvr (List.mem_filter.mpr ⟨by simp [Node.children], rfl⟩)
              have hns : ns = ns.dropLast ++ [l] := by
                have : ns.getLast? = some l := hl
                rw [List.dropLast_append_getLast? l this]
              have hmem : ∀ a ∈ ns, Reach root a := fun a ha => path_reach h hsr ha
              obtain ⟨ks, rfl, hks⟩ := segments h (fun a ha => hmem a (List.dropLast_subset _ ha)) ht
              have h1 := static_is h (path_reach h hpr (.head _)) hx
              have h2 := static_is h (hmem l (by rw [hns]; simp)) hlx
              obtain ⟨nm, h3, h4⟩ := g_name x
              have hse : isSimple e = true := by
                obtain ⟨K, r0, gn, hK, -⟩ := document_at h hc hpe rfl
                exact (gn.base rfl).1 (gn.isExpr_of hK rfl)
              have hx' : e.isExpr = true := by cases e <;> first | rfl | cases hse
              obtain ⟨K, r0, gn, hK, e0, -, -, e1, gK, go, -⟩ := document_at h hc hpe' (by simp [placed, hx'])
              have hoe := go ho
              -- the expression in parentheses
              obtain ⟨te', h5, h6, h7⟩ : ∃ te', ((ns.dropLast = [] ∧ te' = syn e) ∨ ∃ ns' ks, te' = .select (syn e) ns' ∧
                  List.Forall₂ NameIs (synL ns.dropLast) ks ∧ List.Forall₂ NameIs ns' ks) ∧ odd te' = false ∧
                  ∀ rest, G .expr (e.src src ++ dotted ks ++ 41 :: rest) [te'] (41 :: rest) := by
                cases ks with
                | nil =>
                  refine ⟨syn e, .inl ⟨?_, rfl⟩, hoe, fun rest => ?_⟩
                  · have : (synL ns.dropLast).length = 0 := hks.length_eq
                    simp only [synL_eq, List.length_map] at this
                    exact List.length_eq_zero_iff.mp this
                  · have gs : G .simple r0 [syn e] _ := ((gn.ofSimple rfl hse).1 (gn.isExpr_of hK hx')).toG
                    have gs := gs.unlead rfl
                    rw [← e0, e1] at gs
                    have := gs.alone (y := 41 :: rest) (by simpa [oddL] using hoe) (by simp) (by simp) (Edge.stop fun d hd => by simp at hd; subst hd; exact ⟨by decide, fun h => absurd h (by decide)⟩)
                    simp only [dotted, List.flatMap_nil, List.append_nil]
                    exact G.ofSelect (.simple this)
                | cons k ks =>
                  obtain ⟨ns', k1, k2, k3⟩ := g_selection (x := e.src src) (t := syn e) k ks
                  refine ⟨_, .inr ⟨ns', _, rfl, hks, k1⟩, by simp [odd, hoe, k2], fun rest => ?_⟩
                  have q1 : Lexical.NotStarting Lexical.identChars (41 :: rest) := by intro x hx; simp at hx; subst hx; decide
                  have q2 : Calm (41 :: rest) := Calm.at (by decide +kernel)
                  have := k3 (41 :: rest) q1 q2 (simple_onto h hc ho hpe' hse (by
                    rcases he with he | he | he
                    · exfalso
                      have : (synL ns.dropLast).length = (k :: ks).length := hks.length_eq
                      have he : ns.length = 1 := he
                      simp only [synL_eq, List.length_map, List.length_dropLast, List.length_cons, he] at this
                      omega
                    · exact .inr ⟨he, dotted_start q1, dotted_calm q2⟩
                    · exact .inl he))
                  rw [List.append_assoc]
                  exact G.ofSelect this
              have g : Text .binds (b!"inherit (" ++ (e.src src ++ dotted ks) ++ b!") " ++ quoteNixAttrKey x ++ b!";") (.inheritFrom te' [nm]) := by
                refine ⟨?_, by simp [odd, oddL, h6, name_odd h3]⟩
                have ee : b!"inherit (" ++ (e.src src ++ dotted ks) ++ b!") " ++ quoteNixAttrKey x ++ b!";" =
                    b!"inherit" ++ (32 :: 40 :: ((e.src src ++ dotted ks) ++ (41 :: 32 :: (quoteNixAttrKey x ++ b!";")))) := by simp
                rw [ee]
                have t := (tok_lparen (e.src src ++ dotted ks ++ 41 :: 32 :: (quoteNixAttrKey x ++ b!";")))
                exact .inheritFrom (tok_inherit (ends_space _)) (Tok.ws (g := [32]) (by decide) t) (h7 _) (tok_rparen _)
                  (.names (h4 [32] b!";" (by decide) (ends_semi _)) .noName) (tok_semi _) .noBind
              obtain ⟨t2, a1, a2⟩ := C73_replace h hc ho (part_of h hr (.inr rfl)) rfl g (fun _ _ => rfl) hfit
              refine ⟨syn a, nm, syn l, synL ns.dropLast, x, syn e, te', t2, h1, h2, h3, a1, ?_, ?_⟩
              · exact h5.imp_left fun h => ⟨by rw [h.1]; rfl, h.2⟩
              · have : synL ns = synL ns.dropLast ++ [syn l] := by
                  conv_lhs => rw [hns]
                  simp [synL_eq]
                have a2 : Swap (.binding [syn a] (.select (syn e) (synL ns))) _ (syn root) t2 := a2
                rwa [this] at a2
          · cases ha
  · cases ha

/-- The action is made for an `inherit` of the tree. -/
theorem explicit {fuel : Nat} {l : List Action} {act : Action} (h : parse src = some (root, s)) (hr : Reach root n) (hf : sizeOf root ≤ fuel)
    (ha : addInheritToBindingAction src (runPM root) fuel n = some l) (hm : act ∈ l) :
    ∃ hd a e, Reach root (.inherit hd [a] e) ∧ act ∈ inheritBinding src (.inherit hd [a] e) := by
  rcases atNode_reach h hr hf ha with rfl | ⟨m, -, -, -, h1, h2, h3⟩
  · cases hm
  obtain ⟨hd, ns, e, rfl⟩ := isKind_inherit h2
  cases h3
  unfold inheritBinding at hm
  split at hm
  · rename_i hq
    cases hq
    exact ⟨_, _, _, h1, by unfold inheritBinding; exact hm⟩
  · cases hm

/-- `inherit x;` becomes `x = x;`, and nothing else changes, if `x` is an identifier. -/
theorem C39_explicit {hd : Hd} {a : Node} {x : Bytes} {act : Action} (h : parse src = some (root, s)) (hc : NoErrors s) (ho : odd (syn root) = false)
    (hr : Reach root (.inherit hd [a] .null)) (ha : act ∈ inheritBinding src (.inherit hd [a] .null)) (hx : a.staticName? = some x)
    (hq : quoteNixAttrKey x = x) (hfit : Fitting src act.range act.newText) :
    ∃ nm nm' t2, NameIs nm x ∧ NameIs nm' x ∧ ReadAs (spliced src act.range act.newText) t2 ∧
      Swap (.inherit [nm]) (.binding [nm'] (.var x)) (syn root) t2 := by
  have har : Reach root a := reach_child hr (List.mem_filter.mpr ⟨by simp [Node.children], name_isNode ((at_fits h hr).1 a (.head _))⟩)
  simp only [inheritBinding, hx, List.mem_singleton] at ha
  subst ha
  have h1 := static_is h har hx
  obtain ⟨nm, h2, h3⟩ := g_name x
  rw [hq] at h3
  have g : Text .binds (x ++ b!" = " ++ x ++ b!";") (.binding [nm] (.var x)) := by
    refine ⟨?_, by simp [odd, oddL, name_odd h2]⟩
    have e : x ++ b!" = " ++ x ++ b!";" = x ++ (32 :: 61 :: 32 :: (x ++ b!";")) := by simp
    rw [e]
    have v : G .simple (32 :: (x ++ b!";")) [.var x] b!";" := .var (.ws (g := [32]) (by decide) (tok_name hq (ends_semi _).1 (ends_semi _).2))
    exact .binding (.path (h3 [] _ (by simp) (ends_space _)) .noDot) (.ws (g := [32]) (by decide) (tok_eq _)) (G.ofSelect (.simple v)) (tok_semi _) .noBind
  obtain ⟨t2, a1, a2⟩ := C73_replace h hc ho (part_of h hr (.inr rfl)) rfl g (fun _ _ => rfl) hfit
  exact ⟨_, _, t2, h1, h2, a1, a2⟩

/-- One more name is selected. -/
def selectMore : Syn → Syn → Syn
  | .select t ns, n => .select t (ns ++ [n])
  | t, n => .select t [n]

theorem readAs_unique {t t' : Syn} (h : ReadAs src t) (h' : ReadAs src t') : t = t' := by
  obtain ⟨a, s, e, -, -, rfl⟩ := h
  obtain ⟨a', s', e', -, -, rfl⟩ := h'
  rw [e] at e'
  cases e'
  rfl

theorem selectMore_simple {e : Node} (h : isSimple e = true) (n : Syn) : selectMore (syn e) n = .select (syn e) [n] := by
  cases e with
  | exprString hd p => cases p <;> rfl
  | exprPath hd p => cases p <;> rfl
  | exprParen hd a b c => rfl
  | exprList hd es => rfl
  | exprAttrs hd bs rec a b => cases bs <;> cases rec <;> rfl
  | exprVar hd i => cases i <;> rfl
  | exprInt hd => rfl
  | exprFloat hd => rfl
  | exprSPath hd t => rfl
  | _ => cases h

/-- `inherit (e) x;` becomes `x = e.x;`, and nothing else changes, if `x` is an identifier and `e` is made of names with dots between them, or
it is a simple expression whose text ends in a bracket or a quote. -/
theorem C39_explicit_from {hd : Hd} {a e : Node} {x : Bytes} {act : Action} (h : parse src = some (root, s)) (hc : NoErrors s) (ho : odd (syn root) = false)
    (hr : Reach root (.inherit hd [a] e)) (hn : e.isNull = false) (ha : act ∈ inheritBinding src (.inherit hd [a] e)) (hx : a.staticName? = some x)
    (hq : quoteNixAttrKey x = x) (hfit : Fitting src act.range act.newText)
    (he : (∃ w ks, quoteNixAttrKey w = w ∧ e.src src = w ++ dotted ks) ∨ (isSimple e = true ∧ ∀ c ∈ (e.src src).getLast?, hard c = true)) :
    ∃ nm nm' nl t2, NameIs nm x ∧ NameIs nm' x ∧ NameIs nl x ∧ ReadAs (spliced src act.range act.newText) t2 ∧
      Swap (.inheritFrom (syn e) [nm]) (.binding [nm'] (selectMore (syn e) nl)) (syn root) t2 := by
  have har : Reach root a := reach_child hr (List.mem_filter.mpr ⟨by simp [Node.children], name_isNode ((at_fits h hr).1 a (.head _))⟩)
  have hpe : Part root e := Part.trans (part_of h hr (.inr rfl)) (.down (by cases e <;> first | simp [inner] | cases hn) .here)
  have hex : e.isExpr = true := by
    rcases (at_fits h hr).2 with rfl | h
    · cases hn
    · cases e <;> first | rfl | cases h
  simp only [inheritBinding, hx, hn, List.mem_singleton] at ha
  subst ha
  have h1 := static_is h har hx
  obtain ⟨nm, h2, h3⟩ := g_name x
  rw [hq] at h3
  obtain ⟨K, r0, gn, hK, e0, -, -, e1, gK, go, -⟩ := document_at h hc hpe (by simp [placed, hex])
  have hoe := go ho
  have q1 : Lexical.NotStarting Lexical.identChars b!";" := by intro x hx; simp at hx; subst hx; decide
  have q2 : Calm b!";" := Calm.at (by decide +kernel)
  obtain ⟨nl, h4, h5, h6⟩ : ∃ nl, NameIs nl x ∧ odd (selectMore (syn e) nl) = false ∧ G .expr (e.src src ++ (dotted [x] ++ b!";")) [selectMore (syn e) nl] b!";" := by
    rcases he with ⟨w, ks, hw, he⟩ | ⟨hs, he⟩
    · have hword : ∀ y, Lexical.NotStarting Lexical.identChars y → Calm y → G .simple (w ++ y) [.var w] y := fun y y1 y2 => .var (tok_name' hw y1 y2)
      obtain ⟨nl, k1, k2, k3⟩ := g_dotted [x]
      cases k1 with
      | @cons nl _ _ _ k1 kn =>
      cases kn
      have k3' := k3 _ q1 q2
      refine ⟨nl, k1, ?_⟩
      have e2 := C72_text h hc hpe hex hoe
      have q0 : Lexical.NotStarting Lexical.identChars [] := by intro x hx; cases hx
      cases ks with
      | nil =>
        have e3 : ReadAs (e.src src) (.var w) := by
          rw [he]
          have := hword [] q0 Calm.nil
          exact readAs_of ⟨[], [], G.ofSelect (.simple this), tok_eof⟩
        have e4 := readAs_unique e2 e3
        rw [e4, he]
        refine ⟨by simpa [selectMore, odd] using k2, ?_⟩
        have hw := hword _ (dotted_start (ks := [x]) q1) (dotted_calm q2)
        simp only [dotted, List.flatMap_nil, List.append_nil]
        cases k3' with
        | dot t n d => exact G.ofSelect (.select hw t (.path n d))
      | cons k ks =>
        obtain ⟨ns, j1, j2, j3⟩ := g_dotted (k :: ks)
        have e3 : ReadAs (e.src src) (.select (.var w) ns) := by
          rw [he]
          have w0 := hword _ (dotted_start (ks := k :: ks) q0) (dotted_calm Calm.nil)
          have := j3 [] q0 Calm.nil
          rw [List.append_nil] at this w0
          cases j1 with
          | cons _ _ =>
          cases this with
          | dot t n d => exact readAs_of ⟨[], [], G.ofSelect (.select w0 t (.path n d)), tok_eof⟩
        have e4 := readAs_unique e2 e3
        rw [e4, he]
        refine ⟨?_, ?_⟩
        · have : oddL (ns ++ [nl]) = false := by rw [oddL_append, j2, k2]; rfl
          simpa [selectMore, odd] using this
        · have hw := hword _ (dotted_start (ks := k :: ks) (dotted_start (ks := [x]) q1)) (dotted_calm (dotted_calm q2))
          have := G.dots_append (j3 _ (dotted_start (ks := [x]) q1) (dotted_calm q2)) rfl k3'
          rw [List.append_assoc]
          show G .expr _ [.select (.var w) (ns ++ [nl])] _
          cases j1 with
          | cons _ _ =>
          cases this with
          | dot t n d => exact G.ofSelect (.select hw t (.path n d))
    · obtain ⟨ns, k1, k2, k3⟩ := g_selection (x := e.src src) (t := syn e) x []
      cases k1 with
      | @cons nl _ _ _ k1 kn =>
      cases kn
      refine ⟨nl, k1, ?_, ?_⟩
      · rw [selectMore_simple hs]; simp [odd, hoe, k2]
      · rw [selectMore_simple hs]
        exact G.ofSelect (k3 _ q1 q2 (simple_onto h hc ho hpe hs (.inl he)))
  have g : Text .binds (x ++ b!" = " ++ (e.src src ++ b!"." ++ x) ++ b!";") (.binding [nm] (selectMore (syn e) nl)) := by
    refine ⟨?_, by simp [odd, oddL, name_odd h2, h5]⟩
    have ee : x ++ b!" = " ++ (e.src src ++ b!"." ++ x) ++ b!";" = x ++ (32 :: 61 :: ([32] ++ (e.src src ++ (dotted [x] ++ b!";")))) := by simp [dotted, hq]
    rw [ee]
    exact .binding (.path (h3 [] _ (by simp) (ends_space _)) .noDot) (.ws (g := [32]) (by decide) (tok_eq _)) (G.lead (leads _ (p := [32]) (x := b!";") (by decide) (by unfold CleanSkip; decide +kernel) (by decide +kernel)) h6 rfl) (tok_semi _) .noBind
  obtain ⟨t2, a1, a2⟩ := C73_replace h hc ho (part_of h hr (.inr rfl)) rfl g (fun _ _ => rfl) hfit
  have : syn (.inherit hd [a] e) = .inheritFrom (syn e) [syn a] := by cases e <;> first | rfl | cases hn
  rw [this] at a2
  exact ⟨_, _, _, t2, h1, h2, h4, a1, a2⟩

/-! ### C37 -/

/-- The text of an expression, and something after it that is not read together with it. -/
theorem expr_onto {e : Node} {y : Bytes} (h : parse src = some (root, s)) (hc : NoErrors s) (ho : odd (syn root) = false) (hp : Part root e)
    (hx : e.isExpr = true) (hy : Edge (src.drop e.rCur.offset) y (e.src src)) : G .expr (e.src src ++ y) [syn e] y ∧ odd (syn e) = false := by
  obtain ⟨K, r0, gn, hK, -, -, -, e1, g, go, -⟩ := document_at h hc hp (by simp [placed, hx])
  rw [e1] at g
  exact ⟨(G.toExpr (gn.isExpr_of hK hx) g).alone (by simpa [oddL] using go ho) (by simp) (by simp) hy, go ho⟩

/-- Packing one binding `a.b.c = v;` gives `a = { b.c = v; };`, and nothing else changes. -/
theorem C37_pack {hd hp : Hd} {a b : Node} {bs ds : List Node} {eq v : Node} {act : Action} (h : parse src = some (root, s)) (hc : NoErrors s)
    (ho : odd (syn root) = false) (hr : Reach root (.binding hd (.attrPath hp (a :: b :: bs) ds) eq v))
    (ha : act ∈ packOne src hd (.attrPath hp (a :: b :: bs) ds) v) :
    ∃ t2, ReadAs (spliced src act.range act.newText) t2 ∧
      Swap (.binding (syn a :: syn b :: synL bs) (syn v)) (.binding [syn a] (.set false [.binding (syn b :: synL bs) (syn v)])) (syn root) t2 := by
  have hpm := part_of h hr (.inr rfl)
  have hpa : Part root a := Part.trans hpm (.down (by simp [inner]) .here)
  have hpv : Part root v := Part.trans hpm (.down (by simp [inner]) .here)
  have hna : isName a = true := by
    have := (at_fits h (binding_reach hr (.inl rfl) rfl)).2.1 a (.head _)
    cases a <;> first | rfl | cases this
  obtain ⟨K, r0, gn, hK, e0, -, -, e1, -, go, H⟩ := document_at h hc hpm rfl
  have := gn.isBind_of hK rfl
  subst this
  have hom : odd (.binding (syn a :: syn b :: synL bs) (syn v)) = false := go ho
  simp only [odd, oddL, Bool.or_eq_false_iff] at hom
  simp only [packOne, packOneText, pathNames] at ha
  by_cases hlt : (Node.attrPath hp (a :: b :: bs) ds).rCur.offset < b.lCur.offset
  · simp [if_pos hlt] at ha
  · simp only [if_neg hlt] at ha
    have hne : (a.src src ++ b!" = { " ++ restPath src (.attrPath hp (a :: b :: bs) ds) b ++ b!" = " ++ valueSrc src v ++ b!"; };").isEmpty = false := by
      simp
    rw [hne] at ha
    simp only [Bool.false_eq_true, if_false, List.mem_singleton] at ha
    subst ha
    generalize hR : src.drop (Node.binding hd (.attrPath hp (a :: b :: bs) ds) eq v).rCur.offset = R at gn e1 H
    have q0 := gn.skip_ne hK
    have e0 : src.drop hd.range.l.offset = skip r0 := e0
    cases gn with
    | binding gp te gv ts sp sb gr =>
    cases gr
    cases gp with
    | path ga gd =>
    cases gd with
    | dot td gb gd =>
    have hvx : v.isExpr = true := gv.kind.1 rfl v (by simp)
    -- the first name is a prefix of the binding
    have hsrc : src = src.take hd.range.l.offset ++ skip r0 := by rw [← e0, List.take_append_drop]
    obtain ⟨-, -, -, -, ea⟩ := place_of ga.placeName hsrc q0 (ga.toG.unlead rfl).suf
    have ea : skip r0 = a.src src ++ _ := ea
    -- the other names
    have gb' : G .path _ (syn b :: synL bs) _ := .path gb.toG gd.toG
    have gb2 := gb'.unlead rfl
    have hb0 := gb.skip_ne (.inl rfl)
    have hsb := gb.placeName
    obtain ⟨-, -, -, -, eb⟩ := place_of (x := ⟨b.lCur, hp.range.r⟩) (P := src.take b.lCur.offset) ⟨hsb.1, sp.2⟩
      (by rw [← hsb.1 src rfl]; exact (List.take_append_drop _ _).symm) hb0 gb2.suf
    have eb : _ = restPath src (.attrPath hp (a :: b :: bs) ds) b ++ _ := eb
    rw [eb] at gb2
    have gb3 : ∀ y, G .path (restPath src (.attrPath hp (a :: b :: bs) ds) b ++ 32 :: y) (syn b :: synL bs) (32 :: y) := fun y =>
      gb2.alone (by simp [oddL, hom]) (by simp) (by simp) (Edge.stop fun d hd => by simp at hd; subst hd; exact ⟨by decide, fun h => absurd h (by decide)⟩)
    have gv3 : ∀ y, G .expr (v.src src ++ 59 :: y) [syn v] (59 :: y) := fun y =>
      (expr_onto h hc ho hpv hvx (Edge.stop fun d hd => by simp at hd; subst hd; exact ⟨by decide, fun h => absurd h (by decide)⟩)).1
    have ga3 : ∀ y, G .name (a.src src ++ 32 :: y) [syn a] (32 :: y) := fun y =>
      C72_name h hc hpa hna hom.1.1 _ (Edge.stop fun d hd => by simp at hd; subst hd; exact ⟨by decide, fun h => absurd h (by decide)⟩)
    have hvs : valueSrc src v = v.src src := by
      unfold valueSrc
      have : v.isNull = false := by cases v <;> first | rfl | cases hvx
      rw [this]; rfl
    have hl : Node.lCur (.binding hd (.attrPath hp (a :: b :: bs) ds) eq v) = hd.range.l := rfl
    have ht : ∀ p y, a.src src ++ b!" = { " ++ p ++ b!" = " ++ valueSrc src v ++ b!"; };" ++ y =
        a.src src ++ (32 :: 61 :: 32 :: 123 :: 32 :: (p ++ (32 :: 61 :: 32 :: (v.src src ++ 59 :: 32 :: 125 :: 59 :: y)))) := by
      intro p y; rw [hvs]; simp
    have hsp : ∀ y, Leads [32] y := fun y => leads y (x := b!";") (by decide) (by unfold CleanSkip; decide +kernel) (by decide +kernel)
    obtain ⟨t2, a1, a2⟩ := H (a.src src) _
      (32 :: 61 :: 32 :: 123 :: 32 :: (restPath src (.attrPath hp (a :: b :: bs) ds) b ++ (32 :: 61 :: 32 :: (v.src src ++ 59 :: 32 :: 125 :: 59 :: _))))
      (.binding [syn a] (.set false [.binding (syn b :: synL bs) (syn v)])) ho
      (by rw [hl, e0]; exact ea) (Edge.stop fun d hd => by simp at hd; subst hd; exact ⟨by decide, fun h => absurd h (by decide)⟩)
      (by
        refine .binding (.path (ga3 _) .noDot) (.ws (g := [32]) (by decide) (tok_eq _)) (G.ofSelect (.simple (.set (.ws (g := [32]) (by decide) (tok_lcurly _)) ?_
          (.ws (g := [32]) (by decide) (tok_rcurly _))))) (tok_semi _) .noBind
        exact G.lead_binds (hsp _) (.binding (gb3 _) (.ws (g := [32]) (by decide) (tok_eq _)) (G.lead (hsp _) (gv3 _) rfl) (tok_semi _) .noBind))
      (by rintro (h | h) <;> cases h)
    refine ⟨t2, readAs_of ?_, a2⟩
    unfold spliced
    rw [List.append_assoc, ht]
    show Accepts (_ ++ (_ ++ (32 :: 61 :: 32 :: 123 :: 32 :: (_ ++ (32 :: 61 :: 32 :: (v.src src ++ 59 :: 32 :: 125 :: 59 :: src.drop (Node.binding hd (.attrPath hp (a :: b :: bs) ds) eq v).rCur.offset)))))) t2
    rw [hR]
    exact a1

theorem packed_one {hd hp : Hd} {ns ds : List Node} {eq v binds parent : Node} {act : Action}
    (hm : act ∈ packBinding src (.binding hd (.attrPath hp ns ds) eq v) binds parent) (ht : act.title = b!"Pack dotted path to nested set") :
    ∃ a b bs, ns = a :: b :: bs ∧ act ∈ packOne src hd (.attrPath hp ns ds) v := by
  cases binds <;> try (simp [packBinding] at hm; done)
  cases parent <;> try (simp [packBinding] at hm; done)
  rcases ns with _ | ⟨a, _ | ⟨b, bs⟩⟩
  · cases hm
  · cases hm
  · refine ⟨a, b, bs, rfl, ?_⟩
    simp only [packBinding, pathNames] at hm
    split at hm
    · cases hm
    · split at hm
      · cases hm
      · split at hm
        · cases hm
        · split at hm
          · exact hm
          · split at hm
            · cases hm
            · rcases List.mem_append.mp hm with hm | hm
              · exact hm
              · simp only [List.mem_cons, List.not_mem_nil, or_false] at hm
                rcases hm with rfl | rfl <;> simp at ht

/-- The action that packs one binding, for the binding that it is offered on. -/
theorem C37_pack_offered {fuel : Nat} {l : List Action} {act : Action} (h : parse src = some (root, s)) (hc : NoErrors s) (ho : odd (syn root) = false)
    (hr : Reach root n) (hf : sizeOf root ≤ fuel) (ha : addPackAttrsAction src (runPM root) fuel n = some l) (hm : act ∈ l)
    (ht : act.title = b!"Pack dotted path to nested set") :
    ∃ a ns v t2, ReadAs (spliced src act.range act.newText) t2 ∧
      Swap (.binding (a :: ns) v) (.binding [a] (.set false [.binding ns v])) (syn root) t2 := by
  rcases atNode_reach h hr hf ha with rfl | ⟨m, -, -, -, h1, h2, h3⟩
  · cases hm
  obtain ⟨hd, p, eq, v, rfl⟩ := isKind_binding h2
  split at h3
  · cases h3; cases hm
  · split at h3
    · split at h3
      · cases h3; cases hm
      · split at h3
        · cases h3
          obtain ⟨⟨hp, ns, ds, rfl⟩, -⟩ := at_fits h h1
          obtain ⟨a, b, bs, rfl, one⟩ := packed_one hm ht
          obtain ⟨t2, a1, a2⟩ := C37_pack h hc ho h1 one
          exact ⟨_, _, _, t2, a1, a2⟩
        · cases h3; cases hm
    · cases h3; cases hm

/-- What is known about the path of a binding. -/
theorem binding_path {hd hp : Hd} {ns ds : List Node} {eq v : Node} (h : parse src = some (root, s)) (hc : NoErrors s) (ho : odd (syn root) = false)
    (hr : Reach root (.binding hd (.attrPath hp ns ds) eq v)) :
    v.isExpr = true ∧ odd (syn v) = false ∧ oddL (synL ns) = false ∧
      ∃ R, ∀ y, Edge R y (Node.src (.attrPath hp ns ds) src) → G .path (Node.src (.attrPath hp ns ds) src ++ y) (synL ns) y := by
  have hpm := part_of h hr (.inr rfl)
  obtain ⟨K, r0, gn, hK, e0, -, -, -, -, go, -⟩ := document_at h hc hpm rfl
  have := gn.isBind_of hK rfl
  subst this
  have hom : odd (.binding (synL ns) (syn v)) = false := go ho
  simp only [odd, Bool.or_eq_false_iff] at hom
  have q0 := gn.skip_ne hK
  have e0 : src.drop hd.range.l.offset = skip r0 := e0
  generalize hR : src.drop (Node.binding hd (.attrPath hp ns ds) eq v).rCur.offset = R at gn
  cases gn with
  | binding gp te gv ts sp sb gr =>
  have g2 : G .path _ (synL ns) _ := gp.toG.unlead rfl
  obtain ⟨-, -, -, -, ea⟩ := place_of sp (by rw [← e0]; exact (List.take_append_drop _ _).symm) q0 g2.suf
  have ea : skip r0 = Node.src (.attrPath hp ns ds) src ++ _ := ea
  rw [ea] at g2
  exact ⟨gv.kind.1 rfl v (by simp), hom.2, hom.1, _, fun y hy => g2.alone hom.1 (by simp) (by simp) hy⟩

/-- A path that is written as names with dots in between can be continued. -/
theorem path_continued {k : Bytes} {ks : List Bytes} {ns : List Syn} (h : G .path (quoteNixAttrKey k ++ dotted ks) ns []) :
    oddL ns = false ∧ ∀ y, Lexical.NotStarting Lexical.identChars y → Calm y →
      G .path (quoteNixAttrKey k ++ dotted ks ++ y) ns y ∧ G .dots (dotted (k :: ks) ++ y) ns y := by
  obtain ⟨n, h1, h2, h3⟩ := g_key k
  obtain ⟨ms, h4, h5, h6⟩ := g_dotted ks
  have q0 : Lexical.NotStarting Lexical.identChars [] := by intro x hx; cases hx
  have key : ∀ y, Lexical.NotStarting Lexical.identChars y → Calm y →
      G .path (quoteNixAttrKey k ++ dotted ks ++ y) (n :: ms) y ∧ Tok (dotted (k :: ks) ++ y) .dot b!"." (quoteNixAttrKey k ++ dotted ks ++ y) := by
    intro y y1 y2
    rw [List.append_assoc]
    refine ⟨.path (h3 _ (dotted_start y1) (dotted_calm y2)) (h6 y y1 y2), ?_⟩
    have e : dotted (k :: ks) ++ y = 46 :: (quoteNixAttrKey k ++ (dotted ks ++ y)) := by simp [dotted]
    rw [e]
    obtain ⟨c, r, e1, e2⟩ := key_head k (dotted ks ++ y)
    have hcalm : Calm (quoteNixAttrKey k ++ (dotted ks ++ y)) := key_calm (dotted_calm y2)
    rw [e1] at hcalm ⊢
    exact tok_dot e2 hcalm
  have hns : ns = n :: ms := by
    obtain ⟨g1, t1⟩ := key [] q0 Calm.nil
    rw [List.append_nil] at g1 t1
    rw [List.append_nil] at t1
    have hv : G .simple (b!"x" ++ dotted (k :: ks)) [.var b!"x"] (dotted (k :: ks)) := by
      have := tok_name' (w := b!"x") (by decide +kernel) (dotted_start (ks := k :: ks) q0) (dotted_calm Calm.nil)
      rw [List.append_nil] at this
      exact .var this
    have r1 : ReadAs (b!"x" ++ dotted (k :: ks)) (.select (.var b!"x") ns) := readAs_of ⟨[], [], G.ofSelect (.select hv t1 h), tok_eof⟩
    have r2 : ReadAs (b!"x" ++ dotted (k :: ks)) (.select (.var b!"x") (n :: ms)) := readAs_of ⟨[], [], G.ofSelect (.select hv t1 g1), tok_eof⟩
    have := readAs_unique r1 r2
    cases this
    rfl
  subst hns
  refine ⟨by simp [oddL, h2, h5], fun y y1 y2 => ⟨(key y y1 y2).1, ?_⟩⟩
  obtain ⟨g1, t1⟩ := key y y1 y2
  cases g1 with
  | path g1 g2 => exact .dot t1 g1 g2

theorem G.path_append {r r1 r2 : Bytes} {ns ms : List Syn} (h : G .path r ns r1) (h' : G .dots r1 ms r2) : G .path r (ns ++ ms) r2 := by
  cases h with
  | path g1 g2 => exact .path g1 (G.dots_append g2 rfl h')

/-- Flattening a set of one binding: `a = { b = v; };` becomes `a.b = v;`, and nothing else changes. The paths are those written as names with
dots in between. -/
theorem C37_flatten {hd : Hd} {p eq v p' : Node} {k k' : Bytes} {ks ks' : List Bytes} {hb : Hd} {eq' v' : Node} {act : Action}
    (h : parse src = some (root, s)) (hc : NoErrors s) (ho : odd (syn root) = false)
    (hr : Reach root (.binding hd p eq v)) (ha : act ∈ flattenBinding src (.binding hd p eq v)) (hv : flattenable v = [.binding hb p' eq' v'])
    (hp : p.src src = quoteNixAttrKey k ++ dotted ks) (hp' : p'.src src = quoteNixAttrKey k' ++ dotted ks') (hfit : Fitting src act.range act.newText) :
    ∃ ns ns' t2, ReadAs (spliced src act.range act.newText) t2 ∧
      Swap (.binding ns (.set false [.binding ns' (syn v')])) (.binding (ns ++ ns') (syn v')) (syn root) t2 := by
  obtain ⟨⟨hpd, ns, ds, rfl⟩, -, -⟩ := at_fits h hr
  obtain ⟨hx, -, hon, R, hg⟩ := binding_path h hc ho hr
  have hvr := binding_reach hr (.inr rfl) (by cases v <;> first | rfl | cases hx)
  unfold flattenable at hv
  split at hv
  case h_2 => cases hv
  rename_i ha' hbs bs rec st dy
  split at hv
  case isFalse => cases hv
  rename_i hcond
  subst hv
  obtain ⟨rfl, hall⟩ : rec = .null ∧ plainStatic (.binding hb p' eq' v') = true := by
    simp only [Bool.and_eq_true, List.all_cons, List.all_nil, Bool.and_true] at hcond
    exact ⟨(by cases rec <;> first | rfl | (cases hcond.1; done)), hcond.2⟩
  have hbr : Reach root (.binds hbs [.binding hb p' eq' v']) := reach_child hvr (List.mem_filter.mpr ⟨by simp [Node.children], rfl⟩)
  have hr' : Reach root (.binding hb p' eq' v') := reach_child hbr (List.mem_filter.mpr ⟨by simp [Node.children], rfl⟩)
  obtain ⟨⟨hpd', ns', ds', rfl⟩, -, -⟩ := at_fits h hr'
  obtain ⟨hx', hov, hon', R', hg'⟩ := binding_path h hc ho hr'
  have hpv' : Part root v' := Part.trans (part_of h hr' (.inr rfl)) (.down (by simp [inner]) .here)
  have gv := fun y => (expr_onto (y := 59 :: y) h hc ho hpv' hx' (Edge.stop fun d hd => by simp at hd; subst hd; exact ⟨by decide, fun h => absurd h (by decide)⟩)).1
  have g1 := hg [] (Edge.stop fun d hd => by cases hd)
  have g2 := hg' [] (Edge.stop fun d hd => by cases hd)
  rw [List.append_nil, hp] at g1
  rw [List.append_nil, hp'] at g2
  have q1 : ∀ y, Lexical.NotStarting Lexical.identChars (32 :: y) := by intro y x hx; simp at hx; subst hx; decide
  have q2 : ∀ y, Calm (32 :: y) := fun y => Calm.at (by decide +kernel)
  obtain ⟨-, c1⟩ := path_continued g1
  obtain ⟨-, c2⟩ := path_continued g2
  have hvs : valueSrc src v' = v'.src src := by
    unfold valueSrc
    have : v'.isNull = false := by cases v' <;> first | rfl | cases hx'
    rw [this]; rfl
  have hfl : flattenable (.exprAttrs ha' (.binds hbs [.binding hb (.attrPath hpd' ns' ds') eq' v']) .null st dy) = [.binding hb (.attrPath hpd' ns' ds') eq' v'] := by
    simp only [flattenable, List.all_cons, List.all_nil, hall, Bool.and_true, Node.isNull, if_true]
  simp only [flattenBinding, hfl] at ha
  split at ha
  · simp only [List.map_cons, List.map_nil, spaced, List.mem_singleton, flattenOne, hp, hp', hvs] at ha
    subst ha
    have g : Text .binds (quoteNixAttrKey k ++ dotted ks ++ b!"." ++ (quoteNixAttrKey k' ++ dotted ks') ++ b!" = " ++ v'.src src ++ b!";")
        (.binding (synL ns ++ synL ns') (syn v')) := by
      refine ⟨?_, by simp [odd, oddL_append, hon, hon', hov]⟩
      have e : quoteNixAttrKey k ++ dotted ks ++ b!"." ++ (quoteNixAttrKey k' ++ dotted ks') ++ b!" = " ++ v'.src src ++ b!";" =
          quoteNixAttrKey k ++ dotted ks ++ (dotted (k' :: ks') ++ (32 :: 61 :: ([32] ++ (v'.src src ++ 59 :: [])))) := by simp [dotted]
      rw [e]
      refine .binding (G.path_append (c1 _ (dotted_start (q1 _)) (dotted_calm (q2 _))).1 (c2 _ (q1 _) (q2 _)).2) (.ws (g := [32]) (by decide) (tok_eq _))
        (G.lead (leads _ (p := [32]) (x := b!";") (by decide) (by unfold CleanSkip; decide +kernel) (by decide +kernel)) (gv []) rfl) (tok_semi _) .noBind
    obtain ⟨t2, a1, a2⟩ := C73_replace h hc ho (part_of h hr (.inr rfl)) rfl g (fun _ _ => rfl) hfit
    exact ⟨synL ns, synL ns', t2, a1, a2⟩
  · cases ha

/-! ### Examples -/

instance {src : Bytes} {r : CRange} {w : Bytes} : Decidable (Fitting src r w) := by unfold Fitting Edge Quiet' Apart; infer_instance

/-- The single-edit actions of one kind: whether they fit to their place, the text after them, and what it is read as. -/
noncomputable def judged (f : Bytes → PMap → VL → Nat → Node → Option (List Action)) (src : Bytes) (column : Nat) : List (Bool × Bytes × Option Bytes) :=
  (actionsAt (f src) src column).map fun a => (decide (Fitting src a.range a.newText), spliced src a.range a.newText, syntaxOf (spliced src a.range a.newText))

noncomputable def judgedName := judged fun _ pm _ fuel n => addAttrNameActions pm fuel n
noncomputable def judgedString := judged fun src pm _ fuel n => (addRewriteStringAction src pm fuel n).map Option.toList
noncomputable def judgedConvert := judged fun src pm _ fuel n => addConvertToInheritAction src pm fuel n
noncomputable def judgedInherit := judged fun src pm _ fuel n => addInheritToBindingAction src pm fuel n

noncomputable def judgedPack := judged fun src pm _ fuel n => addPackAttrsAction src pm fuel n
noncomputable def judgedFlatten := judged fun src pm _ fuel n => addFlattenAttrsAction src pm fuel n

example : judgedPack b!"{ a . b.\"c\" = f x; }" 2 = [(true, b!"{ a = { b.\"c\" = f x; }; }", some b!"(set (= a (set (= b \"c\" (call f x)))))")] ∧
    judgedFlatten b!"{ a.b = { c.d = f x; }; }" 2 = [(true, b!"{ a.b.c.d = f x; }", some b!"(set (= a b c d (call f x)))")] := by decide +kernel

example : judgedName b!"{ a = 1; }" 2 = [(true, b!"{ \"a\" = 1; }", some b!"(set (= \"a\" 1))")] ∧
    judgedName b!"{ \"a\" = 1; }" 2 = [(true, b!"{ a = 1; }", some b!"(set (= a 1))")] := by decide +kernel
example : judgedString b!"f ''a${x}\"''" 5 = [(true, b!"f \"a${x}\\\"\"", some b!"(call f \"a${x}\"\")")] ∧
    judgedString b!"f \"a${x}b\"" 3 = [(true, b!"f ''a${x}b''", some b!"(call f \"a${x}b\")")] := by decide +kernel
example : judgedConvert b!"{ a = a; }" 2 = [(true, b!"{ inherit a; }", some b!"(set (inherit a))")] ∧
    judgedConvert b!"{ a = (f x).a; }" 2 = [(true, b!"{ inherit ((f x)) a; }", some b!"(set (inheritFrom ((call f x)) a))")] ∧
    judgedConvert b!"{ a = b.c.\"d e\".a; }" 2 = [(true, b!"{ inherit (b.c.\"d e\") a; }", some b!"(set (inheritFrom (select b c \"d e\") a))")] := by decide +kernel
example : judgedInherit b!"{ inherit a; }" 10 = [(true, b!"{ a = a; }", some b!"(set (= a a))")] ∧
    judgedInherit b!"{ inherit (b.c) a; }" 16 = [(true, b!"{ a = b.c.a; }", some b!"(set (= a (select b c a)))")] ∧
    judgedInherit b!"{ inherit ({ }) a; }" 16 = [(true, b!"{ a = { }.a; }", some b!"(set (= a (select (set) a)))")] := by decide +kernel

/-- If something touches the attribute name, the name without quotes may be read together with it. -/
theorem C67_adjacent_violated : judgedName b!"let\"a\"=1;in a" 4 = [(false, b!"leta=1;in a", none)] ∧
    syntaxOf b!"let\"a\"=1;in a" = some b!"(let (= \"a\" 1) a)" := by decide +kernel

/-- If a word touches the string, then it becomes a part of this word. -/
theorem C57_adjacent_violated : judgedString b!"f\"a\"" 2 = [(false, b!"f''a''", some b!"f''a''")] ∧ syntaxOf b!"f\"a\"" = some b!"(call f \"a\")" := by
  decide +kernel

/-- The names that are selected from a number touch it, and it is no longer a number. -/
theorem C39_number_violated : judgedConvert b!"{ b = 1 .a.b; }" 2 = [(true, b!"{ inherit (1.a) b; }", none)] ∧
    syntaxOf b!"{ b = 1 .a.b; }" = some b!"(set (= b (select 1 a b)))" := by decide +kernel

/-- The attribute `or` is not a variable. -/
theorem C39_or_violated : judgedInherit b!"{ inherit or; }" 11 = [(true, b!"{ or = or; }", none)] ∧ syntaxOf b!"{ inherit or; }" = some b!"(set (inherit or))" := by
  decide +kernel

end Verif.Props
