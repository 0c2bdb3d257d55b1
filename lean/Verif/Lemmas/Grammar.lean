import Verif.Spec.Grammar
import Verif.Spec.Parents
import Verif.Model.Parser
/-
The members of parsed nodes have the types of the classes.
-/
namespace Verif.Nixf.Grammar
open Node Tree

/-- What a parser returns satisfies a predicate. -/
def Ret {α : Type} (m : PM α) (P : α → Prop) : Prop := ∀ s a s', m s = some (a, s') → P a

section
variable {α β : Type} {P : α → Prop} {Q : β → Prop}

theorem Ret.any (m : PM α) : Ret m fun _ => True := fun _ _ _ _ => trivial

theorem Ret.bind {m : PM α} {f : α → PM β} (h1 : Ret m P) (h2 : ∀ a, P a → Ret (f a) Q) : Ret (m >>= f) Q := by
  intro s b s' h
  change PM.bind' m f s = some (b, s') at h
  unfold PM.bind' at h
  split at h
  · rename_i a s1 h'
    exact h2 a (h1 _ _ _ h') _ _ _ h
  · cases h

theorem Ret.skip {m : PM α} {f : α → PM β} (h2 : ∀ a, Ret (f a) Q) : Ret (m >>= f) Q := .bind (.any m) fun a _ => h2 a

theorem Ret.pure {a : α} (h : P a) : Ret (Pure.pure a : PM α) P := by
  intro s b s' h'
  change some (a, s) = some (b, s') at h'
  cases h'
  exact h

theorem Ret.fail : Ret (PM.fail : PM α) P := fun _ _ _ h => by cases h

theorem Ret.mono {m : PM α} {P' : α → Prop} (h : Ret m P) (hp : ∀ a, P a → P' a) : Ret m P' := fun s a s' e => hp a (h s a s' e)

theorem Ret.sync {k : TK} {m : PM α} (h : Ret m P) : Ret (withSync k m) P :=
  .skip fun _ => .bind h fun a ha => .skip fun _ => .pure ha

theorem Ret.state {k : PS} {m : PM α} (h : Ret m P) : Ret (withState k m) P :=
  .skip fun _ => .bind h fun a ha => .skip fun _ => .pure ha

theorem Ret.sema {f : Bytes → SemaSt → α × SemaSt} (h : ∀ src s, P (f src s).1) : Ret (Nixf.sema f) P := by
  intro s a s' e
  simp only [Nixf.sema, Option.some.injEq, Prod.mk.injEq] at e
  rw [← e.1]
  exact h _ _

end

/-- A node of a class, with everything below it. -/
def Cl (P : Node → Prop) (n : Node) : Prop := P n ∧ All children Fits n

theorem all_null : All children Fits .null := .mk _ trivial fun m hm => by simp [children] at hm
theorem all_text (t) : All children Fits (.text t) := .mk _ trivial fun m hm => by simp [children] at hm
theorem all_misc (h) : All children Fits (.misc h) := .mk _ trivial fun m hm => by simp [children] at hm
theorem all_op (h k) : All children Fits (.op h k) := .mk _ trivial fun m hm => by simp [children] at hm
theorem all_ident (h x) : All children Fits (.identifier h x) := .mk _ trivial fun m hm => by simp [children] at hm
theorem all_dot (h p q) : All children Fits (.dot h p q) := .mk _ trivial fun m hm => by simp [children] at hm

theorem cl_null {P : Node → Prop} : Cl (Opt P) .null := ⟨.inl rfl, all_null⟩
theorem cl_opt {P : Node → Prop} {n : Node} (h : Cl P n) : Cl (Opt P) n := ⟨.inr h.1, h.2⟩
theorem cl_some {P : Node → Prop} {n : Node} (h : Cl (Opt P) n) (hn : n.isNull = false) : Cl P n :=
  ⟨h.1.resolve_left fun e => (by subst e; cases hn), h.2⟩
theorem cl_misc (h) : Cl IsMisc (.misc h) := ⟨⟨_, rfl⟩, all_misc h⟩
theorem cl_op (h k) : Cl IsOp (.op h k) := ⟨⟨_, _, rfl⟩, all_op h k⟩
theorem cl_ident (h x) : Cl IsIdent (.identifier h x) := ⟨⟨_, _, rfl⟩, all_ident h x⟩

/-- All children of a node are fine. -/
macro "kids" : tactic => `(tactic|
  (intro c hc
   simp only [children, List.mem_filter, List.mem_cons, List.mem_append, List.not_mem_nil, or_false] at hc
   obtain ⟨hc, -⟩ := hc
   (repeat' (rcases hc with hc | hc)) <;> first
     | assumption | exact all_null | exact all_op _ _ | exact all_ident _ _ | exact all_misc _
     | (subst hc; first | assumption | exact all_null | exact all_op _ _ | exact all_ident _ _ | exact all_misc _)))

/-- The recursive calls return expressions. -/
structure Rec.Fine (R : Rec) : Prop where
  expr : Ret R.expr (Cl (Opt IsExpr))
  select : Ret R.select (Cl (Opt IsExpr))

theorem null_of {n : Node} (h : n.isNull = true) : n = .null := by cases n <;> simp_all [isNull]

theorem mkMisc_ret (r) : Ret (mkMisc r) (Cl IsMisc) := .skip fun h => .pure (cl_misc h)

theorem mergeFragments_mem {fs : List Node} {f : Node} (h : f ∈ mergeFragments fs) : IsText f ∨ f ∈ fs := by
  unfold mergeFragments at h
  split at h
  · exact .inr h
  · split at h
    · exact .inr h
    · simp at h; exact .inl ⟨_, h⟩

/-- A fragment. -/
def Frag (f : Node) : Prop := (IsText f ∨ IsInterp f) ∧ All children Fits f

theorem mkParts_ret {r} {fs : List Node} (h : ∀ f ∈ fs, Frag f) : Ret (mkParts r fs) (Cl IsParts) := by
  refine .skip fun hd => .pure ⟨⟨_, _, rfl⟩, .mk _ ?_ ?_⟩
  · intro f hf
    rcases mergeFragments_mem hf with hf | hf
    · exact .inl hf
    · exact (h f hf).1
  · intro c hc
    simp only [children, List.mem_filter] at hc
    rcases mergeFragments_mem hc.1 with ⟨t, rfl⟩ | hf
    · exact all_text t
    · exact (h c hf).2

section
variable {R : Rec} (hR : Rec.Fine R) (k : Nat)
include hR

theorem parseInterpolation_ret : Ret (parseInterpolation R k) (Cl IsInterp) := by
  refine .skip fun tok => .skip fun _ => .sync (.state (.bind hR.expr fun e he => .skip fun _ => .skip fun _ => .skip fun _ => .skip fun h => .pure
    ⟨⟨_, _, rfl⟩, .mk _ he.1 ?_⟩))
  have := he.2
  kids

theorem pathLoop_ret : ∀ j, Ret (pathLoop R k j) fun p => ∀ f ∈ p.1, Frag f
  | 0 => .fail
  | j + 1 => by
    refine .skip fun cur => .skip fun _ => .skip fun next => ?_
    have ht : Frag (.text cur.view) := ⟨.inl ⟨_, rfl⟩, all_text _⟩
    split
    · exact .pure (by simpa using ht)
    · split
      · refine .bind (parseInterpolation_ret hR k) fun i hi => .bind (pathLoop_ret j) fun p hp => .pure ?_
        intro f hf
        simp only [List.mem_cons] at hf
        rcases hf with rfl | rfl | hf
        · exact ht
        · exact ⟨.inr hi.1, hi.2⟩
        · exact hp f hf
      · refine .skip fun _ => .bind (pathLoop_ret j) fun p hp => .pure ?_
        intro f hf
        simp only [List.mem_cons] at hf
        rcases hf with rfl | hf
        · exact ht
        · exact hp f hf

theorem parseExprPath_ret : Ret (parseExprPath R k) (Cl IsExpr) := by
  refine .skip fun b => .bind (.state (pathLoop_ret hR k k)) fun p hp => .bind (mkParts_ret hp) fun q hq => .skip fun h => .pure
    ⟨rfl, .mk _ hq.1 ?_⟩
  have := hq.2
  kids

theorem partsLoop_ret : ∀ j, Ret (partsLoop R k j) fun p => ∀ f ∈ p, Frag f
  | 0 => .fail
  | j + 1 => by
    refine .skip fun tok => ?_
    have cons : ∀ {x : Node} {fs : List Node}, Frag x → (∀ f ∈ fs, Frag f) → ∀ f ∈ x :: fs, Frag f := by
      intro x fs hx hfs f hf
      rcases List.mem_cons.mp hf with rfl | hf
      · exact hx
      · exact hfs f hf
    split
    · exact .bind (parseInterpolation_ret hR k) fun i hi => .bind (partsLoop_ret j) fun p hp => .pure (cons ⟨.inr hi.1, hi.2⟩ hp)
    · exact .skip fun _ => .bind (partsLoop_ret j) fun p hp => .pure (cons ⟨.inl ⟨_, rfl⟩, all_text _⟩ hp)
    · refine .skip fun _ => .bind (partsLoop_ret j) fun p hp => .pure ?_
      split
      · exact hp
      · exact cons ⟨.inl ⟨_, rfl⟩, all_text _⟩ hp
    · exact .pure nofun

theorem parseString_ret (i) : Ret (parseString R k i) (Cl IsString) := by
  refine .skip fun q => .skip fun _ => .sync (.state (.bind (P := Cl IsParts) ?_ fun p hp => .skip fun t => ?_))
  · exact .skip fun b => .bind (partsLoop_ret hR k k) fun fs hfs => .skip fun c => mkParts_ret hfs
  · have key : ∀ h, Cl IsString (.exprString h p) := fun h => ⟨⟨_, _, rfl⟩, .mk _ hp.1 (by have := hp.2; kids)⟩
    split
    · exact .skip fun _ => .skip fun h => .pure (key h)
    · exact .skip fun _ => .skip fun h => .pure (key h)

theorem parseAttrName_ret : Ret (parseAttrName R k) (Cl (Opt IsName)) := by
  refine .skip fun tok => ?_
  have hid : ∀ h h' x, Cl (Opt IsName) (.attrNameID h (.identifier h' x)) := fun h h' x =>
    ⟨.inr trivial, .mk _ ⟨_, _, rfl⟩ (by kids)⟩
  split
  · exact .skip fun _ => .skip fun _ => .skip fun h => .skip fun h' => .pure (hid _ _ _)
  · exact .skip fun _ => .skip fun h => .skip fun h' => .pure (hid _ _ _)
  · exact .bind (parseString_ret hR k false) fun s hs => .skip fun h => .pure ⟨.inr trivial, .mk _ hs.1 (by have := hs.2; kids)⟩
  · exact .bind (parseInterpolation_ret hR k) fun s hs => .skip fun h => .pure ⟨.inr trivial, .mk _ hs.1 (by have := hs.2; kids)⟩
  · exact .pure cl_null

theorem attrPathLoop_ret : ∀ j prev, Ret (attrPathLoop R k j prev) fun p => (∀ n ∈ p.1, Cl IsName n) ∧
    ∀ d ∈ p.2, ∃ h q r, d = .dot h q r ∧ (q = prev ∨ ∃ n ∈ p.1, n.id = q)
  | 0, _ => .fail
  | j + 1, prev => by
    refine .skip fun tok => ?_
    split
    · refine .skip fun _ => .bind (parseAttrName_ret hR k) fun next hn => .skip fun h => ?_
      split
      · refine .skip fun _ => .bind (attrPathLoop_ret j prev) fun p hp => .pure ⟨hp.1, ?_⟩
        intro d hd
        rcases List.mem_cons.mp hd with rfl | hd
        · exact ⟨_, _, _, rfl, .inl rfl⟩
        · exact hp.2 d hd
      · rename_i hnn
        refine .bind (attrPathLoop_ret j next.id) fun p hp => .pure ⟨?_, ?_⟩
        · intro n hn'
          rcases List.mem_cons.mp hn' with rfl | hn'
          · exact cl_some hn (by simpa using hnn)
          · exact hp.1 n hn'
        · intro d hd
          rcases List.mem_cons.mp hd with rfl | hd
          · exact ⟨_, _, _, rfl, .inl rfl⟩
          · obtain ⟨h, q, r, e, hq⟩ := hp.2 d hd
            refine ⟨h, q, r, e, .inr ?_⟩
            rcases hq with rfl | ⟨n, hn, rfl⟩
            · exact ⟨next, by simp, rfl⟩
            · exact ⟨n, by simp [hn], rfl⟩
    · exact .pure ⟨nofun, nofun⟩

theorem parseAttrPath_ret : Ret (parseAttrPath R k) (Cl (Opt IsPath)) := by
  refine .bind (parseAttrName_ret hR k) fun f hf => ?_
  split
  · exact .pure cl_null
  · rename_i hnn
    have hf := cl_some hf (by simpa using hnn)
    refine .sync (.bind (attrPathLoop_ret hR k k f.id) fun p hp => .skip fun _ => .skip fun h => .pure ⟨.inr ⟨_, _, _, rfl⟩, .mk _ ⟨by simp, ?_, ?_⟩ ?_⟩)
    · intro n hn
      rcases List.mem_cons.mp hn with rfl | hn
      · exact hf.1
      · exact (hp.1 n hn).1
    · intro d hd
      obtain ⟨h, q, r, e, hq⟩ := hp.2 d hd
      refine ⟨h, q, r, e, ?_⟩
      rcases hq with rfl | ⟨n, hn, rfl⟩
      · exact ⟨f, by simp, rfl⟩
      · exact ⟨n, by simp [hn], rfl⟩
    · intro c hc
      simp only [children, List.mem_filter, List.mem_append, List.mem_cons] at hc
      rcases hc.1 with (rfl | hc) | hc
      · exact hf.2
      · exact (hp.1 c hc).2
      · obtain ⟨h, q, r, rfl, -⟩ := hp.2 c hc
        exact all_dot _ _ _

theorem parseBinding_ret : Ret (parseBinding R k) (Cl (Opt IsBind)) := by
  refine .bind (parseAttrPath_ret hR k) fun p hp => ?_
  split
  · exact .pure cl_null
  · rename_i hnn
    have hp := cl_some hp (by simpa using hnn)
    have := hp.2
    refine .sync (.sync (.skip fun t => ?_))
    split
    · exact .skip fun _ => .skip fun h => .pure ⟨.inr trivial, .mk _ ⟨hp.1, .inl rfl, .inl rfl⟩ (by kids)⟩
    · refine .skip fun _ => .bind (mkMisc_ret _) fun m hm => .bind hR.expr fun e he => .skip fun _ => .skip fun _ => .skip fun _ => .skip fun h => .pure
        ⟨.inr trivial, .mk _ ⟨hp.1, .inr hm.1, he.1⟩ ?_⟩
      have := hm.2
      have := he.2
      kids

theorem inheritNames_ret : ∀ j, Ret (inheritNames R k j) fun ns => ∀ n ∈ ns, Cl IsName n
  | 0 => .fail
  | j + 1 => by
    refine .bind (parseAttrName_ret hR k) fun n hn => ?_
    split
    · exact .pure nofun
    · rename_i hnn
      refine .bind (inheritNames_ret j) fun ns hns => .pure fun m hm => ?_
      rcases List.mem_cons.mp hm with rfl | hm
      · exact cl_some hn (by simpa using hnn)
      · exact hns m hm

theorem parseInherit_ret : Ret (parseInherit R k) (Cl (Opt IsBind)) := by
  refine .skip fun tok => ?_
  split
  · exact .pure cl_null
  · refine .skip fun _ => .sync (.sync (.sync (.sync (.bind (P := Cl (Opt IsExpr)) ?_ fun e he => .bind (inheritNames_ret hR k k) fun ns hns =>
      .skip fun _ => .skip fun _ => .skip fun _ => .skip fun h => .pure ⟨.inr trivial, .mk _ ⟨fun n hn => (hns n hn).1, he.1⟩ ?_⟩))))
    · refine .skip fun tok => ?_
      split
      · exact .skip fun _ => .bind hR.expr fun e he => .skip fun _ => .skip fun _ => .pure he
      · exact .pure cl_null
    · intro c hc
      simp only [children, List.mem_filter, List.mem_append, List.mem_singleton] at hc
      rcases hc.1 with hc | rfl
      · exact (hns c hc).2
      · exact he.2

theorem bindsLoop_ret : ∀ j, Ret (bindsLoop R k j) fun bs => ∀ b ∈ bs, Cl IsBind b
  | 0 => .fail
  | j + 1 => by
    have cons : ∀ {b : Node} {bs : List Node}, Cl (Opt IsBind) b → ¬ b.isNull = true → (∀ b ∈ bs, Cl IsBind b) → ∀ c ∈ b :: bs, Cl IsBind c := by
      intro b bs hb hn hbs c hc
      rcases List.mem_cons.mp hc with rfl | hc
      · exact cl_some hb (by simpa using hn)
      · exact hbs c hc
    refine .bind (parseBinding_ret hR k) fun b hb => ?_
    split
    · refine .bind (parseInherit_ret hR k) fun i hi => ?_
      split
      · refine .skip fun r => ?_
        split
        · exact bindsLoop_ret j
        · exact .pure nofun
      · rename_i hn
        exact .bind (bindsLoop_ret j) fun bs hbs => .pure (cons hi hn hbs)
    · rename_i hn
      exact .bind (bindsLoop_ret j) fun bs hbs => .pure (cons hb hn hbs)

theorem parseBinds_ret : Ret (parseBinds R k) (Cl (Opt IsBinds)) := by
  refine .skip fun b => .sync (.sync (.sync (.sync (.bind (bindsLoop_ret hR k k) fun bs hbs => ?_))))
  split
  · exact .pure cl_null
  · rename_i hne
    refine .skip fun _ => .skip fun h => .pure ⟨.inr ⟨_, _, rfl⟩, .mk _ ⟨by simpa using hne, fun b hb => (hbs b hb).1⟩ ?_⟩
    intro c hc
    simp only [children, List.mem_filter] at hc
    exact (hbs c hc.1).2

omit hR in
theorem onExprAttrs_ret {r : CRange} {b n : Node} (hb : Cl (Opt IsBinds) b) (hn : Cl (Opt IsMisc) n) :
    Ret (sema fun _ => onExprAttrs r b n) (Cl IsSet) := by
  refine .sema fun _ s => ⟨⟨_, _, _, _, _, rfl⟩, .mk _ ⟨hb.1, hn.1⟩ ?_⟩
  have := hb.2
  have := hn.2
  unfold onExprAttrs
  kids

omit hR in
theorem set_expr {n : Node} (h : Cl IsSet n) : Cl IsExpr n := by
  obtain ⟨⟨_, _, _, _, _, rfl⟩, h⟩ := h
  exact ⟨rfl, h⟩

theorem parseExprAttrs_ret : Ret (parseExprAttrs R k) (Cl IsSet) := by
  refine .sync (.skip fun b => .bind (P := Cl (Opt IsMisc)) ?_ fun r hr => .skip fun m => .skip fun _ => .bind (parseBinds_ret hR k) fun bs hbs =>
    .skip fun _ => .skip fun _ => onExprAttrs_ret hbs hr)
  refine .skip fun t => ?_
  split
  · exact .skip fun _ => (mkMisc_ret _).mono fun _ h => cl_opt h
  · exact .pure cl_null

theorem parseExprParen_ret : Ret (parseExprParen R k) (Cl IsExpr) := by
  refine .skip fun l => .bind (mkMisc_ret _) fun lp hl => .skip fun _ => .sync (.bind hR.expr fun e he => .skip fun _ => .skip fun t => ?_)
  have := he.2
  have := hl.2
  split
  · refine .skip fun _ => .bind (mkMisc_ret _) fun rp hr => .skip fun _ => .skip fun h => .pure ⟨rfl, .mk _ ⟨he.1, hl.1, .inr hr.1⟩ ?_⟩
    have := hr.2
    kids
  · exact .skip fun _ => .skip fun _ => .skip fun _ => .skip fun h => .pure ⟨rfl, .mk _ ⟨he.1, hl.1, .inl rfl⟩ (by kids)⟩

theorem listLoop_ret : ∀ j, Ret (listLoop R j) fun es => ∀ e ∈ es, Cl IsExpr e
  | 0 => .fail
  | j + 1 => by
    refine .skip fun t => ?_
    split
    · exact .pure nofun
    · refine .bind hR.select fun e he => ?_
      split
      · exact .pure nofun
      · rename_i hn
        refine .bind (listLoop_ret j) fun es hes => .pure fun c hc => ?_
        rcases List.mem_cons.mp hc with rfl | hc
        · exact cl_some he (by simpa using hn)
        · exact hes c hc

theorem parseExprList_ret : Ret (parseExprList R k) (Cl (Opt IsExpr)) := by
  refine .skip fun tok => ?_
  split
  · exact .pure cl_null
  · refine .skip fun _ => .sync (.bind (listLoop_ret hR k) fun es hes => .skip fun _ => .skip fun _ => .skip fun h => .pure ⟨.inr rfl, .mk _ (fun e he => (hes e he).1) ?_⟩)
    intro c hc
    simp only [children, List.mem_filter] at hc
    exact (hes c hc.1).2

theorem parseExprSimple_ret : Ret (parseExprSimple R k) (Cl (Opt IsExpr)) := by
  have leaf : ∀ n : Node, IsExpr n → Fits n → n.children = [] → Cl (Opt IsExpr) n := fun n h1 h2 h3 =>
    ⟨.inr h1, .mk _ h2 fun c hc => by rw [h3] at hc; cases hc⟩
  have str : ∀ b, Ret (parseString R k b) (Cl (Opt IsExpr)) := fun b => (parseString_ret hR k b).mono fun n h => by
    obtain ⟨⟨_, _, rfl⟩, h⟩ := h
    exact ⟨.inr rfl, h⟩
  have set : Ret (parseExprAttrs R k) (Cl (Opt IsExpr)) := (parseExprAttrs_ret hR k).mono fun n h => cl_opt (set_expr h)
  refine .skip fun tok => ?_
  split
  · refine .skip fun _ => .bind (mkParts_ret ?_) fun p hp => .skip fun h => .skip fun _ => .pure ⟨.inr rfl, .mk _ hp.1 (by have := hp.2; kids)⟩
    simp only [List.mem_singleton, forall_eq]
    exact ⟨.inl ⟨_, rfl⟩, all_text _⟩
  · exact .skip fun _ => .skip fun h => .skip fun h' => .pure ⟨.inr rfl, .mk _ ⟨_, _, rfl⟩ (by kids)⟩
  · exact .skip fun _ => .skip fun _ => .skip fun h => .pure (leaf _ rfl trivial rfl)
  · exact .skip fun _ => .skip fun h => .pure (leaf _ rfl trivial rfl)
  · exact .skip fun _ => .skip fun h => .pure (leaf _ rfl trivial rfl)
  · exact str _
  · exact str _
  · exact (parseExprPath_ret hR k).mono fun _ h => cl_opt h
  · exact (parseExprParen_ret hR k).mono fun _ h => cl_opt h
  · exact set
  · exact set
  · exact parseExprList_ret hR k
  · exact .pure cl_null

theorem parseExprSelect_ret : Ret (parseExprSelect R k) (Cl (Opt IsExpr)) := by
  refine .bind (parseExprSimple_ret hR k) fun e he => ?_
  split
  · exact .pure cl_null
  · rename_i hn
    have he' := cl_some he (by simpa using hn)
    have := he.2
    refine .skip fun tok => ?_
    split
    · exact .pure he
    · refine .skip fun hd => .skip fun _ => .bind (parseAttrPath_ret hR k) fun p hp => .skip fun _ => .skip fun t => ?_
      have := hp.2
      split
      · exact .skip fun _ => .skip fun h => .pure ⟨.inr rfl, .mk _ ⟨he'.1, hp.1, .inl rfl⟩ (by kids)⟩
      · refine .skip fun _ => .bind hR.select fun d hd => .skip fun _ => .skip fun _ => .skip fun h => .pure ⟨.inr rfl, .mk _ ⟨he'.1, hp.1, hd.1⟩ ?_⟩
        have := hd.2
        kids

theorem appLoop_ret : ∀ j, Ret (appLoop R k j) fun es => ∀ e ∈ es, Cl IsExpr e
  | 0 => .fail
  | j + 1 => by
    refine .bind (parseExprSelect_ret hR k) fun e he => ?_
    split
    · exact .pure nofun
    · rename_i hn
      refine .bind (appLoop_ret j) fun es hes => .pure fun c hc => ?_
      rcases List.mem_cons.mp hc with rfl | hc
      · exact cl_some he (by simpa using hn)
      · exact hes c hc

theorem parseExprApp_ret : Ret (parseExprApp R k) (Cl (Opt IsExpr)) := by
  refine .bind (parseExprSelect_ret hR k) fun f hf => ?_
  split
  · exact .pure hf
  · rename_i hn
    have hf' := cl_some hf (by simpa using (not_or.mp hn).1)
    refine .bind (appLoop_ret hR k k) fun as has => ?_
    split
    · exact .pure hf
    · rename_i l hl
      refine .skip fun h => .pure ⟨.inr rfl, .mk _ ⟨hf'.1, fun e => (by subst e; cases hl), fun a ha => (has a ha).1⟩ ?_⟩
      intro c hc
      simp only [children, List.mem_filter, List.mem_cons] at hc
      rcases hc.1 with rfl | hc
      · exact hf.2
      · exact (has c hc).2

theorem ops_ret : ∀ j, (∀ l, Ret (parseExprOpBP R k j l) (Cl (Opt IsExpr))) ∧
    ∀ l pre, Cl IsExpr pre → Ret (opLoop R k j l pre) (Cl (Opt IsExpr))
  | 0 => ⟨fun _ => .fail, fun _ _ _ => .fail⟩
  | j + 1 => by
    obtain ⟨ih1, ih2⟩ := ops_ret j
    refine ⟨fun l => ?_, fun l pre hpre => ?_⟩
    · unfold parseExprOpBP
      refine .skip fun tok => ?_
      split
      · refine .skip fun _ => .skip fun ho => .bind (ih1 _) fun e he => .skip fun _ => .skip fun _ => .skip fun h => ih2 _ _ ⟨rfl, .mk _ ⟨⟨_, _, rfl⟩, he.1⟩ ?_⟩
        have := he.2
        kids
      · refine .bind (parseExprApp_ret hR k) fun p hp => ?_
        split
        · exact .pure cl_null
        · rename_i hn
          exact ih2 _ _ (cl_some hp (by simpa using hn))
    · unfold opLoop
      have := hpre.2
      have bin : ∀ (h ho : Hd) (t : TK) (rhs : Node), Cl (Opt IsExpr) rhs → ¬ rhs.isNull = true →
          Cl IsExpr (.exprBinOp h (.op ho t) pre rhs) := by
        intro h ho t rhs hr hn
        have hr := cl_some hr (by simpa using hn)
        have := hr.2
        exact ⟨rfl, .mk _ ⟨⟨_, _, rfl⟩, hpre.1, hr.1⟩ (by kids)⟩
      refine .skip fun tok => ?_
      split
      · split
        · exact .pure (cl_opt hpre)
        · refine .skip fun _ => .skip fun _ => .skip fun ho => .bind (ih1 _) fun rhs hr => ?_
          split
          · exact .skip fun _ => .skip fun _ => ih2 _ _ hpre
          · rename_i hn
            exact .skip fun h => ih2 _ _ (bin _ _ _ _ hr hn)
      · split
        · refine .skip fun _ => .skip fun ho => .bind (parseAttrPath_ret hR k) fun p hp => .skip fun _ => .skip fun h => ih2 _ _ ⟨rfl, .mk _ ⟨⟨_, _, rfl⟩, hpre.1, hp.1⟩ ?_⟩
          have := hp.2
          kids
        · split
          · refine .skip fun _ => .skip fun _ => .skip fun ho => .bind (ih1 _) fun rhs hr => ?_
            split
            · exact .skip fun _ => .skip fun _ => ih2 _ _ hpre
            · rename_i hn
              exact .skip fun h => ih2 _ _ (bin _ _ _ _ hr hn)
          · exact .pure (cl_opt hpre)

theorem parseFormal_ret : Ret (parseFormal R) (Cl (Opt IsFormal)) := by
  refine .skip fun l => .bind (P := Cl (Opt IsMisc)) ?_ fun c hc => .skip fun tok => ?_
  · refine .skip fun t => ?_
    split
    · exact .skip fun _ => (mkMisc_ret _).mono fun _ h => cl_opt h
    · exact .pure cl_null
  · have fm : ∀ (h : Hd) (i d e : Node), Cl (Opt IsIdent) i → Cl (Opt IsExpr) d → Cl (Opt IsMisc) e → Cl (Opt IsFormal) (.formal h c i d e) := by
      intro h i d e hi hd he
      refine ⟨.inr ⟨_, _, _, _, _, rfl⟩, .mk _ ⟨hc.1, hi.1, hd.1, he.1⟩ ?_⟩
      intro x hx
      simp only [children, List.mem_filter] at hx
      obtain ⟨hx, -⟩ := hx
      split at hx <;> simp only [List.mem_cons, List.not_mem_nil, or_false] at hx
      · rcases hx with rfl | rfl
        · exact hi.2
        · exact hd.2
      · subst hx; exact he.2
    split
    · refine .skip fun _ => .skip fun hi => .skip fun q => ?_
      split
      · exact .skip fun _ => .skip fun h => .pure (fm _ _ _ _ (cl_opt (cl_ident _ _)) cl_null cl_null)
      · exact .skip fun _ => .bind hR.expr fun d hd => .skip fun _ => .skip fun _ => .skip fun h => .pure (fm _ _ _ _ (cl_opt (cl_ident _ _)) hd cl_null)
    · split
      · exact .skip fun _ => .bind (mkMisc_ret _) fun e he => .skip fun _ => .skip fun h => .pure (fm _ _ _ _ cl_null cl_null (cl_opt he))
      · split
        · exact .pure cl_null
        · exact .skip fun _ => .skip fun h => .pure (fm _ _ _ _ cl_null cl_null cl_null)

theorem formalsLoop_ret : ∀ j, Ret (formalsLoop R k j) fun fs => ∀ f ∈ fs, Cl IsFormal f
  | 0 => .fail
  | j + 1 => by
    refine .skip fun t => ?_
    split
    · exact .pure nofun
    · refine .bind (parseFormal_ret hR) fun f hf => ?_
      split
      · refine .skip fun r => ?_
        split
        · exact formalsLoop_ret j
        · exact .pure nofun
      · rename_i hn
        refine .bind (formalsLoop_ret j) fun fs hfs => .pure fun c hc => ?_
        rcases List.mem_cons.mp hc with rfl | hc
        · exact cl_some hf (by simpa using hn)
        · exact hfs c hc

theorem parseFormals_ret : Ret (parseFormals R k) (Cl (Opt IsFormals)) := by
  refine .skip fun t => ?_
  split
  · exact .pure cl_null
  · refine .skip fun _ => .sync (.sync (.sync (.sync (.bind (formalsLoop_ret hR k k) fun fs hfs => .skip fun _ => .skip fun _ => .sema fun src s => ?_))))
    refine ⟨.inr ⟨_, _, rfl⟩, .mk _ (fun f hf => (hfs f hf).1) ?_⟩
    intro c hc
    unfold onFormals at hc
    simp only [children, List.mem_filter] at hc
    exact (hfs c hc.1).2

omit hR in
theorem onLambdaArg_ret {r : CRange} {i f : Node} (hi : Cl (Opt IsIdent) i) (hf : Cl (Opt IsFormals) f) :
    Ret (sema fun _ => onLambdaArg r i f) (Cl (Opt IsArg)) := by
  refine .sema fun _ s => ⟨.inr ⟨_, _, _, rfl⟩, .mk _ ⟨hi.1, hf.1⟩ ?_⟩
  have := hi.2
  have := hf.2
  unfold onLambdaArg
  kids

theorem parseLambdaArg_ret : Ret (parseLambdaArg R k) (Cl (Opt IsArg)) := by
  refine .skip fun l => .skip fun tok => ?_
  split
  · refine .skip fun _ => .skip fun hi => .skip fun a => ?_
    split
    · exact .skip fun _ => onLambdaArg_ret (cl_opt (cl_ident _ _)) cl_null
    · exact .skip fun _ => .bind (parseFormals_ret hR k) fun f hf => .skip fun _ => .skip fun _ => onLambdaArg_ret (cl_opt (cl_ident _ _)) hf
  · refine .bind (parseFormals_ret hR k) fun f hf => ?_
    split
    · exact .pure cl_null
    · refine .skip fun a => ?_
      split
      · exact .skip fun _ => onLambdaArg_ret cl_null hf
      · refine .skip fun _ => .skip fun t => ?_
        split
        · exact .skip fun _ => .skip fun _ => onLambdaArg_ret cl_null hf
        · exact .skip fun _ => .skip fun _ => .skip fun _ => onLambdaArg_ret (cl_opt (cl_ident _ _)) hf

theorem parseExprLambda_ret : Ret (parseExprLambda R k) (Cl (Opt IsExpr)) := by
  refine .skip fun l => .bind (parseLambdaArg_ret hR k) fun a ha => .skip fun _ => ?_
  split
  · exact .pure cl_null
  · rename_i hn
    refine .skip fun _ => .bind hR.expr fun e he => .skip fun _ => .skip fun _ => .skip fun h => .pure
      ⟨.inr rfl, .mk _ ⟨(cl_some ha (by simpa using hn)).1, he.1⟩ ?_⟩
    have := ha.2
    have := he.2
    kids

omit hR in
theorem mkIf_ret {l : Cursor} {c t e : Node} (hc : Cl (Opt IsExpr) c) (ht : Cl (Opt IsExpr) t) (he : Cl (Opt IsExpr) e) :
    Ret (mkIf l c t e) (Cl (Opt IsExpr)) := by
  refine .skip fun _ => .skip fun h => .pure ⟨.inr rfl, .mk _ ⟨hc.1, ht.1, he.1⟩ ?_⟩
  intro x hx
  simp only [children, List.mem_filter, List.mem_cons, List.not_mem_nil, or_false] at hx
  rcases hx.1 with rfl | rfl | rfl
  · exact hc.2
  · exact ht.2
  · exact he.2

theorem parseExprIf_ret : Ret (parseExprIf R k) (Cl (Opt IsExpr)) := by
  have helse : ∀ tok c t, Cl (Opt IsExpr) c → Cl (Opt IsExpr) t → Ret (parseElse R k tok c t) (Cl (Opt IsExpr)) := by
    intro tok c t hc ht
    refine .skip fun x => ?_
    split
    · exact mkIf_ret hc ht cl_null
    · exact .skip fun _ => .bind hR.expr fun e he => .skip fun _ => mkIf_ret hc ht he
  have hthen : ∀ tok c, Cl (Opt IsExpr) c → Ret (parseThen R k tok c) (Cl (Opt IsExpr)) := by
    intro tok c hc
    refine .skip fun x => ?_
    split
    · exact .skip fun _ => mkIf_ret hc cl_null cl_null
    · refine .skip fun _ => .bind hR.expr fun t ht => ?_
      split
      · refine .skip fun _ => .skip fun _ => .skip fun _ => .skip fun n => ?_
        split
        · exact mkIf_ret hc cl_null cl_null
        · exact helse _ _ _ hc ht
      · exact helse _ _ _ hc ht
  refine .skip fun tok => .skip fun _ => .sync (.sync (.bind hR.expr fun c hc => ?_))
  split
  · refine .skip fun _ => .skip fun _ => .skip fun _ => .skip fun _ => .skip fun n => ?_
    split
    · exact mkIf_ret cl_null cl_null cl_null
    · exact hthen _ _ hc
  · exact hthen _ _ hc

theorem parseExprAssert_ret : Ret (parseExprAssert R k) (Cl (Opt IsExpr)) := by
  have mk : ∀ (l : Cursor) (c v : Node), Cl (Opt IsExpr) c → Cl (Opt IsExpr) v → Ret (mkAssert l c v) (Cl (Opt IsExpr)) := by
    intro l c v hc hv
    refine .skip fun _ => .skip fun h => .pure ⟨.inr rfl, .mk _ ⟨hc.1, hv.1⟩ ?_⟩
    intro x hx
    simp only [children, List.mem_filter, List.mem_cons, List.not_mem_nil, or_false] at hx
    rcases hx.1 with rfl | rfl
    · exact hc.2
    · exact hv.2
  have val : ∀ tok c, Cl (Opt IsExpr) c → Ret (parseAssertValue R k tok c) (Cl (Opt IsExpr)) := by
    intro tok c hc
    refine .skip fun x => ?_
    split
    · exact .skip fun _ => mk _ _ _ hc cl_null
    · exact .skip fun _ => .bind hR.expr fun e he => .skip fun _ => mk _ _ _ hc he
  refine .skip fun tok => .skip fun _ => .sync (.bind hR.expr fun c hc => ?_)
  split
  · refine .skip fun _ => .skip fun _ => .skip fun _ => .skip fun n => ?_
    split
    · exact mk _ _ _ cl_null cl_null
    · exact val _ _ hc
  · exact val _ _ hc

theorem parseExprLet_ret : Ret (parseExprLet R k) (Cl (Opt IsExpr)) := by
  refine .skip fun tok => .bind (mkMisc_ret _) fun kl hk => .skip fun _ => .sync (.bind (parseBinds_ret hR k) fun b hb => .bind (P := Cl (Opt IsSet)) ?_ fun a ha =>
    .skip fun t => ?_)
  · unfold letAttrs
    split
    · exact .pure cl_null
    · exact (onExprAttrs_ret hb (cl_opt hk)).mono fun _ h => cl_opt h
  · have := hk.2
    have := ha.2
    split
    · exact .skip fun _ => .skip fun h => .pure ⟨.inr rfl, .mk _ ⟨hk.1, .inl rfl, .inl rfl, ha.1⟩ (by kids)⟩
    · refine .bind (mkMisc_ret _) fun ki hi => .skip fun _ => .bind hR.expr fun e he => .skip fun _ => .skip fun _ => .skip fun h => .pure
        ⟨.inr rfl, .mk _ ⟨hk.1, .inr hi.1, he.1, ha.1⟩ ?_⟩
      have := hi.2
      have := he.2
      kids

theorem parseExprWith_ret : Ret (parseExprWith R k) (Cl (Opt IsExpr)) := by
  refine .skip fun tok => .skip fun _ => .bind (mkMisc_ret _) fun kw hk => .sync (.bind hR.expr fun w hw => .skip fun _ => .skip fun t => ?_)
  have := hk.2
  have := hw.2
  split
  · exact .skip fun _ => .skip fun _ => .skip fun h => .pure ⟨.inr rfl, .mk _ ⟨hk.1, .inl rfl, hw.1, .inl rfl⟩ (by kids)⟩
  · refine .bind (mkMisc_ret _) fun sm hs => .skip fun _ => .bind hR.expr fun e he => .skip fun _ => .skip fun _ => .skip fun h => .pure
      ⟨.inr rfl, .mk _ ⟨hk.1, .inr hs.1, hw.1, he.1⟩ ?_⟩
    have := hs.2
    have := he.2
    kids

theorem parseExprLegacyLet_ret : Ret (parseExprLegacyLet R k) (Cl (Opt IsExpr)) := by
  refine .skip fun tok => .bind (mkMisc_ret _) fun kl hk => .skip fun _ => .sync (.skip fun lc => .skip fun _ => .bind (parseBinds_ret hR k) fun b hb =>
    .skip fun _ => .skip fun _ => .skip fun _ => .bind (onExprAttrs_ret hb (cl_opt hk)) fun a ha => .skip fun _ => .skip fun _ => .skip fun _ => .skip fun h => .pure
      ⟨.inr rfl, .mk _ ⟨hk.1, ha.1⟩ ?_⟩)
  have := hk.2
  have := ha.2
  kids

theorem parseExpr_ret : Ret (parseExpr R k) (Cl (Opt IsExpr)) := by
  refine .skip fun l => ?_
  cases l
  · exact parseExprLambda_ret hR k
  · exact (parseExprAttrs_ret hR k).mono fun _ h => cl_opt (set_expr h)
  · exact parseExprIf_ret hR k
  · exact parseExprAssert_ret hR k
  · exact parseExprLet_ret hR k
  · exact parseExprLegacyLet_ret hR k
  · exact parseExprWith_ret hR k
  · exact (ops_ret hR k k).1 0

end

theorem recN_fine : ∀ n, Rec.Fine (recN n)
  | 0 => ⟨.fail, .fail⟩
  | n + 1 => ⟨parseExpr_ret (recN_fine n) n, parseExprSelect_ret (recN_fine n) n⟩

/-- What is parsed is an expression, all nodes of which have members of the right types. -/
theorem parse_class {src : Bytes} {n : Node} {s : PState} (h : parse src = some (n, s)) : Cl (Opt IsExpr) n := by
  refine (Ret.bind (recN_fine (src.length + 3)).expr fun e he => .skip fun _ => .skip fun _ => .pure he : Ret (parseTop _) _) _ _ _ h

theorem reach_fits {n m : Node} (h : All children Fits n) (hr : Reach n m) : Fits m := by
  induction hr with
  | here n => cases h; assumption
  | down n c m hm _ ih =>
    cases h with
    | mk _ _ hs => exact ih (hs c hm)

/-! ### What a node can be a child of -/

/-- The place of a child. -/
def Slot (q c : Node) : Prop :=
  match q with
  | .interpolation _ e => c = e ∧ IsExpr c
  | .parts _ fs => c ∈ fs ∧ IsInterp c
  | .attrNameID _ _ => IsIdent c
  | .attrNameString _ s => c = s ∧ IsString c
  | .attrNameInterp _ i => c = i ∧ IsInterp c
  | .attrPath _ ns ds => (c ∈ ns ∧ IsName c) ∨ (c ∈ ds ∧ ∃ h p q, c = .dot h p q)
  | .binding _ p _ v => (c = p ∧ IsPath c) ∨ IsMisc c ∨ (c = v ∧ IsExpr c)
  | .inherit _ ns e => (c ∈ ns ∧ IsName c) ∨ (c = e ∧ IsExpr c)
  | .binds _ bs => c ∈ bs ∧ IsBind c
  | .formal .. => IsIdent c ∨ IsExpr c ∨ IsMisc c
  | .formals _ _ => IsFormal c
  | .lambdaArg .. => IsIdent c ∨ IsFormals c
  | .exprVar .. => IsIdent c
  | .exprString .. | .exprPath .. => IsParts c
  | .exprParen .. => IsExpr c ∨ IsMisc c
  | .exprAttrs _ b r _ _ => (c = b ∧ IsBinds c) ∨ (c = r ∧ IsMisc c)
  | .exprSelect _ e _ p d _ => ((c = e ∨ c = d) ∧ IsExpr c) ∨ (c = p ∧ IsPath c)
  | .exprCall .. | .exprList .. => IsExpr c
  | .exprLambda _ a e => (c = a ∧ IsArg c) ∨ (c = e ∧ IsExpr c)
  | .exprBinOp .. | .exprUnaryOp .. => IsOp c ∨ IsExpr c
  | .exprOpHasAttr _ _ e p => (c = e ∧ IsExpr c) ∨ (c = p ∧ IsPath c)
  | .exprIf .. | .exprAssert .. => IsExpr c
  | .exprLet _ _ _ e a => IsMisc c ∨ (c = e ∧ IsExpr c) ∨ (c = a ∧ IsSet c)
  | .exprLegacyLet _ _ a => IsMisc c ∨ (c = a ∧ IsSet c)
  | .exprWith .. => IsMisc c ∨ IsExpr c
  | _ => False

theorem opt_node {P : Node → Prop} {n : Node} (h : Opt P n) (hn : n.isNode = true) : P n :=
  h.resolve_left fun e => by subst e; cases hn

theorem slot {q c : Node} (hq : Fits q) (hc : c ∈ q.children) : Slot q c := by
  cases q
  all_goals simp only [children, List.mem_filter, List.mem_cons, List.mem_append, List.not_mem_nil, or_false, false_and] at hc
  case interpolation => obtain ⟨rfl, hn⟩ := hc; exact ⟨rfl, opt_node hq hn⟩
  case parts =>
    refine ⟨hc.1, (hq c hc.1).resolve_left ?_⟩
    rintro ⟨t, rfl⟩
    cases hc.2
  case attrNameID => obtain ⟨rfl, hn⟩ := hc; exact hq
  case attrNameString => obtain ⟨rfl, hn⟩ := hc; exact ⟨rfl, hq⟩
  case attrNameInterp => obtain ⟨rfl, hn⟩ := hc; exact ⟨rfl, hq⟩
  case attrPath =>
    rcases hc.1 with h | h
    · exact .inl ⟨h, hq.2.1 c h⟩
    · obtain ⟨a, b, d, e, -⟩ := hq.2.2 c h
      exact .inr ⟨h, a, b, d, e⟩
  case binding =>
    obtain ⟨rfl | rfl | rfl, hn⟩ := hc
    · exact .inl ⟨rfl, hq.1⟩
    · exact .inr (.inl (opt_node hq.2.1 hn))
    · exact .inr (.inr ⟨rfl, opt_node hq.2.2 hn⟩)
  case inherit =>
    obtain ⟨h | rfl, hn⟩ := hc
    · exact .inl ⟨h, hq.1 c h⟩
    · exact .inr ⟨rfl, opt_node hq.2 hn⟩
  case binds => exact ⟨hc.1, hq.2 c hc.1⟩
  case formal h co i d e =>
    obtain ⟨h, hn⟩ := hc
    split at h <;> simp only [List.mem_cons, List.not_mem_nil, or_false] at h
    · rcases h with rfl | rfl
      · exact .inl (opt_node hq.2.1 hn)
      · exact .inr (.inl (opt_node hq.2.2.1 hn))
    · subst h; exact .inr (.inr (opt_node hq.2.2.2 hn))
  case formals => exact hq c hc.1
  case lambdaArg =>
    obtain ⟨rfl | rfl, hn⟩ := hc
    · exact .inl (opt_node hq.1 hn)
    · exact .inr (opt_node hq.2 hn)
  case exprVar => obtain ⟨rfl, hn⟩ := hc; exact hq
  case exprString => obtain ⟨rfl, hn⟩ := hc; exact hq
  case exprPath => obtain ⟨rfl, hn⟩ := hc; exact hq
  case exprParen =>
    obtain ⟨rfl | rfl | rfl, hn⟩ := hc
    · exact .inl (opt_node hq.1 hn)
    · exact .inr hq.2.1
    · exact .inr (opt_node hq.2.2 hn)
  case exprAttrs =>
    obtain ⟨rfl | rfl, hn⟩ := hc
    · exact .inl ⟨rfl, opt_node hq.1 hn⟩
    · exact .inr ⟨rfl, opt_node hq.2 hn⟩
  case exprSelect =>
    obtain ⟨rfl | rfl | rfl, hn⟩ := hc
    · exact .inl ⟨.inl rfl, hq.1⟩
    · exact .inr ⟨rfl, opt_node hq.2.1 hn⟩
    · exact .inl ⟨.inr rfl, opt_node hq.2.2 hn⟩
  case exprCall =>
    obtain ⟨rfl | h, hn⟩ := hc
    · exact hq.1
    · exact hq.2.2 c h
  case exprList => exact hq c hc.1
  case exprLambda =>
    obtain ⟨rfl | rfl, hn⟩ := hc
    · exact .inl ⟨rfl, hq.1⟩
    · exact .inr ⟨rfl, opt_node hq.2 hn⟩
  case exprBinOp =>
    obtain ⟨rfl | rfl | rfl, hn⟩ := hc
    · exact .inl hq.1
    · exact .inr hq.2.1
    · exact .inr hq.2.2
  case exprUnaryOp =>
    obtain ⟨rfl | rfl, hn⟩ := hc
    · exact .inl hq.1
    · exact .inr (opt_node hq.2 hn)
  case exprOpHasAttr =>
    obtain ⟨rfl | rfl, hn⟩ := hc
    · exact .inl ⟨rfl, hq.2.1⟩
    · exact .inr ⟨rfl, opt_node hq.2.2 hn⟩
  case exprIf =>
    obtain ⟨rfl | rfl | rfl, hn⟩ := hc
    · exact opt_node hq.1 hn
    · exact opt_node hq.2.1 hn
    · exact opt_node hq.2.2 hn
  case exprAssert =>
    obtain ⟨rfl | rfl, hn⟩ := hc
    · exact opt_node hq.1 hn
    · exact opt_node hq.2 hn
  case exprLet =>
    obtain ⟨rfl | rfl | rfl | rfl, hn⟩ := hc
    · exact .inl hq.1
    · exact .inr (.inr ⟨rfl, opt_node hq.2.2.2 hn⟩)
    · exact .inl (opt_node hq.2.1 hn)
    · exact .inr (.inl ⟨rfl, opt_node hq.2.2.1 hn⟩)
  case exprLegacyLet =>
    obtain ⟨rfl | rfl, hn⟩ := hc
    · exact .inl hq.1
    · exact .inr ⟨rfl, hq.2⟩
  case exprWith =>
    obtain ⟨rfl | rfl | rfl | rfl, hn⟩ := hc
    · exact .inl hq.1
    · exact .inl (opt_node hq.2.1 hn)
    · exact .inr (opt_node hq.2.2.1 hn)
    · exact .inr (opt_node hq.2.2.2 hn)

/-- Places of the wrong type are excluded. -/
macro "slots" h:ident : tactic => `(tactic|
  (simp only [Slot, Opt, IsExpr, isExpr, IsMisc, IsIdent, IsOp, IsParts, IsString, IsPath, IsBinds, IsFormals, IsFormal, IsArg, IsSet, IsInterp,
     IsName, IsBind, and_false, or_false, false_or, exists_false, reduceCtorEq, Bool.false_eq_true] at $h:ident))

theorem parent_interp {q : Node} {hd : Hd} {e : Node} (hs : Slot q (.interpolation hd e)) :
    (∃ h fs, q = .parts h fs) ∨ ∃ h, q = .attrNameInterp h (.interpolation hd e) := by
  cases q <;> slots hs
  · exact .inl ⟨_, _, rfl⟩
  · obtain ⟨rfl, -⟩ := hs
    exact .inr ⟨_, rfl⟩

theorem parent_parts {q : Node} {hd : Hd} {fs : List Node} (hs : Slot q (.parts hd fs)) : (∃ h p, q = .exprString h p) ∨ ∃ h p, q = .exprPath h p := by
  cases q <;> slots hs
  · exact .inl ⟨_, _, rfl⟩
  · exact .inr ⟨_, _, rfl⟩

theorem parent_name {q n : Node} (hn : IsName n) (hs : Slot q n) : (∃ h ns ds, q = .attrPath h ns ds ∧ n ∈ ns) ∨ ∃ h ns e, q = .inherit h ns e := by
  cases n <;> simp only [IsName] at hn
  all_goals
    cases q <;> slots hs
    · exact .inl ⟨_, _, _, rfl, hs.1⟩
    · exact .inr ⟨_, _, _, rfl⟩

theorem parent_path {q : Node} {hd : Hd} {ns ds : List Node} (hs : Slot q (.attrPath hd ns ds)) :
    (∃ h eq v, q = .binding h (.attrPath hd ns ds) eq v) ∨ (∃ h e d f x, q = .exprSelect h e d (.attrPath hd ns ds) f x) ∨
      ∃ h o e, q = .exprOpHasAttr h o e (.attrPath hd ns ds) := by
  cases q <;> slots hs
  · obtain ⟨rfl, -⟩ := hs
    exact .inl ⟨_, _, _, rfl⟩
  · obtain ⟨rfl, -⟩ := hs
    exact .inr (.inl ⟨_, _, _, _, _, rfl⟩)
  · obtain ⟨rfl, -⟩ := hs
    exact .inr (.inr ⟨_, _, _, rfl⟩)

theorem parent_bind {q b : Node} (hb : IsBind b) (hs : Slot q b) : ∃ h bs, q = .binds h bs ∧ b ∈ bs := by
  cases b <;> simp only [IsBind] at hb
  all_goals
    cases q <;> slots hs
    exact ⟨_, _, rfl, hs.1⟩

theorem parent_binds {q : Node} {hd : Hd} {bs : List Node} (hs : Slot q (.binds hd bs)) : ∃ h r st dy, q = .exprAttrs h (.binds hd bs) r st dy := by
  cases q <;> slots hs
  obtain ⟨rfl, -⟩ := hs
  exact ⟨_, _, _, _, rfl⟩

theorem parent_formal {q : Node} {hd : Hd} {c i d e : Node} (hs : Slot q (.formal hd c i d e)) : ∃ h ms, q = .formals h ms := by
  cases q <;> slots hs
  exact ⟨_, _, rfl⟩

theorem parent_formals {q : Node} {hd : Hd} {ms : List Node} (hs : Slot q (.formals hd ms)) : ∃ h i f, q = .lambdaArg h i f := by
  cases q <;> slots hs
  exact ⟨_, _, _, rfl⟩

theorem parent_arg {q : Node} {hd : Hd} {i f : Node} (hs : Slot q (.lambdaArg hd i f)) : ∃ h e, q = .exprLambda h (.lambdaArg hd i f) e := by
  cases q <;> slots hs
  obtain ⟨rfl, -⟩ := hs
  exact ⟨_, _, rfl⟩

end Verif.Nixf.Grammar
