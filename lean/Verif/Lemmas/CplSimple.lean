import Verif.Lemmas.CplStr
/-
Completeness of the parser: attribute names and bindings.
-/
namespace Verif.Nixf.Syntax
open Lexical Strings

/-! ### First tokens -/

theorem first_name {r r' : Bytes} {l : List Syn} (h : G .name r l r') : ∃ k v r1, Tok r k v r1 ∧ startsName k = true := by
  cases h with
  | name h => exact ⟨_, _, _, h, rfl⟩
  | orName h => exact ⟨_, _, _, h, rfl⟩
  | strName h => exact ⟨_, _, _, h, rfl⟩
  | interpName h => exact ⟨_, _, _, h, rfl⟩

theorem first_path {r r' : Bytes} {l : List Syn} (h : G .path r l r') : ∃ k v r1, Tok r k v r1 ∧ startsName k = true := by
  cases h with
  | path h => exact first_name h

theorem first_simple {r r' : Bytes} {l : List Syn} (h : G .simple r l r') : ∃ k v r1, Tok r k v r1 ∧ startsSimple k = true := by
  cases h with
  | var h => exact ⟨_, _, _, h, rfl⟩
  | int h => exact ⟨_, _, _, h, rfl⟩
  | float h => exact ⟨_, _, _, h, rfl⟩
  | spath h => exact ⟨_, _, _, h, rfl⟩
  | uri h => exact ⟨_, _, _, h, rfl⟩
  | str h => exact ⟨_, _, _, h, rfl⟩
  | ind h => exact ⟨_, _, _, h, rfl⟩
  | pathLit h => exact ⟨_, _, _, h, rfl⟩
  | paren h => exact ⟨_, _, _, h, rfl⟩
  | list h => exact ⟨_, _, _, h, rfl⟩
  | set h => exact ⟨_, _, _, h, rfl⟩
  | recSet h => exact ⟨_, _, _, h, rfl⟩

theorem first_select {r r' : Bytes} {l : List Syn} (h : G .select r l r') : ∃ k v r1, Tok r k v r1 ∧ startsSimple k = true := by
  cases h with
  | simple h => exact first_simple h
  | select h => exact first_simple h
  | selectOr h => exact first_simple h

theorem startsSimple_ends {k : TK} (h : startsSimple k = true) : endsSelect k :=
  ⟨(by rintro rfl; cases h), (by rintro rfl; cases h)⟩

section
variable {R : Rec} (hR : Cpl2 R) (k : Nat)
include hR

/-! ### Attribute names -/

theorem parseAttrName_cpl {S : List TK} {s : PState} {r r' : Bytes} {n : Syn} (hs : At S s r) (hg : G .name r [n] r') :
    Cpl S (parseAttrName R k) s r' (Is n) := by
  unfold parseAttrName
  cases hg with
  | name ht =>
    refine .peek hs ht fun t s1 hk hv h1 => ?_
    simp only [hk]
    refine .consume h1 ht fun s2 h2 => ?_
    quietc
    exact .pure (by assumption) ⟨rfl, by rw [← hv]; rfl⟩
  | orName ht =>
    refine .peek hs ht fun t s1 hk hv h1 => ?_
    simp only [hk]
    refine .mute h1 (emitD_mute rfl) fun _ s2 h2 => .consume h2 ht fun s3 h3 => ?_
    quietc
    exact .pure (by assumption) ⟨rfl, by rw [← hv]; rfl⟩
  | strName ht hb =>
    refine .peek hs ht fun t s1 hk hv h1 => ?_
    simp only [hk]
    refine .call (parseString_cpl hR k false h1 ht hb) fun a s2 h2 ⟨h, h', fs, ha, hl⟩ => ?_
    subst ha
    quietc
    exact .pure (by assumption) ⟨rfl, by rw [← hl]; rfl⟩
  | interpName ht he hc =>
    refine .peek hs ht fun t s1 hk hv h1 => ?_
    simp only [hk]
    refine .call (interpolation_cpl hR k h1 ht he hc) fun a s2 h2 ⟨h, e, ha, hl⟩ => ?_
    subst ha
    quietc
    exact .pure (by assumption) ⟨rfl, by rw [← hl.2]; rfl⟩

omit hR in
theorem parseAttrName_none {S : List TK} {s : PState} {r r1 v : Bytes} {kd : TK} (hs : At S s r) (ht : Tok r kd v r1) (hk : startsName kd = false) :
    Cpl S (parseAttrName R k) s r (· = .null) := by
  unfold parseAttrName
  refine .peek hs ht fun t s1 hk1 hv h1 => ?_
  split
  · rename_i h; rw [hk1] at h; subst h; cases hk
  · rename_i h; rw [hk1] at h; subst h; cases hk
  · rename_i h; rw [hk1] at h; subst h; cases hk
  · rename_i h; rw [hk1] at h; subst h; cases hk
  · exact .pure h1 rfl

theorem attrPathLoop_cpl (j : Nat) : ∀ {prev : Nat} {S : List TK} {s : PState} {r r' v q : Bytes} {ns : List Syn} {kd : TK}, At S s r → G .dots r ns r' →
    Tok r' kd v q → kd ≠ .dot → Cpl S (attrPathLoop R k j prev) s r' fun a => synL a.1 = ns := by
  induction j with
  | zero => intro prev S s r r' v q ns kd _ _ _ _ a s' h; cases h
  | succ j ih =>
    intro prev S s r r' v q ns kd hs hg hf hkd
    unfold attrPathLoop
    cases hg with
    | noDot =>
      refine .peek hs hf fun t s1 hk hv h1 => ?_
      rw [if_neg (by rw [hk]; exact hkd)]
      exact .pure h1 rfl
    | dot ht hn hd =>
      refine .peek hs ht fun t s1 hk hv h1 => ?_
      rw [if_pos hk]
      refine .consume h1 ht fun s2 h2 => .call (parseAttrName_cpl hR k h2 hn) fun n s3 h3 he => ?_
      quietc
      rename_i h4
      rw [if_neg (by rw [he.1]; simp)]
      refine .call (ih h4 hd hf hkd) fun a s5 h5 ha => ?_
      refine .pure h5 ?_
      show syn n :: synL a.1 = _
      rw [he.2, ha]

/-- A path. -/
def IsPath (ns : List Syn) (a : Node) : Prop := ∃ h ms ds, a = .attrPath h ms ds ∧ synL ms = ns

theorem parseAttrPath_cpl {S : List TK} {s : PState} {r r' v q : Bytes} {ns : List Syn} {kd : TK} (hs : At S s r) (hg : G .path r ns r')
    (hf : Tok r' kd v q) (hkd : kd ≠ .dot) : Cpl S (parseAttrPath R k) s r' (IsPath ns) := by
  unfold parseAttrPath
  cases hg with
  | path hn hd =>
    refine .call (parseAttrName_cpl hR k hs hn) fun n s1 h1 he => ?_
    rw [if_neg (by rw [he.1]; simp)]
    refine .sync h1 fun s2 h2 => .call (attrPathLoop_cpl hR k k h2 hd hf hkd) fun a s3 h3 ha => ?_
    obtain ⟨ms, ds⟩ := a
    quietc
    refine .pure (by assumption) ⟨_, _, _, rfl, ?_⟩
    show syn n :: synL ms = _
    rw [he.2, ha]

omit hR in
theorem parseAttrPath_none {S : List TK} {s : PState} {r r1 v : Bytes} {kd : TK} (hs : At S s r) (ht : Tok r kd v r1) (hk : startsName kd = false) :
    Cpl S (parseAttrPath R k) s r (· = .null) := by
  unfold parseAttrPath
  refine .call (parseAttrName_none k hs ht hk) fun n s1 h1 hn => ?_
  subst hn
  exact .pure h1 rfl

/-! ### Bindings -/

omit hR in
theorem bindingSemi_cpl {S : List TK} {s : PState} {r r' v : Bytes} (hs : At S s r) (ht : Tok r .semi_colon v r') :
    Cpl S bindingSemi s r' fun _ => True := by
  unfold bindingSemi
  refine .peek hs ht fun t s1 hk hv h1 => ?_
  rw [if_pos hk]
  intro a s' e
  exact ⟨(h1.consume ht e).1, trivial⟩

theorem parseBinding_cpl {S : List TK} {s : PState} {r r1 r2 r3 r' v1 v2 : Bytes} {ns : List Syn} {e : Syn} (hs : At S s r) (hg : G .path r ns r1)
    (h1 : Tok r1 .eq v1 r2) (he : G .expr r2 [e] r3) (h2 : Tok r3 .semi_colon v2 r') :
    Cpl S (parseBinding R k) s r' (Is (.binding ns e)) := by
  unfold parseBinding
  refine .call (parseAttrPath_cpl hR k hs hg h1 (by decide)) fun n s1 i1 ⟨hd, ms, ds, hn, hms⟩ => ?_
  subst hn
  rw [if_neg (by simp [Node.isNull])]
  refine .sync i1 fun s2 i2 => .sync i2 fun s3 i3 => .expect i3 h1 fun t s4 hk hv i4 => ?_
  refine .consume i4 h1 fun s5 i5 => ?_
  quietc
  rename_i i6
  refine .call (hR.expr i6 he h2 rfl) fun x s7 i7 hx => .need i7 hx.1 fun s8 i8 => .call (bindingSemi_cpl i8 h2) fun _ s9 i9 _ => ?_
  quietc
  refine .pure (by assumption) ⟨rfl, ?_⟩
  show Syn.binding (synL ms) (syn x) = _
  rw [hms, hx.2]

omit hR in
theorem parseBinding_none {S : List TK} {s : PState} {r r1 v : Bytes} {kd : TK} (hs : At S s r) (ht : Tok r kd v r1) (hk : startsName kd = false) :
    Cpl S (parseBinding R k) s r (· = .null) := by
  unfold parseBinding
  refine .call (parseAttrPath_none k hs ht hk) fun n s1 h1 hn => ?_
  subst hn
  exact .pure h1 rfl

theorem inheritNames_cpl (j : Nat) : ∀ {S : List TK} {s : PState} {r r' v q : Bytes} {ns : List Syn} {kd : TK}, At S s r → G .names r ns r' →
    Tok r' kd v q → startsName kd = false → Cpl S (inheritNames R k j) s r' fun a => synL a = ns := by
  induction j with
  | zero => intro S s r r' v q ns kd _ _ _ _ a s' h; cases h
  | succ j ih =>
    intro S s r r' v q ns kd hs hg hf hkd
    unfold inheritNames
    cases hg with
    | noName =>
      refine .call (parseAttrName_none k hs hf hkd) fun n s1 h1 hn => ?_
      subst hn
      exact .pure h1 rfl
    | names hn hd =>
      refine .call (parseAttrName_cpl hR k hs hn) fun n s3 h3 he => ?_
      rw [if_neg (by rw [he.1]; simp)]
      refine .call (ih h3 hd hf hkd) fun a s5 h5 ha => .pure h5 ?_
      show syn n :: synL a = _
      rw [he.2, ha]

omit hR in
theorem first_names {r r' : Bytes} {l : List Syn} (h : G .names r l r') {v q : Bytes} (hf : Tok r' .semi_colon v q) :
    ∃ k v r1, Tok r k v r1 ∧ k ≠ .l_paren := by
  cases h with
  | noName => exact ⟨_, _, _, hf, by decide⟩
  | names h =>
    obtain ⟨k, v, r1, h1, h2⟩ := first_name h
    exact ⟨k, v, r1, h1, by rintro rfl; cases h2⟩

theorem parseInherit_cpl {S : List TK} {s : PState} {r r1 r2 r' v1 v2 : Bytes} {ns : List Syn} (hs : At S s r) (h1 : Tok r .kw_inherit v1 r1)
    (hg : G .names r1 ns r2) (h2 : Tok r2 .semi_colon v2 r') : Cpl S (parseInherit R k) s r' (Is (.inherit ns)) := by
  unfold parseInherit
  refine .peek hs h1 fun t s1 hk hv i1 => ?_
  rw [if_neg (by simp [hk])]
  refine .consume i1 h1 fun s2 i2 => .sync i2 fun s3 i3 => .sync i3 fun s4 i4 => .sync i4 fun s5 i5 => .sync i5 fun s6 i6 => ?_
  obtain ⟨kf, vf, rf, hf, hkf⟩ := first_names hg h2
  have hx : ∀ {S s}, At S s r1 → Cpl S (inheritExpr R k) s r1 (· = .null) := by
    intro S s hs
    unfold inheritExpr
    refine .peek hs hf fun t s1 hk hv i1 => ?_
    rw [if_neg (by rw [hk]; exact hkf)]
    exact .pure i1 rfl
  refine .call (hx i6) fun e s7 i7 he => .call (inheritNames_cpl hR k k i7 hg h2 rfl) fun ms s8 i8 hms => ?_
  subst he
  refine .expectOr i8 h2 fun t s9 i9 _ => .mute i9 (.when fun _ => emitD_mute rfl) fun _ s10 i10 => ?_
  quietc
  refine .pure (by assumption) ⟨rfl, ?_⟩
  show Syn.inherit (synL ms) = _
  rw [hms]

theorem parseInheritFrom_cpl {S : List TK} {s : PState} {r r1 r2 r3 r4 r5 r' v1 v2 v3 v4 : Bytes} {ns : List Syn} {e : Syn} (hs : At S s r)
    (h1 : Tok r .kw_inherit v1 r1) (h2 : Tok r1 .l_paren v2 r2) (he : G .expr r2 [e] r3) (h3 : Tok r3 .r_paren v3 r4)
    (hg : G .names r4 ns r5) (h4 : Tok r5 .semi_colon v4 r') : Cpl S (parseInherit R k) s r' (Is (.inheritFrom e ns)) := by
  unfold parseInherit
  refine .peek hs h1 fun t s1 hk hv i1 => ?_
  rw [if_neg (by simp [hk])]
  refine .consume i1 h1 fun s2 i2 => .sync i2 fun s3 i3 => .sync i3 fun s4 i4 => .sync i4 fun s5 i5 => .sync i5 fun s6 i6 => ?_
  have hx : ∀ {S s}, At S s r1 → Cpl S (inheritExpr R k) s r4 (Is e) := by
    intro S s hs
    unfold inheritExpr
    refine .peek hs h2 fun t s1 hk hv i1 => ?_
    rw [if_pos hk]
    refine .consume i1 h2 fun s2 i2 => .call (hR.expr i2 he h3 rfl) fun x s7 i7 hx => .need i7 hx.1 fun s8 i8 => ?_
    exact .expectOr i8 h3 fun t s9 i9 _ => .pure i9 hx
  refine .call (hx i6) fun e s7 i7 he => .call (inheritNames_cpl hR k k i7 hg h4 rfl) fun ms s8 i8 hms => ?_
  refine .expectOr i8 h4 fun t s9 i9 _ => .mute i9 (.when fun _ => emitD_mute rfl) fun _ s10 i10 => ?_
  quietc
  refine .pure (by assumption) ⟨rfl, ?_⟩
  rw [syn_inherit he.1, hms, he.2]

omit hR in
theorem parseInherit_none {S : List TK} {s : PState} {r r1 v : Bytes} {kd : TK} (hs : At S s r) (ht : Tok r kd v r1) (hk : kd ≠ .kw_inherit) :
    Cpl S (parseInherit R k) s r (· = .null) := by
  unfold parseInherit
  refine .peek hs ht fun t s1 hk1 hv h1 => ?_
  rw [if_pos (by rw [hk1]; exact hk)]
  exact .pure h1 rfl

theorem bindsLoop_cpl (j : Nat) : ∀ {S : List TK} {s : PState} {r r' v q : Bytes} {bs : List Syn} {kd : TK}, At S s r → G .binds r bs r' →
    Tok r' kd v q → kd = .r_curly ∨ kd = .kw_in → kd ∈ S → Cpl S (bindsLoop R k j) s r' fun a => synL a = bs := by
  induction j with
  | zero => intro S s r r' v q ns kd _ _ _ _ _ a s' h; cases h
  | succ j ih =>
    intro S s r r' v q ns kd hs hg hf hkd hS
    unfold bindsLoop
    cases hg with
    | noBind =>
      refine .call (parseBinding_none k hs hf (by rcases hkd with rfl | rfl <;> rfl)) fun n s1 h1 hn => ?_
      subst hn
      refine .call (parseInherit_none k h1 hf (by rcases hkd with rfl | rfl <;> decide)) fun n s2 h2 hn => ?_
      subst hn
      exact .remove h2 hf hS fun s3 h3 => .pure h3 rfl
    | binding g1 g2 g3 g4 g5 =>
      refine .call (parseBinding_cpl hR k hs g1 g2 g3 g4) fun n s3 h3 he => ?_
      rw [if_neg (by rw [he.1]; simp)]
      refine .call (ih h3 g5 hf hkd hS) fun a s5 h5 ha => .pure h5 ?_
      show syn n :: synL a = _
      rw [he.2, ha]
    | inherit g1 g2 g3 g4 =>
      refine .call (parseBinding_none k hs g1 rfl) fun n s1 h1 hn => ?_
      subst hn
      refine .call (parseInherit_cpl hR k h1 g1 g2 g3) fun n s3 h3 he => ?_
      rw [if_neg (by rw [he.1]; simp)]
      refine .call (ih h3 g4 hf hkd hS) fun a s5 h5 ha => .pure h5 ?_
      show syn n :: synL a = _
      rw [he.2, ha]
    | inheritFrom g1 g2 g3 g4 g5 g6 g7 =>
      refine .call (parseBinding_none k hs g1 rfl) fun n s1 h1 hn => ?_
      subst hn
      refine .call (parseInheritFrom_cpl hR k h1 g1 g2 g3 g4 g5 g6) fun n s3 h3 he => ?_
      rw [if_neg (by rw [he.1]; simp)]
      refine .call (ih h3 g7 hf hkd hS) fun a s5 h5 ha => .pure h5 ?_
      show syn n :: synL a = _
      rw [he.2, ha]

omit hR in
/-- The first token of bindings. -/
theorem first_binds {r r' : Bytes} {l : List Syn} (h : G .binds r l r') {v q : Bytes} {kd : TK} (hf : Tok r' kd v q) :
    ∃ k v r1, Tok r k v r1 ∧ (startsName k = true ∨ k = .kw_inherit ∨ k = kd) := by
  cases h with
  | noBind => exact ⟨_, _, _, hf, .inr (.inr rfl)⟩
  | binding h =>
    obtain ⟨k, v, r1, h1, h2⟩ := first_path h
    exact ⟨k, v, r1, h1, .inl h2⟩
  | inherit h => exact ⟨_, _, _, h, .inr (.inl rfl)⟩
  | inheritFrom h => exact ⟨_, _, _, h, .inr (.inl rfl)⟩

/-- The bindings of a node. -/
def BindsAre (a : Node) (bs : List Syn) : Prop := a = .null ∧ bs = [] ∨ ∃ h ns, a = .binds h ns ∧ bs = synL ns

theorem parseBinds_cpl {S : List TK} {s : PState} {r r' v q : Bytes} {bs : List Syn} {kd : TK} (hs : At S s r) (hg : G .binds r bs r')
    (hf : Tok r' kd v q) (hkd : kd = .r_curly ∨ kd = .kw_in) (hS : kd ∈ S) : Cpl S (parseBinds R k) s r' fun a => BindsAre a bs := by
  unfold parseBinds
  obtain ⟨k1, v1, r1, h1, -⟩ := first_binds hg hf
  refine .peek hs h1 fun t s1 hk hv i1 => ?_
  refine .sync i1 fun s3 i3 => .sync i3 fun s4 i4 => .sync i4 fun s5 i5 => .sync i5 fun s6 i6 => ?_
  refine .call (bindsLoop_cpl hR k k i6 hg hf hkd (by simp [hS])) fun a s7 i7 ha => ?_
  split
  · rename_i he
    have : a = [] := by simpa using he
    subst this
    exact .pure i7 (.inl ⟨rfl, ha.symm⟩)
  · quietc
    exact .pure (by assumption) (.inr ⟨_, _, rfl, ha.symm⟩)

omit hR in
theorem attrsOpen_cpl {S : List TK} {s : PState} {r r' v : Bytes} {t : Token} (hs : At S s r) (ht : Tok r .l_curly v r') :
    Cpl S (attrsOpen k t) s r' fun _ => True := by
  unfold attrsOpen
  exact .expect hs ht fun t s1 hk hv i1 => .consume i1 ht fun s2 i2 => .pure i2 trivial

theorem parseExprAttrs_cpl {S : List TK} {s : PState} {r r1 r2 r' v1 v2 : Bytes} {bs : List Syn} (hs : At S s r) (h1 : Tok r .l_curly v1 r1)
    (hg : G .binds r1 bs r2) (h2 : Tok r2 .r_curly v2 r') : Cpl S (parseExprAttrs R k) s r' fun a => ∃ h b st dy, a = .exprAttrs h b .null st dy ∧ BindsAre b bs := by
  unfold parseExprAttrs
  refine .sync hs fun s0 i0 => .peek i0 h1 fun t s1 hk hv i1 => ?_
  have hx : ∀ {S s}, At S s r → Cpl S recTok s r (· = .null) := by
    intro S s hs
    unfold recTok
    refine .peek hs h1 fun t s1 hk hv i1 => ?_
    rw [if_neg (by rw [hk]; decide)]
    exact .pure i1 rfl
  refine .call (hx i1) fun x s2 i2 hx => .call (attrsOpen_cpl k i2 h1) fun m s3 i3 _ => ?_
  subst hx
  quietc
  rename_i i4
  refine .call (parseBinds_cpl hR k i4 hg h2 (.inl rfl) (by simp)) fun b s5 i5 hb => ?_
  refine .expectOr i5 h2 fun t s9 i9 _ => ?_
  quietc
  rename_i i10
  intro a s' e
  obtain ⟨h, st, dy, rfl, -⟩ := onExprAttrs_shape e
  exact ⟨i10.mute (sema_mute (fun _ _ => onExprAttrs_mild)) e, h, b, st, dy, rfl, hb⟩

theorem parseExprAttrsRec_cpl {S : List TK} {s : PState} {r r0 r1 r2 r' v0 v1 v2 : Bytes} {bs : List Syn} (hs : At S s r) (h0 : Tok r .kw_rec v0 r0)
    (h1 : Tok r0 .l_curly v1 r1) (hg : G .binds r1 bs r2) (h2 : Tok r2 .r_curly v2 r') : Cpl S (parseExprAttrs R k) s r' (Is (.set true bs)) := by
  unfold parseExprAttrs
  refine .sync hs fun s0 i0 => .peek i0 h0 fun t s1 hk hv i1 => ?_
  have hx : ∀ {S s}, At S s r → Cpl S recTok s r0 fun a => isPart a = true := by
    intro S s hs
    unfold recTok
    refine .peek hs h0 fun t s1 hk hv i1 => ?_
    rw [if_pos hk]
    refine .consume i1 h0 fun s2 i2 => ?_
    unfold mkMisc
    quietc
    exact .pure (by assumption) rfl
  refine .call (hx i1) fun x s2 i2 hx => .call (attrsOpen_cpl k i2 h1) fun m s3 i3 _ => ?_
  quietc
  rename_i i4
  refine .call (parseBinds_cpl hR k i4 hg h2 (.inl rfl) (by simp)) fun b s5 i5 hb => ?_
  refine .expectOr i5 h2 fun t s9 i9 _ => ?_
  quietc
  rename_i i10
  intro a s' e
  obtain ⟨h, st, dy, rfl, -⟩ := onExprAttrs_shape e
  refine ⟨i10.mute (sema_mute (fun _ _ => onExprAttrs_mild)) e, rfl, ?_⟩
  rw [show syn (.exprAttrs h b x st dy) = .set (isPart x) bs by rcases hb with ⟨rfl, rfl⟩ | ⟨_, _, rfl, rfl⟩ <;> rfl, hx]

end
end Verif.Nixf.Syntax
