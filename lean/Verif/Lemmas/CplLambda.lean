import Verif.Lemmas.CplExpr
/-
Completeness of the parser: functions.
-/
namespace Verif.Nixf.Syntax
open Lexical Strings

/-- The first token of a formal. -/
theorem first_member {r r' : Bytes} {f : Syn} (h : G .member r [f] r') :
    ∃ k v r1, Tok r k v r1 ∧ startsFormal k = true ∧ (hasComma f = true → k = .comma) := by
  cases h with
  | comma h => exact ⟨_, _, _, h, rfl, fun _ => rfl⟩
  | plain h hne =>
    cases h with
    | formal h => exact ⟨_, _, _, h, rfl, fun h => nomatch h⟩
    | formalOr h => exact ⟨_, _, _, h, rfl, fun h => nomatch h⟩
    | ellipsis h => exact ⟨_, _, _, h, rfl, fun h => nomatch h⟩
    | lone => exact absurd rfl hne

/-- The first token of a list of formals that all have commas. -/
theorem first_members {r r' v q : Bytes} {fs : List Syn} (h : G .members r fs r') (hf : Tok r' .r_curly v q) (hc : ∀ f ∈ fs, hasComma f = true) :
    ∃ k v r1, Tok r k v r1 ∧ (k = .comma ∨ k = .r_curly) := by
  cases h with
  | noMember => exact ⟨_, _, _, hf, .inr rfl⟩
  | members h =>
    obtain ⟨k, v, r1, h1, -, h2⟩ := first_member h
    exact ⟨k, v, r1, h1, .inl (h2 (hc _ (by simp)))⟩

section
variable {R : Rec} (hR : Cpl2 R) (k : Nat)
include hR

omit hR in
theorem formalCommaTok_cpl {S : List TK} {s : PState} {r v r' : Bytes} (hs : At S s r) (ht : Tok r .comma v r') :
    Cpl S formalCommaTok s r' fun a => a.isNull = false := by
  unfold formalCommaTok
  refine .peek hs ht fun t s1 hk hv i1 => ?_
  rw [if_pos hk]
  refine .consume i1 ht fun s2 i2 => ?_
  unfold mkMisc
  quietc
  exact .pure (by assumption) rfl

omit hR in
theorem formalCommaTok_none {S : List TK} {s : PState} {r v r1 : Bytes} {kd : TK} (hs : At S s r) (ht : Tok r kd v r1) (hk : kd ≠ .comma) :
    Cpl S formalCommaTok s r fun a => a = .null := by
  unfold formalCommaTok
  refine .peek hs ht fun t s1 hk1 hv i1 => ?_
  rw [if_neg (by rw [hk1]; exact hk)]
  exact .pure i1 rfl

/-- `parseFormal` after the comma. -/
theorem afterComma_cpl {S : List TK} {s : PState} {r r' v q : Bytes} {f : Syn} {kd : TK} {b : Bool} {c : Node} {l : Cursor} (hs : At S s r)
    (hg : G (.afterComma b) r [f] r') (hb : isPart c = b) (hn : f = .comma → b = true) (hf : Tok r' kd v q) (hkd : kd = .comma ∨ kd = .r_curly) :
    Cpl S (do
      let tok ← peek
      if tok.kind = .id_ then do
        pconsume
        let hi ← fresh tok.range
        let q ← peek
        if q.kind ≠ .question then do
          let e ← lastR
          let h ← fresh ⟨l, e⟩
          pure (.formal h c (.identifier hi tok.view) .null .null)
        else do
          pconsume
          let d ← R.expr
          needExpr d b!"default value"
          let e ← lastR
          let h ← fresh ⟨l, e⟩
          pure (.formal h c (.identifier hi tok.view) d .null)
      else if tok.kind = .ellipsis then do
        pconsume
        let e ← mkMisc tok.range
        let x ← lastR
        let h ← fresh ⟨l, x⟩
        pure (.formal h c .null .null e)
      else if c.isNull then pure .null
      else do
        let e ← lastR
        let h ← fresh ⟨l, e⟩
        pure (.formal h c .null .null .null) : PM Node) s r' fun a => Is f a ∧ FShape a := by
  cases hg with
  | formal ht =>
    refine .peek hs ht fun t s1 hk hv i1 => ?_
    rw [if_pos hk]
    refine .consume i1 ht fun s2 i2 => ?_
    quietc
    rename_i i3
    refine .peek i3 hf fun t2 s4 hk2 hv2 i4 => ?_
    rw [if_pos (by rw [hk2]; rcases hkd with rfl | rfl <;> decide)]
    quietc
    refine .pure (by assumption) ⟨⟨rfl, ?_⟩, isPart_eq _, ?_⟩
    · show Syn.formal (isPart c) t.view = _
      rw [hb, hv]
    · show false = (false || (!c.isNull && false && true))
      cases c.isNull <;> rfl
  | formalOr ht ht2 ge =>
    refine .peek hs ht fun t s1 hk hv i1 => ?_
    rw [if_pos hk]
    refine .consume i1 ht fun s2 i2 => ?_
    quietc
    rename_i i3
    refine .peek i3 ht2 fun t2 s4 hk2 hv2 i4 => ?_
    rw [if_neg (by simp [hk2])]
    refine .consume i4 ht2 fun s5 i5 => .call (hR.expr i5 ge hf (by rcases hkd with rfl | rfl <;> rfl)) fun d s6 i6 hd => .need i6 hd.1 fun s7 i7 => ?_
    quietc
    refine .pure (by assumption) ⟨⟨rfl, ?_⟩, ?_, ?_⟩
    · rw [syn_formalOr hd.1, hb, hv, hd.2]
    · rw [syn_formalOr hd.1]; exact isPart_eq _
    · rw [syn_formalOr hd.1]
      show false = (false || (!c.isNull && false && true))
      cases c.isNull <;> rfl
  | ellipsis ht =>
    refine .peek hs ht fun t s1 hk hv i1 => ?_
    rw [if_neg (by simp [hk]), if_pos hk]
    refine .consume i1 ht fun s2 i2 => .misc i2 fun hd s3 i3 => ?_
    quietc
    refine .pure (by assumption) ⟨⟨rfl, ?_⟩, isPart_eq _, rfl⟩
    show Syn.ellipsis (isPart c) = _
    rw [hb]
  | lone =>
    refine .peek hs hf fun t s1 hk hv i1 => ?_
    rw [if_neg (by rw [hk]; rcases hkd with rfl | rfl <;> decide), if_neg (by rw [hk]; rcases hkd with rfl | rfl <;> decide)]
    have hc : c.isNull = false := by
      have := isPart_eq c
      rw [hb, hn rfl] at this
      simpa using this.symm
    rw [if_neg (by rw [hc]; simp)]
    quietc
    refine .pure (by assumption) ⟨⟨rfl, rfl⟩, ?_, ?_⟩
    · show true = !c.isNull
      rw [hc]; rfl
    · show true = (false || (!c.isNull && true && true))
      rw [hc]; rfl

theorem parseFormal_cpl {S : List TK} {s : PState} {r r' v q : Bytes} {f : Syn} {kd : TK} (hs : At S s r) (hg : G .member r [f] r')
    (hf : Tok r' kd v q) (hkd : kd = .comma ∨ kd = .r_curly) : Cpl S (parseFormal R) s r' fun a => Is f a ∧ FShape a := by
  unfold parseFormal
  obtain ⟨k0, v0, r0, h0, h1, -⟩ := first_member hg
  refine .lcur hs h0 fun l s1 i1 => ?_
  cases hg with
  | comma ht hg =>
    refine .call (formalCommaTok_cpl i1 ht) fun c s2 i2 hc => ?_
    exact afterComma_cpl hR i2 hg (by rw [isPart_eq, hc]; rfl) (fun _ => rfl) hf hkd
  | plain hg hne =>
    have hk : k0 ≠ .comma := by
      rintro rfl
      cases hg with
      | formal h => cases (h.eq h0).1
      | formalOr h => cases (h.eq h0).1
      | ellipsis h => cases (h.eq h0).1
      | lone => exact hne rfl
    refine .call (formalCommaTok_none i1 h0 hk) fun c s2 i2 hc => ?_
    subst hc
    exact afterComma_cpl hR i2 hg rfl (fun h => absurd h hne) hf hkd

theorem formalsLoop_cpl (j : Nat) : ∀ {S : List TK} {s : PState} {r r' v q : Bytes} {fs : List Syn}, At S s r → G .members r fs r' →
    Tok r' .r_curly v q → (∀ f ∈ fs.tail, hasComma f = true) → Cpl S (formalsLoop R k j) s r' fun a => synL a = fs ∧ ∀ f ∈ a, FShape f := by
  induction j with
  | zero => intro S s r r' v q fs _ _ _ _ a s' h; cases h
  | succ j ih =>
    intro S s r r' v q fs hs hg hf hc
    unfold formalsLoop
    cases hg with
    | noMember =>
      refine .peek hs hf fun t s1 hk hv i1 => ?_
      rw [if_pos hk]
      exact .pure i1 ⟨rfl, fun _ h => nomatch h⟩
    | members g1 g2 =>
      obtain ⟨k0, v0, r0, h0, h1, -⟩ := first_member g1
      obtain ⟨k2, v2, r2, h2, h3⟩ := first_members g2 hf hc
      refine .peek hs h0 fun t s1 hk hv i1 => ?_
      rw [if_neg (by rw [hk]; rintro rfl; cases h1)]
      refine .call (parseFormal_cpl hR i1 g1 h2 h3) fun x s2 i2 ⟨hx, hsh⟩ => ?_
      rw [if_neg (by rw [hx.1]; simp)]
      refine .call (ih i2 g2 hf fun f hf => hc f (List.mem_of_mem_tail hf)) fun a s3 i3 ⟨ha, has⟩ => .pure i3 ⟨?_, fun f hf => ?_⟩
      · show syn x :: synL a = _
        rw [hx.2, ha]
      · rcases List.mem_cons.mp hf with rfl | hf
        · exact hsh
        · exact has f hf

omit hR in
theorem onFormals_cpl {x : CRange} {ms : List Node} {S : List TK} {s : PState} {r : Bytes} (hs : At S s r) (hm : MembersOk ms) :
    Cpl S (sema fun src => onFormals src x ms) s r fun a => ∃ h, a = .formals h ms := by
  intro a s' e
  unfold sema at e
  simp only [Option.some.injEq, Prod.mk.injEq] at e
  obtain ⟨rfl, rfl⟩ := e
  obtain ⟨t, h1, h2⟩ := onFormals_errors s.lex.src x ms ⟨s.next, s.lex.diags, s.bad⟩
  refine ⟨hs.same ⟨rfl, rfl, rfl, rfl, rfl, rfl, rfl⟩ fun hc d hd => ?_, ?_⟩
  · have hd : d ∈ (onFormals s.lex.src x ms ⟨s.next, s.lex.diags, s.bad⟩).2.diags := hd
    rw [h1] at hd
    rcases List.mem_append.mp hd with hd | hd
    · exact hc d hd
    · exact h2.mpr hm d hd
  · unfold onFormals; exact ⟨_, rfl⟩

theorem parseFormals_cpl {S : List TK} {s : PState} {r r' : Bytes} {fs : List Syn} (hs : At S s r) (hg : G .formals r fs r') :
    Cpl S (parseFormals R k) s r' fun a => ∃ h ms, a = .formals h ms ∧ synL ms = fs := by
  unfold parseFormals
  cases hg with
  | formals h1 g h2 hok =>
    refine .expect hs h1 fun t s1 hk hv i1 => .consume i1 h1 fun s2 i2 => ?_
    refine .sync i2 fun s4 i4 => .sync i4 fun s5 i5 => .sync i5 fun s6 i6 => .sync i6 fun s7 i7 => ?_
    refine .call (formalsLoop_cpl hR k k i7 g h2 hok.1) fun ms s8 i8 ⟨hms, hsh⟩ => .expectOr i8 h2 fun t2 s9 i9 _ => ?_
    quietc
    rename_i i10
    refine (onFormals_cpl i10 ((membersOk_iff hsh).mpr (by rw [hms]; exact hok))).imp fun a ⟨h, ha⟩ => ⟨h, ms, ha, hms⟩

omit hR in
theorem onLambdaArg_cpl {x : CRange} {i f : Node} {S : List TK} {s : PState} {r : Bytes} (hs : At S s r) :
    Cpl S (sema fun _ => onLambdaArg x i f) s r fun a => ∃ h, a = .lambdaArg h i f := by
  intro a s' e
  refine ⟨hs.mute (sema_mute (fun _ _ => onLambdaArg_mild)) e, ?_⟩
  unfold sema at e
  simp only [Option.some.injEq, Prod.mk.injEq] at e
  obtain ⟨rfl, -⟩ := e
  unfold onLambdaArg; exact ⟨_, rfl⟩

theorem parseLambdaArg_cpl {S : List TK} {s : PState} {r r' v q : Bytes} {t : Syn} (hs : At S s r) (hg : G .arg r [t] r') (hf : Tok r' .colon v q) :
    Cpl S (parseLambdaArg R k) s r' (Is t) := by
  unfold parseLambdaArg
  cases hg with
  | argName ht =>
    refine .lcur hs ht fun l s0 i0 => .peek i0 ht fun t s1 hk hv i1 => ?_
    rw [if_pos hk]
    refine .consume i1 ht fun s2 i2 => ?_
    quietc
    rename_i i3
    refine .peek i3 hf fun t2 s4 hk2 hv2 i4 => ?_
    rw [if_pos (by simp [hk2])]
    quietc
    rename_i i5
    refine (onLambdaArg_cpl i5).imp fun a ⟨h, ha⟩ => ?_
    subst ha
    exact ⟨rfl, by rw [← hv]; rfl⟩
  | argAt ht ht2 g =>
    refine .lcur hs ht fun l s0 i0 => .peek i0 ht fun t s1 hk hv i1 => ?_
    rw [if_pos hk]
    refine .consume i1 ht fun s2 i2 => ?_
    quietc
    rename_i i3
    refine .peek i3 ht2 fun t2 s4 hk2 hv2 i4 => ?_
    rw [if_neg (by simp [hk2])]
    refine .consume i4 ht2 fun s5 i5 => .call (parseFormals_cpl hR k i5 g) fun fs s6 i6 ⟨h, ms, hfs, hms⟩ => ?_
    subst hfs
    refine .whenNot i6 (by simp [Node.isNull]) fun s7 i7 => ?_
    quietc
    rename_i i8
    refine (onLambdaArg_cpl i8).imp fun a ⟨h, ha⟩ => ?_
    subst ha
    exact ⟨rfl, by rw [← hv, ← hms]; rfl⟩
  | argSet g _ =>
    have hx : ∃ v r1, Tok r .l_curly v r1 := by cases g with | formals h => exact ⟨_, _, h⟩
    obtain ⟨v0, r0, ht⟩ := hx
    refine .lcur hs ht fun l s0 i0 => .peek i0 ht fun t s1 hk hv i1 => ?_
    rw [if_neg (by simp [hk])]
    refine .call (parseFormals_cpl hR k i1 g) fun fs s6 i6 ⟨h, ms, hfs, hms⟩ => ?_
    subst hfs
    rw [if_neg (by simp [Node.isNull])]
    refine .peek i6 hf fun t2 s4 hk2 hv2 i4 => ?_
    rw [if_pos (by simp [hk2])]
    quietc
    rename_i i8
    refine (onLambdaArg_cpl i8).imp fun a ⟨h, ha⟩ => ?_
    subst ha
    exact ⟨rfl, by rw [← hms]; rfl⟩
  | atArg g _ ht1 ht2 =>
    have hx : ∃ v r1, Tok r .l_curly v r1 := by cases g with | formals h => exact ⟨_, _, h⟩
    obtain ⟨v0, r0, ht⟩ := hx
    refine .lcur hs ht fun l s0 i0 => .peek i0 ht fun t s1 hk hv i1 => ?_
    rw [if_neg (by simp [hk])]
    refine .call (parseFormals_cpl hR k i1 g) fun fs s6 i6 ⟨h, ms, hfs, hms⟩ => ?_
    subst hfs
    rw [if_neg (by simp [Node.isNull])]
    refine .peek i6 ht1 fun t2 s4 hk2 hv2 i4 => ?_
    rw [if_neg (by simp [hk2])]
    refine .consume i4 ht1 fun s5 i5 => .expect i5 ht2 fun t3 s6 hk3 hv3 i6 => .consume i6 ht2 fun s7 i7 => ?_
    quietc
    rename_i i8
    refine (onLambdaArg_cpl i8).imp fun a ⟨h, ha⟩ => ?_
    subst ha
    exact ⟨rfl, by rw [← hms, ← hv3]; rfl⟩

theorem parseExprLambda_cpl {S : List TK} {s : PState} {r r1 r2 r' v v1 q : Bytes} {a b : Syn} {kd : TK} (hs : At S s r) (hg : G .arg r [a] r1)
    (ht : Tok r1 .colon v1 r2) (ge : G .expr r2 [b] r') (hf : Tok r' kd v q) (hkd : endsExpr kd = true) :
    Cpl S (parseExprLambda R k) s r' (Is (.lambda a b)) := by
  unfold parseExprLambda
  have hx : ∃ k v r1, Tok r k v r1 := by
    cases hg with
    | argName h => exact ⟨_, _, _, h⟩
    | argAt h => exact ⟨_, _, _, h⟩
    | argSet g => cases g with | formals h => exact ⟨_, _, _, h⟩
    | atArg g => cases g with | formals h => exact ⟨_, _, _, h⟩
  obtain ⟨k0, v0, r0, h0⟩ := hx
  refine .lcur hs h0 fun l s0 i0 => .call (parseLambdaArg_cpl hR k i0 hg ht) fun x s1 i1 hx => ?_
  quietc
  rename_i i2
  rw [if_neg (by rw [hx.1]; simp)]
  refine .expectMay i2 ht fun s3 i3 => .call (hR.expr i3 ge hf hkd) fun e s4 i4 he => .need i4 he.1 fun s5 i5 => ?_
  quietc
  refine .pure (by assumption) ⟨rfl, ?_⟩
  show Syn.lambda (syn x) (syn e) = _
  rw [hx.2, he.2]

end
end Verif.Nixf.Syntax
