import Verif.Lemmas.SynExpr
/-
Soundness of the parser: functions.
-/
namespace Verif.Nixf.Syntax
open Lexical Strings

theorem isPart_eq (n : Node) : isPart n = !n.isNull := by cases n <;> rfl

/-- A formal as the parser makes it. -/
structure FShape (f : Node) : Prop where
  comma : hasComma (syn f) = !(formalComma f).isNull
  last : isLast (syn f) = (formalIsEllipsis f || (!(formalComma f).isNull && (formalID f).isNull && !formalIsEllipsis f))

theorem membersOk_iff {fv : List Node} (h : ∀ f ∈ fv, FShape f) : MembersOk fv ↔ FormalsOk (synL fv) := by
  unfold MembersOk FormalsOk
  rw [synL_eq, ← List.map_tail, ← List.map_dropLast]
  simp only [List.forall_mem_map]
  have ht : ∀ f ∈ fv.tail, f ∈ fv := fun f hf => List.mem_of_mem_tail hf
  have hd : ∀ f ∈ fv.dropLast, f ∈ fv := fun f hf => List.mem_of_mem_dropLast hf
  constructor
  · rintro ⟨a, b, c⟩
    refine ⟨fun f hf => ?_, fun f hf => ?_⟩
    · rw [(h f (ht f hf)).comma, a f hf]; rfl
    · rw [(h f (hd f hf)).last, b f hf]; simpa [b f hf] using c f hf
  · rintro ⟨a, b⟩
    refine ⟨fun f hf => ?_, fun f hf => ?_, fun f hf => ?_⟩
    · have := a f hf; rw [(h f (ht f hf)).comma] at this; simpa using this
    · have := b f hf; rw [(h f (hd f hf)).last] at this
      simp only [Bool.or_eq_false_iff] at this; exact this.1
    · have := b f hf; rw [(h f (hd f hf)).last] at this
      simp only [Bool.or_eq_false_iff] at this; exact this.2

/-- The tokens formals start with. -/
def startsFormal : TK → Bool
  | .comma | .id_ | .ellipsis => true
  | _ => false

section
variable {R : Rec} (hR : Snd2 R) (k : Nat)
include hR

omit hR in
theorem Snd.misc {β : Type} {src : Option Bytes} {s : PState} {r : Bytes} {B : List Token} {P : β → Bytes → List Token → Prop} {x : CRange}
    {f : Node → PM β} (hs : Hr src s r B) (h : ∀ hd s1, Hr src s1 r B → Snd src (f (.misc hd)) s1 P) :
    Snd src (mkMisc x >>= f) s P := by
  intro b s' e hc
  obtain ⟨a, s1, e1, e2⟩ := run_bind e
  obtain ⟨hd, s2, e3, e4⟩ := run_bind e1
  obtain ⟨rfl, rfl⟩ := run_pure e4
  exact h _ _ (hs.same (fresh_mute _ _ _ e3).1) b s' e2 hc

omit hR in
theorem formalCommaTok_sound {src : Option Bytes} {s : PState} {r : Bytes} {B : List Token} (hs : Hr src s r B) : Snd src formalCommaTok s fun a r' B' =>
    (a = .null ∧ r' = r ∧ ∀ v r1, ¬ Tok r .comma v r1) ∧ BufN 0 B B' ∨ (a.isNull = false ∧ ∃ v, Tok r .comma v r') ∧ BufN 1 B B' := by
  unfold formalCommaTok
  refine .peek hs (fun t s1 r1 ts ht h1 hb => ?_) (fun _ => by frame)
  split
  · rename_i hk
    refine .consume h1 ht (fun s3 h3 _ _ => ?_) (fun _ => by unfold mkMisc; frame)
    unfold mkMisc
    quiet
    rw [hk] at ht
    exact .pure (by assumption) (.inr ⟨⟨rfl, _, ht⟩, hb.trans (.cons _ _)⟩)
  · rename_i hk
    exact .pure h1 (.inl ⟨⟨rfl, rfl, fun v r1 h => hk (ht.eq h).1⟩, hb⟩)

def PFormal (src : Option Bytes) (r : Bytes) (B : List Token) (a : Node) (r' : Bytes) (B' : List Token) : Prop :=
  (a = .null ∧ r' = r ∧ BufN 0 B B' ∧ ∃ k v r1, Tok r k v r1 ∧ startsFormal k = false) ∨
    (a.isNull = false ∧ FShape a ∧ GN src .member r [a] r' ∧ Spans src a.range r r' ∧ BufN 0 B B')

theorem parseFormal_sound {src : Option Bytes} {s : PState} {r : Bytes} {B : List Token} (hs : Hr src s r B) : Snd src (parseFormal R) s (PFormal src r B) := by
  have hfr := hR.fr
  have f1 := formalCommaTok_fr
  unfold parseFormal
  refine .lcur hs (fun l s1 r1 t ts hl ht h1 hb => ?_) (fun _ => by frame)
  refine .call (formalCommaTok_sound h1) (fun _ => by frame) fun c s2 r2 B2 h2 hc => ?_
  have hbc : BufN 0 B B2 := by
    rcases hc with ⟨-, hc⟩ | ⟨-, hc⟩
    · exact hb.trans0 hc
    · exact (hb.trans0 hc).mono (by omega)
  have hcm : ∀ {f : Node} {r' : Bytes}, GN src (.afterComma (isPart c)) r2 [f] r' → (c.isNull = true → syn f ≠ .comma) → GN src .member r [f] r' := by
    intro f r' hg hf
    rcases hc with ⟨⟨rfl, rfl, -⟩, -⟩ | ⟨⟨hn, v, hv⟩, -⟩
    · exact .plain hg (hf rfl)
    · rw [isPart_eq, hn] at hg; exact .comma hv hg
  clear hb
  refine .peek h2 (fun t3 s3 r3 ts3 ht3 h3 hb3 => ?_) (fun _ => by frame)
  have hb3 := hbc.trans0 hb3
  have hsp := h3.front ht3
  split
  · rename_i hk
    refine .consume h3 ht3 (fun s4 h4 _ _ => ?_) (fun _ => by frame)
    quiet
    rename_i h5
    refine .peek h5 (fun t6 s6 r6 ts6 ht6 h6 hb6 => ?_) (fun _ => by frame)
    have hb6 := (hb3.trans (BufN.cons _ _)).trans hb6
    rw [hk] at ht3
    split
    · quiet
      refine .pure (by assumption) (.inr ⟨rfl, ⟨isPart_eq _, ?_⟩, hcm (.formal ht3 rfl hsp) (fun _ h => by cases h), ⟨hl, by assumption⟩, hb6.mono (by omega)⟩)
      show false = (false || (!c.isNull && false && true))
      cases c.isNull <;> rfl
    · rename_i hk6
      have hk6 : t6.kind = .question := by simpa using hk6
      refine .consume h6 ht6 (fun s7 h7 _ _ => ?_) (fun _ => by frame)
      refine .call (hR.expr _ _ _ h7) (fun _ => by frame) fun e s9 r9 B9 h9 ⟨hb9, hg9⟩ => ?_
      refine .need h9 (fun s10 he h10 => ?_) (fun _ => by frame)
      rcases hg9 with ⟨rfl, -⟩ | ⟨-, hg9⟩
      · cases he
      quiet
      rw [hk6] at ht6
      refine .pure (by assumption) (.inr ⟨rfl, ⟨?_, ?_⟩, ?_, ⟨hl, by assumption⟩, ((hb6.trans (BufN.cons _ _)).trans hb9).mono (by omega)⟩)
      · rw [syn_formalOr he]; exact isPart_eq _
      · rw [syn_formalOr he]
        show false = (false || (!c.isNull && false && true))
        cases c.isNull <;> rfl
      · exact hcm (.formalOr ht3 ht6 hg9 he rfl hsp) (fun _ h => by rw [syn_formalOr he] at h; cases h)
  · rename_i hk1
    split
    · rename_i hk
      refine .consume h3 ht3 (fun s4 h4 _ _ => ?_) (fun _ => by unfold mkMisc; frame)
      rw [hk] at ht3
      refine .misc h4 fun hm s5 h5 => ?_
      quiet
      refine .pure (by assumption) (.inr ⟨rfl, ⟨isPart_eq _, ?_⟩, hcm (.ellipsis ht3 rfl rfl) (fun _ h => by cases h), ⟨hl, by assumption⟩, (hb3.trans (BufN.cons _ _)).mono (by omega)⟩)
      show true = (true || _)
      rfl
    · split
      · rename_i hk2 hcn
        rcases hc with ⟨⟨rfl, rfl, hx⟩, -⟩ | ⟨⟨hn, -⟩, -⟩
        · refine .pure h3 (.inl ⟨rfl, rfl, hb3, _, _, _, ht3, ?_⟩)
          cases hkk : t3.kind <;> first | rfl | (exfalso; simp_all; done) | (rw [hkk] at ht3; exact absurd ht3 (hx _ _))
        · rw [hcn] at hn; cases hn
      · rename_i hcn
        quiet
        refine .pure (by assumption) (.inr ⟨rfl, ⟨?_, ?_⟩, ?_, ⟨hl, by assumption⟩, hb3⟩)
        · show true = !c.isNull
          simpa using hcn
        · show true = (false || (!c.isNull && true && true))
          have : c.isNull = false := by simpa using hcn
          rw [this]; rfl
        · exact hcm .lone (fun h => absurd h hcn)

theorem formalsLoop_sound (j : Nat) : ∀ {src : Option Bytes} {s : PState} {r : Bytes} {B : List Token}, Hr src s r B →
    Snd src (formalsLoop R k j) s fun a r' B' => (∀ f ∈ a, FShape f) ∧ GN src .members r a r' ∧ BufN 0 B B' := by
  have hfr := hR.fr
  have f1 := parseFormal_fr hfr
  have f2 := formalsLoop_fr hfr k
  induction j with
  | zero => intro src s r B _ a s' h; cases h
  | succ j ih =>
    intro src s r B hs
    unfold formalsLoop
    refine .peek hs (fun t s1 r1 ts ht h1 hb => ?_) (fun _ => by frame)
    split
    · exact .pure h1 ⟨fun _ h => (nomatch h), .noMember, hb⟩
    · refine .call (parseFormal_sound hR h1) (fun _ => by frame) fun n s4 r4 B4 h4 hn => ?_
      split
      · rename_i hnn
        rcases hn with ⟨rfl, rfl, hb4, -⟩ | ⟨hx, -⟩
        swap
        · rw [hnn] at hx; cases hx
        refine .remove h4 (fun s6 t r6 ts ht h6 hb6 => ?_) (fun _ => by frame)
        exact .pure h6 ⟨fun _ h => (nomatch h), .noMember, (hb.trans (hb4.trans hb6)).mono (by omega)⟩
      · rename_i hnn
        rcases hn with ⟨rfl, -⟩ | ⟨-, hsh, hg, hsp, hbn⟩
        · exact absurd rfl hnn
        refine .call (ih h4) (fun _ => by frame) fun a s5 r5 B5 h5 ⟨hs5, hg5, hb5⟩ => ?_
        refine .pure h5 ⟨fun f hf => ?_, .members hg hsp hg5, (hb.trans (hbn.trans hb5)).mono (by omega)⟩
        rcases List.mem_cons.mp hf with rfl | hf
        · exact hsh
        · exact hs5 f hf

omit hR in
theorem onFormals_sound {x : CRange} {ms : List Node} {src : Option Bytes} {s : PState} {r : Bytes} {B : List Token} (hs : Hr src s r B) :
    Snd src (sema fun text => onFormals text x ms) s fun a r' B' => r' = r ∧ B' = B ∧ MembersOk ms ∧ ∃ h, a = .formals h ms ∧ h.range = x := by
  intro a s' e hc
  unfold sema at e
  simp only [Option.some.injEq, Prod.mk.injEq] at e
  obtain ⟨rfl, rfl⟩ := e
  obtain ⟨t, h1, h2⟩ := onFormals_errors s.lex.src x ms ⟨s.next, s.lex.diags, s.bad⟩
  refine ⟨r, B, hs.same ⟨rfl, rfl, rfl, rfl, rfl, rfl, rfl⟩, rfl, rfl, h2.mp fun d hd => ?_, ?_⟩
  · refine hc d ?_
    show d ∈ (onFormals s.lex.src x ms ⟨s.next, s.lex.diags, s.bad⟩).2.diags
    rw [h1]; exact List.mem_append_right _ hd
  · unfold onFormals; exact ⟨_, rfl, rfl⟩

theorem parseFormals_sound {src : Option Bytes} {s : PState} {r : Bytes} {B : List Token} (hs : Hr src s r B) :
    Snd src (parseFormals R k) s fun a r' B' => (∃ h ms, a = .formals h ms ∧ (∃ v r1, Tok r .l_curly v r1) ∧ GN src .formals r ms r' ∧ Spans src h.range r r') ∧ BufN 2 B B' := by
  have hfr := hR.fr
  have f2 := formalsLoop_fr hfr k
  unfold parseFormals
  refine .expect hs (fun t s1 r1 ts hk ht h1 hb => ?_) (fun _ => by frame)
  have hsp := (h1.front ht).1
  refine .consume h1 ht (fun s2 h2 _ _ => ?_) (fun _ => by frame)
  refine .sync h2 fun s4 h4 => .sync h4 fun s5 h5 => .sync h5 fun s6 h6 => .sync h6 fun s7 h7 => ?_
  refine .call (formalsLoop_sound hR k k h7) (fun _ => by frame) fun ms s9 r9 B9 h9 ⟨hm, hg9, hb9⟩ => ?_
  refine .expectOr h9 (fun t2 s11 r11 ts11 hk2 ht2 h11 hb11 _ => ?_) (fun _ => by frame)
  quiet
  rename_i h12
  refine (onFormals_sound h12).imp fun a r' B' ⟨e1, e2, hok, h, ha, hrange⟩ => ?_
  subst e1 e2 ha
  rw [hk] at ht
  exact ⟨⟨h, ms, rfl, ⟨_, _, ht⟩, .formals ht hg9 ht2 ((membersOk_iff hm).mp hok), by rw [hrange]; exact ⟨hsp, by assumption⟩⟩,
    (hb.trans ((BufN.cons _ _).trans (hb9.trans hb11))).mono (by omega)⟩

omit hR in
theorem onLambdaArg_sound {x : CRange} {i f : Node} {src : Option Bytes} {s : PState} {r : Bytes} {B : List Token} (hs : Hr src s r B) :
    Snd src (sema fun _ => onLambdaArg x i f) s fun a r' B' => r' = r ∧ B' = B ∧ ∃ h, a = .lambdaArg h i f := by
  intro a s' e hc
  have hq := (sema_mute (fun _ _ => onLambdaArg_mild) _ _ _ e).1
  unfold sema at e
  simp only [Option.some.injEq, Prod.mk.injEq] at e
  obtain ⟨rfl, -⟩ := e
  refine ⟨r, B, hs.same hq, rfl, rfl, ?_⟩
  unfold onLambdaArg; exact ⟨_, rfl⟩

omit hR in
/-- The first member after a brace has a comma in front of it only if the text begins with one. -/
theorem head_comma {r r' : Bytes} {fs : List Syn} (h : G .formals r fs r') (hr : ∀ v r1, Tok r .l_curly v r1 → ∀ v2 r2, ¬ Tok r1 .comma v2 r2) :
    ∀ f ∈ fs.head?, hasComma f = false := by
  cases h with
  | formals h1 h2 _ _ =>
    cases h2 with
    | noMember => intro f hf; cases hf
    | members h2 =>
      intro f hf
      rw [List.head?_cons, Option.mem_def, Option.some.injEq] at hf
      subst hf
      cases h2 with
      | plain h2 hne => cases h2 <;> first | rfl | exact absurd rfl hne
      | comma h2 => exact absurd h2 (hr _ _ h1 _ _)

omit hR in
theorem head_syn {l : List Node} {P : Syn → Prop} (h : ∀ f ∈ (synL l).head?, P f) : ∀ f ∈ l.head?, P (syn f) := by
  cases l with
  | nil => intro f hf; cases hf
  | cons a l =>
    intro f hf
    have : f = a := by simpa using hf.symm
    rw [this]; exact h _ rfl

theorem parseLambdaArg_sound {src : Option Bytes} {s : PState} {r : Bytes} {B : List Token} (hs : Hr src s r B)
    (hr : ∀ v r1, Tok r .l_curly v r1 → ∀ v2 r2, ¬ Tok r1 .comma v2 r2) :
    Snd src (parseLambdaArg R k) s fun a r' B' => ∃ k v r1, Tok r k v r1 ∧ a.isNull = false ∧ GN src .arg r [a] r' ∧ BufN (if k = .id_ then 1 else 2) B B' := by
  have hfr := hR.fr
  have f2 := parseFormals_fr hfr k
  have f3 := @onLambdaArg_fr
  unfold parseLambdaArg
  refine .lcur hs (fun l s0 r0 t0 ts0 hl ht0 h0 hb0 => ?_) (fun _ => by unfold noteMatch; frame)
  refine .peek h0 (fun t s1 r1 ts ht h1 hb => ?_) (fun _ => by unfold noteMatch; frame)
  have hb := hb0.trans0 hb
  have htok := ht
  have hsp := h1.front ht
  split
  · rename_i hk
    refine .consume h1 ht (fun s2 h2 _ _ => ?_) (fun _ => by frame)
    quiet
    rename_i h2'
    refine .peek h2' (fun t3 s3 r3 ts3 ht3 h3 hb3 => ?_) (fun _ => by frame)
    rw [hk] at ht
    split
    · quiet
      rename_i h4
      refine (onLambdaArg_sound h4).imp fun a r' B' ⟨e1, e2, h, ha⟩ => ?_
      subst e1 e2 ha
      refine ⟨_, _, _, htok, rfl, .argName ht hsp, ?_⟩
      rw [if_pos hk]
      exact (hb.trans ((BufN.cons _ _).trans hb3)).mono (by omega)
    · rename_i hk3
      have hk3 : t3.kind = .at_ := by simpa using hk3
      refine .consume h3 ht3 (fun s4 h4 _ _ => ?_) (fun _ => by frame)
      refine .call (parseFormals_sound hR k h4) (fun _ => by frame) fun fs s5 r5 B5 h5 ⟨⟨h, ms, ha, _, hg, hspf⟩, hb5⟩ => ?_
      subst ha
      refine .quiet h5 (Mute.quiet (.when fun h => by cases h)) fun _ s6 h6 => ?_
      quiet
      rename_i h7
      rw [hk3] at ht3
      refine (onLambdaArg_sound h7).imp fun a r' B' ⟨e1, e2, h, ha⟩ => ?_
      subst e1 e2 ha
      refine ⟨_, _, _, htok, rfl, .argAt ht ht3 hg hsp hspf, ?_⟩
      rw [if_pos hk]
      exact (hb.trans ((BufN.cons _ _).trans (hb3.trans ((BufN.cons _ _).trans hb5)))).mono (by omega)
  · rename_i hk
    refine .call (parseFormals_sound hR k h1) (fun _ => by unfold noteMatch; frame) fun fs s5 r5 B5 h5 ⟨⟨h, ms, ha, _, hg, hspf⟩, hb5⟩ => ?_
    subst ha
    rw [if_neg (show ¬ (Node.formals h ms).isNull = true by simp [Node.isNull])]
    refine .peek h5 (fun t3 s3 r3 ts3 ht3 h3 hb3 => ?_) (fun _ => by unfold noteMatch; frame)
    split
    · quiet
      rename_i h4
      refine (onLambdaArg_sound h4).imp fun a r' B' ⟨e1, e2, h, ha⟩ => ?_
      subst e1 e2 ha
      refine ⟨_, _, _, htok, rfl, .argSet hg (head_syn (head_comma hg.toG hr)) hspf, ?_⟩
      rw [if_neg hk]
      exact (hb.trans (hb5.trans hb3)).mono (by omega)
    · rename_i hk3
      have hk3 : t3.kind = .at_ := by simpa using hk3
      refine .consume h3 ht3 (fun s4 h4 _ _ => ?_) (fun _ => by unfold noteMatch; frame)
      refine .expect h4 (fun t5 s5 r5 ts5 hk5 ht5 h5 hb5' => ?_) (fun _ => by unfold noteMatch; frame)
      have hsp5 := h5.front ht5
      refine .consume h5 ht5 (fun s6 h6 _ _ => ?_) (fun _ => by frame)
      quiet
      rename_i h7
      rw [hk3] at ht3
      rw [hk5] at ht5
      refine (onLambdaArg_sound h7).imp fun a r' B' ⟨e1, e2, h, ha⟩ => ?_
      subst e1 e2 ha
      refine ⟨_, _, _, htok, rfl, .atArg hg (head_syn (head_comma hg.toG hr)) ht3 ht5 hsp5 hspf, ?_⟩
      rw [if_neg hk]
      exact (hb.trans (hb5.trans (hb3.trans ((BufN.cons _ _).trans (hb5'.trans (.cons _ _)))))).mono (by omega)

theorem parseExprLambda_sound {src : Option Bytes} {s : PState} {r : Bytes} {B : List Token} (hs : Hr src s r B)
    (hr : ∀ v r1, Tok r .l_curly v r1 → ∀ v2 r2, ¬ Tok r1 .comma v2 r2) :
    Snd src (parseExprLambda R k) s fun a r' B' => ∃ k v r1, Tok r k v r1 ∧ a.isNull = false ∧ GN src .expr r [a] r' ∧ BufN (if k = .id_ then 2 else 3) B B' := by
  have hfr := hR.fr
  have f2 := parseLambdaArg_fr hfr k
  unfold parseExprLambda
  refine .lcur hs (fun l s0 r0 t0 ts0 hl ht0 h0 hb0 => ?_) (fun _ => by frame)
  refine .call (parseLambdaArg_sound hR k h0 hr) (fun _ => by frame) fun arg s1 r1 B1 h1 ⟨k1, v1, q1, ht1, hn, hg, hb⟩ => ?_
  quiet
  rename_i h1'
  rw [if_neg (by rw [hn]; simp)]
  refine .expectMay h1' (fun v s2 r2 ts ht2 h2 hb2 => ?_) (fun _ => by frame)
  refine .call (hR.expr _ _ _ h2) (fun _ => by frame) fun e s9 r9 B9 h9 ⟨hb9, hg9⟩ => ?_
  refine .need h9 (fun s10 he h10 => ?_) (fun _ => by frame)
  rcases hg9 with ⟨rfl, -⟩ | ⟨-, hg9⟩
  · cases he
  quiet
  refine .pure (by assumption) ⟨_, _, _, ht1, rfl, .lambda hg ht2 hg9 ⟨hl, by assumption⟩, (hb0.trans (hb.trans (hb2.trans hb9))).mono ?_⟩
  split <;> omega

end

end Verif.Nixf.Syntax
