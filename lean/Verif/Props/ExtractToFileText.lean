import Verif.Props.WithToLetText
import Verif.Props.ExtractToFile
/-
C40: the new file and the document after the extraction of an expression, for documents without syntax errors.
-/
namespace Verif.Props
open Verif.Nixf Verif.Nixf.Syntax Node Lexical

variable {src : Bytes} {root n e : Node} {s : PState}

/-! ### The new file -/

/-- The formals of the new file. -/
def formalsOf : List Bytes → List Syn
  | [] => []
  | x :: xs => .formal false x :: xs.map (.formal true)

/-- An identifier. -/
def Ident (x : Bytes) : Prop := ∃ c w, x = c :: w ∧ (c ∈ letters ∨ c = 95) ∧ (∀ y ∈ w, y ∈ identChars) ∧ ∀ p ∈ reserved, x ≠ p.1

theorem Ident.word {x : Bytes} (h : Ident x) : Word x := by
  obtain ⟨c, w, h1, h2, h3, h4⟩ := h
  exact ⟨c, w, h1, h2, h3, .inl h4⟩

theorem tok_ident {x y : Bytes} (h : Ident x) (hy : Ends y) : Tok (x ++ y) .id_ x y := by
  obtain ⟨c, w, rfl, h1, h2, h3⟩ := h
  have := tok_word h1 h2 hy.1 hy.2
  have hk : wordKind (c :: w) = .id_ := by
    unfold wordKind
    cases hl : reserved.lookup (c :: w) with
    | none => rfl
    | some k =>
      obtain ⟨p, hp, hpe, rfl⟩ := lookup_mem hl
      exact absurd hpe.symm (h3 p hp)
  rwa [hk] at this

theorem tok_colon (r : Bytes) : Tok (58 :: r) .colon b!":" r :=
  tok_op (n := 1) (by decide) (no_path (k := []) (rest := 58 :: r) (by simp) (fun x hx => by simp at hx; subst hx; decide)) rfl (by decide) rfl rfl (by simp)

theorem ends_comma (r : Bytes) : Ends (44 :: r) := ⟨fresh_cons (by decide), by simp⟩

/-- The other formals of the list. -/
theorem g_formals {xs : List Bytes} (h : ∀ x ∈ xs, Ident x) (y : Bytes) :
    G .members ((xs.flatMap fun x => b!", " ++ x) ++ 32 :: y) (xs.map (.formal true)) (32 :: y) := by
  induction xs with
  | nil => exact .noMember
  | cons x l ih =>
    have i := ih fun x hx => h x (by simp [hx])
    have e : ((x :: l).flatMap fun x => b!", " ++ x) ++ 32 :: y = 44 :: ([32] ++ (x ++ ((l.flatMap fun x => b!", " ++ x) ++ 32 :: y))) := by simp
    rw [e]
    refine .members (r1 := (l.flatMap fun x => b!", " ++ x) ++ 32 :: y) (.comma (tok_comma _) (.formal (.ws (g := [32]) (by decide) (tok_ident (h x (by simp)) ?_)))) i
    cases l with
    | nil => exact ends_space _
    | cons _ _ => exact ends_comma _

/-- The new file has no syntax errors. It is the expression, or a function with these formals that gives it. -/
theorem C40_content {names : List Bytes} (h : parse src = some (root, s)) (hc : NoErrors s) (ho : odd (syn root) = false) (hp : Part root e)
    (hx : e.isExpr = true) (hn : ∀ x ∈ names, Ident x) :
    ReadAs (extractedContent (e.src src) names) (if names = [] then syn e else .lambda (.argSet (formalsOf names)) (syn e)) := by
  have ge : G .expr (e.src src ++ [10]) [syn e] [10] :=
    (expr_onto h hc ho hp hx (Edge.stop fun d hd => by simp at hd; subst hd; exact ⟨by decide, fun h => absurd h (by decide)⟩)).1
  have te : Tok [10] .eof [] [] := .ws (g := [10]) (by decide) tok_eof
  cases names with
  | nil => exact readAs_of ⟨[10], [], ge, te⟩
  | cons x xs =>
    refine readAs_of ⟨[10], [], ?_, te⟩
    have hj : joined b!", " (x :: xs) = x ++ xs.flatMap fun y => b!", " ++ y := by
      have : ∀ (x : Bytes) (xs : List Bytes), joined b!", " (x :: xs) = x ++ xs.flatMap fun y => b!", " ++ y := by
        intro x xs
        induction xs generalizing x with
        | nil => simp [joined]
        | cons y ys ih => rw [joined, ih]; simp; simp
      exact this x xs
    have et : extractedContent (e.src src) (x :: xs) =
        123 :: ([32] ++ (x ++ ((xs.flatMap fun y => b!", " ++ y) ++ (32 :: (125 :: (58 :: ([10] ++ (e.src src ++ [10])))))))) := by
      rw [extractedContent, hj]; simp
    rw [et]
    have hl : ∀ y, Leads [10] y := fun y => leads y (x := b!";") (by decide) (by unfold CleanSkip; decide +kernel) (by decide +kernel)
    refine .lambda (.argSet (.formals (tok_lcurly _) ?_ (.ws (g := [32]) (by decide) (tok_rcurly _)) ?_) ?_) (tok_colon _) (G.lead (hl _) ge rfl)
    · refine .members (.plain (.formal (.ws (g := [32]) (by decide) (tok_ident (hn x (by simp)) ?_))) (by simp)) (g_formals (fun y hy => hn y (by simp [hy])) _)
      cases xs with
      | nil => exact ends_space _
      | cons _ _ => exact ends_comma _
    · refine ⟨?_, ?_⟩
      · intro f hf
        simp only [formalsOf, List.tail_cons, List.mem_map] at hf
        obtain ⟨y, -, rfl⟩ := hf
        rfl
      · intro f hf
        have := List.dropLast_subset _ hf
        simp only [formalsOf, List.mem_cons, List.mem_map] at this
        rcases this with rfl | ⟨y, -, rfl⟩ <;> rfl
    · intro f hf
      simp [formalsOf] at hf
      subst hf; rfl

/-! ### The document -/

theorem safe_facts : ∀ c : UInt8, isAlnum c = true ∨ c = 45 ∨ c = 95 → isFrag c = true ∧ c ∈ pathChars := by
  apply forall_byte; decide +kernel

/-- The path of a file in the same directory. -/
theorem g_file {stem y : Bytes} (hs : ∀ c ∈ stem, SafeChar c) (hy : y = [] ∨ ∃ z, y = 32 :: z) :
    G .simple (b!"./" ++ (stem ++ b!".nix") ++ y) [.path ((b!"./" ++ (stem ++ b!".nix")).map .ch)] y := by
  generalize hr : b!"./" ++ (stem ++ b!".nix") ++ y = r
  have hn : NoTrivia r := by rw [← hr]; exact noTrivia_of_head (by decide) (by decide) (by decide)
  have hk : (lex (.init r)).1.kind = .path_fragment := by
    refine (C15_path_or_uri (.init r) [] r rfl (.nil _) hn).1 ⟨b!".", stem ++ b!".nix" ++ y, by rw [← hr]; simp, .inr (by decide), .inl ?_⟩
    cases stem with
    | nil => exact ⟨46, by simp, by decide⟩
    | cons c w => exact ⟨c, by simp, (safe_facts c (hs c (by simp))).2⟩
  have hskip : Syntax.skip r = r := by unfold Syntax.skip; rw [consumeTrivia_id hn]; rfl
  refine .pathLit (tok_of_lex hn (by decide) ⟨hk, rfl, rfl⟩) ?_
  rw [hskip]
  have hfrag : ∀ c ∈ b!"./" ++ (stem ++ b!".nix"), isFrag c = true := by
    intro c hc
    simp only [List.mem_append] at hc
    rcases hc with hc | hc | hc
    · revert c; decide
    · exact (safe_facts c (hs c hc)).1
    · revert c; decide
  have h1 : TokP r .path_fragment (b!"./" ++ (stem ++ b!".nix")) y := by
    refine tokP_pure.mpr ⟨?_, hr.symm⟩
    rw [← hr]
    show ptokR (46 :: (47 :: (stem ++ b!".nix") ++ y)) = _
    unfold ptokR
    dsimp only
    rw [if_neg (by simp [List.isPrefixOf]), if_neg (by simp [List.isPrefixOf]), if_pos (by decide)]
    congr 1
    show (b!"./" ++ (stem ++ b!".nix") ++ y).dropWhile isFrag = y
    rw [List.dropWhile_append_of_pos hfrag]
    rcases hy with rfl | ⟨z, rfl⟩
    · rfl
    · rw [List.dropWhile_cons, if_neg (by decide)]
  have h2 : TokP y .path_end [] y := by
    refine tokP_pure.mpr ⟨?_, rfl⟩
    rcases hy with rfl | ⟨z, rfl⟩
    · rfl
    · unfold ptokR
      dsimp only
      rw [if_neg (by simp [List.isPrefixOf]), if_neg (by simp [List.isPrefixOf]), if_neg (by decide)]
  exact .pend h1 h2

/-- What takes the place of the expression: the function `import`, applied to the file, and to a set of the names, if there are any. -/
def importSyn (file : Bytes) (names : List Bytes) : Syn :=
  .call (.var b!"import") (.path ((b!"./" ++ file).map .ch) :: if names = [] then [] else [.set false [.inherit (names.map .name)]])

theorem dollar_chars {l : Bytes} (h : 36 ∉ l) : dollarIn (l.map .ch) = false := by
  induction l with
  | nil => rfl
  | cons c l ih =>
    simp only [List.mem_cons, not_or] at h
    simp only [List.map_cons, dollarIn, ih h.2, Bool.or_false]
    simpa using Ne.symm h.1

/-- The statement is read as that. -/
theorem import_text {stem : Bytes} {names : List Bytes} (hs : ∀ c ∈ stem, SafeChar c) (hn : ∀ x ∈ names, Word x) :
    Text .expr (importStatement (stem ++ b!".nix") names) (importSyn (stem ++ b!".nix") names) := by
  have ti : ∀ y, Tok (b!"import" ++ 32 :: y) .id_ b!"import" (32 :: y) := fun y =>
    tok_ident ⟨105, b!"mport", rfl, .inl (by decide), by decide, by decide⟩ (ends_space y)
  have hnames : oddL (names.map Syn.name) = false := by
    induction names with
    | nil => rfl
    | cons x l ih => simp only [List.map_cons, oddL, Bool.or_eq_false_iff]; exact ⟨rfl, ih fun x hx => hn x (by simp [hx])⟩
  constructor
  · cases hl : names with
    | nil =>
      have et : importStatement (stem ++ b!".nix") [] = b!"import" ++ ([32] ++ (b!"./" ++ (stem ++ b!".nix") ++ [])) := by simp [importStatement]
      rw [et]
      exact .op (.opr (.app (.call (.simple (.var (ti _))) rfl (.lastArg (G.lead (one_space _) (.simple (g_file hs (.inl rfl))) rfl)))) .stop)
    | cons x xs =>
      have et : importStatement (stem ++ b!".nix") (x :: xs) = b!"import" ++ ([32] ++ (b!"./" ++ (stem ++ b!".nix") ++ ([32] ++ (123 :: ([32] ++ (b!"inherit" ++
          (((x :: xs).flatMap fun x => b!" " ++ x) ++ 59 :: ([32] ++ (125 :: []))))))))) := by simp [importStatement]
      rw [et]
      have gs : G .simple (123 :: ([32] ++ (b!"inherit" ++ (((x :: xs).flatMap fun x => b!" " ++ x) ++ 59 :: ([32] ++ (125 :: []))))))
          [.set false [.inherit ((x :: xs).map .name)]] [] := by
        refine .set (tok_lcurly _) ?_ (.ws (g := [32]) (by decide) (tok_rcurly _))
        refine G.lead_binds (one_space _) (.inherit (tok_inherit ?_) (g_words (by rw [← hl]; exact hn) _) (tok_semi _) .noBind)
        exact ends_space _
      have hne : ¬ (x :: xs) = [] := by simp
      unfold importSyn
      rw [if_neg hne]
      refine .op (.opr (.app (.call (.simple (.var (ti _))) rfl (.moreArgs (G.lead (one_space _) (.simple (g_file hs (.inr ⟨_, rfl⟩))) rfl) (.lastArg ?_)))) .stop)
      exact G.lead (one_space _) (.simple gs) rfl
  · have h1 := oddL_chars (b!"./" ++ (stem ++ b!".nix"))
    have h2 : dollarIn ((b!"./" ++ (stem ++ b!".nix")).map .ch) = false := by
      refine dollar_chars fun hc => ?_
      simp only [List.mem_append] at hc
      rcases hc with hc | hc | hc
      · revert hc; decide
      · exact absurd (hs _ hc) (by unfold SafeChar; decide)
      · revert hc; decide
    unfold importSyn
    split <;> simp only [odd, oddL, h1, h2, hnames, Bool.or_false]

/-- C40. If a function, conditional, assertion, `with` or `let` is extracted, then the new document has no syntax errors, and it is the old one
with the `import` in place of the expression. The text around the expression has to fit. -/
theorem C40_statement {stem : Bytes} {names : List Bytes} (h : parse src = some (root, s)) (hc : NoErrors s) (ho : odd (syn root) = false)
    (hr : Reach root e) (he : isOpen e = true) (hs : ∀ c ∈ stem, SafeChar c) (hn : ∀ x ∈ names, Word x)
    (hf : Fitting src e.range (importStatement (stem ++ b!".nix") names)) :
    ∃ t2, ReadAs (spliced src e.range (importStatement (stem ++ b!".nix") names)) t2 ∧ Swap (syn e) (importSyn (stem ++ b!".nix") names) (syn root) t2 :=
  C73_statement h hc ho (part_open h hr he) he (import_text hs hn) hf

/-- The value of a binding may be replaced by any expression. -/
theorem C73_value {hd : Hd} {p eq : Node} {w : Bytes} {t : Syn} (h : parse src = some (root, s)) (hc : NoErrors s) (ho : odd (syn root) = false)
    (hr : Reach root (.binding hd p eq e)) (hw : Text .expr w t) (hf : Fitting src e.range w) :
    ∃ ns t2, ReadAs (spliced src e.range w) t2 ∧ syn (.binding hd p eq e) = .binding ns (syn e) ∧
      Swap (.binding ns (syn e)) (.binding ns t) (syn root) t2 := by
  have hpm := part_of h hr (.inr rfl)
  obtain ⟨K, r0, gn, hK, e0, e00, -, e1, -, go, H⟩ := document_at h hc hpm rfl
  have := gn.isBind_of hK rfl
  subst this
  have go := go ho
  generalize hR : src.drop (Node.binding hd p eq e).rCur.offset = R at gn e1 H
  have hsrc := (List.take_append_drop (Node.binding hd p eq e).lCur.offset src).symm
  generalize src.take (Node.binding hd p eq e).lCur.offset = P at H hsrc
  rw [e0] at H hsrc
  cases gn with
  | @binding _ ns r1 v1 r2 _ r3 v2 r4 _ _ _ hp ds _ gp te gv ts sp sb gr =>
  cases gr
  have go : odd (.binding (synL ns) (syn e)) = false := go
  simp only [odd, Bool.or_eq_false_iff] at go
  -- the place of the value
  have hv0 := gv.skip_ne (.inl rfl)
  have pl := gv.place rfl
  obtain ⟨k0, x0, z0, t0, hk0⟩ := gv.toG.first rfl
  obtain ⟨-, q, eq2, -⟩ := t0.leads hk0 []
  have hl : ∀ z, Leads q z := fun z => by
    obtain ⟨-, q', h1, h2⟩ := t0.leads hk0 z
    have : q' = q := List.append_cancel_right (h1.symm.trans eq2)
    rw [← this]; exact h2
  have hx : src.drop e.range.l.offset = Syntax.skip r2 := pl.1 src rfl
  have hy : src.drop e.range.r.offset = r3 := pl.2 src rfl
  -- the text in front of it
  have te0 := te.text
  obtain ⟨-, q1, eq1, -⟩ := te.leads (by decide) []
  rw [te0] at eq1
  have gp' : G .path (Syntax.skip r0) (synL ns) r1 := gp.toG.unlead rfl
  obtain ⟨u, hu⟩ := gp'.suf
  generalize Syntax.skip r2 = x at hv0 eq2 hx
  subst eq2
  have er1 : r1 = (q1 ++ (v1 ++ q)) ++ x := by rw [eq1]; simp
  have hsk : Syntax.skip r0 = (u ++ (q1 ++ (v1 ++ q))) ++ x := by rw [← hu, er1]; simp
  obtain ⟨f1, f2⟩ := hf
  rw [hx, hy] at f1
  rw [hy] at f2
  have htake : src.take e.range.l.offset = P ++ (u ++ (q1 ++ (v1 ++ q))) :=
    take_of (by rw [hsrc, hsk]; simp) hx hv0
  rw [htake] at f1
  obtain ⟨t2, a1, a2⟩ := H (u ++ (q1 ++ (v1 ++ q))) x (w ++ r3) (.binding (synL ns) t) ho hsk f1 (by
    have f3 := f1.suffix (List.suffix_append P _)
    have g1 : G .path ((u ++ (q1 ++ (v1 ++ q))) ++ (w ++ r3)) (synL ns) ((q1 ++ (v1 ++ q)) ++ (w ++ r3)) := by
      refine G.rest (x := x) (P := u ++ (q1 ++ (v1 ++ q))) (p := q1 ++ (v1 ++ q)) (nt := .path) f3 ?_ go.1 (by simp) (by simp)
      rw [← hsk, ← er1]; exact gp'
    have g2 : Tok ((q1 ++ (v1 ++ q)) ++ (w ++ r3)) .eq v1 (q ++ (w ++ r3)) := by
      refine Tok.edge (x := x) (f3.suffix (List.suffix_append u _)) ?_ (by decide) (by simp)
      rw [← er1]; exact te
    exact .binding g1 g2 (G.lead (hl _) (G.after hw (by simp) (by simp) f2) rfl) ts .noBind)
    (by rintro (h | h) <;> cases h)
  refine ⟨synL ns, t2, readAs_of ?_, rfl, a2⟩
  unfold spliced
  rw [htake, hy]
  have : P ++ (u ++ (q1 ++ (v1 ++ q))) ++ w ++ r3 = P ++ ((u ++ (q1 ++ (v1 ++ q))) ++ (w ++ r3)) := by simp
  rw [this]
  exact a1

/-- C40. The same for the value of a binding, whatever expression it is. -/
theorem C40_value {hd : Hd} {p eq : Node} {stem : Bytes} {names : List Bytes} (h : parse src = some (root, s)) (hc : NoErrors s) (ho : odd (syn root) = false)
    (hr : Reach root (.binding hd p eq e)) (hs : ∀ c ∈ stem, SafeChar c) (hn : ∀ x ∈ names, Word x)
    (hf : Fitting src e.range (importStatement (stem ++ b!".nix") names)) :
    ∃ ns t2, ReadAs (spliced src e.range (importStatement (stem ++ b!".nix") names)) t2 ∧ syn (.binding hd p eq e) = .binding ns (syn e) ∧
      Swap (.binding ns (syn e)) (.binding ns (importSyn (stem ++ b!".nix") names)) (syn root) t2 :=
  C73_value h hc ho hr (import_text hs hn) hf

/-- The names that are passed are identifiers. -/
theorem C40_identifiers {vl : VL} (h : parse src = some (root, s)) (hc : NoErrors s) (hr : Reach root e) : ∀ x ∈ (freeVariables vl e).1, Ident x := by
  intro x hx
  unfold freeVariables at hx
  rcases (mem_collectFree vl e x _ e _ le_rfl).mp hx with hx | ⟨v, h1, h2, rfl⟩
  · cases hx
  have hv := hr.trans h1
  obtain ⟨hd, i, rfl⟩ : ∃ hd i, v = .exprVar hd i := by
    have := h2.1
    cases v <;> first | exact ⟨_, _, rfl⟩ | cases this
  obtain ⟨hi, x, rfl⟩ := at_fits h hv
  have hp : Part root (.exprVar hd (.identifier hi x)) := by
    rcases C72_parts h hv rfl with h1 | ⟨q, -, -, h1⟩
    · exact h1
    · rcases h1 with ⟨⟨_, _, h⟩, -⟩ | ⟨⟨_, _, _, _, _, h⟩, -⟩ <;> cases h
  obtain ⟨K, r0, gn, hK, -⟩ := document_at h hc hp rfl
  have := (gn.ofSimple rfl rfl).1 (gn.isExpr_of hK rfl)
  cases this with
  | var t =>
    obtain ⟨c, w, rfl, a1, a2, a3⟩ := word_of t (.inl rfl)
    refine ⟨c, w, rfl, a1, a2, ?_⟩
    intro p hp e
    have e : c :: w = p.1 := e
    rw [e] at a3
    have : ∀ p ∈ reserved, wordKind p.1 ≠ .id_ := by decide
    exact this p hp a3

/-- C40. What the action does. The new file has no syntax errors, and is the expression or a function with it as its body. The new document has no
syntax errors and is the old one with the `import` in place of the expression, if this is a function, conditional, assertion, `with` or `let`,
or the value of a binding, and if the text around it fits. -/
theorem C40_action {exists_ : Bytes → Bool} {vl : VL} {fuel : Nat} {l : List Extraction} {a : Extraction} (h : parse src = some (root, s)) (hc : NoErrors s)
    (ho : odd (syn root) = false) (ha : addExtractToFileAction exists_ src (runPM root) vl fuel n = some l) (hm : a ∈ l) :
    ∃ e names, findExtractable (runPM root) n = some e ∧ names = (freeVariables vl e).1 ∧ names.Nodup ∧ a.range = e.range ∧
      (Part root e → Reach root e → ReadAs a.content (if names = [] then syn e else .lambda (.argSet (formalsOf names)) (syn e))) ∧
      (Reach root e → isOpen e = true → Fitting src a.range a.newText →
        ∃ t2, ReadAs (spliced src a.range a.newText) t2 ∧ Swap (syn e) (importSyn a.file names) (syn root) t2) ∧
      ∀ hd p eq, Reach root (.binding hd p eq e) → Fitting src a.range a.newText →
        ∃ ns t2, ReadAs (spliced src a.range a.newText) t2 ∧ syn (.binding hd p eq e) = .binding ns (syn e) ∧
          Swap (.binding ns (syn e)) (.binding ns (importSyn a.file names)) (syn root) t2 := by
  obtain ⟨stem, hfile, hs⟩ := C40_file ha hm
  unfold addExtractToFileAction at ha
  split at ha
  · cases ha; cases hm
  · rename_i e he
    split at ha
    · cases ha; cases hm
    · dsimp only at ha
      split at ha
      · cases ha
      · rename_i base _
        cases ha
        cases List.mem_singleton.mp hm
        have hex : isExtractable e = true → e.isExpr = true := fun h => by cases e <;> first | rfl | cases h
        have hext : isExtractable e = true := by
          unfold findExtractable at he
          split at he
          · rename_i h; cases he; exact h
          · split at he
            · split at he
              · split at he
                · split at he
                  · rename_i h; cases he; exact h
                  · cases he
                · cases he
              · cases he
            · cases he
        dsimp only at hfile
        refine ⟨e, _, he, rfl, sorted_nodup (collectFree_sorted _ _ _ _ _ .nil), rfl, fun hp hr => ?_, fun hr ho' hf => ?_, fun hd p eq hr hf => ?_⟩
        · exact C40_content h hc ho hp (hex hext) (C40_identifiers h hc hr)
        · dsimp only at hf ⊢
          rw [hfile] at hf ⊢
          exact C40_statement h hc ho hr ho' hs (fun x hx => (C40_identifiers h hc hr x hx).word) hf
        · dsimp only at hf ⊢
          rw [hfile] at hf ⊢
          have hre := binding_reach hr (.inr rfl) (by cases e <;> first | rfl | cases hext)
          exact C40_value h hc ho hr hs (fun x hx => (C40_identifiers h hc hre x hx).word) hf

/-- After the action: the file, its text and its syntax, the document and its syntax. -/
noncomputable def extractTest (src : Bytes) (column : Nat) : List (Bytes × Bytes × Option Bytes × Bytes × Option Bytes) :=
  (afterExtract src column).map fun t => (t.1, t.2.1, syntaxOf t.2.1, t.2.2, syntaxOf t.2.2)

example : extractTest b!"a: { b.c = a: [ a d ]; }" 13 = [(b!"c.nix", b!"a: [ a d ]\n", some b!"(fun a [ a d ])", b!"a: { b.c = import ./c.nix; }",
    some b!"(fun a (set (= b c (call import (path ./c.nix)))))")] := by decide +kernel
example : extractTest b!"a: b: [ (if a then b else 1) ]" 11 = [(b!"extracted-if.nix", b!"{ a, b }:\nif a then b else 1\n", some b!"(fun { a ,b } (if a b 1))",
    b!"a: b: [ (import ./extracted-if.nix { inherit a b; }) ]",
    some b!"(fun a (fun b [ ((call import (path ./extracted-if.nix) (set (inherit a b)))) ]))")] := by decide +kernel

/-- **C40**, violated: the comment in `findExtractableExpr` says that the value of a binding is extracted if the cursor is on its name, but nothing
is offered: the node at the cursor is the identifier, and its parent is the attribute name, not the path. -/
theorem C40_name_violated : afterExtract b!"{ foo = { bar = 1; }; }" 3 = [] ∧ afterExtract b!"{ foo = { bar = 1; }; }" 11 = [] ∧
    (afterExtract b!"{ foo = { bar = 1; }; }" 8).map (·.2.2) = [b!"{ foo = import ./foo.nix; }"] := by decide +kernel

end Verif.Props
