import Verif.Lemmas.SynFrame
import Verif.Lemmas.Attrs
/-
For sources of ASCII characters, all names in the tree and all strings in diagnostics are ASCII.
-/
namespace Verif.Nixf.Ascii
open Syntax

/-- ASCII characters. -/
def Low (l : Bytes) : Prop := ∀ c ∈ l, c < 128

instance (l : Bytes) : Decidable (Low l) := inferInstanceAs (Decidable (∀ c ∈ l, c < 128))

@[simp] theorem Low.nil : Low [] := nofun
theorem Low.append {a b : Bytes} (ha : Low a) (hb : Low b) : Low (a ++ b) := fun c hc => (List.mem_append.mp hc).elim (ha c) (hb c)
theorem Low.sub {a b : Bytes} (h : Low b) (hs : a ⊆ b) : Low a := fun c hc => h c (hs hc)
theorem Low.take {a : Bytes} (h : Low a) (n : Nat) : Low (a.take n) := h.sub (List.take_subset _ _)
theorem Low.drop {a : Bytes} (h : Low a) (n : Nat) : Low (a.drop n) := h.sub (List.drop_subset _ _)
theorem Low.src {s : Bytes} (h : Low s) (n : Node) : Low (n.src s) := (h.drop _).take _
theorem low_spelling (k : TK) : Low k.spelling := by cases k <;> decide +kernel

/-! ### Diagnostics -/

def Lows : List Bytes → Prop
  | [] => True
  | a :: as => Low a ∧ Lows as
def AscE : List TextEdit → Prop
  | [] => True
  | e :: es => Low e.newText ∧ AscE es
def AscF : List Fix → Prop
  | [] => True
  | f :: fs => (Low f.message ∧ AscE f.edits) ∧ AscF fs
def AscN : List Note → Prop
  | [] => True
  | n :: ns => Lows n.args ∧ AscN ns
/-- All strings of a diagnostic are ASCII. -/
def AscD (d : Diagnostic) : Prop := Lows d.args ∧ AscN d.notes ∧ AscF d.fixes

theorem AscE.append {a b : List TextEdit} (ha : AscE a) (hb : AscE b) : AscE (a ++ b) := by
  induction a with
  | nil => exact hb
  | cons e a ih => exact ⟨ha.1, ih ha.2⟩
theorem AscF.append {a b : List Fix} (ha : AscF a) (hb : AscF b) : AscF (a ++ b) := by
  induction a with
  | nil => exact hb
  | cons e a ih => exact ⟨ha.1, ih ha.2⟩
theorem AscN.append {a b : List Note} (ha : AscN a) (hb : AscN b) : AscN (a ++ b) := by
  induction a with
  | nil => exact hb
  | cons e a ih => exact ⟨ha.1, ih ha.2⟩

def All (ds : List Diagnostic) : Prop := ∀ d ∈ ds, AscD d

theorem All.nil : All [] := nofun
theorem All.snoc {ds : List Diagnostic} {d : Diagnostic} (h : All ds) (hd : AscD d) : All (ds ++ [d]) := by
  intro x hx
  rcases List.mem_append.mp hx with hx | hx
  · exact h x hx
  · rw [List.mem_singleton.mp hx]; exact hd

/-- Proves `Low`. -/
macro "low" : tactic => `(tactic| first
  | assumption
  | exact Low.nil
  | exact low_spelling _
  | decide +kernel
  | (dsimp only; decide +kernel)
  | ((try dsimp only); exact Low.append (by decide +kernel) (low_spelling _))
  | ((try dsimp only); exact Low.append (by assumption) (by decide +kernel)))

/-! ### Trees -/

mutual
/-- All names and texts of the tree are ASCII. -/
def NA : Node → Prop
  | .null => True
  | .misc _ => True
  | .dot .. => True
  | .identifier _ x => Low x
  | .op .. => True
  | .interpolation _ e => NA e
  | .text t => Low t
  | .parts _ fs => NAs fs
  | .attrNameID _ i => NA i
  | .attrNameString _ s => NA s
  | .attrNameInterp _ i => NA i
  | .attrPath _ ns ds => NAs ns ∧ NAs ds
  | .binding _ p e v => NA p ∧ NA e ∧ NA v
  | .inherit _ ns e => NAs ns ∧ NA e
  | .binds _ bs => NAs bs
  | .attr n k v _ => Low n ∧ NA k ∧ NA v
  | .formal _ c i d e => NA c ∧ NA i ∧ NA d ∧ NA e
  | .formals _ ms => NAs ms
  | .lambdaArg _ i f => NA i ∧ NA f
  | .exprInt .. => True
  | .exprFloat .. => True
  | .exprVar _ i => NA i
  | .exprString _ p => NA p
  | .exprPath _ p => NA p
  | .exprSPath .. => True
  | .exprParen _ e l r => NA e ∧ NA l ∧ NA r
  | .exprAttrs _ b r st dy => NA b ∧ NA r ∧ NAs st ∧ NAs dy
  | .exprSelect _ e d p o _ => NA e ∧ NA d ∧ NA p ∧ NA o
  | .exprCall _ f as => NA f ∧ NAs as
  | .exprList _ es => NAs es
  | .exprLambda _ a b => NA a ∧ NA b
  | .exprBinOp _ o l r => NA o ∧ NA l ∧ NA r
  | .exprUnaryOp _ o e => NA o ∧ NA e
  | .exprOpHasAttr _ o e p => NA o ∧ NA e ∧ NA p
  | .exprIf _ c t e => NA c ∧ NA t ∧ NA e
  | .exprAssert _ c v => NA c ∧ NA v
  | .exprLet _ a b e s => NA a ∧ NA b ∧ NA e ∧ NA s
  | .exprLegacyLet _ a s => NA a ∧ NA s
  | .exprWith _ a b w e => NA a ∧ NA b ∧ NA w ∧ NA e
def NAs : List Node → Prop
  | [] => True
  | n :: ns => NA n ∧ NAs ns
end

theorem nas_iff {l : List Node} : NAs l ↔ ∀ n ∈ l, NA n := by
  induction l with
  | nil => simp [NAs]
  | cons n l ih => simp [NAs, ih]

theorem nas_append {a b : List Node} (ha : NAs a) (hb : NAs b) : NAs (a ++ b) := by
  rw [nas_iff] at *
  exact fun n hn => (List.mem_append.mp hn).elim (ha n) (hb n)

theorem na_name {n : Node} (h : NA n) : Low n.name := by
  cases n <;> first | exact Low.nil | exact h

theorem na_static {n : Node} {x : Bytes} (h : NA n) (hx : n.staticName? = some x) : Low x := by
  unfold Node.staticName? at hx
  split at hx
  · cases hx; exact na_name h
  · unfold Node.literal? at hx
    split at hx
    · cases hx; exact h.1
    · cases hx
  · cases hx

theorem na_merge {fs : List Node} (h : NAs fs) : NAs (mergeFragments fs) := by
  unfold mergeFragments
  split
  · exact h
  · split
    · exact h
    · refine ⟨?_, trivial⟩
      intro c hc
      obtain ⟨f, hf, hc⟩ := List.mem_flatMap.mp hc
      have hf := nas_iff.mp h f hf
      cases f <;> first | exact hf c hc | cases hc

theorem na_merge_text {v : Bytes} (h : Low v) : NAs (mergeFragments [.text v]) := na_merge ⟨h, trivial⟩

theorem na_escape {v : Bytes} {l : List Node} (hv : Low v) (hl : NAs l) :
    NAs (if unescape v = [] then l else .text (unescape v) :: l) := by
  split
  · exact hl
  · refine ⟨?_, hl⟩
    show Low (unescape v)
    unfold unescape
    split
    · repeat' split
      · decide
      · decide
      · decide
      · intro x hx
        rw [List.mem_singleton.mp hx]
        exact hv _ (List.mem_cons_of_mem _ (List.mem_cons_self ..))
    · exact .nil

theorem inherit_asc (o : Option Token) : AscE (o.map fun t => TextEdit.mkRemoval t.range).toList := by
  cases o with
  | none => trivial
  | some t => exact ⟨.nil, trivial⟩

theorem legacy_asc {src : Bytes} {a : Node} {l r : CRange} (h : Low src) :
    AscF (if hasBody a = true then legacyLetFixes src l r a else []) := by
  split
  · unfold legacyLetFixes
    repeat' split
    all_goals first
      | exact trivial
      | exact ⟨⟨by low, .nil, .nil, Low.append (by decide +kernel) (h.src _), trivial⟩, trivial⟩
  · trivial

/-- Proves `AscD` of a diagnostic that is given, and the like. -/
macro "ld" : tactic => `(tactic|
  (try dsimp only [TextEdit.mkInsertion, TextEdit.mkRemoval]
   repeat' first
    | exact trivial
    | low
    | exact inherit_asc _
    | exact legacy_asc (by assumption)
    | apply And.intro))

/-! ### The lexer -/

structure Fine (s : St) : Prop where
  src : Low s.src
  rem : Low s.rem
  diags : All s.diags

theorem consume_fine {s : St} (h : Fine s) (n : Nat) : Fine (consume n s) := by
  unfold consume
  split
  · exact ⟨h.src, h.rem.drop _, h.diags⟩
  · exact ⟨h.src, .nil, h.diags⟩
theorem consumeWhile_fine {s : St} (h : Fine s) (p : UInt8 → Bool) : Fine (consumeWhile p s) := consume_fine h _
theorem emit_fine {s : St} (h : Fine s) {d : Diagnostic} (hd : AscD d) : Fine (s.emit d) := ⟨h.src, h.rem, h.diags.snoc hd⟩

theorem consumeComments_fine {s s' : St} (h : consumeComments s = some s') (hs : Fine s) : Fine s' := by
  unfold consumeComments at h
  simp only at h
  split at h
  · split at h
    · cases h; exact consume_fine (consume_fine hs _) _
    · cases h
      exact emit_fine (consume_fine (consume_fine hs _) _) (by ld)
  · split at h
    · cases h; exact consume_fine (consume_fine hs _) _
    · cases h

theorem consumeTrivia_fine (s : St) (hs : Fine s) : Fine (consumeTrivia s) := by
  fun_induction consumeTrivia s with
  | case1 => exact hs
  | case2 _ _ _ _ _ ih => exact ih (consumeWhile_fine hs _)
  | case3 => rename_i h ih; exact ih (consumeComments_fine h hs)
  | case4 => exact hs

theorem expSign_fine {s : St} (h : Fine s) : Fine (expSign s) := by
  unfold expSign; split
  · exact h
  · split
    · exact consume_fine h _
    · exact h

theorem lexFloatExp_fine {s : St} (hs : Fine s) : Fine (lexFloatExp s) := by
  unfold lexFloatExp
  simp only
  have h' := consumeWhile_fine (expSign_fine (consume_fine hs 1)) isDigit
  split
  · exact hs
  · rename_i e r he
    split
    · split
      · refine emit_fine h' ⟨⟨?_, trivial⟩, trivial, trivial⟩
        intro c hc
        rw [List.mem_singleton.mp hc]
        exact hs.rem e (by rw [he]; simp)
      · exact h'
    · exact hs

theorem lexNumbers_fine {s : St} (hs : Fine s) : Fine (lexNumbers s).2 := by
  unfold lexNumbers
  simp only
  have h := lexFloatExp_fine (consumeWhile_fine (consume_fine (consumeWhile_fine hs isDigit) 1) isDigit)
  split
  · show Fine (if _ then _ else _ : St)
    split
    · exact emit_fine h ⟨⟨hs.rem.take _, trivial⟩, trivial, trivial⟩
    · exact h
  · exact consumeWhile_fine hs _

theorem consumePathStart_fine {s s' : St} (hs : Fine s) (h : consumePathStart s = some s') : Fine s' := by
  unfold consumePathStart at h
  simp only at h
  repeat' split at h
  all_goals first
    | (cases h; done)
    | (cases h; exact consume_fine (consume_fine hs _) _)

theorem consumeURI_fine {s s' : St} (hs : Fine s) (h : consumeURI s = some s') : Fine s' := by
  unfold consumeURI at h
  simp only at h
  repeat' split at h
  all_goals first
    | (cases h; done)
    | (cases h; exact consume_fine (consume_fine (consume_fine hs _) _) _)

theorem consumeSPath_fine {s s' : St} (hs : Fine s) (h : consumeSPath s = some s') : Fine s' := by
  unfold consumeSPath at h
  simp only at h
  have h1 : Fine (if s.rem.head? = some 60 then consume 1 s else s) := by
    split
    · exact consume_fine hs _
    · exact hs
  generalize (if s.rem.head? = some 60 then consume 1 s else s) = s1 at h h1
  repeat' split at h
  all_goals first
    | (cases h; done)
    | (cases h; exact consume_fine (consume_fine (consume_fine h1 _) _) _)

/-- The result of a function of the lexer. -/
def Out (r : Token × St) : Prop := Low r.1.view ∧ Fine r.2

theorem out {s s' : St} {k : TK} (h : Fine s) (h' : Fine s') : Out (finishToken s k s', s') := ⟨h.rem.take _, h'⟩

theorem lex_out {s0 : St} (h0 : Fine s0) : Out (lex s0) := by
  have hs := consumeTrivia_fine s0 h0
  unfold lex
  simp only
  generalize consumeTrivia s0 = s at hs
  split
  · exact out hs hs
  · split
    · rename_i h
      split at h
      · exact out hs (consumePathStart_fine hs h)
      · cases h
    · split
      · rename_i h
        split at h
        · exact out hs (consumeURI_fine hs h)
        · cases h
      · split
        · exact out hs (lexNumbers_fine hs)
        · split
          · exact out hs (consume_fine (consume_fine hs _) _)
          · split
            · rename_i h
              split at h
              · exact out hs (consumeSPath_fine hs h)
              · cases h
            · exact out hs (consume_fine hs _)

theorem lexPath_out {s : St} (h : Fine s) : Out (lexPath s) := by
  unfold lexPath
  simp only
  repeat' split
  all_goals first
    | exact out h h
    | exact out h (consume_fine h _)
    | exact out h (consume_fine (consume_fine h _) _)

theorem lexString_out {s : St} (h : Fine s) : Out (lexString s) := by
  unfold lexString
  simp only
  repeat' split
  all_goals first
    | exact out h h
    | exact out h (consume_fine h _)

theorem lexIndString_out {s : St} (h : Fine s) : Out (lexIndString s) := by
  unfold lexIndString
  simp only
  repeat' split
  all_goals first
    | exact out h h
    | exact out h (consume_fine h _)
    | exact out h (consume_fine (consume_fine h _) _)
    | exact out h (consume_fine (consume_fine (consume_fine h _) _) _)

theorem lexPS_out (p : PS) {s : St} (hs : Fine s) : Out (lexPS p s) := by
  cases p with
  | expr => exact lex_out hs
  | path => exact lexPath_out hs
  | string => exact lexString_out hs
  | indString => exact lexIndString_out hs

/-! ### The primitives of the parser -/

structure Good (s : PState) : Prop where
  lex : Fine s.lex
  buf : ∀ t ∈ s.buf, Low t.view
  eaten : ∀ t ∈ s.eaten, Low t.view

/-- Values with ASCII names. -/
class Asc (α : Type) where
  ok : α → Prop

instance : Asc Node := ⟨NA⟩
instance : Asc Bytes := ⟨Low⟩
instance : Asc (List Node) := ⟨NAs⟩
instance : Asc Token := ⟨fun t => Low t.view⟩
instance : Asc (Option Token) := ⟨fun o => ∀ t, o = some t → Low t.view⟩
instance {α β : Type} [Asc α] [Asc β] : Asc (α × β) := ⟨fun p => Asc.ok p.1 ∧ Asc.ok p.2⟩
instance : Asc Unit := ⟨fun _ => True⟩
instance : Asc Bool := ⟨fun _ => True⟩
instance : Asc Cursor := ⟨fun _ => True⟩
instance : Asc CRange := ⟨fun _ => True⟩
instance : Asc (Option CRange) := ⟨fun _ => True⟩
instance : Asc Hd := ⟨fun _ => True⟩
instance : Asc TK := ⟨fun _ => True⟩
instance : Asc (List TK) := ⟨fun _ => True⟩
instance : Asc Look := ⟨fun _ => True⟩

theorem ok_node {n : Node} : Asc.ok n = NA n := rfl
theorem ok_bytes {n : Bytes} : Asc.ok n = Low n := rfl
theorem ok_nodes {n : List Node} : Asc.ok n = NAs n := rfl
theorem ok_token {t : Token} : Asc.ok t = Low t.view := rfl
theorem ok_some {t : Token} : Asc.ok (some t) = Low t.view := by simp [Asc.ok]
theorem ok_none : Asc.ok (none : Option Token) = True := by simp [Asc.ok]
theorem ok_pair {α β : Type} [Asc α] [Asc β] {p : α × β} : Asc.ok p = (Asc.ok p.1 ∧ Asc.ok p.2) := rfl
theorem ok_unit {t : Unit} : Asc.ok t = True := rfl
theorem ok_bool {t : Bool} : Asc.ok t = True := rfl
theorem ok_cursor {t : Cursor} : Asc.ok t = True := rfl
theorem ok_crange {t : CRange} : Asc.ok t = True := rfl
theorem ok_ocrange {t : Option CRange} : Asc.ok t = True := rfl
theorem ok_hd {t : Hd} : Asc.ok t = True := rfl
theorem ok_tk {t : TK} : Asc.ok t = True := rfl
theorem ok_tks {t : List TK} : Asc.ok t = True := rfl
theorem ok_look {t : Look} : Asc.ok t = True := rfl

/-- Proves that a value has ASCII names. -/
macro "asc" : tactic => `(tactic|
  simp_all only [ok_node, ok_bytes, ok_nodes, ok_token, ok_some, ok_none, ok_pair, ok_unit, ok_bool, ok_cursor, ok_crange, ok_ocrange, ok_hd,
    ok_tk, ok_tks, ok_look, NA, NAs, na_merge, na_merge_text, na_escape, and_self, and_true, true_and])

/-- The strings stay ASCII and the value is. -/
def Va {α : Type} [Asc α] (m : PM α) : Prop := ∀ s a s', m s = some (a, s') → Good s → Asc.ok a ∧ Good s'

section
variable {α β : Type} [Asc α] [Asc β]

theorem Va.bind {m : PM α} {f : α → PM β} (h1 : Va m) (h2 : ∀ a, Asc.ok a → Va (f a)) : Va (m >>= f) := by
  intro s b s' h hs
  obtain ⟨a, s1, e1, e2⟩ := run_bind h
  obtain ⟨ha, hs1⟩ := h1 _ _ _ e1 hs
  exact h2 a ha _ _ _ e2 hs1

theorem Va.pure {a : α} (ha : Asc.ok a) : Va (Pure.pure a : PM α) := by
  intro s b s' h hs
  obtain ⟨rfl, rfl⟩ := run_pure h
  exact ⟨ha, hs⟩

theorem Va.fail : Va (PM.fail : PM α) := fun _ _ _ h => by cases h

theorem Va.get {f : PState → α} (hf : ∀ s, Good s → Asc.ok (f s)) : Va (PM.get f) := by
  intro s b s' h hs
  unfold PM.get at h; cases h
  exact ⟨hf _ hs, hs⟩

theorem getSync_va : Va (PM.get (·.sync)) := .get fun _ _ => trivial
theorem getSrc_va : Va (PM.get (·.lex.src)) := .get fun _ h => h.lex.src
theorem getLast_va : Va (PM.get (·.eaten.head?)) := .get fun _ h t ht => h.eaten t (List.mem_of_mem_head? ht)

theorem Va.when {c : Prop} [Decidable c] {m : PM Unit} (h : Va m) : Va (whenP c m) := by
  unfold whenP; split
  · exact h
  · exact .pure trivial

theorem pull_good (n : Nat) (s : PState) (hs : Good s) : Good (pull n s) := by
  induction n generalizing s with
  | zero => exact hs
  | succ n ih =>
    refine ih _ ?_
    have h := lexPS_out (s.states.headD .expr) hs.lex
    refine ⟨h.2, fun t ht => ?_, hs.eaten⟩
    rcases List.mem_append.mp ht with ht | ht
    · exact hs.buf t ht
    · rw [List.mem_singleton.mp ht]; exact h.1

theorem peek_va {n : Nat} : Va (peek n) := by
  intro s a s' h hs
  unfold peek at h
  have h' := pull_good (n + 1 - s.buf.length) s hs
  cases h
  refine ⟨?_, h'⟩
  rw [ok_token, List.getD_eq_getElem?_getD]
  cases he : (pull (n + 1 - s.buf.length) s).buf[n]? with
  | none => exact Low.nil
  | some t => exact h'.buf t (List.mem_of_getElem? he)

theorem peekKind_va {n : Nat} : Va (peekKind n) := .bind peek_va fun _ _ => .pure trivial

theorem pconsume_va : Va pconsume := by
  intro s a s' h hs
  unfold pconsume at h
  simp only at h
  have h1 : Good (if s.buf.isEmpty then pull 1 s else s) := by
    split
    · exact pull_good _ _ hs
    · exact hs
  revert h h1
  generalize (if s.buf.isEmpty then pull 1 s else s) = s1
  intro h h1
  split at h
  · cases h; exact ⟨trivial, h1⟩
  · rename_i t ts e
    cases h
    refine ⟨trivial, h1.lex, fun x hx => h1.buf x (by rw [e]; simp [hx]), fun x hx => ?_⟩
    rcases List.mem_cons.mp hx with rfl | hx
    · exact h1.buf x (by rw [e]; simp)
    · exact h1.eaten x hx

theorem lCurP_va : Va lCurP := .bind peek_va fun _ _ => .pure trivial

theorem lastR_va : Va lastR := by
  intro s a s' h hs
  unfold lastR at h
  split at h <;> (cases h; exact ⟨trivial, hs.lex, hs.buf, hs.eaten⟩)

theorem emitD_va {d : Diagnostic} (hd : AscD d) : Va (emitD d) := by
  intro s a s' h hs
  have := run_modify h; subst this
  exact ⟨trivial, emit_fine hs.lex hd, hs.buf, hs.eaten⟩

/-- A change to the last diagnostic. -/
theorem last_all (ds : List Diagnostic) (g : Diagnostic → Diagnostic) (hg : ∀ d, AscD d → AscD (g d)) (h : All ds) :
    All (ds.dropLast ++ (ds.getLast?.map g).toList) := by
  induction ds using List.reverseRecOn with
  | nil => exact nofun
  | append_singleton ds d _ =>
    have hd : AscD d := h d (by simp)
    have h' : All ds := fun x hx => h x (by simp [hx])
    simpa using h'.snoc (hg d hd)

theorem noteLast_va {n : Note} (hn : Lows n.args) : Va (noteLast n) := by
  intro s a s' h hs
  have := run_modify h; subst this
  exact ⟨trivial, ⟨hs.lex.src, hs.lex.rem, last_all _ _ (fun d hd => ⟨hd.1, hd.2.1.append ⟨hn, trivial⟩, hd.2.2⟩) hs.lex.diags⟩,
    hs.buf, hs.eaten⟩

theorem fixLast_va {n : Fix} (hn : Low n.message ∧ AscE n.edits) : Va (fixLast n) := by
  intro s a s' h hs
  have := run_modify h; subst this
  exact ⟨trivial, ⟨hs.lex.src, hs.lex.rem, last_all _ _ (fun d hd => ⟨hd.1, hd.2.1, hd.2.2.append ⟨hn, trivial⟩⟩) hs.lex.diags⟩,
    hs.buf, hs.eaten⟩

theorem assertFail_va : Va assertFail := by
  intro s a s' h hs
  have := run_modify h; subst this
  exact ⟨trivial, hs.lex, hs.buf, hs.eaten⟩

theorem assertLast_va : Va assertLast := by
  intro s a s' h hs
  have := run_modify h; subst this
  exact ⟨trivial, hs.lex, hs.buf, hs.eaten⟩

theorem fresh_va {r : CRange} : Va (fresh r) := by
  intro s a s' h hs
  unfold fresh at h; cases h
  exact ⟨trivial, hs.lex, hs.buf, hs.eaten⟩

theorem sema_va {f : Bytes → SemaSt → α × SemaSt}
    (hf : ∀ src s, Low src → All s.diags → Asc.ok (f src s).1 ∧ All (f src s).2.diags) : Va (sema f) := by
  intro s a s' h hs
  unfold sema at h
  simp only at h; cases h
  obtain ⟨h1, h2⟩ := hf s.lex.src ⟨s.next, s.lex.diags, s.bad⟩ hs.lex.src hs.lex.diags
  exact ⟨h1, ⟨hs.lex.src, hs.lex.rem, h2⟩, hs.buf, hs.eaten⟩

theorem mkMisc_va {r : CRange} : Va (mkMisc r) := .bind fresh_va fun _ _ => .pure (by asc)
theorem diagNullExpr_va {c : Cursor} {as : Bytes} (h : Low as) : Va (diagNullExpr c as) := emitD_va (by ld)
theorem needExpr_va {e : Node} {as : Bytes} (h : Low as) : Va (needExpr e as) := .when (.bind lastR_va fun _ _ => diagNullExpr_va h)

theorem resetBuf_good {s : PState} (h : Good s) : Good (resetBuf s) := by
  unfold resetBuf
  split
  · exact h
  · exact ⟨⟨h.lex.src, h.lex.src.drop _, h.lex.diags⟩, nofun, h.eaten⟩

theorem Va.state {st : PS} {m : PM α} (h : Va m) : Va (withState st m) := by
  intro s a s' e hs
  unfold withState at e
  obtain ⟨_, s1, e1, e⟩ := run_bind e
  obtain ⟨b, s2, e2, e⟩ := run_bind e
  obtain ⟨_, s3, e3, e⟩ := run_bind e
  obtain ⟨rfl, rfl⟩ := run_pure e
  have e1 := run_modify e1
  have e3 := run_modify e3
  subst e1 e3
  have g := resetBuf_good hs
  obtain ⟨h1, h2⟩ := h _ _ _ e2 ⟨g.lex, g.buf, g.eaten⟩
  have g := resetBuf_good h2
  exact ⟨h1, g.lex, g.buf, g.eaten⟩

theorem Va.sync {k : TK} {m : PM α} (h : Va m) : Va (withSync k m) := by
  intro s a s' e hs
  unfold withSync at e
  obtain ⟨_, s1, e1, e⟩ := run_bind e
  obtain ⟨b, s2, e2, e⟩ := run_bind e
  obtain ⟨_, s3, e3, e⟩ := run_bind e
  obtain ⟨rfl, rfl⟩ := run_pure e
  have e1 := run_modify e1
  have e3 := run_modify e3
  subst e1 e3
  obtain ⟨h1, h2⟩ := h _ _ s2 e2 ⟨hs.lex, hs.buf, hs.eaten⟩
  exact ⟨h1, h2.lex, h2.buf, h2.eaten⟩

end

theorem unknownLoop_va (k : Nat) : Va (unknownLoop k) := by
  induction k with
  | zero => exact .fail
  | succ k ih =>
    refine .bind peek_va fun t _ => .bind getSync_va fun sync _ => ?_
    split
    · exact .pure trivial
    · exact .bind pconsume_va fun _ _ => .bind ih fun _ _ => .pure trivial

theorem consumeAsUnknown_va {k : Nat} : Va (consumeAsUnknown k) := by
  refine .bind peek_va fun t _ => .bind (unknownLoop_va k) fun c _ => ?_
  split
  · exact .bind lastR_va fun _ _ => .pure trivial
  · exact .pure trivial

theorem removeUnexpected_va {k : Nat} : Va (removeUnexpected k) := by
  refine .bind consumeAsUnknown_va fun r _ => ?_
  split
  · exact .bind (emitD_va (by ld)) fun _ _ => .pure trivial
  · exact .pure trivial

theorem insertCur_va : Va insertCur := by
  refine .bind getLast_va fun r _ => ?_
  split
  · exact .pure trivial
  · exact lCurP_va

theorem rePeek_va {b : Bool} {t : Token} (h : Low t.view) : Va (rePeek b t) := by
  unfold rePeek; split
  · exact peek_va
  · exact .pure h

theorem expect_va {k : Nat} {kind : TK} : Va (expect k kind) := by
  refine .sync (.bind peek_va fun t ht => ?_)
  split
  · exact .pure (by rw [ok_some]; exact ht)
  · refine .bind removeUnexpected_va fun _ _ => .bind (rePeek_va ht) fun t ht => ?_
    split
    · exact .pure (by rw [ok_some]; exact ht)
    · exact .bind insertCur_va fun _ _ => .bind (emitD_va (by ld)) fun _ _ => .pure (by rw [ok_none]; trivial)

theorem expectOr_va {k : Nat} {kind : TK} {r : CRange} {t : Bytes} (h : Low t) : Va (expectOr k kind r t) := by
  refine .bind expect_va fun t ht => ?_
  split
  · exact .bind pconsume_va fun _ _ => .pure ht
  · exact .bind (noteLast_va ⟨h, trivial⟩) fun _ _ => .pure (by rw [ok_none]; trivial)

theorem expectMay_va {k : Nat} {kind : TK} : Va (expectMay k kind) := by
  refine .bind expect_va fun t _ => ?_
  split
  · exact pconsume_va
  · exact .pure trivial

/-! ### Semantic actions -/

theorem semit_all {s : SemaSt} {d : Diagnostic} (hs : All s.diags) (hd : AscD d) : All (s.emit d).diags := hs.snoc hd

theorem dupAttr_all {n : Bytes} {r p : CRange} {s : SemaSt} (hn : Low n) (hs : All s.diags) : All (dupAttr n r p s).diags :=
  semit_all hs (by ld)

theorem na_attrName {a : Node} (h : NA a) : Low (attrName a) := by
  cases a <;> first | exact Low.nil | exact h.1
theorem na_attrKey {a : Node} (h : NA a) : NA (attrKey a) := by
  cases a <;> first | trivial | exact h.2.1
theorem na_attrValue {a : Node} (h : NA a) : NA (attrValue a) := by
  cases a <;> first | trivial | exact h.2.2

theorem insertStatic_na {a : Node} {l : List Node} (ha : NA a) (hl : NAs l) : NAs (insertStatic a l) := by
  induction l with
  | nil => exact ⟨ha, trivial⟩
  | cons b l ih =>
    unfold insertStatic
    split
    · exact ⟨ha, hl⟩
    · exact ⟨hl.1, ih hl.2⟩

theorem findStatic_na {n : Bytes} {l : List Node} {a : Node} (h : findStatic n l = some a) (hl : NAs l) : NA a :=
  nas_iff.mp hl a (List.mem_of_find?_eq_some h)

theorem setStatic_na {n : Bytes} {v : Node} {l : List Node} (hv : NA v) (hl : NAs l) : NAs (setStatic n v l) := by
  fun_induction setStatic n v l with
  | case1 => trivial
  | case2 => exact ⟨⟨hl.1.1, hl.1.2.1, hv⟩, hl.2⟩
  | case3 => rename_i ih; exact ⟨hl.1, ih hl.2⟩
  | case4 => rename_i ih; exact ⟨hl.1, ih hl.2⟩

theorem mergeStatic_ok (ys xs : List Node) (s : SemaSt) (hy : NAs ys) (hx : NAs xs) (hs : All s.diags) :
    NAs (mergeStatic ys xs s).1 ∧ All (mergeStatic ys xs s).2.diags := by
  induction ys generalizing xs s with
  | nil => exact ⟨hx, hs⟩
  | cons y ys ih =>
    unfold mergeStatic
    split
    · exact ih _ _ hy.2 hx (dupAttr_all (na_attrName hy.1) hs)
    · exact ih _ _ hy.2 (insertStatic_na hy.1 hx) hs

theorem checkRec_all {a c : CRange} {b d : Node} {s : SemaSt} (hs : All s.diags) : All (checkAttrRecursiveForMerge a b c d s).diags := by
  unfold checkAttrRecursiveForMerge
  simp only
  have hl : ∀ b : Bool, Low (if b = true then [] else b!"non-") := by decide +kernel
  split
  · exact hs
  · exact semit_all hs ⟨trivial, ⟨⟨hl _, trivial⟩, ⟨hl _, hl _, trivial⟩, trivial⟩, trivial⟩

/-- The attributes of a set. -/
def SAok (sa : SA) : Prop := NAs sa.static ∧ NAs sa.dynamic

theorem insertAttr_ok {sa : SA} {name e : Node} {kind : AttrKind} {s : SemaSt} (ha : SAok sa) (hn : NA name) (he : NA e) (hs : All s.diags) :
    SAok (insertAttr sa name e kind s).1 ∧ All (insertAttr sa name e kind s).2.diags := by
  unfold insertAttr
  split
  · refine ⟨?_, hs⟩
    show SAok (if _ then _ else _)
    split
    · exact ha
    · exact ⟨ha.1, nas_append ha.2 ⟨⟨.nil, hn, he⟩, trivial⟩⟩
  · rename_i n hst
    have hln := na_static hn hst
    split
    · rename_i a hf
      have hva := na_attrValue (findStatic_na hf ha.1)
      split
      · rename_i hx bx rx stx dyx hy by_ ry sty dyy heq
        rw [heq] at hva
        obtain ⟨-, -, hsy, hdy⟩ := he
        obtain ⟨hb, hr, hsx, hdx⟩ := hva
        obtain ⟨h1, h2⟩ := mergeStatic_ok sty stx (checkAttrRecursiveForMerge hx.range rx hy.range ry s) hsy hsx (checkRec_all hs)
        exact ⟨⟨setStatic_na ⟨hb, hr, h1, nas_append hdx hdy⟩ ha.1, ha.2⟩, h2⟩
      · exact ⟨ha, dupAttr_all hln hs⟩
    · refine ⟨?_, hs⟩
      show SAok (if _ then _ else _)
      split
      · exact ha
      · exact ⟨insertStatic_na ⟨hln, hn, he⟩ ha.1, ha.2⟩

theorem addAttr_ok (sa : SA) (path : List Node) (e : Node) (s : SemaSt) (ha : SAok sa) (hp : NAs path) (he : NA e) (hs : All s.diags) :
    SAok (addAttr sa path e s).1 ∧ All (addAttr sa path e s).2.diags := by
  have h0 : SAok {} := ⟨trivial, trivial⟩
  fun_induction addAttr sa path e s with
  | case1 => exact ⟨ha, hs⟩
  | case2 => exact ⟨ha, hs⟩
  | case3 => exact insertAttr_ok ha hp.1 he hs
  | case4 _ _ _ _ _ _ ih => exact ih ha hp.2 hs
  | case5 =>
    rename_i hst a hf h b r st dy hv hfi inner s' heq ih
    rw [heq] at ih
    have hva := na_attrValue (findStatic_na hf ha.1)
    rw [hv] at hva
    obtain ⟨hb, hr, h1, h2⟩ := hva
    obtain ⟨h3, h4⟩ := ih ⟨h1, h2⟩ hp.2 hs
    exact ⟨⟨setStatic_na ⟨hb, hr, h3.1, h3.2⟩ ha.1, ha.2⟩, h4⟩
  | case6 => rename_i hst _ _ _; exact ⟨ha, dupAttr_all (na_static hp.1 hst) hs⟩
  | case7 =>
    rename_i n hst hf h inner s' heq ih
    rw [heq] at ih
    obtain ⟨h3, h4⟩ := ih h0 hp.2 hs
    exact ⟨⟨insertStatic_na ⟨na_static hp.1 hst, hp.1, trivial, trivial, h3.1, h3.2⟩ ha.1, ha.2⟩, h4⟩
  | case8 =>
    rename_i hst h inner s' heq ih
    rw [heq] at ih
    obtain ⟨h3, h4⟩ := ih h0 hp.2 hs
    exact ⟨⟨ha.1, nas_append ha.2 ⟨⟨.nil, hp.1, trivial, trivial, h3.1, h3.2⟩, trivial⟩⟩, h4⟩

theorem desugar_ok {name e : Node} {s : SemaSt} (hn : NA name) (he : NA e) (hs : All s.diags) :
    NA (desugarInheritExpr name e s).1 ∧ All (desugarInheritExpr name e s).2.2.diags := by
  unfold desugarInheritExpr
  split
  · split
    · exact ⟨hn, hs⟩
    · exact ⟨trivial, hs⟩
  · exact ⟨⟨he, trivial, ⟨⟨hn, trivial⟩, trivial⟩, trivial⟩, hs⟩

theorem lowerInheritName_ok {sa : SA} {name e : Node} {kind : AttrKind} {s : SemaSt} (ha : SAok sa) (hn : NA name) (he : NA e)
    (hs : All s.diags) : SAok (lowerInheritName sa name e kind s).1 ∧ All (lowerInheritName sa name e kind s).2.diags := by
  unfold lowerInheritName
  split
  · exact ⟨ha, hs⟩
  · split
    · exact ⟨ha, semit_all hs (by ld)⟩
    · rename_i n hst
      split
      · exact ⟨ha, dupAttr_all (na_static hn hst) hs⟩
      · exact ⟨⟨insertStatic_na ⟨na_static hn hst, hn, he⟩ ha.1, ha.2⟩, hs⟩

theorem lowerInherit_ok (sa : SA) (e : Node) (ns : List Node) (s : SemaSt) (ha : SAok sa) (hn : NAs ns) (he : NA e) (hs : All s.diags) :
    SAok (lowerInherit sa e ns s).1 ∧ All (lowerInherit sa e ns s).2.diags := by
  induction ns generalizing sa s with
  | nil => exact ⟨ha, hs⟩
  | cons n ns ih =>
    unfold lowerInherit
    obtain ⟨h1, h2⟩ := desugar_ok hn.1 he hs
    obtain ⟨h3, h4⟩ := lowerInheritName_ok (kind := (desugarInheritExpr n e s).2.1) ha hn.1 h1 h2
    exact ih _ _ h3 hn.2 h4

theorem lowerBinds_ok (sa : SA) (bs : List Node) (s : SemaSt) (ha : SAok sa) (hb : NAs bs) (hs : All s.diags) :
    SAok (lowerBinds sa bs s).1 ∧ All (lowerBinds sa bs s).2.diags := by
  induction bs generalizing sa s with
  | nil => unfold lowerBinds; exact ⟨ha, hs⟩
  | cons b bs ih =>
    unfold lowerBinds
    split
    · rename_i h; cases h
    · rename_i h; cases h
      obtain ⟨h1, h2⟩ := lowerInherit_ok _ _ _ _ ha hb.1.1 hb.1.2 hs
      exact ih _ _ h1 hb.2 h2
    · rename_i h; cases h
      obtain ⟨h1, h2⟩ := addAttr_ok _ _ _ _ ha hb.1.1.1 hb.1.2.2 hs
      exact ih _ _ h1 hb.2 h2
    · rename_i h; cases h; exact ih _ _ ha hb.2 hs

theorem onExprAttrs_ok {r : CRange} {b c : Node} {s : SemaSt} (hb : NA b) (hc : NA c) (hs : All s.diags) :
    NA (onExprAttrs r b c s).1 ∧ All (onExprAttrs r b c s).2.diags := by
  unfold onExprAttrs
  have h0 : SAok {} := ⟨trivial, trivial⟩
  cases b with
  | binds h bs =>
    obtain ⟨h1, h2⟩ := lowerBinds_ok {} bs s h0 hb hs
    exact ⟨⟨hb, hc, h1.1, h1.2⟩, h2⟩
  | _ => exact ⟨⟨hb, hc, trivial, trivial⟩, hs⟩

theorem onLambdaArg_ok {r : CRange} {b c : Node} {s : SemaSt} (hb : NA b) (hc : NA c) (hs : All s.diags) :
    NA (onLambdaArg r b c s).1 ∧ All (onLambdaArg r b c s).2.diags := by
  unfold onLambdaArg
  simp only
  refine ⟨⟨hb, hc⟩, ?_⟩
  split
  · exact hs
  · split
    · exact semit_all hs (by ld)
    · exact hs

theorem dedupDiags_all (fs : List Node) (acc : List (Bytes × Node)) (s : SemaSt) (hs : All s.diags) : All (dedupDiags fs acc s).diags := by
  induction fs generalizing acc s with
  | nil => exact hs
  | cons f fs ih =>
    unfold dedupDiags
    repeat' split
    · exact ih _ _ hs
    · exact ih _ _ (semit_all hs (by ld))
    · exact ih _ _ hs

theorem foldl_all {σ α : Type} {I : σ → Prop} (l : List α) (f : σ → α → σ) (hf : ∀ s, ∀ a ∈ l, I s → I (f s a)) (s : σ) (hs : I s) :
    I (l.foldl f s) := by
  induction l generalizing s with
  | nil => exact hs
  | cons a l ih => exact ih (fun s b hb => hf s b (by simp [hb])) _ (hf _ _ (by simp) hs)

theorem removeFormal_asc (fv : List Node) (i : Nat) (f : Node) : AscE (removeFormal fv i f) := by
  unfold removeFormal
  refine ⟨.nil, ?_⟩
  repeat' split
  all_goals first | exact trivial | exact ⟨.nil, trivial⟩

theorem ellipsisDiag_asc {src : Bytes} (h : Low src) (fv : List Node) (last : Node) (i : Nat) (f : Node) :
    AscD (ellipsisDiag src fv last i f) := by
  unfold ellipsisDiag
  split
  · exact ⟨trivial, trivial, ⟨by low, removeFormal_asc _ _ _⟩, trivial⟩
  · refine ⟨trivial, trivial, ⟨by low, (removeFormal_asc _ _ _).append ⟨?_, trivial⟩⟩, trivial⟩
    show Low (if _ then _ else _)
    split
    · exact Low.append (by decide +kernel) (h.src _)
    · exact h.src _

theorem onFormals_ok {src : Bytes} (h : Low src) (r : CRange) {fv : List Node} {s : SemaSt} (hf : NAs fv) (hs : All s.diags) :
    NA (onFormals src r fv s).1 ∧ All (onFormals src r fv s).2.diags := by
  unfold onFormals
  refine ⟨hf, dedupDiags_all _ _ _ ?_⟩
  refine foldl_all (I := fun s : SemaSt => All s.diags) _ _ (fun s f _ h => ?_) _ ?_
  · split
    · exact semit_all h (by ld)
    · exact h
  unfold checkFormalEllipsis
  have h1 : All (checkFormalSep fv s).diags := by
    refine foldl_all (I := fun s : SemaSt => All s.diags) _ _ (fun s f _ h => ?_) _ hs
    split
    · exact semit_all h (by ld)
    · exact h
  split
  · exact h1
  · refine foldl_all (I := fun s : SemaSt => All s.diags) _ _ (fun s f _ h' => ?_) _ h1
    split
    · exact semit_all h' (ellipsisDiag_asc h ..)
    · exact h'

theorem onExprAttrs_va {r : CRange} {b c : Node} (hb : NA b) (hc : NA c) : Va (sema fun _ => onExprAttrs r b c) :=
  sema_va fun _ _ _ h => onExprAttrs_ok hb hc h
theorem onLambdaArg_va {r : CRange} {b c : Node} (hb : NA b) (hc : NA c) : Va (sema fun _ => onLambdaArg r b c) :=
  sema_va fun _ _ _ h => onLambdaArg_ok hb hc h
theorem onFormals_va {r : CRange} {b : List Node} (hb : NAs b) : Va (sema fun src => onFormals src r b) :=
  sema_va fun _ _ hl h => onFormals_ok hl r hb h

end Verif.Nixf.Ascii
