import Verif.Lemmas.TokMake
import Verif.Spec.Json
import Verif.Lemmas.GSwap
/-
Generated selections: names with dots between them.
-/
namespace Verif.Nixf.Syntax
open Lexical Strings Props

/-- Neither a path nor a URI can go on here: no slash and no colon is reached over characters of paths. -/
def Calm (r : Bytes) : Prop :=
  ∃ k rest, r = k ++ rest ∧ (∀ x ∈ k, x ≠ 47 ∧ x ≠ 126 ∧ x ≠ 58) ∧ NotStarting (47 :: 126 :: pathChars) rest ∧
    NotStarting (58 :: letters ++ schemeChars) rest

theorem Calm.onto {r : Bytes} (h : Calm r) {k : Bytes} (hk : ∀ x ∈ k, x ≠ 47 ∧ x ≠ 126 ∧ x ≠ 58) : Calm (k ++ r) := by
  obtain ⟨k', rest, rfl, h1, h2, h3⟩ := h
  refine ⟨k ++ k', rest, by simp, fun x hx => ?_, h2, h3⟩
  rcases List.mem_append.mp hx with hx | hx
  · exact hk x hx
  · exact h1 x hx

theorem Calm.at {c : UInt8} {r : Bytes} (h : c ∉ 47 :: 126 :: pathChars ∧ c ∉ 58 :: letters ++ schemeChars) : Calm (c :: r) :=
  ⟨[], c :: r, rfl, by simp, fun x hx => by simp at hx; subst hx; exact h.1, fun x hx => by simp at hx; subst hx; exact h.2⟩

theorem Calm.nil : Calm [] := ⟨[], [], rfl, by simp, fun x hx => by simp at hx, fun x hx => by simp at hx⟩

theorem word_sep : ∀ x : UInt8, (x ∈ letters ∨ x = 95) ∨ x ∈ identChars → x ≠ 47 ∧ x ≠ 126 ∧ x ≠ 58 := by
  apply forall_byte; decide +kernel

/-- A word in front of anything that does not make it a path or a URI. -/
theorem tok_word' {c : UInt8} {w rest : Bytes} (hc : c ∈ letters ∨ c = 95) (hw : ∀ x ∈ w, x ∈ identChars) (hr : NotStarting identChars rest)
    (h' : Calm rest) : Tok (c :: w ++ rest) (wordKind (c :: w)) (c :: w) rest := by
  obtain ⟨f1, f2, f3, -⟩ := identStart_facts c hc
  have hn : NoTrivia (c :: w ++ rest) := noTrivia_of_head f1 f2 f3
  have hs : ∀ x ∈ c :: w, x ≠ 47 ∧ x ≠ 126 ∧ x ≠ 58 := by
    intro x hx
    rcases List.mem_cons.mp hx with rfl | hx
    · exact word_sep _ (.inl hc)
    · exact word_sep _ (.inr (hw x hx))
  obtain ⟨k, r, e, h1, h2, h3⟩ := h'.onto hs
  refine tok_of_lex hn ?_ (C15_word _ [] c w rest rfl (.nil _) hc hw hr ?_ ?_)
  · unfold wordKind
    cases hl : reserved.lookup (c :: w) with
    | none => decide
    | some k =>
      obtain ⟨p, hp, hpe, rfl⟩ := lookup_mem hl
      have : ∀ p ∈ reserved, p.2 ≠ .float := by decide
      exact this p hp
  · rw [e]; exact no_path (fun x hx => ⟨(h1 x hx).1, (h1 x hx).2.1⟩) h2
  · rw [e]; exact no_uri (fun x hx => (h1 x hx).2.2) h3

theorem tok_name' {w rest : Bytes} (hw : quoteNixAttrKey w = w) (hr : NotStarting identChars rest) (h' : Calm rest) : Tok (w ++ rest) .id_ w rest := by
  obtain ⟨⟨c, w', rfl, hc, h1⟩, h2, -⟩ := (C35_unquoted_iff w).mp hw
  have := tok_word' hc h1 hr h'
  have hk : wordKind (c :: w') = .id_ := by
    unfold wordKind
    cases hl : reserved.lookup (c :: w') with
    | none => rfl
    | some k =>
      obtain ⟨p, hp, hpe, rfl⟩ := lookup_mem hl
      exact absurd hpe.symm (h2 p hp)
  rwa [hk] at this

/-- A dot in front of a name. -/
theorem tok_dot {c : UInt8} {r : Bytes} (hc : c ≠ 46) (h : Calm (c :: r)) : Tok (46 :: c :: r) .dot b!"." (c :: r) := by
  refine tok_op (n := 1) (by decide) ?_ ?_ (by decide) rfl rfl (by simp)
  · obtain ⟨k, r', e, h1, h2, h3⟩ := h
    rw [e]
    refine no_path (k := 46 :: k) (rest := r') ?_ h2
    intro x hx
    rcases List.mem_cons.mp hx with rfl | hx
    · exact ⟨by decide, by decide⟩
    · exact ⟨(h1 x hx).1, (h1 x hx).2.1⟩
  · have hd : opTable.find? (fun p => p.1.isPrefixOf (46 :: c :: r)) = some (b!".", .dot) := by
      have hb : (46 == c) = false := by simpa using Ne.symm hc
      simp [opTable, List.isPrefixOf, hb]
    unfold lexOp
    rw [hd]; rfl

/-- What names begin with. -/
theorem key_head (k rest : Bytes) : ∃ c r, quoteNixAttrKey k ++ rest = c :: r ∧ c ≠ 46 := by
  by_cases hk : quoteNixAttrKey k = k
  · obtain ⟨⟨c, w', rfl, hc, -⟩, -⟩ := (C35_unquoted_iff k).mp hk
    rw [hk]
    refine ⟨c, _, rfl, ?_⟩
    have : ∀ c : UInt8, (c ∈ letters ∨ c = 95) → c ≠ 46 := by apply forall_byte; decide +kernel
    exact this c hc
  · unfold quoteNixAttrKey at *
    split
    · rename_i h; rw [if_pos h] at hk; exact absurd rfl hk
    · exact ⟨34, _, rfl, by decide⟩

theorem key_calm {k rest : Bytes} (hr : Calm rest) : Calm (quoteNixAttrKey k ++ rest) := by
  by_cases hk : quoteNixAttrKey k = k
  · obtain ⟨⟨c, w', rfl, hc, hw⟩, -⟩ := (C35_unquoted_iff k).mp hk
    rw [hk]
    refine hr.onto fun x hx => ?_
    rcases List.mem_cons.mp hx with rfl | hx
    · exact word_sep _ (.inl hc)
    · exact word_sep _ (.inr (hw x hx))
  · unfold quoteNixAttrKey at *
    split
    · rename_i h; rw [if_pos h] at hk; exact absurd rfl hk
    · exact Calm.at (by decide +kernel)

/-- A generated name. -/
theorem g_key (k : Bytes) : ∃ n, NameIs n k ∧ odd n = false ∧ ∀ rest, NotStarting identChars rest → Calm rest → G .name (quoteNixAttrKey k ++ rest) [n] rest := by
  by_cases hk : quoteNixAttrKey k = k
  · refine ⟨_, .id k, rfl, fun rest hr hc => .name ?_⟩
    rw [hk]
    exact tok_name' hk hr hc
  · refine ⟨_, .str k, by simp [odd, chs, oddL_chars], fun rest hr hc => ?_⟩
    have : quoteNixAttrKey k = b!"\"" ++ escapeNixString k ++ b!"\"" := by
      unfold quoteNixAttrKey at *
      split
      · rename_i h; rw [if_pos h] at hk; exact absurd rfl hk
      · rfl
    rw [this]
    refine .strName (tok_quote _) ?_
    have := g_escape k rest
    simpa [chs] using this

/-- Names with a dot in front of each. -/
def dotted (ks : List Bytes) : Bytes := ks.flatMap fun k => b!"." ++ quoteNixAttrKey k

theorem dotted_calm {ks : List Bytes} {rest : Bytes} (hr : Calm rest) : Calm (dotted ks ++ rest) := by
  induction ks with
  | nil => exact hr
  | cons k ks ih =>
    have : dotted (k :: ks) ++ rest = [46] ++ (quoteNixAttrKey k ++ (dotted ks ++ rest)) := by simp [dotted]
    rw [this]
    exact (key_calm ih).onto (by intro x hx; simp at hx; subst hx; decide)

theorem dotted_start {ks : List Bytes} {rest : Bytes} (hr : NotStarting identChars rest) : NotStarting identChars (dotted ks ++ rest) := by
  cases ks with
  | nil => exact hr
  | cons k ks => intro x hx; simp [dotted] at hx; subst hx; decide

theorem g_dotted (ks : List Bytes) : ∃ ns, List.Forall₂ NameIs ns ks ∧ oddL ns = false ∧ ∀ rest, NotStarting identChars rest → Calm rest →
    G .dots (dotted ks ++ rest) ns rest := by
  induction ks with
  | nil => exact ⟨[], .nil, rfl, fun _ _ _ => .noDot⟩
  | cons k ks ih =>
    obtain ⟨ns, h1, h2, h3⟩ := ih
    obtain ⟨n, h4, h5, h6⟩ := g_key k
    refine ⟨n :: ns, .cons h4 h1, by simp [oddL, h5, h2], fun rest hr hc => ?_⟩
    have e : dotted (k :: ks) ++ rest = 46 :: (quoteNixAttrKey k ++ (dotted ks ++ rest)) := by simp [dotted]
    rw [e]
    obtain ⟨c, r, e1, e2⟩ := key_head k (dotted ks ++ rest)
    have hcalm : Calm (quoteNixAttrKey k ++ (dotted ks ++ rest)) := key_calm (dotted_calm hc)
    have t : Tok (46 :: (quoteNixAttrKey k ++ (dotted ks ++ rest))) .dot b!"." (quoteNixAttrKey k ++ (dotted ks ++ rest)) := by
      rw [e1] at hcalm ⊢
      exact tok_dot e2 hcalm
    exact .dot t (h6 _ (dotted_start hr) (dotted_calm hc)) (h3 rest hr hc)

theorem G.dots_append {nt : NT} {r r1 r2 : Bytes} {ns ms : List Syn} (h : G nt r ns r1) (hn : nt = .dots) (h' : G .dots r1 ms r2) :
    G .dots r (ns ++ ms) r2 := by
  induction h with
  | noDot => exact h'
  | dot t n _ _ ih => exact .dot t n (ih rfl h')
  | _ => cases hn

/-- A selection: a simple expression and at least one name. -/
theorem g_selection {x : Bytes} {t : Syn} (k : Bytes) (ks : List Bytes) :
    ∃ ns, List.Forall₂ NameIs ns (k :: ks) ∧ oddL ns = false ∧ ∀ rest, NotStarting identChars rest → Calm rest →
      G .simple (x ++ (dotted (k :: ks) ++ rest)) [t] (dotted (k :: ks) ++ rest) → G .select (x ++ (dotted (k :: ks) ++ rest)) [.select t ns] rest := by
  obtain ⟨ns, h1, h2, h3⟩ := g_dotted (k :: ks)
  refine ⟨ns, h1, h2, fun rest hr hc g => ?_⟩
  have := h3 rest hr hc
  cases h1 with
  | cons _ _ =>
  cases this with
  | dot t n d => exact .select g t (.path n d)

end Verif.Nixf.Syntax
