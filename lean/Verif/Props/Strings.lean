import Verif.Lemmas.StringBody
import Verif.Model.CodeActionUtils
import Verif.Props.Parser
import Verif.Props.Tokens
/-
Literals: what the parser records for strings, numbers and paths, and the texts generated by code actions.
-/
namespace Verif.Props
open Nixf Lexical Strings Tree

/-- What is recorded for a string is this text and no interpolation. -/
def Recorded (p : Node) (t : Bytes) : Prop := ∃ h, p = .parts h [.text t] ∨ t = [] ∧ p = .parts h []

theorem pieces_chars {fs : List Node} {t : Bytes} (h : pieces fs = chars t) : ∀ f ∈ fs, ∃ u, f = .text u := by
  induction fs generalizing t with
  | nil => simp
  | cons f fs ih =>
    by_cases hf : ∃ u, f = .text u
    · obtain ⟨u, rfl⟩ := hf
      simp only [pieces] at h
      have : pieces fs = chars (t.drop u.length) := by
        have := congrArg (List.drop u.length) h
        rw [List.drop_append, List.drop_of_length_le (by simp [chars])] at this
        simpa [chars, ← List.map_drop] using this
      intro g hg
      rcases List.mem_cons.mp hg with rfl | hg
      · exact ⟨u, rfl⟩
      · exact ih this g hg
    · exfalso
      have : pieces (f :: fs) = .inl f :: pieces fs := by
        cases f
        case text u => exact absurd ⟨u, rfl⟩ hf
        all_goals rfl
      rw [this] at h
      cases t <;> simp [chars] at h

theorem recorded_of_pieces {hp : Hd} {fs : List Node} {t : Bytes} (h1 : (∀ f ∈ fs, ∃ t, f = .text t) → fs.length ≤ 1)
    (h : pieces fs = chars t) : Recorded (.parts hp fs) t := by
  have h2 := h1 (pieces_chars h)
  have h3 := pieces_chars h
  rcases fs with _ | ⟨f, _ | ⟨g, fs⟩⟩
  · refine ⟨hp, .inr ⟨?_, rfl⟩⟩
    cases t with
    | nil => rfl
    | cons => simp [pieces, chars] at h
  · obtain ⟨u, rfl⟩ := h3 f (by simp)
    simp only [pieces, List.append_nil] at h
    rw [chars_inj h]
    exact ⟨hp, .inl rfl⟩
  · simp at h2

/-- How the string node at an offset has been read. -/
theorem string_read {src : Bytes} {h : Hd} {p : Node} (hv : Val src (.exprString h p)) :
    (b!"\"" <+: src.drop h.range.l.offset → ∃ hp fs, p = .parts hp fs ∧ ((∀ f ∈ fs, ∃ t, f = .text t) → fs.length ≤ 1) ∧
      Quoted dqCode src h.range.l.offset (pieces fs) h.range.r.offset) ∧
    (b!"''" <+: src.drop h.range.l.offset → ∃ hp fs, p = .parts hp fs ∧ ((∀ f ∈ fs, ∃ t, f = .text t) → fs.length ≤ 1) ∧
      Quoted indCode src h.range.l.offset (pieces fs) h.range.r.offset) := by
  obtain ⟨hp, fs, h1, h2, h3⟩ := hv
  have huri : ∀ q : Bytes, (∀ c ∈ q.head?, c ∉ letters) → q ≠ [] → q <+: src.drop h.range.l.offset →
      ¬ ∃ c ∈ (slice src h.range).head?, c ∈ letters := by
    intro q hq hne ⟨r, hr⟩ ⟨c, hc, hm⟩
    unfold slice at hc
    rw [← hr] at hc
    rcases q with _ | ⟨d, q⟩
    · exact hne rfl
    · have := hq d (by simp)
      cases hn : h.range.r.offset - h.range.l.offset with
      | zero => rw [hn] at hc; simp at hc
      | succ n => rw [hn] at hc; simp at hc; subst hc; exact this hm
  refine ⟨fun hq => ⟨hp, fs, h1, h2, ?_⟩, fun hq => ⟨hp, fs, h1, h2, ?_⟩⟩
  · rcases h3 with h3 | h3 | ⟨-, h3⟩
    · exact h3
    · obtain ⟨r, hr⟩ := hq
      obtain ⟨r', hr'⟩ := h3.1
      rw [← hr] at hr'
      simp [indCode] at hr'
    · exact absurd h3 (huri _ (by decide) (by simp) hq)
  · rcases h3 with h3 | h3 | ⟨-, h3⟩
    · obtain ⟨r, hr⟩ := hq
      obtain ⟨r', hr'⟩ := h3.1
      rw [← hr] at hr'
      simp [dqCode] at hr'
    · exact h3
    · exact absurd h3 (huri _ (by decide) (by simp) hq)

/-- A string that is text by the rules of the code is recorded as this text. -/
theorem recorded_of_quoted {R : Rules} (hR : Sane R) {src : Bytes} {o r e : Nat} {hp : Hd} {fs : List Node} {t : Bytes}
    (h1 : (∀ f ∈ fs, ∃ t, f = .text t) → fs.length ≤ 1) (hq : Quoted R src o (pieces fs) r)
    (hb : Body R src (o + R.quote.length) (chars t) e) :
    Recorded (.parts hp fs) t ∧ (src.length ≤ e ∨ r = e + R.quote.length) := by
  obtain ⟨-, e', h2, h3⟩ := hq
  obtain ⟨h4, rfl⟩ := body_unique hR hb (noInterp_chars t) h2
  refine ⟨recorded_of_pieces h1 h4.symm, ?_⟩
  rcases h3 with h | h
  · exact .inr h.2
  · exact .inl h.1

/-! ### C17 -/

/-- Double-quoted strings: if the text between the quotes has no interpolation and denotes `t`, then `t` is recorded, and
the range of the string ends with the closing quote. -/
theorem C17_text (src : Bytes) (root : Node) (s : PState) (h : parse src = some (root, s)) :
    All subs (fun n => ∀ hd p t e, n = .exprString hd p → b!"\"" <+: src.drop hd.range.l.offset →
      Body dq src (hd.range.l.offset + 1) (chars t) e →
      Recorded p t ∧ (src.length ≤ e ∨ hd.range.r.offset = e + 1)) root := by
  refine (parse_okAll h).imp fun n hn hd p t e hp hq hb => ?_
  subst hp
  obtain ⟨hp, fs, rfl, h1, h2⟩ := (string_read hn.2).1 hq
  exact recorded_of_quoted sane_dqCode h1 h2
    (body_code (R' := dqCode) sane_dq rfl rfl rfl (fun _ h => h) hb (noInterp_chars t) (fun _ _ _ => rfl))

/-- All double-quoted strings, also those with interpolations: the pieces recorded are those found by the rules `dqCode`. -/
theorem C17_pieces (src : Bytes) (root : Node) (s : PState) (h : parse src = some (root, s)) :
    All subs (fun n => ∀ hd p, n = .exprString hd p → b!"\"" <+: src.drop hd.range.l.offset →
      ∃ hp fs, p = .parts hp fs ∧ Quoted dqCode src hd.range.l.offset (pieces fs) hd.range.r.offset) root := by
  refine (parse_okAll h).imp fun n hn hd p hp hq => ?_
  subst hp
  obtain ⟨hp, fs, rfl, -, h2⟩ := (string_read hn.2).1 hq
  exact ⟨hp, fs, rfl, h2⟩

/-- What is recorded for a document that is a string: the texts, and `none` for interpolations. -/
def stringOf (src : Bytes) : Option (List (Option Bytes)) :=
  match parse src with
  | some (.exprString _ (.parts _ fs), _) => some (fs.map fun | .text t => some t | _ => none)
  | _ => none

example : Body dq b!"\"a\\n$\\\"\" b" 1 (chars b!"a\n$\"") 7 :=
  .char 1 97 _ _ _ rfl (by decide) (by decide) rfl
    (.esc 2 2 [10] _ _ rfl (.dollar 4 _ _ _ rfl (by decide) (.esc 5 2 [34] _ _ rfl (.close 7 (by decide) rfl))))
example : stringOf b!"\"a\\n$\\\"\"" = some [some b!"a\n$\""] := by decide +kernel
example : stringOf b!"\"a$${b}\\${c\"" = some [some b!"a$${b}${c"] := by decide +kernel
example : stringOf b!"\"a${b}c\"" = some [some b!"a", none, some b!"c"] := by decide +kernel

/-! ### C18 -/

/-- Indented strings: the pieces recorded are those found by the rules `indCode`, under which every escape sequence denotes
a single quote. -/
theorem C18_pieces (src : Bytes) (root : Node) (s : PState) (h : parse src = some (root, s)) :
    All subs (fun n => ∀ hd p, n = .exprString hd p → b!"''" <+: src.drop hd.range.l.offset →
      ∃ hp fs, p = .parts hp fs ∧ Quoted indCode src hd.range.l.offset (pieces fs) hd.range.r.offset) root := by
  refine (parse_okAll h).imp fun n hn hd p hp hq => ?_
  subst hp
  obtain ⟨hp, fs, rfl, -, h2⟩ := (string_read hn.2).2 hq
  exact ⟨hp, fs, rfl, h2⟩

theorem indEsc_some {r : Bytes} (h : indEsc r ≠ codeIndEsc r) : b!"''" <+: r := by
  unfold indEsc codeIndEsc at h
  split at h <;> simp_all

theorem indEsc_none {r : Bytes} (h : indEsc r = none) : codeIndEsc r = none := by
  unfold indEsc at h
  unfold codeIndEsc
  split at h <;> simp_all

/-- Indented strings without escape sequences: the text is recorded as it is. Missing: escape sequences. -/
theorem C18_partial (src : Bytes) (root : Node) (s : PState) (h : parse src = some (root, s)) :
    All subs (fun n => ∀ hd p t e, n = .exprString hd p → b!"''" <+: src.drop hd.range.l.offset →
      Body ind src (hd.range.l.offset + 2) (chars t) e →
      (∀ i, hd.range.l.offset + 2 ≤ i → i < e → ¬ b!"''" <+: src.drop i) →
      Recorded p t ∧ (src.length ≤ e ∨ hd.range.r.offset = e + 2)) root := by
  refine (parse_okAll h).imp fun n hn hd p t e hp hq hb hno => ?_
  subst hp
  obtain ⟨hp, fs, rfl, h1, h2⟩ := (string_read hn.2).2 hq
  refine recorded_of_quoted sane_indCode h1 h2
    (body_code (R' := indCode) sane_ind rfl rfl rfl (fun _ h => indEsc_none h) hb (noInterp_chars t) (fun i h3 h4 => ?_))
  exact Classical.byContradiction fun hne => hno i h3 h4 (indEsc_some hne)

/-- The code records a single quote for all three kinds of escapes. -/
theorem C18_violated :
    (Body ind b!"''a''$b''" 2 (chars b!"a$b") 7 ∧ stringOf b!"''a''$b''" = some [some b!"a'b"]) ∧
    (Body ind b!"''a'''b''" 2 (chars b!"a''b") 7 ∧ stringOf b!"''a'''b''" = some [some b!"a'b"]) ∧
    (Body ind b!"''a''\\nb''" 2 (chars b!"a\nb") 8 ∧ stringOf b!"''a''\\nb''" = some [some b!"a'b"]) := by
  refine ⟨⟨?_, by decide +kernel⟩, ⟨?_, by decide +kernel⟩, ⟨?_, by decide +kernel⟩⟩
  · exact .char 2 97 _ _ _ rfl (by decide) (by decide) rfl (.esc 3 3 [36] _ _ rfl
      (.char 6 98 _ _ _ rfl (by decide) (by decide) rfl (.close 7 (by decide) rfl)))
  · exact .char 2 97 _ _ _ rfl (by decide) (by decide) rfl (.esc 3 3 [39, 39] _ _ rfl
      (.char 6 98 _ _ _ rfl (by decide) (by decide) rfl (.close 7 (by decide) rfl)))
  · exact .char 2 97 _ _ _ rfl (by decide) (by decide) rfl (.esc 3 4 [10] _ _ rfl
      (.char 7 98 _ _ _ rfl (by decide) (by decide) rfl (.close 8 (by decide) rfl)))

example : Body ind b!"''it's\n''" 2 (chars b!"it's\n") 7 :=
  .char 2 _ _ _ _ rfl (by decide) (by decide) rfl (.char 3 _ _ _ _ rfl (by decide) (by decide) rfl
    (.char 4 _ _ _ _ rfl (by decide) (by decide) rfl (.char 5 _ _ _ _ rfl (by decide) (by decide) rfl
      (.char 6 _ _ _ _ rfl (by decide) (by decide) rfl (.close 7 (by decide) rfl)))))
example : stringOf b!"''it's\n''" = some [some b!"it's\n"] := by decide +kernel

/-! ### C55 -/

/-- Integers are read as decimal numbers; those that do not fit into 64 bits are recorded as zero. -/
theorem C55_int (src : Bytes) (root : Node) (s : PState) (h : parse src = some (root, s)) :
    All subs (fun n => ∀ hd v, n = .exprInt hd v → ∃ m, Decimal (slice src hd.range) m ∧
      v = if m < 2 ^ 63 then Int.ofNat m else 0) root := by
  refine (parse_okAll h).imp fun n hn hd v e => ?_
  subst e
  exact hn.2

/-- Floats are recorded with their text. -/
theorem C55_float (src : Bytes) (root : Node) (s : PState) (h : parse src = some (root, s)) :
    All subs (fun n => ∀ hd t, n = .exprFloat hd t → t = slice src hd.range) root := by
  refine (parse_okAll h).imp fun n hn hd v e => ?_
  subst e
  exact hn.2

/-- Paths are recorded with their text and their interpolations. -/
theorem C55_path (src : Bytes) (root : Node) (s : PState) (h : parse src = some (root, s)) :
    All subs (fun n => ∀ hd p, n = .exprPath hd p → ∃ hp fs, p = .parts hp fs ∧
      Verbatim src hd.range.l.offset (pieces fs) hd.range.r.offset) root := by
  refine (parse_okAll h).imp fun n hn hd v e => ?_
  subst e
  exact hn.2

/-- Search paths are recorded with the text between the angle brackets. -/
theorem C55_search_path (src : Bytes) (root : Node) (s : PState) (h : parse src = some (root, s)) :
    All subs (fun n => ∀ hd t, n = .exprSPath hd t → slice src hd.range = 60 :: t ++ [62]) root := by
  refine (parse_okAll h).imp fun n hn hd v e => ?_
  subst e
  exact hn.2

/-- Integers of the document. -/
def intOf (src : Bytes) : Option (Int × Nat) :=
  match parse src with
  | some (.exprInt _ v, s) => some (v, s.lex.diags.length)
  | _ => none

example : intOf b!"9223372036854775808" = some (0, 1) := by decide +kernel
example : intOf b!"0123" = some (123, 0) ∧ intOf b!"9223372036854775807" = some (9223372036854775807, 0) := by decide +kernel
example : ((parse b!"<nixpkgs/lib>").map fun r => match r.1 with | .exprSPath _ t => t | _ => []) = some b!"nixpkgs/lib" := by
  decide +kernel
example : ((parse b!"./a/${b}c").map fun r => match r.1 with
    | .exprPath _ (.parts _ fs) => fs.map fun | .text t => t | _ => b!"?"
    | _ => []) = some [b!"./a/", b!"?", b!"c"] := by decide +kernel
example : ((parse b!"1.50").map fun r => match r.1 with | .exprFloat _ t => t | _ => []) = some b!"1.50" := by decide +kernel

/-! ### C56 -/

/-- After an even number of dollar signs `${` starts an interpolation in Nix, but not for this parser. -/
theorem C56_violated : stringOf b!"\"$$${a}\"" = some [some b!"$$${a}"] ∧
    ∀ t e, ¬ Body dq b!"\"$$${a}\"" 1 (chars t) e := by
  refine ⟨by decide +kernel, fun t e h => ?_⟩
  generalize hl : chars t = l at h
  cases h with
  | close _ h => exact absurd h (by decide)
  | eof _ h => cases h
  | esc _ _ _ _ _ h => cases h
  | char _ _ _ _ _ h h' => cases h; exact h' rfl
  | interp _ _ _ _ _ _ _ h => exact absurd h (by decide)
  | dollar _ _ l _ h _ h' =>
    have hn : NoInterp l := by
      intro x hx
      exact noInterp_chars t x (by rw [hl]; simp [hx])
    change Body dq b!"\"$$${a}\"" 3 l e at h'
    cases h' with
    | close _ h => exact absurd h (by decide)
    | eof _ h => cases h
    | esc _ _ _ _ _ h => cases h
    | char _ _ _ _ _ h h' => cases h; exact h' rfl
    | interp _ _ n => obtain ⟨c, hc⟩ := hn (.inl n) (by simp); cases hc
    | dollar _ _ _ _ _ h => exact h rfl

/-! ### C33 -/

theorem dollars_one {r : Bytes} (h1 : ¬ [36] <+: r) (h2 : ¬ [123] <+: r) : dollars (36 :: r) = 1 := by
  unfold dollars
  split <;> simp_all

theorem body_dollar {R : Rules} {src r : Bytes} {o k e : Nat} {l : List Piece} (h : src.drop o = 36 :: r)
    (hk : R.dollar (36 :: r) = k) (h0 : k ≠ 0) (hb : Body R src (o + k) l e) :
    Body R src o (chars ((36 :: r).take k) ++ l) e := by
  have := Body.dollar (R := R) o r l e h (by rw [h, hk]; exact h0) (by rw [h, hk]; exact hb)
  rwa [h, hk] at this

theorem escape_plain {c : UInt8} {r : Bytes} (h1 : c ≠ 34) (h2 : c ≠ 92) (h3 : c ≠ 10) (h4 : c ≠ 13) (h5 : c ≠ 9)
    (h6 : c = 36 → ¬ [123] <+: r) : escapeNixString (c :: r) = c :: escapeNixString r := by
  rw [escapeNixString.eq_def]
  split <;> simp_all

theorem escape_head {c : UInt8} {r q : Bytes} (h : ¬ [c] <+: r) (h1 : c ≠ 92) (h2 : c ≠ 34) :
    ¬ [c] <+: escapeNixString r ++ 34 :: q := by
  intro hp
  rw [escapeNixString.eq_def] at hp
  split at hp <;> simp_all

/-- The escaped text between quotes denotes the text. -/
theorem body_escape (src : Bytes) (t rest : Bytes) (o : Nat) (h : src.drop o = escapeNixString t ++ 34 :: rest) :
    Body dq src o (chars t) (o + (escapeNixString t).length) := by
  generalize hn : t.length = n
  induction n using Nat.strongRecOn generalizing t o with
  | ind n ih =>
  -- a character written as a backslash and `d`
  have hesc : ∀ (d : UInt8) (r : Bytes), r.length < n → src.drop o = 92 :: d :: (escapeNixString r ++ 34 :: rest) →
      Body dq src o (chars (escaped d :: r)) (o + ((escapeNixString r).length + 2)) := by
    intro d r hr hd
    have h2 : src.drop (o + 2) = escapeNixString r ++ 34 :: rest := drop_more (a := [92, d]) (by simpa using hd) rfl
    have := ih r.length hr r (o + 2) h2 rfl
    have := Body.esc (R := dq) o 2 [escaped d] _ _ (by rw [hd]; rfl) this
    have e : o + 2 + (escapeNixString r).length = o + ((escapeNixString r).length + 2) := by omega
    rw [e] at this
    exact this
  cases t with
  | nil =>
    simp only [escapeNixString, List.nil_append] at h
    exact .close o (by rw [h]; exact ⟨rest, rfl⟩) (by rw [h]; rfl)
  | cons c r =>
    simp only [List.length_cons] at hn
    by_cases c1 : c = 34
    · subst c1; exact hesc 34 r (by omega) h
    by_cases c2 : c = 92
    · subst c2; exact hesc 92 r (by omega) h
    by_cases c3 : c = 10
    · subst c3; exact hesc 110 r (by omega) h
    by_cases c4 : c = 13
    · subst c4; exact hesc 114 r (by omega) h
    by_cases c5 : c = 9
    · subst c5; exact hesc 116 r (by omega) h
    by_cases c6 : c = 36
    · subst c6
      rcases r with _ | ⟨d, r⟩
      · change src.drop o = 36 :: 34 :: rest at h
        exact body_dollar (R := dq) (k := 1) h rfl (by simp)
          (.close _ (by rw [drop_next h]; exact ⟨rest, rfl⟩) (by rw [drop_next h]; rfl))
      · simp only [List.length_cons] at hn
        by_cases d1 : d = 123
        · subst d1
          change src.drop o = 92 :: 36 :: 123 :: (escapeNixString r ++ 34 :: rest) at h
          have h2 : src.drop (o + 2) = 123 :: (escapeNixString r ++ 34 :: rest) := drop_more (a := [92, 36]) (by simpa using h) rfl
          have := ih r.length (by omega) r (o + 2 + 1) (drop_next h2) rfl
          have := Body.char (R := dq) (o + 2) 123 _ _ _ h2 (by decide) (by rw [h2]; simp [dq]) (by rw [h2]; rfl) this
          have := Body.esc (R := dq) o 2 [36] _ _ (by rw [h]; rfl) this
          have e : o + 2 + 1 + (escapeNixString r).length = o + (escapeNixString (36 :: 123 :: r)).length := by
            simp [escapeNixString]; omega
          rw [e] at this
          exact this
        · have e1 : escapeNixString (36 :: d :: r) = 36 :: escapeNixString (d :: r) :=
            escape_plain (by decide) (by decide) (by decide) (by decide) (by decide) (fun _ => by simpa using Ne.symm d1)
          rw [e1] at h ⊢
          by_cases d2 : d = 36 ∧ ¬ [123] <+: r
          · obtain ⟨rfl, d3⟩ := d2
            have e2 : escapeNixString (36 :: r) = 36 :: escapeNixString r :=
              escape_plain (by decide) (by decide) (by decide) (by decide) (by decide) (fun _ => d3)
            rw [e2] at h ⊢
            have h2 : src.drop (o + 2) = escapeNixString r ++ 34 :: rest := drop_more (a := [36, 36]) (by simpa using h) rfl
            have := ih r.length (by omega) r (o + 2) h2 rfl
            have := body_dollar (R := dq) (k := 2) (by simpa using h) rfl (by simp) this
            have e : o + 2 + (escapeNixString r).length = o + (36 :: 36 :: escapeNixString r).length := by simp; omega
            rw [e] at this
            exact this
          · have h2 := drop_next h
            have := ih (d :: r).length (by simp only [List.length_cons]; omega) (d :: r) (o + 1) h2 rfl
            have hd : dq.dollar (36 :: (escapeNixString (d :: r) ++ 34 :: rest)) = 1 := by
              refine dollars_one ?_ (escape_head (by simpa using Ne.symm d1) (by decide) (by decide))
              by_cases d4 : d = 36
              · subst d4
                have : [123] <+: r := Classical.byContradiction fun hc => d2 ⟨rfl, hc⟩
                obtain ⟨q, rfl⟩ := this
                simp [escapeNixString]
              · exact escape_head (by simpa using Ne.symm d4) (by decide) (by decide)
            have := body_dollar (R := dq) (k := 1) (by simpa using h) hd (by simp) this
            have e : o + 1 + (escapeNixString (d :: r)).length = o + (36 :: escapeNixString (d :: r)).length := by simp; omega
            rw [e] at this
            exact this
    · have e1 : escapeNixString (c :: r) = c :: escapeNixString r :=
        escape_plain c1 c2 c3 c4 c5 (fun h => absurd h c6)
      rw [e1] at h ⊢
      have h2 := drop_next h
      have := ih r.length (by omega) r (o + 1) h2 rfl
      have := Body.char (R := dq) o c _ _ _ h c6 (by rw [h]; simpa [dq] using Ne.symm c1) (by rw [h]; exact dqEsc_none c2) this
      have e : o + 1 + (escapeNixString r).length = o + (c :: escapeNixString r).length := by simp; omega
      rw [e] at this
      exact this

/-- For all texts `t`, the string `"` `escapeNixString t` `"` denotes `t`: by the rules of Nix, wherever it is written. -/
theorem C33_denotes (pre t rest : Bytes) :
    Body dq (pre ++ (b!"\"" ++ escapeNixString t ++ b!"\"" ++ rest)) (pre.length + 1) (chars t)
      (pre.length + 1 + (escapeNixString t).length) := by
  refine body_escape _ t rest _ ?_
  rw [← List.drop_drop]
  simp

/-- The parser agrees: a string node that starts there has the value `t`, and ends with the closing quote. -/
theorem C33_parsed (pre t rest : Bytes) (root : Node) (s : PState)
    (h : parse (pre ++ (b!"\"" ++ escapeNixString t ++ b!"\"" ++ rest)) = some (root, s)) :
    All subs (fun n => ∀ hd p, n = .exprString hd p → hd.range.l.offset = pre.length →
      Recorded p t ∧ hd.range.r.offset = pre.length + (escapeNixString t).length + 2) root := by
  refine (C17_text _ root s h).imp fun n hn hd p e ho => ?_
  have := hn hd p t (pre.length + 1 + (escapeNixString t).length) e ?_ ?_
  · obtain ⟨h1, h2⟩ := this
    refine ⟨h1, ?_⟩
    rcases h2 with h2 | h2
    · simp at h2; omega
    · omega
  · rw [ho]
    exact ⟨escapeNixString t ++ b!"\"" ++ rest, by simp⟩
  · rw [ho]; exact C33_denotes pre t rest

example : stringOf (b!"\"" ++ escapeNixString b!"a$${b\\\"c\n$$" ++ b!"\"") = some [some b!"a$${b\\\"c\n$$"] := by decide +kernel

/-! ### C34 -/

/-- A text in which an odd number of single quotes is followed by the end or by `${`. -/
def LoneQuote (t : Bytes) : Prop :=
  ∃ a k b, t = a ++ (List.replicate (2 * k + 1) 39 ++ b) ∧ a.getLast? ≠ some 39 ∧ (b = [] ∨ b!"${" <+: b)

theorem lone_pair {r : Bytes} (h : LoneQuote r) : LoneQuote (39 :: 39 :: r) := by
  obtain ⟨a, k, b, rfl, h2, h3⟩ := h
  cases a with
  | nil =>
    refine ⟨[], k + 1, b, ?_, by simp, h3⟩
    rw [show 2 * (k + 1) + 1 = 2 * k + 1 + 1 + 1 by omega, List.replicate_succ, List.replicate_succ]
    rfl
  | cons c a => exact ⟨39 :: 39 :: c :: a, k, b, rfl, by simpa using h2, h3⟩

theorem lone_cons {c d : UInt8} {r : Bytes} (h : LoneQuote (d :: r)) (hc : c ≠ 39 ∨ d ≠ 39) : LoneQuote (c :: d :: r) := by
  obtain ⟨a, k, b, h1, h2, h3⟩ := h
  refine ⟨c :: a, k, b, by rw [h1]; rfl, ?_, h3⟩
  cases a with
  | nil =>
    rw [List.replicate_succ] at h1
    simp only [List.nil_append, List.cons_append, List.cons.injEq] at h1
    rcases hc with hc | hc
    · simpa using hc
    · exact absurd h1.1 hc
  | cons x a => simpa using h2

theorem not_lone_nil : ¬ LoneQuote [] := by
  rintro ⟨a, k, b, h, -⟩
  have := congrArg List.length h
  simp at this
  omega

theorem lone_cons' {c : UInt8} {r : Bytes} (h : LoneQuote r) (hc : c ≠ 39) : LoneQuote (c :: r) := by
  cases r with
  | nil => exact absurd h not_lone_nil
  | cons d r => exact lone_cons h (.inl hc)

theorem indEsc_nil {c : UInt8} {r : Bytes} (h : ¬ b!"''" <+: c :: r) : indEsc (c :: r) = none := by
  unfold indEsc
  split <;> simp_all

theorem eind_plain {c : UInt8} {r : Bytes} (h1 : c = 39 → ¬ [39] <+: r) (h6 : c = 36 → ¬ [123] <+: r) :
    escapeForIndentedString (c :: r) = c :: escapeForIndentedString r := by
  rw [escapeForIndentedString.eq_def]
  split <;> simp_all

theorem eind_head {c : UInt8} {r q : Bytes} (h : ¬ [c] <+: r) (h1 : c ≠ 39) :
    ¬ [c] <+: escapeForIndentedString r ++ 39 :: q := by
  intro hp
  rw [escapeForIndentedString.eq_def] at hp
  split at hp <;> simp_all

/-- The escaped text between `''` denotes the text, unless it has lone quotes. -/
theorem body_eind (src : Bytes) (t rest : Bytes) (o : Nat) (h : src.drop o = escapeForIndentedString t ++ 39 :: 39 :: rest)
    (hrest : indEsc (39 :: 39 :: rest) = none) (hl : ¬ LoneQuote t) :
    Body ind src o (chars t) (o + (escapeForIndentedString t).length) := by
  generalize hn : t.length = n
  induction n using Nat.strongRecOn generalizing t o with
  | ind n ih =>
  cases t with
  | nil =>
    simp only [escapeForIndentedString, List.nil_append] at h
    exact .close o (by rw [h]; exact ⟨rest, rfl⟩) (by rw [h]; exact hrest)
  | cons c r =>
    simp only [List.length_cons] at hn
    by_cases c6 : c = 36
    · subst c6
      have hl' : ¬ LoneQuote r := fun h => hl (lone_cons' h (by decide))
      rcases r with _ | ⟨d, r⟩
      · change src.drop o = 36 :: 39 :: 39 :: rest at h
        exact body_dollar (R := ind) (k := 1) h rfl (by simp)
          (.close _ (by rw [drop_next h]; exact ⟨rest, rfl⟩) (by rw [drop_next h]; exact hrest))
      · simp only [List.length_cons] at hn
        by_cases d1 : d = 123
        · subst d1
          change src.drop o = 39 :: 39 :: 36 :: 123 :: (escapeForIndentedString r ++ 39 :: 39 :: rest) at h
          have h2 : src.drop (o + 3) = 123 :: (escapeForIndentedString r ++ 39 :: 39 :: rest) :=
            drop_more (a := [39, 39, 36]) (by simpa using h) rfl
          have := ih r.length (by omega) r (o + 3 + 1) (drop_next h2) (fun h => hl' (lone_cons' h (by decide))) rfl
          have := Body.char (R := ind) (o + 3) 123 _ _ _ h2 (by decide) (by rw [h2]; simp [ind]) (by rw [h2]; rfl) this
          have := Body.esc (R := ind) o 3 [36] _ _ (by rw [h]; rfl) this
          have e : o + 3 + 1 + (escapeForIndentedString r).length = o + (escapeForIndentedString (36 :: 123 :: r)).length := by
            simp [escapeForIndentedString]; omega
          rw [e] at this
          exact this
        · have e1 : escapeForIndentedString (36 :: d :: r) = 36 :: escapeForIndentedString (d :: r) :=
            eind_plain (by simp) (fun _ => by simpa using Ne.symm d1)
          rw [e1] at h ⊢
          by_cases d2 : d = 36 ∧ ¬ [123] <+: r
          · obtain ⟨rfl, d3⟩ := d2
            have e2 : escapeForIndentedString (36 :: r) = 36 :: escapeForIndentedString r :=
              eind_plain (by simp) (fun _ => d3)
            rw [e2] at h ⊢
            have h2 : src.drop (o + 2) = escapeForIndentedString r ++ 39 :: 39 :: rest :=
              drop_more (a := [36, 36]) (by simpa using h) rfl
            have := ih r.length (by omega) r (o + 2) h2 (fun h => hl' (lone_cons' h (by decide))) rfl
            have := body_dollar (R := ind) (k := 2) (by simpa using h) rfl (by simp) this
            have e : o + 2 + (escapeForIndentedString r).length = o + (36 :: 36 :: escapeForIndentedString r).length := by
              simp; omega
            rw [e] at this
            exact this
          · have h2 := drop_next h
            have := ih (d :: r).length (by simp only [List.length_cons]; omega) (d :: r) (o + 1) h2 hl' rfl
            have hd : ind.dollar (36 :: (escapeForIndentedString (d :: r) ++ 39 :: 39 :: rest)) = 1 := by
              refine dollars_one ?_ (eind_head (by simpa using Ne.symm d1) (by decide))
              by_cases d4 : d = 36
              · subst d4
                have : [123] <+: r := Classical.byContradiction fun hc => d2 ⟨rfl, hc⟩
                obtain ⟨q, rfl⟩ := this
                simp [escapeForIndentedString]
              · exact eind_head (by simpa using Ne.symm d4) (by decide)
            have := body_dollar (R := ind) (k := 1) (by simpa using h) hd (by simp) this
            have e : o + 1 + (escapeForIndentedString (d :: r)).length = o + (36 :: escapeForIndentedString (d :: r)).length := by
              simp; omega
            rw [e] at this
            exact this
    by_cases c7 : c = 39
    · subst c7
      rcases r with _ | ⟨d, r⟩
      · exact absurd ⟨[], 0, [], rfl, by simp, .inl rfl⟩ hl
      simp only [List.length_cons] at hn
      by_cases d1 : d = 39
      · subst d1
        change src.drop o = 39 :: 39 :: 39 :: (escapeForIndentedString r ++ 39 :: 39 :: rest) at h
        have h2 : src.drop (o + 3) = escapeForIndentedString r ++ 39 :: 39 :: rest :=
          drop_more (a := [39, 39, 39]) (by simpa using h) rfl
        have := ih r.length (by omega) r (o + 3) h2 (fun h => hl (lone_pair h)) rfl
        have := Body.esc (R := ind) o 3 [39, 39] _ _ (by rw [h]; rfl) this
        have e : o + 3 + (escapeForIndentedString r).length = o + (escapeForIndentedString (39 :: 39 :: r)).length := by
          simp [escapeForIndentedString]; omega
        rw [e] at this
        exact this
      · have e1 : escapeForIndentedString (39 :: d :: r) = 39 :: escapeForIndentedString (d :: r) :=
          eind_plain (fun _ => by simpa using Ne.symm d1) (by simp)
        rw [e1] at h ⊢
        have h2 := drop_next h
        have := ih (d :: r).length (by simp only [List.length_cons]; omega) (d :: r) (o + 1) h2
          (fun h => hl (lone_cons h (.inr d1))) rfl
        have hq : ¬ b!"''" <+: src.drop o := by
          rw [h]
          intro hp
          have hp : [39] <+: escapeForIndentedString (d :: r) ++ 39 :: 39 :: rest := by
            obtain ⟨q, hq⟩ := hp
            exact ⟨q, by simpa using hq⟩
          rw [escapeForIndentedString.eq_def] at hp
          split at hp
          · contradiction
          · rename_i h; cases h; exact d1 rfl
          · rename_i h; cases h
            exact hl ⟨[], 0, _, rfl, by simp, .inr ⟨_, rfl⟩⟩
          · rename_i h; cases h
            simp at hp
            exact d1 hp.symm
        have := Body.char (R := ind) o 39 _ _ _ h (by decide) hq (by rw [h] at hq ⊢; exact indEsc_nil hq) this
        have e : o + 1 + (escapeForIndentedString (d :: r)).length = o + (39 :: escapeForIndentedString (d :: r)).length := by
          simp; omega
        rw [e] at this
        exact this
    · have e1 : escapeForIndentedString (c :: r) = c :: escapeForIndentedString r :=
        eind_plain (fun h => absurd h c7) (fun h => absurd h c6)
      rw [e1] at h ⊢
      have h2 := drop_next h
      have := ih r.length (by omega) r (o + 1) h2 (fun h => hl (lone_cons' h c7)) rfl
      have hq : ¬ b!"''" <+: src.drop o := by rw [h]; simp; exact fun h => absurd h.symm c7
      have := Body.char (R := ind) o c _ _ _ h c6 hq (by rw [h] at hq ⊢; exact indEsc_nil hq) this
      have e : o + 1 + (escapeForIndentedString r).length = o + (c :: escapeForIndentedString r).length := by simp; omega
      rw [e] at this
      exact this

/-- The indented string written for a text denotes this text, if the text has no lone quotes: an odd number of single
quotes in front of `${` or at the end. Missing: texts with lone quotes (`C34_violated`). The removal of indentation by Nix
is not part of `Body`; texts whose lines are all indented or that start with a newline lose it. -/
theorem C34_partial (pre t rest : Bytes) (hl : ¬ LoneQuote t) (hrest : NotStarting b!"'$\\" rest) :
    Body ind (pre ++ (b!"''" ++ escapeForIndentedString t ++ b!"''" ++ rest)) (pre.length + 2) (chars t)
      (pre.length + 2 + (escapeForIndentedString t).length) := by
  refine body_eind _ t rest _ ?_ ?_ hl
  · rw [← List.drop_drop]
    simp
  · unfold indEsc
    split <;> first | rfl | (rename_i h; simp only [List.cons.injEq] at h; simp [h, NotStarting] at hrest)

theorem lone_inv {c : UInt8} {r : Bytes} (h : LoneQuote (c :: r)) (hc : c ≠ 39) : LoneQuote r := by
  obtain ⟨a, k, b, h1, h2, h3⟩ := h
  rcases a with _ | ⟨x, a⟩
  · rw [List.replicate_succ] at h1
    cases h1
    exact absurd rfl hc
  · cases h1
    refine ⟨a, k, b, rfl, ?_, h3⟩
    cases a with
    | nil => simp
    | cons => simpa using h2

theorem lone_inv_pair {r : Bytes} (h : LoneQuote (39 :: 39 :: r)) : LoneQuote r := by
  obtain ⟨a, k, b, h1, h2, h3⟩ := h
  rcases a with _ | ⟨x, _ | ⟨y, a⟩⟩
  · rcases k with _ | k
    · cases h1
      rcases h3 with h3 | h3
      · cases h3
      · simp at h3
    · rw [show 2 * (k + 1) + 1 = 2 * k + 1 + 1 + 1 by omega, List.replicate_succ, List.replicate_succ] at h1
      cases h1
      exact ⟨[], k, b, rfl, by simp, h3⟩
  · cases h1
    simp at h2
  · cases h1
    refine ⟨a, k, b, rfl, ?_, h3⟩
    cases a with
    | nil => simp
    | cons => simpa using h2

theorem lone_inv_single {d : UInt8} {r : Bytes} (h : LoneQuote (39 :: d :: r)) (hd : d ≠ 39) (h' : ¬ b!"${" <+: d :: r) :
    LoneQuote (d :: r) := by
  obtain ⟨a, k, b, h1, h2, h3⟩ := h
  rcases a with _ | ⟨x, _ | ⟨y, a⟩⟩
  · rcases k with _ | k
    · cases h1
      rcases h3 with h3 | h3
      · cases h3
      · exact absurd h3 h'
    · rw [show 2 * (k + 1) + 1 = 2 * k + 1 + 1 + 1 by omega, List.replicate_succ, List.replicate_succ] at h1
      cases h1
      exact absurd rfl hd
  · cases h1
    simp at h2
  · cases h1
    exact ⟨d :: a, k, b, rfl, by simpa using h2, h3⟩

/-- A test for lone quotes. -/
def loneB : Bytes → Bool
  | [] => false
  | 39 :: 39 :: r => loneB r
  | [39] => true
  | 39 :: 36 :: 123 :: _ => true
  | _ :: r => loneB r

theorem loneB_iff (t : Bytes) : loneB t = true ↔ LoneQuote t := by
  fun_induction loneB t with
  | case1 => simp [not_lone_nil]
  | case2 r ih => exact ih.trans ⟨lone_pair, lone_inv_pair⟩
  | case3 => simp only [true_iff]; exact ⟨[], 0, [], rfl, by simp, .inl rfl⟩
  | case4 r => simp only [true_iff]; exact ⟨[], 0, _, rfl, by simp, .inr ⟨r, rfl⟩⟩
  | case5 c r h1 h2 h3 ih =>
    refine ih.trans ⟨fun h => ?_, fun h => ?_⟩
    · rcases r with _ | ⟨d, r⟩
      · exact absurd h not_lone_nil
      · refine lone_cons h ?_
        by_cases hc : c = 39
        · refine .inr fun hd => ?_
          subst hc hd
          exact h1 r rfl rfl
        · exact .inl hc
    · by_cases hc : c = 39
      · subst hc
        rcases r with _ | ⟨d, r⟩
        · exact absurd rfl (h2 rfl)
        · refine lone_inv_single h (fun hd => ?_) ?_
          · subst hd; exact h1 r rfl rfl
          · rintro ⟨q, hq⟩
            cases hq
            exact h3 q rfl rfl
      · exact lone_inv h hc

instance (t : Bytes) : Decidable (LoneQuote t) := decidable_of_iff _ (loneB_iff t)

example : ¬ LoneQuote b!"it's ''${x} '''a" ∧ LoneQuote b!"it'" ∧ LoneQuote b!"'''${x}" := by decide

/-- A text that ends with a quote: the closing quotes are taken as part of an escape sequence, and the string is not
closed. A quote in front of `${`: an interpolation is created. -/
theorem C34_violated :
    (Body ind (b!"''" ++ escapeForIndentedString b!"it'" ++ b!"''") 2 (chars b!"it''") 7 ∧
      stringOf (b!"''" ++ escapeForIndentedString b!"it'" ++ b!"''") = some [some b!"it'"] ∧
      (parse (b!"''" ++ escapeForIndentedString b!"it'" ++ b!"''")).map (·.2.lex.diags.length) = some 1) ∧
    stringOf (b!"''" ++ escapeForIndentedString b!"'${x}" ++ b!"''") = some [some b!"'", none] := by
  refine ⟨⟨?_, by decide +kernel, by decide +kernel⟩, by decide +kernel⟩
  exact .char 2 105 _ _ _ rfl (by decide) (by decide) rfl (.char 3 116 _ _ _ rfl (by decide) (by decide) rfl
      (.esc 4 3 [39, 39] _ _ rfl (.eof 7 rfl)))

/-! ### C35 -/

theorem idFirst_iff (c : UInt8) : isIdFirst c = true ↔ c ∈ letters ∨ c = 95 := by
  revert c; apply forall_byte; decide +kernel

theorem idRest_iff (c : UInt8) : isIdRest c = true ↔ c ∈ identChars := by
  revert c; apply forall_byte; decide +kernel

theorem reserved_lookup_mem {l : List (Bytes × TK)} {x : Bytes} {k : TK} (h : l.lookup x = some k) : ∃ p ∈ l, p.1 = x := by
  induction l with
  | nil => cases h
  | cons p l ih =>
    obtain ⟨a, b⟩ := p
    simp only [List.lookup_cons] at h
    split at h
    · rename_i h'; exact ⟨(a, b), by simp, by simpa using (beq_iff_eq.mp h').symm⟩
    · obtain ⟨q, hq, hk⟩ := ih h; exact ⟨q, by simp [hq], hk⟩

theorem escape_len (key : Bytes) : key.length ≤ (escapeNixString key).length := by
  fun_induction escapeNixString key <;> simp <;> omega

/-- Names written without quotes. -/
theorem valid_iff (key : Bytes) : isValidNixIdentifier key = true ↔
    ∃ c w, key = c :: w ∧ (c ∈ letters ∨ c = 95) ∧ (∀ x ∈ w, x ∈ identChars) ∧ key ∉ actionKeywords := by
  cases key with
  | nil => simp [isValidNixIdentifier]
  | cons c w =>
    simp only [isValidNixIdentifier, Bool.and_eq_true, Bool.not_eq_true', List.all_eq_true, idFirst_iff, idRest_iff,
      List.contains_iff_mem, ← Bool.not_eq_true]
    constructor
    · rintro ⟨⟨h1, h2⟩, h3⟩
      exact ⟨c, w, rfl, h1, h2, h3⟩
    · rintro ⟨c, w, h, h1, h2, h3⟩
      cases h
      exact ⟨⟨h1, h2⟩, h3⟩

/-- A name that is written without quotes is read as one identifier token with this spelling, if it does not run into what
follows. -/
theorem C35_identifier (s : St) (g key rest : Bytes) (hk : quoteNixAttrKey key = key) (hs : s.rem = g ++ (key ++ rest))
    (hg : Trivia g (key ++ rest)) (hr : NotStarting (identChars ++ b!"+./:") rest) :
    (lex s).1.kind = .id_ ∧ (lex s).1.view = key ∧ (lex s).2.rem = rest := by
  have hv : isValidNixIdentifier key = true := by
    unfold quoteNixAttrKey at hk
    split at hk
    · assumption
    · have := congrArg List.length hk
      have hlen := escape_len key
      simp at this
      omega
  obtain ⟨c, w, rfl, h1, h2, h3⟩ := (valid_iff key).mp hv
  have hr' : NotStarting identChars rest := fun x hx h => hr x hx (by simp [h])
  have sub1 : ∀ x : UInt8, x ∈ pathChars → x ∈ identChars ++ b!"+./:" := by
    apply forall_byte; decide +kernel
  have sub2 : ∀ x : UInt8, x ∈ schemeChars → x ∈ identChars ++ b!"+./:" := by
    apply forall_byte; decide +kernel
  have hsep : ∀ x ∈ c :: w, x ≠ 47 ∧ x ≠ 58 := by
    have f1 : ∀ x : UInt8, x ∈ letters ∨ x = 95 → x ≠ 47 ∧ x ≠ 58 := by apply forall_byte; decide +kernel
    have f2 : ∀ x : UInt8, x ∈ identChars → x ≠ 47 ∧ x ≠ 58 := by apply forall_byte; decide +kernel
    intro x hx
    rcases List.mem_cons.mp hx with rfl | hx
    · exact f1 _ h1
    · exact f2 _ (h2 x hx)
  -- a separator cannot be reached by these characters
  have reach : ∀ (cs : Bytes) (a : UInt8), (∀ x ∈ cs, x ∈ identChars ++ b!"+./:") → a ∈ b!"/:" → ∀ (v k t r : Bytes),
      (∀ x ∈ k, x ≠ 47 ∧ x ≠ 58) → NotStarting (identChars ++ b!"+./:") r → k ++ r = v ++ a :: t → (∀ x ∈ v, x ∈ cs) → False := by
    intro cs a hcs ha v
    induction v with
    | nil =>
      intro k t r hk hr he _
      cases k with
      | nil =>
        simp only [List.nil_append] at he
        subst he
        refine hr a (by simp) ?_
        simp at ha ⊢
        rcases ha with rfl | rfl <;> simp
      | cons x k =>
        simp only [List.cons_append, List.nil_append, List.cons.injEq] at he
        obtain ⟨rfl, -⟩ := he
        have := hk x (by simp)
        simp at ha
        rcases ha with rfl | rfl <;> simp at this
    | cons y v ih =>
      intro k t r hk hr he hv
      cases k with
      | nil =>
        simp only [List.nil_append] at he
        subst he
        exact hr y (by simp) (hcs y (hv y (by simp)))
      | cons x k =>
        simp only [List.cons_append, List.cons.injEq] at he
        exact ih k t r (fun x hx => hk x (by simp [hx])) hr he.2 (fun x hx => hv x (by simp [hx]))
  have hp : ¬ PathHere (c :: w ++ rest) := by
    rintro ⟨v, t, e, hv, -⟩
    rcases hv with rfl | hv
    · have : ∀ x : UInt8, x ∈ letters ∨ x = 95 → x ≠ 126 := by apply forall_byte; decide +kernel
      simp only [List.cons_append, List.nil_append, List.cons.injEq] at e
      exact this c h1 e.1
    · exact reach pathChars 47 sub1 (by simp) v (c :: w) t rest hsep hr e hv
  have hu : ¬ UriHere (c :: w ++ rest) := by
    rintro ⟨x, v, d, t, e, hx, hv, -⟩
    refine reach schemeChars 58 sub2 (by simp) (x :: v) (c :: w) (d :: t) rest hsep hr (by simpa using e) ?_
    intro y hy
    rcases List.mem_cons.mp hy with rfl | hy
    · simp [schemeChars, hx]
    · exact hv y hy
  obtain ⟨k1, k2, k3⟩ := C15_word s g c w rest hs hg h1 h2 hr' hp hu
  refine ⟨?_, k2, k3⟩
  rw [k1, wordKind]
  cases hl : reserved.lookup (c :: w) with
  | none => rfl
  | some k =>
    obtain ⟨p, hp, hpe⟩ := reserved_lookup_mem hl
    have : ∀ p ∈ reserved, p.1 ∈ actionKeywords := by decide
    exact absurd (hpe ▸ this p hp) h3

/-- A name is either written as it is, or between quotes with escapes, so that it denotes the name. -/
theorem C35_quoted (key pre rest : Bytes) (h : quoteNixAttrKey key ≠ key) :
    Body dq (pre ++ (quoteNixAttrKey key ++ rest)) (pre.length + 1) (chars key)
      (pre.length + (quoteNixAttrKey key).length - 1) := by
  unfold quoteNixAttrKey at h ⊢
  split
  · rename_i hv; rw [if_pos hv] at h; exact absurd rfl h
  · have := C33_denotes pre key rest
    have e : pre.length + 1 + (escapeNixString key).length =
        pre.length + (b!"\"" ++ escapeNixString key ++ b!"\"").length - 1 := by simp; omega
    rw [e] at this
    exact this

/-- Exactly the identifiers of the language other than `true`, `false` and `null` are written without quotes. -/
theorem C35_unquoted_iff (key : Bytes) : quoteNixAttrKey key = key ↔
    (∃ c w, key = c :: w ∧ (c ∈ letters ∨ c = 95) ∧ ∀ x ∈ w, x ∈ identChars) ∧ (∀ p ∈ reserved, key ≠ p.1) ∧
      key ≠ b!"true" ∧ key ≠ b!"false" ∧ key ≠ b!"null" := by
  have hkw : key ∉ actionKeywords ↔ (∀ p ∈ reserved, key ≠ p.1) ∧ key ≠ b!"true" ∧ key ≠ b!"false" ∧ key ≠ b!"null" := by
    simp only [actionKeywords, reserved, List.mem_cons, List.not_mem_nil, or_false, not_or, forall_eq_or_imp, forall_eq]
    tauto
  rw [← hkw]
  have hv : quoteNixAttrKey key = key ↔ isValidNixIdentifier key = true := by
    unfold quoteNixAttrKey
    split
    · simp_all
    · rename_i h
      refine ⟨fun hk => ?_, fun h' => absurd h' h⟩
      have := congrArg List.length hk
      have hlen := escape_len key
      simp at this
      omega
  rw [hv, valid_iff]
  constructor
  · rintro ⟨c, w, rfl, h1, h2, h3⟩; exact ⟨⟨c, w, rfl, h1, h2⟩, h3⟩
  · rintro ⟨⟨c, w, rfl, h1, h2⟩, h3⟩; exact ⟨c, w, rfl, h1, h2, h3⟩

example : quoteNixAttrKey b!"a-b'" = b!"a-b'" ∧ quoteNixAttrKey b!"a b" = b!"\"a b\"" ∧ quoteNixAttrKey b!"in" = b!"\"in\"" ∧
    quoteNixAttrKey b!"" = b!"\"\"" := by decide
example : (lex (.init b!" a-b' = 1;")).1.kind = .id_ ∧ (lex (.init b!" a-b' = 1;")).1.view = b!"a-b'" := by decide +kernel

/-! ### C57 -/

/-- Rewriting a string without interpolation: the new string is of the other kind and denotes the recorded text, if it is
double-quoted or the text has no lone quotes. Missing: texts with lone quotes, strings with interpolations. -/
theorem C57_partial (src : Bytes) (hd : Hd) (p : Node) (a : Action) (t pre rest : Bytes) (ht : Recorded p t)
    (h : rewriteString src (.exprString hd p) = some a) :
    a.range = hd.range ∧
    (b!"''" <+: src.drop hd.range.l.offset → b!"\"" <+: a.newText ∧
      Body dq (pre ++ (a.newText ++ rest)) (pre.length + 1) (chars t) (pre.length + a.newText.length - 1)) ∧
    (¬ b!"''" <+: src.drop hd.range.l.offset → ¬ LoneQuote t → NotStarting b!"'$\\" rest → b!"''" <+: a.newText ∧
      Body ind (pre ++ (a.newText ++ rest)) (pre.length + 2) (chars t) (pre.length + a.newText.length - 2)) := by
  have hfs : ∃ hp fs, p = .parts hp fs ∧ ∀ f : Bytes → Bytes, f [] = [] → buildFragments f src fs = f t := by
    obtain ⟨hp, rfl | ⟨rfl, rfl⟩⟩ := ht
    · exact ⟨hp, _, rfl, fun f _ => by simp [buildFragments]⟩
    · exact ⟨hp, _, rfl, fun f hf => by simp [buildFragments, hf]⟩
  obtain ⟨hp, fs, rfl, hb⟩ := hfs
  simp only [rewriteString] at h
  split at h
  · rename_i hi
    have hi := List.isPrefixOf_iff_prefix.mp hi
    cases h
    refine ⟨rfl, fun _ => ⟨⟨_, rfl⟩, ?_⟩, fun hn => absurd hi hn⟩
    simp only [buildDoubleQuotedString, hb _ (show escapeNixString [] = [] by simp [escapeNixString])]
    have := C33_denotes pre t rest
    have e : pre.length + 1 + (escapeNixString t).length =
        pre.length + (b!"\"" ++ escapeNixString t ++ b!"\"").length - 1 := by simp; omega
    rw [e] at this
    simpa using this
  · rename_i hi
    cases h
    refine ⟨rfl, fun hn => absurd (List.isPrefixOf_iff_prefix.mpr hn) hi, fun _ hl hrest => ⟨⟨_, rfl⟩, ?_⟩⟩
    simp only [buildIndentedString, hb _ (show escapeForIndentedString [] = [] by simp [escapeForIndentedString])]
    have := C34_partial pre t rest hl hrest
    have e : pre.length + 2 + (escapeForIndentedString t).length =
        pre.length + (b!"''" ++ escapeForIndentedString t ++ b!"''").length - 2 := by simp; omega
    rw [e] at this
    simpa using this

/-- The document after the string it consists of has been rewritten. -/
def rewritten (src : Bytes) : Option Bytes := (parse src).bind fun r => (rewriteString src r.1).map (·.newText)

example : rewritten b!"\"a\\nb\"" = some b!"''a\nb''" ∧ rewritten b!"''a\"b''" = some b!"\"a\\\"b\"" := by decide +kernel

/-- Text fragments are escaped one by one. In a string with interpolations, an escaped dollar sign is a fragment of its
own; so a new interpolation is created, -/
theorem C57_interpolation_created_violated : stringOf b!"\"\\${a} ${b}\"" = some [some b!"$", some b!"{a} ", none] ∧
    rewritten b!"\"\\${a} ${b}\"" = some b!"''${a} ${b}''" ∧
    stringOf b!"''${a} ${b}''" = some [none, some b!" ", none] := by decide +kernel

/-- or an interpolation is turned into text. -/
theorem C57_interpolation_lost_violated : stringOf b!"\"\\$${x}\"" = some [some b!"$", none] ∧
    rewritten b!"\"\\$${x}\"" = some b!"''$${x}''" ∧ stringOf b!"''$${x}''" = some [some b!"$${x}"] := by decide +kernel

/-- Escape sequences of indented strings are replaced by a quote (see `C18_violated`). -/
theorem C57_escape_violated : rewritten b!"''a''${b}''" = some b!"\"a'{b}\"" := by decide +kernel

end Verif.Props
