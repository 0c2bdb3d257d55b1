import Verif.Model.LitTest
import Verif.Props.Framing
import Verif.Props.DocumentMessages
import Mathlib.Data.List.TakeWhile
/-
Property C92: the server's tests, Markdown files, are read as they are written.
-/
namespace Verif.Props
open Framing
open LitTest
open Rpc (Json)

namespace Lit

/-- White space. -/
def White (s : Bytes) : Prop := ∀ c ∈ s, c ∈ [(32 : UInt8), 9, 10, 11, 12, 13]

/-- The line begins with `w`, after white space. -/
def Starts (w l : Bytes) : Prop := ∃ a b, White a ∧ l = a ++ w ++ b

/-- `s` without the white space at its end is `t`. -/
def Ends (s t : Bytes) : Prop := ∃ a, White a ∧ s = t ++ a ∧ ∀ c, White [c] → ∀ r, t ≠ r ++ [c]

/-- The line opens a block of Nix for the document `uri`. -/
def OpensNix (l uri : Bytes) : Prop := uri ≠ [] ∧ ∃ a b, White a ∧ l = a ++ b!"```nix " ++ b ∧ Ends b uri

/-- Lines as they are in a file. -/
def file (ls : List Bytes) : Bytes := ls.flatMap (· ++ [10])

/-- The lines without those that begin with `#`, in one line. -/
inductive Uncommented : List Bytes → Bytes → Prop
  | nil : Uncommented [] []
  | comment (l ls t) : Starts b!"#" l → Uncommented ls t → Uncommented (l :: ls) t
  | line (l ls t) : ¬ Starts b!"#" l → Uncommented ls t → Uncommented (l :: ls) (l ++ t)

/-- The lines of a file up to the end of the first block, and the message that the block stands for. -/
inductive Block : List Bytes → Msg → Prop
  | json (before : List Bytes) (opening : Bytes) (ls : List Bytes) (closing t : Bytes) :
    (∀ l ∈ before, ¬ Starts b!"```json" l ∧ ∀ u, ¬ OpensNix l u) → Starts b!"```json" opening →
    (∀ l ∈ ls, ¬ Starts b!"```" l) → Starts b!"```" closing → Uncommented ls t →
    Block (before ++ opening :: (ls ++ [closing])) (.json t)
  | nix (before : List Bytes) (opening : Bytes) (ls : List Bytes) (closing u t : Bytes) :
    (∀ l ∈ before, ¬ Starts b!"```json" l ∧ ∀ u, ¬ OpensNix l u) → OpensNix opening u →
    (∀ l ∈ ls, ¬ Starts b!"```" l) → Starts b!"```" closing → Ends (file ls) t →
    Block (before ++ opening :: (ls ++ [closing])) (.nix u t)

/-- The file can be read to its end: `poll` says that the writer has gone only when nothing is left. -/
def Readable (hup : Hup) : Prop := ∀ n, hup (n + 1) = false

theorem white_iff (s : Bytes) : White s ↔ ∀ c ∈ s, isSpace c = true := by
  refine forall₂_congr fun c _ => ?_
  simp only [isSpace, List.mem_cons, List.not_mem_nil, or_false, Bool.or_eq_true, beq_iff_eq]
  tauto

theorem white_one (c : UInt8) : White [c] ↔ isSpace c = true := by simp [white_iff]

theorem white_append (s t : Bytes) : White (s ++ t) ↔ White s ∧ White t := by
  simp only [White, List.mem_append]
  exact ⟨fun h => ⟨fun c hc => h c (.inl hc), fun c hc => h c (.inr hc)⟩, fun h c hc => hc.elim (h.1 c) (h.2 c)⟩

theorem ends_iff (s t : Bytes) : Ends s t ↔ rtrim s = t := by
  constructor
  · rintro ⟨a, ha, rfl, ht⟩
    unfold rtrim
    rw [List.reverse_append, List.dropWhile_append_of_pos (by
      intro c hc; exact (white_iff a).mp ha c (List.mem_reverse.mp hc))]
    rw [dropWhile_of_head, List.reverse_reverse]
    intro c hc
    by_contra hs
    simp only [Bool.not_eq_false] at hs
    rcases List.eq_nil_or_concat t with rfl | ⟨r, x, rfl⟩
    · simp at hc
    · simp only [List.concat_eq_append, List.reverse_append, List.reverse_cons, List.reverse_nil, List.nil_append, List.cons_append,
        List.head?_cons, Option.mem_def, Option.some.injEq] at hc
      exact ht c ((white_one c).mpr hs) r (by rw [hc]; simp)
  · rintro rfl
    refine ⟨(s.reverse.takeWhile isSpace).reverse, ?_, ?_, ?_⟩
    · rw [white_iff]
      intro c hc
      exact List.mem_takeWhile_imp (List.mem_reverse.mp hc)
    · unfold rtrim
      rw [← List.reverse_append, List.takeWhile_append_dropWhile, List.reverse_reverse]
    · intro c hc r hr
      have h1 : s.reverse.dropWhile isSpace = c :: r.reverse := by
        have := congrArg List.reverse hr
        simpa [rtrim] using this
      have h2 := List.head_dropWhile_not isSpace (l := s.reverse) (by rw [h1]; simp)
      simp only [h1, List.head_cons] at h2
      rw [(white_one c).mp hc] at h2
      cases h2

theorem trim_eq (l : Bytes) : trim l = rtrim (l.dropWhile isSpace) := rfl

theorem dropWhile_white (a m : Bytes) (ha : White a) (hm : ∀ c ∈ m.head?, isSpace c = false) : (a ++ m).dropWhile isSpace = m := by
  rw [List.dropWhile_append_of_pos (fun c hc => (white_iff a).mp ha c hc), dropWhile_of_head _ _ hm]

/-- With `w` a text without white space. -/
theorem starts_iff (w : Bytes) (h : w ≠ []) (hw : ∀ c ∈ w, isSpace c = false) (l : Bytes) :
    w.isPrefixOf (trim l) = true ↔ Starts w l := by
  rw [List.isPrefixOf_iff_prefix]
  constructor
  · rintro ⟨b, hb⟩
    obtain ⟨c, -, hc, -⟩ := (ends_iff _ _).mpr (trim_eq l).symm
    refine ⟨l.takeWhile isSpace, b ++ c, ?_, ?_⟩
    · rw [white_iff]
      exact fun c hc => List.mem_takeWhile_imp hc
    · conv_lhs => rw [← List.takeWhile_append_dropWhile (p := isSpace) (l := l), hc, ← hb]
      simp
  · rintro ⟨a, b, ha, rfl⟩
    rw [trim_eq, List.append_assoc, dropWhile_white _ _ ha (by
      intro c hc
      cases w with
      | nil => exact absurd rfl h
      | cons x w => simp only [List.cons_append, List.head?_cons, Option.mem_def, Option.some.injEq] at hc; exact hw c (by simp [hc]))]
    unfold rtrim
    rw [List.reverse_append, List.dropWhile_append]
    split
    · rw [dropWhile_of_head, List.reverse_reverse]
      intro c hc
      exact hw c (List.mem_reverse.mp (List.mem_of_mem_head? hc))
    · rw [List.reverse_append, List.reverse_reverse]
      exact List.prefix_append _ _

theorem opens_iff (l u : Bytes) : b!"```nix ".isPrefixOf (trim l) = true ∧ (trim l).drop 7 = u ↔ OpensNix l u := by
  rw [List.isPrefixOf_iff_prefix]
  constructor
  · rintro ⟨⟨b, hb⟩, rfl⟩
    obtain ⟨c, hcw, hc, hn⟩ := (ends_iff _ _).mpr (trim_eq l).symm
    rw [← hb] at hc hn ⊢
    have hd : (b!"```nix " ++ b).drop 7 = b := rfl
    rw [hd]
    refine ⟨?_, l.takeWhile isSpace, b ++ c, ?_, ?_, c, hcw, rfl, ?_⟩
    · rintro rfl
      exact hn 32 ((white_one _).mpr (by decide)) b!"```nix" rfl
    · rw [white_iff]
      exact fun c hc => List.mem_takeWhile_imp hc
    · conv_lhs => rw [← List.takeWhile_append_dropWhile (p := isSpace) (l := l), hc]
      simp
    · rintro x hx r rfl
      exact hn x hx (b!"```nix " ++ r) (by simp)
  · rintro ⟨hu, a, b, ha, rfl, c, hc, rfl, hn⟩
    have ht : trim (a ++ b!"```nix " ++ (u ++ c)) = b!"```nix " ++ u := by
      rw [trim_eq, List.append_assoc, dropWhile_white _ _ ha (by intro c hc; cases hc; decide), ← ends_iff]
      refine ⟨c, hc, by simp, ?_⟩
      rintro x hx r hr
      rcases List.eq_nil_or_concat u with rfl | ⟨v, y, rfl⟩
      · exact hu rfl
      · have : (b!"```nix " ++ v) ++ [y] = r ++ [x] := by rw [← hr]; simp
        have := (List.append_inj' this rfl).2
        cases this
        exact hn x hx v (by simp)
    rw [ht]
    exact ⟨List.prefix_append _ _, rfl⟩

theorem readLine_readable {hup : Hup} (hr : Readable hup) (line l rest : Bytes) (h : (10 : UInt8) ∉ l) :
    readLine hup line (l ++ 10 :: rest) = .got (line ++ l) rest := by
  induction l generalizing line with
  | nil => simp [readLine, hr _]
  | cons c l ih =>
    simp only [List.mem_cons, not_or] at h
    rw [List.cons_append, readLine, if_neg (by rw [hr]; simp), if_neg (fun hc => h.1 hc.symm), ih _ h.2]
    simp

theorem readLine_inv {hup : Hup} (line s l rest : Bytes) (h : readLine hup line s = .got l rest) :
    ∃ m, (10 : UInt8) ∉ m ∧ l = line ++ m ∧ s = m ++ 10 :: rest := by
  induction s generalizing line with
  | nil => simp only [readLine] at h; split at h <;> cases h
  | cons c s ih =>
    simp only [readLine] at h
    split at h
    · cases h
    · split at h
      · rename_i hc
        cases h
        exact ⟨[], by simp, by simp, by simp [hc]⟩
      · rename_i hc
        obtain ⟨m, h1, h2, h3⟩ := ih _ h
        exact ⟨c :: m, by simp [h1, Ne.symm hc], by simp [h2], by simp [h3]⟩

theorem json_iff (l : Bytes) : b!"```json".isPrefixOf (trim l) = true ↔ Starts b!"```json" l :=
  starts_iff _ (by decide) (by decide) l
theorem fence_iff (l : Bytes) : b!"```".isPrefixOf (trim l) = true ↔ Starts b!"```" l :=
  starts_iff _ (by decide) (by decide) l
theorem hash_iff (l : Bytes) : b!"#".isPrefixOf (trim l) = true ↔ Starts b!"#" l :=
  starts_iff _ (by decide) (by decide) l

theorem hash_not_fence {l : Bytes} (h : Starts b!"#" l) : ¬ Starts b!"```" l := by
  rw [← hash_iff] at h
  rw [← fence_iff]
  cases ht : trim l with
  | nil => rw [ht] at h; cases h
  | cons x r =>
    rw [ht] at h
    simp only [List.isPrefixOf, Bool.and_true, beq_iff_eq] at h
    subst h
    simp [List.isPrefixOf]

theorem file_cons (l : Bytes) (ls : List Bytes) (rest : Bytes) : file (l :: ls) ++ rest = l ++ 10 :: (file ls ++ rest) := by
  simp [file]

theorem file_append (a b : List Bytes) : file (a ++ b) = file a ++ file b := by simp [file]

/-- One line of prose, JSON or Nix. -/
theorem read_step {hup : Hup} (st : State) (buf s l rest : Bytes) (hl : readLine hup [] s = .got l rest) :
    readLit hup st buf s =
      match st with
      | .prose =>
        if b!"```json".isPrefixOf (trim l) then readLit hup .json buf rest
        else if b!"```nix ".isPrefixOf (trim l) then readLit hup (.nix ((trim l).drop 7)) buf rest
        else readLit hup .prose buf rest
      | .json =>
        if b!"#".isPrefixOf (trim l) then readLit hup .json buf rest
        else if b!"```".isPrefixOf (trim l) then .got (.json buf) rest
        else readLit hup .json (buf ++ l) rest
      | .nix uri =>
        if b!"```".isPrefixOf (trim l) then .got (.nix uri (rtrim buf)) rest
        else readLit hup (.nix uri) (buf ++ l ++ b!"\n") rest := by
  rw [readLit]
  split
  · rename_i he; rw [hl] at he; cases he
  · rename_i he; rw [hl] at he; cases he
  · rename_i he; rw [hl] at he; cases he
    rfl

theorem read_line {hup : Hup} (hr : Readable hup) (st : State) (buf l rest : Bytes) (h : (10 : UInt8) ∉ l) :
    readLit hup st buf (l ++ 10 :: rest) =
      match st with
      | .prose =>
        if b!"```json".isPrefixOf (trim l) then readLit hup .json buf rest
        else if b!"```nix ".isPrefixOf (trim l) then readLit hup (.nix ((trim l).drop 7)) buf rest
        else readLit hup .prose buf rest
      | .json =>
        if b!"#".isPrefixOf (trim l) then readLit hup .json buf rest
        else if b!"```".isPrefixOf (trim l) then .got (.json buf) rest
        else readLit hup .json (buf ++ l) rest
      | .nix uri =>
        if b!"```".isPrefixOf (trim l) then .got (.nix uri (rtrim buf)) rest
        else readLit hup (.nix uri) (buf ++ l ++ b!"\n") rest :=
  read_step st buf _ l rest (readLine_readable hr [] l rest h)

theorem read_json {hup : Hup} (hr : Readable hup) (ls : List Bytes) (closing t rest : Bytes) (hn : ∀ l ∈ ls, (10 : UInt8) ∉ l)
    (hc : (10 : UInt8) ∉ closing) (hf : ∀ l ∈ ls, ¬ Starts b!"```" l) (he : Starts b!"```" closing) (ht : Uncommented ls t)
    (buf : Bytes) : readLit hup .json buf (file (ls ++ [closing]) ++ rest) = .got (.json (buf ++ t)) rest := by
  induction ht generalizing buf with
  | nil =>
    rw [List.nil_append, file_cons, read_line hr _ _ _ _ hc]
    simp only
    rw [if_neg (fun h => hash_not_fence ((hash_iff _).mp h) he), if_pos ((fence_iff _).mpr he)]
    simp [file]
  | comment l ls t h _ ih =>
    simp only [List.forall_mem_cons] at hn hf
    rw [List.cons_append, file_cons, read_line hr _ _ _ _ hn.1]
    simp only
    rw [if_pos ((hash_iff _).mpr h), ih hn.2 hf.2]
  | line l ls t h _ ih =>
    simp only [List.forall_mem_cons] at hn hf
    rw [List.cons_append, file_cons, read_line hr _ _ _ _ hn.1]
    simp only
    rw [if_neg (fun hx => h ((hash_iff _).mp hx)), if_neg (fun hx => hf.1 ((fence_iff _).mp hx)), ih hn.2 hf.2, List.append_assoc]

theorem read_nix {hup : Hup} (hr : Readable hup) (u : Bytes) (ls : List Bytes) (closing rest : Bytes) (hn : ∀ l ∈ ls, (10 : UInt8) ∉ l)
    (hc : (10 : UInt8) ∉ closing) (hf : ∀ l ∈ ls, ¬ Starts b!"```" l) (he : Starts b!"```" closing)
    (buf : Bytes) : readLit hup (.nix u) buf (file (ls ++ [closing]) ++ rest) = .got (.nix u (rtrim (buf ++ file ls))) rest := by
  induction ls generalizing buf with
  | nil =>
    rw [List.nil_append, file_cons, read_line hr _ _ _ _ hc]
    simp only
    rw [if_pos ((fence_iff _).mpr he)]
    simp [file]
  | cons l ls ih =>
    simp only [List.forall_mem_cons] at hn hf
    rw [List.cons_append, file_cons, read_line hr _ _ _ _ hn.1]
    simp only
    rw [if_neg (fun hx => hf.1 ((fence_iff _).mp hx)), ih hn.2 hf.2]
    simp [file]

theorem read_prose {hup : Hup} (hr : Readable hup) (before : List Bytes) (rest : Bytes) (hn : ∀ l ∈ before, (10 : UInt8) ∉ l)
    (hb : ∀ l ∈ before, ¬ Starts b!"```json" l ∧ ∀ u, ¬ OpensNix l u) :
    readLit hup .prose [] (file before ++ rest) = readLit hup .prose [] rest := by
  induction before with
  | nil => simp [file]
  | cons l ls ih =>
    simp only [List.forall_mem_cons] at hn hb
    rw [file_cons, read_line hr _ _ _ _ hn.1]
    simp only
    rw [if_neg (fun hx => hb.1.1 ((json_iff _).mp hx)), if_neg (fun hx => hb.1.2 _ ((opens_iff l _).mp ⟨hx, rfl⟩)), ih hn.2 hb.2]

theorem json_not_nix {l u : Bytes} (h : OpensNix l u) : ¬ Starts b!"```json" l := by
  rw [← json_iff]
  have := ((opens_iff l u).mpr h).1
  rw [List.isPrefixOf_iff_prefix] at this ⊢
  obtain ⟨b, hb⟩ := this
  rw [← hb]
  rintro ⟨c, hc⟩
  simp at hc

/-- What has been read when a message is returned, for each state. -/
def After (buf : Bytes) (ls : List Bytes) (m : Msg) : State → Prop
  | .prose => buf = [] → Block ls m
  | .json => ∃ ls' c t, ls = ls' ++ [c] ∧ (∀ l ∈ ls', ¬ Starts b!"```" l) ∧ Starts b!"```" c ∧ Uncommented ls' t ∧
      m = .json (buf ++ t)
  | .nix u => ∃ ls' c, ls = ls' ++ [c] ∧ (∀ l ∈ ls', ¬ Starts b!"```" l) ∧ Starts b!"```" c ∧ m = .nix u (rtrim (buf ++ file ls'))

theorem read_inv {hup : Hup} (st : State) (buf s : Bytes) (m : Msg) (rest : Bytes) (h : readLit hup st buf s = .got m rest) :
    ∃ ls : List Bytes, (∀ l ∈ ls, (10 : UInt8) ∉ l) ∧ s = file ls ++ rest ∧ After buf ls m st := by
  have add : ∀ (l s' : Bytes) (ls : List Bytes), (10 : UInt8) ∉ l → (∀ l ∈ ls, (10 : UInt8) ∉ l) → s' = file ls ++ rest →
      (∀ x ∈ l :: ls, (10 : UInt8) ∉ x) ∧ l ++ 10 :: s' = file (l :: ls) ++ rest := by
    intro l s' ls h1 h2 h3
    exact ⟨List.forall_mem_cons.mpr ⟨h1, h2⟩, by rw [file_cons, h3]⟩
  induction hk : s.length using Nat.strong_induction_on generalizing st buf s with
  | _ k ih =>
  cases hl : readLine hup [] s with
  | eof => rw [readLit] at h; split at h <;> simp_all
  | blocked => rw [readLit] at h; split at h <;> simp_all
  | got line s' =>
    rw [read_step _ _ _ _ _ hl] at h
    have hlen := readLine_length _ _ _ _ _ hl
    obtain ⟨l, hl1, hl2, rfl⟩ := readLine_inv _ _ _ _ hl
    rw [List.nil_append] at hl2
    subst hl2
    have IH := fun st buf h => ih s'.length (hk ▸ hlen) st buf s' h rfl
    cases st with
    | prose =>
      dsimp only at h
      split at h
      · rename_i hj
        obtain ⟨ls, h1, h2, ls', c, t, rfl, h4, h5, h6, rfl⟩ := IH _ _ h
        obtain ⟨h7, h8⟩ := add line s' _ hl1 h1 h2
        refine ⟨_, h7, h8, ?_⟩
        rintro rfl
        exact Block.json [] line ls' c t (by simp) ((json_iff _).mp hj) h4 h5 h6
      · rename_i hj
        split at h
        · rename_i hx
          obtain ⟨ls, h1, h2, ls', c, rfl, h4, h5, rfl⟩ := IH _ _ h
          obtain ⟨h7, h8⟩ := add line s' _ hl1 h1 h2
          refine ⟨_, h7, h8, ?_⟩
          rintro rfl
          exact Block.nix [] line ls' c _ _ (by simp) ((opens_iff _ _).mp ⟨hx, rfl⟩) h4 h5 ((ends_iff _ _).mpr rfl)
        · rename_i hx
          obtain ⟨ls, h1, h2, h3⟩ := IH _ _ h
          obtain ⟨h7, h8⟩ := add line s' _ hl1 h1 h2
          refine ⟨_, h7, h8, fun hb => ?_⟩
          have hnl : ¬ Starts b!"```json" line ∧ ∀ u, ¬ OpensNix line u :=
            ⟨fun hh => hj ((json_iff _).mpr hh), fun u hh => hx ((opens_iff _ _).mpr hh).1⟩
          cases h3 hb with
          | json before o ls c t g1 g2 g3 g4 g5 =>
            exact Block.json (line :: before) o ls c t (List.forall_mem_cons.mpr ⟨hnl, g1⟩) g2 g3 g4 g5
          | nix before o ls c u t g1 g2 g3 g4 g5 =>
            exact Block.nix (line :: before) o ls c u t (List.forall_mem_cons.mpr ⟨hnl, g1⟩) g2 g3 g4 g5
    | json =>
      dsimp only at h
      split at h
      · rename_i hj
        obtain ⟨ls, h1, h2, ls', c, t, rfl, h4, h5, h6, rfl⟩ := IH _ _ h
        obtain ⟨h7, h8⟩ := add line s' _ hl1 h1 h2
        have hh := (hash_iff _).mp hj
        exact ⟨_, h7, h8, line :: ls', c, t, rfl, List.forall_mem_cons.mpr ⟨hash_not_fence hh, h4⟩, h5, .comment _ _ _ hh h6, rfl⟩
      · rename_i hj
        split at h
        · rename_i hx
          cases h
          refine ⟨[line], by simpa using hl1, by simp [file], [], line, [], rfl, by simp, (fence_iff _).mp hx, .nil, by simp⟩
        · rename_i hx
          obtain ⟨ls, h1, h2, ls', c, t, rfl, h4, h5, h6, rfl⟩ := IH _ _ h
          obtain ⟨h7, h8⟩ := add line s' _ hl1 h1 h2
          exact ⟨_, h7, h8, line :: ls', c, line ++ t, rfl, List.forall_mem_cons.mpr ⟨fun hh => hx ((fence_iff _).mpr hh), h4⟩, h5,
            .line _ _ _ (fun hh => hj ((hash_iff _).mpr hh)) h6, by simp⟩
    | nix u =>
      dsimp only at h
      split at h
      · rename_i hx
        cases h
        refine ⟨[line], by simpa using hl1, by simp [file], [], line, rfl, by simp, (fence_iff _).mp hx, by simp [file]⟩
      · rename_i hx
        obtain ⟨ls, h1, h2, ls', c, rfl, h4, h5, rfl⟩ := IH _ _ h
        obtain ⟨h7, h8⟩ := add line s' _ hl1 h1 h2
        exact ⟨_, h7, h8, line :: ls', c, rfl, List.forall_mem_cons.mpr ⟨fun hh => hx ((fence_iff _).mpr hh), h4⟩, h5,
          by simp [file]⟩

end Lit
open Lit

/-- **C92**: a message is read from a file exactly if the file begins with the lines of a block that stands for this message, after
any text, and then exactly these lines have been read. -/
theorem C92_blocks {hup : Hup} (hr : Readable hup) (s rest : Bytes) (m : Msg) :
    readLit hup .prose [] s = .got m rest ↔
      ∃ ls, Block ls m ∧ (∀ l ∈ ls, (10 : UInt8) ∉ l) ∧ s = file ls ++ rest := by
  constructor
  · intro h
    obtain ⟨ls, h1, h2, h3⟩ := read_inv _ _ _ _ _ h
    exact ⟨ls, h3 rfl, h1, h2⟩
  · rintro ⟨ls, hb, hn, rfl⟩
    cases hb with
    | json before o ls c t g1 g2 g3 g4 g5 =>
      simp only [List.mem_append, List.mem_cons, List.not_mem_nil, or_false] at hn
      rw [file_append, List.append_assoc, read_prose hr _ _ (fun l hl => hn l (.inl hl)) g1, file_cons,
        read_line hr _ _ _ _ (hn o (.inr (.inl rfl)))]
      simp only
      rw [if_pos ((json_iff _).mpr g2), read_json hr _ _ _ _ (fun l hl => hn l (.inr (.inr (.inl hl))))
        (hn c (.inr (.inr (.inr rfl)))) g3 g4 g5, List.nil_append]
    | nix before o ls c u t g1 g2 g3 g4 g5 =>
      simp only [List.mem_append, List.mem_cons, List.not_mem_nil, or_false] at hn
      have hx := (opens_iff o u).mpr g2
      rw [file_append, List.append_assoc, read_prose hr _ _ (fun l hl => hn l (.inl hl)) g1, file_cons,
        read_line hr _ _ _ _ (hn o (.inr (.inl rfl)))]
      simp only
      rw [if_neg (fun h => json_not_nix g2 ((json_iff _).mp h)), if_pos hx.1, hx.2,
        read_nix hr _ _ _ _ (fun l hl => hn l (.inr (.inr (.inl hl)))) (hn c (.inr (.inr (.inr rfl)))) g3 g4, List.nil_append,
        (ends_iff _ _).mp g5]

/-- **C92**: if the file has no whole block, no message is read, whatever it has of a block. -/
theorem C92_unfinished {hup : Hup} (hr : Readable hup) (s : Bytes)
    (h : ¬ ∃ ls m rest, Block ls m ∧ (∀ l ∈ ls, (10 : UInt8) ∉ l) ∧ s = file ls ++ rest) :
    readLit hup .prose [] s = if hup 0 then .eof else .blocked := by
  have hb : ∀ (line s : Bytes), (∃ l r, readLine hup line s = .got l r) ∨ readLine hup line s = if hup 0 then .eof else .blocked := by
    intro line s
    induction s generalizing line with
    | nil => right; rfl
    | cons c s ih =>
      rw [readLine, if_neg (by rw [hr]; simp)]
      split
      · exact .inl ⟨_, _, rfl⟩
      · exact ih _
  have ha : ∀ (st : State) (buf s : Bytes), (∃ m r, readLit hup st buf s = .got m r) ∨
      readLit hup st buf s = if hup 0 then .eof else .blocked := by
    intro st buf s
    fun_induction readLit hup st buf s <;> first
      | assumption
      | exact .inl ⟨_, _, rfl⟩
      | (rename_i hl; rcases hb [] _ with ⟨l, r, hh⟩ | hh
         · rw [hl] at hh; cases hh
         · rw [hl] at hh; right; revert hh; cases hup 0 <;> simp)
  rcases ha .prose [] s with ⟨m, r, hm⟩ | hm
  · obtain ⟨ls, h1, h2, h3⟩ := (C92_blocks hr s r m).mp hm
    exact absurd ⟨ls, m, r, h1, h2, h3⟩ h
  · exact hm

/-- **C92**: the messages of a file are those of its blocks, in their order, whatever text follows. -/
theorem C92_file {hup : Hup} (hr : Readable hup) (parse : Bytes → Option Json) (fix : Bytes → Bytes)
    (blocks : List (List Bytes × Msg × Json)) (rest : Bytes)
    (hb : ∀ x ∈ blocks, Block x.1 x.2.1 ∧ (∀ l ∈ x.1, (10 : UInt8) ∉ l) ∧ value parse fix x.2.1 = some x.2.2)
    (h : ¬ ∃ ls m r, Block ls m ∧ (∀ l ∈ ls, (10 : UInt8) ∉ l) ∧ rest = file ls ++ r) :
    loop parse fix hup (blocks.flatMap (fun x => file x.1) ++ rest) = (blocks.map (·.2.2), if hup 0 then .eof else .blocked) := by
  induction blocks with
  | nil =>
    have := C92_unfinished hr rest h
    rw [List.flatMap_nil, List.nil_append, loop]
    cases hh : hup 0 <;> rw [hh] at this <;> split <;> simp_all
  | cons x xs ih =>
    simp only [List.forall_mem_cons] at hb
    have hx := (C92_blocks hr (file x.1 ++ (xs.flatMap (fun x => file x.1) ++ rest)) _ x.2.1).mpr ⟨x.1, hb.1.1, hb.1.2.1, rfl⟩
    rw [List.flatMap_cons, List.append_assoc, loop]
    split
    · rename_i he; rw [hx] at he; cases he
    · rename_i he; rw [hx] at he; cases he
    · rename_i he; rw [hx] at he; cases he
      rw [hb.1.2.2]
      simp only [ih hb.2, List.map_cons]

/-- **C92**: a block that is not JSON ends the test: what is before it is handed on, what follows is not read. -/
theorem C92_malformed {hup : Hup} (hr : Readable hup) (parse : Bytes → Option Json) (fix : Bytes → Bytes)
    (blocks : List (List Bytes × Msg × Json)) (ls : List Bytes) (t rest : Bytes)
    (hb : ∀ x ∈ blocks, Block x.1 x.2.1 ∧ (∀ l ∈ x.1, (10 : UInt8) ∉ l) ∧ value parse fix x.2.1 = some x.2.2)
    (hl : Block ls (.json t)) (hn : ∀ l ∈ ls, (10 : UInt8) ∉ l) (hp : parse t = none) :
    loop parse fix hup (blocks.flatMap (fun x => file x.1) ++ (file ls ++ rest)) = (blocks.map (·.2.2), .parseError) := by
  induction blocks with
  | nil =>
    have hx := (C92_blocks hr (file ls ++ rest) _ (.json t)).mpr ⟨ls, hl, hn, rfl⟩
    rw [List.flatMap_nil, List.nil_append, loop]
    split
    · rename_i he; rw [hx] at he; cases he
    · rename_i he; rw [hx] at he; cases he
    · rename_i he; rw [hx] at he; cases he
      simp only [value, hp, List.map_nil]
  | cons x xs ih =>
    simp only [List.forall_mem_cons] at hb
    have hx := (C92_blocks hr (file x.1 ++ (xs.flatMap (fun x => file x.1) ++ (file ls ++ rest))) _ x.2.1).mpr
      ⟨x.1, hb.1.1, hb.1.2.1, rfl⟩
    rw [List.flatMap_cons, List.append_assoc, loop]
    split
    · rename_i he; rw [hx] at he; cases he
    · rename_i he; rw [hx] at he; cases he
    · rename_i he; rw [hx] at he; cases he
      rw [hb.1.2.2]
      simp only [ih hb.2, List.map_cons]

/-- **C92**: a block of Nix opens the document: its file and, without white space at the end, its lines. -/
theorem C92_opens (fix : Bytes → Bytes) (u t f : Bytes) (hu : Docs.IsUri (.str (fix u)) f) :
    ∃ params, JsonRpc.IsNotification (openMessage fix u t) b!"textDocument/didOpen" params ∧
      DocumentMessages.event b!"textDocument/didOpen" params = some (.didOpen f (some 1) (fix t)) := by
  refine ⟨_, .mk [(b!"jsonrpc", .str b!"2.0"), (b!"method", .str b!"textDocument/didOpen"), (b!"params", _)] _
    (by simp [JsonRpc.IsMessage, List.lookup]) (by simp [List.lookup]) (by simp [List.lookup]), ?_⟩
  rw [C87_open]
  exact ⟨f, some 1, fix t, rfl, _, rfl, _, rfl, _, rfl, ⟨_, rfl, hu⟩, ⟨b!"nix", _, rfl, rfl⟩, ⟨_, rfl, _, rfl⟩, _, rfl, rfl⟩

/-- **C92**, violated: the white space at the end of a document, a newline in particular, cannot be written. -/
theorem C92_end_violated {hup : Hup} (hr : Readable hup) (s rest u t : Bytes) (c : UInt8) (hc : White [c]) :
    readLit hup .prose [] s ≠ .got (.nix u (t ++ [c])) rest := by
  intro h
  obtain ⟨ls, hb, -, -⟩ := (C92_blocks hr s rest _).mp h
  cases hb with
  | nix before o ls cl u t g1 g2 g3 g4 g5 =>
    obtain ⟨_, _, _, hn⟩ := g5
    exact hn c hc t rfl

/-- A line of a file that ends with newlines. -/
theorem Lit.mem_of_file {ls : List Bytes} (hn : ∀ l ∈ ls, (10 : UInt8) ∉ l) {a l c : Bytes} (hl : (10 : UInt8) ∉ l)
    (h : file ls = a ++ 10 :: (l ++ 10 :: c)) : l ∈ ls := by
  have cut : ∀ (x y p q : Bytes), (10 : UInt8) ∉ x → (10 : UInt8) ∉ y → x ++ 10 :: p = y ++ 10 :: q → x = y ∧ p = q := by
    intro x
    induction x with
    | nil =>
      intro y p q _ hy h
      cases y with
      | nil => exact ⟨rfl, by simpa using h⟩
      | cons b y => simp only [List.nil_append, List.cons_append, List.cons.injEq] at h; simp [← h.1] at hy
    | cons b x ih =>
      intro y p q hx hy h
      cases y with
      | nil => simp only [List.nil_append, List.cons_append, List.cons.injEq] at h; simp [h.1] at hx
      | cons d y =>
        simp only [List.cons_append, List.cons.injEq, List.mem_cons, not_or] at h hx hy
        obtain ⟨h1, h2⟩ := ih y p q hx.2 hy.2 h.2
        exact ⟨by rw [h.1, h1], h2⟩
  induction ls generalizing a with
  | nil => simp [file] at h
  | cons x xs ih =>
    simp only [List.forall_mem_cons] at hn
    have hx := file_cons x xs []
    simp only [List.append_nil] at hx
    rw [hx] at h
    by_cases ha : (10 : UInt8) ∈ a
    · obtain ⟨y, z, rfl, hy⟩ := List.eq_append_cons_of_mem ha
      obtain ⟨rfl, h2⟩ := cut x y (file xs) (z ++ 10 :: (l ++ 10 :: c)) hn.1 hy (by rw [h]; simp)
      exact List.mem_cons_of_mem _ (ih hn.2 h2)
    · obtain ⟨rfl, h2⟩ := cut _ _ _ _ hn.1 ha h
      cases xs with
      | nil => simp [file] at h2
      | cons y ys =>
        have hy := file_cons y ys []
        simp only [List.append_nil] at hy
        rw [hy] at h2
        simp only [List.forall_mem_cons] at hn
        obtain ⟨rfl, -⟩ := cut _ _ _ _ hn.2.1 hl h2
        simp

/-- **C92**, violated: neither can a document with a line that begins with three backquotes, as in a comment in Markdown. -/
theorem C92_fence_violated {hup : Hup} (hr : Readable hup) (s rest u a l b : Bytes) (hl : (10 : UInt8) ∉ l) (hf : Starts b!"```" l) :
    readLit hup .prose [] s ≠ .got (.nix u (a ++ 10 :: (l ++ 10 :: b))) rest := by
  intro h
  obtain ⟨ls, hb, hn, -⟩ := (C92_blocks hr s rest _).mp h
  generalize hm : Msg.nix u (a ++ 10 :: (l ++ 10 :: b)) = m at hb
  cases hb with
  | json => cases hm
  | nix before o ls cl u t g1 g2 g3 g4 g5 =>
    cases hm
    obtain ⟨w, _, hw, _⟩ := g5
    exact g3 l (mem_of_file (fun x hx => hn x (by simp [hx])) hl (c := b ++ w) (a := a) (by rw [hw]; simp)) hf

/-- **C92**, violated: a block is lost if the line that ends it is the last one of the file and has no newline. -/
theorem C92_last_line_violated {hup : Hup} (hr : Readable hup) (ls : List Bytes) (m : Msg) (s : Bytes) (hb : Block ls m)
    (hn : ∀ l ∈ ls, (10 : UInt8) ∉ l) (hs : file ls = s ++ [10]) :
    readLit hup .prose [] s = if hup 0 then .eof else .blocked := by
  refine C92_unfinished hr s ?_
  rintro ⟨ls', m', rest, h1, h2, rfl⟩
  have g1 := (C92_blocks hr (file ls) [] m).mpr ⟨ls, hb, hn, by simp⟩
  have g2 := (C92_blocks hr (file ls) (rest ++ [10]) m').mpr ⟨ls', h1, h2, by rw [hs, List.append_assoc]⟩
  rw [g1] at g2
  simp at g2

/-- **C92**, violated: a text that is no JSON is read as if it were, because its lines are put together without anything in between:
in the block of the second file there is the number 12. -/
theorem C92_joined_violated {hup : Hup} (hr : Readable hup) (rest : Bytes) :
    readLit hup .prose [] (b!"```json\n[1\n2]\n```\n" ++ rest) = .got (.json b!"[12]") rest ∧
    readLit hup .prose [] (b!"```json\n[12]\n```\n" ++ rest) = .got (.json b!"[12]") rest := by
  have hs : ∀ w l : Bytes, (∃ b, l = w ++ b) → Starts w l := fun w l ⟨b, h⟩ => ⟨[], b, by simp [White], h⟩
  have hf : ∀ l : Bytes, b!"```".isPrefixOf (trim l) = false → ¬ Starts b!"```" l := fun l h hh => by
    rw [(fence_iff l).mpr hh] at h; cases h
  have hh : ∀ l : Bytes, b!"#".isPrefixOf (trim l) = false → ¬ Starts b!"#" l := fun l h hh => by
    rw [(hash_iff l).mpr hh] at h; cases h
  constructor
  · refine (C92_blocks hr _ rest _).mpr ⟨[b!"```json", b!"[1", b!"2]", b!"```"], ?_, by decide, rfl⟩
    exact .json [] b!"```json" [b!"[1", b!"2]"] b!"```" b!"[12]" (by simp) (hs _ _ ⟨[], rfl⟩)
      (by simp only [List.forall_mem_cons]; exact ⟨hf _ (by decide +kernel), hf _ (by decide +kernel), by simp⟩)
      (hs _ _ ⟨[], rfl⟩) (.line b!"[1" _ b!"2]" (hh _ (by decide +kernel)) (.line b!"2]" _ [] (hh _ (by decide +kernel)) .nil))
  · refine (C92_blocks hr _ rest _).mpr ⟨[b!"```json", b!"[12]", b!"```"], ?_, by decide, rfl⟩
    exact .json [] b!"```json" [b!"[12]"] b!"```" b!"[12]" (by simp) (hs _ _ ⟨[], rfl⟩)
      (by simp only [List.forall_mem_cons]; exact ⟨hf _ (by decide +kernel), by simp⟩)
      (hs _ _ ⟨[], rfl⟩) (.line b!"[12]" _ [] (hh _ (by decide +kernel)) .nil)

/-- **C11**: what an editor writes is handed on as it is, as long as it can be parsed. -/
theorem C11_dispatched (parse : Bytes → Option Json) (chunk : Nat → Nat) (msgs : List (Bytes × Json))
    (h : ∀ x ∈ msgs, x.1.length < 2 ^ 64 ∧ parse x.1 = some x.2) :
    loopStandard parse chunk stillOpen (msgs.flatMap (fun x => frame x.1)) = (msgs.map (·.2), .blocked) := by
  induction msgs with
  | nil =>
    have : readMessage chunk stillOpen [] = .blocked := by unfold readMessage; rw [readHeaders]; rfl
    rw [List.flatMap_nil, loopStandard]
    split <;> simp_all
  | cons x xs ih =>
    simp only [List.forall_mem_cons] at h
    have hx := C11_read_frame chunk x.1 (xs.flatMap (fun x => frame x.1)) h.1.1
    rw [List.flatMap_cons, loopStandard]
    split
    · rename_i he; rw [hx] at he; cases he
    · rename_i he; rw [hx] at he; cases he
    · rename_i he; rw [hx] at he; cases he
      rw [h.1.2]
      simp only [ih h.2, List.map_cons]

/-- **C11**, violated: after a message that is no JSON the server reads nothing any more: it ends, where the protocol asks for the
error `ParseError` as the reply. -/
theorem C11_malformed_violated (parse : Bytes → Option Json) (chunk : Nat → Nat) (body rest : Bytes) (h : body.length < 2 ^ 64)
    (hp : parse body = none) : loopStandard parse chunk stillOpen (frame body ++ rest) = ([], .parseError) := by
  have hx := C11_read_frame chunk body rest h
  rw [loopStandard]
  split
  · rename_i he; rw [hx] at he; cases he
  · rename_i he; rw [hx] at he; cases he
  · rename_i he; rw [hx] at he; cases he
    rw [hp]

/-- A text, a document and a request. -/
example : readLit (fun n => n == 0) .prose [] b!"# Test\n\n```nix file:///a.nix\n{ a = 1;\n}\n```\n\n  ```json\n{\n" =
    .got (.nix b!"file:///a.nix" b!"{ a = 1;\n}") b!"\n  ```json\n{\n" := by decide +kernel

example : readLit (fun n => n == 0) .prose [] b!"\n  ```json\n{\n# comment\n  \"id\": 1 }\n  ```\nEnd" =
    .got (.json b!"{  \"id\": 1 }") b!"End" := by decide +kernel

example : Readable (fun n => n == 0) := fun n => by simp

/-- A file without blocks. -/
example : ¬ ∃ ls m r, Block ls m ∧ (∀ l ∈ ls, (10 : UInt8) ∉ l) ∧ b!"# Test\n```nix\n1\n```\n" = file ls ++ r := by
  rintro ⟨ls, m, r, h1, h2, h3⟩
  have := (C92_blocks (hup := fun n => n == 0) (fun n => by simp) _ r m).mpr ⟨ls, h1, h2, h3⟩
  rw [show readLit (fun n => n == 0) .prose [] b!"# Test\n```nix\n1\n```\n" = .eof by decide +kernel] at this
  cases this

/-- A whole file. -/
example : ∃ a b, loop (fun b => some (.str b)) id (fun n => n == 0)
    (b!"# Test\n```nix file:///a.nix\n1\n```\n" ++ (b!"```json\n{}\n```\n" ++ [])) =
    ([openMessage id a b!"1", .str b], .eof) ∧ a = b!"file:///a.nix" ∧ b = b!"{}" := by
  have hr : Readable (fun n => n == 0) := fun n => by simp
  obtain ⟨l1, b1, n1, e1⟩ := (C92_blocks hr b!"# Test\n```nix file:///a.nix\n1\n```\n" [] (.nix b!"file:///a.nix" b!"1")).mp
    (by decide +kernel)
  obtain ⟨l2, b2, n2, e2⟩ := (C92_blocks hr b!"```json\n{}\n```\n" [] (.json b!"{}")).mp (by decide +kernel)
  rw [List.append_nil] at e1 e2
  have := C92_file hr (fun b => some (.str b)) id [(l1, _, openMessage id b!"file:///a.nix" b!"1"), (l2, _, .str b!"{}")] []
    (by simp only [List.forall_mem_cons]; exact ⟨⟨b1, n1, rfl⟩, ⟨b2, n2, rfl⟩, by simp⟩)
    (by
      rintro ⟨ls, m, r, h1, h2, h3⟩
      have := (C92_blocks hr _ r m).mpr ⟨ls, h1, h2, h3⟩
      rw [show readLit (fun n => n == 0) .prose [] [] = .eof by decide +kernel] at this
      cases this)
  refine ⟨b!"file:///a.nix", b!"{}", ?_, rfl, rfl⟩
  rw [e1, e2]
  simpa using this

/-- A URI of a document. -/
example : Docs.IsUri (.str (id b!"file:///a.nix")) b!"/a.nix" := ⟨_, rfl, by decide +kernel⟩

/-- A block that is not JSON. -/
example : loop (fun _ => none) id (fun n => n == 0) (b!"```json\n{\n```\n" ++ b!"more") = ([], .parseError) := by
  have hr : Readable (fun n => n == 0) := fun n => by simp
  obtain ⟨l, b, n, e⟩ := (C92_blocks hr b!"```json\n{\n```\n" [] (.json b!"{")).mp (by decide +kernel)
  have := C92_malformed hr (fun _ => none) id [] l b!"{" b!"more" nofun b n rfl
  rw [List.append_nil] at e
  rw [e]
  exact this

end Verif.Props
