import Verif.Model.Framing
import Verif.Props.Version
/-
Property C11: message framing.
-/
namespace Verif.Props
open Framing Draft

/-- The writer keeps its end open. -/
def stillOpen : Hup := fun _ => false

theorem readLine_line (line l rest : Bytes) (h : (10 : UInt8) ∉ l) :
    readLine stillOpen line (l ++ 10 :: rest) = .got (line ++ l) rest := by
  induction l generalizing line with
  | nil => simp [readLine, stillOpen]
  | cons c l ih =>
    simp only [List.mem_cons, not_or] at h
    simp only [List.cons_append, readLine, stillOpen, Bool.false_eq_true, if_false]
    rw [if_neg (fun hc => h.1 hc.symm), ih _ h.2]
    simp

theorem digits_no {x : UInt8} (hx : isDigit x = false) (n : Nat) : x ∉ natDigits n := by
  intro h
  have := List.all_eq_true.mp (natDigits_digits n).1 _ h
  rw [hx] at this; cases this

theorem isDigit_not_space (c : UInt8) (h : isDigit c = true) : isSpace c = false := by
  simp only [isDigit, Bool.and_eq_true, decide_eq_true_eq] at h
  simp only [isSpace, Bool.or_eq_false_iff, beq_eq_false_iff_ne]
  have h1 : 48 ≤ c.toNat := UInt8.le_iff_toNat_le.mp h.1
  refine ⟨⟨⟨⟨⟨?_, ?_⟩, ?_⟩, ?_⟩, ?_⟩, ?_⟩ <;> (rintro rfl; simp at h1)

theorem dropWhile_of_head (p : UInt8 → Bool) (l : Bytes) (h : ∀ c ∈ l.head?, p c = false) : l.dropWhile p = l := by
  cases l with
  | nil => rfl
  | cons c l => rw [List.dropWhile_cons_of_neg]; simp [h c (by simp)]

theorem trim_digits (n : Nat) : trim (natDigits n ++ [13]) = natDigits n := by
  have hd := natDigits_digits n
  have hall : ∀ c ∈ natDigits n, isSpace c = false := fun c hc => isDigit_not_space c (List.all_eq_true.mp hd.1 c hc)
  have h1 : (natDigits n ++ [13]).dropWhile isSpace = natDigits n ++ [13] := by
    apply dropWhile_of_head
    intro c hc
    cases hn : natDigits n with
    | nil => exact absurd hn hd.2.1
    | cons x xs =>
      rw [hn] at hc
      simp at hc
      subst hc
      exact hall _ (by rw [hn]; simp)
  unfold trim
  rw [h1, List.reverse_append, List.reverse_singleton, List.singleton_append, List.dropWhile_cons_of_pos (by decide),
    dropWhile_of_head, List.reverse_reverse]
  intro c hc
  rw [List.head?_reverse] at hc
  exact hall c (List.mem_of_getLast? hc)

/-- Decimal numbers start with 0 only if they are 0. -/
theorem natDigits_no_leading_zero (n : Nat) (c : UInt8) (r : Bytes) : natDigits n ≠ 48 :: c :: r := by
  fun_induction natDigits n generalizing c r with
  | case1 n h => simp
  | case2 n h ih =>
    intro he
    cases hd : natDigits (n / 10) with
    | nil => exact (natDigits_digits (n / 10)).2.1 hd
    | cons x xs =>
      cases xs with
      | nil =>
        rw [hd] at he
        simp at he
        obtain ⟨rfl, -⟩ := he
        have := (natDigits_digits (n / 10)).2.2
        rw [hd] at this
        simp at this
        omega
      | cons y ys =>
        rw [hd] at he
        simp at he
        obtain ⟨rfl, -⟩ := he
        exact ih _ _ hd

theorem consumeDigits_all (l : Bytes) (acc : Nat) (h : l.all isDigit = true)
    (hlt : l.foldl (fun a c => a * 10 + (c.toNat - 48)) acc < 2 ^ 64) :
    consumeDigits 10 l acc = some (l.foldl (fun a c => a * 10 + (c.toNat - 48)) acc, []) := by
  have mono : ∀ (l : Bytes) (a : Nat), a ≤ l.foldl (fun a c => a * 10 + (c.toNat - 48)) a := by
    intro l; induction l with
    | nil => intro a; simp
    | cons c l ih => intro a; simp only [List.foldl_cons]; refine Nat.le_trans ?_ (ih _); omega
  induction l generalizing acc with
  | nil => rfl
  | cons c l ih =>
    simp only [List.all_cons, Bool.and_eq_true] at h
    simp only [List.foldl_cons] at hlt ⊢
    have hv : digitValue c = c.toNat - 48 := by simp [digitValue, h.1]
    have hc : c.toNat ≤ 57 := by
      have := h.1; simp only [isDigit, Bool.and_eq_true, decide_eq_true_eq] at this
      exact UInt8.le_iff_toNat_le.mp this.2
    simp only [consumeDigits, hv]
    rw [if_neg (by omega), if_pos (Nat.lt_of_le_of_lt (mono l _) hlt)]
    exact ih _ h.2 hlt

theorem getAsUnsigned_digits (n : Nat) (h : n < 2 ^ 64) : getAsUnsigned (natDigits n) = some n := by
  have hd := natDigits_digits n
  have hr : autoRadix (natDigits n) = (10, natDigits n) := by
    unfold autoRadix
    split
    · rename_i c rest heq; exact absurd heq (natDigits_no_leading_zero n c rest)
    · rfl
  unfold getAsUnsigned
  rw [hr]
  simp only [if_neg hd.2.1]
  rw [consumeDigits_all _ _ hd.1 (by rw [hd.2.2]; exact h), hd.2.2]
  simp only
  rw [if_pos]
  refine ⟨trivial, ?_⟩
  cases hn : natDigits n with
  | nil => exact absurd hn hd.2.1
  | cons x xs =>
    have h1 := hd.1
    rw [hn] at h1
    simp only [List.all_cons, Bool.and_eq_true] at h1
    have hc : x.toNat ≤ 57 := by
      have := h1.1; simp only [isDigit, Bool.and_eq_true, decide_eq_true_eq] at this
      exact UInt8.le_iff_toNat_le.mp this.2
    simp only [List.headD_cons, digitValue, h1.1, if_true]
    omega

theorem readHeaders_frame (len : Nat) (body rest : Bytes) (h : body.length < 2 ^ 64) :
    readHeaders stillOpen len (frame body ++ rest) = .got body.length (body ++ rest) := by
  have e : frame body ++ rest = (lengthPrefix ++ natDigits body.length ++ [13]) ++ 10 :: ([13] ++ 10 :: (body ++ rest)) := by
    simp [frame, lengthPrefix]
  have hl : readLine stillOpen [] (frame body ++ rest)
      = .got (lengthPrefix ++ natDigits body.length ++ [13]) ([13] ++ 10 :: (body ++ rest)) := by
    rw [e]
    apply readLine_line
    simp only [List.mem_append, not_or]
    exact ⟨⟨by decide, digits_no (by decide) _⟩, by decide⟩
  rw [readHeaders]
  split
  · rename_i heq; rw [hl] at heq; cases heq
  · rename_i heq; rw [hl] at heq; cases heq
  · rename_i line rest' heq
    rw [hl] at heq
    cases heq
    rw [if_pos (by rw [List.isPrefixOf_iff_prefix, List.append_assoc]; exact List.prefix_append _ _)]
    have : (lengthPrefix ++ natDigits body.length ++ [13]).drop lengthPrefix.length = natDigits body.length ++ [13] := by
      rw [List.append_assoc, List.drop_left']; rfl
    rw [this, trim_digits, getAsUnsigned_digits _ h, Option.getD_some]
    have hl2 : readLine stillOpen [] ([13] ++ 10 :: (body ++ rest)) = .got [13] (body ++ rest) :=
      readLine_line [] [13] _ (by decide)
    rw [readHeaders]
    split
    · rename_i heq; rw [hl2] at heq; cases heq
    · rename_i heq; rw [hl2] at heq; cases heq
    · rename_i heq
      rw [hl2] at heq
      cases heq
      rw [if_neg (by decide), if_pos (by decide)]

theorem readBody_all (chunk : Nat → Nat) (hup : Hup) (acc body rest : Bytes) (need : Nat) (h : need = body.length) :
    readBody chunk hup acc need (body ++ rest) = .got (acc ++ body) rest := by
  induction need using Nat.strongRecOn generalizing acc body with
  | ind need ih =>
    rw [readBody]
    split
    · have : body = [] := List.length_eq_zero_iff.mp (by omega)
      subst this; simp
    · rw [dif_neg (by intro hn; simp at hn; simp [hn.1] at h; omega)]
      simp only
      generalize hn : min (max 1 (chunk need)) (min need (body ++ rest).length) = n
      have hlen : (body ++ rest).length = body.length + rest.length := List.length_append
      have hn1 : n ≤ body.length := by omega
      have hn2 : 1 ≤ n := by omega
      have e1 : (body ++ rest).drop n = body.drop n ++ rest := by
        rw [List.drop_append, Nat.sub_eq_zero_of_le hn1, List.drop_zero]
      have e2 : (body ++ rest).take n = body.take n := by
        rw [List.take_append, Nat.sub_eq_zero_of_le hn1]; simp
      rw [e1, e2, ih (need - n) (by omega) (acc ++ body.take n) (body.drop n) (by simp; omega)]
      rw [List.append_assoc, List.take_append_drop]

/-- Read messages until the reader blocks or the stream ends: the bodies read, and how it ended. Independent of the
number of steps given as long as it is enough (`true` = the reader is waiting for more input). -/
inductive ReadsAll (chunk : Nat → Nat) (hup : Hup) : Bytes → List Bytes → Bool → Prop
  | blocked (s) : readMessage chunk hup s = .blocked → ReadsAll chunk hup s [] true
  | eof (s) : readMessage chunk hup s = .eof → ReadsAll chunk hup s [] false
  | next (s body rest bodies w) : readMessage chunk hup s = .got body rest → ReadsAll chunk hup rest bodies w →
    ReadsAll chunk hup s (body :: bodies) w

/-- Reading is a function of the bytes: there is only one outcome. -/
theorem ReadsAll.unique {chunk hup s b1 w1 b2 w2} (h1 : ReadsAll chunk hup s b1 w1) (h2 : ReadsAll chunk hup s b2 w2) :
    b1 = b2 ∧ w1 = w2 := by
  induction h1 generalizing b2 w2 with
  | blocked s h => cases h2 <;> simp_all
  | eof s h => cases h2 <;> simp_all
  | next s body rest bodies w h hr ih =>
    cases h2 with
    | blocked _ h' => simp_all
    | eof _ h' => simp_all
    | next _ body' rest' bodies' _ h' hr' =>
      rw [h] at h'; cases h'
      obtain ⟨rfl, rfl⟩ := ih hr'
      exact ⟨rfl, rfl⟩

/-- **C11**: the bytes of one written message, followed by anything, are read as exactly this message. -/
theorem C11_read_frame (chunk : Nat → Nat) (body rest : Bytes) (h : body.length < 2 ^ 64) :
    readMessage chunk stillOpen (frame body ++ rest) = .got body rest := by
  unfold readMessage
  rw [readHeaders_frame _ _ _ h]
  simp only
  rw [readBody_all _ _ _ _ _ _ rfl]; rfl

/-- **C11**: any sequence of messages written on the pipe is read back as exactly this sequence, whatever bytes the
bodies contain and however the system splits the reads, as long as the writer keeps the pipe open. Partial: if the
writer closes the pipe the messages still in it are lost, see `C11_hangup_loses_messages_violated`. -/
theorem C11_roundtrip_partial (chunk : Nat → Nat) (bodies : List Bytes) (h : ∀ b ∈ bodies, b.length < 2 ^ 64) :
    ReadsAll chunk stillOpen (bodies.map frame).flatten bodies true := by
  induction bodies with
  | nil =>
    apply ReadsAll.blocked
    unfold readMessage
    rw [readHeaders]
    rfl
  | cons b bs ih =>
    simp only [List.map_cons, List.flatten_cons]
    exact .next _ _ _ _ _ (C11_read_frame _ _ _ (h b (by simp))) (ih (fun b hb => h b (by simp [hb])))

/-- A header line other than the length: no line feed in it, not the length header, not blank. -/
def OtherHeader (l : Bytes) : Prop := (10 : UInt8) ∉ l ∧ lengthPrefix.isPrefixOf l = false ∧ trim l ≠ []

/-- The header lines `ls`, each with its line feed. -/
def headerLines (ls : List Bytes) : Bytes := (ls.map (· ++ [10])).flatten

theorem readHeaders_others (len : Nat) (ls : List Bytes) (s : Bytes) (h : ∀ l ∈ ls, OtherHeader l) :
    readHeaders stillOpen len (headerLines ls ++ s) = readHeaders stillOpen len s := by
  induction ls with
  | nil => rfl
  | cons l ls ih =>
    have ⟨hnl, hp, ht⟩ := h l (by simp)
    have e : headerLines (l :: ls) ++ s = l ++ 10 :: (headerLines ls ++ s) := by simp [headerLines]
    have hl : readLine stillOpen [] (headerLines (l :: ls) ++ s) = .got l (headerLines ls ++ s) := by
      rw [e]; exact readLine_line [] l _ hnl
    rw [← ih (fun x hx => h x (by simp [hx]))]
    conv => lhs; rw [readHeaders]
    split
    · rename_i heq; rw [hl] at heq; cases heq
    · rename_i heq; rw [hl] at heq; cases heq
    · rename_i heq
      rw [hl] at heq; cases heq
      rw [if_neg (by simp [hp]), if_neg ht]

/-- **C11**, other headers do not disturb the reader, whether they come before or after the length header. -/
theorem C11_other_headers_ignored (chunk : Nat → Nat) (before after : List Bytes) (body rest : Bytes)
    (h : body.length < 2 ^ 64) (hb : ∀ l ∈ before, OtherHeader l) (ha : ∀ l ∈ after, OtherHeader l) :
    readMessage chunk stillOpen (headerLines before ++ (b!"Content-Length: " ++ natDigits body.length ++ b!"\r\n" ++
      (headerLines after ++ (b!"\r\n" ++ (body ++ rest))))) = .got body rest := by
  unfold readMessage
  rw [readHeaders_others _ _ _ hb]
  have hl : ∀ t, readLine stillOpen [] (b!"Content-Length: " ++ natDigits body.length ++ b!"\r\n" ++ t)
      = .got (lengthPrefix ++ natDigits body.length ++ [13]) t := by
    intro t
    have e : b!"Content-Length: " ++ natDigits body.length ++ b!"\r\n" ++ t
        = (lengthPrefix ++ natDigits body.length ++ [13]) ++ 10 :: t := by simp [lengthPrefix]
    rw [e]
    apply readLine_line
    simp only [List.mem_append, not_or]
    exact ⟨⟨by decide, digits_no (by decide) _⟩, by decide⟩
  have key : ∀ t, readHeaders stillOpen 0 (b!"Content-Length: " ++ natDigits body.length ++ b!"\r\n" ++ t)
      = readHeaders stillOpen body.length t := by
    intro t
    conv => lhs; rw [readHeaders]
    split
    · rename_i heq; rw [hl] at heq; cases heq
    · rename_i heq; rw [hl] at heq; cases heq
    · rename_i heq
      rw [hl] at heq
      cases heq
      rw [if_pos (by rw [List.isPrefixOf_iff_prefix, List.append_assoc]; exact List.prefix_append _ _)]
      have : (lengthPrefix ++ natDigits body.length ++ [13]).drop lengthPrefix.length = natDigits body.length ++ [13] := by
        rw [List.append_assoc, List.drop_left']; rfl
      rw [this, trim_digits, getAsUnsigned_digits _ h, Option.getD_some]
  rw [key, readHeaders_others _ _ _ ha]
  have hl2 : readLine stillOpen [] (b!"\r\n" ++ (body ++ rest)) = .got [13] (body ++ rest) :=
    readLine_line [] [13] _ (by decide)
  have : readHeaders stillOpen body.length (b!"\r\n" ++ (body ++ rest)) = .got body.length (body ++ rest) := by
    rw [readHeaders]
    split
    · rename_i heq; rw [hl2] at heq; cases heq
    · rename_i heq; rw [hl2] at heq; cases heq
    · rename_i heq
      rw [hl2] at heq
      cases heq
      rw [if_neg (by decide), if_pos (by decide)]
  rw [this]
  simp only
  rw [readBody_all _ _ _ _ _ _ rfl]; rfl

/-- **C11 violated**: a complete message already in the pipe is not delivered if the writer has closed its end, because
the reader tests for the hang-up before it tests for available data. -/
theorem C11_hangup_loses_messages_violated (chunk : Nat → Nat) (bodies : List Bytes) :
    ReadsAll chunk (fun _ => true) (bodies.map frame).flatten [] false := by
  apply ReadsAll.eof
  unfold readMessage
  rw [readHeaders]
  have : ∀ s, readLine (fun _ => true) [] s = .eof := by intro s; cases s <;> rfl
  split
  · rfl
  · rename_i heq; rw [this] at heq; cases heq
  · rename_i heq; rw [this] at heq; cases heq

/-- A finding: a header whose length cannot be parsed gives an empty body and the real body is read as headers. -/
theorem C11_bad_length_is_empty_body (chunk : Nat → Nat) :
    readMessage chunk stillOpen b!"Content-Length: abc\r\n\r\n{}" = .got [] b!"{}" := by
  unfold readMessage
  rw [show readHeaders stillOpen 0 b!"Content-Length: abc\r\n\r\n{}" = .got 0 b!"{}" by decide +kernel]
  simp only
  rw [readBody]; rfl

example : ∀ b ∈ [b!"{\"id\":1}", b!"\r\n\r\nContent-Length: 3"], b.length < 2 ^ 64 := by decide

example : OtherHeader b!"Content-Type: application/json\r" := by unfold OtherHeader; decide

end Verif.Props
