import Verif.Lemmas.Filled
import Verif.Props.Replies
/-
**C93**: the messages of diagnostics. Where the kind of a diagnostic or of a note has places for arguments in its message,
the arguments are there; formatting reads nothing past the end of the arguments.
-/
namespace Verif.Props
namespace Msgs
open Verif.Nixf

/-- The bytes of a place for an argument. -/
def place : Bytes := [123, 125]

/-- Pieces of text with arguments between them. -/
def weave : List Bytes → List Bytes → Bytes
  | p :: ps, a :: args => p ++ a ++ weave ps args
  | ps, _ => ps.flatten

/-- `out` is the message `msg` with the arguments in its places, in order: the message is cut at all its places, and there
is one argument for each of them. -/
def Fills (msg : Bytes) (args : List Bytes) (out : Bytes) : Prop :=
  ∃ p ps, ps.length = args.length ∧ msg = p ++ (ps.map (place ++ ·)).flatten ∧ (∀ q ∈ p :: ps, ¬ place <:+: q) ∧
    out = weave (p :: ps) args

/-- An equation for each case, whatever the following byte. -/
theorem format_place (rest a : Bytes) (args : List Bytes) : simpleFormat (123 :: 125 :: rest) (a :: args) =
    match simpleFormat rest args with | .ok r => .ok (a ++ r) | .ub => .ub := rfl
theorem format_ub (rest : Bytes) : simpleFormat (123 :: 125 :: rest) [] = .ub := rfl
theorem format_char {c : UInt8} {rest : Bytes} (h : ¬ place <+: c :: rest) (args : List Bytes) : simpleFormat (c :: rest) args =
    match simpleFormat rest args with | .ok r => .ok (c :: r) | .ub => .ub := by
  rw [simpleFormat.eq_def]
  split
  · rename_i h'; cases h'
  · rename_i h'; cases h'; exact absurd ⟨_, rfl⟩ h
  · rename_i h'; cases h'; rfl

theorem holes_char {c : UInt8} {rest : Bytes} (h : ¬ place <+: c :: rest) : Filling.holes (c :: rest) = Filling.holes rest := by
  rw [Filling.holes.eq_def]
  split
  · rename_i h'; cases h'
  · rename_i h'; cases h'; exact absurd ⟨_, rfl⟩ h
  · rename_i h'; cases h'; rfl

theorem weave_cons (c : UInt8) (p : Bytes) (ps args : List Bytes) : weave ((c :: p) :: ps) args = c :: weave (p :: ps) args := by
  cases args <;> rfl

/-- With as many arguments as places, the message is formatted. -/
theorem format_fills : ∀ {msg : Bytes} {args : List Bytes}, args.length = Filling.holes msg →
    ∃ out, simpleFormat msg args = .ok out ∧ Fills msg args out := by
  intro msg
  fun_induction Filling.holes msg with
  | case1 =>
    intro args h
    obtain rfl := List.length_eq_zero_iff.mp h
    exact ⟨[], rfl, [], [], rfl, rfl, by simp [place], rfl⟩
  | case2 rest ih =>
    intro args h
    match args, h with
    | a :: args, h =>
      obtain ⟨out, ho, p, ps, hl, hm, hq, he⟩ := ih (Nat.succ.inj h)
      refine ⟨a ++ out, by rw [format_place, ho], [], p :: ps, by simp [hl], by simp [hm, place], ?_, by simp [weave, he]⟩
      intro q hq'
      rcases List.mem_cons.mp hq' with rfl | hq'
      · simp [place]
      · exact hq q hq'
  | case3 c rest hn ih =>
    intro args h
    have hp : ¬ place <+: c :: rest := by
      rintro ⟨t, ht⟩
      cases ht
      exact hn _ rfl rfl
    obtain ⟨out, ho, p, ps, hl, hm, hq, he⟩ := ih h
    refine ⟨c :: out, by rw [format_char hp, ho], c :: p, ps, hl, by simp [hm], ?_, by rw [weave_cons, he]⟩
    intro q hq'
    rcases List.mem_cons.mp hq' with rfl | hq'
    · rw [List.infix_cons_iff]
      rintro (h' | h')
      · refine hp (h'.trans ?_)
        rw [hm]
        exact ⟨(ps.map (place ++ ·)).flatten, by simp⟩
      · exact hq p (by simp) h'
    · exact hq q (by simp [hq'])

/-- **C93**: formatting reads past the end of the arguments exactly if there are fewer of them than places. -/
theorem C93_reads (msg : Bytes) (args : List Bytes) : simpleFormat msg args = .ub ↔ args.length < Filling.holes msg := by
  fun_induction Filling.holes msg generalizing args with
  | case1 => simp [simpleFormat]
  | case2 rest ih =>
    cases args with
    | nil => simp [format_ub]
    | cons a args =>
      rw [format_place]
      have := ih args
      split <;> simp_all
  | case3 c rest hn ih =>
    have hp : ¬ place <+: c :: rest := by
      rintro ⟨t, ht⟩
      cases ht
      exact hn _ rfl rfl
    rw [format_char hp]
    have := ih args
    split <;> simp_all

/-- The text of a diagnostic and those of its notes are defined. -/
def Formatted (d : Diagnostic) : Prop :=
  (∃ out, d.format = .ok out ∧ Fills d.kind.message d.args out) ∧
    ∀ n ∈ d.notes, ∃ out, n.format = .ok out ∧ Fills n.kind.message n.args out

theorem formatted {d : Diagnostic} (h : Filling.Filled d) : Formatted d :=
  ⟨format_fills (by rw [Filling.arity_eq]; exact h.args), fun n hn => format_fills (by rw [Filling.noteArity_eq]; exact h.notes n hn)⟩

/-- **C93**, syntax: every diagnostic of the parser for any source, and each of its notes, has the text of its kind with an
argument in each place. -/
theorem C93_parse {src : Bytes} {root : Node} {s : PState} (h : parse src = some (root, s)) : ∀ d ∈ s.lex.diags, Formatted d :=
  fun d hd => formatted (Filling.parse_all h d hd)

/-- **C93**, scopes: the same for the diagnostics of variable lookup on any tree. -/
theorem C93_lookup (P : PrimOps) (fuel : Nat) (root : Node) : ∀ d ∈ (runVL P fuel root).diags, Formatted d :=
  fun d hd => formatted (Filling.runVL_all P fuel root d hd)

section
open Docs Items Acts Wire

theorem infix_all {l m : Bytes} (h : l <:+: m) (hm : m.all (· < 128) = true) : l.all (· < 128) = true :=
  List.all_eq_true.mpr fun c hc => List.all_eq_true.mp hm c (h.subset hc)

theorem text_weave : ∀ {ps args : List Bytes}, (∀ p ∈ ps, IsText p) → (∀ a ∈ args, IsText a) → ps.length = args.length + 1 →
    IsText (weave ps args)
  | [p], [], hp, _, _ => by simpa [weave] using hp p (by simp)
  | p :: q :: ps, a :: args, hp, ha, hl => by
    rw [weave]
    exact isText_append (isText_append (hp p (by simp)) (ha a (by simp)))
      (text_weave (fun x hx => hp x (by simp at hx ⊢; tauto)) (fun x hx => ha x (by simp [hx])) (by simpa using hl))

/-- The text is UTF-8 if the arguments are. -/
theorem text_fills {msg out : Bytes} {args : List Bytes} (hm : msg.all (· < 128) = true) (ha : ∀ a ∈ args, IsText a)
    (h : Fills msg args out) : IsText out := by
  obtain ⟨p, ps, hl, rfl, -, rfl⟩ := h
  refine text_weave (fun q hq => ?_) ha (by simp [hl])
  refine isText_ascii fun c hc => ?_
  have : c ∈ p ++ (ps.map (place ++ ·)).flatten := by
    rcases List.mem_cons.mp hq with rfl | hq
    · simp [hc]
    · exact List.mem_append_right _ (List.mem_flatten.mpr ⟨_, List.mem_map_of_mem hq, by simp [hc]⟩)
  simpa using List.all_eq_true.mp hm c this

/-- **C93**, in the editor: for any source, what the server publishes for the diagnostics is read by the editor as the server
made it, with texts that are defined. The names in the diagnostics are to be UTF-8. -/
theorem C93_published {fix : Bytes → Bytes} (hf : Fixes fix) {src : Bytes} {root : Node} {s : PState}
    (h : parse src = some (root, s)) (P : PrimOps) (fuel : Nat) {file : Bytes} (hu : HasUri file) (v : Option Int) (sup : List DK)
    {ds : List Diagnostic} (hd : ∀ d ∈ ds, d ∈ s.lex.diags ∨ d ∈ (runVL P fuel root).diags)
    (ha : ∀ d ∈ ds, (∀ a ∈ d.args, IsText a) ∧ ∀ n ∈ d.notes, ∀ a ∈ n.args, IsText a) :
    IsPublish (Replies.encodePublish fix ⟨file, v, Server.buildDiags sup src ds⟩) ⟨file, v, Server.buildDiags sup src ds⟩ := by
  refine C90_published hf hu fun x hx => (C90_built (fun d hd' => ?_) x hx).1
  have hF : Formatted d := (hd d hd').elim (C93_parse h d) (C93_lookup P fuel root d)
  constructor
  · obtain ⟨out, ho, hfl⟩ := hF.1
    exact ⟨out, ho, text_fills (by cases d.kind <;> decide +kernel) (ha d hd').1 hfl⟩
  · intro n hn
    obtain ⟨out, ho, hfl⟩ := hF.2 n hn
    exact ⟨out, ho, text_fills (by cases n.kind <;> decide +kernel) ((ha d hd').2 n hn) hfl⟩

end

/-! Non-vacuity: diagnostics with arguments, with notes with arguments; a text. -/

/-- The texts of the diagnostics of a source. -/
def texts (src : Bytes) : List (Fmt × List Fmt) :=
  match parse src with
  | some (_, s) => s.lex.diags.map fun d => (d.format, d.notes.map Note.format)
  | none => []

example : texts b!"{ a = 1; a = 2; }" = [(.ok b!"duplicated attrname `a`", [.ok b!"previously declared here"])] := by decide +kernel

example : texts b!"{ a = { }; a = rec { }; }" =
    [(.ok b!"merging two attributes with different `rec` modifiers, the latter will be implicitly ignored",
      [.ok b!"this attribute set is non-recursive",
        .ok b!"while this attribute set is marked as recursive, it will be considered as non-recursive"])] := by decide +kernel

example : (match parse b!"let \"{}\" = 1; in x" with
    | some (root, _) => (runVL [] 9 root).diags.map Diagnostic.format
    | none => []) = [.ok b!"undefined variable `x`", .ok b!"definition `{}` in let-expression is not used"] := by decide +kernel

example : Fills b!"to match this {}" [b!"{}"] b!"to match this {}" :=
  ⟨b!"to match this ", [[]], rfl, rfl, by
    intro q hq
    rcases List.mem_cons.mp hq with rfl | hq
    · decide +kernel
    · rw [List.mem_singleton.mp hq]; simp [place], rfl⟩

/-- A diagnostic without its argument. -/
example : ({ kind := .expected, range := default } : Diagnostic).format = .ub := by decide +kernel

end Msgs
end Verif.Props
