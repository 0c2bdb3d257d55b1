import Verif.Lemmas.CplTop
import Verif.Props.Parser
/-
C68: a document is reported to be free of syntax errors exactly if it is an expression, and the tree is that of the expression.
-/
namespace Verif.Props
open Verif.Nixf Verif.Nixf.Syntax


mutual
/-- Abstract syntax, as text. -/
def render : Syn → Bytes
  | .hole => b!"?"
  | .ch c => [c]
  | .interp e => b!"${" ++ render e ++ b!"}"
  | .var x => x
  | .int n => if n < 10 then [48 + UInt8.ofNat n.toNat] else b!"<int>"
  | .float t => t
  | .spath t => b!"<" ++ t ++ b!">"
  | .str ps => b!"\"" ++ renderS ps ++ b!"\""
  | .path ps => b!"(path " ++ renderS ps ++ b!")"
  | .paren e => b!"(" ++ render e ++ b!")"
  | .list es => b!"[" ++ renderL es ++ b!" ]"
  | .set r bs => (if r then b!"(rec" else b!"(set") ++ renderL bs ++ b!")"
  | .select e ns => b!"(select " ++ render e ++ renderL ns ++ b!")"
  | .selectOr e ns d => b!"(selectOr " ++ render e ++ renderL ns ++ b!" " ++ render d ++ b!")"
  | .call f as => b!"(call " ++ render f ++ renderL as ++ b!")"
  | .un k e => b!"(" ++ k.spelling ++ b!" " ++ render e ++ b!")"
  | .bin k l r => b!"(" ++ k.spelling ++ b!" " ++ render l ++ b!" " ++ render r ++ b!")"
  | .has e ns => b!"(? " ++ render e ++ renderL ns ++ b!")"
  | .lambda a b => b!"(fun " ++ render a ++ b!" " ++ render b ++ b!")"
  | .ite c t e => b!"(if " ++ render c ++ b!" " ++ render t ++ b!" " ++ render e ++ b!")"
  | .assert c e => b!"(assert " ++ render c ++ b!" " ++ render e ++ b!")"
  | .let_ bs e => b!"(let" ++ renderL bs ++ b!" " ++ render e ++ b!")"
  | .legacyLet bs => b!"(oldlet" ++ renderL bs ++ b!")"
  | .with_ w e => b!"(with " ++ render w ++ b!" " ++ render e ++ b!")"
  | .name x => x
  | .strName ps => b!"\"" ++ renderS ps ++ b!"\""
  | .interpName e => b!"${" ++ render e ++ b!"}"
  | .binding ns e => b!"(=" ++ renderL ns ++ b!" " ++ render e ++ b!")"
  | .inherit ns => b!"(inherit" ++ renderL ns ++ b!")"
  | .inheritFrom e ns => b!"(inheritFrom " ++ render e ++ renderL ns ++ b!")"
  | .formal c x => (if c then b!"," else []) ++ x
  | .formalOr c x d => (if c then b!"," else []) ++ x ++ b!"?" ++ render d
  | .ellipsis c => (if c then b!"," else []) ++ b!"..."
  | .comma => b!","
  | .argName x => x
  | .argSet fs => b!"{" ++ renderL fs ++ b!" }"
  | .argBoth x fs => x ++ b!"@{" ++ renderL fs ++ b!" }"
def renderL : List Syn → Bytes
  | [] => []
  | t :: ts => b!" " ++ render t ++ renderL ts
def renderS : List Syn → Bytes
  | [] => []
  | t :: ts => render t ++ renderS ts
end

/-- The syntax of a document, if it has no syntax errors. -/
def syntaxOf (src : Bytes) : Option Bytes :=
  match parse src with
  | some (a, s) => if s.lex.diags.all (fun d => !isSyntaxError d.kind) then some (render (syn a)) else none
  | none => none

/-- Without syntax errors the source is an expression of the grammar and the tree is the one of this expression; or there is
nothing but white space and comments, and no tree. -/
theorem C68_sound {src : Bytes} {a : Node} {s : PState} (h : parse src = some (a, s)) (hc : ∀ d ∈ s.lex.diags, isSyntaxError d.kind = false) :
    (a = .null ∧ ∃ v, Tok src .eof v []) ∨ (a.isNull = false ∧ Accepts src (syn a)) :=
  parse_sound h hc

example : syntaxOf b!"{ a, b ? 1, ... }@x: if a ? b.\"c\" then -a.b or 2 ++ [ x y ] ++ z + q else f x (y: y)" =
    some b!"(fun x@{ a ,b?1 ,... } (if (? a b \"c\") (+ (++ (- (selectOr a b 2)) (++ [ x y ] z)) q) (call f x ((fun y y)))))" := by
  decide +kernel
example : syntaxOf b!"let a.b = rec { inherit (c) d \"e\"; }; inherit x; in with a; assert x; ''a ${b} '' + ./a/${b}c" =
    some b!"(let (= a b (rec (inheritFrom c d \"e\"))) (inherit x) (with a (assert x (+ \"a ${b} \" (path ./a/${b}c)))))" := by
  decide +kernel
example : syntaxOf b!"a + + b" = none := by decide +kernel

/-- An expression of the grammar is parsed without syntax errors, to the tree of this expression. -/
theorem C68_complete {src : Bytes} {t : Syn} (h : Accepts src t) :
    ∃ a s, parse src = some (a, s) ∧ (∀ d ∈ s.lex.diags, isSyntaxError d.kind = false) ∧ a.isNull = false ∧ syn a = t := by
  obtain ⟨a, s, e⟩ := C46_terminates src
  obtain ⟨h1, h2, h3⟩ := parse_complete h e
  exact ⟨a, s, e, h1, h2, h3⟩

/-- No syntax error is reported exactly for the expressions of the grammar, and for sources without any token. -/
theorem C68_iff (src : Bytes) : (∃ a s, parse src = some (a, s) ∧ ∀ d ∈ s.lex.diags, isSyntaxError d.kind = false) ↔
    (∃ t, Accepts src t) ∨ ∃ v, Tok src .eof v [] := by
  constructor
  · rintro ⟨a, s, e, hc⟩
    rcases C68_sound e hc with ⟨-, h⟩ | ⟨-, h⟩
    · exact .inr h
    · exact .inl ⟨_, h⟩
  · rintro (⟨t, h⟩ | ⟨v, h⟩)
    · obtain ⟨a, s, e, hc, -⟩ := C68_complete h
      exact ⟨a, s, e, hc⟩
    · obtain ⟨a, s, e⟩ := C46_terminates src
      exact ⟨a, s, e, (parse_empty h e).1⟩

/-- The grammar gives one reading to every source. -/
theorem C68_unambiguous {src : Bytes} {t t' : Syn} (h : Accepts src t) (h' : Accepts src t') : t = t' := by
  obtain ⟨a, s, e⟩ := C46_terminates src
  obtain ⟨-, -, h1⟩ := parse_complete h e
  obtain ⟨-, -, h2⟩ := parse_complete h' e
  exact h1.symm.trans h2

/-- The grammar accepts `f 1`, read as a call. -/
theorem accepts_call : Accepts b!"f 1" (.call (.var b!"f") [.int 1]) := by
  have t1 : Tok b!"f 1" .id_ b!"f" b!" 1" := ⟨_, _, rfl, by decide +kernel, by decide +kernel, by decide +kernel, by decide +kernel⟩
  have t2 : Tok b!" 1" .int b!"1" [] := ⟨_, _, rfl, by decide +kernel, by decide +kernel, by decide +kernel, by decide +kernel⟩
  have t3 : Tok [] .eof [] [] := ⟨_, _, rfl, by decide +kernel, by decide +kernel, by decide +kernel, by decide +kernel⟩
  exact ⟨_, _, .op (.opr (.app (.call (.simple (.var t1)) rfl (.lastArg (.simple (.int t2 (by decide +kernel)))))) .stop), t3⟩

example : ∃ a s, parse b!"f 1" = some (a, s) ∧ (∀ d ∈ s.lex.diags, isSyntaxError d.kind = false) ∧ a.isNull = false ∧
    syn a = .call (.var b!"f") [.int 1] := C68_complete accepts_call
example : ¬ ∃ t, Accepts b!"a + + b" t := by
  rintro ⟨t, h⟩
  obtain ⟨a, s, e, hc, -⟩ := C68_complete h
  have h1 : ((parse b!"a + + b").map fun p => p.2.lex.diags.all (fun d => !isSyntaxError d.kind)) = some false := by decide +kernel
  rw [e] at h1
  simp only [Option.map_some, Option.some.injEq, List.all_eq_false] at h1
  obtain ⟨d, hd, h2⟩ := h1
  rw [hc d hd] at h2
  exact h2 rfl
example (t : Syn) (h : Accepts b!"f 1" t) : t = .call (.var b!"f") [.int 1] := C68_unambiguous h accepts_call

/-- A missing attribute path after `?` is not reported: `a ?` is not an expression of Nix. -/
theorem C68_has_path_violated : syntaxOf b!"a ?" = some b!"(? a)" := by decide +kernel

/-- An empty document is not reported, though it is not an expression of Nix. -/
theorem C68_empty_violated : ∃ s, parse b!" # nothing" = some (.null, s) ∧ s.lex.diags = [] := by
  have h : ((parse b!" # nothing").map fun p => (p.1.isNull, p.2.lex.diags)) = some (true, []) := by decide +kernel
  cases hp : parse b!" # nothing" with
  | none => rw [hp] at h; cases h
  | some p =>
    obtain ⟨a, s⟩ := p
    rw [hp] at h
    simp only [Option.map_some, Option.some.injEq, Prod.mk.injEq] at h
    exact ⟨s, by rw [Grammar.null_of h.1], h.2⟩

/-- A comma in front of the first formal is not reported after `x@`. -/
theorem C68_comma_violated : syntaxOf b!"x@{ , a }: a" = some b!"(fun x@{ ,a } a)" := by decide +kernel

/-- A call of a set is reported as a syntax error: `{ __functor = self: x: x; } 1` is an expression of Nix. -/
theorem C68_call_violated : syntaxOf b!"{ __functor = self: x: x; } 1" = none := by decide +kernel

end Verif.Props
