import Verif.Model.CodeAction
import Verif.Props.Scope
/-
C37, C38, C39, C40, C43, C67: where code actions change the meaning of a program.
-/
namespace Verif.Props
open Nixf Server SourceCode Node

/-- The results of an action with the cursor at a byte of the first line. -/
noncomputable def actionsAt {α : Type} (f : PMap → VL → Nat → Node → Option (List α)) (src : Bytes) (column : Nat) : List α :=
  match parse src with
  | some (root, _) =>
    match root.descend ⟨⟨0, column⟩, ⟨0, column⟩⟩ with
    | some n => (f (runPM root) (runVL [] 100000 root) 100000 n).getD []
    | none => []
  | none => []

/-- The text after a replacement. -/
def spliced (src : Bytes) (r : CRange) (t : Bytes) : Bytes := src.take r.l.offset ++ t ++ src.drop r.r.offset

/-- The texts after the single-edit actions of one kind. -/
noncomputable def afterActions (f : Bytes → PMap → VL → Nat → Node → Option (List Action)) (src : Bytes) (column : Nat) : List Bytes :=
  (actionsAt (f src) src column).map fun a => spliced src a.range a.newText

noncomputable def afterConvert := afterActions fun src pm _ fuel n => addConvertToInheritAction src pm fuel n
noncomputable def afterInherit := afterActions fun src pm _ fuel n => addInheritToBindingAction src pm fuel n
noncomputable def afterFlatten := afterActions fun src pm _ fuel n => addFlattenAttrsAction src pm fuel n
noncomputable def afterPack := afterActions fun src pm _ fuel n => addPackAttrsAction src pm fuel n
noncomputable def afterName := afterActions fun _ pm _ fuel n => addAttrNameActions pm fuel n
noncomputable def afterWith := afterActions fun src pm vl fuel n => addWithToLetAction src pm vl fuel n

noncomputable def afterFormals (src : Bytes) (column : Nat) : List Bytes :=
  (actionsAt (fun pm vl fuel n => addToFormalsAction pm vl fuel n) src column).map fun i =>
    src.take i.offset ++ i.text ++ src.drop i.offset

/-- The new file and the new text of the old one, if no file exists. -/
noncomputable def afterExtract (src : Bytes) (column : Nat) : List (Bytes × Bytes × Bytes) :=
  (actionsAt (fun pm vl fuel n => addExtractToFileAction (fun _ => false) src pm vl fuel n) src column).map fun e =>
    (e.file, e.content, spliced src e.range e.newText)

/-- The kind of expression at a path of static attributes. -/
def kindAt : List Bytes → Node → Option NodeKind
  | [], n => n.kind?
  | x :: xs, .exprAttrs _ _ _ st _ =>
    match findStatic x st with
    | some a => kindAt xs (attrValue a)
    | none => none
  | _, _ => none

def atPath (src : Bytes) (path : List Bytes) : Option NodeKind := (parse src).bind fun r => kindAt path r.1

/-- The kinds of all diagnostics of a text. -/
def allKinds (src : Bytes) : List DK :=
  match parse src with
  | some (root, s) => (s.lex.diags ++ (runVL [] 100000 root).diags).map (·.kind)
  | none => []

/-- The variable at an offset. -/
def varAt (offset : Nat) : Nat → Node → Option Node
  | 0, _ => none
  | k + 1, n =>
    match n with
    | .exprVar .. => if n.lCur.offset = offset then some n else none
    | n => n.children.findSome? (varAt offset k)

/-- What the variable at an offset may refer to: the offset of its definition, and the number of `with`s. -/
def refers (src : Bytes) (offset : Nat) : Option (Option Nat × Nat) :=
  (parse src).bind fun r => (varAt offset 100 r.1).bind fun v =>
    let vl := runVL [] 100000 r.1
    (vl.query v).map fun q =>
      (if q.kind = .defined then q.def_.map fun d => (vl.get d).syntax_.lCur.offset else none, (vl.withScopesOf v).length)

/-- The body of a function, the kinds of the arguments of a call. -/
def body : Node → Node
  | .exprLambda _ _ b => b
  | _ => .null
def args : Node → List NodeKind
  | .exprCall _ _ as => as.filterMap Node.kind?
  | _ => []

example : afterFlatten b!"{ a = { b = 1; c.d = 2; }; }" 2 = [b!"{ a.b = 1; a.c.d = 2; }"] := by decide +kernel
example : afterConvert b!"{ x }: { x = x; }" 9 = [b!"{ x }: { inherit x; }"] := by decide +kernel
example : afterConvert b!"s: { x = s.t.x; }" 5 = [b!"s: { inherit (s.t) x; }"] := by decide +kernel

/-- **C39**, violated: in a recursive set `x = x` is not `inherit x`. The formal is not used before, but used after. -/
theorem C39_recursive_violated :
    afterConvert b!"{ x }: rec { x = x; }" 13 = [b!"{ x }: rec { inherit x; }"] ∧
    afterInherit b!"{ x }: rec { inherit x; }" 14 = [b!"{ x }: rec { x = x; }"] ∧
    allKinds b!"{ x }: rec { x = x; }" = [.unusedDefLambdaNoArg_Formal] ∧
    allKinds b!"{ x }: rec { inherit x; }" = [.extraRecursive] := by decide +kernel

/-- **C39**, violated: names are not quoted again, the result is no expression. -/
theorem C39_quoted_violated :
    allKinds b!"a: { inherit (a) \"x y\"; }" = [] ∧
    afterInherit b!"a: { inherit (a) \"x y\"; }" 6 = [b!"a: { x y = a.x y; }"] ∧
    DK.expected ∈ allKinds b!"a: { x y = a.x y; }" := by decide +kernel

/-- **C39**, violated: the parentheses of the source are lost, a selection from a call becomes a call. -/
theorem C39_parentheses_violated :
    afterInherit b!"f: y: { inherit (f y) x; }" 9 = [b!"f: y: { x = f y.x; }"] ∧
    (parse b!"f: y: { inherit (f y) x; }").bind (fun r => kindAt [b!"x"] (body (body r.1))) = some .ExprSelect ∧
    (parse b!"f: y: { x = f y.x; }").bind (fun r => kindAt [b!"x"] (body (body r.1))) = some .ExprCall := by decide +kernel

/-- **C37**, violated: packing all bindings of a name removes the bindings in between. -/
theorem C37_unrelated_violated :
    afterPack b!"{ a.b = 1; x = 2; a.c = 3; }" 3 =
      [b!"{ a = { b = 1; }; x = 2; a.c = 3; }", b!"{ a = { b = 1; c = 3; }; }", b!"{ a = { b = 1; c = 3; }; }"] ∧
    atPath b!"{ a.b = 1; x = 2; a.c = 3; }" [b!"x"] = some .ExprInt ∧
    atPath b!"{ a = { b = 1; c = 3; }; }" [b!"x"] = none := by decide +kernel

/-- **C37**, violated: a binding of the name itself is packed one level too deep. -/
theorem C37_whole_violated :
    afterPack b!"{ a = { b = 1; }; a.c = 3; }" 18 =
      [b!"{ a = { b = 1; }; a = { c = 3; }; }", b!"{ a = { a = { b = 1; }; c = 3; }; }", b!"{ a = { b = 1; c = 3; }; }"] ∧
    atPath b!"{ a = { b = 1; }; a.c = 3; }" [b!"a", b!"b"] = some .ExprInt ∧
    atPath b!"{ a = { a = { b = 1; }; c = 3; }; }" [b!"a", b!"b"] = none := by decide +kernel

/-- **C37**, violated: packing recursively drops `rec`. -/
theorem C37_rec_violated :
    (afterPack b!"{ a.b = rec { x = 1; y = x; }; a.c = 3; }" 3)[2]? = some b!"{ a = { b = { x = 1; y = x; }; c = 3; }; }" ∧
    allKinds b!"{ a.b = rec { x = 1; y = x; }; a.c = 3; }" = [] ∧
    allKinds b!"{ a = { b = { x = 1; y = x; }; c = 3; }; }" = [.undefinedVariable] := by decide +kernel

/-- **C37**, violated: packing recursively turns `inherit (s) x` into `x = x`. -/
theorem C37_inherit_violated :
    (afterPack b!"s: { a.b = { inherit (s) x; }; a.c = 3; }" 6)[2]? = some b!"s: { a = { b = { x = x; }; c = 3; }; }" ∧
    allKinds b!"s: { a.b = { inherit (s) x; }; a.c = 3; }" = [] ∧
    allKinds b!"s: { a = { b = { x = x; }; c = 3; }; }" = [.undefinedVariable] := by decide +kernel

/-- **C37**, violated: packing recursively writes the name of a set with a dynamic attribute for its value. -/
theorem C37_dynamic_violated :
    (afterPack b!"x: { a.b.${x} = 1; a.c = 3; }" 19)[2]? = some b!"x: { a = { b = b; c = 3; }; }" ∧
    allKinds b!"x: { a.b.${x} = 1; a.c = 3; }" = [] ∧
    allKinds b!"x: { a = { b = b; c = 3; }; }" = [.undefinedVariable] := by decide +kernel

/-- **C38**, violated: a variable that may come from an outer `with` can no longer come from it. -/
theorem C38_outer_violated :
    afterWith b!"a: b: with a; with b; x" 15 = [b!"a: b: with a; let inherit (b) x; in x"] ∧
    refers b!"a: b: with a; with b; x" 22 = some (none, 2) ∧
    refers b!"a: b: with a; let inherit (b) x; in x" 36 = some (some 30, 0) := by decide +kernel

/-- **C38**, violated: the source of the `with` gets a variable of its own name, which refers to itself. -/
theorem C38_capture_violated :
    afterWith b!"a: with a; with b; b" 12 = [b!"a: with a; let inherit (b) b; in b"] ∧
    refers b!"a: with a; with b; b" 16 = some (none, 1) ∧
    refers b!"a: with a; let inherit (b) b; in b" 24 = some (some 27, 0) := by decide +kernel

/-- **C40**, violated: `inherit` uses variables, but they are not passed. -/
theorem C40_inherit_violated :
    afterExtract b!"{ x }: { y = { inherit x; }; }" 13 =
      [(b!"y.nix", b!"{ inherit x; }\n", b!"{ x }: { y = import ./y.nix; }")] ∧
    allKinds b!"{ inherit x; }\n" = [.undefinedVariable] := by decide +kernel

/-- **C40**, violated: a variable is passed that comes from a `with` inside of the expression. -/
theorem C40_with_violated :
    afterExtract b!"a: [ (with a; x) ]" 3 =
      [(b!"extracted-list.nix", b!"{ a, x }:\n[ (with a; x) ]\n", b!"a: import ./extracted-list.nix { inherit a x; }")] ∧
    allKinds b!"a: [ (with a; x) ]" = [] ∧
    DK.undefinedVariable ∈ allKinds b!"a: import ./extracted-list.nix { inherit a x; }" := by decide +kernel

/-- **C40**, violated: an argument is replaced by two. -/
theorem C40_argument_violated :
    (afterExtract b!"f: f [ 1 ]" 5).map (·.2.2) = [b!"f: f import ./extracted-list.nix"] ∧
    (parse b!"f: f import ./extracted-list.nix").map (fun r => args (body r.1)) = some [.ExprVar, .ExprPath] := by
  decide +kernel

/-- **C43**, violated: after a trailing comma the new list has an empty formal. -/
theorem C43_trailing_violated :
    afterFormals b!"{ a, }: a b" 10 = [b!"{ a,, b }: a b"] ∧
    allKinds b!"{ a, }: a b" = [.undefinedVariable] ∧
    DK.emptyFormal ∈ allKinds b!"{ a,, b }: a b" := by decide +kernel

/-- **C67**, violated: an unquoted name runs into what follows. -/
theorem C67_unquote_violated :
    afterName b!"[ a.\"b\"c ]" 5 = [b!"[ a.bc ]"] ∧
    (parse b!"[ a.\"b\"c ]").map (fun r => r.1.children.length) = some 2 ∧
    (parse b!"[ a.bc ]").map (fun r => r.1.children.length) = some 1 := by decide +kernel

end Verif.Props
