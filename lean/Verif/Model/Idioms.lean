import Verif.Model.ParentMap
/-
Environments and idioms. Models `upEnv` and the functions of `idioms` in nixd/lib/Controller/AST.cpp.

The climbing and recursive functions have fuel.
-/
namespace Verif.Nixf.Idioms

/-- `upEnv` (AST.cpp:98-106). No result if the fuel runs out. -/
def upEnv (vl : VL) (m : PMap) : Nat → Node → Option (Option Env)
  | 0, _ => none
  | k + 1, n =>
    match ptrFind n.id vl.envs with
    | some e => some (some e)
    | none =>
      match m.query n with
      | none => some none
      | some up => if m.isRoot n then some none else upEnv vl m k up

/-- How the functions end without a selector: the exceptions of AST.h, a failed `assert`, or no fuel. -/
inductive Err
  | notAnIdiom
  | noSuchVar
  | dynamicName
  | notVariableSelect
  | assert_
  | fuel
deriving DecidableEq, Repr

/-- `Var.id().name()`. -/
def idName : Node → Bytes
  | .exprVar _ i => i.name
  | _ => []

/-- `varSelector` (AST.cpp:160-162) with `getKnownIdiomSelector` (lines 141-158). -/
def varSelector (v : Node) : Except Err (List Bytes) :=
  if idName v == b!"lib" then .ok [b!"lib"] else if idName v == b!"pkgs" then .ok [] else .error .notAnIdiom

/-- `mkSelector` for an attribute path (AST.cpp:250-259). -/
def pathSelector : List Node → List Bytes → Except Err (List Bytes)
  | [], sel => .ok sel
  | x :: xs, sel =>
    match x.staticName? with
    | none => .error .dynamicName
    | some name => pathSelector xs (sel ++ [name])

/-- `mkSelector` for the path of a select expression (AST.cpp:186-193). -/
def selectSelector (path : Node) (sel : List Bytes) : Except Err (List Bytes) :=
  match path with
  | .attrPath _ names _ => pathSelector names sel
  | _ => .ok sel

/-- `mkVarSelector` (AST.cpp:195-248) with `withSelector` (lines 164-182) and `mkSelector` for a select expression
(lines 261-272). -/
def mkVarSelector (vl : VL) (m : PMap) : Nat → Node → Except Err (List Bytes)
  | 0, _ => .error .fuel
  | k + 1, v =>
    match ptrFind v.id vl.results with
    | none => .error .noSuchVar
    | some ⟨.undefined, _⟩ => varSelector v
    | some ⟨.defined, _⟩ => varSelector v
    | some ⟨.fromWith, none⟩ => .error .assert_
    | some ⟨.fromWith, some d⟩ =>
      if (vl.get d).syntax_.isNull then .error .notAnIdiom
      else
        match m.query (vl.get d).syntax_ with
        | some (.exprWith _ _ _ w _) => do
          let sel ← match w with
            | .exprVar h i => mkVarSelector vl m k (.exprVar h i)
            | .exprSelect _ e _ p _ _ =>
              match e with
              | .exprVar h i => do
                let base ← mkVarSelector vl m k (.exprVar h i)
                selectSelector p base
              | _ => .error .notVariableSelect
            | _ => .error .notAnIdiom
          .ok (sel ++ [idName v])
        | _ => .error .assert_

end Verif.Nixf.Idioms
