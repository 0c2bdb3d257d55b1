import Verif.Model.ParentMap
/-
The attribute path at a node. Models the functions of nixd/lib/Controller/AST.cpp about attribute paths.

The climbing functions of the map of parents and the recursion of `getValueAttrPath` have fuel.
-/
namespace Verif.Nixf.AttrPaths
open Node

/-- How a function ends without a result: the exception `AttrPathHasDynamicError` (AST.cpp:12-16), a failed `assert` or
`__builtin_unreachable()`, or no fuel. -/
inductive Stop
  | dynamic
  | assert_
  | fuel
deriving DecidableEq, Repr

/-- `FindAttrPathResult` (AST.h). -/
inductive Found
  | ok
  | inherit_
  | notAttrPath
  | withDynamic
deriving DecidableEq, Repr

/-- The loop of `getSelectAttrPath` (AST.cpp:36-42). -/
def selectLoop (n : Node) : List Node → List Bytes → Except Stop (List Bytes)
  | [], path => .ok path
  | x :: xs, path =>
    match x.staticName? with
    | none => .error .dynamic
    | some name => if x.id == n.id then .ok (path ++ [name]) else selectLoop n xs (path ++ [name])

/-- `getSelectAttrPath` (AST.cpp:27-43). -/
def selectPath (m : PMap) (n : Node) (path : List Bytes) : Except Stop (List Bytes) :=
  match m.query n with
  | some (.attrPath _ names _) => selectLoop n names path
  | _ => .error .assert_

/-- The binding with the given value (AST.cpp:71-81): the loop over the bindings. -/
def findValue (n : Node) : List Node → Option (Except Stop Node)
  | [] => none
  | .inherit .. :: bs => findValue n bs
  | .binding _ p _ v :: bs => if !v.isNull && v.id == n.id then some (.ok p) else findValue n bs
  | _ :: _ => some (.error .assert_)

/-- `Binding.path().names().back()` (AST.cpp:79). -/
def lastName : Node → Option Node
  | .attrPath _ names _ => names.getLast?
  | _ => none

/-- `getValueAttrPath` (AST.cpp:46-84). -/
def valuePath (m : PMap) : Nat → Node → List Bytes → Except Stop (List Bytes)
  | 0, _, _ => .error .fuel
  | k + 1, n, path =>
    if m.isRoot n then .ok path
    else
      match m.query n with
      | none => .ok path
      | some up =>
        match m.upExpr k up with
        | none => .error .fuel
        | some none => .ok path
        | some (some (.exprAttrs h b r st dy)) => do
          let path ← if m.isRoot (.exprAttrs h b r st dy) then .ok path else valuePath m k (.exprAttrs h b r st dy) path
          match b with
          | .binds _ bs =>
            match findValue n bs with
            | some (.ok p) =>
              match lastName p with
              | some name => selectPath m name path
              | none => .error .assert_
            | some (.error e) => .error e
            | none => .error .assert_
          | _ => .error .assert_
        | some (some _) => .ok path

/-- `getNestedAttrPath` (AST.cpp:86-92). -/
def nestedPath (m : PMap) (fuel : Nat) (n : Node) (path : List Bytes) : Except Stop (List Bytes) := do
  let path ← match m.upExpr fuel n with
    | none => .error .fuel
    | some none => .ok path
    | some (some e) => valuePath m fuel e path
  selectPath m n path

def isInherit : Node → Bool
  | .inherit .. => true
  | _ => false
def isName : Node → Bool
  | .attrNameID .. | .attrNameString .. | .attrNameInterp .. => true
  | _ => false
def isDot : Node → Bool
  | .dot .. => true
  | _ => false

/-- `catch (AttrPathHasDynamicError &)`. -/
def catchDynamic : Except Stop (List Bytes) → Except Stop (Found × List Bytes)
  | .ok p => .ok (.ok, p)
  | .error .dynamic => .ok (.withDynamic, [])
  | .error e => .error e

/-- `Dot::prev` (Basic.h:133), when it is an attribute name: the dots in the tree are those of attribute paths, and the
name with this identity is in the same path. -/
def dotPrev (m : PMap) (d : Node) (prev : Nat) : Option Node :=
  match m.query d with
  | some (.attrPath _ names _) => names.find? fun n => n.id == prev
  | _ => none

/-- `findAttrPath` (AST.cpp:283-329). The path is not used by the callers if the result is not `OK`, so it is empty
then. -/
def findAttrPath (m : PMap) (fuel : Nat) (n : Node) : Except Stop (Found × List Bytes) :=
  match m.upTo isInherit fuel n with
  | none => .error .fuel
  | some (some _) => .ok (.inherit_, [])
  | some none =>
    match m.upTo isName fuel n with
    | none => .error .fuel
    | some (some name) => catchDynamic (nestedPath m fuel name [])
    | some none =>
      match m.upTo isDot fuel n with
      | none => .error .fuel
      | some (some (.dot h prev next)) =>
        match dotPrev m (.dot h prev next) prev with
        | none => .ok (.notAttrPath, [])
        | some name => catchDynamic ((nestedPath m fuel name []).map (· ++ [[]]))
      | some _ =>
        match m.upExpr fuel n with
        | none => .error .fuel
        | some (some (.exprAttrs h b r st dy)) => catchDynamic ((valuePath m fuel (.exprAttrs h b r st dy) []).map (· ++ [[]]))
        | some _ => .ok (.notAttrPath, [])

/-- `findAttrPathForOptions` (AST.cpp:331-346). -/
def forOptions (m : PMap) (fuel : Nat) (n : Node) : Except Stop (Found × List Bytes) :=
  match findAttrPath m fuel n with
  | .ok (.ok, p) => .ok (.ok, match p with
    | x :: xs => if x == b!"config" then xs else x :: xs
    | [] => [])
  | r => r

end Verif.Nixf.AttrPaths
