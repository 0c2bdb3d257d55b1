import Verif.Model.Ast
/-
Semantic actions. Models libnixf/src/Sema/SemaActions.cpp.

The state `SemaSt` has the part of the parser's state that semantic actions use: the diagnostics, the supply of node
identities, and `bad`, set when an `assert` fails (the model then goes on as the code compiled without asserts).
References to `SemaAttrs` that are mutated become values that are returned.
-/
namespace Verif.Nixf

/-- State of semantic actions. -/
structure SemaSt where
  next : Nat
  diags : List Diagnostic
  bad : Bool
deriving DecidableEq, Repr

/-- Append a diagnostic. -/
def SemaSt.emit (d : Diagnostic) (s : SemaSt) : SemaSt := { s with diags := s.diags ++ [d] }

/-- `SemaAttrs` (Attrs.h:236-270) without `Recursive`, which is the `rec` of the node. -/
structure SA where
  static : List Node := []
  dynamic : List Node := []
deriving Inhabited

/-- Name, key, value of an attribute (Attrs.h:194-226). -/
def attrName : Node → Bytes
  | .attr n _ _ _ => n
  | _ => []
def attrKey : Node → Node
  | .attr _ k _ _ => k
  | _ => .null
def attrValue : Node → Node
  | .attr _ _ v _ => v
  | _ => .null
/-- `Attribute::fromInherit` (Attrs.h:222-224). -/
def attrFromInherit : Node → Bool
  | .attr _ _ _ .plain => false
  | .attr _ _ _ _ => true
  | _ => false

/-- `std::map::find` on the static attributes. -/
def findStatic (n : Bytes) (as : List Node) : Option Node := as.find? (fun a => attrName a == n)

/-- `std::map::insert` on the static attributes, for a key that is not in the map. -/
def insertStatic (a : Node) : List Node → List Node
  | [] => [a]
  | b :: bs => if bytesLt (attrName a) (attrName b) then a :: b :: bs else b :: insertStatic a bs

/-- `Sema::dupAttr` (SemaActions.cpp:15-20). -/
def dupAttr (name : Bytes) (range prev : CRange) (s : SemaSt) : SemaSt :=
  s.emit { kind := .duplicatedAttrName, range := range, args := [name], notes := [{ kind := .prevDeclared, range := prev }] }

/-- `Sema::checkAttrRecursiveForMerge` (SemaActions.cpp:22-41), on the ranges and `rec` tokens of the two sets. -/
def checkAttrRecursiveForMerge (xRange : CRange) (xRec : Node) (yRange : CRange) (yRec : Node) (s : SemaSt) : SemaSt :=
  let x := !xRec.isNull
  let y := !yRec.isNull
  if x == y then s
  else
    s.emit
      { kind := .mergeDiffRec
        range := (if x then xRec else yRec).range
        notes := [{ kind := .thisRecursive, range := if x then xRec.range else xRange, args := [if x then [] else b!"non-"] },
          { kind := .recConsider, range := if y then yRec.range else yRange,
            args := [if y then [] else b!"non-", if x then [] else b!"non-"] }] }

/-- The loop over the static attributes of `Sema::mergeAttrSets` (SemaActions.cpp:45-63). -/
def mergeStatic : List Node → List Node → SemaSt → List Node × SemaSt
  | [], xs, s => (xs, s)
  | y :: ys, xs, s =>
    match findStatic (attrName y) xs with
    | some x => mergeStatic ys xs (dupAttr (attrName y) (attrKey y).range (attrKey x).range s)
    | none => mergeStatic ys (insertStatic y xs) s

/-- `Sema::mergeAttrSets` (SemaActions.cpp:43-67). -/
def mergeAttrSets (x y : SA) (s : SemaSt) : SA × SemaSt :=
  let (st, s) := mergeStatic y.static x.static s
  (⟨st, x.dynamic ++ y.dynamic⟩, s)

/-- Replace the value of the attribute with this name. -/
def setStatic (n : Bytes) (v : Node) : List Node → List Node
  | [] => []
  | .attr m k w kind :: as => if m == n then .attr m k v kind :: as else .attr m k w kind :: setStatic n v as
  | a :: as => a :: setStatic n v as

/-- `Sema::insertAttr` (SemaActions.cpp:69-105). -/
def insertAttr (sa : SA) (name e : Node) (kind : AttrKind) (s : SemaSt) : SA × SemaSt :=
  match name.staticName? with
  | none => (if e.isNull then sa else { sa with dynamic := sa.dynamic ++ [.attr [] name e kind] }, s)
  | some n =>
    match findStatic n sa.static with
    | some a =>
      match attrValue a, e with
      | .exprAttrs hx bx rx stx dyx, .exprAttrs hy _ ry sty dyy =>
        let s := checkAttrRecursiveForMerge hx.range rx hy.range ry s
        let (m, s) := mergeAttrSets ⟨stx, dyx⟩ ⟨sty, dyy⟩ s
        ({ sa with static := setStatic n (.exprAttrs hx bx rx m.static m.dynamic) sa.static }, s)
      | _, _ => (sa, dupAttr n name.range (attrKey a).range s)
    | none => (if e.isNull then sa else { sa with static := insertStatic (.attr n name e kind) sa.static }, s)

/-- `Sema::addAttr` (SemaActions.cpp:157-171) with `Sema::selectOrCreate` (SemaActions.cpp:107-155): walk along the path,
creating sets where there are none, and insert at the last name. An empty path fails the assert at line 110. -/
def addAttr (sa : SA) (path : List Node) (e : Node) (s : SemaSt) : SA × SemaSt :=
  match path with
  | [] => (sa, { s with bad := true })
  | [name] => if name.isNull then (sa, s) else insertAttr sa name e .plain s
  | name :: rest =>
    if name.isNull then addAttr sa rest e s
    else
      match name.staticName? with
      | some n =>
        match findStatic n sa.static with
        | some a =>
          match attrFromInherit a, attrValue a with
          | false, .exprAttrs h b r st dy =>
            let (inner, s) := addAttr ⟨st, dy⟩ rest e s
            ({ sa with static := setStatic n (.exprAttrs h b r inner.static inner.dynamic) sa.static }, s)
          | _, _ => (sa, dupAttr n name.range (attrKey a).range s)
        | none =>
          let h : Hd := ⟨s.next, name.range⟩
          let (inner, s) := addAttr {} rest e { s with next := s.next + 1 }
          ({ sa with static := insertStatic (.attr n name (.exprAttrs h .null .null inner.static inner.dynamic) .plain) sa.static }, s)
      | none =>
        let h : Hd := ⟨s.next, name.range⟩
        let (inner, s) := addAttr {} rest e { s with next := s.next + 1 }
        ({ sa with dynamic := sa.dynamic ++ [.attr [] name (.exprAttrs h .null .null inner.static inner.dynamic) .plain] }, s)

/-- `Sema::desugarInheritExpr` (SemaActions.cpp:345-360). `Name->id()` asserts that the name is an identifier
(Attrs.h:63-66); for other names the pointer is null, and so is the identifier of the variable. -/
def desugarInheritExpr (name e : Node) (s : SemaSt) : Node × AttrKind × SemaSt :=
  if e.isNull then
    match name with
    | .attrNameID _ i => (.exprVar ⟨s.next, name.range⟩ i, .inherit, { s with next := s.next + 1 })
    | _ => (.exprVar ⟨s.next, name.range⟩ .null, .inherit, { s with next := s.next + 1, bad := true })
  else
    let path := Node.attrPath ⟨s.next, name.range⟩ [name] []
    (.exprSelect ⟨s.next + 1, name.range⟩ e .null path .null true, .inheritFrom, { s with next := s.next + 2 })

/-- `Sema::lowerInheritName` (SemaActions.cpp:281-309). -/
def lowerInheritName (sa : SA) (name e : Node) (kind : AttrKind) (s : SemaSt) : SA × SemaSt :=
  if name.isNull then (sa, s)
  else
    match name.staticName? with
    | none =>
      (sa, s.emit
        { kind := .dynamicInherit, range := name.range, tags := [.striked],
          fixes := [{ message := b!"remove dynamic attrname", edits := [⟨name.range, []⟩] }] })
    | some n =>
      match findStatic n sa.static with
      | some a => (sa, dupAttr n name.range (attrKey a).range s)
      | none => ({ sa with static := insertStatic (.attr n name e kind) sa.static }, s)

/-- `Sema::lowerInherit` (SemaActions.cpp:311-317). -/
def lowerInherit (sa : SA) (e : Node) : List Node → SemaSt → SA × SemaSt
  | [], s => (sa, s)
  | name :: names, s =>
    let (v, kind, s) := desugarInheritExpr name e s
    let (sa, s) := lowerInheritName sa name v kind s
    lowerInherit sa e names s

/-- `Sema::lowerBinds` (SemaActions.cpp:319-337). -/
def lowerBinds (sa : SA) : List Node → SemaSt → SA × SemaSt
  | [], s => (sa, s)
  | .inherit _ names e :: bs, s =>
    let (sa, s) := lowerInherit sa e names s
    lowerBinds sa bs s
  | .binding _ (.attrPath _ names _) _ v :: bs, s =>
    let (sa, s) := addAttr sa names v s
    lowerBinds sa bs s
  | _ :: bs, s => lowerBinds sa bs { s with bad := true }

/-- `Sema::onExprAttrs` (SemaActions.cpp:362-370). -/
def onExprAttrs (range : CRange) (body rec : Node) (s : SemaSt) : Node × SemaSt :=
  let (sa, s) :=
    match body with
    | .binds _ bs => lowerBinds {} bs s
    | _ => ({}, s)
  (.exprAttrs ⟨s.next, range⟩ body rec sa.static sa.dynamic, { s with next := s.next + 1 })

/-! ### Formals -/

/-- Accessors of `Formal` (Lambda.h:28-43). -/
def formalComma : Node → Node
  | .formal _ c _ _ _ => c
  | _ => .null
def formalID : Node → Node
  | .formal _ _ i _ _ => i
  | _ => .null
def formalDefault : Node → Node
  | .formal _ _ _ d _ => d
  | _ => .null
def formalEllipsis : Node → Node
  | .formal _ _ _ _ e => e
  | _ => .null
/-- `Formal::isEllipsis`. -/
def formalIsEllipsis (f : Node) : Bool := !(formalEllipsis f).isNull

/-- `Sema::removeFormal` (SemaActions.cpp:173-186) for the member at `i`. -/
def removeFormal (fv : List Node) (i : Nat) (f : Node) : List TextEdit :=
  ⟨f.range, []⟩ ::
    (if i = 0 then
      match fv[1]? with
      | some second => if (formalComma second).isNull then [] else [⟨(formalComma second).range, []⟩]
      | none => []
    else [])

/-- The diagnostic of `Sema::checkFormalEllipsis` (SemaActions.cpp:194-216) for the member `f` at `i`. -/
def ellipsisDiag (src : Bytes) (fv : List Node) (last : Node) (i : Nat) (f : Node) : Diagnostic :=
  if formalIsEllipsis last then
    { kind := .formalExtraEllipsis, range := f.range, fixes := [{ message := b!"remove `...`", edits := removeFormal fv i f }] }
  else
    let newText := if (formalComma f).isNull then b!", " ++ f.src src else f.src src
    { kind := .formalMisplacedEllipsis, range := f.range,
      fixes := [{ message := b!"move ellipsis to the tail",
                  edits := removeFormal fv i f ++ [⟨⟨last.rCur, last.rCur⟩, newText⟩] }] }

/-- `Sema::checkFormalEllipsis` (SemaActions.cpp:188-217): the loop over all members but the last. -/
def checkFormalEllipsis (src : Bytes) (fv : List Node) (s : SemaSt) : SemaSt :=
  match fv.getLast? with
  | none => s
  | some last =>
    (fv.dropLast.zipIdx).foldl (fun s p => if formalIsEllipsis p.1 then s.emit (ellipsisDiag src fv last p.2 p.1) else s) s

/-- `Sema::checkFormalSep` (SemaActions.cpp:219-231). -/
def checkFormalSep (fv : List Node) (s : SemaSt) : SemaSt :=
  fv.tail.foldl (fun s f =>
    if (formalComma f).isNull then
      s.emit { kind := .formalMissingComma, range := f.range,
               fixes := [{ message := b!"insert ,", edits := [⟨⟨f.lCur, f.lCur⟩, b!","⟩] }] }
    else s) s

/-- `Sema::checkFormalEmpty` (SemaActions.cpp:233-254). -/
def checkFormalEmpty (fv : List Node) (s : SemaSt) : SemaSt :=
  fv.dropLast.foldl (fun s f =>
    if !(formalComma f).isNull && (formalID f).isNull && !formalIsEllipsis f then
      s.emit { kind := .emptyFormal, range := f.range, tags := [.faded],
               fixes := [{ message := b!"remove empty formal", edits := [⟨f.range, []⟩] }] }
    else s) s

/-- The map `Dedup` (SemaActions.cpp:256-275): the first formal of each name, in order of appearance. `std::map` sorts
by name, see `dedup`. -/
def firstFormals : List Node → List (Bytes × Node) → List (Bytes × Node)
  | [], acc => acc
  | f :: fs, acc =>
    if (formalID f).isNull then firstFormals fs acc
    else if acc.any (fun p => p.1 == (formalID f).name) then firstFormals fs acc
    else firstFormals fs (acc ++ [((formalID f).name, f)])

/-- Insert into a `std::map` keyed by strings. -/
def insertKey {α : Type} (p : Bytes × α) : List (Bytes × α) → List (Bytes × α)
  | [] => [p]
  | q :: qs => if bytesLt p.1 q.1 then p :: q :: qs else q :: insertKey p qs

/-- `Formals::dedup` (Lambda.h:76-81), in the order of `std::map`. -/
def dedup (fv : List Node) : List (Bytes × Node) := (firstFormals fv []).foldl (fun m p => insertKey p m) []

/-- The diagnostics of `Sema::dedupFormal` (SemaActions.cpp:256-275). -/
def dedupDiags : List Node → List (Bytes × Node) → SemaSt → SemaSt
  | [], _, s => s
  | f :: fs, acc, s =>
    if (formalID f).isNull then dedupDiags fs acc s
    else
      match acc.find? (fun p => p.1 == (formalID f).name) with
      | some p =>
        dedupDiags fs acc (s.emit
          { kind := .duplicatedFormal, range := (formalID f).range,
            notes := [{ kind := .duplicateFormal, range := (formalID p.2).range }] })
      | none => dedupDiags fs (acc ++ [((formalID f).name, f)]) s

/-- `Sema::onFormals` (SemaActions.cpp:277-286). -/
def onFormals (src : Bytes) (range : CRange) (fv : List Node) (s : SemaSt) : Node × SemaSt :=
  let s := checkFormalSep fv s
  let s := checkFormalEllipsis src fv s
  let s := checkFormalEmpty fv s
  let s := dedupDiags fv [] s
  (.formals ⟨s.next, range⟩ fv, { s with next := s.next + 1 })

/-- Members of `Formals`. -/
def formalMembers : Node → List Node
  | .formals _ ms => ms
  | _ => []

/-- `Sema::onLambdaArg` (SemaActions.cpp:372-387). -/
def onLambdaArg (range : CRange) (i f : Node) (s : SemaSt) : Node × SemaSt :=
  let s :=
    if i.isNull || f.isNull then s
    else
      match (dedup (formalMembers f)).find? (fun p => p.1 == i.name) with
      | some p =>
        s.emit { kind := .duplicatedFormalToArg, range := i.range, notes := [{ kind := .duplicateFormal, range := p.2.range }] }
      | none => s
  (.lambdaArg ⟨s.next, range⟩ i f, { s with next := s.next + 1 })

end Verif.Nixf
