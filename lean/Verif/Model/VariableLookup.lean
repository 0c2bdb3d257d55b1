import Verif.Model.Sema
/-
Variable lookup. Models libnixf/src/Sema/VariableLookup.cpp, libnixf/include/nixf/Sema/VariableLookup.h and
libnixf/src/Sema/PrimOpLookup.cpp.

* `PrimOpsInfo` is generated from the primops of the Nix library at build time (PrimOpsInfoGen.cpp), so it is a parameter:
  a list of names with the flag `Internal`.
* `Definition` objects are shared and mutated in C++. Here they live in a store and are referred to by index.
* Maps keyed by node pointers are association lists keyed by the identity of the node.
* The recursion of `dfs` is bounded by a fuel; `deep` is set if it runs out. `bad` is set when an assert fails.
-/
namespace Verif.Nixf

/-- `Definition::DefinitionSource` (VariableLookup.h:29-55). -/
inductive DefSource
  | with_
  | let_
  | lambdaArg
  | lambdaNoArgFormal
  | lambdaWithArgArg
  | lambdaWithArgFormal
  | rec_
  | builtin
deriving DecidableEq, Repr

/-- `Definition` (VariableLookup.h:26-80). -/
structure Def where
  syntax_ : Node
  source : DefSource
  uses : List Node := []

/-- `EnvNode` (VariableLookup.h:83-110) without its parent; definitions in the order of `std::map`. -/
structure Scope where
  defs : List (Bytes × Nat)
  syntax_ : Node

/-- A chain of `EnvNode`s, innermost first. -/
abbrev Env := List Scope

/-- `LookupResultKind` (VariableLookup.h:114-119); `NoSuchVar` is a missing entry. -/
inductive LookupKind
  | undefined
  | fromWith
  | defined
deriving DecidableEq, Repr

/-- `LookupResult` (VariableLookup.h:121-124). -/
structure LookupResult where
  kind : LookupKind
  def_ : Option Nat
deriving DecidableEq, Repr

/-- State of `VariableLookupAnalysis` (VariableLookup.h:129-174). -/
structure VL where
  diags : List Diagnostic := []
  store : List Def := []
  withDefs : List (Nat × Nat) := []
  toDef : List (Nat × Nat) := []
  envs : List (Nat × Env) := []
  results : List (Nat × LookupResult) := []
  withScopes : List (Nat × List Nat) := []
  bad : Bool := false
  deep : Bool := false

/-- `std::map::insert`: an existing entry is kept. -/
def ptrInsert {α : Type} (k : Nat) (v : α) (m : List (Nat × α)) : List (Nat × α) :=
  if m.any (fun p => p.1 == k) then m else m ++ [(k, v)]
/-- `std::map::insert_or_assign`. -/
def ptrAssign {α : Type} (k : Nat) (v : α) (m : List (Nat × α)) : List (Nat × α) :=
  (k, v) :: m.filter (fun p => p.1 != k)
/-- `std::map::find`. -/
def ptrFind {α : Type} (k : Nat) (m : List (Nat × α)) : Option α := (m.find? (fun p => p.1 == k)).map (·.2)
/-- `std::map::find` with string keys. -/
def keyFind {α : Type} (k : Bytes) (m : List (Bytes × α)) : Option α := (m.find? (fun p => p.1 == k)).map (·.2)

/-- `Constants` (VariableLookup.cpp:14-19). -/
def constants : List Bytes :=
  [b!"true", b!"false", b!"null", b!"__currentTime", b!"__currentSystem", b!"__nixVersion", b!"__storeDir",
    b!"__langVersion", b!"__importNative", b!"__traceVerbose", b!"__nixPath", b!"derivation"]

/-- `PrimopLookupResult` (PrimOpInfo.h:43-50). -/
inductive PrimopLookup
  | found
  | prefixedFound
  | notFound
deriving DecidableEq, Repr

/-- The keys of `PrimOpsInfo` with `Internal`. -/
abbrev PrimOps := List (Bytes × Bool)

/-- `lookupGlobalPrimOpInfo` (PrimOpLookup.cpp:5-17). -/
def lookupPrimOp (P : PrimOps) (name : Bytes) : PrimopLookup :=
  if P.any (fun p => p.1 == name) then .found
  else if P.any (fun p => p.1 == b!"__" ++ name) then .prefixedFound
  else .notFound

/-- `isBuiltinConstant` (VariableLookup.cpp:88-92). -/
def isBuiltinConstant (name : Bytes) : Bool :=
  if b!"_".isPrefixOf name then false else constants.contains name || constants.contains (b!"__" ++ name)

namespace VL

def emit (d : Diagnostic) (s : VL) : VL := { s with diags := s.diags ++ [d] }
/-- The definition at an address. -/
def get (s : VL) (d : Nat) : Def := s.store.getD d ⟨.null, .builtin, []⟩
/-- A new definition; its address is the old size of the store. -/
def alloc (d : Def) (s : VL) : VL := { s with store := s.store ++ [d] }
/-- `Definition::usedBy` (VariableLookup.h:77). -/
def usedBy (d : Nat) (v : Node) (s : VL) : VL :=
  { s with store := s.store.modify d fun x => { x with uses := x.uses ++ [v] } }

end VL

/-- `DefBuilder::add` (VariableLookup.cpp:43-62) with `addSimple` (lines 27-33), and the entry in `ToDef` that every
caller makes of the result. -/
def addDef (P : PrimOps) (name : Bytes) (entry : Node) (source : DefSource) (fromBuiltin : Bool) (m : List (Bytes × Nat))
    (s : VL) : List (Bytes × Nat) × VL :=
  let s := if lookupPrimOp P name = .found ∧ fromBuiltin = false then
      s.emit { kind := .primOpOverridden, range := entry.range, args := [name] } else s
  let s := if constants.contains name then s.emit { kind := .constantOverridden, range := entry.range, args := [name] } else s
  let d := s.store.length
  let dup := m.any (fun p => p.1 == name)
  let s := { s.alloc ⟨entry, source, []⟩ with toDef := ptrAssign entry.id d s.toDef, bad := s.bad || dup }
  (if dup then m else insertKey (name, d) m, s)

/-- `checkInheritedFromBuiltin` (VariableLookup.cpp:72-86). The two asserts hold by construction (SemaActions.cpp:345-360). -/
def checkInheritedFromBuiltin : Node → Bool
  | .attr _ _ (.exprSelect _ (.exprVar _ i) ..) .inheritFrom => i.name == b!"builtins"
  | _ => false

/-- `EnvNode::isLive` (VariableLookup.cpp:96-102). -/
def isLive (sc : Scope) (s : VL) : Bool := sc.defs.any (fun p => !(s.get p.2).uses.isEmpty)

/-- `ExprAttrs::binds` and `ExprLet::binds` (Attrs.h:284, Expr.h:152-154): the bindings. -/
def bindings : Node → List Node
  | .exprAttrs _ (.binds _ bs) .. => bs
  | _ => []

/-- The fix of an unused `let` binding (VariableLookup.cpp:135-165): the first binding whose first name has the range of
the definition. -/
def unusedLetFix (r : CRange) (letNode : Node) : List Fix :=
  match letNode with
  | .exprLet _ _ _ _ attrs =>
    match (bindings attrs).find? (fun b =>
        match b with
        | .binding _ (.attrPath _ (n :: _) _) _ _ => !n.isNull && n.range.l == r.l && n.range.r == r.r
        | _ => false) with
    | some b => [{ message := b!"remove unused binding", edits := [⟨b.range, []⟩] }]
    | none => []
  | _ => []

/-- The diagnostic for an unused definition, by source (VariableLookup.cpp:116-130). -/
def unusedKind : DefSource → Option DK
  | .let_ => some .unusedDefLet
  | .lambdaNoArgFormal => some .unusedDefLambdaNoArg_Formal
  | .lambdaWithArgFormal => some .unusedDefLambdaWithArg_Formal
  | .lambdaWithArgArg => some .unusedDefLambdaWithArg_Arg
  | _ => none

/-- The loop body of `emitEnvLivenessWarning` (VariableLookup.cpp:106-168). -/
def livenessOne (sc : Scope) (s : VL) (p : Bytes × Nat) : VL :=
  let d := s.get p.2
  if d.source = .lambdaArg then s
  else if d.syntax_.isNull then s
  else if d.uses.isEmpty then
    match unusedKind d.source with
    | none => { s with bad := true }
    | some k =>
      s.emit { kind := k, range := d.syntax_.range, args := [p.1], tags := [.faded],
               fixes := if d.source = .let_ then unusedLetFix d.syntax_.range sc.syntax_ else [] }
  else s

/-- `emitEnvLivenessWarning` (VariableLookup.cpp:104-169). -/
def emitEnvLivenessWarning (sc : Scope) (s : VL) : VL := sc.defs.foldl (livenessOne sc) s

/-- The innermost definition of a name (VariableLookup.cpp:177-181). -/
def findDef (name : Bytes) : Env → Option Nat
  | [] => none
  | sc :: env =>
    match keyFind name sc.defs with
    | some d => some d
    | none => findDef name env

/-- `EnvNode::isWith` (VariableLookup.h:103-105). -/
def isWith (sc : Scope) : Bool :=
  match sc.syntax_ with
  | .exprWith .. => true
  | _ => false

/-- `VariableLookupAnalysis::lookupVar` (VariableLookup.cpp:171-235). The `with`s passed before a definition is found are
not used in that case, so they are collected separately. -/
def lookupVar (P : PrimOps) (v : Node) (env : Env) (s : VL) : VL :=
  let name := match v with | .exprVar _ i => i.name | _ => []
  match findDef name env with
  | some d => { s.usedBy d v with results := ptrInsert v.id ⟨.defined, some d⟩ s.results }
  | none =>
    let withs := env.filter isWith
    if withs.isEmpty = false then
      let ds := withs.map fun sc => (ptrFind sc.syntax_.id s.withDefs).getD 0
      let s := ds.foldl (fun s d => s.usedBy d v) s
      { s with
        withScopes := ptrInsert v.id (withs.map (·.syntax_.id)) s.withScopes
        results := ptrInsert v.id ⟨.fromWith, ds.getLast?⟩ s.results }
    else
      match lookupPrimOp P name with
      | .found => { s with bad := true }
      | .prefixedFound =>
        { s.emit { kind := .primOpNeedsPrefix, range := v.range,
                   fixes := [{ message := b!"use `builtins.` prefix", edits := [⟨⟨v.lCur, v.lCur⟩, b!"builtins."⟩] }] } with
          results := ptrInsert v.id ⟨.undefined, none⟩ s.results }
      | .notFound =>
        { s.emit { kind := .undefinedVariable, range := v.range, args := [name] } with
          results := ptrInsert v.id ⟨.undefined, none⟩ s.results }

/-- Recursive calls of `dfs`. -/
abbrev Dfs := Node → Env → VL → VL

/-- The definitions made by a lambda (VariableLookup.cpp:243-286). -/
def lambdaDefs (P : PrimOps) (i f : Node) (s : VL) : List (Bytes × Nat) × VL :=
  let (m, s) :=
    if i.isNull then ([], s)
    else if f.isNull then addDef P i.name i .lambdaArg false [] s
    else if (dedup (formalMembers f)).any (fun p => p.1 == i.name) then ([], s)
    else addDef P i.name i .lambdaWithArgArg false [] s
  if f.isNull then (m, s)
  else (dedup (formalMembers f)).foldl (fun ms p =>
    addDef P p.1 (formalID p.2) (if i.isNull then .lambdaNoArgFormal else .lambdaWithArgFormal) false ms.1 ms.2) (m, s)

/-- `dfs(const ExprLambda &)` (VariableLookup.cpp:237-301). -/
def dfsLambda (P : PrimOps) (rec : Dfs) (n arg body : Node) (env : Env) (s : VL) : VL :=
  if body.isNull then s
  else
    match arg with
    | .lambdaArg _ i f =>
      let (m, s) := lambdaDefs P i f s
      let sc : Scope := ⟨m, n⟩
      let s := (if f.isNull then [] else formalMembers f).foldl (fun s m =>
        if (formalDefault m).isNull then s else rec (formalDefault m) (sc :: env) s) s
      let s := rec body (sc :: env) s
      emitEnvLivenessWarning sc s
    | _ => { s with bad := true }

/-- `dfsDynamicAttrs` (VariableLookup.cpp:303-312). -/
def dfsDynamicAttrs (rec : Dfs) (as : List Node) (env : Env) (s : VL) : VL :=
  as.foldl (fun s a =>
    if (attrValue a).isNull then s else rec (attrValue a) env (rec (attrKey a) env s)) s

/-- The kind of an attribute (Attrs.h:220). -/
def attrKind : Node → AttrKind
  | .attr _ _ _ k => k
  | _ => .plain

/-- The definitions made by a recursive set (VariableLookup.cpp:317-325). -/
def attrsDefs (P : PrimOps) (st : List Node) (source : DefSource) (s : VL) : List (Bytes × Nat) × VL :=
  st.foldl (fun ms a => addDef P (attrName a) (attrKey a) source (checkInheritedFromBuiltin a) ms.1 ms.2) ([], s)

/-- `dfsAttrs` (VariableLookup.cpp:314-354). The second result is the new scope, if there is one. -/
def dfsAttrs (P : PrimOps) (rec : Dfs) (r : Node) (st dy : List Node) (env : Env) (syn : Node) (source : DefSource) (s : VL) :
    VL × Option Scope :=
  if r.isNull then
    let s := st.foldl (fun s a => if (attrValue a).isNull then s else rec (attrValue a) env s) s
    (dfsDynamicAttrs rec dy env s, none)
  else
    let (m, s) := attrsDefs P st source s
    let sc : Scope := ⟨m, syn⟩
    let s := st.foldl (fun s a =>
      if (attrValue a).isNull then s
      else if attrKind a = .inherit then rec (attrValue a) env s else rec (attrValue a) (sc :: env) s) s
    (dfsDynamicAttrs rec dy (sc :: env) s, some sc)

/-- `dfs(const ExprAttrs &)` (VariableLookup.cpp:356-372). -/
def dfsExprAttrs (P : PrimOps) (rec : Dfs) (n r : Node) (st dy : List Node) (env : Env) (s : VL) : VL :=
  match dfsAttrs P rec r st dy env n .rec_ s with
  | (s, none) => s
  | (s, some sc) =>
    if isLive sc s then s
    else s.emit { kind := .extraRecursive, range := r.range, tags := [.faded],
                  fixes := [{ message := b!"remove `rec` keyword", edits := [⟨r.range, []⟩] }] }

/-- `checkLetInheritBuiltins` (VariableLookup.cpp:495-508). -/
def checkLetInheritBuiltins (P : PrimOps) (st : List Node) (s : VL) : VL :=
  st.foldl (fun s a =>
    if checkInheritedFromBuiltin a ∧ lookupPrimOp P (attrName a) = .found then
      s.emit { kind := .primOpRemovablePrefix, range := (attrKey a).range,
               fixes := [{ message := b!"remove unnecessary inherit", edits := [⟨(attrKey a).range, []⟩] }] }
    else s) s

/-- `dfs(const ExprLet &)` (VariableLookup.cpp:374-398). If the set is not recursive (line 388), an assert fails. -/
def dfsLet (P : PrimOps) (rec : Dfs) (n e attrs : Node) (env : Env) (s : VL) : VL :=
  match attrs with
  | .exprAttrs _ _ r st dy =>
    let s := { s with bad := s.bad || r.isNull }
    let s := checkLetInheritBuiltins P st s
    let (s, o) := dfsAttrs P rec r st dy env n .let_ s
    match o with
    | some sc =>
      let s := if e.isNull then s else rec e (sc :: env) s
      emitEnvLivenessWarning sc s
    | none => if e.isNull then s else rec e env s
  | _ =>
    let sc : Scope := ⟨[], n⟩
    if e.isNull then s else rec e (sc :: env) s

/-- `dfs(const ExprWith &)` (VariableLookup.cpp:415-441). -/
def dfsWith (rec : Dfs) (n kw semi w e : Node) (env : Env) (s : VL) : VL :=
  let sc : Scope := ⟨[], n⟩
  let s :=
    if s.withDefs.any (fun p => p.1 == n.id) then s
    else
      let d := s.store.length
      { s.alloc ⟨kw, .with_, []⟩ with toDef := ptrAssign kw.id d s.toDef, withDefs := s.withDefs ++ [(n.id, d)] }
  let s := if w.isNull then s else rec w env s
  let s := if e.isNull then s else rec e (sc :: env) s
  if (s.get ((ptrFind n.id s.withDefs).getD 0)).uses.isEmpty then
    s.emit { kind := .extraWith, range := kw.range,
             fixes := [{ message := b!"remove `with` expression",
                         edits := [⟨kw.range, []⟩] ++ (if semi.isNull then [] else [⟨semi.range, []⟩]) ++
                           (if w.isNull then [] else [⟨w.range, []⟩]) }] }
  else s

/-- `checkBuiltins` (VariableLookup.cpp:443-493). -/
def checkBuiltins (P : PrimOps) (n : Node) (s : VL) : VL :=
  match n with
  | .exprSelect _ (.exprVar hv i) dot (.attrPath _ [first] _) _ false =>
    if i.name == b!"builtins" then
      match first.staticName? with
      | none => s
      | some name =>
        match lookupPrimOp P name with
        | .found =>
          s.emit { kind := .primOpRemovablePrefix, range := hv.range,
                   fixes := [{ message := b!"remove `builtins.` prefix",
                               edits := [⟨hv.range, []⟩] ++ (if dot.isNull then [] else [⟨dot.range, []⟩]) }] }
        | .prefixedFound => s
        | .notFound =>
          if isBuiltinConstant name then s
          else s.emit { kind := .primOpUnknown, range := first.range, args := [name] }
    else s
  | _ => s

/-- `trivialDispatch` (VariableLookup.cpp:406-413). -/
def trivialDispatch (rec : Dfs) (n : Node) (env : Env) (s : VL) : VL :=
  n.children.foldl (fun s c => rec c env s) s

/-- `dfs(const Node &)` (VariableLookup.cpp:510-553). -/
def dfs (P : PrimOps) : Nat → Dfs
  | 0, _, _, s => { s with deep := true }
  | k + 1, n, env, s =>
    let s := { s with envs := ptrInsert n.id env s.envs }
    match n with
    | .exprVar .. => lookupVar P n env s
    | .exprLambda _ arg body => dfsLambda P (dfs P k) n arg body env s
    | .exprAttrs _ _ r st dy => dfsExprAttrs P (dfs P k) n r st dy env s
    | .exprLet _ _ _ e attrs => dfsLet P (dfs P k) n e attrs env s
    | .exprLegacyLet _ _ attrs =>
      match attrs with
      | .exprAttrs _ _ r st dy => dfsExprAttrs P (dfs P k) attrs r st dy env s
      | _ => s
    | .exprWith _ kw semi w e => dfsWith (dfs P k) n kw semi w e env s
    | .exprSelect .. => checkBuiltins P n (trivialDispatch (dfs P k) n env s)
    | _ => trivialDispatch (dfs P k) n env s

/-- The names of the outermost scope (VariableLookup.cpp:559-571). -/
def globalNames (P : PrimOps) : List Bytes :=
  (P.filter fun p => !p.2).map (·.1) ++ constants ++ [b!"builtins", b!"__curPos"]

/-- `DefBuilder::addBuiltin` (VariableLookup.cpp:38-41) for all of them. -/
def globalDefs (ns : List Bytes) (m : List (Bytes × Nat)) (s : VL) : List (Bytes × Nat) × VL :=
  ns.foldl (fun ms n =>
    let dup := ms.1.any (fun p => p.1 == n)
    let d := ms.2.store.length
    (if dup then ms.1 else insertKey (n, d) ms.1, { ms.2.alloc ⟨.null, .builtin, []⟩ with bad := ms.2.bad || dup })) (m, s)

/-- `VariableLookupAnalysis::runOnAST` (VariableLookup.cpp:555-576) with fuel. -/
def runVL (P : PrimOps) (fuel : Nat) (root : Node) : VL :=
  let (m, s) := globalDefs (globalNames P) [] {}
  dfs P fuel root [⟨m, .null⟩] s

/-- `VariableLookupAnalysis::query` (VariableLookup.h:185-189). -/
def VL.query (s : VL) (v : Node) : Option LookupResult := ptrFind v.id s.results
/-- `VariableLookupAnalysis::toDef` (VariableLookup.h:203-207). -/
def VL.toDefOf (s : VL) (n : Node) : Option Def := (ptrFind n.id s.toDef).map s.get
/-- `VariableLookupAnalysis::getWithScopes` (VariableLookup.h:225-231). -/
def VL.withScopesOf (s : VL) (v : Node) : List Nat := (ptrFind v.id s.withScopes).getD []

end Verif.Nixf
