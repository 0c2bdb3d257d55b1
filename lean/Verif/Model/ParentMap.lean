import Verif.Model.VariableLookup
/-
Parents of nodes. Models libnixf/src/Sema/ParentMap.cpp and `Node::descend` (libnixf/include/nixf/Basic/Nodes/Basic.h).

The map is keyed by the identity of nodes. Null children are left out by `Node.children`. The recursion of `dfs` goes as
deep as the tree, so the size of the tree is enough fuel. The climbing functions have their own fuel, and no result if it
runs out.
-/
namespace Verif.Nixf

/-- `ParentMapAnalysis::ParentMap` (ParentMap.h:17). -/
abbrev PMap := List (Nat × Node)

/-- `ParentMapAnalysis::dfs` (ParentMap.cpp:5-11). -/
def pmDfs : Nat → Node → Node → PMap → PMap
  | 0, _, _, m => m
  | k + 1, n, parent, m => n.children.foldl (fun m c => pmDfs k c n m) (ptrInsert n.id parent m)

/-- `ParentMapAnalysis::runOnAST` (ParentMap.cpp:37-40). -/
noncomputable def runPM (root : Node) : PMap := pmDfs (sizeOf root) root root []

/-- `ParentMapAnalysis::query` (ParentMap.cpp:13-15). -/
def PMap.query (m : PMap) (n : Node) : Option Node := ptrFind n.id m

/-- `ParentMapAnalysis::isRoot` (ParentMap.cpp:42-48). -/
def PMap.isRoot (m : PMap) (n : Node) : Bool :=
  match m.query n with
  | some up => up.id == n.id
  | none => false

/-- `upTo` (ParentMap.cpp:27-35) for a test of the kind. -/
def PMap.upTo (m : PMap) (kind : Node → Bool) : Nat → Node → Option (Option Node)
  | 0, _ => none
  | k + 1, n =>
    if kind n then some (some n)
    else
      match m.query n with
      | none => some none
      | some up => if up.id == n.id then some none else m.upTo kind k up

/-- `upExpr` (ParentMap.cpp:17-25). -/
def PMap.upExpr (m : PMap) : Nat → Node → Option (Option Node) := m.upTo Node.isExpr

/-- `Node::positionRange` (Basic.h:35). -/
def Node.positionRange (n : Node) : PosRange := ⟨n.lCur.position, n.rCur.position⟩

/-- `Node::descend` (Basic.h:49-61). The recursion goes down the tree, so its size is enough fuel. -/
def descendF : Nat → Node → PosRange → Option Node
  | 0, _, _ => none
  | k + 1, n, r =>
    if n.positionRange.contains r then
      match n.children.find? (fun c => c.positionRange.contains r) with
      | some c => descendF k c r
      | none => some n
    else none

noncomputable def Node.descend (n : Node) (r : PosRange) : Option Node := descendF (sizeOf n) n r

end Verif.Nixf
