import Verif.Model.Server
import Verif.Model.VariableLookup
/-
Links of paths. Models nixd/lib/Controller/DocumentLink.cpp and nixd/lib/Controller/PathResolve.h.

The file system is a parameter. Its functions report an error, or an exception caught at PathResolve.h:90, by `none`.
-/
namespace Verif.Nixf.Links
open SourceCode Server

/-- What `std::filesystem` is used for. -/
structure FS where
  /-- `path::parent_path` -/
  parent : Bytes → Bytes
  /-- `canonical` -/
  canonical : Bytes → Option Bytes
  /-- `operator/` -/
  join : Bytes → Bytes → Bytes
  /-- `weakly_canonical` -/
  weaklyCanonical : Bytes → Option Bytes
  /-- `status`, if the file exists: is it a directory? -/
  status : Bytes → Option Bool
  /-- `exists` without error -/
  exists_ : Bytes → Bool

/-- `resolveExprPath` (PathResolve.h:28-94). -/
def resolveExprPath (fs : FS) (base path : Bytes) : Option Bytes :=
  if path.isEmpty || decide (path.length > 4096) then none
  else if (fs.parent base).isEmpty then none
  else
    match fs.canonical (fs.parent base) with
    | none => none
    | some dir =>
      match fs.weaklyCanonical (fs.join dir path) with
      | none => none
      | some p =>
        match fs.status p with
        | none => none
        | some false => some p
        | some true => if fs.exists_ (fs.join p b!"default.nix") then some (fs.join p b!"default.nix") else none

/-- `DocumentLink` (Protocol.h:1910), with the path of the target. -/
structure Link where
  range : LRange
  target : Bytes
deriving DecidableEq, Repr

/-- `dfs` (DocumentLink.cpp:32-59). The recursion follows the tree, so its size is enough fuel. -/
def linksF (fs : FS) (base src : Bytes) : Nat → Node → List Link
  | 0, _ => []
  | k + 1, n =>
    match n with
    | .exprPath _ p =>
      match p.literal? with
      | none => []
      | some t =>
        match resolveExprPath fs base t with
        | none => []
        | some target => [⟨toLSPRange src n.range, target⟩]
    | n => n.children.flatMap (linksF fs base src k)

/-- `onDocumentLink` (DocumentLink.cpp:63-80) on a tree. -/
noncomputable def documentLinks (fs : FS) (base src : Bytes) (n : Node) : List Link := linksF fs base src (sizeOf n) n

end Verif.Nixf.Links
