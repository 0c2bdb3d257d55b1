import Verif.Model.ParentMap
import Verif.Model.Server
/-
Texts written by code actions, and the action that rewrites strings. Models nixd/lib/Controller/CodeActions/Utils.cpp and
RewriteString.cpp.

An action is its title, the range (before conversion to a range of the protocol) and the new text; all actions here have
exactly one edit. `createSingleEditAction` (Utils.cpp:10-25) puts it into the form of the protocol.
-/
namespace Verif.Nixf

/-- A single-edit code action (Utils.cpp:10-25). -/
structure Action where
  title : Bytes
  range : CRange
  newText : Bytes
deriving DecidableEq, Repr

/-- The test of the first character (Utils.cpp:32-34). -/
def isIdFirst (c : UInt8) : Bool := (97 ≤ c && c ≤ 122) || (65 ≤ c && c ≤ 90) || c == 95

/-- The test of the other characters (Utils.cpp:39-41). -/
def isIdRest (c : UInt8) : Bool :=
  (97 ≤ c && c ≤ 122) || (65 ≤ c && c ≤ 90) || (48 ≤ c && c ≤ 57) || c == 95 || c == 45 || c == 39

/-- `Keywords` (Utils.cpp:46-48). -/
def actionKeywords : List Bytes :=
  [b!"if", b!"then", b!"else", b!"assert", b!"with", b!"let", b!"in", b!"rec", b!"inherit", b!"or", b!"true", b!"false",
   b!"null"]

/-- `isValidNixIdentifier` (Utils.cpp:27-50). -/
def isValidNixIdentifier : Bytes → Bool
  | [] => false
  | c :: w => isIdFirst c && w.all isIdRest && !actionKeywords.contains (c :: w)

/-- `escapeNixString` (Utils.cpp:52-86). -/
def escapeNixString : Bytes → Bytes
  | [] => []
  | 34 :: r => b!"\\\"" ++ escapeNixString r
  | 92 :: r => b!"\\\\" ++ escapeNixString r
  | 10 :: r => b!"\\n" ++ escapeNixString r
  | 13 :: r => b!"\\r" ++ escapeNixString r
  | 9 :: r => b!"\\t" ++ escapeNixString r
  | 36 :: 123 :: r => b!"\\${" ++ escapeNixString r
  | c :: r => c :: escapeNixString r

/-- `quoteNixAttrKey` (Utils.cpp:88-93). -/
def quoteNixAttrKey (key : Bytes) : Bytes :=
  if isValidNixIdentifier key then key else b!"\"" ++ escapeNixString key ++ b!"\""

/-- `isIndentedString` (RewriteString.cpp:18-24). -/
def isIndentedString (src : Bytes) (r : CRange) : Bool := (b!"''").isPrefixOf (src.drop r.l.offset)

/-- `escapeForIndentedString` (RewriteString.cpp:31-57). -/
def escapeForIndentedString : Bytes → Bytes
  | [] => []
  | 39 :: 39 :: r => b!"'''" ++ escapeForIndentedString r
  | 36 :: 123 :: r => b!"''${" ++ escapeForIndentedString r
  | c :: r => c :: escapeForIndentedString r

/-- The loops of `buildDoubleQuotedString` and `buildIndentedString` (RewriteString.cpp:67-76, 90-99). -/
def buildFragments (escape : Bytes → Bytes) (src : Bytes) : List Node → Bytes
  | [] => []
  | .text t :: fs => escape t ++ buildFragments escape src fs
  | n :: fs => n.src src ++ buildFragments escape src fs

/-- `buildDoubleQuotedString` (RewriteString.cpp:63-80). -/
def buildDoubleQuotedString (fs : List Node) (src : Bytes) : Bytes :=
  b!"\"" ++ buildFragments escapeNixString src fs ++ b!"\""

/-- `buildIndentedString` (RewriteString.cpp:86-103). -/
def buildIndentedString (fs : List Node) (src : Bytes) : Bytes :=
  b!"''" ++ buildFragments escapeForIndentedString src fs ++ b!"''"

/-- The action for a string node (RewriteString.cpp:120-141). -/
def rewriteString (src : Bytes) : Node → Option Action
  | .exprString h (.parts _ fs) =>
    if isIndentedString src h.range then
      some ⟨b!"Convert to double-quoted string", h.range, buildDoubleQuotedString fs src⟩
    else some ⟨b!"Convert to indented string", h.range, buildIndentedString fs src⟩
  | _ => none

def isExprString (n : Node) : Bool := n.kind? == some .ExprString

/-- `addRewriteStringAction` (RewriteString.cpp:107-142). Without result if the fuel of `upTo` runs out. -/
def addRewriteStringAction (src : Bytes) (pm : PMap) (fuel : Nat) (n : Node) : Option (Option Action) :=
  match pm.upTo isExprString fuel n with
  | none => none
  | some none => some none
  | some (some s) =>
    match pm.upTo (fun n => n.kind? == some .AttrName) fuel s with
    | none => none
    | some (some _) => some none
    | some none => some (rewriteString src s)

end Verif.Nixf
