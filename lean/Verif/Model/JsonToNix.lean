import Verif.Model.CodeActionUtils
/-
Conversion of JSON to Nix. Models nixd/lib/Controller/CodeActions/JsonToNix.cpp.

`llvm::json::parse` is a parameter. A number that is not a 64-bit integer is represented by the text that the stream prints
for it with 17 significant digits (JsonToNix.cpp:37-41); these digits determine the number. The members of an object are in
the order of the iteration over the object. Reserving memory has no effect.
-/
namespace Verif.Nixf
open SourceCode Server

mutual
/-- `llvm::json::Value`. -/
inductive Json
  | null
  | bool (b : Bool)
  | int (n : Int)
  | dbl (t : Bytes)
  | str (s : Bytes)
  | arr (es : List Json)
  | obj (ms : List Member)
/-- A member of `llvm::json::Object`. -/
inductive Member
  | mk (key : Bytes) (value : Json)
end

/-- `MaxJsonDepth` (Utils.h:44). -/
def maxJsonDepth : Nat := 100
/-- `MaxJsonWidth` (Utils.h:47). -/
def maxJsonWidth : Nat := 10000

/-- Decimal digits of a number. -/
def natText (n : Nat) : Bytes :=
  if n < 10 then [UInt8.ofNat (48 + n)] else natText (n / 10) ++ [UInt8.ofNat (48 + n % 10)]
termination_by n

/-- `std::to_string`. -/
def intText (n : Int) : Bytes := if n < 0 then 45 :: natText n.natAbs else natText n.natAbs

/-- `std::string(Indent * 2, ' ')` (JsonToNix.cpp:26-27). -/
def indentText (indent : Nat) : Bytes := List.replicate (indent * 2) 32

/-- The test at JsonToNix.cpp:23-24. -/
def withinDepth (depth : Nat) (out : Bytes) : Bytes := if depth > maxJsonDepth then [] else out

/-- An array or object: limit of the width (JsonToNix.cpp:45-46, 68-69), the empty one, and the text around the elements;
`none` is an error in an element. -/
def container (open_ empty close : Bytes) (size indent : Nat) (inner : Option Bytes) : Bytes :=
  if size > maxJsonWidth then []
  else if size = 0 then empty
  else
    match inner with
    | none => []
    | some x => open_ ++ b!"\n" ++ x ++ b!"\n" ++ indentText indent ++ close

mutual
/-- `jsonToNix` (JsonToNix.cpp:21-95). -/
def jsonToNix (indent depth : Nat) : Json → Bytes
  | .null => withinDepth depth b!"null"
  | .bool b => withinDepth depth (if b then b!"true" else b!"false")
  | .int n => withinDepth depth (intText n)
  | .dbl t => withinDepth depth t
  | .str s => withinDepth depth (b!"\"" ++ escapeNixString s ++ b!"\"")
  | .arr es => withinDepth depth (container b!"[" b!"[ ]" b!"]" es.length indent (jsonElems (indent + 1) (depth + 1) es))
  | .obj ms => withinDepth depth (container b!"{" b!"{ }" b!"}" ms.length indent (jsonMembers (indent + 1) (depth + 1) ms))
/-- The loop over the elements (JsonToNix.cpp:56-63). -/
def jsonElems (indent depth : Nat) : List Json → Option Bytes
  | [] => some []
  | e :: es =>
    let elem := jsonToNix indent depth e
    if elem = [] then none
    else (jsonElems indent depth es).map fun r => indentText indent ++ elem ++ (if es.isEmpty then [] else b!"\n") ++ r
/-- One round of the loop over the members (JsonToNix.cpp:80-85). -/
def jsonMember (indent depth : Nat) : Member → Option Bytes
  | .mk key v =>
    let val := jsonToNix indent depth v
    if val = [] then none
    else some (indentText indent ++ quoteNixAttrKey key ++ b!" = " ++ val ++ b!";")
/-- The loop over the members (JsonToNix.cpp:79-89). -/
def jsonMembers (indent depth : Nat) : List Member → Option Bytes
  | [] => some []
  | m :: ms =>
    match jsonMember indent depth m with
    | none => none
    | some x => (jsonMembers indent depth ms).map fun r => x ++ (if ms.isEmpty then [] else b!"\n") ++ r
end

/-- The JSON value is an empty array or object (JsonToNix.cpp:139-146). -/
def emptyJson : Json → Bool
  | .arr es => es.isEmpty
  | .obj ms => ms.isEmpty
  | _ => false

/-- `addJsonToNixAction` (JsonToNix.cpp:99-156): the new text for the selected range, if the action is offered. -/
def addJsonToNixAction (parseJson : Bytes → Option Json) (src : Bytes) (start stop : Position) : Option Bytes :=
  match positionToOffset src start true, positionToOffset src stop true with
  | .ok a, .ok b =>
    if a ≥ b ∨ b > src.length then none
    else
      let selected := (src.drop a).take (b - a)
      if selected.length < 2 then none
      else if selected.head? ≠ some 123 ∧ selected.head? ≠ some 91 then none
      else
        match parseJson selected with
        | none => none
        | some v =>
          if emptyJson v then none
          else
            let text := jsonToNix 0 0 v
            if text = [] then none else some text
  | _, _ => none

end Verif.Nixf
