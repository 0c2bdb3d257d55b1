import Verif.Spec.Text
import Verif.Model.Server
/-
A well-behaved editor: its documents are character lists, its edits are applied to its own text, and the
notifications it sends are computed from its own text as the LSP specification says.
-/
namespace Verif.Spec.Client
open SourceCode

/-- One edit: replace everything, or replace `n` characters at index `i`. -/
inductive Edit
  | full (text : List Char)
  | splice (i n : Nat) (text : List Char) (sendLength : Bool)

/-- The effect of an edit on the editor's text. -/
def Edit.apply (doc : List Char) : Edit → List Char
  | .full text => text
  | .splice i n text _ => doc.take i ++ text ++ doc.drop (i + n)

/-- The content change event the editor sends for an edit. -/
def Edit.wire (doc : List Char) : Edit → Change
  | .full text => ⟨none, none, encode text⟩
  | .splice i n text len =>
    ⟨some (posAfter (doc.take i), posAfter (doc.take (i + n))),
     if len then some (utf16Len ((doc.drop i).take n) : Int) else none, encode text⟩

/-- The columns sent fit into a C++ `int`. -/
def Edit.InRange (doc : List Char) : Edit → Prop
  | .full _ => True
  | .splice i n _ _ => utf16Len (lastLine (doc.take i)) < 2 ^ 31 ∧ utf16Len (lastLine (doc.take (i + n))) < 2 ^ 31

/-- Edits of one notification are applied one after another. -/
def applyAll (doc : List Char) : List Edit → List Char
  | [] => doc
  | e :: es => applyAll (e.apply doc) es

/-- The events of one notification. -/
def wireAll (doc : List Char) : List Edit → List Change
  | [] => []
  | e :: es => e.wire doc :: wireAll (e.apply doc) es

/-- All columns sent fit. -/
def InRangeAll (doc : List Char) : List Edit → Prop
  | [] => True
  | e :: es => e.InRange doc ∧ InRangeAll (e.apply doc) es

/-- What the user does in the editor (or in its configuration). -/
inductive Op
  | openDoc (file : Bytes) (version : Option Int) (text : List Char)
  | edit (file : Bytes) (version : Option Int) (edits : List Edit)
  | close (file : Bytes)
  | config (suppress : List Bytes)

/-- The editor's open documents. -/
abbrev Docs := Bytes → Option (List Char)

def Op.apply (docs : Docs) : Op → Docs
  | .openDoc f _ t => fun g => if g = f then some t else docs g
  | .edit f _ es => fun g => if g = f then (docs f).map (applyAll · es) else docs g
  | .close f => fun g => if g = f then none else docs g
  | .config _ => docs

/-- The notification sent; editing a document that is not open sends nothing sensible, here an empty change. -/
def Op.wire (docs : Docs) : Op → Server.Event
  | .openDoc f v t => .didOpen f v (encode t)
  | .edit f v es => .didChange f v (match docs f with
    | some doc => wireAll doc es
    | none => [])
  | .close f => .didClose f
  | .config s => .config s

def Op.InRange (docs : Docs) : Op → Prop
  | .edit f _ es => ∀ doc, docs f = some doc → InRangeAll doc es
  | _ => True

def applyOps (docs : Docs) : List Op → Docs
  | [] => docs
  | o :: os => applyOps (o.apply docs) os

def wireOps (docs : Docs) : List Op → List Server.Event
  | [] => []
  | o :: os => o.wire docs :: wireOps (o.apply docs) os

def InRangeOps (docs : Docs) : List Op → Prop
  | [] => True
  | o :: os => o.InRange docs ∧ InRangeOps (o.apply docs) os

end Verif.Spec.Client
