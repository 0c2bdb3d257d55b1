import Verif.Model.Sema
/-
Attribute sets as maps from paths to what is bound there, and what a binding contributes to such a map.
-/
namespace Verif.Nixf.Attrs

/-- What is bound at a path: an expression, a set, a variable of the scope around (`inherit x;`), an attribute of an expression
(`inherit (e) x;`). -/
inductive Val
  | expr (e : Node)
  | set (isRec : Bool)
  | scope
  | select (e : Node)

/-- An attribute name and what it is bound to. -/
structure Entry where
  key : Node
  val : Val

def Entry.isSet (e : Entry) : Prop := ∃ r, e.val = .set r

/-- The entries at the paths below a set. -/
abbrev Content := List Bytes → Option Entry

/-- The entry of an attribute of the tree. -/
def entryOf : Node → Entry
  | .attr _ k (.exprAttrs _ _ r _ _) _ => ⟨k, .set (!r.isNull)⟩
  | .attr _ k v .plain => ⟨k, .expr v⟩
  | .attr _ k _ .inherit => ⟨k, .scope⟩
  | .attr _ k (.exprSelect _ e ..) .inheritFrom => ⟨k, .select e⟩
  | a => ⟨attrKey a, .expr (attrValue a)⟩

/-- The static attributes of a set expression. -/
def statics : Node → List Node
  | .exprAttrs _ _ _ st _ => st
  | _ => []

/-- The content of a list of static attributes. -/
def content (st : List Node) : Content
  | [] => none
  | x :: p =>
    match st.find? (fun a => attrName a == x) with
    | none => none
    | some a => if p = [] then some (entryOf a) else content (statics (attrValue a)) p

/-- One binding `d₁.d₂...last = value`, or one name `last` of `inherit` (with `value` the expression in parentheses, if any). -/
structure Item where
  dirs : List Node
  last : Node
  value : Node
  kind : AttrKind

/-- The value of a binding, or what a name of `inherit` stands for. -/
def Item.val (it : Item) : Val :=
  match it.kind, it.value with
  | .inherit, _ => .scope
  | .inheritFrom, e => .select e
  | .plain, .exprAttrs _ _ r _ _ => .set (!r.isNull)
  | .plain, e => .expr e

/-- The attributes of the value, if it is a set. -/
def Item.below (it : Item) : Content :=
  match it.kind with
  | .plain => content (statics it.value)
  | _ => fun _ => none

/-- There is a value; it may be missing in incomplete sources. -/
def Item.present (it : Item) : Prop := it.kind ≠ .plain ∨ it.value.isNull = false

/-- The value is a set. -/
def Item.isSet (it : Item) : Prop := ∃ r, it.val = .set r

/-- The names are static, and these are they. -/
def StaticPath (ns : List Node) (q : List Bytes) : Prop := ns.map Node.staticName? = q.map some

/-- The entries a binding makes in an empty set: sets for the beginning of its path, its value at the end of the path, and below
that the content of the value. -/
inductive Gives (it : Item) : List Bytes → Entry → Prop
  | dir (pre n post q x) : it.dirs = pre ++ n :: post → StaticPath pre q → n.staticName? = some x → Gives it (q ++ [x]) ⟨n, .set false⟩
  | value (q x) : StaticPath it.dirs q → it.last.staticName? = some x → it.present → Gives it (q ++ [x]) ⟨it.last, it.val⟩
  | below (q x y r e) : StaticPath it.dirs q → it.last.staticName? = some x → it.below (y :: r) = some e →
      Gives it (q ++ x :: y :: r) e

/-- A binding cannot be added to a set with these entries: its path goes through something that is no set, or its end is already
bound. At the end two sets are merged, except for the attributes they have in common. In `Clash E it x n p q` the name `x` of the
node `n` was bound before at the node `p`; what the binding should give at the path `q` is lost. -/
inductive Clash (E : List Bytes → Entry → Prop) (it : Item) : Bytes → Node → Node → List Bytes → Prop
  | dir (pre n post q x e r) : it.dirs = pre ++ n :: post → StaticPath pre q → n.staticName? = some x → E (q ++ [x]) e → ¬ e.isSet →
      Clash E it x n e.key (q ++ x :: r)
  | bound (q x e r) : StaticPath it.dirs q → it.last.staticName? = some x → E (q ++ [x]) e → ¬ (e.isSet ∧ it.isSet) →
      Clash E it x it.last e.key (q ++ x :: r)
  | both (q x y e e' r) : StaticPath it.dirs q → it.last.staticName? = some x → it.isSet → E (q ++ [x, y]) e → it.below [y] = some e' →
      Clash E it y e'.key e.key (q ++ x :: y :: r)

/-- What bindings (the last one first) bind together: each adds what was not there and is not lost by a clash. -/
def Joint : List Item → List Bytes → Entry → Prop
  | [], _, _ => False
  | it :: its, q, e => Joint its q e ∨ ((∀ e', ¬ Joint its q e') ∧ Gives it q e ∧ ∀ x n p, ¬ Clash (Joint its) it x n p q)

/-- A set is merged with a set that is there already, and one of them is recursive and the other is not. -/
def MixedRec (E : List Bytes → Entry → Prop) (it : Item) : Prop :=
  ∃ q x e r r', StaticPath it.dirs q ∧ it.last.staticName? = some x ∧ E (q ++ [x]) e ∧ e.val = .set r ∧ it.val = .set r' ∧ r ≠ r'

/-- The bindings of a set, one by one. -/
def items : List Node → List Item
  | [] => []
  | .inherit _ names e :: bs =>
    names.map (fun n => ⟨[], n, e, if e.isNull then .inherit else .inheritFrom⟩) ++ items bs
  | .binding _ (.attrPath _ names _) _ v :: bs =>
    ⟨names.dropLast.filter (!·.isNull), names.getLastD .null, v, .plain⟩ :: items bs
  | _ :: bs => items bs

/-- The first name of the path. -/
def Item.first (it : Item) : Node := it.dirs.headD it.last

/-- The path begins with a dynamic name, and there is something to bind. -/
def Item.isDyn (it : Item) : Bool :=
  it.first.staticName?.isNone && !it.first.isNull && it.kind == .plain && (!it.dirs.isEmpty || !it.value.isNull)

/-- The attribute for a binding whose path begins with a dynamic name: its value, or a set for the rest of the path. -/
def DynAttr (it : Item) (a : Node) : Prop :=
  ∃ v, a = .attr [] it.first v .plain ∧ ((it.dirs = [] ∧ v = it.value) ∨
    (it.dirs ≠ [] ∧ ∃ h st dy, v = .exprAttrs h .null .null st dy ∧ ∀ q e, content st q = some e ↔ Gives { it with dirs := it.dirs.tail } q e))

/-- The text of a string without interpolations. -/
def stringText : Node → Option Bytes
  | .exprString _ (.parts _ fs) => fs.foldr (fun f t => match f, t with | .text b, some t => some (b ++ t) | _, _ => none) (some [])
  | _ => none

/-- The names that are static in Nix: identifiers, and strings without interpolations, quoted or in `${}` (`string_attr` of the
grammar of Nix). -/
def nixName : Node → Option Bytes
  | .attrNameID _ i => some i.name
  | .attrNameString _ s => stringText s
  | .attrNameInterp _ (.interpolation _ e) => stringText e
  | _ => none

/-- The entries of a list of attributes, as a relation. -/
def Has (C : Content) (q : List Bytes) (e : Entry) : Prop := C q = some e

end Verif.Nixf.Attrs
