import Verif.Model.CompletionMessages
import Verif.Props.DocumentMessages
/-
**C88**: the editor reads the items of a completion as the server made them, and an item that is resolved is the same item
with the description of its package.
-/
namespace Verif.Props
namespace Items
open Verif.Rpc (Json)
open Docs
open Nixf.Complete (Item ItemKind)

/-! ### The items, by the members of their objects (Language Server Protocol 3.17, `CompletionItem`) -/

/-- A member that may be absent. -/
def Opt {α : Type} (fs : List (Bytes × Json)) (key : Bytes) (P : Json → α → Prop) : Option α → Prop
  | none => fs.lookup key = none
  | some a => Has fs key P a

/-- A string that is absent if it is empty. -/
def Text (fs : List (Bytes × Json)) (key : Bytes) (s : Bytes) : Prop :=
  (s = [] ∧ fs.lookup key = none) ∨ Has fs key IsStr s

/-- A text in Markdown. -/
def IsMarkdown (v : Json) (s : Bytes) : Prop :=
  ∃ fs, v = .obj fs ∧ Has fs b!"kind" IsStr b!"markdown" ∧ Has fs b!"value" IsStr s

/-- An edit. -/
def IsEdit (v : Json) (e : Server.LRange × Bytes) : Prop :=
  ∃ fs, v = .obj fs ∧ Has fs b!"range" IsRng (e.1.start, e.1.stop) ∧ Has fs b!"newText" IsStr e.2

/-- The number of a kind of items. -/
def number : ItemKind → Int
  | .constructor_ => 4
  | .field => 5
  | .variable_ => 6
  | .class_ => 7
  | .keyword => 14

/-- `InsertTextFormat`. -/
def formatOf (snippet : Bool) : Int := if snippet then 2 else 1

/-- The members of an item, where the format of the text and the documentation are given. -/
structure Members (fs : List (Bytes × Json)) (i : Item) (format : Option Int) (data : Bytes) : Prop where
  label : Has fs b!"label" IsStr i.label
  kind : Has fs b!"kind" IsInt (number i.kind)
  detail : Text fs b!"detail" i.detail
  sortText : Text fs b!"sortText" i.sortText
  filterText : Text fs b!"filterText" i.filterText
  insertText : Text fs b!"insertText" i.insertText
  format : Opt fs b!"insertTextFormat" IsInt format
  textEdit : Opt fs b!"textEdit" IsEdit i.textEdit
  data : Has fs b!"data" IsStr data
  additional : fs.lookup b!"additionalTextEdits" = none

/-- An item. -/
def IsItem (data : Bytes) (format : Option Int) (v : Json) (i : Item) : Prop :=
  ∃ fs, v = .obj fs ∧ Members fs i format data ∧ Opt fs b!"documentation" IsMarkdown i.documentation

/-- The strings of an item are UTF-8. -/
structure Utf8 (i : Item) : Prop where
  label : IsText i.label
  detail : IsText i.detail
  documentation : ∀ s ∈ i.documentation, IsText s
  sortText : IsText i.sortText
  filterText : IsText i.filterText
  insertText : IsText i.insertText
  textEdit : ∀ e ∈ i.textEdit, IsText e.2
  data : ∀ p ∈ i.data, ∀ s ∈ p.pfx :: p.scope, IsText s

end Items
open Items Docs
open Verif.CompletionMessages
open Verif.Rpc (Json)
open Verif.Protocol (mapRequired encodeString encodeInt decodeInt32 decodeList PackageDescription)
open Verif.Config (decodeString mapOptional isObject)
open Nixf.Complete (Item ItemKind)

theorem lookup_members : ∀ (l : List (Bytes × Option Json)) (k : Bytes), (l.map (·.1)).Nodup →
    (members l).lookup k = (l.lookup k).join
  | [], _, _ => rfl
  | (a, o) :: l, k, h => by
    have h := List.nodup_cons.mp h
    have ih := lookup_members l k h.2
    have hm : members ((a, o) :: l) = (o.map (a, ·)).toList ++ members l := by cases o <;> simp [members]
    rw [hm, List.lookup_append, ih]
    by_cases hk : k = a
    · subst hk
      have : l.lookup k = none := by
        rw [List.lookup_eq_none_iff]
        intro p hp
        simp only [bne_iff_ne, ne_eq]
        rintro rfl
        exact h.1 (List.mem_map.mpr ⟨p, hp, rfl⟩)
      cases o <;> simp [List.lookup, this]
    · have hb : (k == a) = false := by simpa using hk
      cases o <;> simp [List.lookup, hb]

theorem isText_append {a b : Bytes} : IsText a → IsText b → IsText (a ++ b)
  | ⟨x, hx⟩, ⟨y, hy⟩ => ⟨x ++ y, by simp [hx, hy, Spec.encode]⟩

theorem encodePos_is (p : SourceCode.Position) : IsPos (encodePos p) p :=
  ⟨_, rfl, ⟨encodeInt p.line, by simp [List.lookup], _, rfl⟩, ⟨encodeInt p.character, by simp [List.lookup], _, rfl⟩⟩

theorem encodeRng_is (a b : SourceCode.Position) : IsRng (encodeRng a b) (a, b) :=
  ⟨_, rfl, ⟨_, by simp [List.lookup], encodePos_is a⟩, ⟨_, by simp [List.lookup], encodePos_is b⟩⟩

theorem int32_trip {n : Int} (h : 0 ≤ n ∧ n < 2 ^ 31) (r : Int) : decodeInt32 (encodeInt n) r = some n := by
  rw [int32_iff]
  exact ⟨n, ⟨_, rfl⟩, by simp, by omega, h.2⟩

/-- The members of a message. -/
def fields (fix : Bytes → Bytes) (w : Wire) : List (Bytes × Option Json) :=
  [(b!"label", some (encodeString fix w.label)), (b!"kind", unlessMissing w.kind),
    (b!"detail", unlessEmpty fix w.detail), (b!"documentation", w.documentation.map (encodeMarkup fix)),
    (b!"sortText", unlessEmpty fix w.sortText), (b!"filterText", unlessEmpty fix w.filterText),
    (b!"insertText", unlessEmpty fix w.insertText), (b!"insertTextFormat", unlessMissing w.format),
    (b!"textEdit", w.textEdit.map (encodeEdit fix)),
    (b!"additionalTextEdits", if w.additional = [] then none else some (Protocol.encodeList (encodeEdit fix) w.additional)),
    (b!"score", some (encodeInt 0)), (b!"data", some (encodeString fix w.data))]

theorem item_lookup (fix : Bytes → Bytes) (w : Wire) (k : Bytes) :
    (members (fields fix w)).lookup k = ((fields fix w).lookup k).join :=
  lookup_members _ _ (by simp only [fields, List.map]; decide +kernel)

section
variable {fix : Bytes → Bytes} (hf : Fixes fix)
include hf

theorem encodeString_is {s : Bytes} (h : IsText s) : encodeString fix s = .str s := by simp [encodeString, hf.same s h]

theorem encodeEdit_is {e : Server.LRange × Bytes} (h : IsText e.2) : IsEdit (encodeEdit fix ⟨e.1.start, e.1.stop, e.2, []⟩) e := by
  have h1 := fun k (a : Option Json) => lookup_members [(b!"range", some (encodeRng e.1.start e.1.stop)),
    (b!"newText", some (encodeString fix e.2)), (b!"annotationId", a)] k (by simp only [List.map]; decide +kernel)
  exact ⟨_, rfl, ⟨encodeRng e.1.start e.1.stop, by rw [h1]; simp [List.lookup], encodeRng_is _ _⟩,
    ⟨encodeString fix e.2, by rw [h1]; simp [List.lookup], encodeString_is hf h⟩⟩

theorem decodeEdit_trip {e : Edit} (h : IsText e.newText) (ha : IsText e.annotation) :
    decodeEdit (encodeEdit fix e) noEdit = some e := by
  have h1 := fun k => lookup_members [(b!"range", some (encodeRng e.start e.stop)),
    (b!"newText", some (encodeString fix e.newText)), (b!"annotationId", unlessEmpty fix e.annotation)] k
    (by simp only [List.map]; decide +kernel)
  have h2 : DocumentMessages.decodeRange (encodeRng e.start e.stop) (noEdit.start, noEdit.stop) = some (e.start, e.stop) :=
    (rng_iff _ _ _).mpr (encodeRng_is _ _)
  have h3 := string_trip hf h
  have h4 := string_trip hf ha
  simp only [decodeEdit, encodeEdit, isObject, if_true, mapRequired, mapOptional, Json.get, h1]
  by_cases hn : e.annotation = []
  · have h5 : noEdit.annotation = e.annotation := hn.symm
    simp [List.lookup, h2, h3, unlessEmpty, hn, h5]
    simp [← hn]
  · simp [List.lookup, h2, h3, unlessEmpty, hn, h4]

theorem decodeMarkup_trip {m : Markup} (h : IsText m.value) (hne : m.value ≠ []) : decodeMarkup (encodeMarkup fix m) = .ok m := by
  rw [encodeMarkup, if_neg hne, encodeString_is hf h]
  obtain ⟨k, v⟩ := m
  cases k <;> simp [decodeMarkup, isObject, mapRequired, mapOptional, Json.get, List.lookup, decodeString, lift, Except.map]

/-- The strings of a message are UTF-8, and the numbers are in the range of `int`. -/
structure WireOk (w : Wire) : Prop where
  label : IsText w.label
  kind : 0 ≤ w.kind ∧ w.kind < 2 ^ 31
  detail : IsText w.detail
  documentation : ∀ m ∈ w.documentation, IsText m.value
  sortText : IsText w.sortText
  filterText : IsText w.filterText
  insertText : IsText w.insertText
  format : 0 ≤ w.format ∧ w.format < 2 ^ 31
  textEdit : ∀ e ∈ w.textEdit, IsText e.newText ∧ IsText e.annotation
  additional : w.additional = []
  data : IsText w.data

omit hf in
theorem optText_trip (hf : Fixes fix) {s : Bytes} (h : IsText s) : 
    (match unlessEmpty fix s with | some v => decodeString v [] | none => some []) = some s := by
  unfold unlessEmpty
  by_cases hs : s = []
  · simp [hs]
  · simp [hs, string_trip hf h]

/-- What the server reads of an item that it has sent. -/
theorem decodeItem_trip {w : Wire} (h : WireOk w) {fs : List (Bytes × Json)}
    (he : ∀ k, fs.lookup k = (members (fields fix w)).lookup k) (junk : Int) :
    decodeItem junk (.obj fs) = .ok { w with
      kind := if w.kind = 0 then junk else w.kind
      format := if w.format = 0 then if w.kind = 0 then junk else w.kind else w.format
      documentation := w.documentation.filter fun m => m.value ≠ [] } := by
  have hg : ∀ k, (Json.obj fs).get k = ((fields fix w).lookup k).join := fun k => by
    rw [Json.get, he, item_lookup]
  have h1 : mapOptional b!"kind" decodeInt32 (.obj fs) junk = some (if w.kind = 0 then junk else w.kind) := by
    simp only [mapOptional, hg, fields, List.lookup]
    by_cases hk : w.kind = 0 <;> simp [unlessMissing, hk, int32_trip h.kind]
  have h2 : ∀ r, mapOptional b!"insertTextFormat" decodeInt32 (.obj fs) r = some (if w.format = 0 then r else w.format) := by
    intro r
    simp only [mapOptional, hg, fields, List.lookup]
    by_cases hk : w.format = 0 <;> simp [unlessMissing, hk, int32_trip h.format]
  have h3 : mapRequired b!"label" decodeString (.obj fs) [] = some w.label := by
    simp [mapRequired, hg, fields, List.lookup, string_trip hf h.label]
  have h4 : mapOptional b!"detail" decodeString (.obj fs) [] = some w.detail := by
    rw [mapOptional, hg]; exact optText_trip hf h.detail
  have h5 : mapOptional b!"sortText" decodeString (.obj fs) [] = some w.sortText := by
    rw [mapOptional, hg]; exact optText_trip hf h.sortText
  have h6 : mapOptional b!"filterText" decodeString (.obj fs) [] = some w.filterText := by
    rw [mapOptional, hg]; exact optText_trip hf h.filterText
  have h7 : mapOptional b!"insertText" decodeString (.obj fs) [] = some w.insertText := by
    rw [mapOptional, hg]; exact optText_trip hf h.insertText
  have h8 : mapOptional b!"data" decodeString (.obj fs) [] = some w.data := by
    simp [mapOptional, hg, fields, List.lookup, string_trip hf h.data]
  have h9 : mapOptional b!"additionalTextEdits" (decodeList decodeEdit noEdit) (.obj fs) [] = some w.additional := by
    simp [mapOptional, hg, fields, List.lookup, h.additional]
  have h10 : mapOptional b!"textEdit" (Protocol.decodeOption decodeEdit noEdit) (.obj fs) none = some w.textEdit := by
    simp only [mapOptional, hg, fields, List.lookup]
    cases ht : w.textEdit with
    | none => simp
    | some e =>
      have := decodeEdit_trip hf (h.textEdit e ht).1 (h.textEdit e ht).2
      simp only [encodeEdit] at this
      simp [encodeEdit, Protocol.decodeOption, this]
  have h11 : decodeDocumentation (.obj fs) = .ok (w.documentation.filter fun m => m.value ≠ []) := by
    simp only [decodeDocumentation, hg, fields, List.lookup]
    cases hd : w.documentation with
    | none => simp
    | some m =>
      by_cases hm : m.value = []
      · simp [encodeMarkup, hm, Option.filter]
      · have := decodeMarkup_trip hf (h.documentation m hd) hm
        simp only [encodeMarkup, hm, if_false] at this
        simp [encodeMarkup, hm, Option.filter, this, Except.map]
  unfold decodeItem
  simp only [isObject, if_true, h1, h2, h3, h4, h5, h6, h7, h8, h9, h10, h11, lift]
  rfl

theorem toWire_ok {print : Json → Bytes} (hp : ∀ j, IsText (print j)) {i : Item} (h : Utf8 i) : WireOk (toWire fix print i) where
  label := h.label
  kind := by cases hk : i.kind <;> simp [toWire, kindNumber, hk]
  detail := h.detail
  documentation := by
    intro m hm
    obtain ⟨s, hs, rfl⟩ := Option.map_eq_some_iff.mp hm
    exact h.documentation s hs
  sortText := h.sortText
  filterText := h.filterText
  insertText := h.insertText
  format := by rcases hk : i.snippet with _ | _ | _ <;> simp [toWire, hk]
  textEdit := by
    intro e he
    obtain ⟨s, hs, rfl⟩ := Option.map_eq_some_iff.mp he
    exact ⟨h.textEdit s hs, ⟨[], rfl⟩⟩
  additional := rfl
  data := by
    cases hd : i.data with
    | none => simpa [toWire, dataText, hd] using ⟨[], rfl⟩
    | some p => simpa [toWire, dataText, hd] using hp _

theorem text_is {s : Bytes} (h : IsText s) {fs : List (Bytes × Json)} {k : Bytes} (hl : fs.lookup k = unlessEmpty fix s) :
    Text fs k s := by
  by_cases hs : s = []
  · exact .inl ⟨hs, by rw [hl, unlessEmpty, if_pos hs]⟩
  · exact .inr ⟨_, by rw [hl, unlessEmpty, if_neg hs], encodeString_is hf h⟩

/-- The members of a message, except for its documentation. -/
theorem encodeItem_is {print : Json → Bytes} {w : Wire} (h : WireOk w) {i : Item} (hl : w.label = i.label)
    (hk : w.kind = number i.kind) (hd : w.detail = i.detail) (hs : w.sortText = i.sortText) (hfi : w.filterText = i.filterText)
    (hi : w.insertText = i.insertText) (ht : w.textEdit = (toWire fix print i).textEdit) :
    Members (members (fields fix w)) i (if w.format = 0 then none else some w.format) w.data := by
  have hg := item_lookup fix w
  refine ⟨⟨_, ?_, encodeString_is hf (hl ▸ h.label)⟩, ⟨encodeInt w.kind, ?_, ?_⟩, text_is hf (hd ▸ h.detail) ?_,
    text_is hf (hs ▸ h.sortText) ?_, text_is hf (hfi ▸ h.filterText) ?_, text_is hf (hi ▸ h.insertText) ?_, ?_, ?_,
    ⟨_, ?_, encodeString_is hf h.data⟩, ?_⟩
  · rw [hg, ← hl]; rfl
  · have : w.kind ≠ 0 := by rw [hk]; cases i.kind <;> simp [number]
    rw [hg]
    simp [fields, List.lookup, unlessMissing, this]
  · exact ⟨_, by rw [← hk]; rfl⟩
  · rw [hg, ← hd]; rfl
  · rw [hg, ← hs]; rfl
  · rw [hg, ← hfi]; rfl
  · rw [hg, ← hi]; rfl
  · by_cases h0 : w.format = 0
    · rw [if_pos h0, Opt, hg]
      simp [fields, List.lookup, unlessMissing, h0]
    · simp only [h0, if_false]
      exact ⟨encodeInt w.format, by rw [hg]; simp [fields, List.lookup, unlessMissing, h0], _, rfl⟩
  · cases he : i.textEdit with
    | none =>
      have : w.textEdit = none := by simp [ht, toWire, he]
      rw [Opt, hg]
      simp [fields, List.lookup, this]
    | some e =>
      have hw : w.textEdit = some ⟨e.1.start, e.1.stop, e.2, []⟩ := by simp [ht, toWire, he]
      exact ⟨_, by rw [hg]; simp only [fields, List.lookup, hw]; rfl, encodeEdit_is hf (h.textEdit _ hw).1⟩
  · rw [hg]; rfl
  · rw [hg]; simp [fields, List.lookup, h.additional]

theorem documentation_is {w : Wire} (h : WireOk w) {o : Option Bytes} (ho : w.documentation = o.map (⟨true, ·⟩)) (hne : o ≠ some []) :
    Opt (members (fields fix w)) b!"documentation" IsMarkdown o := by
  have hg := item_lookup fix w
  cases o with
  | none =>
    simp at ho
    rw [Opt, hg]
    simp [fields, List.lookup, ho]
  | some s =>
    have hs : s ≠ [] := fun e => hne (by rw [e])
    have ht : IsText s := h.documentation ⟨true, s⟩ (by simpa using ho)
    simp only [Option.map] at ho
    refine ⟨_, by rw [hg]; simp only [fields, List.lookup, ho]; rfl, ?_⟩
    simp only [encodeMarkup, hs, if_false, if_true]
    exact ⟨_, rfl, ⟨_, by simp [List.lookup], rfl⟩, ⟨_, by simp [List.lookup], encodeString_is hf ht⟩⟩

/-! ### The theorems -/

variable {print : Json → Bytes} {parse : Bytes → Option Json}

/-- **C88**: an editor that reads an item by its members finds the item that the server made: label, kind, texts, format,
edit and documentation. The text `data` is what the server wants to get back. -/
theorem C88_sent_partial (hp : ∀ j, IsText (print j)) {i : Item} (h : Utf8 i) (hd : i.documentation ≠ some []) :
    IsItem (dataText fix print i.data) (i.snippet.map formatOf) (encodeItem fix (toWire fix print i)) i := by
  have hw := toWire_ok hf hp h
  have hm := encodeItem_is hf (print := print) hw (i := i) rfl (by cases hk : i.kind <;> simp [toWire, kindNumber, number, hk])
    rfl rfl rfl rfl rfl
  refine ⟨_, rfl, ?_, documentation_is hf hw rfl hd⟩
  have : (if (toWire fix print i).format = 0 then none else some (toWire fix print i).format) = i.snippet.map formatOf := by
    rcases hk : i.snippet with _ | _ | _ <;> simp [toWire, formatOf, hk]
  rwa [this] at hm

/-- **C88**: the list of a completion has the items in their order, and the flag. -/
theorem C88_list_partial (hp : ∀ j, IsText (print j)) {l : List Item} (h : ∀ i ∈ l, Utf8 i ∧ i.documentation ≠ some []) (incomplete : Bool) :
    ∃ fs, encodeItems fix print incomplete l = .obj fs ∧ Has fs b!"isIncomplete" IsBool incomplete ∧
      Has fs b!"items" (IsList fun v i => IsItem (dataText fix print i.data) (i.snippet.map formatOf) v i) l := by
  refine ⟨_, rfl, ⟨_, by simp [List.lookup], rfl⟩, ⟨_, by simp [List.lookup]; rfl, _, rfl, ?_⟩⟩
  induction l with
  | nil => exact .nil
  | cons i l ih => exact .cons (C88_sent_partial hf hp (h i (by simp)).1 (h i (by simp)).2) (ih fun i hi => h i (by simp [hi]))

/-- **C88**, resolving an item without data, such as an option: the editor sends back the members it got, and the item it
gets is the same, if the item has a format. -/
theorem C88_same_partial (hp : ∀ j, IsText (print j)) {i : Item} (h : Utf8 i) (hdoc : i.documentation ≠ some []) (hd : i.data = none)
    (hs : i.snippet ≠ none) {sent fs : List (Bytes × Json)} (hsent : encodeItem fix (toWire fix print i) = .obj sent)
    (he : ∀ k, fs.lookup k = sent.lookup k) (info : Option (List Bytes → Option PackageDescription)) (junk : Int) :
    onResolve fix parse info junk (.obj fs) = .ok (.obj sent) := by
  have hw := toWire_ok hf hp h
  have hsent' : members (fields fix (toWire fix print i)) = sent := by simpa [encodeItem, fields] using hsent
  have h1 := decodeItem_trip hf hw (fs := fs) (by rw [hsent']; exact he) junk
  have hk : (toWire fix print i).kind ≠ 0 := by cases hk : i.kind <;> simp [toWire, kindNumber, hk]
  have hfmt : (toWire fix print i).format ≠ 0 := by rcases hk : i.snippet with _ | _ | _ <;> simp_all [toWire]
  have hdoc' : (toWire fix print i).documentation.filter (fun m => m.value ≠ []) = (toWire fix print i).documentation := by
    cases hd : i.documentation with
    | none => simp [toWire, hd]
    | some s =>
      have : s ≠ [] := fun e => hdoc (by rw [hd, e])
      simp [toWire, hd, this]
  have hdata : (toWire fix print i).data = [] := by simp [toWire, dataText, hd]
  rw [if_neg hk, if_neg hfmt, hdoc'] at h1
  have h2 : resolve parse info (toWire fix print i) = .ok (toWire fix print i) := by rw [resolve, if_pos hdata]
  rw [← hsent, onResolve, h1]
  show (do let w ← resolve parse info (toWire fix print i); Except.ok (encodeItem fix w)) = _
  rw [h2]
  rfl

/-- What the editor should see of a package: the item with what the worker knows about the attribute. -/
def described (i : Item) (d : PackageDescription) : Item :=
  { i with
    detail := d.version.getD b!"?"
    documentation := some (d.description.getD [] ++ b!"\n\n" ++ d.longDescription.getD []) }

/-- **C88**, resolving an item of a package: the worker is asked about the attribute of that name in the scope of the
completion, and the editor gets the item with its description and version. Only the format of the text is another one. -/
theorem C88_package_partial (hp : ∀ j, IsText (print j)) {i : Item} (h : Utf8 i)
    {p : Nixf.Complete.Params} (hd : i.data = some p)
    (hpp : parse (print (Protocol.encodeParams fix ⟨p.scope, p.pfx⟩)) = some (Protocol.encodeParams fix ⟨p.scope, p.pfx⟩))
    (hne : print (Protocol.encodeParams fix ⟨p.scope, p.pfx⟩) ≠ [])
    {sent fs : List (Bytes × Json)} (hsent : encodeItem fix (toWire fix print i) = .obj sent)
    (he : ∀ k, fs.lookup k = sent.lookup k) (info : List Bytes → Option PackageDescription)
    (hi : ∀ d ∈ info (p.scope ++ [i.label]), (∀ s ∈ d.version, IsText s) ∧ (∀ s ∈ d.description, IsText s) ∧
      ∀ s ∈ d.longDescription, IsText s) (junk : Int) :
    ∃ v, onResolve fix parse (some info) junk (.obj fs) = .ok v ∧
      IsItem (dataText fix print i.data) (some ((i.snippet.map formatOf).getD (number i.kind))) v
        (described i ((info (p.scope ++ [i.label])).getD {})) := by
  have hw := toWire_ok hf hp h
  have hsent' : members (fields fix (toWire fix print i)) = sent := by simpa [encodeItem, fields] using hsent
  have h1 := decodeItem_trip hf hw (fs := fs) (by rw [hsent']; exact he) junk
  have hk : (toWire fix print i).kind ≠ 0 := by cases hk : i.kind <;> simp [toWire, kindNumber, hk]
  have hdata : (toWire fix print i).data = print (Protocol.encodeParams fix ⟨p.scope, p.pfx⟩) := by simp [toWire, dataText, hd]
  have hscope : mapRequired b!"Scope" (decodeList decodeString []) (Protocol.encodeParams fix ⟨p.scope, p.pfx⟩) [] = some p.scope := by
    have := texts_trip hf (l := p.scope) (fun s hs => h.data p hd s (by simp [hs])) []
    simpa [mapRequired, Protocol.encodeParams, Json.get, List.lookup] using this
  rw [if_neg hk] at h1
  have hd0 : ∀ d ∈ some ((info (p.scope ++ [i.label])).getD {}), (∀ s ∈ d.version, IsText s) ∧ (∀ s ∈ d.description, IsText s) ∧
      ∀ s ∈ d.longDescription, IsText s := by
    cases hx : info (p.scope ++ [i.label]) with
    | none => rintro d ⟨⟩; simp
    | some d => simpa [hx] using hi
  have hd1 := hd0 _ rfl
  generalize hD : (info (p.scope ++ [i.label])).getD {} = D at hd1 ⊢
  have hget : ∀ {o : Option Bytes} {r : Bytes}, (∀ s ∈ o, IsText s) → IsText r → IsText (o.getD r) := by
    intro o r h1 h2
    cases o with
    | none => exact h2
    | some s => exact h1 s rfl
  have hnil : IsText [] := ⟨[], rfl⟩
  have htext : IsText (D.description.getD [] ++ b!"\n\n" ++ D.longDescription.getD []) :=
    isText_append (isText_append (hget hd1.2.1 hnil) (isText_ascii (by decide +kernel))) (hget hd1.2.2 hnil)
  have hver : IsText (D.version.getD b!"?") := hget hd1.1 (isText_ascii (by decide +kernel))
  let w : Wire := resolvePackage info p.scope i.label { toWire fix print i with
    format := if (toWire fix print i).format = 0 then (toWire fix print i).kind else (toWire fix print i).format
    documentation := (toWire fix print i).documentation.filter fun m => m.value ≠ [] }
  have hwd : w.documentation = (described i D).documentation.map (⟨true, ·⟩) := by simp [w, resolvePackage, described, hD]
  have hwdet : w.detail = (described i D).detail := by simp [w, resolvePackage, described, hD]
  have hwk : w.kind = number i.kind := by cases hk : i.kind <;> simp [w, resolvePackage, toWire, kindNumber, number, hk]
  have hwf : w.format = (i.snippet.map formatOf).getD (number i.kind) := by
    rcases hs : i.snippet with _ | _ | _ <;> simp [w, resolvePackage, toWire, hs, formatOf]
    cases i.kind <;> rfl
  have hfr : 0 < (i.snippet.map formatOf).getD (number i.kind) ∧ (i.snippet.map formatOf).getD (number i.kind) < 2 ^ 31 := by
    rcases hs : i.snippet with _ | _ | _ <;> simp [formatOf]
    cases i.kind <;> simp [number]
  have hok : WireOk w := by
    refine ⟨hw.label, ?_, ?_, ?_, hw.sortText, hw.filterText, hw.insertText, ?_, hw.textEdit, hw.additional, hw.data⟩
    · rw [hwk]; cases i.kind <;> simp [number]
    · rw [hwdet]; exact hver
    · rw [hwd]; rintro m ⟨⟩; exact htext
    · rw [hwf]; exact ⟨Int.le_of_lt hfr.1, hfr.2⟩
  refine ⟨encodeItem fix w, ?_, _, rfl, ?_, documentation_is hf hok hwd (by simp [described])⟩
  · have h2 : ∀ u : Wire, u.data = print (Protocol.encodeParams fix ⟨p.scope, p.pfx⟩) →
        resolve parse (some info) u = .ok (resolvePackage info p.scope u.label u) := by
      intro u hu
      rw [resolve, if_neg (by rw [hu]; exact hne), hu, hpp]
      show Except.ok (resolvePackage info ((mapRequired _ _ _ _).getD []) _ _) = _
      rw [hscope]
      rfl
    rw [onResolve, h1]
    show (do let w ← resolve parse (some info) _; Except.ok (encodeItem fix w)) = _
    rw [h2]
    · rfl
    · exact hdata
  · have hm := encodeItem_is hf (print := print) hok (i := described i D) rfl hwk hwdet rfl rfl rfl rfl
    have hwdata : w.data = dataText fix print i.data := rfl
    have h0 : w.format ≠ 0 := by rw [hwf]; have := hfr.1; omega
    rw [if_neg h0, hwf, hwdata] at hm
    exact hm

end

/-- **C88** is violated for documentation that is empty: an option without a description is sent with the documentation
`null`, which is neither a text nor absent. -/
theorem C88_documentation_violated (fix : Bytes → Bytes) (print : Json → Bytes) {i : Item} (h : i.documentation = some []) :
    ∃ fs, encodeItem fix (toWire fix print i) = .obj fs ∧ fs.lookup b!"documentation" = some .null :=
  ⟨_, rfl, by
    show (members (fields fix (toWire fix print i))).lookup _ = _
    rw [item_lookup]
    simp [fields, List.lookup, toWire, h, encodeMarkup]⟩

/-- **C88** is violated for items without a format, such as packages: when the item is resolved, the format is the number of
the kind, and 5, which is the kind of packages, is no format of the protocol. -/
theorem C88_format_violated {fix : Bytes → Bytes} (hf : Fixes fix) {print : Json → Bytes} (hp : ∀ j, IsText (print j))
    {parse : Bytes → Option Json} {i : Item} (h : Utf8 i) {p : Nixf.Complete.Params} (hd : i.data = some p)
    (hpp : parse (print (Protocol.encodeParams fix ⟨p.scope, p.pfx⟩)) = some (Protocol.encodeParams fix ⟨p.scope, p.pfx⟩))
    (hne : print (Protocol.encodeParams fix ⟨p.scope, p.pfx⟩) ≠ []) (hs : i.snippet = none)
    (hk : i.kind = .field) (junk : Int) :
    (∀ fs, encodeItem fix (toWire fix print i) = .obj fs → fs.lookup b!"insertTextFormat" = none) ∧
      ∃ fs, onResolve fix parse (some fun _ => none) junk (encodeItem fix (toWire fix print i)) = .ok (.obj fs) ∧
        Has fs b!"insertTextFormat" IsInt 5 := by
  constructor
  · intro fs he
    have he : members (fields fix (toWire fix print i)) = fs := by simpa [encodeItem, fields] using he
    rw [← he, item_lookup]
    simp [fields, List.lookup, toWire, hs, unlessMissing]
  · obtain ⟨v, hv, fs, rfl, hm, -⟩ := C88_package_partial hf hp h hd hpp hne rfl (fun _ => rfl) (fun _ => none) (by simp) junk
    refine ⟨fs, hv, ?_⟩
    have := hm.format
    simpa [hs, hk, number, Opt] using this

/-- **C88** is violated for items that the editor sends without a kind: the kind and the format that are sent back are
the contents of an uninitialised variable. -/
theorem C88_kind_violated {fix : Bytes → Bytes} (hf : Fixes fix) (parse : Bytes → Option Json)
    (info : Option (List Bytes → Option PackageDescription)) {label : Bytes} (hl : IsText label) (junk : Int) (hj : junk ≠ 0) :
    ∃ fs, onResolve fix parse info junk (.obj [(b!"label", .str label)]) = .ok (.obj fs) ∧
      Has fs b!"label" IsStr label ∧ Has fs b!"kind" IsInt junk ∧ Has fs b!"insertTextFormat" IsInt junk := by
  refine ⟨members (fields fix { label := label, kind := junk, format := junk }), rfl, ?_, ?_, ?_⟩
  · exact ⟨_, by rw [item_lookup]; rfl, encodeString_is hf hl⟩
  · exact ⟨encodeInt junk, by rw [item_lookup]; simp [fields, List.lookup, unlessMissing, hj], _, rfl⟩
  · exact ⟨encodeInt junk, by rw [item_lookup]; simp [fields, List.lookup, unlessMissing, hj], _, rfl⟩

/-- **C88** is violated: resolving an item is undefined if the documentation is a string, which the protocol permits, or the
parameters are no object, or an item of a package comes when there is no worker. -/
theorem C88_undefined_violated (fix : Bytes → Bytes) (parse : Bytes → Option Json) (junk : Int) :
    (∀ info, onResolve fix parse info junk (.obj [(b!"label", .str b!"a"), (b!"documentation", .str b!"b")]) = .error .undefined) ∧
    (∀ info, onResolve fix parse info junk .null = .error .undefined) ∧
    ∀ d, d ≠ [] → parse d ≠ none → onResolve fix parse none junk (.obj [(b!"label", .str b!"a"), (b!"data", .str d)]) = .error .undefined := by
  refine ⟨fun _ => rfl, fun _ => rfl, fun d hd hp => ?_⟩
  obtain ⟨j, hj⟩ := Option.ne_none_iff_exists'.mp hp
  have h1 : decodeItem junk (.obj [(b!"label", .str b!"a"), (b!"data", .str d)]) =
      .ok { label := b!"a", kind := junk, format := junk, data := d } := rfl
  have h2 : resolve parse none { label := b!"a", kind := junk, format := junk, data := d } = .error .undefined := by
    rw [resolve, if_neg hd]
    simp only [hj, lift]
    rfl
  rw [onResolve, h1]
  show (do let w ← resolve parse none _; Except.ok (encodeItem fix w)) = _
  rw [h2]
  rfl

/-- There are such items: a package and an option. -/
example : Utf8 { label := b!"hello", kind := .field, textEdit := some (⟨⟨0, 0⟩, ⟨0, 2⟩⟩, b!"hello"), data := some ⟨[b!"pkgs"], b!"he"⟩ } := by
  have h : ∀ {s : Bytes}, (∀ c ∈ s, c < 128) → IsText s := isText_ascii
  refine ⟨h (by decide +kernel), h (by decide +kernel), by simp, h (by decide +kernel), h (by decide +kernel), h (by decide +kernel), ?_, ?_⟩
  · rintro e ⟨⟩; exact h (by decide +kernel)
  · rintro p ⟨⟩ s hs
    simp at hs
    rcases hs with rfl | rfl <;> exact h (by decide +kernel)

example : Utf8 { label := b!"enable", kind := .constructor_, documentation := some b!"Whether to enable.", insertText := b!"enable = true;", snippet := some false } := by
  have h : ∀ {s : Bytes}, (∀ c ∈ s, c < 128) → IsText s := isText_ascii
  refine ⟨h (by decide +kernel), h (by decide +kernel), ?_, h (by decide +kernel), h (by decide +kernel), h (by decide +kernel), by simp, by simp⟩
  rintro s ⟨⟩; exact h (by decide +kernel)

end Verif.Props
