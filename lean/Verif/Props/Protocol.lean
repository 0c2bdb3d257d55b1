import Verif.Model.Protocol
import Verif.Spec.Text
import Verif.Props.URI
import Verif.Props.Config
/-
Property C79: the messages between the server and the workers.
-/
namespace Verif.Props
open Verif.Rpc (Json)
open Verif.Config
open Verif.Protocol

/-- UTF-8. -/
def IsText (s : Bytes) : Prop := ∃ cs, s = Spec.encode cs

/-- What is assumed about `llvm::json::fixUTF8`: the result is UTF-8, and UTF-8 is not changed. -/
structure Fixes (fix : Bytes → Bytes) : Prop where
  text : ∀ s, IsText (fix s)
  same : ∀ s, IsText s → fix s = s

/-- A file name that has a URI of its own (C08). -/
structure HasUri (p : Bytes) : Prop where
  abs : URI.isAbsolute p = true
  noBackslash : (92 : UInt8) ∉ p
  noDrive : ∀ x r, p = 47 :: x :: 58 :: r → x ∉ asciiLetters

theorem isText_ascii : ∀ {s : Bytes}, (∀ c ∈ s, c < 128) → IsText s
  | [], _ => ⟨[], rfl⟩
  | c :: s, h => by
    obtain ⟨cs, hcs⟩ := isText_ascii fun c hc => h c (List.mem_cons_of_mem _ hc)
    have : ∀ c : UInt8, c < 128 → String.utf8EncodeChar (Char.ofNat c.toNat) = [c] := by
      apply forall_byte
      decide +kernel
    exact ⟨Char.ofNat c.toNat :: cs, by simp [Spec.encode, this c (h c (by simp)), ← hcs] at hcs ⊢; exact hcs⟩

theorem percentEncode_ascii : ∀ (s : Bytes), ∀ c ∈ URI.percentEncode s, c < 128
  | [] => by simp [URI.percentEncode]
  | a :: s => by
    have h1 : ∀ a : UInt8, URI.shouldEscape a = false → a < 128 := by apply forall_byte; decide +kernel
    have h2 : ∀ a : UInt8, URI.hexdigit (a / 16) < 128 ∧ URI.hexdigit (a % 16) < 128 := by apply forall_byte; decide +kernel
    have ih := percentEncode_ascii s
    rw [URI.percentEncode]
    split
    · intro c hc
      simp only [List.mem_cons] at hc
      rcases hc with rfl | rfl | rfl | hc
      · decide
      · exact (h2 a).1
      · exact (h2 a).2
      · exact ih c hc
    · rename_i h
      intro c hc
      rcases List.mem_cons.mp hc with rfl | hc
      · exact h1 _ (by simpa using h)
      · exact ih c hc

theorem toString_ascii (u : URI.URI) : ∀ c ∈ URI.toString u, c < 128 := by
  intro c hc
  have h := percentEncode_ascii
  unfold URI.toString at hc
  simp only at hc
  split at hc
  · simp only [List.mem_append, List.mem_singleton] at hc
    rcases hc with hc | rfl
    · exact h _ c hc
    · decide
  · split at hc
    · simp only [List.mem_append, List.mem_cons, List.not_mem_nil, or_false] at hc
      rcases hc with (((hc | rfl) | (rfl | rfl)) | hc) | hc
      · exact h _ c hc
      · decide
      · decide
      · decide
      · exact h _ c hc
      · exact h _ c hc
    · simp only [List.mem_append, List.mem_singleton] at hc
      rcases hc with (hc | rfl) | hc
      · exact h _ c hc
      · decide
      · exact h _ c hc

section
variable {fix : Bytes → Bytes} (hf : Fixes fix)
include hf

theorem string_trip {s : Bytes} (h : IsText s) (r : Bytes) : decodeString (encodeString fix s) r = some s := by
  simp [encodeString, decodeString, hf.same s h]

theorem file_trip {p : Bytes} (h : HasUri p) (r : Bytes) : decodeFile (encodeFile fix p) r = some p := by
  obtain ⟨s, h1, h2⟩ := C08_file_roundtrip_partial p h.abs h.noBackslash h.noDrive
  have : IsText s := by
    apply isText_ascii
    obtain ⟨u, -, hu⟩ := Option.map_eq_some_iff.mp h1
    exact hu ▸ toString_ascii u
  simp [encodeFile, encodeString, decodeFile, h1, hf.same s this, h2]
end

theorem option_trip {α : Type} {enc : α → Json} {dec : Decoder α} {d : α} {o : Option α}
    (hn : ∀ a, enc a ≠ .null) (h : ∀ a ∈ o, dec (enc a) d = some a) (r : Option α) :
    decodeOption dec d (encodeOption enc o) r = some o := by
  cases o with
  | none => rfl
  | some a =>
    have ha := h a rfl
    have hn := hn a
    simp only [encodeOption]
    unfold decodeOption
    split
    · rename_i he; exact absurd he hn
    · rw [ha]; rfl

theorem list_trip {α : Type} {enc : α → Json} {dec : Decoder α} {d : α} {l : List α}
    (h : ∀ a ∈ l, dec (enc a) d = some a) (r : List α) : decodeList dec d (encodeList enc l) r = some l := by
  rw [encodeList, decodeList, mapM_iff]
  induction l with
  | nil => exact .nil
  | cons a l ih => exact .cons (h a (by simp)) (ih fun b hb => h b (List.mem_cons_of_mem _ hb))

theorem position_trip (p r : Position) : decodePosition (encodePosition p) r = some p := by
  simp [decodePosition, encodePosition, isObject, mapRequired, Json.get, List.lookup, encodeInt, decodeInt64, Json.asInteger]

section
variable {fix : Bytes → Bytes} (hf : Fixes fix)
include hf

theorem location_trip {l : Location} (h : HasUri l.file) (r : Location) : decodeLocation (encodeLocation fix l) r = some l := by
  simp [decodeLocation, encodeLocation, isObject, mapRequired, Json.get, List.lookup, file_trip hf h, decodeRange, encodeRange,
    position_trip]

theorem text_trip {o : Option Bytes} (h : ∀ s ∈ o, IsText s) (r : Option Bytes) : decodeText (encodeText fix o) r = some o :=
  option_trip (by simp [encodeString]) (fun s hs => string_trip hf (h s hs) _) r

theorem texts_trip {l : List Bytes} (h : ∀ s ∈ l, IsText s) (r : List Bytes) :
    decodeList decodeString [] (encodeList (encodeString fix) l) r = some l :=
  list_trip (fun s hs => string_trip hf (h s hs) _) r

/-- **C79**, requests: names of attributes, and what is completed. -/
theorem C79_request {p : CompleteParams} (h : ∀ s ∈ p.pfx :: p.scope, IsText s) (r : CompleteParams) :
    decodeParams (encodeParams fix p) r = some p ∧
    ∀ r, decodeList decodeString [] (encodeList (encodeString fix) p.scope) r = some p.scope := by
  have h1 := texts_trip hf fun s hs => h s (List.mem_cons_of_mem _ hs)
  have h2 := string_trip hf (h p.pfx (by simp))
  refine ⟨?_, h1⟩
  simp [decodeParams, encodeParams, isObject, mapRequired, Json.get, List.lookup, h1, h2]

end

/-- The strings and files of a reply about a package or value. -/
structure InfoOk (i : InfoResponse) : Prop where
  package : ∀ f ∈ [i.package.name, i.package.pname, i.package.version, i.package.description, i.package.longDescription,
    i.package.position, i.package.homepage], ∀ s ∈ f, IsText s
  value : ∀ v ∈ i.value, ∀ s ∈ v.doc :: v.args, IsText s
  type : -2 ^ 31 ≤ i.valueMeta.type ∧ i.valueMeta.type < 2 ^ 31
  location : ∀ l ∈ i.valueMeta.location, HasUri l.file

/-- The strings and files of a description of an option. -/
structure OptionOk (o : OptionDescription) : Prop where
  texts : ∀ f ∈ [o.description, o.exampleText, o.defaultText], ∀ s ∈ f, IsText s
  type : ∀ t ∈ o.type, ∀ f ∈ [t.description, t.name], ∀ s ∈ f, IsText s
  locations : ∀ l ∈ o.declarations ++ o.definitions, HasUri l.file

section
variable {fix : Bytes → Bytes} (hf : Fixes fix)
include hf

/-- **C79**, replies about packages and values. -/
theorem C79_info {i : InfoResponse} (h : InfoOk i) (r : InfoResponse) : decodeInfo (encodeInfo fix i) r = some i := by
  obtain ⟨⟨ty, loc⟩, ⟨a, b, c, d, e, f, g⟩, v⟩ := i
  obtain ⟨hp, hv, ht, hl⟩ := h
  simp only [List.mem_cons, List.not_mem_nil, or_false] at hp ht hl hv
  have htext : ∀ o ∈ [a, b, c, d, e, f, g], ∀ r, decodeText (encodeText fix o) r = some o := by
    intro o ho
    exact text_trip hf (hp o (by simpa using ho))
  have h1 : ∀ r, decodePackage (encodePackage fix ⟨a, b, c, d, e, f, g⟩) r = some ⟨a, b, c, d, e, f, g⟩ := by
    intro r
    simp only [List.mem_cons, List.not_mem_nil, or_false, forall_eq_or_imp, forall_eq] at htext
    obtain ⟨ha, hb, hc, hd, he, hf', hg⟩ := htext
    simp [decodePackage, encodePackage, isObject, mapMaybe, Json.get, List.lookup, ha, hb, hc, hd, he, hf', hg]
  have h2 : ∀ r, decodeOption decodeValue {} (encodeOption (encodeValue fix) v) r = some v := by
    refine option_trip (by simp [encodeValue]) fun w hw => ?_
    have := hv w hw
    have h3 := string_trip hf (this _ (.inl rfl))
    have h4 := texts_trip hf fun s hs => this s (.inr hs)
    simp [decodeValue, encodeValue, isObject, mapRequired, Json.get, List.lookup, h3, h4, encodeInt, decodeInt64, Json.asInteger]
  have h3 : ∀ r, decodeMeta (encodeMeta fix ⟨ty, loc⟩) r = some ⟨ty, loc⟩ := by
    intro r
    have hi : Rpc.toInt32 ty = ty := by
      unfold Rpc.toInt32
      rw [Int.bmod_eq_of_le] <;> omega
    have hloc := option_trip (enc := encodeLocation fix) (dec := decodeLocation) (d := {}) (o := loc) (by simp [encodeLocation])
      (fun l hl' => location_trip hf (hl l hl') _)
    simp [decodeMeta, encodeMeta, isObject, mapRequired, mapOptional, Json.get, List.lookup, hloc, encodeInt, decodeInt32,
      Json.asInteger, hi]
  simp [decodeInfo, encodeInfo, isObject, mapRequired, mapOptional, Json.get, List.lookup, h1, h2, h3]

/-- **C79**, replies about an option. -/
theorem C79_option {o : OptionDescription} (h : OptionOk o) (r : OptionDescription) :
    decodeOptionDescription (encodeOptionDescription fix o) r = some o := by
  obtain ⟨a, l, m, b, c, t⟩ := o
  obtain ⟨h1, h2, h3⟩ := h
  simp only [List.mem_cons, List.not_mem_nil, or_false, List.mem_append] at h1 h2 h3
  have ha := text_trip hf (h1 a (.inl rfl))
  have hb := text_trip hf (h1 b (.inr (.inl rfl)))
  have hc := text_trip hf (h1 c (.inr (.inr rfl)))
  have hl := list_trip (enc := encodeLocation fix) (dec := decodeLocation) (d := {}) (l := l)
    fun x hx => location_trip hf (h3 x (.inl hx)) _
  have hm := list_trip (enc := encodeLocation fix) (dec := decodeLocation) (d := {}) (l := m)
    fun x hx => location_trip hf (h3 x (.inr hx)) _
  have ht := option_trip (enc := encodeType fix) (dec := decodeType) (d := {}) (o := t) (by simp [encodeType]) fun x hx => by
    have hd := text_trip hf (h2 x hx x.description (.inl rfl))
    have hn := text_trip hf (h2 x hx x.name (.inr rfl))
    simp [decodeType, encodeType, isObject, mapOptional, Json.get, List.lookup, hd, hn]
  simp [decodeOptionDescription, encodeOptionDescription, isObject, mapOptional, Json.get, List.lookup, ha, hb, hc, hl, hm, ht]

/-- **C79**, replies with names and options. -/
theorem C79_options {l : List OptionField} (h : ∀ f ∈ l, IsText f.name ∧ ∀ o ∈ f.description, OptionOk o) (r : List OptionField) :
    decodeList decodeField {} (encodeList (encodeField fix) l) r = some l := by
  refine list_trip (fun f hx => ?_) r
  have hn := string_trip hf (h f hx).1
  have hd := option_trip (enc := encodeOptionDescription fix) (dec := decodeOptionDescription) (d := {}) (o := f.description)
    (by simp [encodeOptionDescription]) fun o ho => C79_option hf ((h f hx).2 o ho) _
  simp [decodeField, encodeField, isObject, mapOptional, Json.get, List.lookup, hn, hd]

/-- **C79**, strings that are not UTF-8 (strings of Nix are bytes): another string arrives. -/
theorem C79_text_violated {s : Bytes} (h : ¬ IsText s) (r : Bytes) :
    ∃ t, decodeString (encodeString fix s) r = some t ∧ t ≠ s := by
  refine ⟨fix s, rfl, fun he => h ?_⟩
  rw [← he]
  exact hf.text s

/-- **C79**, a declaration without a file name: nothing arrives, though there are other parts. -/
theorem C79_file_violated {o : OptionDescription} (h : {} ∈ o.declarations) (r : OptionDescription) :
    decodeOptionDescription (encodeOptionDescription fix o) r = none := by
  have hl : decodeLocation (encodeLocation fix {}) {} = none := by
    have h1 : URI.uriOfFile [] = some b!"file:" := by decide +kernel
    have h2 : fix b!"file:" = b!"file:" := hf.same _ (isText_ascii (by decide))
    have h3 : URI.fileOfURI b!"file:" = none := by decide +kernel
    simp only [decodeLocation, encodeLocation, isObject, mapRequired, Json.get, List.lookup, encodeFile, encodeString, decodeFile,
      h1, Option.getD_some, h2, if_true]
    simp [h3]
  have hd : decodeList decodeLocation {} (encodeList (encodeLocation fix) o.declarations) r.declarations = none := by
    rw [encodeList, decodeList, Option.eq_none_iff_forall_ne_some]
    intro ls hls
    rw [mapM_iff] at hls
    have : ∀ {js : List Json} {ls : List Location}, List.Forall₂ (decodeLocation · {} = some ·) js ls →
        ∀ j ∈ js, ∃ l, decodeLocation j {} = some l := by
      intro js ls h
      induction h with
      | nil => simp
      | cons h _ ih =>
        intro j hj
        rcases List.mem_cons.mp hj with rfl | hj
        · exact ⟨_, h⟩
        · exact ih j hj
    obtain ⟨l, hl'⟩ := this hls (encodeLocation fix {}) (List.mem_map_of_mem h)
    rw [hl] at hl'
    cases hl'
  simp only [decodeOptionDescription, encodeOptionDescription, isObject, if_true]
  rw [show mapOptional b!"Declarations" (decodeList decodeLocation {}) _ r.declarations =
    decodeList decodeLocation {} (encodeList (encodeLocation fix) o.declarations) r.declarations from rfl, hd]
  cases mapOptional b!"Description" decodeText _ r.description <;> rfl

end

open Classical in
/-- There is such a function. -/
example : ∃ fix, Fixes fix :=
  ⟨fun s => if IsText s then s else [], ⟨fun s => by split; assumption; exact ⟨[], rfl⟩, fun s h => if_pos h⟩⟩

example : HasUri b!"/nix/store/a b.nix" :=
  ⟨by decide +kernel, by decide, by intro x r h; simp at h⟩

example : OptionOk { description := some b!"text", declarations := [⟨b!"/f", ⟨1, 2⟩, ⟨1, 2⟩⟩] } :=
  ⟨by simpa using isText_ascii (by decide), by simp, by
    simp only [List.append_nil, List.mem_singleton, forall_eq]
    exact ⟨by decide +kernel, by decide, by intro x r h; simp at h⟩⟩

end Verif.Props
