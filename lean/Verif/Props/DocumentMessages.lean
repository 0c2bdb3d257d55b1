import Verif.Model.DocumentMessages
import Verif.Props.Protocol
import Verif.Props.Session
import Verif.Props.Sync
/-
**C87**: what the client says about its documents is what the server understands.
-/
namespace Verif.Props
namespace Docs
open Verif.Rpc (Json)

/-! ### The messages, by the members of their objects (Language Server Protocol 3.17) -/

/-- A member of an object. -/
def Has {α : Type} (fs : List (Bytes × Json)) (key : Bytes) (P : Json → α → Prop) (a : α) : Prop :=
  ∃ v, fs.lookup key = some v ∧ P v a

/-- A member that may be absent or `null`. -/
def May {α : Type} (fs : List (Bytes × Json)) (key : Bytes) (P : Json → α → Prop) : Option α → Prop
  | none => fs.lookup key = none ∨ fs.lookup key = some .null
  | some a => Has fs key P a

/-- An integer. -/
def IsInt (v : Json) (n : Int) : Prop := ∃ t, v = .num t (some n)

/-- A string. -/
def IsStr (v : Json) (s : Bytes) : Prop := v = .str s

/-- A Boolean. -/
def IsBool (v : Json) (b : Bool) : Prop := v = .bool b

def IsPos (v : Json) (p : SourceCode.Position) : Prop :=
  ∃ fs, v = .obj fs ∧ Has fs b!"line" IsInt p.line ∧ Has fs b!"character" IsInt p.character

def IsRng (v : Json) (r : SourceCode.Position × SourceCode.Position) : Prop :=
  ∃ fs, v = .obj fs ∧ Has fs b!"start" IsPos r.1 ∧ Has fs b!"end" IsPos r.2

section
variable (U : Json → Bytes → Prop) (L : Json → Int → Prop)

/-- A change of a document; `L` are the lengths. -/
def IsChange (v : Json) (c : SourceCode.Change) : Prop :=
  ∃ fs, v = .obj fs ∧ May fs b!"range" IsRng c.range ∧ May fs b!"rangeLength" L c.rangeLength ∧ Has fs b!"text" IsStr c.text

/-- A list. -/
def IsList {α : Type} (P : Json → α → Prop) (v : Json) (l : List α) : Prop := ∃ vs, v = .arr vs ∧ List.Forall₂ P vs l

/-- A document with its text; `U` are the URIs. -/
def IsItem (v : Json) (i : Bytes × Option Int × Bytes) : Prop :=
  ∃ fs, v = .obj fs ∧ Has fs b!"uri" U i.1 ∧ (∃ language, Has fs b!"languageId" IsStr language) ∧
    May fs b!"version" IsInt i.2.1 ∧ Has fs b!"text" IsStr i.2.2

/-- The name of a document. -/
def IsId (v : Json) (f : Bytes) : Prop := ∃ fs, v = .obj fs ∧ Has fs b!"uri" U f

/-- The name of a document and its version. -/
def IsVersioned (v : Json) (d : Bytes × Option Int) : Prop :=
  ∃ fs, v = .obj fs ∧ Has fs b!"uri" U d.1 ∧ May fs b!"version" IsInt d.2

/-- The parameters of `textDocument/didOpen`. -/
def IsDidOpen (v : Json) (i : Bytes × Option Int × Bytes) : Prop := ∃ fs, v = .obj fs ∧ Has fs b!"textDocument" (IsItem U) i

/-- The parameters of `textDocument/didClose`. -/
def IsDidClose (v : Json) (f : Bytes) : Prop := ∃ fs, v = .obj fs ∧ Has fs b!"textDocument" (IsId U) f

/-- The parameters of `textDocument/didChange`; the last two members are extensions of clangd. -/
def IsDidChange (v : Json) (d : Bytes × Option Int) (cs : List SourceCode.Change) : Prop :=
  ∃ fs, v = .obj fs ∧ Has fs b!"textDocument" (IsVersioned U) d ∧ Has fs b!"contentChanges" (IsList (IsChange L)) cs ∧
    (∃ b, May fs b!"wantDiagnostics" IsBool b) ∧ ∃ b, May fs b!"forceRebuild" IsBool b
end

/-- A URI that the server takes for the file. -/
def IsUri (v : Json) (f : Bytes) : Prop := ∃ s, v = .str s ∧ URI.fileOfURI s = some f

/-- A number that becomes the other one in a C++ `int`. -/
def IsInt32 (v : Json) (n : Int) : Prop := ∃ m, IsInt v m ∧ (2 ^ 32 : Int) ∣ m - n ∧ -2 ^ 31 ≤ n ∧ n < 2 ^ 31

end Docs
open Docs Verif.DocumentMessages
open Verif.Rpc (Json)
open Verif.Protocol (mapRequired mapMaybe decodeOption decodeList decodeFile decodeInt64 decodeInt32)
open Verif.Config (Decoder isObject decodeString)

theorem required_iff {α : Type} {fs : List (Bytes × Json)} {key : Bytes} {dec : Decoder α} {P : Json → α → Prop} {r a : α}
    (h : ∀ v a, dec v r = some a ↔ P v a) : mapRequired key dec (.obj fs) r = some a ↔ Has fs key P a := by
  unfold mapRequired Has
  cases hl : fs.lookup key <;> simp [Json.get, hl, h]

theorem maybe_iff {α : Type} {fs : List (Bytes × Json)} {key : Bytes} {dec : Decoder α} {P : Json → α → Prop} {d : α}
    {r o : Option α} (h : ∀ v a, dec v d = some a ↔ P v a) (hn : ∀ a, ¬ P .null a) :
    mapMaybe key (decodeOption dec d) (.obj fs) r = some o ↔ May fs key P o := by
  unfold mapMaybe May Has
  cases hl : fs.lookup key with
  | none => cases o <;> simp [Json.get, hl]
  | some v =>
    cases v with
    | null => cases o <;> simp [Json.get, hl, decodeOption, hn]
    | _ => cases o <;> simp [Json.get, hl, decodeOption, h]

theorem int_iff (v : Json) (n r : Int) : decodeInt64 v r = some n ↔ IsInt v n := by
  cases v <;> simp [decodeInt64, Json.asInteger, IsInt]

theorem int32_iff (v : Json) (n r : Int) : decodeInt32 v r = some n ↔ IsInt32 v n := by
  have key : ∀ m n : Int, m.bmod 4294967296 = n ↔ (4294967296 : Int) ∣ m - n ∧ -2147483648 ≤ n ∧ n < 2147483648 := by
    intro m n
    rw [Int.bmod_def]
    split <;> omega
  cases v with
  | num t i =>
    cases i with
    | none => simp [decodeInt32, Json.asInteger, IsInt32, IsInt]
    | some m => simp [decodeInt32, Json.asInteger, IsInt32, IsInt, Rpc.toInt32, key]
  | _ => simp [decodeInt32, Json.asInteger, IsInt32, IsInt]

theorem file_iff (v : Json) (f r : Bytes) : decodeFile v r = some f ↔ IsUri v f := by
  cases v <;> simp [decodeFile, IsUri]

theorem str_iff (v : Json) (s r : Bytes) : decodeString v r = some s ↔ IsStr v s := by
  cases v <;> simp [decodeString, IsStr]

theorem bool_iff (v : Json) (b r : Bool) : decodeBool v r = some b ↔ IsBool v b := by
  cases v <;> simp [decodeBool, IsBool]

theorem pos_iff (v : Json) (p r : SourceCode.Position) : decodePosition v r = some p ↔ IsPos v p := by
  cases v with
  | obj fs =>
    have h := fun key (r a : Int) => required_iff (fs := fs) (key := key) (r := r) (a := a) (fun v a => int_iff v a r)
    simp only [decodePosition, isObject, if_true, Option.bind_eq_bind, Option.bind_eq_some_iff, h, IsPos, Json.obj.injEq,
      exists_eq_left', Option.some.injEq]
    constructor
    · rintro ⟨a, ha, b, hb, rfl⟩; exact ⟨ha, hb⟩
    · rintro ⟨ha, hb⟩; exact ⟨_, ha, _, hb, rfl⟩
  | _ => simp [decodePosition, isObject, IsPos]

theorem rng_iff (v : Json) (p r : SourceCode.Position × SourceCode.Position) : decodeRange v r = some p ↔ IsRng v p := by
  cases v with
  | obj fs =>
    have h := fun key (r a) => required_iff (fs := fs) (key := key) (r := r) (a := a) (fun v a => pos_iff v a r)
    simp only [decodeRange, isObject, if_true, Option.bind_eq_bind, Option.bind_eq_some_iff, h, IsRng, Json.obj.injEq,
      exists_eq_left', Option.some.injEq]
    constructor
    · rintro ⟨a, ha, b, hb, rfl⟩; exact ⟨ha, hb⟩
    · rintro ⟨ha, hb⟩; exact ⟨_, ha, _, hb, rfl⟩
  | _ => simp [decodeRange, isObject, IsRng]

theorem change_iff (v : Json) (c r : SourceCode.Change) : decodeChange v r = some c ↔ IsChange IsInt32 v c := by
  cases v with
  | obj fs =>
    have h1 := fun (r a) => maybe_iff (fs := fs) (key := b!"range") (r := r) (o := a) (fun v a => rng_iff v a (⟨0, 0⟩, ⟨0, 0⟩))
      (by simp [IsRng])
    have h2 := fun (r a) => maybe_iff (fs := fs) (key := b!"rangeLength") (r := r) (o := a) (fun v a => int32_iff v a 0)
      (by simp [IsInt32, IsInt])
    have h3 := fun (r a) => required_iff (fs := fs) (key := b!"text") (r := r) (a := a) (fun v a => str_iff v a r)
    simp only [decodeChange, isObject, if_true, Option.bind_eq_bind, Option.bind_eq_some_iff, h1, h2, h3, IsChange,
      Json.obj.injEq, exists_eq_left', Option.some.injEq]
    constructor
    · rintro ⟨a, ha, b, hb, t, ht, rfl⟩; exact ⟨ha, hb, ht⟩
    · rintro ⟨ha, hb, ht⟩; exact ⟨_, ha, _, hb, _, ht, rfl⟩
  | _ => simp [decodeChange, isObject, IsChange]

theorem list_iff {α : Type} {dec : Decoder α} {P : Json → α → Prop} {d : α} (h : ∀ v a, dec v d = some a ↔ P v a)
    (v : Json) (l r : List α) : decodeList dec d v r = some l ↔ IsList P v l := by
  cases v with
  | arr vs => simp only [decodeList, mapM_iff, h, IsList, Json.arr.injEq, exists_eq_left']
  | _ => simp [decodeList, IsList]

theorem optional_iff {α : Type} {fs : List (Bytes × Json)} {key : Bytes} {dec : Decoder α} {P : Json → α → Prop} {r : α}
    (h : ∀ v a, dec v r = some a ↔ P v a) (hn : ∀ a, ¬ P .null a) :
    (∃ a, mapOptOrNull key dec (.obj fs) r = some a) ↔ ∃ o, May fs key P o := by
  rw [Option.exists]
  unfold mapOptOrNull May Has
  cases hl : fs.lookup key with
  | none => simp [Json.get, hl]
  | some v =>
    cases v with
    | null => simp [Json.get, hl]
    | _ => simp [Json.get, hl, h]

/-- **C87**, opening: the message is understood exactly if it has the members the protocol asks for, whatever else it has,
and it is understood as what they say. -/
theorem C87_open (params : Json) (e : Server.Event) : event b!"textDocument/didOpen" params = some e ↔
    ∃ f v t, e = .didOpen f v t ∧ IsDidOpen IsUri params (f, v, t) := by
  have hi : ∀ (v : Json) (r : Item) f w t, (∃ l, decodeItem v r = some ⟨f, l, w, t⟩) ↔ IsItem IsUri v (f, w, t) := by
    intro v r f w t
    cases v with
    | obj fs =>
      have h1 := fun (r a) => required_iff (fs := fs) (key := b!"uri") (r := r) (a := a) (fun v a => file_iff v a r)
      have h2 := fun (r a) => maybe_iff (fs := fs) (key := b!"version") (r := r) (o := a) (fun v a => int_iff v a 0)
        (by simp [IsInt])
      have h3 := fun key (r a) => required_iff (fs := fs) (key := key) (r := r) (a := a) (fun v a => str_iff v a r)
      simp only [decodeItem, isObject, if_true, Option.bind_eq_bind, Option.bind_eq_some_iff, h1, h2, h3, IsItem,
        Json.obj.injEq, exists_eq_left', Option.some.injEq, Item.mk.injEq]
      constructor
      · rintro ⟨l, _, ha, _, hb, _, hc, _, hd, rfl, rfl, rfl, rfl⟩; exact ⟨ha, ⟨_, hb⟩, hc, hd⟩
      · rintro ⟨ha, ⟨l, hb⟩, hc, hd⟩; exact ⟨_, _, ha, _, hb, _, hc, _, hd, rfl, rfl, rfl, rfl⟩
    | _ => simp [decodeItem, isObject, IsItem]
  have ho : ∀ f w t, (∃ l, decodeOpen params {} = some ⟨f, l, w, t⟩) ↔ IsDidOpen IsUri params (f, w, t) := by
    intro f w t
    cases params with
    | obj fs =>
      simp only [decodeOpen, isObject, if_true, IsDidOpen, Json.obj.injEq, exists_eq_left', Has, ← hi _ {}]
      unfold mapRequired
      cases hl : fs.lookup b!"textDocument" <;> simp [Json.get, hl]
    | _ => simp [decodeOpen, isObject, IsDidOpen]
  simp only [event, if_pos, Option.map_eq_some_iff, ← ho]
  constructor
  · rintro ⟨⟨f, l, v, t⟩, h, rfl⟩; exact ⟨f, v, t, rfl, l, h⟩
  · rintro ⟨f, v, t, rfl, l, h⟩; exact ⟨_, h, rfl⟩

theorem identifier_iff (v : Json) (f r : Bytes) : decodeIdentifier v r = some f ↔ IsId IsUri v f := by
  cases v with
  | obj fs =>
    simp only [decodeIdentifier, isObject, if_true, IsId, Json.obj.injEq, exists_eq_left']
    exact required_iff fun v a => file_iff v a r
  | _ => simp [decodeIdentifier, isObject, IsId]

theorem versioned_iff (v : Json) (d r : Bytes × Option Int) : decodeVersioned v r = some d ↔ IsVersioned IsUri v d := by
  cases v with
  | obj fs =>
    have h1 := fun (r a) => required_iff (fs := fs) (key := b!"uri") (r := r) (a := a) (fun v a => file_iff v a r)
    have h2 := fun (r a) => maybe_iff (fs := fs) (key := b!"version") (r := r) (o := a) (fun v a => int_iff v a 0)
      (by simp [IsInt])
    simp only [decodeVersioned, decodeIdentifier, isObject, if_true, Option.bind_eq_bind, Option.bind_eq_some_iff, h1, h2,
      IsVersioned, Json.obj.injEq, exists_eq_left', Option.some.injEq]
    constructor
    · rintro ⟨a, ha, b, hb, rfl⟩; exact ⟨ha, hb⟩
    · rintro ⟨ha, hb⟩; exact ⟨_, ha, _, hb, rfl⟩
  | _ => simp [decodeVersioned, decodeIdentifier, isObject, IsVersioned]

/-- **C87**, closing. -/
theorem C87_close (params : Json) (e : Server.Event) : event b!"textDocument/didClose" params = some e ↔
    ∃ f, e = .didClose f ∧ IsDidClose IsUri params f := by
  have ho : ∀ f, decodeClose params [] = some f ↔ IsDidClose IsUri params f := by
    intro f
    cases params with
    | obj fs =>
      simp only [decodeClose, isObject, if_true, IsDidClose, Json.obj.injEq, exists_eq_left']
      exact required_iff fun v a => identifier_iff v a []
    | _ => simp [decodeClose, isObject, IsDidClose]
  rw [event, if_neg (by decide), if_neg (by decide), if_pos rfl, Option.map_eq_some_iff]
  simp only [ho]
  constructor
  · rintro ⟨f, h, rfl⟩; exact ⟨f, rfl, h⟩
  · rintro ⟨f, rfl, h⟩; exact ⟨f, h, rfl⟩

/-- **C87**, editing. Lengths are truncated to 32 bits. -/
theorem C87_change (params : Json) (e : Server.Event) : event b!"textDocument/didChange" params = some e ↔
    ∃ f v cs, e = .didChange f v cs ∧ IsDidChange IsUri IsInt32 params (f, v) cs := by
  have ho : ∀ d cs, (∃ w b, decodeDidChange params {} = some ⟨d, cs, w, b⟩) ↔ IsDidChange IsUri IsInt32 params d cs := by
    intro d cs
    cases params with
    | obj fs =>
      have h1 := fun (r a) => required_iff (fs := fs) (key := b!"textDocument") (r := r) (a := a) (fun v a => versioned_iff v a r)
      have h2 := fun (r a) => required_iff (fs := fs) (key := b!"contentChanges") (r := r) (a := a)
        (list_iff (fun v a => change_iff v a ⟨none, none, []⟩) · · r)
      have h3 := fun (r a) => maybe_iff (fs := fs) (key := b!"wantDiagnostics") (r := r) (o := a) (fun v a => bool_iff v a false)
        (by simp [IsBool])
      have h4 := fun r => optional_iff (fs := fs) (key := b!"forceRebuild") (r := r) (fun v a => bool_iff v a r) (by simp [IsBool])
      simp only [decodeDidChange, isObject, if_true, Option.bind_eq_bind, Option.bind_eq_some_iff, h1, h2, h3, IsDidChange,
        Json.obj.injEq, exists_eq_left', Option.some.injEq, ChangeParams.mk.injEq, ← h4 false]
      constructor
      · rintro ⟨_, _, _, ha, _, hb, _, hc, _, hd, rfl, rfl, rfl, rfl⟩; exact ⟨ha, hb, ⟨_, hc⟩, _, hd⟩
      · rintro ⟨ha, hb, ⟨_, hc⟩, _, hd⟩; exact ⟨_, _, _, ha, _, hb, _, hc, _, hd, rfl, rfl, rfl, rfl⟩
    | _ => simp [decodeDidChange, isObject, IsDidChange]
  rw [event, if_neg (by decide), if_pos rfl, Option.map_eq_some_iff]
  simp only [← ho]
  constructor
  · rintro ⟨⟨⟨f, v⟩, cs, w, b⟩, h, rfl⟩; exact ⟨f, v, cs, rfl, w, b, h⟩
  · rintro ⟨f, v, cs, rfl, w, b, h⟩; exact ⟨_, h, rfl⟩

/-! ### A client that keeps to the protocol -/

theorem Docs.decoded {s t : Bytes} (h : Decoded s t) : URI.percentDecode s = t := by
  have := C07_decode_any s
  generalize URI.percentDecode s = u at this
  induction h generalizing u with
  | nil => cases this; rfl
  | escape a b x y s t ha hb _ ih =>
    cases this with
    | escape _ _ x' y' _ t' ha' hb' h' =>
      rw [ha] at ha'; rw [hb] at hb'; cases ha'; cases hb'; rw [ih _ h']
    | keep _ _ _ hn _ =>
      rcases hn with hn | hn
      · exact absurd rfl hn
      · exact absurd ⟨a, b, s, rfl, by simp [ha], by simp [hb]⟩ hn
  | keep c s t hn _ ih =>
    cases this with
    | escape a b x' y' s' t' ha' hb' h' =>
      rcases hn with hn | hn
      · exact absurd rfl hn
      · exact absurd ⟨a, b, s', rfl, by simp [ha'], by simp [hb']⟩ hn
    | keep _ _ _ _ h' => rw [ih _ h']

/-- A URI of the file (RFC 8089) without the name of a host: any of its characters may be written as an escape. File names
with backslashes and those like `/c:` are left out, see C08. -/
def Docs.Names (v : Json) (f : Bytes) : Prop := ∃ e, v = .str (b!"file://" ++ 47 :: e) ∧ Decoded (47 :: e) f ∧
  (92 : UInt8) ∉ f ∧ ∀ x r, f = 47 :: x :: 58 :: r → x ∉ asciiLetters

/-- **C87**, names: every way of writing the URI of a file is understood. -/
theorem C87_names {v : Json} {f : Bytes} (h : Names v f) : IsUri v f := by
  obtain ⟨e, rfl, hd, hb, hw⟩ := h
  refine ⟨_, rfl, ?_⟩
  have h1 : URI.percentDecode (47 :: e) = f := Docs.decoded hd
  have h2 : URI.startsSlash f = true := by
    cases hd with
    | keep => rfl
  have h3 : URI.parse (b!"file://" ++ 47 :: e) = some ⟨b!"file", [], f⟩ := by
    have : (b!"file://" ++ 47 :: e).findIdx? (· == 58) = some 4 := by
      simp [List.findIdx?_cons]
    unfold URI.parse
    rw [this]
    simp only [List.cons_append, List.nil_append, List.take_succ_cons, List.take_zero, List.drop_succ_cons, List.drop_zero]
    rw [show URI.percentDecode b!"file" = b!"file" by decide +kernel, show URI.isValidScheme b!"file" = true by decide +kernel]
    simp [List.findIdx?_cons, h1, URI.percentDecode]
  unfold URI.fileOfURI
  rw [h3]
  have hwin : URI.isWindowsPath f.tail = false := by
    cases f with
    | nil => cases h2
    | cons y f =>
      have hl : ∀ c : UInt8, URI.isAlpha c = true → c ∈ asciiLetters := by apply forall_byte; decide +kernel
      unfold URI.isWindowsPath
      split
      · rename_i a b r hd
        rw [← Bool.not_eq_true]
        intro hc
        simp only [Bool.and_eq_true, beq_iff_eq] at hc
        simp only [List.tail_cons] at hd
        have hy : y = 47 := by
          unfold URI.startsSlash at h2; split at h2
          · rename_i he; cases he; rfl
          · cases h2
        exact hw a r (by rw [hy, hd, hc.2]) (hl a hc.1)
      · rfl
  simp [URI.resolve, URI.getAbsolutePath, h2, hwin, URI.native_id f hb]

open JsonRpc Session
open Spec (encode)
open Spec.Client (Op)

/-- An integer of the protocol. -/
def Docs.IsUint (v : Json) (n : Int) : Prop := IsInt v n ∧ 0 ≤ n ∧ n < 2 ^ 31

/-- The message that tells the server what was done in the editor. The configuration is not told by messages about
documents. -/
def Docs.Tells (docs : Spec.Client.Docs) (m : Json) : Op → Prop
  | .openDoc f v t => ∃ params, IsNotification m b!"textDocument/didOpen" params ∧ IsDidOpen Names params (f, v, encode t)
  | .edit f v es => ∃ params, IsNotification m b!"textDocument/didChange" params ∧
      ∃ doc, docs f = some doc ∧ IsDidChange Names IsUint params (f, v) (Spec.Client.wireAll doc es)
  | .close f => ∃ params, IsNotification m b!"textDocument/didClose" params ∧ IsDidClose Names params f
  | .config _ => False

/-- The message is not about documents. -/
def Docs.Apart (m : Json) : Prop := ∀ method params, IsNotification m method params →
  method ∉ [b!"textDocument/didOpen", b!"textDocument/didChange", b!"textDocument/didClose"]

/-- A history of a session: the client keeps to the protocol and to what the server has announced, and it tells what is done
in its editor; there are also other messages, requests of the server and replies. The documents are those of the editor
before and after. -/
inductive Docs.Talk (semantic : Bool) : Spec.Client.Docs → List Rpc.Event → Spec.Client.Docs → Prop
  | nil (docs) : Talk semantic docs [] docs
  | tell (docs m o es docs') : Tells docs m o → o.InRange docs → Talk semantic (o.apply docs) es docs' →
      Talk semantic docs (.recv m :: es) docs'
  | other (docs m es docs') : Polite semantic m → Apart m → Talk semantic docs es docs' → Talk semantic docs (.recv m :: es) docs'
  | call (docs tok es docs') : Talk semantic docs es docs' → Talk semantic docs (.call tok :: es) docs'
  | respond (docs n r es docs') : Talk semantic docs es docs' → Talk semantic docs (.respond n r :: es) docs'

theorem Docs.has_mono {α : Type} {fs : List (Bytes × Json)} {key : Bytes} {P Q : Json → α → Prop} {a : α}
    (h : ∀ v a, P v a → Q v a) (hh : Has fs key P a) : Has fs key Q a := by
  obtain ⟨v, h1, h2⟩ := hh; exact ⟨v, h1, h v a h2⟩

theorem Docs.may_mono {α : Type} {fs : List (Bytes × Json)} {key : Bytes} {P Q : Json → α → Prop} {o : Option α}
    (h : ∀ v a, P v a → Q v a) (hh : May fs key P o) : May fs key Q o := by
  cases o with
  | none => exact hh
  | some a => exact has_mono h hh

theorem Docs.tells_event {docs : Spec.Client.Docs} {m : Json} {o : Op} (h : Tells docs m o) :
    ∃ method params, IsNotification m method params ∧ method ∈ registry.notifications ∧ method ≠ b!"exit" ∧
      event method params = some (o.wire docs) := by
  have hn : ∀ v f, Names v f → IsUri v f := fun v f h => C87_names h
  cases o with
  | openDoc f v t =>
    obtain ⟨params, h1, fs, rfl, h2⟩ := h
    refine ⟨_, _, h1, by decide, by decide, (C87_open _ _).mpr ⟨f, v, encode t, rfl, fs, rfl, has_mono ?_ h2⟩⟩
    rintro _ _ ⟨gs, rfl, h3, h4⟩
    exact ⟨gs, rfl, has_mono hn h3, h4⟩
  | edit f v es =>
    obtain ⟨params, h1, doc, hd, fs, rfl, h2, h3, h4⟩ := h
    refine ⟨_, _, h1, by decide, by decide, (C87_change _ _).mpr ⟨f, v, _, by simp [Spec.Client.Op.wire, hd], fs, rfl,
      has_mono ?_ h2, has_mono ?_ h3, h4⟩⟩
    · rintro _ _ ⟨gs, rfl, h3, h4⟩
      exact ⟨gs, rfl, has_mono hn h3, h4⟩
    · rintro _ _ ⟨vs, rfl, h⟩
      refine ⟨vs, rfl, h.imp ?_⟩
      rintro _ _ ⟨gs, rfl, h5, h6, h7⟩
      refine ⟨gs, rfl, h5, may_mono ?_ h6, h7⟩
      rintro v n ⟨h8, h9, h10⟩
      exact ⟨n, h8, by simp, by omega, h10⟩
  | close f =>
    obtain ⟨params, h1, fs, rfl, h2⟩ := h
    refine ⟨_, _, h1, by decide, by decide, (C87_close _ _).mpr ⟨f, rfl, fs, rfl, has_mono ?_ h2⟩⟩
    rintro _ _ ⟨gs, rfl, h3⟩
    exact ⟨gs, rfl, has_mono hn h3⟩
  | config => exact h.elim

theorem Docs.effects_other {analyse : Bytes → List Nixf.Diagnostic} {s : Server.State} {l : List Rpc.Effect}
    (h : ∀ x ∈ l, ∀ method params, x = .notified method params → event method params = none) :
    l.foldl (effect analyse) s = s := by
  induction l with
  | nil => rfl
  | cons x l ih =>
    have hx : effect analyse s x = s := by
      cases x with
      | notified method params => simp [effect, h (.notified method params) (by simp) method params rfl]
      | _ => rfl
    rw [List.foldl_cons, hx]
    exact ih fun y hy => h y (List.mem_cons_of_mem _ hy)

/-- **C87**: whatever is opened, edited and closed in the editor, and however this is told, with whatever else is sent at the
same time: the texts of the server are those of the editor. -/
theorem C87_text (analyse : Bytes → List Nixf.Diagnostic) (semantic : Bool) (es : List Rpc.Event) (docs : Spec.Client.Docs)
    (h : Talk semantic (fun _ => none) es docs) (hn : (askedTokens es).length < 2 ^ 31 - 2) :
    (run analyse init es).rpc.status = .running ∧
    ∀ f, ((run analyse init es).server.drafts f).map (·.contents) = (docs f).map encode := by
  suffices H : ∀ (s : DocumentMessages.State) (d : Spec.Client.Docs), Talk semantic d es docs → s.rpc.status = .running →
      s.rpc.topID + (askedTokens es).length < 2 ^ 31 - 1 → Server.Synced s.server d →
      (run analyse s es).rpc.status = .running ∧ Server.Synced (run analyse s es).server docs from
    H init _ h rfl (by simp only [init, Rpc.init]; omega) (fun _ => rfl)
  clear h hn
  intro s d h
  induction h generalizing s with
  | nil d => exact fun h1 _ h2 => ⟨h1, h2⟩
  | tell d m o es d' ht hr _ ih =>
    intro h1 h2 h3
    obtain ⟨method, params, h4, h5, h6, h7⟩ := tells_event ht
    have h8 := (C10_notification registry s.rpc m method params h1 h4).2.1 h6 h5
    have h9 : step analyse s (.recv m) = ⟨{ s.rpc with log := s.rpc.log ++ [.notified method params] },
        Server.step analyse s.server (o.wire d)⟩ := by
      simp [step, h8, effect, h7]
    rw [run, List.foldl_cons, h9]
    exact ih _ h1 (by simpa [askedTokens] using h2) (Server.synced_step analyse s.server d h3 o hr)
  | other d m es d' hp ha _ ih =>
    intro h1 h2 h3
    have h4 := polite_runs h1 hp
    have h5 : (step analyse s (.recv m)).server = s.server := by
      apply effects_other
      intro x hx method params hxe
      subst hxe
      rcases hp with ⟨method', params', h5, h6⟩ | ⟨id, method', params', h5, h6⟩ | ⟨id, r, i, h5, h6, h7⟩
      · by_cases hr : method' ∈ registry.notifications
        · rw [(C10_notification registry s.rpc m method' params' h1 h5).2.1 h6 hr] at hx
          simp only [List.drop_left, List.mem_singleton, Rpc.Effect.notified.injEq] at hx
          obtain ⟨rfl, rfl⟩ := hx
          have := ha _ _ h5
          simp only [List.mem_cons, List.not_mem_nil, or_false, not_or] at this
          simp [event, this]
        · rw [(C10_notification registry s.rpc m method' params' h1 h5).2.2 h6 hr] at hx
          simp at hx
      · have hr : method' ∈ registry.methods := by
          rcases h6 with h6 | ⟨c, hc, h6⟩
          · have : ∀ m ∈ lifeMethods, m ∈ registry.methods := by decide
            exact this _ h6
          · exact C85_announced semantic c hc _ h6
        rw [C10_request registry s.rpc m id method' params' h1 h5 hr] at hx
        simp at hx
      · obtain ⟨-, -, l, h8, h9⟩ := C10_response_continues registry s.rpc m id r i h1 h5 h6 h7
        rw [h8, List.drop_left] at hx
        obtain ⟨_, h⟩ := h9 _ hx
        cases h
    rw [run, List.foldl_cons]
    refine ih _ h4 ?_ (h5 ▸ h3)
    have : (step analyse s (.recv m)).rpc.topID = s.rpc.topID := by
      simp only [step, Rpc.step, h1, dispatch_top]
    rw [this]
    simpa [askedTokens] using h2
  | call d tok es d' _ ih =>
    intro h1 h2 h3
    rw [run, List.foldl_cons]
    simp only [askedTokens, List.length_cons] at h2
    have hne : s.rpc.topID ≠ Rpc.intMax := by unfold Rpc.intMax; omega
    obtain ⟨l, h4, h5, h6, h7⟩ : ∃ l, (Rpc.step registry s.rpc (.call tok)).log = s.rpc.log ++ l ∧
        (∀ x ∈ l, ∀ method params, x ≠ .notified method params) ∧ (Rpc.step registry s.rpc (.call tok)).status = .running ∧
        (Rpc.step registry s.rpc (.call tok)).topID = s.rpc.topID + 1 := by
      unfold Rpc.step
      rw [h1]
      simp only
      unfold Rpc.callMethod
      rw [if_neg hne]
      simp only
      split
      · split
        · exact ⟨_, rfl, by simp, h1, rfl⟩
        · exact ⟨[_, _], by simp only [List.append_assoc]; rfl, by simp, h1, rfl⟩
      · exact ⟨_, rfl, by simp, h1, rfl⟩
    have h8 : (step analyse s (.call tok)).server = s.server := by
      apply effects_other
      intro x hx method params hxe
      rw [h4, List.drop_left] at hx
      exact absurd hxe (h5 x hx method params)
    refine ih _ h6 ?_ (h8 ▸ h3)
    have : (step analyse s (.call tok)).rpc.topID = s.rpc.topID + 1 := h7
    rw [this]; push_cast at h2; omega
  | respond d n r es d' _ ih =>
    intro h1 h2 h3
    rw [run, List.foldl_cons]
    obtain ⟨l, h4, h5, h6, h7⟩ : ∃ l, (Rpc.step registry s.rpc (.respond n r)).log = s.rpc.log ++ l ∧
        (∀ x ∈ l, ∀ method params, x ≠ .notified method params) ∧ (Rpc.step registry s.rpc (.respond n r)).status = .running ∧
        (Rpc.step registry s.rpc (.respond n r)).topID = s.rpc.topID := by
      unfold Rpc.step
      rw [h1]
      simp only
      unfold Rpc.respond
      split
      · exact ⟨[], by simp, by simp, h1, rfl⟩
      · exact ⟨_, rfl, by simp, h1, rfl⟩
    have h8 : (step analyse s (.respond n r)).server = s.server := by
      apply effects_other
      intro x hx method params hxe
      rw [h4, List.drop_left] at hx
      exact absurd hxe (h5 x hx method params)
    refine ih _ h6 ?_ (h8 ▸ h3)
    have : (step analyse s (.respond n r)).rpc.topID = s.rpc.topID := h7
    rw [this]
    simpa [askedTokens] using h2

/-- **C87**, violated: a change that cannot be decoded is ignored, and the document stays open with its old text, though the
server is not in sync with the client any more (a change that cannot be applied closes the document, C05). -/
theorem C87_ignored_violated (analyse : Bytes → List Nixf.Diagnostic) (s : DocumentMessages.State) (m : Json) (params : Json)
    (hs : s.rpc.status = .running) (hm : IsNotification m b!"textDocument/didChange" params)
    (hp : ¬ ∃ f v cs, IsDidChange IsUri IsInt32 params (f, v) cs) :
    (step analyse s (.recv m)).rpc.status = .running ∧ (step analyse s (.recv m)).server = s.server := by
  have h8 := (C10_notification registry s.rpc m _ params hs hm).2.1 (by decide) (by decide)
  have he : event b!"textDocument/didChange" params = none := by
    rw [Option.eq_none_iff_forall_ne_some]
    intro e he
    obtain ⟨f, v, cs, -, h⟩ := (C87_change _ _).mp he
    exact hp ⟨f, v, cs, h⟩
  simp only [step, h8]
  refine ⟨hs, ?_⟩
  simp [effect, he]

/-- **C87**, violated for the URIs of documents that are not files (`untitled:` in editors): nothing that is said about them
is understood. -/
theorem C87_scheme_violated (scheme rest : Bytes) (h1 : (58 : UInt8) ∉ scheme)
    (h2 : URI.percentDecode scheme ∉ [b!"file", b!"test"]) (f : Bytes) :
    ¬ IsUri (.str (scheme ++ 58 :: rest)) f := by
  rintro ⟨s, hs, hf⟩
  cases hs
  unfold URI.fileOfURI at hf
  simp only [List.mem_cons, List.not_mem_nil, or_false, not_or] at h2
  have hi : (scheme ++ 58 :: rest).findIdx? (· == 58) = some scheme.length := by
    rw [List.findIdx?_append, List.findIdx?_eq_none_iff.mpr (by intro x hx; simp only [beq_eq_false_iff_ne]; rintro rfl; exact h1 hx)]
    simp [List.findIdx?_cons]
  cases hp : URI.parse (scheme ++ 58 :: rest) with
  | none => rw [hp] at hf; cases hf
  | some u =>
    have hu : u.scheme = URI.percentDecode scheme := by
      unfold URI.parse at hp
      rw [hi] at hp
      simp only [List.take_left] at hp
      split at hp
      · cases hp
      · split at hp
        · split at hp <;> cases hp <;> rfl
        · cases hp; rfl
    rw [hp] at hf
    simp only [hu] at hf
    rw [if_pos ⟨h2.1, h2.2⟩] at hf
    cases hf

/-- **C87**, violated for URIs with the name of this host, which mean the same file as those without (RFC 8089): they are
taken for the name of another file. -/
theorem C87_host_violated : IsUri (.str b!"file://localhost/etc/a.nix") b!"//localhost/etc/a.nix" ∧
    IsUri (.str b!"file:///etc/a.nix") b!"/etc/a.nix" :=
  ⟨⟨_, rfl, by decide +kernel⟩, ⟨_, rfl, by decide +kernel⟩⟩

/-- A notification. -/
def Docs.note (method : Bytes) (params : Json) : Json :=
  .obj [(b!"params", params), (b!"jsonrpc", .str b!"2.0"), (b!"method", .str method)]

theorem Docs.note_is (method : Bytes) (params : Json) : IsNotification (note method params) method params :=
  .mk [(b!"params", params), (b!"jsonrpc", .str b!"2.0"), (b!"method", .str method)] method (by simp [IsMessage, List.lookup])
    (by simp [List.lookup]) (by simp [List.lookup])

/-- A document with a blank in its name is opened, with an escape in its URI; `a` is replaced by `bc`; there is an unknown
notification in between. -/
example : Talk true (fun _ => none)
    [.recv (note b!"textDocument/didOpen" (.obj [(b!"textDocument", .obj [(b!"uri", .str b!"file:///x%20y"), (b!"languageId", .str b!"nix"),
        (b!"version", .num b!"1" (some 1)), (b!"text", .str b!"a")])])),
      .call 0,
      .recv (note b!"$/setTrace" .null),
      .recv (note b!"textDocument/didChange" (.obj [(b!"textDocument", .obj [(b!"version", .null), (b!"uri", .str b!"file:///x y"), (b!"more", .null)]),
        (b!"contentChanges", .arr [.obj [(b!"text", .str b!"bc"), (b!"range", .obj [
          (b!"start", .obj [(b!"line", .num b!"0" (some 0)), (b!"character", .num b!"0" (some 0))]),
          (b!"end", .obj [(b!"line", .num b!"0" (some 0)), (b!"character", .num b!"1" (some 1))])])]])]))]
    (fun g => if g = b!"/x y" then some ['b', 'c'] else none) := by
  have hx : ∀ x r, b!"/x y" = 47 :: x :: 58 :: r → x ∉ asciiLetters := by rintro x r h; cases h
  have hd1 : Decoded b!"/x%20y" b!"/x y" := by
    have := C07_decode_any b!"/x%20y"
    rwa [show URI.percentDecode b!"/x%20y" = b!"/x y" by decide +kernel] at this
  have hd2 : Decoded b!"/x y" b!"/x y" := by
    have := C07_decode_any b!"/x y"
    rwa [show URI.percentDecode b!"/x y" = b!"/x y" by decide +kernel] at this
  refine .tell _ _ (.openDoc b!"/x y" (some 1) ['a']) _ _ ⟨_, note_is _ _, _, rfl, _, rfl, _, rfl, ⟨_, rfl, b!"x%20y", rfl, hd1, by decide, hx⟩,
    ⟨_, _, rfl, rfl⟩, ⟨_, rfl, _, rfl⟩, _, rfl, congrArg Json.str (by decide +kernel)⟩ trivial ?_
  refine .call _ _ _ _ ?_
  refine .other _ _ _ _ (.inl ⟨_, _, note_is _ _, by decide⟩) ?_ ?_
  · intro method params h
    cases h with
    | mk _ _ _ h2 _ =>
      simp only [List.lookup] at h2
      cases h2
      decide
  have he : (fun g => if g = b!"/x y" then some ['b', 'c'] else none) = (Spec.Client.Op.edit b!"/x y" none [.splice 0 1 ['b', 'c'] false]).apply
      ((Spec.Client.Op.openDoc b!"/x y" (some 1) ['a']).apply fun _ => none) := by
    funext g
    by_cases hg : g = b!"/x y" <;> simp [Spec.Client.Op.apply, hg, Spec.Client.applyAll, Spec.Client.Edit.apply]
  rw [he]
  refine .tell _ _ (.edit b!"/x y" none [.splice 0 1 ['b', 'c'] false]) _ _ ⟨_, note_is _ _, ['a'], by simp [Spec.Client.Op.apply], _, rfl, ⟨_, rfl, _, rfl, ⟨_, rfl, b!"x y", rfl, hd2, by decide, hx⟩, .inr rfl⟩,
    ⟨_, rfl, _, rfl, .cons ⟨_, rfl, ⟨_, rfl, _, rfl, ⟨_, rfl, _, rfl, ⟨_, rfl, _, rfl⟩, ⟨_, rfl, _, rfl⟩⟩, ⟨_, rfl, _, rfl, ⟨_, rfl, _, rfl⟩, ⟨_, rfl, _, rfl⟩⟩⟩,
      .inl rfl, _, rfl, congrArg Json.str (by decide +kernel)⟩ .nil⟩, ⟨none, .inl rfl⟩, none, .inl rfl⟩ ?_ (.nil _)
  intro doc h
  simp only [Spec.Client.Op.apply, if_pos, Option.some.injEq] at h
  subst h
  exact ⟨by simp only [Spec.Client.Edit.InRange]; decide +kernel, trivial⟩

end Verif.Props
