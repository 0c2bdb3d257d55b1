import Verif.Model.Replies
import Verif.Props.ActionMessages
import Verif.Props.DocumentSymbol
/-
**C90**: requests about documents are understood as the protocol says, and the editor reads the replies and the published
diagnostics as the server made them.
-/
namespace Verif.Props
namespace Wire
open Verif.Rpc (Json)
open Docs Items Acts
open Verif.Server (LRange LDiag Publish)
open Verif.Nixf (Tag Fmt HighlightKind)
open Nixf.Outline (Symbol SymbolKind)

/-! ### Messages, by the members of their objects (Language Server Protocol 3.17) -/

/-- A range. -/
def IsRange (v : Json) (r : LRange) : Prop := IsRng v (r.start, r.stop)

/-- A message that is defined. -/
def IsMessage (v : Json) (m : Fmt) : Prop := ∃ s, m = .ok s ∧ IsStr v s

/-- A range in a file. -/
def IsLoc (v : Json) (l : Bytes × LRange) : Prop := ∃ fs, v = .obj fs ∧ Has fs b!"uri" IsUri l.1 ∧ Has fs b!"range" IsRange l.2

/-- `DiagnosticRelatedInformation` in a file. -/
def IsRelated (file : Bytes) (v : Json) (r : LRange × Fmt) : Prop :=
  ∃ fs, v = .obj fs ∧ Has fs b!"location" IsLoc (file, r.1) ∧ Has fs b!"message" IsMessage r.2

/-- `DiagnosticTag`: unnecessary code is faded out, and deprecated code is struck through. -/
def IsTag (v : Json) (t : Tag) : Prop := IsInt v (match t with | .faded => 1 | .striked => 2)

/-- `Diagnostic`. -/
structure Shown (file : Bytes) (fs : List (Bytes × Json)) (d : LDiag) : Prop where
  range : Has fs b!"range" IsRange d.range
  severity : Has fs b!"severity" IsInt d.severity
  message : Has fs b!"message" IsMessage d.message
  code : Has fs b!"code" IsStr d.code
  source : Has fs b!"source" IsStr b!"nixf"
  tags : Opt fs b!"tags" (IsList IsTag) (if d.tags = [] then none else some d.tags)
  related : Has fs b!"relatedInformation" (IsList (IsRelated file)) d.related

def IsDiag (file : Bytes) (v : Json) (d : LDiag) : Prop := ∃ fs, v = .obj fs ∧ Shown file fs d

/-- `PublishDiagnosticsParams`. -/
def IsPublish (v : Json) (p : Publish) : Prop :=
  ∃ fs, v = .obj fs ∧ Has fs b!"uri" IsUri p.file ∧ Opt fs b!"version" IsInt p.version ∧
    Has fs b!"diagnostics" (IsList (IsDiag p.file)) p.diags

/-- A member with a default, which is taken if the member is absent or `null`. -/
def Else {α : Type} (fs : List (Bytes × Json)) (key : Bytes) (P : Json → α → Prop) (d a : α) : Prop :=
  (fs.lookup key = none ∨ fs.lookup key = some .null) ∧ a = d ∨ Has fs key P a

/-- A diagnostic of the client, where the values of `code` are given. -/
def IsKnown (C : Json → Bytes → Prop) (v : Json) (d : Replies.Diag) : Prop :=
  ∃ fs, v = .obj fs ∧ Has fs b!"range" IsRng d.range ∧ Has fs b!"message" IsStr d.message ∧
    Else fs b!"severity" IsInt32 0 d.severity ∧ May fs b!"category" IsStr d.category ∧ Else fs b!"code" C [] d.code ∧
    Else fs b!"source" IsStr [] d.source

section
variable (U : Json → Bytes → Prop) (C : Json → Bytes → Prop)

/-- `TextDocumentPositionParams`. -/
def IsPlace (v : Json) (p : Bytes × SourceCode.Position) : Prop :=
  ∃ fs, v = .obj fs ∧ Has fs b!"textDocument" (IsId U) p.1 ∧ Has fs b!"position" IsPos p.2

/-- The parameters of a request about a document. -/
def IsDocument (v : Json) (f : Bytes) : Prop := ∃ fs, v = .obj fs ∧ Has fs b!"textDocument" (IsId U) f

/-- `InlayHintParams`. -/
def IsPart (v : Json) (p : Bytes × SourceCode.Position × SourceCode.Position) : Prop :=
  ∃ fs, v = .obj fs ∧ Has fs b!"textDocument" (IsId U) p.1 ∧ Has fs b!"range" IsRng p.2

/-- `RenameParams`. -/
def IsRename (v : Json) (p : Bytes × SourceCode.Position × Bytes) : Prop :=
  ∃ fs, v = .obj fs ∧ Has fs b!"textDocument" (IsId U) p.1 ∧ Has fs b!"position" IsPos p.2.1 ∧ Has fs b!"newName" IsStr p.2.2

/-- `CodeActionParams`. -/
def IsAction (v : Json) (p : Bytes × (SourceCode.Position × SourceCode.Position) × List Replies.Diag) : Prop :=
  ∃ fs cs, v = .obj fs ∧ Has fs b!"textDocument" (IsId U) p.1 ∧ Has fs b!"range" IsRng p.2.1 ∧
    fs.lookup b!"context" = some (.obj cs) ∧ Has cs b!"diagnostics" (IsList (IsKnown C)) p.2.2

/-- `CompletionParams`; the limit is an extension of clangd. -/
def IsCompletion (v : Json) (p : Bytes × SourceCode.Position) : Prop :=
  ∃ fs, v = .obj fs ∧ Has fs b!"textDocument" (IsId U) p.1 ∧ Has fs b!"position" IsPos p.2 ∧
    (∃ l, May fs b!"limit" IsInt32 l) ∧ (fs.lookup b!"context" = none ∨
      ∃ cs k c, fs.lookup b!"context" = some (.obj cs) ∧ Has cs b!"triggerKind" IsInt32 k ∧ May cs b!"triggerCharacter" IsStr c)
end

/-- `Hover` with a text in Markdown. -/
def IsHover (v : Json) (h : Bytes × LRange) : Prop :=
  ∃ fs, v = .obj fs ∧ Has fs b!"contents" IsMarkdown h.1 ∧ Has fs b!"range" IsRange h.2

/-- `DocumentHighlight`. -/
def IsHighlight (v : Json) (h : LRange × HighlightKind) : Prop :=
  ∃ fs, v = .obj fs ∧ Has fs b!"range" IsRange h.1 ∧ Has fs b!"kind" IsInt (match h.2 with | .read => 2 | .write => 3)

/-- `DocumentLink`. -/
def IsLink (v : Json) (l : Nixf.Links.Link) : Prop :=
  ∃ fs, v = .obj fs ∧ Has fs b!"range" IsRange l.range ∧ Has fs b!"target" IsUri l.target

/-- `InlayHint` without a kind. -/
def IsHint (v : Json) (h : Nixf.Inspect.Hint) : Prop :=
  ∃ fs, v = .obj fs ∧ Has fs b!"position" IsPos h.position ∧ Has fs b!"label" IsStr h.label ∧ fs.lookup b!"kind" = none

/-- `SemanticTokens`: five numbers for each token. -/
def IsTokens (v : Json) (ts : List Nixf.SemanticTokens.Rel) : Prop :=
  ∃ fs ns, v = .obj fs ∧ Has fs b!"data" (IsList IsInt) ns ∧ ns.length = 5 * ts.length ∧
    ∀ i, ∀ h : i < ts.length, ns[5 * i]? = some (ts[i].deltaLine : Int) ∧ ns[5 * i + 1]? = some (ts[i].deltaStart : Int) ∧
      ns[5 * i + 2]? = some (ts[i].length : Int) ∧ ns[5 * i + 3]? = some (ts[i].type : Int) ∧ ns[5 * i + 4]? = some (ts[i].mods : Int)

/-- `SymbolKind`. -/
def kindOf : SymbolKind → Int
  | .property => 7
  | .field => 8
  | .function => 12
  | .variable => 13
  | .constant => 14
  | .string => 15
  | .number => 16
  | .boolean => 17
  | .array => 18
  | .null => 21
  | .event => 24

/-- `DocumentSymbol`. -/
inductive IsSymbol : Json → Symbol → Prop
  | mk {fs : List (Bytes × Json)} {name detail : Bytes} {kind : SymbolKind} {deprecated : Bool} {range selection : LRange}
      {children : List Symbol} {vs : List Json} : Has fs b!"name" IsStr name → Items.Text fs b!"detail" detail →
      Has fs b!"kind" IsInt (kindOf kind) →
      (if deprecated then Has fs b!"deprecated" IsBool true else fs.lookup b!"deprecated" = none) →
      Has fs b!"range" IsRange range → Has fs b!"selectionRange" IsRange selection →
      fs.lookup b!"children" = (if vs = [] then none else some (.arr vs)) → List.Forall₂ IsSymbol vs children →
      IsSymbol (.obj fs) (.mk name detail kind deprecated range selection children)

/-- `FoldingRange`. -/
def IsFold (v : Json) (s : Nixf.Folding.Sent) : Prop :=
  ∃ fs, v = .obj fs ∧ Has fs b!"startLine" IsInt s.startLine ∧ Has fs b!"endLine" IsInt s.endLine ∧
    Opt fs b!"startCharacter" IsInt (s.startCharacter.map Int.ofNat) ∧ Opt fs b!"endCharacter" IsInt (s.endCharacter.map Int.ofNat) ∧
    Opt fs b!"kind" IsStr s.kind

/-- The strings of a diagnostic are defined and UTF-8. -/
structure DiagOk (d : LDiag) : Prop where
  message : ∃ s, d.message = .ok s ∧ IsText s
  code : IsText d.code
  hasCode : d.code ≠ []
  related : ∀ r ∈ d.related, ∃ s, r.2 = .ok s ∧ IsText s

/-- The strings of the symbols are UTF-8. -/
inductive SymbolOk : Symbol → Prop
  | mk {name detail : Bytes} {kind : SymbolKind} {deprecated : Bool} {range selection : LRange} {children : List Symbol} :
      IsText name → IsText detail → (∀ c ∈ children, SymbolOk c) → SymbolOk (.mk name detail kind deprecated range selection children)

end Wire
open Wire Acts Items Docs
open Verif.Replies
open Verif.CompletionMessages (members unlessEmpty encodePos encodeRng encodeEdit)
open Verif.DocumentMessages (decodeIdentifier decodePosition decodeRange mapOptOrNull)
open Verif.Rpc (Json)
open Verif.Protocol (mapRequired mapMaybe decodeOption decodeList encodeList encodeInt encodeString decodeFile encodeFile decodeInt32)
open Verif.Config (Decoder isObject decodeString)
open Verif.Server (LRange LDiag Publish)
open Verif.Nixf (Tag Fmt HighlightKind)
open Nixf.Outline (Symbol SymbolKind)

/-! ### Requests -/

theorem or_iff {α : Type} {fs : List (Bytes × Json)} {key : Bytes} {dec : Decoder α} {P : Json → α → Prop} {r a : α}
    (h : ∀ v a, dec v r = some a ↔ P v a) (hn : ∀ a, ¬ P .null a) :
    mapOptOrNull key dec (.obj fs) r = some a ↔ Else fs key P r a := by
  unfold mapOptOrNull Else Has
  cases hl : fs.lookup key with
  | none => simp [Json.get, hl, eq_comm]
  | some v =>
    cases v with
    | null => simp [Json.get, hl, hn, eq_comm]
    | _ => simp [Json.get, hl, h]

theorem id_iff (v : Json) (f r : Bytes) : decodeIdentifier v r = some f ↔ IsId IsUri v f := by
  cases v with
  | obj fs =>
    have h := required_iff (fs := fs) (key := b!"uri") (r := r) (a := f) (fun v a => file_iff v a r)
    simp only [decodeIdentifier, isObject, if_true, h, IsId, Json.obj.injEq, exists_eq_left']
  | _ => simp [decodeIdentifier, isObject, IsId]

theorem known_iff (v : Json) (d : Replies.Diag) : decodeDiag v {} = some d ↔ IsKnown IsStr v d := by
  cases v with
  | obj fs =>
    have h1 := fun (r a) => required_iff (fs := fs) (key := b!"range") (r := r) (a := a) (fun v a => rng_iff v a r)
    have h2 := fun (r a) => required_iff (fs := fs) (key := b!"message") (r := r) (a := a) (fun v a => str_iff v a r)
    have h3 := fun (r a) => or_iff (fs := fs) (key := b!"severity") (r := r) (a := a) (fun v a => int32_iff v a r)
      (by simp [IsInt32, IsInt])
    have h4 := fun key (r a) => or_iff (fs := fs) (key := key) (r := r) (a := a) (fun v a => str_iff v a r) (by simp [IsStr])
    have h5 : ∀ a, mapOptOrNull b!"category" (decodeOption decodeString []) (.obj fs) none = some a ↔ May fs b!"category" IsStr a := by
      intro a
      unfold mapOptOrNull May Has
      cases hl : fs.lookup b!"category" with
      | none => cases a <;> simp [Json.get, hl]
      | some v => cases v <;> cases a <;> simp [Json.get, hl, decodeOption, decodeString, IsStr]
    simp only [decodeDiag, isObject, if_true, Option.bind_eq_bind, Option.bind_eq_some_iff, h1, h2, h3, h4, h5, IsKnown,
      Json.obj.injEq, exists_eq_left', Option.some.injEq]
    constructor
    · rintro ⟨a, ha, b, hb, c, hc, e, he, f, hf, g, hg, rfl⟩; exact ⟨ha, hb, hc, he, hf, hg⟩
    · rintro ⟨ha, hb, hc, he, hf, hg⟩; exact ⟨_, ha, _, hb, _, hc, _, he, _, hf, _, hg, rfl⟩
  | _ => simp [decodeDiag, isObject, IsKnown]

theorem place_iff (v : Json) (p : Bytes × SourceCode.Position) : decodePlace v = some p ↔ IsPlace IsUri v p := by
  cases v with
  | obj fs =>
    have h1 := fun (r a) => required_iff (fs := fs) (key := b!"textDocument") (r := r) (a := a) (fun v a => id_iff v a r)
    have h2 := fun (r a) => required_iff (fs := fs) (key := b!"position") (r := r) (a := a) (fun v a => pos_iff v a r)
    simp only [decodePlace, isObject, if_true, Option.bind_eq_bind, Option.bind_eq_some_iff, h1, h2, IsPlace,
      Json.obj.injEq, exists_eq_left', Option.some.injEq]
    constructor
    · rintro ⟨a, ha, b, hb, rfl⟩; exact ⟨ha, hb⟩
    · rintro ⟨ha, hb⟩; exact ⟨_, ha, _, hb, rfl⟩
  | _ => simp [decodePlace, isObject, IsPlace]

/-- **C90**, requests about a position. -/
theorem C90_place {m : Bytes} (hm : m ∈ [b!"textDocument/definition", b!"textDocument/references", b!"textDocument/documentHighlight",
    b!"textDocument/hover", b!"textDocument/prepareRename"]) (params : Json) (q : Query) : query m params = some q ↔
    ∃ f p, q = .place f p ∧ IsPlace IsUri params (f, p) := by
  replace hm : m ∈ placeMethods := hm
  simp only [query, if_pos hm, Option.map_eq_some_iff, place_iff]
  constructor
  · rintro ⟨⟨f, p⟩, h, rfl⟩; exact ⟨f, p, rfl, h⟩
  · rintro ⟨f, p, rfl, h⟩; exact ⟨(f, p), h, rfl⟩

/-- **C90**, requests about a document. -/
theorem C90_document {m : Bytes} (hm : m ∈ [b!"textDocument/documentSymbol", b!"textDocument/foldingRange",
    b!"textDocument/semanticTokens/full", b!"textDocument/documentLink", b!"textDocument/formatting"]) (params : Json) (q : Query) :
    query m params = some q ↔ ∃ f, q = .document f ∧ IsDocument IsUri params f := by
  replace hm : m ∈ documentMethods := hm
  have h0 : ∀ x ∈ documentMethods, x ∉ placeMethods ∧ x ≠ b!"textDocument/completion" := by decide +kernel
  have h1 : ∀ f, decodeDocument params = some f ↔ IsDocument IsUri params f := by
    intro f
    cases params with
    | obj fs =>
      have h1 := required_iff (fs := fs) (key := b!"textDocument") (r := []) (a := f) (fun v a => id_iff v a [])
      simp only [decodeDocument, isObject, if_true, h1, IsDocument, Json.obj.injEq, exists_eq_left']
    | _ => simp [decodeDocument, isObject, IsDocument]
  simp only [query, if_neg (h0 m hm).1, if_neg (h0 m hm).2, if_pos hm, Option.map_eq_some_iff, h1]
  constructor
  · rintro ⟨f, h, rfl⟩; exact ⟨f, rfl, h⟩
  · rintro ⟨f, rfl, h⟩; exact ⟨f, h, rfl⟩

/-- **C90**, the request for inlay hints. -/
theorem C90_part (params : Json) (q : Query) : query b!"textDocument/inlayHint" params = some q ↔
    ∃ f r, q = .part f r ∧ IsPart IsUri params (f, r) := by
  have h0 : ∀ p, decodePart params = some p ↔ IsPart IsUri params p := by
    intro p
    cases params with
    | obj fs =>
      have h1 := fun (r a) => required_iff (fs := fs) (key := b!"textDocument") (r := r) (a := a) (fun v a => id_iff v a r)
      have h2 := fun (r a) => required_iff (fs := fs) (key := b!"range") (r := r) (a := a) (fun v a => rng_iff v a r)
      simp only [decodePart, isObject, if_true, Option.bind_eq_bind, Option.bind_eq_some_iff, h1, h2, IsPart,
        Json.obj.injEq, exists_eq_left', Option.some.injEq]
      constructor
      · rintro ⟨a, ha, b, hb, rfl⟩; exact ⟨ha, hb⟩
      · rintro ⟨ha, hb⟩; exact ⟨_, ha, _, hb, rfl⟩
    | _ => simp [decodePart, isObject, IsPart]
  have hq : query b!"textDocument/inlayHint" params = (decodePart params).map fun p => .part p.1 p.2 := by
    unfold query
    rw [if_neg (by decide +kernel), if_neg (by decide +kernel), if_neg (by decide +kernel), if_pos rfl]
  simp only [hq, Option.map_eq_some_iff, h0]
  constructor
  · rintro ⟨⟨f, p⟩, h, rfl⟩; exact ⟨f, p, rfl, h⟩
  · rintro ⟨f, p, rfl, h⟩; exact ⟨(f, p), h, rfl⟩

/-- **C90**, the request for a rename. -/
theorem C90_rename (params : Json) (q : Query) : query b!"textDocument/rename" params = some q ↔
    ∃ f p n, q = .rename f p n ∧ IsRename IsUri params (f, p, n) := by
  have h0 : ∀ p, decodeRename params = some p ↔ IsRename IsUri params p := by
    intro p
    cases params with
    | obj fs =>
      have h1 := fun (r a) => required_iff (fs := fs) (key := b!"textDocument") (r := r) (a := a) (fun v a => id_iff v a r)
      have h2 := fun (r a) => required_iff (fs := fs) (key := b!"position") (r := r) (a := a) (fun v a => pos_iff v a r)
      have h3 := fun (r a) => required_iff (fs := fs) (key := b!"newName") (r := r) (a := a) (fun v a => str_iff v a r)
      simp only [decodeRename, isObject, if_true, Option.bind_eq_bind, Option.bind_eq_some_iff, h1, h2, h3, IsRename,
        Json.obj.injEq, exists_eq_left', Option.some.injEq]
      constructor
      · rintro ⟨a, ha, b, hb, c, hc, rfl⟩; exact ⟨ha, hb, hc⟩
      · rintro ⟨ha, hb, hc⟩; exact ⟨_, ha, _, hb, _, hc, rfl⟩
    | _ => simp [decodeRename, isObject, IsRename]
  have hq : query b!"textDocument/rename" params = (decodeRename params).map fun p => .rename p.1 p.2.1 p.2.2 := by
    unfold query
    rw [if_neg (by decide +kernel), if_neg (by decide +kernel), if_neg (by decide +kernel), if_neg (by decide +kernel), if_pos rfl]
  simp only [hq, Option.map_eq_some_iff, h0]
  constructor
  · rintro ⟨⟨f, p, n⟩, h, rfl⟩; exact ⟨f, p, n, rfl, h⟩
  · rintro ⟨f, p, n, rfl, h⟩; exact ⟨(f, p, n), h, rfl⟩

/-- **C90**, the request for completions. -/
theorem C90_completion (params : Json) (q : Query) : query b!"textDocument/completion" params = some q ↔
    ∃ f p, q = .place f p ∧ IsCompletion IsUri params (f, p) := by
  have hc : ∀ v, contextOk v = true ↔ ∃ cs k c, v = .obj cs ∧ Has cs b!"triggerKind" IsInt32 k ∧ May cs b!"triggerCharacter" IsStr c := by
    intro v
    cases v with
    | obj cs =>
      have h1 := fun a => required_iff (fs := cs) (key := b!"triggerKind") (r := 0) (a := a) (fun v a => int32_iff v a 0)
      have h2 := optional_iff (fs := cs) (key := b!"triggerCharacter") (r := []) (fun v a => str_iff v a []) (by simp [IsStr])
      simp only [contextOk, isObject, Bool.true_and, Bool.and_eq_true, Option.isSome_iff_exists, h1, h2, Json.obj.injEq]
      constructor
      · rintro ⟨⟨k, hk⟩, c, hc⟩; exact ⟨cs, k, c, rfl, hk, hc⟩
      · rintro ⟨_, k, c, rfl, hk, hc⟩; exact ⟨⟨k, hk⟩, c, hc⟩
    | _ => simp [contextOk, isObject]
  have h0 : ∀ p, decodeCompletion params = some p ↔ IsCompletion IsUri params p := by
    intro p
    cases params with
    | obj fs =>
      have h1 := place_iff (.obj fs)
      have h2 := optional_iff (fs := fs) (key := b!"limit") (r := 0) (fun v a => int32_iff v a 0) (by simp [IsInt32, IsInt])
      have h3 : ∀ q : Bytes × SourceCode.Position, (match (Json.obj fs).get b!"context" with
          | some c => if contextOk c = true then some q else none
          | none => some q) = some p ↔ q = p ∧ (fs.lookup b!"context" = none ∨
            ∃ cs k c, fs.lookup b!"context" = some (.obj cs) ∧ Has cs b!"triggerKind" IsInt32 k ∧ May cs b!"triggerCharacter" IsStr c) := by
        intro q
        cases hl : fs.lookup b!"context" with
        | none => simp [Json.get, hl]
        | some v =>
          have h3 := hc v
          by_cases hv : contextOk v = true
          · obtain ⟨cs, k, c, rfl, hk, hc⟩ := h3.mp hv
            simp only [Json.get, hl, hv, if_true, Option.some.injEq]
            exact ⟨fun h => ⟨h, .inr ⟨cs, k, c, rfl, hk, hc⟩⟩, fun h => h.1⟩
          · simp only [Json.get, hl, hv, Option.some.injEq]
            refine ⟨fun h => by simp at h, ?_⟩
            rintro ⟨-, h | ⟨cs, k, c, rfl, hk, hc⟩⟩
            · simp at h
            · exact absurd (h3.mpr ⟨cs, k, c, rfl, hk, hc⟩) hv
      simp only [decodeCompletion, Option.bind_eq_bind, Option.bind_eq_some_iff, h1]
      constructor
      · rintro ⟨a, ⟨_, hfs, ha, hb⟩, l, hl, hm⟩
        obtain ⟨rfl, hk⟩ := (h3 a).mp hm
        cases hfs
        exact ⟨fs, rfl, ha, hb, h2.mp ⟨l, hl⟩, hk⟩
      · rintro ⟨_, hfs, ha, hb, hl, hk⟩
        cases hfs
        obtain ⟨l, hl⟩ := h2.mpr hl
        exact ⟨p, ⟨fs, rfl, ha, hb⟩, l, hl, (h3 p).mpr ⟨rfl, hk⟩⟩
    | _ => simp [decodeCompletion, decodePlace, isObject, IsCompletion]
  have hq : query b!"textDocument/completion" params = (decodeCompletion params).map fun p => .place p.1 p.2 := by
    unfold query
    rw [if_neg (by decide +kernel), if_pos rfl]
  simp only [hq, Option.map_eq_some_iff, h0]
  constructor
  · rintro ⟨⟨f, p⟩, h, rfl⟩; exact ⟨f, p, rfl, h⟩
  · rintro ⟨f, p, rfl, h⟩; exact ⟨(f, p), h, rfl⟩

/-- **C90**, the request for code actions: it is understood exactly if the codes of all diagnostics are strings. -/
theorem C90_action_partial (params : Json) (q : Query) : query b!"textDocument/codeAction" params = some q ↔
    ∃ f r ds, q = .action f r ds ∧ IsAction IsUri IsStr params (f, r, ds) := by
  have h0 : ∀ p, decodeAction params = some p ↔ IsAction IsUri IsStr params p := by
    intro p
    cases params with
    | obj fs =>
      have h1 := fun (r a) => required_iff (fs := fs) (key := b!"textDocument") (r := r) (a := a) (fun v a => id_iff v a r)
      have h2 := fun (r a) => required_iff (fs := fs) (key := b!"range") (r := r) (a := a) (fun v a => rng_iff v a r)
      have h3 : ∀ v (l : List Replies.Diag), decodeContext v [] = some l ↔ ∃ cs, v = .obj cs ∧ Has cs b!"diagnostics" (IsList (IsKnown IsStr)) l := by
        intro v l
        cases v with
        | obj cs =>
          have h := required_iff (fs := cs) (key := b!"diagnostics") (r := []) (a := l) (fun v a => list_iff known_iff v a [])
          simp only [decodeContext, isObject, if_true, h, Json.obj.injEq, exists_eq_left']
        | _ => simp [decodeContext, isObject]
      have h4 := fun a => required_iff (fs := fs) (key := b!"context") (r := []) (a := a) h3
      simp only [decodeAction, isObject, if_true, Option.bind_eq_bind, Option.bind_eq_some_iff, h1, h2, h4, IsAction,
        Json.obj.injEq, Option.some.injEq]
      constructor
      · rintro ⟨a, ha, b, hb, c, ⟨v, hv, cs, rfl, hc⟩, rfl⟩; exact ⟨fs, cs, rfl, ha, hb, hv, hc⟩
      · rintro ⟨_, cs, rfl, ha, hb, hv, hc⟩; exact ⟨_, ha, _, hb, _, ⟨_, hv, cs, rfl, hc⟩, rfl⟩
    | _ => simp [decodeAction, isObject, IsAction]
  have hq : query b!"textDocument/codeAction" params = (decodeAction params).map fun p => .action p.1 p.2.1 p.2.2 := by
    unfold query
    rw [if_neg (by decide +kernel), if_neg (by decide +kernel), if_neg (by decide +kernel), if_neg (by decide +kernel),
      if_neg (by decide +kernel), if_pos rfl]
  simp only [hq, Option.map_eq_some_iff, h0]
  constructor
  · rintro ⟨⟨f, p, n⟩, h, rfl⟩; exact ⟨f, p, n, rfl, h⟩
  · rintro ⟨f, p, n, rfl, h⟩; exact ⟨(f, p, n), h, rfl⟩

/-- **C90**: a code may be a number (`integer | string`), but the request is not understood if a diagnostic of another
server has one. -/
theorem C90_code_violated : ∃ params, IsAction IsUri (fun v _ => ∃ n, IsInt v n) params
      (b!"/a.nix", (⟨0, 0⟩, ⟨0, 1⟩), [{ range := (⟨0, 0⟩, ⟨0, 1⟩), message := b!"m", code := b!"7", source := b!"other" }]) ∧
    query b!"textDocument/codeAction" params = none := by
  refine ⟨.obj [(b!"textDocument", .obj [(b!"uri", .str b!"file:///a.nix")]), (b!"range", encodeRng ⟨0, 0⟩ ⟨0, 1⟩),
    (b!"context", .obj [(b!"diagnostics", .arr [.obj [(b!"range", encodeRng ⟨0, 0⟩ ⟨0, 1⟩), (b!"message", .str b!"m"),
      (b!"code", encodeInt 7), (b!"source", .str b!"other")]])])], ?_, by decide +kernel⟩
  have hr := encodeRng_is ⟨0, 0⟩ ⟨0, 1⟩
  exact ⟨_, _, rfl, ⟨_, rfl, _, rfl, _, rfl, _, rfl, by decide +kernel⟩, ⟨_, rfl, hr⟩, rfl, _, rfl, _, rfl,
    .cons ⟨_, rfl, ⟨_, rfl, hr⟩, ⟨_, rfl, rfl⟩, .inl ⟨.inl rfl, rfl⟩, .inl rfl, .inr ⟨_, rfl, 7, _, rfl⟩, .inr ⟨_, rfl, rfl⟩⟩ .nil⟩

/-- **C90**: the client says whether it wants the declaration among the references, but it gets the same in any case. -/
theorem C90_declaration_violated : ∃ fs, ∀ declaration : Bool,
    query b!"textDocument/references" (.obj ((b!"context", .obj [(b!"includeDeclaration", .bool declaration)]) :: fs)) =
      some (.place b!"/a.nix" ⟨0, 4⟩) :=
  ⟨[(b!"textDocument", .obj [(b!"uri", .str b!"file:///a.nix")]), (b!"position", encodePos ⟨0, 4⟩)], by decide +kernel⟩

/-! ### Replies -/

section
variable {fix : Bytes → Bytes} (hf : Fixes fix)
include hf

theorem uri_is {p : Bytes} (h : HasUri p) : IsUri (encodeFile fix p) p := (file_iff _ _ []).mp (file_trip hf h [])

omit hf in
theorem list_is {α : Type} {P : Json → α → Prop} {enc : α → Json} {l : List α} (h : ∀ a ∈ l, P (enc a) a) : IsList P (encodeList enc l) l := by
  refine ⟨_, rfl, ?_⟩
  induction l with
  | nil => exact .nil
  | cons a l ih => exact .cons (h a (by simp)) (ih fun a ha => h a (by simp [ha]))

omit hf in
theorem opt_is {α β : Type} {fs : List (Bytes × Json)} {k : Bytes} {P : Json → β → Prop} {enc : α → Json} {g : α → β} {o : Option α}
    (h : fs.lookup k = o.map enc) (ha : ∀ a ∈ o, P (enc a) (g a)) : Opt fs k P (o.map g) := by
  cases o with
  | none => exact h
  | some a => exact ⟨_, h, ha a rfl⟩

omit hf in
theorem range_is (r : LRange) : IsRange (encodeLRange r) r := encodeRng_is _ _

theorem loc_is {file : Bytes} (h : HasUri file) (r : LRange) : IsLoc (encodeLoc fix file r) (file, r) :=
  ⟨_, rfl, ⟨_, rfl, uri_is hf h⟩, ⟨_, rfl, range_is r⟩⟩

theorem message_is {m : Fmt} (h : ∃ s, m = .ok s ∧ IsText s) : IsMessage (encodeString fix (fmtText m)) m := by
  obtain ⟨s, rfl, hs⟩ := h
  exact ⟨s, rfl, encodeString_is hf hs⟩

/-- The members of a diagnostic. -/
def diagFields (fix : Bytes → Bytes) (file : Bytes) (d : LDiag) : List (Bytes × Option Json) :=
  [(b!"range", some (encodeLRange d.range)), (b!"severity", some (encodeInt d.severity)),
    (b!"message", some (encodeString fix (fmtText d.message))), (b!"code", unlessEmpty fix d.code),
    (b!"source", unlessEmpty fix b!"nixf"), (b!"relatedInformation", some (encodeList (encodeRelated fix file) d.related)),
    (b!"tags", if d.tags = [] then none else some (encodeList encodeTag d.tags))]

omit hf in
theorem diag_lookup (file : Bytes) (d : LDiag) (k : Bytes) :
    (members (diagFields fix file d)).lookup k = ((diagFields fix file d).lookup k).join :=
  lookup_members _ _ (by simp only [diagFields, List.map]; decide +kernel)

theorem diag_is {file : Bytes} (hu : HasUri file) {d : LDiag} (h : DiagOk d) : Shown file (members (diagFields fix file d)) d := by
  have nixf : IsText b!"nixf" := isText_ascii (by decide +kernel)
  refine ⟨⟨_, by rw [diag_lookup]; rfl, range_is _⟩, ⟨_, by rw [diag_lookup]; rfl, _, rfl⟩, ⟨_, by rw [diag_lookup]; rfl, message_is hf h.message⟩,
    ⟨encodeString fix d.code, by rw [diag_lookup]; simp [diagFields, List.lookup, unlessEmpty, h.hasCode], encodeString_is hf h.code⟩,
    ⟨encodeString fix b!"nixf", by rw [diag_lookup]; rfl, encodeString_is hf nixf⟩, ?_, ⟨_, by rw [diag_lookup]; rfl, list_is ?_⟩⟩
  · by_cases ht : d.tags = []
    · rw [if_pos ht, Opt, diag_lookup]
      simp [diagFields, List.lookup, ht]
    · rw [if_neg ht]
      refine ⟨encodeList encodeTag d.tags, by rw [diag_lookup]; simp [diagFields, List.lookup, ht], list_is ?_⟩
      intro t _
      cases t <;> exact ⟨_, rfl⟩
  · intro r hr
    exact ⟨_, rfl, ⟨_, rfl, loc_is hf hu _⟩, ⟨_, rfl, message_is hf (h.related r hr)⟩⟩

/-- **C90**, diagnostics: the editor reads the notification as the server made it. -/
theorem C90_published {p : Publish} (hu : HasUri p.file) (h : ∀ d ∈ p.diags, DiagOk d) : IsPublish (encodePublish fix p) p := by
  have hl := fun k => lookup_members [(b!"uri", some (encodeFile fix p.file)),
    (b!"diagnostics", some (encodeList (encodeDiag fix p.file) p.diags)), (b!"version", p.version.map encodeInt)] k
      (by simp only [List.map]; decide +kernel)
  refine ⟨_, rfl, ⟨_, by rw [hl]; rfl, uri_is hf hu⟩, ?_, ⟨_, by rw [hl]; rfl, list_is fun d hd => ⟨_, rfl, diag_is hf hu (h d hd)⟩⟩⟩
  have := opt_is (k := b!"version") (P := IsInt) (g := id) (by rw [hl]; rfl : _ = p.version.map encodeInt) fun n _ => ⟨_, rfl⟩
  simpa using this

omit hf in
theorem natDigits_ascii : ∀ n : Nat, ∀ c ∈ Draft.natDigits n, c < 128 := by
  intro n
  induction n using Nat.strongRecOn with
  | _ n ih =>
    have hd : ∀ d < 10, UInt8.ofNat (48 + d) < 128 := by decide
    intro c hc
    rw [Draft.natDigits] at hc
    by_cases hn : n < 10
    · rw [if_pos hn] at hc
      obtain rfl := List.mem_singleton.mp hc
      exact hd n hn
    · rw [if_neg hn] at hc
      rcases List.mem_append.mp hc with hc | hc
      · exact ih _ (Nat.div_lt_self (by omega) (by omega)) c hc
      · obtain rfl := List.mem_singleton.mp hc
        exact hd _ (Nat.mod_lt _ (by omega))

omit hf in
/-- **C90**: the diagnostics of a document have a severity of the protocol and a code, and if the messages of `nixf` are
UTF-8 then theirs are. -/
theorem C90_built {sup : List Nixf.DK} {src : Bytes} {ds : List Nixf.Diagnostic}
    (h : ∀ d ∈ ds, (∃ s, d.format = .ok s ∧ IsText s) ∧ ∀ n ∈ d.notes, ∃ s, n.format = .ok s ∧ IsText s) :
    ∀ x ∈ Server.buildDiags sup src ds, DiagOk x ∧ 1 ≤ x.severity ∧ x.severity ≤ 4 := by
  have ascii : ∀ {l : Bytes}, l.all (· < 128) = true → IsText l := fun hl => isText_ascii fun c hc => by
    simpa using List.all_eq_true.mp hl c hc
  have hk : ∀ k : Nixf.DK, IsText k.sname ∧ k.sname ≠ [] := by
    intro k
    exact ⟨ascii (by cases k <;> decide +kernel), by cases k <;> decide +kernel⟩
  have hn : ∀ k : Nixf.NK, IsText k.sname ∧ k.sname ≠ [] := by
    intro k
    exact ⟨ascii (by cases k <;> decide +kernel), by cases k <;> decide +kernel⟩
  have hm : ∀ (m : Fmt) (t : Bytes), (∃ s, m = .ok s ∧ IsText s) → IsText t → ∃ s, Server.Fmt.append m t = .ok s ∧ IsText s := by
    rintro _ t ⟨s, rfl, hs⟩ ht
    exact ⟨_, rfl, isText_append hs ht⟩
  induction ds with
  | nil => simp [Server.buildDiags]
  | cons d ds ih =>
    obtain ⟨h1, h2⟩ := h d (by simp)
    have ih := ih fun d hd => h d (by simp [hd])
    intro x hx
    rw [Server.buildDiags] at hx
    split at hx
    · exact ih x hx
    · simp only [List.cons_append, List.mem_cons, List.mem_append, List.mem_map] at hx
      rcases hx with rfl | ⟨n, hn', rfl⟩ | hx
      · refine ⟨⟨?_, (hk _).1, (hk _).2, ?_⟩, ?_⟩
        · simp only [Server.mainDiag]
          split
          · exact h1
          · split
            · exact hm _ _ h1 (ascii (by decide +kernel))
            · exact hm _ _ h1 (isText_append (isText_append (ascii (by decide +kernel)) (isText_ascii (natDigits_ascii _))) (ascii (by decide +kernel)))
        · intro r hr
          obtain ⟨n, hn, rfl⟩ := List.mem_map.mp hr
          exact h2 n hn
        · simp only [Server.mainDiag, Server.getLSPSeverity]
          split <;> decide
      · refine ⟨⟨h2 n hn', (hn _).1, (hn _).2, ?_⟩, by simp [Server.noteDiag], by simp [Server.noteDiag]⟩
        intro r hr
        obtain rfl := List.mem_singleton.mp hr
        exact ⟨_, rfl, ascii (by decide +kernel)⟩
      · exact ih x hx

/-- **C90**: a diagnostic that comes back, with its members in any order and with others, is understood. -/
theorem C90_back {file : Bytes} (hu : HasUri file) {d : LDiag} (h : DiagOk d) (hs : d.severity < 2 ^ 31) {fs : List (Bytes × Json)}
    (hfs : ∀ k ∈ [b!"range", b!"message", b!"severity", b!"code", b!"source"], ∀ v, (∃ gs, encodeDiag fix file d = .obj gs ∧ gs.lookup k = some v) →
      fs.lookup k = some v) (hc : fs.lookup b!"category" = none) :
    ∃ m, d.message = .ok m ∧ decodeDiag (.obj fs) {} = some ⟨(d.range.start, d.range.stop), m, d.severity, none, d.code, b!"nixf"⟩ := by
  obtain ⟨m, hm, -⟩ := h.message
  refine ⟨m, hm, (known_iff _ _).mpr ?_⟩
  have hd := diag_is hf hu h
  have key : ∀ {α : Type} {k : Bytes} {P : Json → α → Prop} {a : α}, k ∈ [b!"range", b!"message", b!"severity", b!"code", b!"source"] →
      Has (members (diagFields fix file d)) k P a → Has fs k P a := by
    rintro α k P a hk ⟨v, hv, hP⟩
    exact ⟨v, hfs k hk v ⟨_, rfl, hv⟩, hP⟩
  obtain ⟨v, hv, s, hs', hstr⟩ := key (by simp) hd.message
  rw [hm] at hs'
  cases hs'
  obtain ⟨w, hw, hn⟩ := key (by simp) hd.severity
  refine ⟨fs, rfl, key (by simp) hd.range, ⟨v, hv, hstr⟩, .inr ⟨w, hw, _, hn, ?_, ?_, ?_⟩, .inl hc, .inr (key (by simp) hd.code),
    .inr (key (by simp) hd.source)⟩
  · simp
  · show -2 ^ 31 ≤ (d.severity : Int)
    omega
  · show (d.severity : Int) < 2 ^ 31
    omega

/-- **C90**, hover. -/
theorem C90_hover {h : Bytes × LRange} (ht : IsText h.1) (hn : h.1 ≠ []) : IsHover (encodeHover fix h) h := by
  refine ⟨_, rfl, ⟨_, rfl, ?_⟩, ⟨_, rfl, range_is _⟩⟩
  rw [CompletionMessages.encodeMarkup, if_neg hn, encodeString_is hf ht]
  exact ⟨_, rfl, ⟨_, rfl, rfl⟩, ⟨_, rfl, rfl⟩⟩

omit hf in
/-- **C90**: a hover has a text. -/
theorem C90_hover_text {src : Bytes} {vl : Nixf.VL} {m : Nixf.PMap} {fuel : Nat} {w : Nixf.Inspect.Workers} {n : Nixf.Node} {h : Bytes × LRange}
    (hh : Nixf.Inspect.hoverNode src vl m fuel w n = .ok (some h)) : h.1 ≠ [] := by
  have h1 : ∀ worker sel t, Nixf.Inspect.hoverSelector worker sel = some t → t ≠ [] := by
    intro worker sel t ht
    unfold Nixf.Inspect.hoverSelector at ht
    split at ht
    · cases ht
    · rename_i i _
      by_cases he : (Nixf.Inspect.infoText i).isEmpty = true
      · rw [if_pos he] at ht; cases ht
      · rw [if_neg he] at ht
        cases ht
        simpa using he
  have h2 : ∀ sel worker t, Nixf.Inspect.hoverIdiom sel worker = .ok (some t) → t ≠ [] := by
    intro sel worker t ht
    unfold Nixf.Inspect.hoverIdiom at ht
    split at ht <;> try (cases ht; done)
    injection ht with ht
    exact h1 _ _ _ ht
  have h3 : ∀ sel options t, Nixf.Inspect.hoverOptions sel options = some t → t ≠ [] := by
    intro sel options t ht
    obtain ⟨o, -, ho⟩ := List.exists_of_findSome?_eq_some ht
    split at ho
    · cases ho
    · obtain ⟨i, -, rfl⟩ := Option.map_eq_some_iff.mp ho
      unfold Nixf.Inspect.optionText
      split <;> simp
  unfold Nixf.Inspect.hoverNode at hh
  simp only at hh
  split at hh <;> try (cases hh; done)
  split at hh <;> try (cases hh; done)
  split at hh
  · split at hh <;> try (cases hh; done)
    rename_i t ht
    cases t with
    | none => cases hh
    | some t => cases hh; exact h2 _ _ _ ht
  · split at hh <;> try (cases hh; done)
    rename_i t ht
    cases t with
    | none => cases hh
    | some t => cases hh; exact h2 _ _ _ ht
  · split at hh <;> try (cases hh; done)
    rename_i sel hsel
    cases ht : Nixf.Inspect.hoverOptions sel w.options with
    | none => rw [ht] at hh; cases hh
    | some t => rw [ht] at hh; cases hh; exact h3 _ _ _ ht
  · cases hh

omit hf in
/-- **C90**, highlights. -/
theorem C90_highlight (h : LRange × HighlightKind) : IsHighlight (encodeHighlight h) h := by
  obtain ⟨r, k⟩ := h
  cases k <;> exact ⟨_, rfl, ⟨_, rfl, range_is _⟩, ⟨_, rfl, _, rfl⟩⟩

/-- **C90**, links. -/
theorem C90_link {l : Nixf.Links.Link} (h : HasUri l.target) : IsLink (encodeLink fix l) l :=
  ⟨_, rfl, ⟨_, rfl, range_is _⟩, ⟨_, rfl, uri_is hf h⟩⟩

/-- **C90**, hints. -/
theorem C90_hint {h : Nixf.Inspect.Hint} (ht : IsText h.label) : IsHint (encodeHint fix h) h :=
  ⟨_, rfl, ⟨_, rfl, encodePos_is _⟩, ⟨_, rfl, encodeString_is hf ht⟩, rfl⟩

omit hf in
/-- **C90**, semantic tokens. -/
theorem C90_tokens (fix : Bytes → Bytes) (ts : List Nixf.SemanticTokens.Rel) : IsTokens (encodeTokens fix ts) ts := by
  refine ⟨_, (Nixf.SemanticTokens.flat ts).map Int.ofNat, rfl, ⟨_, rfl, _, rfl, ?_⟩, ?_, ?_⟩
  · generalize Nixf.SemanticTokens.flat ts = l
    induction l with
    | nil => exact .nil
    | cons a l ih => exact .cons ⟨_, rfl⟩ ih
  · induction ts with
    | nil => rfl
    | cons t ts ih =>
      simp only [Nixf.SemanticTokens.flat, List.length_map, List.flatMap_cons, List.length_append, List.length_cons, List.length_nil] at ih ⊢
      omega
  · induction ts with
    | nil => intro i h; cases h
    | cons t ts ih =>
      intro i h
      cases i with
      | zero => simp [Nixf.SemanticTokens.flat]
      | succ i =>
        have h' : i < ts.length := by simpa using h
        have := ih i h'
        have e : ∀ j, ((Nixf.SemanticTokens.flat (t :: ts)).map Int.ofNat)[j + 5]? = ((Nixf.SemanticTokens.flat ts).map Int.ofNat)[j]? := by
          intro j
          simp [Nixf.SemanticTokens.flat]
        have e0 : 5 * (i + 1) = 5 * i + 5 := by omega
        rw [e0, e, show 5 * i + 5 + 1 = 5 * i + 1 + 5 by omega, e, show 5 * i + 5 + 2 = 5 * i + 2 + 5 by omega, e,
          show 5 * i + 5 + 3 = 5 * i + 3 + 5 by omega, e, show 5 * i + 5 + 4 = 5 * i + 4 + 5 by omega, e]
        simpa using this

mutual
theorem symbol_is : ∀ {s : Symbol}, SymbolOk s → IsSymbol (encodeSymbol fix s) s
  | .mk name detail kind deprecated range selection children, h => by
    obtain ⟨h1, h2, h3⟩ : IsText name ∧ IsText detail ∧ ∀ c ∈ children, SymbolOk c := by cases h; exact ⟨‹_›, ‹_›, ‹_›⟩
    have hl := fun k => lookup_members [(b!"name", some (encodeString fix name)), (b!"kind", some (encodeInt (symbolNumber kind))),
      (b!"range", some (encodeLRange range)), (b!"selectionRange", some (encodeLRange selection)),
      (b!"detail", unlessEmpty fix detail),
      (b!"children", if children.isEmpty then none else some (.arr (encodeSymbols fix children))),
      (b!"deprecated", if deprecated then some (.bool true) else none)] k (by simp only [List.map]; decide +kernel)
    unfold encodeSymbol
    refine .mk (vs := encodeSymbols fix children) ⟨_, by rw [hl]; rfl, encodeString_is hf h1⟩ ?_ ⟨_, by rw [hl]; rfl, ?_⟩ ?_
      ⟨_, by rw [hl]; rfl, range_is _⟩ ⟨_, by rw [hl]; rfl, range_is _⟩ ?_ (symbols_is h3)
    · by_cases hd : detail = []
      · exact .inl ⟨hd, by rw [hl]; simp [List.lookup, unlessEmpty, hd]⟩
      · exact .inr ⟨encodeString fix detail, by rw [hl]; simp [List.lookup, unlessEmpty, hd], encodeString_is hf h2⟩
    · cases kind <;> exact ⟨_, rfl⟩
    · cases deprecated with
      | true => exact ⟨.bool true, by rw [hl]; rfl, rfl⟩
      | false => rw [if_neg (by simp), hl]; rfl
    · rw [hl]
      cases children with
      | nil => simp [List.lookup, encodeSymbols]
      | cons c cs => simp [List.lookup, encodeSymbols]
theorem symbols_is : ∀ {l : List Symbol}, (∀ c ∈ l, SymbolOk c) → List.Forall₂ IsSymbol (encodeSymbols fix l) l
  | [], _ => by unfold encodeSymbols; exact .nil
  | s :: l, h => by
    unfold encodeSymbols
    exact .cons (symbol_is (h s (by simp))) (symbols_is fun c hc => h c (by simp [hc]))
end

/-- **C90**, symbols. -/
theorem C90_symbols {l : List Symbol} (h : ∀ c ∈ l, SymbolOk c) : List.Forall₂ IsSymbol (encodeSymbols fix l) l := symbols_is hf h

/-- **C90**, folding ranges. -/
theorem C90_fold {s : Nixf.Folding.Sent} (hk : ∀ k ∈ s.kind, IsText k) : IsFold (encodeFold fix s) s := by
  have hl := fun k => lookup_members [(b!"startLine", some (encodeInt s.startLine)), (b!"endLine", some (encodeInt s.endLine)),
    (b!"startCharacter", s.startCharacter.map fun n => encodeInt (Int.ofNat n)), (b!"endCharacter", s.endCharacter.map fun n => encodeInt (Int.ofNat n)),
    (b!"kind", s.kind.map (encodeString fix))] k (by simp only [List.map]; decide +kernel)
  refine ⟨_, rfl, ⟨_, by rw [hl]; rfl, _, rfl⟩, ⟨_, by rw [hl]; rfl, _, rfl⟩, ?_, ?_, ?_⟩
  · exact opt_is (o := s.startCharacter) (enc := fun n => encodeInt (Int.ofNat n)) (by rw [hl]; rfl) fun n _ => ⟨_, rfl⟩
  · exact opt_is (o := s.endCharacter) (enc := fun n => encodeInt (Int.ofNat n)) (by rw [hl]; rfl) fun n _ => ⟨_, rfl⟩
  · have := opt_is (k := b!"kind") (P := IsStr) (g := id) (by rw [hl]; rfl : _ = s.kind.map (encodeString fix)) fun k hk' => encodeString_is hf (hk k hk')
    simpa using this

/-- **C90**, definitions: nothing, a location, or a list of locations, which are those that were found. -/
theorem C90_definition {ls : List Nixf.Inspect.Loc} (h : ∀ l ∈ ls, HasUri l.file) :
    (ls = [] ∧ encodeDefinition fix (Nixf.Inspect.squash ls) = .null) ∨
    (∃ l, ls = [l] ∧ IsLoc (encodeDefinition fix (Nixf.Inspect.squash ls)) (l.file, l.range)) ∨
    IsList IsLoc (encodeDefinition fix (Nixf.Inspect.squash ls)) (ls.map fun l => (l.file, l.range)) := by
  match ls, h with
  | [], _ => exact .inl ⟨rfl, rfl⟩
  | [l], h => exact .inr (.inl ⟨l, rfl, loc_is hf (h l (by simp)) _⟩)
  | a :: b :: ls, h =>
    refine .inr (.inr ⟨_, rfl, ?_⟩)
    generalize a :: b :: ls = ls at h
    induction ls with
    | nil => exact .nil
    | cons l ls ih => exact .cons (loc_is hf (h l (by simp)) _) (ih fun l hl => h l (by simp [hl]))

/-- **C90**, references. -/
theorem C90_references {file : Bytes} (h : HasUri file) (rs : List LRange) :
    IsList IsLoc (encodeList (encodeLoc fix file) rs) (rs.map (file, ·)) := by
  refine ⟨_, rfl, ?_⟩
  induction rs with
  | nil => exact .nil
  | cons r rs ih => exact .cons (loc_is hf h r) ih

/-- **C90**, the edits of a rename: they are for the document that was asked about. -/
theorem C90_renamed {file : Bytes} (h : HasUri file) {edits : List (LRange × Bytes)} (he : ∀ e ∈ edits, IsText e.2) :
    ∃ uri, URI.fileOfURI uri = some file ∧ IsChanges (encodeRenamed fix file edits) (uri, edits) := by
  obtain ⟨s, h1, h2⟩ := C08_file_roundtrip_partial file h.abs h.noBackslash h.noDrive
  have ht : IsText s := by
    apply isText_ascii
    obtain ⟨u, -, hu⟩ := Option.map_eq_some_iff.mp h1
    exact hu ▸ toString_ascii u
  refine ⟨s, h2, ?_⟩
  rw [encodeRenamed, h1]
  exact changes_is hf ht he
end

/-- **C90**: the name of a symbol must not be a string of white space, but that of a string or of an attribute can be one. -/
theorem C90_name_violated : outlineOf b!"\" \"" = [(0, b!" ")] ∧ outlineOf b!"{ \" \" = 1; }" = [(0, b!" "), (1, b!"1")] :=
  ⟨by decide +kernel, by decide +kernel⟩

/-! ### Examples -/

example : ∃ p : Publish, HasUri p.file ∧ p.diags ≠ [] ∧ ∀ d ∈ p.diags, DiagOk d := by
  let note : Nixf.Note := { kind := .prevDeclared, range := ⟨⟨0, 2, 2⟩, ⟨0, 3, 3⟩⟩, args := [b!"a"] }
  let diag : Nixf.Diagnostic := { kind := .duplicatedAttrName, range := ⟨⟨0, 9, 9⟩, ⟨0, 10, 10⟩⟩, args := [b!"a"], notes := [note] }
  refine ⟨⟨b!"/a.nix", some 3, Server.buildDiags [] b!"{ a = 1; a = 2; }" [diag]⟩,
    ⟨by decide +kernel, by decide, by intro x r h; simp at h⟩, by decide +kernel, fun d hd => (C90_built ?_ d hd).1⟩
  intro d hd
  obtain rfl := List.mem_singleton.mp hd
  refine ⟨⟨_, rfl, isText_ascii (by decide +kernel)⟩, fun n hn => ?_⟩
  obtain rfl := List.mem_singleton.mp hn
  exact ⟨_, rfl, isText_ascii (by decide +kernel)⟩

/-- A request for completions, as it is sent by an editor. -/
example : query b!"textDocument/completion" (.obj [(b!"position", encodePos ⟨1, 2⟩),
    (b!"textDocument", .obj [(b!"uri", .str b!"file:///a%20b.nix")]), (b!"context", .obj [(b!"triggerKind", encodeInt 1)])]) =
    some (.place b!"/a b.nix" ⟨1, 2⟩) := by decide +kernel

/-- A request for actions with a diagnostic of another server. -/
example : query b!"textDocument/codeAction" (.obj [(b!"textDocument", .obj [(b!"uri", .str b!"file:///a.nix")]),
    (b!"range", encodeRng ⟨0, 0⟩ ⟨0, 1⟩), (b!"context", .obj [(b!"diagnostics", .arr [.obj [(b!"range", encodeRng ⟨0, 0⟩ ⟨0, 1⟩),
      (b!"message", .str b!"m"), (b!"code", .str b!"W1")]])])]) =
    some (.action b!"/a.nix" (⟨0, 0⟩, ⟨0, 1⟩) [⟨(⟨0, 0⟩, ⟨0, 1⟩), b!"m", 0, none, b!"W1", []⟩]) := by decide +kernel

example : encodeTokens id [⟨0, 1, 2, 3, 4⟩] = .obj [(b!"resultId", .str []), (b!"data", .arr [encodeInt 0, encodeInt 1, encodeInt 2, encodeInt 3,
    encodeInt 4])] := rfl

example : SymbolOk (.mk b!"a" b!"attribute" .field false ⟨⟨0, 0⟩, ⟨0, 1⟩⟩ ⟨⟨0, 0⟩, ⟨0, 1⟩⟩ []) :=
  .mk (isText_ascii (by decide +kernel)) (isText_ascii (by decide +kernel)) (by simp)

end Verif.Props
