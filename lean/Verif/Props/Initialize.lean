import Verif.Model.Initialize
import Verif.Props.Session
import Verif.Props.Config
import Verif.Props.Replies
import Verif.Props.Completion
/-
**C91**: the server knows what the editor has said about itself in `initialize`. The specification looks up the members of
the JSON value by the names of the Language Server Protocol 3.17.
-/
namespace Verif.Props
namespace Init
open Verif.Rpc (Json)
open Verif.Initialize

/-- The value that a path of names leads to. -/
def At (j : Json) : List Bytes → Option Json
  | [] => some j
  | k :: ks => (j.get k).bind (At · ks)

/-- The value is `true`. -/
def Yes (j : Json) (path : List Bytes) : Prop := At j path = some (.bool true)

/-- The value is an object. -/
def Obj (j : Json) (path : List Bytes) : Prop := ∃ fs, At j path = some (.obj fs)

/-- There is no value, or it is an array, as the protocol says. -/
def ArrayIfAny (j : Json) (path : List Bytes) : Prop := ∀ v, At j path = some v → ∃ l, v = .arr l

/-- The first known format of an array is Markdown. -/
def MarkdownFirst (j : Json) (path : List Bytes) : Prop :=
  ∃ a b, At j path = some (.arr (a ++ .str b!"markdown" :: b)) ∧ .str b!"plaintext" ∉ a

/-- Where the kinds of completion items are that the editor knows. -/
def itemKinds : List Bytes := [b!"textDocument", b!"completion", b!"completionItemKind", b!"valueSet"]

/-- Where the kinds of symbols are. -/
def symbolKinds : List Bytes := [b!"workspace", b!"symbol", b!"symbolKind", b!"valueSet"]

/-! ### Lemmas -/

theorem at_cons (j : Json) (k : Bytes) {ks : List Bytes} (h : ks ≠ []) : At j (k :: ks) = (getObject j k).bind (At · ks) := by
  obtain ⟨k', ks, rfl⟩ := List.exists_cons_of_ne_nil h
  simp only [At, getObject]
  rcases hj : j.get k with _ | v
  · rfl
  · cases v <;> simp [Rpc.Json.get]

theorem inner_get : ∀ (os : List Bytes) (j : Json) (k : Bytes), (inner j os).bind (·.get k) = At j (os ++ [k])
  | [], j, k => by simp only [inner, Option.bind_some, List.nil_append, At]; cases j.get k <;> rfl
  | o :: os, j, k => by
    rw [List.cons_append, at_cons j o (by simp)]
    simp only [inner, Option.bind_assoc]
    congr 1; funext x; exact inner_get os x k

theorem setBool_iff {j : Json} {os : List Bytes} {k : Bytes} : setBool j os k false = true ↔ Yes j (os ++ [k]) := by
  unfold setBool Yes
  rw [inner_get]
  rcases At j (os ++ [k]) with _ | v
  · simp
  · cases v <;> simp

theorem inner_obj : ∀ (os : List Bytes) (o : Bytes) (j : Json), (inner j (os ++ [o])).isSome = true ↔ Obj j (os ++ [o])
  | [], o, j => by
    simp only [List.nil_append, inner, Obj, At, getObject]
    rcases j.get o with _ | v
    · simp
    · cases v <;> simp
  | k :: os, o, j => by
    simp only [List.cons_append, inner, Obj]
    rw [at_cons j k (by simp)]
    cases getObject j k with
    | none => simp
    | some x => simpa [Obj] using inner_obj os o x

theorem setTrue_iff {j : Json} {os : List Bytes} (h : os ≠ []) : setTrue j os false = true ↔ Obj j os := by
  obtain ⟨l, o, rfl⟩ := List.eq_nil_or_concat os |>.resolve_left h
  simp only [setTrue, Bool.or_false, List.concat_eq_append]
  exact inner_obj l o j

theorem firstFormat_iff : ∀ l : List Json, firstFormat false l = true ↔
    ∃ a b, l = a ++ .str b!"markdown" :: b ∧ .str b!"plaintext" ∉ a
  | [] => by simp [firstFormat]
  | j :: l => by
    simp only [firstFormat]
    have key : ∀ s, j = .str s → s = b!"plaintext" ∨ s = b!"markdown" ∨ (s ≠ b!"plaintext" ∧ s ≠ b!"markdown") := fun s _ => by
      by_cases h1 : s = b!"plaintext"
      · exact .inl h1
      · by_cases h2 : s = b!"markdown"
        · exact .inr (.inl h2)
        · exact .inr (.inr ⟨h1, h2⟩)
    have rec_ : (∀ s, j = .str s → s ≠ b!"plaintext" ∧ s ≠ b!"markdown") →
        ((∃ a b, j :: l = a ++ .str b!"markdown" :: b ∧ .str b!"plaintext" ∉ a) ↔
          ∃ a b, l = a ++ .str b!"markdown" :: b ∧ .str b!"plaintext" ∉ a) := fun h => by
      constructor
      · rintro ⟨a, b, e, hn⟩
        cases a with
        | nil => injection e with e1 _; exact absurd rfl (h _ e1).2
        | cons x a => injection e with e1 e2; exact ⟨a, b, e2, fun hm => hn (List.mem_cons_of_mem _ hm)⟩
      · rintro ⟨a, b, e, hn⟩
        refine ⟨j :: a, b, by rw [e]; rfl, fun hm => ?_⟩
        rcases List.mem_cons.mp hm with e' | hm
        · exact (h _ e'.symm).1 rfl
        · exact hn hm
    have ih := firstFormat_iff l
    cases j with
    | str s =>
      rcases key s rfl with rfl | rfl | ⟨h1, h2⟩
      · simp only [decodeFormat, if_true]
        constructor
        · intro h; cases h
        · rintro ⟨a, b, e, hn⟩
          cases a with
          | nil => injection e with e1 _; injection e1 with e1; exact absurd e1 (by decide)
          | cons x a => injection e with e1 _; exact absurd (by rw [e1]; exact List.mem_cons_self ..) hn
      · have e : b!"markdown" ≠ b!"plaintext" := by decide
        simp only [decodeFormat, if_neg e, if_true]
        exact iff_of_true trivial ⟨[], l, rfl, by simp⟩
      · simp only [decodeFormat, if_neg h1, if_neg h2]
        rw [ih, rec_ (by rintro s ⟨⟩; exact ⟨h1, h2⟩)]
    | null => simp only [decodeFormat]; rw [ih, rec_ (by rintro s ⟨⟩)]
    | bool b => simp only [decodeFormat]; rw [ih, rec_ (by rintro s ⟨⟩)]
    | num t i => simp only [decodeFormat]; rw [ih, rec_ (by rintro s ⟨⟩)]
    | arr l' => simp only [decodeFormat]; rw [ih, rec_ (by rintro s ⟨⟩)]
    | obj fs => simp only [decodeFormat]; rw [ih, rec_ (by rintro s ⟨⟩)]

theorem setFormat_iff {j : Json} {os : List Bytes} {k : Bytes} : setFormat j os k false = true ↔ MarkdownFirst j (os ++ [k]) := by
  unfold setFormat MarkdownFirst
  rw [inner_get]
  rcases At j (os ++ [k]) with _ | v
  · simp
  · cases v <;> simp [firstFormat_iff]

/-- One object further in. -/
theorem setBool_cons (j : Json) (o : Bytes) (os : List Bytes) (k : Bytes) (r : Bool) :
    setBool j (o :: os) k r = ((getObject j o).map (setBool · os k r)).getD r := by
  unfold setBool
  simp only [inner]
  cases getObject j o <;> rfl

theorem setTrue_cons (j : Json) (o : Bytes) (os : List Bytes) (r : Bool) :
    setTrue j (o :: os) r = ((getObject j o).map (setTrue · os r)).getD r := by
  unfold setTrue
  simp only [inner]
  cases getObject j o <;> simp

theorem setFormat_cons (j : Json) (o : Bytes) (os : List Bytes) (k : Bytes) (r : Bool) :
    setFormat j (o :: os) k r = ((getObject j o).map (setFormat · os k r)).getD r := by
  unfold setFormat
  simp only [inner]
  cases getObject j o <;> rfl

theorem decodeKinds_isSome (m : Int) (v : Json) : (decodeKinds m v).isSome = true ↔ ∃ l, v = .arr l := by
  cases v <;> simp [decodeKinds]

theorem completion_ok (t : Json) (r : Caps) : (decodeCompletion t r).2 = true ↔
    ArrayIfAny t [b!"completion", b!"completionItemKind", b!"valueSet"] := by
  have e := inner_get [b!"completion", b!"completionItemKind"] t b!"valueSet"
  simp only [List.cons_append, List.nil_append] at e
  simp only [ArrayIfAny, ← e, decodeCompletion]
  rcases (inner t [b!"completion", b!"completionItemKind"]).bind (·.get b!"valueSet") with _ | v
  · simp
  · have := decodeKinds_isSome 25 v
    cases h : decodeKinds 25 v <;> simp_all

theorem text_ok (j : Json) (r : Caps) : (decodeTextDocument j r).2 = true ↔ ArrayIfAny j itemKinds := by
  simp only [decodeTextDocument, ArrayIfAny, itemKinds]
  rw [at_cons j _ (by simp)]
  cases getObject j b!"textDocument" with
  | none => simp
  | some t =>
    have := completion_ok t (decodeFirst t r)
    simp only [ArrayIfAny] at this
    simp only [Option.bind_some, ← this]
    rcases decodeCompletion t (decodeFirst t r) with ⟨a, b⟩
    cases b <;> simp

theorem work_ok (j : Json) (r : Caps) : (decodeWorkspace j r).2 = true ↔ ArrayIfAny j symbolKinds := by
  simp only [decodeWorkspace, ArrayIfAny, symbolKinds]
  rw [at_cons j _ (by simp)]
  cases getObject j b!"workspace" with
  | none => simp
  | some w =>
    have e := inner_get [b!"symbol", b!"symbolKind"] w b!"valueSet"
    simp only [List.cons_append, List.nil_append] at e
    simp only [Option.bind_some, ← e]
    rcases (inner w [b!"symbol", b!"symbolKind"]).bind (·.get b!"valueSet") with _ | v
    · simp
    · have := decodeKinds_isSome 26 v
      cases h : decodeKinds 26 v <;> simp_all

/-- The cases of `textDocument`. -/
theorem text_cases (c : Json) (r : Caps) :
    (decodeTextDocument c r).1 = r ∧ getObject c b!"textDocument" = none ∧ (decodeTextDocument c r).2 = true ∨
    ∃ t k, getObject c b!"textDocument" = some t ∧
      ((decodeTextDocument c r).2 = true ∧ (decodeTextDocument c r).1 = decodeLast t { decodeFirst t r with
          completionSnippets := setBool t [b!"completion", b!"completionItem"] b!"snippetSupport" r.completionSnippets,
          completionMarkdown := setFormat t [b!"completion", b!"completionItem"] b!"documentationFormat" r.completionMarkdown,
          completionItemKinds := k,
          completionFixes := setBool t [b!"completion"] b!"editsNearCursor" r.completionFixes } ∨
       (decodeTextDocument c r).2 = false ∧ (decodeTextDocument c r).1 = { decodeFirst t r with
          completionSnippets := setBool t [b!"completion", b!"completionItem"] b!"snippetSupport" r.completionSnippets,
          completionMarkdown := setFormat t [b!"completion", b!"completionItem"] b!"documentationFormat" r.completionMarkdown,
          completionItemKinds := k }) := by
  simp only [decodeTextDocument]
  rcases getObject c b!"textDocument" with _ | t
  · exact .inl ⟨rfl, rfl, rfl⟩
  · right
    simp only [decodeCompletion]
    rcases (inner t [b!"completion", b!"completionItemKind"]).bind (·.get b!"valueSet") with _ | v
    · exact ⟨t, r.completionItemKinds, rfl, .inl ⟨rfl, rfl⟩⟩
    · dsimp only
      generalize decodeKinds 25 v = o
      rcases o with _ | l
      · exact ⟨t, some [], rfl, .inr ⟨rfl, rfl⟩⟩
      · exact ⟨t, some l, rfl, .inl ⟨rfl, rfl⟩⟩

/-- The cases of `workspace`. -/
theorem work_cases (c : Json) (r : Caps) :
    (decodeWorkspace c r).1 = r ∧ getObject c b!"workspace" = none ∧ (decodeWorkspace c r).2 = true ∨
    ∃ w k, getObject c b!"workspace" = some w ∧
      ((decodeWorkspace c r).2 = true ∧ (decodeWorkspace c r).1 = decodeWorkspaceRest w { r with workspaceSymbolKinds := k } ∨
       (decodeWorkspace c r).2 = false ∧ (decodeWorkspace c r).1 = { r with workspaceSymbolKinds := k }) := by
  simp only [decodeWorkspace]
  rcases getObject c b!"workspace" with _ | w
  · exact .inl ⟨rfl, rfl, rfl⟩
  · right
    dsimp only
    rcases (inner w [b!"symbol", b!"symbolKind"]).bind (·.get b!"valueSet") with _ | v
    · exact ⟨w, r.workspaceSymbolKinds, rfl, .inl ⟨rfl, rfl⟩⟩
    · dsimp only
      generalize decodeKinds 26 v = o
      rcases o with _ | l
      · exact ⟨w, some [], rfl, .inr ⟨rfl, rfl⟩⟩
      · exact ⟨w, some l, rfl, .inl ⟨rfl, rfl⟩⟩

/-- A value inside an object that does not exist or inside another value. -/
theorem setBool_none {c : Json} {o : Bytes} (h : getObject c o = none) (os : List Bytes) (k : Bytes) (r : Bool) :
    setBool c (o :: os) k r = r := by rw [setBool_cons, h]; rfl

theorem setBool_some {c t : Json} {o : Bytes} (h : getObject c o = some t) (os : List Bytes) (k : Bytes) (r : Bool) :
    setBool c (o :: os) k r = setBool t os k r := by rw [setBool_cons, h]; rfl

theorem setTrue_none {c : Json} {o : Bytes} (h : getObject c o = none) (os : List Bytes) (r : Bool) :
    setTrue c (o :: os) r = r := by rw [setTrue_cons, h]; rfl

theorem setTrue_some {c t : Json} {o : Bytes} (h : getObject c o = some t) (os : List Bytes) (r : Bool) :
    setTrue c (o :: os) r = setTrue t os r := by rw [setTrue_cons, h]; rfl

theorem setFormat_none {c : Json} {o : Bytes} (h : getObject c o = none) (os : List Bytes) (k : Bytes) (r : Bool) :
    setFormat c (o :: os) k r = r := by rw [setFormat_cons, h]; rfl

theorem setFormat_some {c t : Json} {o : Bytes} (h : getObject c o = some t) (os : List Bytes) (k : Bytes) (r : Bool) :
    setFormat c (o :: os) k r = setFormat t os k r := by rw [setFormat_cons, h]; rfl

/-- What is known before the kinds of completion items are read. -/
def early : List ((Caps → Bool) × List Bytes × Bytes) :=
  [(Caps.theiaSemanticHighlighting, [b!"textDocument", b!"semanticHighlightingCapabilities"], b!"semanticHighlighting"),
    (Caps.inactiveRegions, [b!"textDocument", b!"inactiveRegionsCapabilities"], b!"inactiveRegions"),
    (Caps.diagnosticCategory, [b!"textDocument", b!"publishDiagnostics"], b!"categorySupport"),
    (Caps.diagnosticFixes, [b!"textDocument", b!"publishDiagnostics"], b!"codeActionsInline"),
    (Caps.diagnosticRelatedInformation, [b!"textDocument", b!"publishDiagnostics"], b!"relatedInformation"),
    (Caps.referenceContainer, [b!"textDocument", b!"references"], b!"container"),
    (Caps.completionSnippets, [b!"textDocument", b!"completion", b!"completionItem"], b!"snippetSupport")]

/-- What is known after the kinds of completion items, before the kinds of symbols. -/
def middle : List ((Caps → Bool) × List Bytes × Bytes) :=
  [(Caps.completionFixes, [b!"textDocument", b!"completion"], b!"editsNearCursor"),
    (Caps.hierarchicalDocumentSymbol, [b!"textDocument", b!"documentSymbol"], b!"hierarchicalDocumentSymbolSupport"),
    (Caps.offsetsInSignatureHelp,
      [b!"textDocument", b!"signatureHelp", b!"signatureInformation", b!"parameterInformation"], b!"labelOffsetSupport"),
    (Caps.lineFoldingOnly, [b!"textDocument", b!"foldingRange"], b!"lineFoldingOnly"),
    (Caps.renamePrepareSupport, [b!"textDocument", b!"rename"], b!"prepareSupport")]

/-- What is known after the kinds of symbols. -/
def late : List ((Caps → Bool) × List Bytes × Bytes) :=
  [(Caps.workspaceConfiguration, [b!"workspace"], b!"configuration"),
    (Caps.semanticTokenRefreshSupport, [b!"workspace", b!"semanticTokens"], b!"refreshSupport"),
    (Caps.documentChanges, [b!"workspace", b!"workspaceEdit"], b!"documentChanges"),
    (Caps.workDoneProgress, [b!"window"], b!"workDoneProgress"),
    (Caps.implicitProgressCreation, [b!"window"], b!"implicitWorkDoneProgressCreate"),
    (Caps.cancelsStaleRequests, [b!"general", b!"staleRequestSupport"], b!"cancel")]

/-- The members that say something if they are objects: before, between and after the kinds. -/
def objects : List ((Caps → Bool) × List Bytes) × List ((Caps → Bool) × List Bytes) × List ((Caps → Bool) × List Bytes) :=
  ([(Caps.semanticTokens, [b!"textDocument", b!"semanticTokens"])],
    [(Caps.codeActionStructure, [b!"textDocument", b!"codeAction", b!"codeActionLiteralSupport"]),
      (Caps.hasSignatureHelp, [b!"textDocument", b!"signatureHelp"])],
    [(Caps.changeAnnotation, [b!"workspace", b!"workspaceEdit", b!"changeAnnotationSupport"])])

/-- The formats: before and between the kinds. -/
def formats : List ((Caps → Bool) × List Bytes × Bytes) × List ((Caps → Bool) × List Bytes × Bytes) :=
  ([(Caps.completionMarkdown, [b!"textDocument", b!"completion", b!"completionItem"], b!"documentationFormat")],
    [(Caps.hoverMarkdown, [b!"textDocument", b!"hover"], b!"contentFormat"),
      (Caps.signatureHelpMarkdown, [b!"textDocument", b!"signatureHelp", b!"signatureInformation"], b!"documentationFormat")])

/-- The fields after decoding, with the gates. -/
theorem caps_cases (c : Json) (hc : Config.isObject c = true) :
    decodeCaps c {} = (decodeTextDocument c {}).1 ∧ (decodeTextDocument c {}).2 = false ∨
    (decodeTextDocument c {}).2 = true ∧
      (decodeCaps c {} = (decodeWorkspace c (decodeTextDocument c {}).1).1 ∧ (decodeWorkspace c (decodeTextDocument c {}).1).2 = false ∨
       decodeCaps c {} = decodeWindow c (decodeWorkspace c (decodeTextDocument c {}).1).1 ∧
         (decodeWorkspace c (decodeTextDocument c {}).1).2 = true) := by
  simp only [decodeCaps, hc, if_true]
  rcases decodeTextDocument c {} with ⟨r, b⟩
  cases b
  · exact .inl ⟨rfl, rfl⟩
  · right
    refine ⟨rfl, ?_⟩
    simp only
    rcases decodeWorkspace c r with ⟨r', b'⟩
    cases b'
    · exact .inl ⟨rfl, rfl⟩
    · exact .inr ⟨rfl, rfl⟩

/-- All fields. -/
theorem caps_fields (c : Json) (hc : Config.isObject c = true) :
    (∀ f ∈ early, f.1 (decodeCaps c {}) = setBool c f.2.1 f.2.2 false) ∧
    (∀ f ∈ middle, f.1 (decodeCaps c {}) = ((decodeTextDocument c {}).2 && setBool c f.2.1 f.2.2 false)) ∧
    (∀ f ∈ late, f.1 (decodeCaps c {}) = ((decodeTextDocument c {}).2 && (decodeWorkspace c (decodeTextDocument c {}).1).2 &&
      setBool c f.2.1 f.2.2 false)) ∧
    (∀ f ∈ objects.1, f.1 (decodeCaps c {}) = setTrue c f.2 false) ∧
    (∀ f ∈ objects.2.1, f.1 (decodeCaps c {}) = ((decodeTextDocument c {}).2 && setTrue c f.2 false)) ∧
    (∀ f ∈ objects.2.2, f.1 (decodeCaps c {}) = ((decodeTextDocument c {}).2 &&
      (decodeWorkspace c (decodeTextDocument c {}).1).2 && setTrue c f.2 false)) ∧
    (∀ f ∈ formats.1, f.1 (decodeCaps c {}) = setFormat c f.2.1 f.2.2 false) ∧
    (∀ f ∈ formats.2, f.1 (decodeCaps c {}) = ((decodeTextDocument c {}).2 && setFormat c f.2.1 f.2.2 false)) := by
  simp only [early, middle, late, objects, formats, List.forall_mem_cons, List.not_mem_nil, false_implies, implies_true, and_true]
  rcases caps_cases c hc with ⟨e, g⟩ | ⟨g, h⟩
  · rw [e, g]
    rcases text_cases c {} with ⟨-, -, g'⟩ | ⟨t, k, ht, ⟨g', -⟩ | ⟨-, e'⟩⟩
    · rw [g] at g'; cases g'
    · rw [g] at g'; cases g'
    · rw [e']
      simp [decodeFirst, setBool_some ht, setTrue_some ht, setFormat_some ht]
  · rw [g]
    rcases h with ⟨e, g2⟩ | ⟨e, g2⟩
    · rw [e, g2]
      rcases work_cases c (decodeTextDocument c {}).1 with ⟨-, -, g'⟩ | ⟨w, kw, hw, ⟨g', -⟩ | ⟨-, ew⟩⟩
      · rw [g2] at g'; cases g'
      · rw [g2] at g'; cases g'
      · rw [ew]
        rcases text_cases c {} with ⟨e', ht, -⟩ | ⟨t, k, ht, ⟨-, e'⟩ | ⟨g', -⟩⟩
        · rw [e']; simp [setBool_none ht, setTrue_none ht, setFormat_none ht]
        · rw [e']; simp [decodeFirst, decodeLast, setBool_some ht, setTrue_some ht, setFormat_some ht]
        · rw [g] at g'; cases g'
    · rw [e, g2]
      rcases work_cases c (decodeTextDocument c {}).1 with ⟨ew, hw, -⟩ | ⟨w, kw, hw, ⟨-, ew⟩ | ⟨g', -⟩⟩
      · rw [ew]
        rcases text_cases c {} with ⟨e', ht, -⟩ | ⟨t, k, ht, ⟨-, e'⟩ | ⟨g', -⟩⟩
        · rw [e']; simp [decodeWindow, setBool_none ht, setTrue_none ht, setFormat_none ht, setBool_none hw, setTrue_none hw]
        · rw [e']
          simp [decodeWindow, decodeFirst, decodeLast, setBool_some ht, setTrue_some ht, setFormat_some ht, setBool_none hw,
            setTrue_none hw]
        · rw [g] at g'; cases g'
      · rw [ew]
        rcases text_cases c {} with ⟨e', ht, -⟩ | ⟨t, k, ht, ⟨-, e'⟩ | ⟨g', -⟩⟩
        · rw [e']
          simp [decodeWindow, decodeWorkspaceRest, setBool_none ht, setTrue_none ht, setFormat_none ht, setBool_some hw,
            setTrue_some hw]
        · rw [e']
          simp [decodeWindow, decodeWorkspaceRest, decodeFirst, decodeLast, setBool_some ht, setTrue_some ht, setFormat_some ht,
            setBool_some hw, setTrue_some hw]
        · rw [g] at g'; cases g'
      · rw [g2] at g'; cases g'

/-- The capabilities are those of the member `capabilities`. -/
theorem init_caps {params : Json} {p : Params} (h : decodeInit params = some p) :
    (∃ c, Config.isObject c = true ∧ p.caps = decodeCaps c {} ∧ ∀ path, At params (b!"capabilities" :: path) = At c path) ∨
    (p.caps = {} ∧ ∀ path, path ≠ [] → At params (b!"capabilities" :: path) = none) := by
  simp only [decodeInit] at h
  split at h
  · injection h with h
    subst h
    rcases hc : params.get b!"capabilities" with _ | c
    · exact .inr ⟨rfl, fun path _ => by simp only [At, hc]; rfl⟩
    · cases hb : Config.isObject c with
      | true => exact .inl ⟨c, hb, rfl, fun path => by simp only [At, hc, Option.bind_some]⟩
      | false =>
        refine .inr ⟨by simp only [decodeCaps, hb]; rfl, fun path hp => ?_⟩
        obtain ⟨k, path, rfl⟩ := List.exists_cons_of_ne_nil hp
        simp only [At, hc, Option.bind_some]
        cases c <;> simp [Rpc.Json.get, Config.isObject] at hb ⊢
  · cases h

/-- Inside `capabilities`. -/
theorem arrayIfAny_caps {params c : Json} (h : ∀ path, At params (b!"capabilities" :: path) = At c path) (path : List Bytes) :
    ArrayIfAny params (b!"capabilities" :: path) ↔ ArrayIfAny c path := by simp only [ArrayIfAny, h]

theorem kinds_keep (c : Json) (r : Caps) : (decodeWorkspace c r).1.completionItemKinds = r.completionItemKinds := by
  rcases work_cases c r with ⟨e, -, -⟩ | ⟨w, k, -, ⟨-, e⟩ | ⟨-, e⟩⟩ <;> rw [e] <;> rfl

theorem itemKinds_eq (c : Json) (hc : Config.isObject c = true) : (decodeCaps c {}).completionItemKinds =
    (At c itemKinds).map fun v => (decodeKinds 25 v).getD [] := by
  have h1 : (decodeCaps c {}).completionItemKinds = (decodeTextDocument c {}).1.completionItemKinds := by
    rcases caps_cases c hc with ⟨e, -⟩ | ⟨-, ⟨e, -⟩ | ⟨e, -⟩⟩
    · rw [e]
    · rw [e, kinds_keep]
    · rw [e]; exact kinds_keep _ _
  rw [h1, itemKinds, at_cons c _ (by simp)]
  simp only [decodeTextDocument]
  rcases getObject c b!"textDocument" with _ | t
  · rfl
  · have e := inner_get [b!"completion", b!"completionItemKind"] t b!"valueSet"
    simp only [List.cons_append, List.nil_append] at e
    simp only [Option.bind_some, ← e, decodeCompletion]
    rcases (inner t [b!"completion", b!"completionItemKind"]).bind (·.get b!"valueSet") with _ | v
    · rfl
    · show _ = some ((decodeKinds 25 v).getD [])
      dsimp only
      generalize decodeKinds 25 v = o
      rcases o with _ | l <;> rfl

theorem symbolKinds_eq (c : Json) (hc : Config.isObject c = true) : (decodeCaps c {}).workspaceSymbolKinds =
    if (decodeTextDocument c {}).2 = true then (At c symbolKinds).map fun v => (decodeKinds 26 v).getD [] else none := by
  have h0 : (decodeTextDocument c {}).1.workspaceSymbolKinds = none := by
    rcases text_cases c {} with ⟨e, -, -⟩ | ⟨t, k, -, ⟨-, e⟩ | ⟨-, e⟩⟩ <;> rw [e] <;> rfl
  have h1 : ∀ r : Caps, r.workspaceSymbolKinds = none → (decodeWorkspace c r).1.workspaceSymbolKinds =
      (At c symbolKinds).map fun v => (decodeKinds 26 v).getD [] := by
    intro r hr
    rw [symbolKinds, at_cons c _ (by simp)]
    simp only [decodeWorkspace]
    rcases getObject c b!"workspace" with _ | w
    · exact hr
    · have e := inner_get [b!"symbol", b!"symbolKind"] w b!"valueSet"
      simp only [List.cons_append, List.nil_append] at e
      simp only [Option.bind_some, ← e]
      rcases (inner w [b!"symbol", b!"symbolKind"]).bind (·.get b!"valueSet") with _ | v
      · exact hr
      · show _ = some ((decodeKinds 26 v).getD [])
        dsimp only
        generalize decodeKinds 26 v = o
        rcases o with _ | l <;> rfl
  rcases caps_cases c hc with ⟨e, g⟩ | ⟨g, ⟨e, -⟩ | ⟨e, -⟩⟩
  · rw [e, g, h0]; rfl
  · rw [e, g, h1 _ h0]; rfl
  · rw [e, g, ← h1 _ h0]; rfl

theorem kinds_mem (m : Int) (l : List Json) (n : Int) : n ∈ l.filterMap (decodeKind m) ↔
    (1 ≤ n ∧ n ≤ m) ∧ ∃ t, .num t (some n) ∈ l := by
  rw [List.mem_filterMap]
  constructor
  · rintro ⟨j, hj, h⟩
    cases j <;> simp only [decodeKind, Rpc.Json.asInteger] at h
    all_goals first | cases h | skip
    rename_i t i
    rcases i with _ | i
    · cases h
    · simp only at h
      split at h
      · cases h
      · next hn => cases h; exact ⟨by omega, t, hj⟩
  · rintro ⟨h, t, hj⟩
    exact ⟨_, hj, by simp only [decodeKind, Rpc.Json.asInteger]; rw [if_neg (by omega)]⟩

end Init
open Init
open Verif.Rpc (Json)
open Verif.Initialize

/-! ### What the server knows -/

/-- **C91**: `initialize` succeeds for every object, whatever its members are. -/
theorem C91_always (params : Json) : (∃ p, decodeInit params = some p) ↔ ∃ fs, params = .obj fs := by
  cases params <;> simp [decodeInit, Config.isObject]

/-- **C91**: what the editor says in a member before `completionItemKind` is known, whatever the other members are. -/
theorem C91_early {params : Json} {p : Params} (h : decodeInit params = some p) (f : (Caps → Bool) × List Bytes × Bytes)
    (hf : f ∈ early) : f.1 p.caps = true ↔ Yes params (b!"capabilities" :: f.2.1 ++ [f.2.2]) := by
  rcases init_caps h with ⟨c, hc, e, ha⟩ | ⟨e, ha⟩
  · rw [e, (caps_fields c hc).1 f hf, setBool_iff]
    simp only [Yes, List.cons_append, ha]
  · rw [e]
    simp [Yes, ha, (by decide : ∀ f ∈ early, f.1 {} = false) f hf]

/-- **C91**: what the editor says in a member between the kinds of completion items and those of symbols is known exactly if
the kinds of completion items, if there are any, are an array. -/
theorem C91_middle {params : Json} {p : Params} (h : decodeInit params = some p) (f : (Caps → Bool) × List Bytes × Bytes)
    (hf : f ∈ middle) : f.1 p.caps = true ↔ ArrayIfAny params (b!"capabilities" :: itemKinds) ∧
      Yes params (b!"capabilities" :: f.2.1 ++ [f.2.2]) := by
  rcases init_caps h with ⟨c, hc, e, ha⟩ | ⟨e, ha⟩
  · rw [e, (caps_fields c hc).2.1 f hf, Bool.and_eq_true, setBool_iff, text_ok, arrayIfAny_caps ha]
    simp only [Yes, List.cons_append, ha]
  · rw [e]
    simp [Yes, ha, (by decide : ∀ f ∈ middle, f.1 {} = false) f hf]

/-- **C91**: what the editor says in the members after these is known exactly if the kinds of completion items and those of
symbols, if there are any, are arrays. -/
theorem C91_late {params : Json} {p : Params} (h : decodeInit params = some p) (f : (Caps → Bool) × List Bytes × Bytes)
    (hf : f ∈ late) : f.1 p.caps = true ↔ (ArrayIfAny params (b!"capabilities" :: itemKinds) ∧
      ArrayIfAny params (b!"capabilities" :: symbolKinds)) ∧ Yes params (b!"capabilities" :: f.2.1 ++ [f.2.2]) := by
  rcases init_caps h with ⟨c, hc, e, ha⟩ | ⟨e, ha⟩
  · rw [e, (caps_fields c hc).2.2.1 f hf, Bool.and_eq_true, Bool.and_eq_true, setBool_iff, text_ok, work_ok, arrayIfAny_caps ha,
      arrayIfAny_caps ha]
    simp only [Yes, List.cons_append, ha]
  · rw [e]
    simp [Yes, ha, (by decide : ∀ f ∈ late, f.1 {} = false) f hf]

/-- **C91**: the same for the members that say something if they are objects. -/
theorem C91_objects {params : Json} {p : Params} (h : decodeInit params = some p) :
    (∀ f ∈ objects.1, f.1 p.caps = true ↔ Obj params (b!"capabilities" :: f.2)) ∧
    (∀ f ∈ objects.2.1, f.1 p.caps = true ↔ ArrayIfAny params (b!"capabilities" :: itemKinds) ∧
      Obj params (b!"capabilities" :: f.2)) ∧
    (∀ f ∈ objects.2.2, f.1 p.caps = true ↔ (ArrayIfAny params (b!"capabilities" :: itemKinds) ∧
      ArrayIfAny params (b!"capabilities" :: symbolKinds)) ∧ Obj params (b!"capabilities" :: f.2)) := by
  have ne : ∀ f, f ∈ objects.1 ∨ f ∈ objects.2.1 ∨ f ∈ objects.2.2 → f.2 ≠ [] := by
    rintro f (hf | hf | hf)
    · exact (by decide : ∀ f ∈ objects.1, f.2 ≠ []) f hf
    · exact (by decide : ∀ f ∈ objects.2.1, f.2 ≠ []) f hf
    · exact (by decide : ∀ f ∈ objects.2.2, f.2 ≠ []) f hf
  rcases init_caps h with ⟨c, hc, e, ha⟩ | ⟨e, ha⟩
  · obtain ⟨-, -, -, h1, h2, h3, -⟩ := caps_fields c hc
    refine ⟨fun f hf => ?_, fun f hf => ?_, fun f hf => ?_⟩
    · rw [e, h1 f hf, setTrue_iff (ne f (.inl hf))]
      simp only [Obj, ha]
    · rw [e, h2 f hf, Bool.and_eq_true, setTrue_iff (ne f (.inr (.inl hf))), text_ok, arrayIfAny_caps ha]
      simp only [Obj, ha]
    · rw [e, h3 f hf, Bool.and_eq_true, Bool.and_eq_true, setTrue_iff (ne f (.inr (.inr hf))), text_ok, work_ok,
        arrayIfAny_caps ha, arrayIfAny_caps ha]
      simp only [Obj, ha]
  · rw [e]
    refine ⟨fun f hf => ?_, fun f hf => ?_, fun f hf => ?_⟩
    · simp [Obj, ha _ (ne f (.inl hf)), (by decide : ∀ f ∈ objects.1, f.1 {} = false) f hf]
    · simp [Obj, ha _ (ne f (.inr (.inl hf))), (by decide : ∀ f ∈ objects.2.1, f.1 {} = false) f hf]
    · simp [Obj, ha _ (ne f (.inr (.inr hf))), (by decide : ∀ f ∈ objects.2.2, f.1 {} = false) f hf]

/-- **C91**: a text is sent as Markdown if this is the first format of the editor that the server knows. -/
theorem C91_formats {params : Json} {p : Params} (h : decodeInit params = some p) :
    (∀ f ∈ formats.1, f.1 p.caps = true ↔ MarkdownFirst params (b!"capabilities" :: f.2.1 ++ [f.2.2])) ∧
    (∀ f ∈ formats.2, f.1 p.caps = true ↔ ArrayIfAny params (b!"capabilities" :: itemKinds) ∧
      MarkdownFirst params (b!"capabilities" :: f.2.1 ++ [f.2.2])) := by
  rcases init_caps h with ⟨c, hc, e, ha⟩ | ⟨e, ha⟩
  · obtain ⟨-, -, -, -, -, -, h1, h2⟩ := caps_fields c hc
    refine ⟨fun f hf => ?_, fun f hf => ?_⟩
    · rw [e, h1 f hf, setFormat_iff]
      simp only [MarkdownFirst, List.cons_append, ha]
    · rw [e, h2 f hf, Bool.and_eq_true, setFormat_iff, text_ok, arrayIfAny_caps ha]
      simp only [MarkdownFirst, List.cons_append, ha]
  · rw [e]
    refine ⟨fun f hf => ?_, fun f hf => ?_⟩
    · simp [MarkdownFirst, ha, (by decide : ∀ f ∈ formats.1, f.1 {} = false) f hf]
    · simp [MarkdownFirst, ha, (by decide : ∀ f ∈ formats.2, f.1 {} = false) f hf]

/-- **C91**: the kinds of completion items and of symbols that the editor knows are known, without those that the server does
not know. -/
theorem C91_kinds {params : Json} {p : Params} (h : decodeInit params = some p) :
    (∀ l, At params (b!"capabilities" :: itemKinds) = some (.arr l) → ∃ ks, p.caps.completionItemKinds = some ks ∧
      ∀ n, n ∈ ks ↔ (1 ≤ n ∧ n ≤ 25) ∧ ∃ t, .num t (some n) ∈ l) ∧
    (At params (b!"capabilities" :: itemKinds) = none → p.caps.completionItemKinds = none) ∧
    (ArrayIfAny params (b!"capabilities" :: itemKinds) →
      (∀ l, At params (b!"capabilities" :: symbolKinds) = some (.arr l) → ∃ ks, p.caps.workspaceSymbolKinds = some ks ∧
        ∀ n, n ∈ ks ↔ (1 ≤ n ∧ n ≤ 26) ∧ ∃ t, .num t (some n) ∈ l) ∧
      (At params (b!"capabilities" :: symbolKinds) = none → p.caps.workspaceSymbolKinds = none)) := by
  rcases init_caps h with ⟨c, hc, e, ha⟩ | ⟨e, ha⟩
  · rw [e, itemKinds_eq c hc, symbolKinds_eq c hc]
    simp only [ha, arrayIfAny_caps ha]
    refine ⟨fun l hl => ⟨_, by rw [hl]; rfl, kinds_mem 25 l⟩, fun hl => by rw [hl]; rfl, fun hk => ?_⟩
    rw [if_pos ((text_ok c {}).mpr hk)]
    exact ⟨fun l hl => ⟨_, by rw [hl]; rfl, kinds_mem 26 l⟩, fun hl => by rw [hl]; rfl⟩
  · rw [e, ha _ (by simp [itemKinds]), ha _ (by simp [symbolKinds])]
    exact ⟨by simp, by simp, fun _ => ⟨by simp, by simp⟩⟩

/-- **C91**, violated: an editor that says it shows progress and gives its configuration, but has a member elsewhere that is
not of the right type, is taken to do neither, although no member that cannot be parsed is meant to matter
(Protocol.cpp:607-608). -/
theorem C91_lost_violated : ∃ params p, decodeInit params = some p ∧
    Yes params [b!"capabilities", b!"window", b!"workDoneProgress"] ∧
    Yes params [b!"capabilities", b!"workspace", b!"configuration"] ∧
    p.caps.workDoneProgress = false ∧ p.caps.workspaceConfiguration = false := by
  refine ⟨.obj [(b!"capabilities", .obj [
    (b!"textDocument", .obj [(b!"completion", .obj [(b!"completionItemKind", .obj [(b!"valueSet", .null)])])]),
    (b!"workspace", .obj [(b!"configuration", .bool true)]), (b!"window", .obj [(b!"workDoneProgress", .bool true)])])],
    _, rfl, rfl, rfl, by decide +kernel, by decide +kernel⟩

/-- **C91**: the other members. -/
theorem C91_members {params : Json} {p : Params} (h : decodeInit params = some p) :
    (∀ s, p.rootPath = some s ↔ At params [b!"rootPath"] = some (.str s)) ∧
    (∀ f, p.rootUri = some f ↔ ∃ v, At params [b!"rootUri"] = some v ∧ Docs.IsUri v f) ∧
    (∀ n, p.processId = some n ↔ ∃ v, At params [b!"processId"] = some v ∧ Docs.IsInt32 v n) ∧
    (p.trace = some .off ↔ At params [b!"trace"] = some (.str b!"off")) ∧
    (p.trace = some .messages ↔ At params [b!"trace"] = some (.str b!"messages")) ∧
    (p.trace = some .verbose ↔ At params [b!"trace"] = some (.str b!"verbose")) := by
  have key : ∀ {α : Type} (k : Bytes) (dec : Config.Decoder α) (d a : α), dec .null d = none →
      (tryMap k dec d params = some a ↔ ∃ v, At params [k] = some v ∧ dec v d = some a) := fun k dec d a hn => by
    simp only [tryMap, Protocol.mapMaybe, At]
    rcases params.get k with _ | v
    · simp
    · cases v <;> simp [Protocol.decodeOption, hn] <;> (generalize dec _ d = o; cases o <;> simp)
  simp only [decodeInit] at h
  split at h
  · injection h with h
    subst h
    refine ⟨fun s => ?_, fun f => ?_, fun n => ?_, ?_, ?_, ?_⟩
    · rw [key _ _ _ _ rfl]
      simp [decodeString_iff]
    · rw [key _ _ _ _ rfl]
      simp [file_iff]
    · rw [key _ _ _ _ rfl]
      simp [int32_iff]
    all_goals
      rw [key _ _ _ _ rfl]
      constructor
      · rintro ⟨v, h1, h2⟩
        rw [h1]
        cases v <;> simp only [decodeTrace] at h2
        all_goals first | cases h2 | skip
        split_ifs at h2 with a b c <;> first | (cases h2; done) | (cases h2; simp [*])
      · intro h1
        exact ⟨_, h1, by decide +kernel⟩
  · cases h

/-! ### What the server does with it -/

/-- **C91**: messages about progress are sent only to an editor that says it shows progress. -/
theorem C91_progress {params : Json} {p : Params} (h : decodeInit params = some p) (hs : List Session.Happens)
    (hm : (Session.Progress.init.run p.caps.workDoneProgress hs).sent ≠ []) :
    Yes params [b!"capabilities", b!"window", b!"workDoneProgress"] := by
  cases hw : p.caps.workDoneProgress with
  | false => rw [hw, C86_unknown] at hm; exact absurd rfl hm
  | true => exact ((C91_late h (Caps.workDoneProgress, [b!"window"], b!"workDoneProgress") (by simp [late])).mp hw).2

/-- **C91**: the configuration of an editor is used only if it says that it gives it. -/
theorem C91_configuration {params : Json} {p : Params} (h : decodeInit params = some p) (s : Config.Srv)
    (replies : List (Option Json)) (hc : Config.receiveAll s (asked p.caps replies) ≠ some s) :
    Yes params [b!"capabilities", b!"workspace", b!"configuration"] := by
  cases hw : p.caps.workspaceConfiguration with
  | false =>
    refine absurd ?_ hc
    simp only [asked, hw]
    clear hc
    induction replies with
    | nil => rfl
    | cons r rs ih => simpa [Config.receiveAll, Config.receive] using ih
  | true => exact ((C91_late h (Caps.workspaceConfiguration, [b!"workspace"], b!"configuration") (by simp [late])).mp hw).2

open Verif.Nixf Verif.Nixf.Complete in
/-- The items of `addItems` are given. -/
theorem Init.addItems_mem {i : Item} : ∀ (l items : List Item), i ∈ (addItems items l).1 → i ∈ items ∨ i ∈ l
  | [], items, h => .inl h
  | x :: l, items, h => by
    rw [addItems] at h
    unfold addItem at h
    split at h
    · next heq =>
      split at heq
      · cases heq; exact .inl h
      · cases heq
    · next heq =>
      split at heq
      · cases heq
      · cases heq
        rcases addItems_mem l _ h with h | h
        · rcases List.mem_append.mp h with h | h
          · exact .inl h
          · exact .inr (by simp at h; simp [h])
        · exact .inr (List.mem_cons_of_mem _ h)

open Verif.Nixf Verif.Nixf.Complete in
theorem Init.fieldItems_snippet {origin pfx : Bytes} {sn : Bool} {edit : Server.LRange} {f : Bytes × Option OptDesc} {i : Item}
    (hi : i ∈ fieldItems origin sn edit pfx f) (hs : i.snippet = some true) : sn = true := by
  cases sn with
  | true => rfl
  | false =>
    exfalso
    unfold fieldItems at hi
    split at hi
    · simp only [List.mem_singleton] at hi
      subst hi; cases hs
    · simp only [fillInsertText, Bool.false_eq_true, if_false] at hi
      split at hi
      · rcases List.mem_append.mp hi with hi | hi
        · split at hi
          · simp only [List.mem_singleton] at hi
            subst hi; cases hs
          · cases hi
        · split at hi
          · split at hi
            · simp only [List.mem_singleton] at hi
              subst hi; cases hs
            · cases hi
          · cases hi
      · simp only [List.mem_singleton] at hi
        subst hi; cases hs

open Verif.Nixf Verif.Nixf.Complete in
theorem Init.attrName_snippet {edit : Server.LRange} {p : Complete.Params} {sn : Bool} {i : Item} (hs : i.snippet = some true) :
    ∀ (os : List (Bytes × Option OptWorker)) (items : List Item), (∀ i ∈ items, i.snippet = some true → sn = true) →
    i ∈ (completeAttrName edit p sn os items).1 → sn = true
  | [], items, h, hi => h _ hi hs
  | (_, none) :: os, items, h, hi => attrName_snippet hs os items h hi
  | (name, some w) :: os, items, h, hi => by
    rw [completeAttrName] at hi
    have hm : ∀ i ∈ (addItems items ((optionFields w p).flatMap (fieldItems name sn edit p.pfx))).1, i.snippet = some true → sn = true := by
      intro i hi hs
      rcases addItems_mem _ _ hi with hi | hi
      · exact h _ hi hs
      · obtain ⟨f, -, hf⟩ := List.mem_flatMap.mp hi
        exact fieldItems_snippet hf hs
    revert hi hm
    rcases addItems items ((optionFields w p).flatMap (fieldItems name sn edit p.pfx)) with ⟨a, b⟩
    intro hi hm
    cases b
    · exact attrName_snippet hs os a hm hi
    · exact hm _ hi hs

open Verif.Nixf Verif.Nixf.Complete in
/-- **C91**: snippets are sent only to an editor that says it understands them. -/
theorem C91_snippets {params : Rpc.Json} {p : Initialize.Params} (h : decodeInit params = some p) (P : PrimOps) (src : Bytes) (root : Node)
    (w : World) (pos : Pos) {items : List Item} {b : Bool} (hw : w.snippets = p.caps.completionSnippets)
    (hl : onCompletion P src root w pos = .list items b) {i : Item} (hi : i ∈ items) (hs : i.snippet = some true) :
    Yes params [b!"capabilities", b!"textDocument", b!"completion", b!"completionItem", b!"snippetSupport"] := by
  refine (C91_early h (Caps.completionSnippets, [b!"textDocument", b!"completion", b!"completionItem"], b!"snippetSupport")
    (by simp [early])).mp ?_
  show p.caps.completionSnippets = true
  rw [← hw]
  clear h hw
  have hpk : ∀ worker edit q (its : List Item), (∀ i ∈ its, i.snippet ≠ some true) →
      ∀ i ∈ (completePackages worker edit q its).1, i.snippet ≠ some true := by
    intro worker edit q its h0 i hi
    rcases addItems_mem _ _ hi with hi | hi
    · exact h0 _ hi
    · obtain ⟨x, -, rfl⟩ := List.mem_map.mp hi
      simp
  have hcd : ∀ (vl : VL) (pfx : Bytes) (env : Env), ∀ i ∈ (collectDef vl pfx env []).1, i.snippet ≠ some true := by
    intro vl pfx env
    induction env with
    | nil => intro i hi; simp [collectDef] at hi
    | cons sc env ih =>
      intro i hi
      rw [collectDef] at hi
      revert hi ih
      rcases collectDef vl pfx env [] with ⟨a, b⟩
      intro ih hi
      cases b
      · rcases addItems_mem _ _ hi with hi | hi
        · exact ih _ hi
        · obtain ⟨x, -, hx⟩ := List.mem_filterMap.mp hi
          unfold defItem at hx
          split_ifs at hx
          all_goals cases hx; simp
      · exact ih _ hi
  have hws : ∀ r (its : List Item) f, (∀ i ∈ its, i.snippet ≠ some true) → (∀ sel, ∀ i ∈ (f sel).1, i.snippet ≠ some true) →
      ∀ {items b}, withSelector r its f = .list items b → ∀ i ∈ items, i.snippet ≠ some true := by
    intro r its f h1 h2 items b he
    unfold withSelector at he
    split at he
    · unfold Outcome.of at he
      cases he
      exact h2 _
    · cases he
    · cases he
    · cases he
      exact h1
  unfold onCompletion at hl
  split at hl
  · cases hl
    cases hi
  · unfold completeNode at hl
    split at hl
    · split at hl
      · cases hl
      · cases hl
        cases hi
      · split at hl
        · cases hl
        · unfold completeVarName at hl
          split at hl
          · cases hl
          · rename_i env _
            have hc := hcd (runVL P (sizeOf root) root) (Idioms.idName (.exprVar ‹_› ‹_›)) (env.getD [])
            split at hl
            · rename_i he
              rw [he] at hc
              cases hl
              exact absurd hs (hc _ hi)
            · rename_i he
              rw [he] at hc
              refine absurd hs (hws _ _ _ hc (fun sel => ?_) hl _ hi)
              split
              · exact hc
              · exact hpk _ _ _ _ hc
      · split at hl
        · cases hl
        · unfold completeSelect at hl
          split at hl
          · exact absurd hs (hws _ _ _ (by simp) (fun sel => hpk _ _ _ _ (by simp)) hl _ hi)
          · cases hl
            cases hi
      · unfold completeAttrPath at hl
        split at hl
        · split at hl
          · cases hl
          · unfold Outcome.of at hl
            cases hl
            exact attrName_snippet hs _ _ (by simp) hi
        · cases hl
          cases hi
        · cases hl
        · cases hl
      · cases hl
        cases hi
    · cases hl
      cases hi

/-- **C91**: `initialize` may be sent again; what is known is what the last one that is an object says. -/
theorem C91_again (js : List Json) (j : Json) :
    (∀ p, decodeInit j = some p → clientCaps (js ++ [j]) = p.caps) ∧
    (decodeInit j = none → clientCaps (js ++ [j]) = clientCaps js) ∧ clientCaps [] = {} := by
  refine ⟨fun p h => ?_, fun h => ?_, rfl⟩ <;> simp [clientCaps, List.foldl_append, h]

/-! ### What the server does not respect -/

/-- **C91**: the kinds of completion items are those that every editor knows, from `Text` to `Reference`. -/
theorem C91_item_kinds (k : Nixf.Complete.ItemKind) : 1 ≤ CompletionMessages.kindNumber k ∧ CompletionMessages.kindNumber k ≤ 18 := by
  cases k <;> decide

/-- The kind of the first symbol of a program. -/
noncomputable def Init.firstKind (src : Bytes) : Option Nixf.Outline.SymbolKind :=
  match Nixf.parse src with
  | some (root, _) => ((Nixf.Outline.documentSymbols (Nixf.runVL [] (sizeOf root) root) src id root).head?).map (·.kind)
  | none => none

/-- **C91**, violated: editors that say nothing about kinds of symbols know those from `File` to `Array`, by their numbers 1
to 18; but the symbol of `null` is sent with another one. -/
theorem C91_symbol_kinds_violated : firstKind b!"null" = some .null ∧
    ∀ fix name detail d r s cs, ∃ t n,
      (Replies.encodeSymbol fix (.mk name detail .null d r s cs)).get b!"kind" = some (.num t (some n)) ∧ ¬ n ≤ 18 :=
  ⟨by decide +kernel, fun _ _ _ _ _ _ _ => ⟨_, 21, rfl, by decide⟩⟩

/-- **C91**, violated: an editor that says it does not show hierarchies is sent symbols in a hierarchy, without the member
`location` that it needs. -/
theorem C91_hierarchy_violated : ∃ params p, decodeInit params = some p ∧ p.caps.hierarchicalDocumentSymbol = false ∧
    At params [b!"capabilities", b!"textDocument", b!"documentSymbol", b!"hierarchicalDocumentSymbolSupport"] = some (.bool false) ∧
    ∀ fix s, (Replies.encodeSymbol fix s).get b!"location" = none := by
  refine ⟨.obj [(b!"capabilities", .obj [(b!"textDocument", .obj [(b!"documentSymbol",
    .obj [(b!"hierarchicalDocumentSymbolSupport", .bool false)])])])], _, rfl, by decide +kernel, rfl, fun fix s => ?_⟩
  obtain ⟨n, d, k, dep, r, sel, cs⟩ := s
  simp only [Replies.encodeSymbol, Rpc.Json.get]
  rw [lookup_members _ _ (by simp)]
  rfl

/-- **C91**, violated: an editor that shows plain text only is sent Markdown. -/
theorem C91_markdown_violated : ∃ params p, decodeInit params = some p ∧ p.caps.hoverMarkdown = false ∧
    At params [b!"capabilities", b!"textDocument", b!"hover", b!"contentFormat"] = some (.arr [.str b!"plaintext"]) ∧
    ∀ {fix} (_ : Fixes fix) (h : Bytes × Server.LRange), h.1 ≠ [] →
      At (Replies.encodeHover fix h) [b!"contents", b!"kind"] = some (.str b!"markdown") := by
  refine ⟨.obj [(b!"capabilities", .obj [(b!"textDocument", .obj [(b!"hover",
    .obj [(b!"contentFormat", .arr [.str b!"plaintext"])])])])], _, rfl, by decide +kernel, rfl, fun hf h hn => ?_⟩
  simp only [Replies.encodeHover, CompletionMessages.encodeMarkup, if_neg hn]
  rfl

/-- **C91**, violated: an editor that does not know code actions, only commands, is sent code actions. -/
theorem C91_commands_violated : ∃ params p, decodeInit params = some p ∧ p.caps.codeActionStructure = false ∧
    ¬ Obj params [b!"capabilities", b!"textDocument", b!"codeAction", b!"codeActionLiteralSupport"] ∧
    ∀ fix a, (ActionMessages.encodeAct fix a).get b!"command" = none := by
  refine ⟨.obj [(b!"capabilities", .obj [])], _, rfl, by decide +kernel, (fun ⟨fs, h⟩ => by cases h), fun fix a => ?_⟩
  simp only [ActionMessages.encodeAct, Rpc.Json.get]
  rw [lookup_members _ _ (by simp)]
  rfl

/-- **C91**, violated: the server announces `prepareProvider`, which it may only to an editor with `prepareSupport`. -/
theorem C91_prepare_violated : ∃ params p, decodeInit params = some p ∧ p.caps.renamePrepareSupport = false ∧
    ¬ Yes params [b!"capabilities", b!"textDocument", b!"rename", b!"prepareSupport"] ∧
    ∀ semantic, .rename true ∈ Session.capabilities semantic := by
  refine ⟨.obj [(b!"capabilities", .obj [])], _, rfl, by decide +kernel, (fun h => by cases h), fun semantic => ?_⟩
  cases semantic <;> decide

/-! ### The hypotheses are satisfiable -/

/-- An editor that says much. -/
def Init.editor : Json := .obj [(b!"processId", .num b!"7" (some 7)), (b!"rootUri", .str b!"file:///a"), (b!"trace", .str b!"off"),
  (b!"capabilities", .obj [
    (b!"textDocument", .obj [(b!"completion", .obj [(b!"completionItem", .obj [(b!"snippetSupport", .bool true)]),
      (b!"completionItemKind", .obj [(b!"valueSet", .arr [.num b!"1" (some 1), .num b!"99" (some 99)])])]),
      (b!"hover", .obj [(b!"contentFormat", .arr [.str b!"html", .str b!"markdown", .str b!"plaintext"])])]),
    (b!"workspace", .obj [(b!"configuration", .bool true)]), (b!"window", .obj [(b!"workDoneProgress", .bool true)])])]

example : ∃ p, decodeInit editor = some p ∧ p.caps.completionSnippets = true ∧ p.caps.workDoneProgress = true ∧
    p.caps.workspaceConfiguration = true ∧ p.caps.hoverMarkdown = true ∧ p.caps.completionItemKinds = some [1] ∧
    p.processId = some 7 ∧ p.rootUri = some b!"/a" ∧ p.trace = some .off :=
  ⟨_, rfl, by decide +kernel, by decide +kernel, by decide +kernel, by decide +kernel, by decide +kernel, by decide +kernel,
    by decide +kernel, by decide +kernel⟩

/-- Progress is sent to it. -/
example : (Session.Progress.init.run ((decodeInit editor).getD {}).caps.workDoneProgress [.eval 1]).sent ≠ [] := by decide +kernel

/-- Its configuration is used. -/
example : Config.receiveAll (Config.start ⟨[], []⟩ {}) (asked ((decodeInit editor).getD {}).caps
    [some (.arr [.obj [(b!"nixpkgs", .obj [(b!"expr", .str b!"x")])]])]) ≠ some (Config.start ⟨[], []⟩ {}) := by decide +kernel

/-- An option in a snippet. -/
example : ∃ i ∈ Nixf.Complete.fieldItems [] true ⟨⟨0, 0⟩, ⟨0, 0⟩⟩ [] (b!"a", some ⟨none, none, none, none⟩), i.snippet = some true :=
  ⟨_, List.mem_singleton.mpr rfl, rfl⟩

end Verif.Props
