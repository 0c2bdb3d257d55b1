import Verif.Model.ActionMessages
import Verif.Props.CompletionMessages
import Verif.Props.Rewrites
/-
**C89**: code actions arrive as the server made them, and the action for documentation opens the page of the function.
-/
namespace Verif.Props
namespace Acts
open Verif.Rpc (Json)
open Docs Items

/-! ### Actions, by the members of their objects (Language Server Protocol 3.17, `CodeAction`) -/

/-- An edit of one document: its URI and the edits. -/
def IsChanges (v : Json) (c : Bytes × List (Server.LRange × Bytes)) : Prop :=
  ∃ fs cs, v = .obj fs ∧ fs.lookup b!"changes" = some (.obj cs) ∧ Has cs c.1 (IsList IsEdit) c.2 ∧
    (∀ k, k ≠ c.1 → cs.lookup k = none) ∧ fs.lookup b!"documentChanges" = none

/-- An action with a title and a kind that is preferred or not. -/
structure IsAct (v : Json) (title kind : Bytes) (preferred : Bool) (edit : Option (Bytes × List (Server.LRange × Bytes))) : Prop where
  object : ∃ fs, v = .obj fs ∧ Has fs b!"title" IsStr title ∧ Has fs b!"kind" IsStr kind ∧
    (if preferred then Has fs b!"isPreferred" IsBool true else fs.lookup b!"isPreferred" = none) ∧
    Opt fs b!"edit" IsChanges edit

/-- A file is created, which must not be there. -/
def IsCreate (v : Json) (file : Bytes) : Prop :=
  ∃ fs, v = .obj fs ∧ Has fs b!"kind" IsStr b!"create" ∧ Has fs b!"uri" IsUri file ∧ ∃ os, fs.lookup b!"options" = some (.obj os) ∧
    Has os b!"overwrite" IsBool false ∧ Has os b!"ignoreIfExists" IsBool false

/-- A file is edited. -/
def IsFileEdit (v : Json) (c : Bytes × List (Server.LRange × Bytes)) : Prop :=
  ∃ fs ds, v = .obj fs ∧ fs.lookup b!"textDocument" = some (.obj ds) ∧ Has ds b!"uri" IsUri c.1 ∧ Has fs b!"edits" (IsList IsEdit) c.2

/-- The page for an attribute of `lib`. -/
def page (names : List Bytes) : Bytes := b!"/".intercalate (b!"https://noogle.dev/f/lib" :: names)

/-- An attribute of the variable `lib`, with or without a default. -/
def OfLib (t : Nixf.Syntax.Syn) (names : List Nixf.Syntax.Syn) : Prop :=
  t = .select (.var b!"lib") names ∨ ∃ d, t = .selectOr (.var b!"lib") names d

end Acts
open Acts Items Docs
open Verif.ActionMessages
open Verif.CompletionMessages (Edit members encodeEdit decodeEdit noEdit)
open Verif.Rpc (Json)
open Verif.Protocol (mapRequired mapMaybe decodeOption decodeList encodeList encodeString decodeFile encodeFile)
open Verif.Config (Decoder isObject decodeString)
open Verif.Nixf hiding Json
open Verif.Nixf.Syntax Node

/-- The members of an action. -/
def actFields (fix : Bytes → Bytes) (a : Act) : List (Bytes × Option Json) :=
  [(b!"title", some (encodeString fix a.title)), (b!"kind", a.kind.map (encodeString fix)),
    (b!"isPreferred", if a.preferred then some (.bool true) else none), (b!"edit", a.edit.map (encodeWEdit fix)),
    (b!"data", a.data)]

theorem act_lookup (fix : Bytes → Bytes) (a : Act) (k : Bytes) :
    (members (actFields fix a)).lookup k = ((actFields fix a).lookup k).join :=
  lookup_members _ _ (by simp only [actFields, List.map]; decide +kernel)

theorem wedit_lookup (k : Bytes) (o p : Option Json) :
    (members [(b!"changes", o), (b!"documentChanges", p)]).lookup k = ([(b!"changes", o), (b!"documentChanges", p)].lookup k).join :=
  lookup_members _ _ (by simp only [List.map]; decide +kernel)

section
variable {fix : Bytes → Bytes} (hf : Fixes fix)
include hf

theorem edits_is {l : List (Server.LRange × Bytes)} (h : ∀ e ∈ l, IsText e.2) : IsList IsEdit (encodeList (encodeEdit fix) (l.map plain)) l := by
  refine ⟨_, rfl, ?_⟩
  induction l with
  | nil => exact .nil
  | cons e l ih => exact .cons (encodeEdit_is hf (h e (by simp))) (ih fun e he => h e (by simp [he]))

theorem edits_trip {l : List (Server.LRange × Bytes)} (h : ∀ e ∈ l, IsText e.2) (r : List Edit) :
    decodeList decodeEdit noEdit (encodeList (encodeEdit fix) (l.map plain)) r = some (l.map plain) := by
  apply list_trip
  intro e he
  obtain ⟨x, hx, rfl⟩ := List.mem_map.mp he
  exact decodeEdit_trip hf (h x hx) ⟨[], rfl⟩

theorem changes_is {uri : Bytes} {l : List (Server.LRange × Bytes)} (hu : IsText uri) (h : ∀ e ∈ l, IsText e.2) :
    IsChanges (encodeWEdit fix { changes := some [(uri, l.map plain)] }) (uri, l) := by
  refine ⟨_, [(fix uri, encodeList (encodeEdit fix) (l.map plain))], rfl, ?_, ?_, ?_, ?_⟩
  · rw [wedit_lookup]; rfl
  · exact ⟨_, by rw [hf.same uri hu]; simp [List.lookup], edits_is hf h⟩
  · intro k hk
    rw [hf.same uri hu]
    have : (k == uri) = false := by simpa using hk
    simp [List.lookup, this]
  · rw [wedit_lookup]; rfl

theorem act_is {a : Act} {kind : Bytes} {edit : Option (Bytes × List (Server.LRange × Bytes))} (ht : IsText a.title) (hk : IsText kind)
    (hak : a.kind = some kind) (hae : a.edit = edit.map fun c => { changes := some [(c.1, c.2.map plain)] })
    (he : ∀ c ∈ edit, IsText c.1 ∧ ∀ e ∈ c.2, IsText e.2) :
    IsAct (encodeAct fix a) a.title kind a.preferred edit := by
  refine ⟨members (actFields fix a), rfl, ?_, ?_, ?_, ?_⟩
  · exact ⟨_, by rw [act_lookup]; rfl, encodeString_is hf ht⟩
  · exact ⟨encodeString fix kind, by rw [act_lookup]; simp [actFields, List.lookup, hak], encodeString_is hf hk⟩
  · rw [act_lookup]
    cases hp : a.preferred with
    | true => exact ⟨_, by rw [act_lookup]; simp [actFields, List.lookup, hp], rfl⟩
    | false => simp [actFields, List.lookup, hp]
  · cases edit with
    | none => rw [Opt, act_lookup]; simp [actFields, List.lookup, hae]
    | some c =>
      exact ⟨_, by rw [act_lookup]; simp [actFields, List.lookup, hae], changes_is hf (he c rfl).1 (he c rfl).2⟩

/-- **C89**: a fix arrives with its title, as `quickfix`, and with its edits of the document. -/
theorem C89_fix {uri : Bytes} {q : QuickFix} (hu : IsText uri) (ht : IsText q.title) (h : ∀ e ∈ q.changes, IsText e.2) :
    IsAct (encodeAct fix (fixAct uri q)) q.title b!"quickfix" q.preferred (some (uri, q.changes)) :=
  act_is hf (a := fixAct uri q) ht (isText_ascii (by decide +kernel)) rfl rfl (by rintro c ⟨⟩; exact ⟨hu, h⟩)

/-- **C89**: an action arrives with its title, its kind and its edit of the document. -/
theorem C89_edit {src uri kind : Bytes} {a : Action} (hu : IsText uri) (hk : IsText kind) (ht : IsText a.title) (h : IsText a.newText) :
    IsAct (encodeAct fix (editAct src uri kind a)) a.title kind false (some (uri, [(Server.toLSPRange src a.range, a.newText)])) :=
  act_is hf (a := editAct src uri kind a) ht hk rfl rfl (by rintro c ⟨⟩; exact ⟨hu, by simpa using h⟩)

theorem wedit_trip {uri : Bytes} {l : List (Server.LRange × Bytes)} (hu : IsText uri) (h : ∀ e ∈ l, IsText e.2) :
    decodeWEdit (encodeWEdit fix { changes := some [(uri, l.map plain)] }) {} = some { changes := some [(uri, l.map plain)] } := by
  have h1 : decodeChanges (.obj [(fix uri, encodeList (encodeEdit fix) (l.map plain))]) [] = some [(uri, l.map plain)] := by
    simp [decodeChanges, edits_trip hf h, hf.same uri hu]
  simp only [decodeWEdit, encodeWEdit, isObject, if_true, mapMaybe, Json.get, wedit_lookup]
  simp [List.lookup, decodeOption, h1]

/-- What the server reads of an action that it has sent. -/
theorem decodeAct_trip {a : Act} {edit : Option (Bytes × List (Server.LRange × Bytes))} (ht : IsText a.title)
    (hk : ∀ k ∈ a.kind, IsText k) (hae : a.edit = edit.map fun c => { changes := some [(c.1, c.2.map plain)] })
    (he : ∀ c ∈ edit, IsText c.1 ∧ ∀ e ∈ c.2, IsText e.2) {fs : List (Bytes × Json)}
    (hs : ∀ k, fs.lookup k = (members (actFields fix a)).lookup k) : decodeAct (.obj fs) = some a := by
  have hg : ∀ k, (Json.obj fs).get k = ((actFields fix a).lookup k).join := fun k => by rw [Json.get, hs, act_lookup]
  have h1 : mapRequired b!"title" decodeString (.obj fs) [] = some a.title := by
    simp [mapRequired, hg, actFields, List.lookup, string_trip hf ht]
  have h2 : mapMaybe b!"kind" (decodeOption decodeString []) (.obj fs) none = some a.kind := by
    simp only [mapMaybe, hg, actFields, List.lookup]
    cases hk' : a.kind with
    | none => simp
    | some k =>
      have := hf.same k (hk k hk')
      simp [decodeOption, encodeString, decodeString, this]
  have h3 : (mapRequired b!"isPreferred" DocumentMessages.decodeBool (.obj fs) false).getD false = a.preferred := by
    simp only [mapRequired, hg, actFields, List.lookup]
    cases a.preferred <;> simp [DocumentMessages.decodeBool]
  have h4 : mapMaybe b!"edit" (decodeOption decodeWEdit {}) (.obj fs) none = some a.edit := by
    simp only [mapMaybe, hg, actFields, List.lookup, hae]
    cases edit with
    | none => simp
    | some c =>
      have := wedit_trip hf (he c rfl).1 (he c rfl).2
      show (decodeWEdit _ {}).map some = _
      rw [this]
      rfl
  have h5 : (Json.obj fs).get b!"data" = a.data := by simp [hg, actFields, List.lookup]
  simp [decodeAct, isObject, h1, h2, h3, h4, h5]

/-- **C89**: an action that is sent back, with its members in any order, is answered by the same action, and nothing is opened
if it has no data. -/
theorem C89_same_partial {a : Act} {edit : Option (Bytes × List (Server.LRange × Bytes))} (ht : IsText a.title)
    (hk : ∀ k ∈ a.kind, IsText k) (hae : a.edit = edit.map fun c => { changes := some [(c.1, c.2.map plain)] })
    (he : ∀ c ∈ edit, IsText c.1 ∧ ∀ e ∈ c.2, IsText e.2) (hd : a.data = none) {sent fs : List (Bytes × Json)}
    (hsent : encodeAct fix a = .obj sent) (hs : ∀ k, fs.lookup k = sent.lookup k) :
    onResolve fix (.obj fs) = some (.obj sent, []) := by
  have hsent' : members (actFields fix a) = sent := by simpa [encodeAct, actFields] using hsent
  have := decodeAct_trip hf ht hk hae he (fs := fs) (by rw [hsent']; exact hs)
  simp [onResolve, this, hsent, urlOf, hd]

/-- **C89**: the action for documentation, sent back in any order of members, makes the editor open its page outside, and is
answered by the same action. -/
theorem C89_open {name url : Bytes} (hn : IsText name) (hu : IsText url) {sent fs : List (Bytes × Json)}
    (hsent : encodeAct fix (noogleAct fix name url) = .obj sent) (hs : ∀ k, fs.lookup k = sent.lookup k) :
    ∃ v os, onResolve fix (.obj fs) = some (.obj sent, [v]) ∧ v = .obj os ∧ Has os b!"uri" IsStr url ∧ Has os b!"external" IsBool true := by
  have hsent' : members (actFields fix (noogleAct fix name url)) = sent := by simpa [encodeAct, actFields] using hsent
  have h := decodeAct_trip hf (a := noogleAct fix name url) (edit := none)
    (isText_append (isText_ascii (by decide +kernel)) hn) (by rintro k ⟨⟩; exact isText_ascii (by decide +kernel)) rfl (by simp)
    (fs := fs) (by rw [hsent']; exact hs)
  have h2 : urlOf (noogleAct fix name url) = some url := by
    simp [urlOf, noogleAct, getString, Json.get, List.lookup, encodeString, hf.same url hu]
  refine ⟨encodeShow fix url, _, by simp [onResolve, h, hsent, h2], rfl, ⟨_, by simp [List.lookup], encodeString_is hf hu⟩,
    ⟨_, by simp [List.lookup], rfl⟩⟩

/-- **C89**: moving an expression to a file arrives as the creation of the file, its text, and the edit of the document. -/
theorem C89_extract {src file dir title : Bytes} {e : Extraction} (hd : HasUri (dir ++ b!"/" ++ e.file)) (hfile : HasUri file)
    (hc : IsText e.content) (hn : IsText e.newText) :
    ∃ fs es v1 v2 v3, encodeAct fix (extractAct src file dir title e) = .obj fs ∧ fs.lookup b!"edit" = some (.obj es) ∧
      es.lookup b!"documentChanges" = some (.arr [v1, v2, v3]) ∧ es.lookup b!"changes" = none ∧
      IsCreate v1 (dir ++ b!"/" ++ e.file) ∧ IsFileEdit v2 (dir ++ b!"/" ++ e.file, [(⟨⟨0, 0⟩, ⟨0, 0⟩⟩, e.content)]) ∧
      IsFileEdit v3 (file, [(Server.toLSPRange src e.range, e.newText)]) := by
  have hfi : ∀ {p}, HasUri p → IsUri (encodeFile fix p) p := fun h => (file_iff _ _ []).mp (file_trip hf h [])
  refine ⟨members (actFields fix (extractAct src file dir title e)), _, _, _, _, rfl, by rw [act_lookup]; rfl,
    by rw [wedit_lookup]; rfl, by rw [wedit_lookup]; rfl, ?_, ?_, ?_⟩
  · have h1 := fun (k : Bytes) (x y z : Option Json) => lookup_members [(b!"kind", some (Json.str b!"create")), (b!"uri", x), (b!"options", y),
      (b!"annotationId", z)] k (by simp only [List.map]; decide +kernel)
    have h2 := fun (k : Bytes) (x y : Option Json) => lookup_members [(b!"overwrite", x), (b!"ignoreIfExists", y)] k
      (by simp only [List.map]; decide +kernel)
    exact ⟨_, rfl, ⟨_, by rw [h1]; rfl, rfl⟩, ⟨_, by rw [h1]; rfl, hfi hd⟩, _, by rw [h1]; rfl, ⟨_, by rw [h2]; rfl, rfl⟩,
      ⟨_, by rw [h2]; rfl, rfl⟩⟩
  · exact ⟨_, _, rfl, rfl, ⟨_, rfl, hfi hd⟩, ⟨_, rfl,
      edits_is hf (l := [(⟨⟨0, 0⟩, ⟨0, 0⟩⟩, e.content)]) (by simpa using hc)⟩⟩
  · exact ⟨_, _, rfl, rfl, ⟨_, rfl, hfi hfile⟩, ⟨_, rfl,
      edits_is hf (l := [(Server.toLSPRange src e.range, e.newText)]) (by simpa using hn)⟩⟩

/-- **C89** is violated for moving an expression to a file: if the editor sends the action back, the answer has no edit. -/
theorem C89_extract_violated {src file dir title : Bytes} {e : Extraction} (ht : IsText title) :
    ∃ fs, onResolve fix (encodeAct fix (extractAct src file dir title e)) = some (.obj fs, []) ∧
      Has fs b!"title" IsStr title ∧ fs.lookup b!"edit" = none := by
  let a := extractAct src file dir title e
  have hg : ∀ k, (encodeAct fix a).get k = ((actFields fix a).lookup k).join := fun k => act_lookup fix a k
  have h1 : mapRequired b!"title" decodeString (encodeAct fix a) [] = some title := by
    rw [mapRequired, hg]
    exact string_trip hf ht []
  have hl := fun (k : Bytes) (x y z : Option Json) => lookup_members [(b!"kind", some (Json.str b!"create")), (b!"uri", x), (b!"options", y),
      (b!"annotationId", z)] k (by simp only [List.map]; decide +kernel)
  have hch : ∀ f o n r, ActionMessages.decodeChange (encodeChange fix (.create f o n)) r = none := by
    intro f o n r
    have : getString (encodeChange fix (.create f o n)) b!"kind" = some b!"create" := by
      simp only [getString, encodeChange, Json.get, hl]
      rfl
    simp only [ActionMessages.decodeChange, this]
    rfl
  have h4 : mapMaybe b!"edit" (decodeOption decodeWEdit {}) (encodeAct fix a) none = none := by
    have : ∀ d : List DocChange, (∃ f o n l, d = .create f o n :: l) → decodeWEdit (encodeWEdit fix { documentChanges := some d }) {} = none := by
      rintro d ⟨f, o, n, l, rfl⟩
      have h0 := hch f o n noChange
      simp only [decodeWEdit, encodeWEdit, isObject, if_true, mapMaybe, Json.get, wedit_lookup]
      simp [List.lookup, decodeOption, encodeList, decodeList, h0]
    have h9 : ∃ w, ((actFields fix a).lookup b!"edit").join = some (encodeWEdit fix { documentChanges := some w }) ∧
        ∃ f o n l, w = .create f o n :: l := ⟨_, rfl, _, _, _, _, rfl⟩
    obtain ⟨w, h9, hw⟩ := h9
    rw [mapMaybe, hg, h9]
    show ((decodeWEdit (encodeWEdit fix { documentChanges := some w }) {}).map some) = none
    rw [this w hw]
    rfl
  have h6 : decodeAct (encodeAct fix a) = some { title := title, kind := (mapMaybe b!"kind" (decodeOption decodeString []) (encodeAct fix a) none).getD none } := by
    have h7 : (mapRequired b!"isPreferred" DocumentMessages.decodeBool (encodeAct fix a) false).getD false = false := by
      rw [mapRequired, hg]
      rfl
    have h8 : (encodeAct fix a).get b!"data" = none := by rw [hg]; rfl
    simp only [decodeAct, h1, h4, h7, h8]
    rfl
  refine ⟨members (actFields fix { title := title, kind := (mapMaybe b!"kind" (decodeOption decodeString []) (encodeAct fix a) none).getD none }), ?_, ?_, ?_⟩
  · rw [onResolve, h6]; rfl
  · exact ⟨_, by rw [act_lookup]; rfl, encodeString_is hf ht⟩
  · rw [act_lookup]; rfl

end

/-! ### The page -/

theorem page_eq (names : List Bytes) : noogleUrl (b!"lib" :: names) = page names := by
  have : ∀ (a : Bytes) (l : List Bytes), b!"/".intercalate (a :: l) = a ++ l.flatMap fun s => b!"/" ++ s := by
    intro a l
    induction l generalizing a with
    | nil => simp [List.intercalate]
    | cons b l ih =>
      have := ih b
      simp only [List.intercalate] at this ⊢
      rw [List.intersperse_cons₂, List.flatten_cons, List.flatten_cons, this]
      simp
  rw [page, this]
  simp [noogleUrl]

theorem staticNames_some : ∀ {ns : List Node} {ks : List Bytes}, staticNames ns = some ks → List.Forall₂ (fun n k => n.staticName? = some k) ns ks
  | [], ks, h => by cases h; exact .nil
  | n :: ns, ks, h => by
    rw [staticNames] at h
    split at h
    · rename_i t r h1 h2
      cases h
      exact .cons h1 (staticNames_some h2)
    · cases h

variable {src : Bytes} {root n : Node} {s : PState}

/-- **C89**: a page is offered only for an attribute of `lib` around the cursor that is named by static names, and it is the
page of these names. -/
theorem C89_offered {fuel : Nat} {l : List Bytes} {url : Bytes} (h : parse src = some (root, s)) (hr : Reach root n)
    (hf : sizeOf root ≤ fuel) (ha : addNoogleDocAction (runPM root) fuel n = some l) (hm : url ∈ l) :
    ∃ m as ns ks, Ancestors root n as ∧ as.find? (isKind .ExprSelect) = some m ∧ OfLib (syn m) ns ∧ List.Forall₂ NameIs ns ks ∧
      ks ≠ [] ∧ url = page ks := by
  rcases atNode_reach h hr hf ha with rfl | ⟨m, as, h1, h2, h3, h4, h5⟩
  · cases hm
  simp only [Option.some.injEq] at h5
  subst h5
  unfold noogleSelect at hm
  split at hm
  · rename_i hs hv i dt p d b
    split at hm
    · rename_i hi
      have hfit := at_fits h h3
      have hvr : Reach root (.exprVar hv i) := reach_child h3 (List.mem_filter.mpr ⟨.head _, rfl⟩)
      obtain ⟨hx, x, rfl⟩ := at_fits h hvr
      have hi : x = b!"lib" := hi
      subst hi
      split at hm
      · cases hm
      · rename_i ns hns
        split at hm
        · rename_i ts hts
          simp only [List.mem_singleton] at hm
          subst hm
          obtain ⟨hp, ms, ds, rfl⟩ : ∃ hp ms ds, p = .attrPath hp ms ds := by
            cases p <;> first | exact ⟨_, _, _, rfl⟩ | exact absurd rfl hns
          have hpr : Reach root (.attrPath hp ms ds) := reach_child h3 (List.mem_filter.mpr ⟨by simp, rfl⟩)
          have hsn : List.Forall₂ (fun n k => n.staticName? = some k) ms ts := staticNames_some hts
          have hnames : List.Forall₂ NameIs (synL ms) ts := by
            have hall : ∀ m ∈ ms, ∀ k, m.staticName? = some k → Reach root m := fun m hm k hk =>
              reach_child hpr (List.mem_filter.mpr ⟨by simp [hm], by cases m <;> first | rfl | cases hk⟩)
            clear hts hns hpr h2 h3 h4 hfit hvr ha
            induction hsn with
            | nil => exact .nil
            | cons hx _ ih =>
              exact .cons (static_is h (hall _ (by simp) _ hx) hx) (ih fun m hm => hall m (by simp [hm]))
          refine ⟨_, as, synL ms, ts, h1, h2, ?_, hnames, ?_, page_eq ts⟩
          · cases d <;> first | exact .inl rfl | exact .inr ⟨_, rfl⟩
          · rintro rfl
            cases hsn
            exact hns rfl
        · cases hm
    · cases hm
  · cases hm

theorem syn_var {e : Node} {x : Bytes} (h : syn e = .var x) : ∃ h1 h2, e = .exprVar h1 (.identifier h2 x) := by
  unfold syn at h
  split at h <;> first | (cases h; exact ⟨_, _, rfl⟩) | cases h

theorem syn_name {e : Node} {x : Bytes} (h : syn e = .name x) : ∃ h1 h2, e = .attrNameID h1 (.identifier h2 x) := by
  unfold syn at h
  split at h <;> first | (cases h; exact ⟨_, _, rfl⟩) | cases h

/-- **C89**: the page of an attribute of `lib` that is named by identifiers is offered. -/
theorem C89_complete {fuel : Nat} {m : Node} {as : List Node} {xs : List Bytes} (h : parse src = some (root, s)) (hr : Reach root n)
    (hf : sizeOf root ≤ fuel) (ha : Ancestors root n as) (hm : as.find? (isKind .ExprSelect) = some m)
    (hl : OfLib (syn m) (xs.map .name)) (hne : xs ≠ []) : addNoogleDocAction (runPM root) fuel n = some [page xs] := by
  have hk : isKind .ExprSelect m = true := List.find?_some hm
  unfold addNoogleDocAction atNode
  rw [up_eq h ha hr (isKind .ExprSelect) hf, hm]
  simp only [Option.some.injEq]
  cases m <;> try cases hk
  rename_i hs e dt p d b
  obtain ⟨hp, ms, ds, rfl⟩ : ∃ hp ms ds, p = .attrPath hp ms ds := by
    cases p <;> first | exact ⟨_, _, _, rfl⟩ | (rcases hl with hl | ⟨d, hl⟩ <;> cases hl)
  obtain ⟨he, hns⟩ : syn e = .var b!"lib" ∧ synL ms = xs.map .name := by
    cases d <;> (rcases hl with hl | ⟨d, hl⟩ <;> first | (cases hl; done) | (injection hl with h1 h2; exact ⟨h1, h2⟩))
  obtain ⟨hv, hi, rfl⟩ := syn_var he
  have hst : staticNames ms = some xs := by
    clear hm hl hne
    induction ms generalizing xs with
    | nil => cases xs with
      | nil => rfl
      | cons => cases hns
    | cons a ms ih => cases xs with
      | nil => cases hns
      | cons x xs =>
        injection hns with h1 h2
        obtain ⟨h3, h4, rfl⟩ := syn_name h1
        rw [staticNames, ih h2]
        rfl
  have hms : ms ≠ [] := by rintro rfl; cases xs with
    | nil => exact hne rfl
    | cons => cases hns
  cases ms with
  | nil => exact absurd rfl hms
  | cons a ms =>
    simp only [noogleSelect, Node.name, pathNames, if_true, hst, page_eq]

theorem slashes_inj : ∀ {xs ys : List Bytes}, (∀ x ∈ xs, (47 : UInt8) ∉ x) → (∀ y ∈ ys, (47 : UInt8) ∉ y) →
    (xs.flatMap fun x => b!"/" ++ x) = (ys.flatMap fun y => b!"/" ++ y) → xs = ys
  | [], [], _, _, _ => rfl
  | [], _ :: _, _, _, h => by simp at h
  | _ :: _, [], _, _, h => by simp at h
  | x :: xs, y :: ys, hx, hy, h => by
    have key : ∀ {x y r r' : Bytes}, (47 : UInt8) ∉ x → (47 : UInt8) ∉ y → (r = [] ∨ r.head? = some 47) → (r' = [] ∨ r'.head? = some 47) →
        x ++ r = y ++ r' → x = y ∧ r = r' := by
      intro x
      induction x with
      | nil =>
        intro y r r' _ h2 h3 h4 h5
        cases y with
        | nil => exact ⟨rfl, h5⟩
        | cons c y =>
          exfalso
          simp at h5
          subst h5
          rcases h3 with h3 | h3
          · cases h3
          · simp at h3; exact h2 (by simp [h3])
      | cons a x ih =>
        intro y r r' h1 h2 h3 h4 h5
        cases y with
        | nil =>
          exfalso
          simp at h5
          subst h5
          rcases h4 with h4 | h4
          · cases h4
          · simp at h4; exact h1 (by simp [h4])
        | cons c y =>
          simp only [List.cons_append, List.cons.injEq] at h5
          obtain ⟨rfl, h5⟩ := h5
          obtain ⟨e1, e2⟩ := ih (fun h => h1 (by simp [h])) (fun h => h2 (by simp [h])) h3 h4 h5
          exact ⟨by rw [e1], e2⟩
    have hd : ∀ l : List Bytes, (l.flatMap fun x => b!"/" ++ x) = [] ∨ (l.flatMap fun x => b!"/" ++ x).head? = some 47 := by
      intro l
      cases l <;> simp
    simp only [List.flatMap_cons, List.cons_append, List.nil_append, List.cons.injEq, true_and] at h
    obtain ⟨e1, e2⟩ := key (hx x (by simp)) (hy y (by simp)) (hd xs) (hd ys) h
    rw [e1, slashes_inj (fun x h => hx x (by simp [h])) (fun y h => hy y (by simp [h])) e2]

/-- **C89**: different attributes have different pages, unless there are slashes in their names. -/
theorem C89_distinct_partial {xs ys : List Bytes} (hx : ∀ x ∈ xs, (47 : UInt8) ∉ x) (hy : ∀ y ∈ ys, (47 : UInt8) ∉ y)
    (h : page xs = page ys) : xs = ys := by
  rw [← page_eq, ← page_eq] at h
  simp only [noogleUrl, List.flatMap_cons] at h
  exact slashes_inj hx hy (List.append_cancel_left (List.append_cancel_left h))

/-- The characters that are written as they are in the path of a URL (RFC 3986: unreserved, sub-delims, `:` and `@`), and `/`. -/
def urlChars : Bytes := Lexical.letters ++ b!"0123456789-._~!$&'()*+,;=:@/"

/-- **C89**: the page of an attribute that is named by identifiers is a URL. -/
theorem C89_url_partial {xs : List Bytes} (h : ∀ x ∈ xs, ∀ c ∈ x, c ∈ Lexical.identChars) : ∀ c ∈ page xs, c ∈ urlChars := by
  have h1 : ∀ c : UInt8, c ∈ Lexical.identChars → c ∈ urlChars := by apply forall_byte; decide +kernel
  have h2 : ∀ c ∈ b!"https://noogle.dev/f" ++ b!"/lib", c ∈ urlChars := by decide +kernel
  rw [← page_eq]
  intro c hc
  simp only [noogleUrl, List.flatMap_cons, ← List.append_assoc] at hc
  rcases List.mem_append.mp hc with hc | hc
  · exact h2 c (by simpa using hc)
  · obtain ⟨x, hx, hc⟩ := List.mem_flatMap.mp hc
    rcases List.mem_append.mp hc with hc | hc
    · simp at hc; subst hc; decide +kernel
    · exact h1 c (h x hx c hc)

/-- The pages offered with the cursor at a column of the first line. -/
noncomputable def pagesAt (src : Bytes) (col : Nat) : Option (List Bytes) :=
  match parse src with
  | some (root, _) =>
    match root.descend ⟨⟨0, col⟩, ⟨0, col⟩⟩ with
    | some n => addNoogleDocAction (runPM root) (sizeOf root) n
    | none => none
  | none => none

example : pagesAt b!"lib.strings.toUpper" 13 = some [b!"https://noogle.dev/f/lib/strings/toUpper"] := by decide +kernel
example : pagesAt b!"lib.strings.${x}" 5 = some [] := by decide +kernel
example : pagesAt b!"lib" 1 = some [] := by decide +kernel

/-- **C89** is violated for names with other characters: they are not escaped, so the page of another attribute is opened, or
it is not a URL. -/
theorem C89_escape_violated : pagesAt b!"lib.\"a/b\"" 5 = some [page [b!"a", b!"b"]] ∧ pagesAt b!"lib.\"a b\"" 5 = some [page [b!"a b"]] ∧
    ∃ c ∈ page [b!"a b"], c ∉ urlChars := by
  refine ⟨by decide +kernel, by decide +kernel, 32, by decide +kernel, by decide +kernel⟩

/-- **C89** is violated for other values of this name, and in the default of an attribute: the page is offered for them, too. -/
theorem C89_lib_violated : pagesAt b!"let lib = { f = 1; }; in lib.f" 29 = some [page [b!"f"]] ∧
    pagesAt b!"lib.f or [ 1 ]" 11 = some [page [b!"f"]] := by
  refine ⟨by decide +kernel, by decide +kernel⟩

/-- There are fixes, files and orders of members as assumed. -/
example : IsText b!"file:///a.nix" ∧ HasUri b!"/d/e.nix" := by
  refine ⟨isText_ascii (by decide +kernel), by decide +kernel, by decide +kernel, ?_⟩
  intro x r h
  simp at h

end Verif.Props
