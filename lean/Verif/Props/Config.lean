import Verif.Model.Config
import Verif.Props.Sync
import Mathlib.Data.List.Basic
import Mathlib.Data.List.Forall2
/-
Property C78: the configuration that is in effect.
-/
namespace Verif.Props
open Verif.Rpc (Json)
open Verif.Config

/-- A member of an object: absent, or with a value as expected. -/
def MemberIs {α : Type} (fs : List (Bytes × Json)) (key : Bytes) (P : Json → α → Prop) (default a : α) : Prop :=
  (fs.lookup key = none ∧ a = default) ∨ ∃ v, fs.lookup key = some v ∧ P v a

/-- A list of strings. -/
def IsStrings (j : Json) (ss : List Bytes) : Prop := j = .arr (ss.map .str)

/-- An object with at most one member that matters. -/
def IsObject {α : Type} (key : Bytes) (P : Json → α → Prop) (default : α) (j : Json) (a : α) : Prop :=
  ∃ fs, j = .obj fs ∧ MemberIs fs key P default a

/-- The schema of the configuration, as documented (nixd/docs/configuration.md). -/
structure IsConfiguration (j : Json) (c : Configuration) : Prop where
  obj : ∃ fs, j = .obj fs ∧
    MemberIs fs b!"formatting" (fun v cmd => (∃ s, v = .str s ∧ cmd = [s]) ∨ IsObject b!"command" IsStrings [b!"nixfmt"] v cmd)
      [b!"nixfmt"] c.command ∧
    MemberIs fs b!"options" (fun v os => ∃ gs, v = .obj gs ∧
      List.Forall₂ (fun g o => g.1 = o.1 ∧ IsObject b!"expr" (fun v s => v = .str s) [] g.2 o.2) gs os) [] c.options ∧
    MemberIs fs b!"nixpkgs" (IsObject b!"expr" (fun v s => v = .str s) []) [] c.nixpkgs ∧
    MemberIs fs b!"diagnostic" (IsObject b!"suppress" IsStrings []) [] c.suppress

theorem mapOptional_iff {α : Type} {fs : List (Bytes × Json)} {key : Bytes} {dec : Decoder α} {P : Json → α → Prop} {r a : α}
    (h : ∀ v a, dec v r = some a ↔ P v a) : mapOptional key dec (.obj fs) r = some a ↔ MemberIs fs key P r a := by
  unfold mapOptional MemberIs
  cases hl : fs.lookup key <;> simp [Json.get, hl, h, eq_comm]

theorem decodeString_iff (v : Json) (a : Bytes) (r : Bytes) : decodeString v r = some a ↔ v = .str a := by
  cases v <;> simp [decodeString]

theorem mapM_iff {α β : Type} {f : α → Option β} : ∀ {l : List α} {r : List β}, l.mapM f = some r ↔ List.Forall₂ (f · = some ·) l r
  | [], r => by cases r <;> simp
  | a :: l, r => by
    have ih := fun r => mapM_iff (f := f) (l := l) (r := r)
    rw [List.mapM_cons]
    cases hf : f a with
    | none =>
      constructor
      · simp
      · rintro (_ | ⟨h, -⟩)
        rw [hf] at h; cases h
    | some b =>
      cases hl : l.mapM f with
      | none =>
        constructor
        · simp
        · rintro (_ | ⟨-, h⟩)
          rw [(ih _).mpr h] at hl; cases hl
      | some bs =>
        constructor
        · intro h
          simp only [bind, pure, Option.bind_some, Option.some.injEq] at h
          subst h
          exact .cons hf ((ih _).mp hl)
        · rintro (_ | ⟨h, h'⟩)
          rw [hf] at h; cases h
          rw [(ih _).mpr h'] at hl; cases hl
          rfl

theorem mapM_strings (l : List Json) (ss : List Bytes) : l.mapM (decodeString · []) = some ss ↔ l = ss.map .str := by
  rw [mapM_iff]
  simp only [decodeString_iff]
  constructor
  · intro h
    induction h with
    | nil => rfl
    | cons h _ ih => simp [h, ih]
  · rintro rfl
    induction ss with
    | nil => exact .nil
    | cons s ss ih => exact .cons rfl ih

theorem decodeStrings_iff (v : Json) (ss : List Bytes) (r : List Bytes) : decodeStrings v r = some ss ↔ IsStrings v ss := by
  cases v <;> simp [decodeStrings, IsStrings, mapM_strings]

theorem object_iff {α : Type} {key : Bytes} {dec : Decoder α} {P : Json → α → Prop} {r : α}
    (h : ∀ v a, dec v r = some a ↔ P v a) (v : Json) (a : α) :
    (if isObject v then mapOptional key dec v r else none) = some a ↔ IsObject key P r v a := by
  cases v <;> simp [isObject, IsObject, mapOptional_iff h]

theorem decodeProvider_iff (v : Json) (a : Bytes) : decodeProvider v [] = some a ↔ IsObject b!"expr" (fun v s => v = .str s) [] v a :=
  object_iff (fun v a => decodeString_iff v a []) v a

theorem decodeOptions_iff (v : Json) (os : List (Bytes × Bytes)) (r : List (Bytes × Bytes)) : decodeOptions v r = some os ↔
    ∃ gs, v = .obj gs ∧ List.Forall₂ (fun g o => g.1 = o.1 ∧ IsObject b!"expr" (fun v s => v = .str s) [] g.2 o.2) gs os := by
  cases v with
  | obj gs =>
    simp only [decodeOptions, Json.obj.injEq, exists_eq_left', mapM_iff]
    have : ∀ (g : Bytes × Json) (o : Bytes × Bytes), (decodeProvider g.2 []).map (g.1, ·) = some o ↔
        g.1 = o.1 ∧ IsObject b!"expr" (fun v s => v = .str s) [] g.2 o.2 := by
      rintro g ⟨a, b⟩
      rw [← decodeProvider_iff]
      simp only [Option.map_eq_some_iff, Prod.mk.injEq]
      constructor
      · rintro ⟨e, h1, h2, h3⟩; exact ⟨h2, h3 ▸ h1⟩
      · rintro ⟨h1, h2⟩; exact ⟨b, h2, h1, rfl⟩
    simp only [this]
  | _ => simp [decodeOptions]

/-- **C78**, decoding: a configuration is accepted exactly if it follows the schema, and what is not given has its default
value. -/
theorem C78_decode (j : Json) (c : Configuration) : decodeConfiguration j {} = some c ↔ IsConfiguration j c := by
  cases j with
  | obj fs =>
    have h1 := fun c => mapOptional_iff (fs := fs) (key := b!"formatting") (dec := decodeFormatting) (r := [b!"nixfmt"]) (a := c)
      (P := fun v cmd => (∃ s, v = .str s ∧ cmd = [s]) ∨ IsObject b!"command" IsStrings [b!"nixfmt"] v cmd) (by
        intro v a
        have := object_iff (key := b!"command") (fun v a => decodeStrings_iff v a [b!"nixfmt"]) v a
        rw [← this]
        cases v <;> simp [decodeFormatting, isObject, eq_comm])
    have h2 := fun c => mapOptional_iff (fs := fs) (key := b!"options") (r := []) (a := c) (fun v a => decodeOptions_iff v a [])
    have h3 := fun c => mapOptional_iff (fs := fs) (key := b!"nixpkgs") (r := []) (a := c) decodeProvider_iff
    have h4 := fun c => mapOptional_iff (fs := fs) (key := b!"diagnostic") (dec := decodeDiagnostic) (r := []) (a := c)
      (P := IsObject b!"suppress" IsStrings []) (object_iff (key := b!"suppress") fun v a => decodeStrings_iff v a [])
    simp only [decodeConfiguration, isObject, if_true]
    constructor
    · intro h
      simp only [bind, Option.bind_eq_some_iff] at h
      obtain ⟨a, ha, b, hb, d, hd, e, he, h⟩ := h
      cases h
      exact ⟨fs, rfl, (h1 _).mp ha, (h2 _).mp hb, (h3 _).mp hd, (h4 _).mp he⟩
    · rintro ⟨fs', h, ha, hb, hd, he⟩
      cases h
      simp [(h1 _).mpr ha, (h2 _).mpr hb, (h3 _).mpr hd, (h4 _).mpr he]
  | _ =>
    simp only [decodeConfiguration, isObject]
    constructor
    · simp
    · rintro ⟨fs, h, -⟩
      cases h

/-- The configurations accepted during a run, in the order they are received. -/
inductive Accepted : List (Option Json) → List Configuration → Prop
  | nil : Accepted [] []
  | accept {j : Json} {js : List Json} {c : Configuration} {rs : List (Option Json)} {cs : List Configuration}
      (h : IsConfiguration j c) (hr : Accepted rs cs) : Accepted (some (.arr (j :: js)) :: rs) (c :: cs)
  | ignore {r : Option Json} {rs : List (Option Json)} {cs : List Configuration}
      (h : ∀ j js c, r = some (.arr (j :: js)) → ¬ IsConfiguration j c) (hr : Accepted rs cs) : Accepted (r :: rs) cs

theorem lookup_setOption (n name expr : Bytes) : ∀ os : List (Bytes × Bytes),
    (setOption name expr os).lookup n = if n = name then some expr else os.lookup n
  | [] => by
    by_cases h : n = name
    · subst h; simp [setOption, List.lookup]
    · have : (n == name) = false := by simpa using h
      simp [setOption, List.lookup, h, this]
  | (m, e) :: os => by
    have ih := lookup_setOption n name expr os
    rw [setOption]
    by_cases hm : m = name
    · subst hm
      rw [if_pos rfl, List.lookup_cons, List.lookup_cons]
      by_cases h : n = m
      · subst h; simp
      · have : (n == m) = false := by simpa using h
        simp [this, h]
    · rw [if_neg hm, List.lookup_cons, List.lookup_cons, ih]
      by_cases h : n = m
      · subst h
        simp [hm]
      · have : (n == m) = false := by simpa using h
        simp [this]

theorem lookup_setOptions (n : Bytes) : ∀ (cs os : List (Bytes × Bytes)), (cs.map (·.1)).Nodup →
    (cs.foldl (fun os o => setOption o.1 o.2 os) os).lookup n = (cs.lookup n).or (os.lookup n)
  | [], os, _ => by simp
  | (m, e) :: cs, os, hd => by
    simp only [List.map_cons, List.nodup_cons] at hd
    rw [List.foldl_cons, lookup_setOptions n cs _ hd.2, lookup_setOption, List.lookup_cons]
    by_cases h : n = m
    · subst h
      have : cs.lookup n = none := by
        rw [List.lookup_eq_none_iff]
        intro p hp
        have : n ≠ p.1 := fun h => hd.1 (h ▸ List.mem_map_of_mem hp)
        simpa using this
      simp [this]
    · have : (n == m) = false := by simpa using h
      simp [this, h]

theorem getLastD_cons' {α : Type} (a d : α) (l : List α) : (a :: l).getLastD d = l.getLastD a := by
  cases l with
  | nil => rfl
  | cons b l => rfl

theorem receive_cases {s : Srv} {r : Option Json} (hn : r ≠ some (.arr [])) :
    (∃ j js c, r = some (.arr (j :: js)) ∧ IsConfiguration j c ∧ receive s r = some (updateConfig s c)) ∨
    ((∀ j js c, r = some (.arr (j :: js)) → ¬ IsConfiguration j c) ∧ receive s r = some s) := by
  match r with
  | none => exact .inr ⟨by simp, rfl⟩
  | some (.arr []) => exact absurd rfl hn
  | some (.arr (j :: js)) =>
    cases hc : decodeConfiguration j {} with
    | some c => exact .inl ⟨j, js, c, rfl, (C78_decode j c).mp hc, by simp [receive, hc]⟩
    | none =>
      refine .inr ⟨?_, by simp [receive, hc]⟩
      intro j' js' c h hi
      cases h
      rw [(C78_decode j c).mpr hi] at hc
      cases hc
  | some .null => exact .inr ⟨by simp, rfl⟩
  | some (.bool _) => exact .inr ⟨by simp, rfl⟩
  | some (.num _ _) => exact .inr ⟨by simp, rfl⟩
  | some (.str _) => exact .inr ⟨by simp, rfl⟩
  | some (.obj _) => exact .inr ⟨by simp, rfl⟩

theorem receiveAll_accepted {rs : List (Option Json)} {cs : List Configuration} (ha : Accepted rs cs) :
    ∀ {s0 s : Srv}, receiveAll s0 rs = some s → s = cs.foldl updateConfig s0 := by
  induction ha with
  | nil => intro s0 s h; cases h; rfl
  | @accept j js c rs cs h hr ih =>
    intro s0 s hs
    simp only [receiveAll, receive, (C78_decode j c).mpr h, Option.bind_some] at hs
    exact ih hs
  | @ignore r rs cs h hr ih =>
    intro s0 s hs
    by_cases hn : r = some (.arr [])
    · subst hn; simp [receiveAll, receive] at hs
    · rcases receive_cases (s := s0) hn with ⟨j, js, c, h1, h2, -⟩ | ⟨-, h2⟩
      · exact absurd h2 (h j js c h1)
      · simp only [receiveAll, h2, Option.bind_some] at hs
        exact ih hs

theorem update_all : ∀ (cs : List Configuration) (s : Srv), (∀ c ∈ cs, (c.options.map (·.1)).Nodup) →
    (cs.foldl updateConfig s).config = cs.getLastD s.config ∧
    (cs.foldl updateConfig s).suppressed = (cs.getLast?.map (Verif.Server.updateSuppressed ·.suppress)).getD s.suppressed ∧
    (cs.foldl updateConfig s).nixpkgs = ((cs.map (·.nixpkgs)).filter (· ≠ [])).getLastD s.nixpkgs ∧
    ∀ n, (cs.foldl updateConfig s).options.lookup n = (cs.filterMap (·.options.lookup n)).getLast?.or (s.options.lookup n)
  | [], s, _ => by simp
  | c :: cs, s, hd => by
    obtain ⟨h1, h2, h3, h4⟩ := update_all cs (updateConfig s c) fun c hc => hd c (List.mem_cons_of_mem _ hc)
    rw [List.foldl_cons, h1, h2, h3]
    refine ⟨by rw [getLastD_cons']; rfl, ?_, ?_, fun n => ?_⟩
    · rw [List.getLast?_cons]
      cases cs.getLast? <;> simp [updateConfig]
    · rw [List.map_cons]
      by_cases hn : c.nixpkgs = []
      · simp [hn, updateConfig]
      · rw [List.filter_cons_of_pos (by simpa using hn), getLastD_cons']
        simp [updateConfig, hn]
    · rw [h4, List.filterMap_cons]
      have := lookup_setOptions n c.options s.options (hd c (by simp))
      rw [show (updateConfig s c).options = c.options.foldl (fun os o => setOption o.1 o.2 os) s.options from rfl, this]
      cases hc : c.options.lookup n with
      | none => simp
      | some e =>
        rw [List.getLast?_cons]
        cases (cs.filterMap (·.options.lookup n)).getLast? <;> simp

/-- **C78**, what is in effect: the command for formatting and the suppressed diagnostics are those of the last accepted
configuration, the expression of the packages is the last one given, and for each set of options the last one given. -/
theorem C78_effect {d : Defaults} {cli : Configuration} {rs : List (Option Json)} {cs : List Configuration} {s : Srv}
    (ha : Accepted rs cs) (hd : ∀ c ∈ cs, (c.options.map (·.1)).Nodup) (hs : receiveAll (start d cli) rs = some s) :
    s.config = cs.getLastD cli ∧
    (∀ k : Nixf.DK, k ∈ s.suppressed ↔ ∃ c, cs.getLast? = some c ∧ k.sname ∈ c.suppress) ∧
    s.nixpkgs = ((cs.map (·.nixpkgs)).filter (· ≠ [])).getLastD d.nixpkgs ∧
    ∀ n, s.options.lookup n = (cs.filterMap (·.options.lookup n)).getLast?.or (if n = b!"nixos" then some d.nixos else none) := by
  have := receiveAll_accepted ha hs
  subst this
  obtain ⟨h1, h2, h3, h4⟩ := update_all cs (start d cli) hd
  refine ⟨h1, fun k => ?_, h3, fun n => ?_⟩
  · rw [h2]
    cases cs.getLast? with
    | none => simp [start]
    | some c =>
      have := C41_suppressed_set c.suppress k
      simp only [Verif.Server.isSuppressed, List.contains_iff_mem] at this
      simp [this]
  · rw [h4]
    congr 1
    by_cases h : n = b!"nixos"
    · subst h; simp [start]
    · have : (n == b!"nixos") = false := by simpa using h
      rw [if_neg h]
      simp [start, List.lookup_cons, this]

/-- **C78**, no reply ends the server, except for one. -/
theorem C78_received {s : Srv} {rs : List (Option Json)} (h : some (.arr []) ∉ rs) : ∃ s', receiveAll s rs = some s' := by
  induction rs generalizing s with
  | nil => exact ⟨s, rfl⟩
  | cons r rs ih =>
    simp only [List.mem_cons, not_or] at h
    rcases receive_cases (s := s) (Ne.symm h.1) with ⟨_, _, _, -, -, h2⟩ | ⟨-, h2⟩
    · simp only [receiveAll, h2, Option.bind_some]
      exact ih h.2
    · simp only [receiveAll, h2, Option.bind_some]
      exact ih h.2

/-- **C78**, the reply without elements: the first one is read though there is none. -/
theorem C78_empty_reply_violated (s : Srv) : receive s (some (.arr [])) = none := rfl

/-- **C78**, `null` for a part of the configuration (the usual value of settings that are not set): the other parts are not
applied either. -/
theorem C78_null_violated (s : Srv) (fs : List (Bytes × Json)) (js : List Json) (k : Bytes)
    (hk : k ∈ [b!"formatting", b!"options", b!"nixpkgs", b!"diagnostic"]) (hn : fs.lookup k = some .null) :
    receive s (some (.arr (.obj fs :: js))) = some s := by
  have : decodeConfiguration (.obj fs) {} = none := by
    rw [Option.eq_none_iff_forall_ne_some]
    intro c hc
    obtain ⟨fs', h, h1, h2, h3, h4⟩ := ((C78_decode _ _).mp hc).obj
    cases h
    simp only [List.mem_cons, List.not_mem_nil, or_false] at hk
    rcases hk with rfl | rfl | rfl | rfl
    · rcases h1 with ⟨h1, -⟩ | ⟨v, h1, h⟩
      · rw [hn] at h1; cases h1
      · rw [hn] at h1; cases h1
        rcases h with ⟨s, h, -⟩ | ⟨gs, h, -⟩ <;> cases h
    · rcases h2 with ⟨h1, -⟩ | ⟨v, h1, gs, h, -⟩
      · rw [hn] at h1; cases h1
      · rw [hn] at h1; cases h1; cases h
    · rcases h3 with ⟨h1, -⟩ | ⟨v, h1, gs, h, -⟩
      · rw [hn] at h1; cases h1
      · rw [hn] at h1; cases h1; cases h
    · rcases h4 with ⟨h1, -⟩ | ⟨v, h1, gs, h, -⟩
      · rw [hn] at h1; cases h1
      · rw [hn] at h1; cases h1; cases h
  simp [receive, this]

/-- **C78**, the configuration of the command line: only the command for formatting is used. Expressions, options and
suppressed diagnostics given there never have any effect. -/
theorem C78_command_line_violated (d : Defaults) (cli cli' : Configuration) {rs : List (Option Json)} {s : Srv}
    (hs : receiveAll (start d cli) rs = some s) :
    ∃ s', receiveAll (start d cli') rs = some s' ∧ s'.nixpkgs = s.nixpkgs ∧ s'.options = s.options ∧
      s'.suppressed = s.suppressed := by
  suffices H : ∀ (rs : List (Option Json)) (a b s : Srv), a.nixpkgs = b.nixpkgs → a.options = b.options →
      a.suppressed = b.suppressed → receiveAll a rs = some s →
      ∃ s', receiveAll b rs = some s' ∧ s'.nixpkgs = s.nixpkgs ∧ s'.options = s.options ∧ s'.suppressed = s.suppressed from
    H rs (start d cli) (start d cli') s rfl rfl rfl hs
  intro rs
  induction rs with
  | nil => intro a b s h1 h2 h3 h; cases h; exact ⟨b, rfl, h1.symm, h2.symm, h3.symm⟩
  | cons r rs ih =>
    intro a b s h1 h2 h3 h
    by_cases hn : r = some (.arr [])
    · subst hn; simp [receiveAll, receive] at h
    · rcases receive_cases (s := a) hn with ⟨j, js, c, hr, hc, ha⟩ | ⟨hr, ha⟩
      · simp only [receiveAll, ha, Option.bind_some] at h
        have hb : receive b r = some (updateConfig b c) := by
          subst hr
          simp [receive, (C78_decode j c).mpr hc]
        simp only [receiveAll, hb, Option.bind_some]
        exact ih (updateConfig a c) _ s (by simp [updateConfig, h1]) (by simp [updateConfig, h2]) rfl h
      · simp only [receiveAll, ha, Option.bind_some] at h
        have hb : receive b r = some b := by
          rcases receive_cases (s := b) hn with ⟨j, js, c, hr', hc, -⟩ | ⟨-, hb⟩
          · exact absurd hc (hr j js c hr')
          · exact hb
        simp only [receiveAll, hb, Option.bind_some]
        exact ih _ _ s h1 h2 h3 h

/-- A configuration with one set of options and an expression for packages. -/
def withOptions : Json :=
  .obj [(b!"nixpkgs", .obj [(b!"expr", .str b!"p")]), (b!"options", .obj [(b!"home", .obj [(b!"expr", .str b!"h")])])]

/-- **C78**, settings that are removed: after the empty configuration is accepted, the options and the packages of the
configuration before it are still in use. -/
theorem C78_removed_violated : ∃ (j : Json) (c : Configuration), IsConfiguration j c ∧ IsConfiguration (.obj []) {} ∧
    ∀ (d : Defaults) (cli : Configuration), ∃ s, receiveAll (start d cli) [some (.arr [j]), some (.arr [.obj []])] = some s ∧
      s.config = {} ∧ s.nixpkgs = b!"p" ∧ s.options.lookup b!"home" = some b!"h" := by
  refine ⟨withOptions, { options := [(b!"home", b!"h")], nixpkgs := b!"p" }, (C78_decode _ _).mp (by decide +kernel),
    (C78_decode _ _).mp (by decide +kernel), fun d cli => ⟨_, rfl, rfl, rfl, ?_⟩⟩
  simp [start, updateConfig, setOption, List.lookup]

/-- Members that are not known are ignored, a single string is accepted as command, and defaults are used. -/
example : decodeConfiguration (.obj [(b!"x", .null), (b!"formatting", .str b!"alejandra"),
      (b!"diagnostic", .obj [(b!"suppress", .arr [.str b!"sema-extra-with"])])]) {} =
    some { command := [b!"alejandra"], suppress := [b!"sema-extra-with"] } := by decide +kernel

example : Accepted [none, some (.arr [.obj []]), some .null] [{}] :=
  .ignore (by simp) (.accept ((C78_decode _ _).mp (by decide +kernel)) (.ignore (by simp) .nil))

example : receive (start ⟨[], []⟩ {}) (some (.arr [withOptions])) =
    some ⟨{ options := [(b!"home", b!"h")], nixpkgs := b!"p" }, b!"p", [(b!"nixos", []), (b!"home", b!"h")], []⟩ := by decide +kernel

end Verif.Props
