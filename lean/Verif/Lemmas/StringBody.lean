import Verif.Lemmas.StringLex
/-
Reading the body of a string: it is unique, and without interpolation the rules of Nix and those of the code give the
same.
-/
namespace Verif.Nixf
open Lexical Strings

/-- Only characters. -/
def NoInterp (l : List Piece) : Prop := ∀ x ∈ l, ∃ c, x = .inr c

theorem noInterp_chars (t : Bytes) : NoInterp (chars t) := by
  intro x hx
  obtain ⟨c, -, rfl⟩ := List.mem_map.mp hx
  exact ⟨c, rfl⟩

theorem chars_inj {a b : Bytes} (h : chars a = chars b) : a = b := by
  induction a generalizing b with
  | nil => cases b with
    | nil => rfl
    | cons c b => simp [chars] at h
  | cons d a ih => cases b with
    | nil => simp [chars] at h
    | cons c b =>
      simp only [chars, List.map_cons, List.cons.injEq, Sum.inr.injEq] at h
      rw [h.1, ih h.2]

/-- Rules under which dollar signs and braces are never part of quotes or escapes. -/
structure Sane (R : Rules) : Prop where
  nonempty : R.quote ≠ []
  quote : ∀ c r, c = 36 ∨ c = 123 → ¬ R.quote <+: c :: r
  esc : ∀ c r, c = 36 ∨ c = 123 → R.esc (c :: r) = none
  nil : R.esc [] = none
  pos : ∀ r n t, R.esc r = some (n, t) → 0 < n

theorem sane_dq : Sane dq := by
  refine ⟨by simp [dq], fun c r h => ?_, fun c r h => ?_, rfl, fun r n t h => ?_⟩
  · rcases h with rfl | rfl <;> simp [dq]
  · rcases h with rfl | rfl <;> rfl
  · simp only [dq, dqEsc] at h
    split at h <;> simp at h <;> omega

theorem sane_dqCode : Sane dqCode := ⟨sane_dq.1, sane_dq.2, sane_dq.3, sane_dq.4, sane_dq.5⟩

theorem sane_ind : Sane ind := by
  refine ⟨by simp [ind], fun c r h => ?_, fun c r h => ?_, rfl, fun r n t h => ?_⟩
  · rcases h with rfl | rfl <;> simp [ind]
  · rcases h with rfl | rfl <;> rfl
  · simp only [ind, indEsc] at h
    split at h <;> simp at h <;> omega

theorem sane_indCode : Sane indCode := by
  refine ⟨by simp [indCode], fun c r h => ?_, fun c r h => ?_, rfl, fun r n t h => ?_⟩
  · rcases h with rfl | rfl <;> simp [indCode]
  · rcases h with rfl | rfl <;> rfl
  · simp only [indCode, codeIndEsc] at h
    split at h <;> simp at h <;> omega

theorem body_le {R : Rules} {src : Bytes} {o e : Nat} {l : List Piece} (h : Body R src o l e) : o ≤ e := by
  induction h with
  | close | eof => exact Nat.le_refl _
  | esc o n t l e h _ ih | dollar _ _ _ _ _ _ _ ih => omega
  | char _ _ _ _ _ _ _ _ _ _ ih => omega
  | interp o r n x l e _ _ h _ ih =>
    obtain ⟨-, h1, h2, h3, -⟩ := h
    omega

theorem body_unique {R : Rules} (hR : Sane R) {src : Bytes} {o e e' : Nat} {l l' : List Piece} (h : Body R src o l e)
    (hl : NoInterp l) (h' : Body R src o l' e') : l = l' ∧ e = e' := by
  induction h generalizing l' e' with
  | close o h1 h2 =>
    cases h' with
    | close => exact ⟨rfl, rfl⟩
    | eof _ h => exact ⟨rfl, rfl⟩
    | esc _ n t l _ h => rw [h2] at h; cases h
    | char _ c r l _ h3 h4 h5 => exact absurd h1 h5
    | dollar _ r l _ h3 => rw [h3] at h1; exact absurd h1 (hR.quote _ _ (.inl rfl))
    | interp _ r n x l _ h3 => rw [h3] at h1; exact absurd h1 (hR.quote _ _ (.inl rfl))
  | eof o h1 =>
    cases h' with
    | close => exact ⟨rfl, rfl⟩
    | eof _ h => exact ⟨rfl, rfl⟩
    | esc _ n t l _ h => rw [h1, hR.nil] at h; cases h
    | char _ c r l _ h3 h4 h5 => rw [h1] at h3; cases h3
    | dollar _ r l _ h3 => rw [h1] at h3; cases h3
    | interp _ r n x l _ h3 => rw [h1] at h3; cases h3
  | esc o n t l e h1 _ ih =>
    have hl' : NoInterp l := fun x hx => hl x (by simp [hx])
    cases h' with
    | close _ _ h => rw [h1] at h; cases h
    | eof _ h => rw [h, hR.nil] at h1; cases h1
    | esc _ n' t' l' _ h h3 =>
      rw [h1] at h
      cases h
      obtain ⟨rfl, rfl⟩ := ih hl' h3
      exact ⟨rfl, rfl⟩
    | char _ c r l _ h3 h4 h5 h6 => rw [h1] at h6; cases h6
    | dollar _ r l _ h3 => rw [h3, hR.esc _ _ (.inl rfl)] at h1; cases h1
    | interp _ r n x l _ h3 => rw [h3, hR.esc _ _ (.inl rfl)] at h1; cases h1
  | char o c r l e h1 h2 h3 h4 _ ih =>
    have hl' : NoInterp l := fun x hx => hl x (by simp [hx])
    cases h' with
    | close _ h => exact absurd h h3
    | eof _ h => rw [h] at h1; cases h1
    | esc _ n' t' l' _ h h3 => rw [h4] at h; cases h
    | char _ c' r' l _ h5 _ _ _ h6 =>
      rw [h1] at h5; cases h5
      obtain ⟨rfl, rfl⟩ := ih hl' h6
      exact ⟨rfl, rfl⟩
    | dollar _ r l _ h3 => rw [h1] at h3; cases h3; exact absurd rfl h2
    | interp _ r n x l _ h3 => rw [h1] at h3; cases h3; exact absurd rfl h2
  | dollar o r l e h1 h2 _ ih =>
    have hl' : NoInterp l := fun x hx => hl x (by simp [hx])
    cases h' with
    | close _ h => rw [h1] at h; exact absurd h (hR.quote _ _ (.inl rfl))
    | eof _ h => rw [h] at h1; cases h1
    | esc _ n' t' l' _ h h3 => rw [h1, hR.esc _ _ (.inl rfl)] at h; cases h
    | char _ c' r' l _ h5 h => rw [h1] at h5; cases h5; exact absurd rfl h
    | dollar _ r' l _ h3 _ h4 =>
      obtain ⟨rfl, rfl⟩ := ih hl' h4
      exact ⟨rfl, rfl⟩
    | interp _ r n x l _ h3 h4 => exact absurd h4 h2
  | interp o r n x l e =>
    obtain ⟨c, hc⟩ := hl (.inl n) (by simp)
    cases hc

/-- Without interpolation the code reads a body as Nix does, if it does so for the escapes in it. -/
theorem body_code {R R' : Rules} (hR : Sane R) (hq : R'.quote = R.quote) (hd : R.dollar = dollars) (hd' : R'.dollar = codeDollars)
    (hnone : ∀ r, R.esc r = none → R'.esc r = none) {src : Bytes} {o e : Nat} {l : List Piece} (h : Body R src o l e)
    (hl : NoInterp l) (hsame : ∀ i, o ≤ i → i < e → R.esc (src.drop i) = R'.esc (src.drop i)) : Body R' src o l e := by
  induction h with
  | close o h1 h2 => exact .close o (hq ▸ h1) (hnone _ h2)
  | eof o h1 => exact .eof o h1
  | esc o n t l e h1 h2 ih =>
    have hp := hR.pos _ _ _ h1
    have hle := body_le h2
    refine .esc o n t l e (hsame o (Nat.le_refl _) (by omega) ▸ h1) (ih (fun x hx => hl x (by simp [hx])) ?_)
    exact fun i h => hsame i (by omega)
  | char o c r l e h1 h2 h3 h4 h5 ih =>
    refine .char o c r l e h1 h2 (hq ▸ h3) (hnone _ h4) (ih (fun x hx => hl x (by simp [hx])) ?_)
    exact fun i h => hsame i (by omega)
  | interp o r n x l e =>
    obtain ⟨c, hc⟩ := hl (.inl n) (by simp)
    cases hc
  | dollar o r l e h1 h2 h3 ih =>
    have hl' : NoInterp l := fun x hx => hl x (by simp [hx])
    have ih := ih hl' (fun i h => hsame i (by omega))
    have key : ∀ k, codeDollars (src.drop o) = k → k ≠ 0 → ∀ l', Body R' src (o + k) l' e →
        Body R' src o (chars ((src.drop o).take k) ++ l') e := by
      intro k hk hk0 l' hb
      have hk' : R'.dollar (src.drop o) = k := by rw [hd']; exact hk
      have := Body.dollar (R := R') o r l' e h1 (by rw [hk']; exact hk0) (by rw [hk']; exact hb)
      rwa [hk'] at this
    rw [hd] at h2 h3 ih ⊢
    rw [h1] at h2 h3 ih key ⊢
    rcases r with _ | ⟨c, r⟩
    · exact key 1 rfl (by simp) l ih
    · by_cases hc : c = 36
      · subst hc
        simp only [dollars] at h3 ih ⊢
        have h2' : src.drop (o + 2) = r := drop_more (a := [36, 36]) (by simpa using h1) rfl
        have h1' : src.drop (o + 1) = 36 :: r := drop_next h1
        by_cases hr : r.head? = some 123
        · obtain ⟨r, rfl⟩ : ∃ r', r = 123 :: r' := by cases r <;> simp_all
          cases ih with
          | close _ h => rw [h2', hq] at h; exact absurd h (hR.quote _ _ (.inr rfl))
          | eof _ h => rw [h2'] at h; cases h
          | esc _ n' t' l' _ h h3 => rw [h2', hnone _ (hR.esc _ _ (.inr rfl))] at h; cases h
          | char _ c' r' l _ h5 _ _ _ h6 =>
            rw [h2'] at h5; cases h5
            have := key 3 rfl (by simp) _ h6
            simpa [chars] using this
          | dollar _ r' l _ h5 _ h4 => rw [h2'] at h5; cases h5
          | interp _ r n x l _ h5 h4 => rw [h2'] at h5; cases h5
        · by_cases hr2 : ∃ r', r = 36 :: 123 :: r'
          · obtain ⟨r, rfl⟩ := hr2
            exfalso
            cases h3 with
            | close _ h => rw [h2'] at h; exact absurd h (hR.quote _ _ (.inl rfl))
            | eof _ h => rw [h2'] at h; cases h
            | esc _ n' t' l' _ h h3 => rw [h2', hR.esc _ _ (.inl rfl)] at h; cases h
            | char _ c' r' l _ h5 h => rw [h2'] at h5; cases h5; exact h rfl
            | dollar _ r' l _ h3 h => rw [h2', hd] at h; exact h rfl
            | interp _ r n x l _ h3 h4 => obtain ⟨c, hc⟩ := hl' (.inl n) (by simp); cases hc
          · have k1 : codeDollars (36 :: 36 :: r) = 1 := by
              unfold codeDollars
              split <;> simp_all
            have k2 : codeDollars (36 :: r) = 1 := by
              unfold codeDollars
              split
              · rename_i h; cases h; exact absurd ⟨_, rfl⟩ hr2
              · rename_i h; cases h; simp at hr
              · rfl
            have := Body.dollar (R := R') (o + 1) r l e h1' (by rw [hd', h1', k2]; simp)
              (by rw [hd', h1', k2]; exact ih)
            rw [hd', h1', k2] at this
            have := key 1 k1 (by simp) _ this
            simpa [chars] using this
      · have k : dollars (36 :: c :: r) = if c = 123 then 0 else 1 := by
          unfold dollars
          split
          · rename_i h; cases h; exact absurd rfl hc
          · rename_i h; cases h; rfl
          · split
            · rename_i h; subst h; simp_all
            · rfl
        have k' : codeDollars (36 :: c :: r) = if c = 123 then 0 else 1 := by
          unfold codeDollars
          split
          · rename_i h; cases h; exact absurd rfl hc
          · rename_i h; cases h; rfl
          · split
            · rename_i h; subst h; simp_all
            · rfl
        by_cases hb : c = 123
        · exact absurd (by rw [k, if_pos hb]) h2
        · rw [k, if_neg hb] at ih ⊢
          rw [if_neg hb] at k'
          exact key 1 k' (by simp) _ ih

end Verif.Nixf
