import Verif.Fourier.OlaFenetre
import Verif.Tampon.Props

/-! # C209: the windowed filter processes the complete packets of the concatenated input, however it is cut into calls -/

namespace Verif.Fourier

open Verif.Tampon

theorem blocsF_append {K : Type} [Field K] (A : Trigo K) (t : List K → Option (List K)) (a b : List (List K)) : ∀ c : OlaFen K,
    c.blocs A t (a ++ b) = match c.blocs A t a with
      | none => none
      | some (c', ys) => match c'.blocs A t b with
        | none => none
        | some (c'', zs) => some (c'', ys ++ zs) := by
  induction a with
  | nil =>
    intro c
    simp only [List.nil_append, OlaFen.blocs]
    cases c.blocs A t b with
    | none => rfl
    | some r => rfl
  | cons x a ih =>
    intro c
    simp only [List.cons_append, OlaFen.blocs]
    cases c.stepInterne A t x with
    | none => rfl
    | some r =>
      simp only [ih]
      cases OlaFen.blocs A t r.1 a with
      | none => rfl
      | some r2 =>
        simp only []
        cases OlaFen.blocs A t r2.1 b with
        | none => rfl
        | some r3 => rfl

theorem stepInterneF_Ne {K : Type} [Field K] (A : Trigo K) (t : List K → Option (List K)) (c c' : OlaFen K) (x y : List K)
    (h : c.stepInterne A t x = some (c', y)) : c'.Ne = c.Ne := by
  have hp : ∀ (s s' : OlaFen K) v, s.poseSvg v = some s' → s'.Ne = s.Ne := by
    intro s s' v h
    unfold OlaFen.poseSvg at h
    split at h
    · rw [Option.map_eq_some_iff] at h
      obtain ⟨_, -, rfl⟩ := h
      rfl
    · cases h; rfl
  have ht : ∀ (s s' : OlaFen K), s.transforme A t = some s' → s'.Ne = s.Ne := by
    intro s s' h
    unfold OlaFen.transforme at h
    simp only [Option.bind_eq_bind, Option.bind_eq_some_iff] at h
    obtain ⟨⟨_, _⟩, _, _, _, ⟨_, _⟩, _, h⟩ := h
    split at h
    · cases h
    · cases h; rfl
  have ha : ∀ (s s' : OlaFen K), s.ajoute = some s' → s'.Ne = s.Ne := by
    intro s s' h
    unfold OlaFen.ajoute at h
    simp only [Option.bind_eq_bind, Option.bind_eq_some_iff] at h
    obtain ⟨_, _, _, _, _, _, _, _, _, _, h⟩ := h
    exact hp _ _ _ h
  have h1 : ∀ (s s' : OlaFen K), s.trame1 x = some s' → s'.Ne = s.Ne := by
    intro s s' h
    unfold OlaFen.trame1 at h
    simp only [Option.bind_eq_bind, Option.bind_eq_some_iff] at h
    obtain ⟨_, _, _, _, _, _, _, _, _, _, h⟩ := h
    cases h; rfl
  have h2 : ∀ (s s' : OlaFen K), s.trame2 x = some s' → s'.Ne = s.Ne := by
    intro s s' h
    unfold OlaFen.trame2 at h
    simp only [Option.bind_eq_bind, Option.bind_eq_some_iff] at h
    obtain ⟨_, _, _, _, h⟩ := h
    cases h; rfl
  have h3 : ∀ (s s' : OlaFen K) y, s.sort1 = some (s', y) → s'.Ne = s.Ne := by
    intro s s' y h
    unfold OlaFen.sort1 at h
    simp only [Option.bind_eq_bind, Option.bind_eq_some_iff] at h
    obtain ⟨_, _, _, _, _, _, _, _, _, _, _, _, _, _, _, _, _, _, _, hq, h⟩ := h
    have hq' := hp _ _ _ hq
    cases h
    exact hq'
  have h4 : ∀ (s s' : OlaFen K), s.sort2 = some s' → s'.Ne = s.Ne := by
    intro s s' h
    unfold OlaFen.sort2 at h
    simp only [Option.bind_eq_bind, Option.bind_eq_some_iff] at h
    obtain ⟨_, _, _, _, h⟩ := h
    cases h; rfl
  have h5 : ∀ (s s' : OlaFen K), s.garde x = some s' → s'.Ne = s.Ne := by
    intro s s' h
    unfold OlaFen.garde at h
    simp only [Option.bind_eq_bind, Option.bind_eq_some_iff] at h
    obtain ⟨_, _, _, _, h⟩ := h
    cases h; rfl
  unfold OlaFen.stepInterne at h
  split at h
  · cases h
  · simp only [Option.bind_eq_bind, Option.bind_eq_some_iff] at h
    obtain ⟨s1, e1, s2, e2, s3, e3, ⟨s4, y4⟩, e4, s5, e5, s6, e6, s7, e7, s8, e8, s9, e9, h⟩ := h
    cases h
    rw [h5 _ _ e9, h4 _ _ e8, ha _ _ e7, ht _ _ e6, h2 _ _ e5, h3 _ _ _ e4, ha _ _ e3, ht _ _ e2, h1 _ _ e1]

theorem blocsF_Ne {K : Type} [Field K] (A : Trigo K) (t : List K → Option (List K)) (bs : List (List K)) : ∀ (c c' : OlaFen K) ys,
    c.blocs A t bs = some (c', ys) → c'.Ne = c.Ne := by
  induction bs with
  | nil => intro c c' ys h; simp only [OlaFen.blocs, Option.some.injEq, Prod.mk.injEq] at h; rw [h.1]
  | cons b bs ih =>
    intro c c' ys h
    simp only [OlaFen.blocs] at h
    cases h1 : c.stepInterne A t b with
    | none => rw [h1] at h; cases h
    | some r =>
      rw [h1] at h
      simp only [] at h
      cases h2 : OlaFen.blocs A t r.1 bs with
      | none => rw [h2] at h; cases h
      | some r2 =>
        rw [h2] at h
        cases h
        rw [ih r.1 r2.1 r2.2 h2, stepInterneF_Ne A t c r.1 b r.2 h1]

/-- The calls process exactly the complete packets of the concatenated input. -/
theorem olaF_flux {K : Type} [Field K] (A : Trigo K) (t : List K → Option (List K)) (Ne : Nat) (hN : 0 < Ne) (xs : List (List K)) :
    ∀ (s : OlaF K) (hr : List K), s.coeur.Ne = Ne → Rep Ne s.tampon hr → (s.vide = true → hr = []) →
    ∃ pk, paquets Ne (hr ++ xs.flatten) = paquets Ne hr ++ pk ∧
      (s.flux A t xs).map (fun r => (r.1.coeur, r.2)) = (s.coeur.blocs A t pk).map (fun r => (r.1, r.2.flatten)) := by
  induction xs with
  | nil =>
    intro s hr _ _ _
    exact ⟨[], by simp, by simp [OlaF.flux, OlaFen.blocs]⟩
  | cons x xs ih =>
    intro s hr hNe hrep hv
    rw [OlaF.flux, OlaF.step]
    by_cases hd : s.vide = true ∧ x.length = s.coeur.Ne
    · rw [if_pos hd]
      have h0 := hv hd.1
      subst h0
      cases h1 : s.coeur.stepInterne A t x with
      | none =>
        refine ⟨x :: paquets Ne xs.flatten, ?_, by simp [OlaFen.blocs, h1]⟩
        rw [List.flatten_cons, List.nil_append, paquets_append Ne hN x _ 1 (by omega), paquets_un Ne hN x (by omega),
          paquets_court Ne [] (by simpa using hN)]
        rfl
      | some r =>
        obtain ⟨pk, e1, e2⟩ := ih { s with coeur := r.1 } [] (by rw [← hNe]; exact stepInterneF_Ne A t _ _ _ _ h1) hrep (fun _ => rfl)
        refine ⟨x :: pk, ?_, ?_⟩
        · rw [List.flatten_cons, List.nil_append, paquets_append Ne hN x _ 1 (by omega), paquets_un Ne hN x (by omega),
            paquets_court Ne [] (by simpa using hN)]
          rw [paquets_court Ne [] (by simpa using hN)] at e1
          rw [List.nil_append] at e1
          rw [e1]
          rfl
        · simp only [OlaFen.blocs, h1]
          simp only [] at e2
          cases h2 : OlaF.flux A t { s with coeur := r.1 } xs with
          | none =>
            rw [h2] at e2
            cases h3 : OlaFen.blocs A t r.1 pk with
            | none => rfl
            | some q => rw [h3] at e2; cases e2
          | some q =>
            rw [h2] at e2
            cases h3 : OlaFen.blocs A t r.1 pk with
            | none => rw [h3] at e2; cases e2
            | some q3 =>
              rw [h3] at e2
              simp only [Option.map_some, Option.some.injEq, Prod.mk.injEq] at e2
              simp only [Option.map_some, List.flatten_cons, e2.1, e2.2]
    · rw [if_neg hd]
      obtain ⟨tp, p, e1, r1, k1⟩ := step_rep (0 : K) Ne hN s.tampon hr x hrep
      simp only [e1]
      cases h1 : s.coeur.blocs A t p with
      | none =>
        obtain ⟨pk, e3, _⟩ := ih { coeur := s.coeur, tampon := tp, vide := false } (hr ++ x) hNe r1 (by simp)
        refine ⟨p ++ pk, ?_, ?_⟩
        · rw [List.flatten_cons, ← List.append_assoc, e3, k1, List.append_assoc]
        · rw [blocsF_append, h1]
          rfl
      | some r =>
        obtain ⟨pk, e3, e4⟩ := ih { coeur := r.1, tampon := tp, vide := false } (hr ++ x) (by
          rw [← hNe]; exact blocsF_Ne A t p _ _ _ h1) r1 (by simp)
        refine ⟨p ++ pk, ?_, ?_⟩
        · rw [List.flatten_cons, ← List.append_assoc, e3, k1, List.append_assoc]
        · rw [blocsF_append, h1]
          simp only [] at e4 ⊢
          cases h2 : OlaF.flux A t { coeur := r.1, tampon := tp, vide := false } xs with
          | none =>
            rw [h2] at e4
            cases h3 : OlaFen.blocs A t r.1 pk with
            | none => rfl
            | some q => rw [h3] at e4; cases e4
          | some q =>
            rw [h2] at e4
            cases h3 : OlaFen.blocs A t r.1 pk with
            | none => rw [h3] at e4; cases e4
            | some q3 =>
              rw [h3] at e4
              simp only [Option.map_some, Option.some.injEq, Prod.mk.injEq] at e4
              simp only [Option.map_some, List.flatten_append, e4.1, e4.2]

theorem olaF_creation_flux {K : Type} [Field K] (A : Trigo K) (t : List K → Option (List K)) (c : OlaFen K) (hN : 0 < c.Ne)
    (xs : List (List K)) :
    ((OlaF.creation c).flux A t xs).map (fun r => (r.1.coeur, r.2)) =
      (c.blocs A t (paquets c.Ne xs.flatten)).map (fun r => (r.1, r.2.flatten)) := by
  obtain ⟨pk, e1, e2⟩ := olaF_flux A t c.Ne hN xs (OlaF.creation c) [] rfl (rep_vide c.Ne hN _ rfl rfl (Or.inr rfl)) (fun _ => rfl)
  rw [List.nil_append, paquets_court c.Ne [] (by simpa using hN), List.nil_append] at e1
  rw [e1]
  exact e2

end Verif.Fourier
