import Verif.Filtre.SoisFinal
import Verif.Conception.AnalyseProps

/-!
# Limits of `filtre_sois` (C138), consequences for the impulse responses (C135)
-/

namespace Verif.Filtre

open Verif.FracRat Finset

/-- **C138 (what a successful construction guarantees).**  Every index is used exactly once (in a section or in the final first-order section), and the sections are those of pairs whose sums and products have small imaginary parts. -/
theorem C138_construction {T : Type} [Zero T] (φ : ℝ → T) (forme2 : Bool) (h : FRat ℂ) (c : Chaine T T) (hc : chaineSois φ forme2 h = some c) :
    h.numer.racines = true ∧ h.denom.racines = true ∧ h.numer.coefs.length = h.denom.coefs.length ∧ ∃ (P : List (ℕ × ℕ)) (rest : List ℕ), (List.range h.numer.coefs.length).Perm (indices P ++ rest) ∧ rest.length = h.numer.coefs.length % 2 ∧
      c.sections = P.map (fun q : ℕ × ℕ => sectionPaire φ forme2 h.numer.coefs h.denom.coefs q.1 q.2) ∧ (∀ q ∈ P, ecartPaire h.numer.coefs h.denom.coefs q.1 q.2 ≤ 1e-5) ∧
      ∀ i ∈ rest, |(h.denom.coefs.getD i 0).im| + |(h.numer.coefs.getD i 0).im| ≤ 1e-5 := by
  unfold chaineSois at hc
  rw [Option.bind_eq_some_iff] at hc
  obtain ⟨z, ez, hc⟩ := hc
  rw [Option.bind_eq_some_iff] at hc
  obtain ⟨p, ep, hc⟩ := hc
  unfold racinesComplexes at ez ep
  split_ifs at ez with rz
  split_ifs at ep with rp
  rw [Option.some.injEq] at ez ep
  subst ez ep
  by_cases hl : h.numer.coefs.length = h.denom.coefs.length
  swap
  · rw [if_pos hl] at hc; simp at hc
  rw [if_neg (not_not.2 hl), Option.bind_eq_some_iff] at hc
  obtain ⟨⟨S, rest⟩, e, hc⟩ := hc
  obtain ⟨P, lP, hS, hP, ex⟩ := paires_some φ forme2 _ _ _ _ _ _ e
  have hlen := hP.length_eq
  have li : (indices P).length = 2 * P.length := by
    unfold indices
    rw [List.length_flatMap]
    simp
    omega
  rw [List.length_range, List.length_append, li, lP] at hlen
  refine ⟨rz, rp, hl, P, rest, hP, by omega, ?_⟩
  simp only at hc
  split_ifs at hc with h2
  · rw [Option.some.injEq] at hc
    rw [← hc]
    refine ⟨hS, ex, fun i hi => ?_⟩
    have : rest = [] := List.length_eq_zero_iff.1 (by omega)
    rw [this] at hi
    simp at hi
  · split at hc
    · rename_i i _
      split_ifs at hc with h3
      rw [Option.some.injEq] at hc
      rw [← hc]
      refine ⟨hS, ex, fun j hj => ?_⟩
      simp only [List.mem_singleton] at hj
      rw [hj]
      exact not_lt.1 h3
    · simp at hc

/-- The complex numbers as samples. -/
noncomputable def phiC : ℝ →+* ℂ := Complex.ofRealHom

/-- Non-vacuity: a real band-pass filter with complex zeros and poles, in the order `a, b, b̄, ā`. -/
example : ∃ c, chaineSois (RingHom.id ℝ) true ⟨{ coefs := [1, -1, 1, -1], racines := true, mlt := 3 }, { coefs := [⟨0, 1 / 2⟩, ⟨1 / 2, 1 / 3⟩, ⟨1 / 2, -1 / 3⟩, ⟨0, -1 / 2⟩], racines := true, mlt := 1 }⟩ = some c := by
  obtain ⟨c, hc, -⟩ := C138_pair (RingHom.id ℝ) Complex.ofRealHom (fun r => rfl) true ⟨{ coefs := [1, -1, 1, -1], racines := true, mlt := 3 }, { coefs := [⟨0, 1 / 2⟩, ⟨1 / 2, 1 / 3⟩, ⟨1 / 2, -1 / 3⟩, ⟨0, -1 / 2⟩], racines := true, mlt := 1 }⟩
    ⟨rfl, rfl, rfl, by simp, by simp, by simp⟩ 2 rfl (fun i => 3 - i) (by
      intro i hi
      have : i = 0 ∨ i = 1 ∨ i = 2 ∨ i = 3 := by omega
      rcases this with rfl | rfl | rfl | rfl <;> refine ⟨by norm_num, by norm_num, by norm_num, Or.inl ⟨by simp, by simp⟩, Or.inr ?_⟩ <;> apply Complex.ext <;> simp <;> norm_num)
  exact ⟨c, hc⟩

theorem impair_ok : ∃ c, chaineSois (RingHom.id ℝ) true ⟨{ coefs := [-1, -1, -1], racines := true, mlt := 1 }, { coefs := [⟨0, 1 / 2⟩, ⟨1 / 2, 0⟩, ⟨0, -1 / 2⟩], racines := true, mlt := 1 }⟩ = some c := by
  have hi : ∀ i : ℕ, i < 2 * 1 + 1 → i ≠ 1 → i = 0 ∨ i = 2 := by omega
  obtain ⟨c, hc, -⟩ := C138_impair (RingHom.id ℝ) Complex.ofRealHom (fun r => rfl) true ⟨{ coefs := [-1, -1, -1], racines := true, mlt := 1 }, { coefs := [⟨0, 1 / 2⟩, ⟨1 / 2, 0⟩, ⟨0, -1 / 2⟩], racines := true, mlt := 1 }⟩
    ⟨rfl, rfl, rfl, by simp, by simp, by simp⟩ 1 rfl 1 (by norm_num) (by simp) (by simp) (fun i => 2 - i) (by
      intro i h1 h2
      rcases hi i h1 h2 with rfl | rfl <;> refine ⟨by norm_num, by norm_num, by norm_num, by norm_num, Or.inl ⟨by simp, by simp⟩, Or.inr ?_⟩ <;> apply Complex.ext <;> simp <;> norm_num) (by
      intro i h1 h2 j h3 h4 _ h6
      have : j = 0 ∨ j = 1 ∨ j = 2 := by omega
      rcases hi i h1 h2 with rfl | rfl <;> rcases this with rfl | rfl | rfl <;> first | rfl | (exfalso; exact h4 rfl) | exact absurd h6 (by intro h; rcases h with ⟨h, _⟩ | h <;> simp [Complex.ext_iff] at h)) (by
      intro i h1 h2
      omega)
  exact ⟨c, hc⟩

/-- **C138 fails depending on the order of the roots.**  The third-order filter with zeros `-1, -1, -1` and poles `i/2, 1/2, -i/2` is built, but the construction of the same filter with the poles given as `1/2, i/2, -i/2` raises an error. -/
theorem C138_ordre_refute : (∃ c, chaineSois (RingHom.id ℝ) true ⟨{ coefs := [-1, -1, -1], racines := true, mlt := 1 }, { coefs := [⟨0, 1 / 2⟩, ⟨1 / 2, 0⟩, ⟨0, -1 / 2⟩], racines := true, mlt := 1 }⟩ = some c) ∧
    chaineSois (RingHom.id ℝ) true ⟨{ coefs := [-1, -1, -1], racines := true, mlt := 1 }, { coefs := [⟨1 / 2, 0⟩, ⟨0, 1 / 2⟩, ⟨0, -1 / 2⟩], racines := true, mlt := 1 }⟩ = none := by
  refine ⟨impair_ok, ?_⟩
  have e1 : ecartPaire [-1, -1, -1] [⟨1 / 2, 0⟩, ⟨0, 1 / 2⟩, ⟨0, -1 / 2⟩] 0 1 = 3 / 4 := by
    simp [ecartPaire]; norm_num
  have e2 : ecartPaire [-1, -1, -1] [⟨1 / 2, 0⟩, ⟨0, 1 / 2⟩, ⟨0, -1 / 2⟩] 0 2 = 3 / 4 := by
    simp [ecartPaire]; norm_num
  have h : sectionsPaires (RingHom.id ℝ) true [-1, -1, -1] [⟨1 / 2, 0⟩, ⟨0, 1 / 2⟩, ⟨0, -1 / 2⟩] 1 [0, 1, 2] = none := by
    rw [sectionsPaires]
    simp only [meilleurePaire, e1, e2]
    norm_num
  unfold chaineSois racinesComplexes
  simp only [if_true, Option.bind_some]
  rw [if_neg (by simp)]
  rw [show (List.length [(-1 : ℂ), -1, -1]) / 2 = 1 from rfl, show List.range (List.length [(-1 : ℂ), -1, -1]) = [0, 1, 2] from rfl, h]
  rfl

/-- **C138 fails when the zeros and the poles are not paired at the same indices**: real coefficients (conjugate pairs), but the zeros are in the order `i, -i, 2i, -2i` and the poles in the order `a, b, ā, b̄`. -/
theorem C138_indices_refute : chaineSois (RingHom.id ℝ) true
    ⟨{ coefs := [Complex.I, -Complex.I, 2 * Complex.I, -2 * Complex.I], racines := true, mlt := 1 }, { coefs := [Complex.I / 2, Complex.I / 4, -Complex.I / 2, -Complex.I / 4], racines := true, mlt := 1 }⟩ = none := by
  set z : List ℂ := [Complex.I, -Complex.I, 2 * Complex.I, -2 * Complex.I] with hz
  set p : List ℂ := [Complex.I / 2, Complex.I / 4, -Complex.I / 2, -Complex.I / 4] with hp
  have e1 : ecartPaire z p 0 1 = 3 / 4 := by simp [ecartPaire, hz, hp]; norm_num
  have e2 : ecartPaire z p 0 2 = 3 := by simp [ecartPaire, hz, hp]; norm_num
  have e3 : ecartPaire z p 0 3 = 5 / 4 := by simp [ecartPaire, hz, hp]; norm_num
  have h : sectionsPaires (RingHom.id ℝ) true z p 2 [0, 1, 2, 3] = none := by
    rw [sectionsPaires]
    simp only [meilleurePaire, e1, e2, e3]
    norm_num
  unfold chaineSois racinesComplexes
  simp only [if_true, Option.bind_some]
  rw [if_neg (by simp [hz, hp])]
  rw [show z.length = 4 from rfl, show List.range 4 = [0, 1, 2, 3] from rfl, h]
  rfl

/-- **C138 (real fractions).**  `filtre_sois` on a real fraction given by its coefficients builds the filter of a root form with the same values, provided the polynomial solver returns all the roots (exact factorisation of the numerator and of the denominator). -/
theorem C138_reel {T : Type} [Zero T] (φ : ℝ → T) (solveur : List ℝ → List ℂ) (forme2 : Bool) (n d : List ℝ) (hn : n ≠ []) (hd : d ≠ [])
    (en : ∀ x : ℂ, valCoefs Complex.ofRealHom n x = (n.getLast hn : ℂ) * ((solveur n).map fun r : ℂ => x - r).prod) (ed : ∀ x : ℂ, valCoefs Complex.ofRealHom d x = (d.getLast hd : ℂ) * ((solveur d).map fun r : ℂ => x - r).prod) :
    ∃ h : FRat ℂ, soisReel φ solveur forme2 ⟨Poly.deCoefs n, Poly.deCoefs d⟩ = chaineSois φ forme2 h ∧ h.numer.racines = true ∧ h.denom.racines = true ∧ h.numer.coefs = solveur n ∧ h.denom.coefs = solveur d ∧
      h.numer.mlt = (n.getLast hn : ℂ) ∧ h.denom.mlt = (d.getLast hd : ℂ) ∧ ∀ x : ℂ, h.horner (id : ℂ → ℂ) x = (⟨Poly.deCoefs n, Poly.deCoefs d⟩ : FRat ℝ).horner Complex.ofRealHom x := by
  refine ⟨⟨(Poly.deRacines (solveur n)).mulScal (n.getLast hn : ℂ), (Poly.deRacines (solveur d)).mulScal (d.getLast hd : ℂ)⟩, ?_, rfl, rfl, rfl, rfl, by simp [Poly.mulScal, Poly.deRacines], by simp [Poly.mulScal, Poly.deRacines], fun x => ?_⟩
  · unfold soisReel versRacines
    simp [Poly.deCoefs, List.getLast?_eq_getLast_of_ne_nil, hn, hd]
  · have key : ∀ (l : List ℝ) (hl : l ≠ []), (∀ x : ℂ, valCoefs Complex.ofRealHom l x = (l.getLast hl : ℂ) * ((solveur l).map fun r : ℂ => x - r).prod) →
        ((Poly.deRacines (solveur l)).mulScal (l.getLast hl : ℂ)).horner (RingHom.id ℂ) x = (Poly.deCoefs l).horner Complex.ofRealHom x := by
      intro l hl h
      rw [C30_horner, horner_deCoefs, h x]
      simp [Poly.val, Poly.mulScal, Poly.deRacines, valRacines]
    change ((Poly.deRacines (solveur n)).mulScal (n.getLast hn : ℂ)).horner (RingHom.id ℂ) x / ((Poly.deRacines (solveur d)).mulScal (d.getLast hd : ℂ)).horner (RingHom.id ℂ) x = (Poly.deCoefs n).horner Complex.ofRealHom x / (Poly.deCoefs d).horner Complex.ofRealHom x
    rw [key n hn en, key d hd ed]

/-- **C138 fails for the other representations**: fractions of complex coefficients, and real fractions given by their roots, are refused. -/
theorem C138_representation_refute {T : Type} [Zero T] (φ : ℝ → T) (solveur : List ℝ → List ℂ) (forme2 : Bool) :
    (∀ h : FRat ℂ, h.numer.racines = false ∨ h.denom.racines = false → chaineSois φ forme2 h = none) ∧ (∀ h : FRat ℝ, h.numer.racines = true ∨ h.denom.racines = true → soisReel φ solveur forme2 h = none) := by
  have k : ∀ h : FRat ℂ, h.numer.racines = false ∨ h.denom.racines = false → chaineSois φ forme2 h = none := by
    intro h hh
    unfold chaineSois racinesComplexes
    rcases hh with hh | hh
    · simp [hh]
    · simp [hh]
  refine ⟨k, fun h hh => ?_⟩
  unfold soisReel
  cases e1 : versRacines solveur h.numer with
  | none => rfl
  | some n =>
    cases e2 : versRacines solveur h.denom with
    | none => rfl
    | some d =>
      simp only [Option.bind_some]
      refine k _ ?_
      unfold versRacines at e1 e2
      rcases hh with hh | hh
      · rw [if_pos hh, Option.some.injEq] at e1
        left; rw [← e1]
      · rw [if_pos hh, Option.some.injEq] at e2
        right; rw [← e2]

/-- **C138 fails with a null leading coefficient**: `(1 + 2z + 0z²)/(1 + 3z)` (the solver removes the null coefficient, and finds the exact roots) becomes a filter of null output, whereas the transfer function is `3/4` at 1. -/
theorem C138_degre_refute (solveur : List ℝ → List ℂ) (s1 : solveur [1, 2, 0] = [-1 / 2]) (s2 : solveur [1, 3] = [-1 / 3]) (forme2 : Bool) :
    (∃ c, soisReel (RingHom.id ℝ) solveur forme2 ⟨Poly.deCoefs [1, 2, 0], Poly.deCoefs [1, 3]⟩ = some c ∧ ∀ x : List ℝ, ∃ s y, Chaine.step (· + ·) (· - ·) (- ·) (· * ·) c x = some (s, y) ∧ ∀ v ∈ y, v = 0) ∧
    (⟨Poly.deCoefs [1, 2, 0], Poly.deCoefs [1, 3]⟩ : FRat ℝ).horner Complex.ofRealHom 1 = 3 / 4 := by
  constructor
  · refine ⟨⟨[], 1, some ⟨0, 0, 1 / 3, 0, 0⟩⟩, ?_, fun x => ?_⟩
    · unfold soisReel versRacines
      simp [Poly.deCoefs, s1, s2, chaineSois, racinesComplexes, Poly.mulScal, Poly.deRacines, sectionsPaires]
      norm_num
    · have key : ∀ x : List ℝ, ∀ u : ℝ, ∃ s y, boucle (Fos.ech (· + ·) (- ·) (· * ·)) (⟨0, 0, 1 / 3, u, 0⟩ : Fos ℝ ℝ) x = some (s, y) ∧ ∀ v ∈ y, v = 0 := by
        intro x
        induction x with
        | nil => intro u; exact ⟨_, [], rfl, by simp⟩
        | cons a x ih =>
          intro u
          obtain ⟨s, y, e, h⟩ := ih a
          refine ⟨s, 0 :: y, ?_, by simpa using h⟩
          simp only [boucle, Fos.ech, mul_zero, zero_mul, add_zero]
          simp only [e]
      obtain ⟨s, y, e, h⟩ := key x 0
      exact ⟨⟨[], 1, some s⟩, y, by simp only [Chaine.step, Chaine.sectionsStep, Fos.step, e], h⟩
  · change (Poly.deCoefs [(1 : ℝ), 2, 0]).horner Complex.ofRealHom 1 / (Poly.deCoefs [(1 : ℝ), 3]).horner Complex.ofRealHom 1 = 3 / 4
    rw [horner_deCoefs, horner_deCoefs]
    norm_num [valCoefs, Finset.sum_range_succ]

/-- The filter `z² / (z - 1/2)²`. -/
noncomputable def doublePole : FRat ℂ := ⟨{ coefs := [0, 0], racines := true, mlt := 1 }, { coefs := [1 / 2, 1 / 2], racines := true, mlt := 1 }⟩

theorem doublePole_chaine : ∃ c, chaineSois (RingHom.id ℝ) true doublePole = some c ∧ ∀ (a : ℝ) (xs : List ℝ), ∃ s y, Chaine.step (· + ·) (· - ·) (- ·) (· * ·) c (a :: xs) = some (s, y) ∧ y.getD 0 0 = 7 / 4 * a ∧ y.length = xs.length + 1 := by
  refine ⟨⟨[⟨0, 0, 0, 0, 0, 1, 0, 0, -1, 1 / 4, true, true⟩], 1, none⟩, ?_, fun a xs => ?_⟩
  · simp [chaineSois, racinesComplexes, doublePole, sectionsPaires, meilleurePaire, ecartPaire, sectionPaire, List.range_succ]
    norm_num
  · obtain ⟨s', ys, e⟩ := sois_tot2 (a :: xs) (⟨a, a, a, a, a, 1, 0, 0, -1, 1 / 4, false, true⟩ : Sois ℝ ℝ)
    obtain ⟨hl, d, ho⟩ := sois2_eq _ _ _ _ e
    refine ⟨⟨[s'], 1, none⟩, ys.map (1 * ·), ?_, ?_, by simp [hl]⟩
    · simp only [Chaine.step, Chaine.sectionsStep, Sois.step, if_true]
      rw [e]
    · obtain ⟨h1, h2⟩ := ho 0 (by simp)
      simp only [List.getD_cons_succ, List.getD_cons_zero, zero_add] at h1 h2
      simp only [one_mul, List.map_id']
      rw [h2, h1]
      ring

/-- **C138 fails on the first samples** (the documentation announces zeros before the signal): for `H = z²/(z - 1/2)²`, whose response to an impulse starts with 1, the filter answers `7/4` to an impulse. -/
theorem C138_debut_refute : ∃ c, chaineSois (RingHom.id ℝ) true doublePole = some c ∧ ∀ xs : List ℝ, ∃ s y, Chaine.step (· + ·) (· - ·) (- ·) (· * ·) c (1 :: xs) = some (s, y) ∧ y.getD 0 0 = 7 / 4 ∧
    ¬ Equation (enRetards doublePole.numer) (enRetards doublePole.denom) ((1 :: xs).map Complex.ofRealHom) (y.map Complex.ofRealHom) 0 := by
  obtain ⟨c, hc, h⟩ := doublePole_chaine
  refine ⟨c, hc, fun xs => ?_⟩
  obtain ⟨s, y, e, g, l⟩ := h 1 xs
  refine ⟨s, y, e, by rw [g]; norm_num, ?_⟩
  cases y with
  | nil => simp at l
  | cons v y =>
    simp only [List.getD_cons_zero] at g
    rw [g]
    simp [Equation, enRetards, doublePole, Polynomial.mul_coeff_zero]
    norm_num

open Verif.Conception in
/-- **C135 fails for rational designs**: the impulse response of `z²/(z - 1/2)²` is announced to start with `7/4`. -/
theorem C135_rationnel_refute (npts : Option ℕ) (hn : npts ≠ some 0) : ∃ c, chaineSois (RingHom.id ℝ) true doublePole = some c ∧
    ∃ r, repimp (fun x : List ℝ => (Chaine.step (· + ·) (· - ·) (- ·) (· * ·) c x).map Prod.snd) (.complexe doublePole) npts = some r ∧ r.getD 0 0 = 7 / 4 := by
  obtain ⟨c, hc, h⟩ := doublePole_chaine
  refine ⟨c, hc, ?_⟩
  have h0 : npts.getD ((Design.complexe doublePole).nbCoefs * 20) ≠ 0 := by
    cases npts with
    | none => simp [Design.nbCoefs, doublePole]
    | some n => simpa using hn
  obtain ⟨s, y, e, g, l⟩ := h 1 (List.replicate (npts.getD ((Design.complexe doublePole).nbCoefs * 20) - 1) 0)
  have hy : y ≠ [] := by intro h; rw [h] at l; simp at l
  obtain ⟨m, a, b, c1, -⟩ := tronque_spec y.length y hy le_rfl
  refine ⟨Verif.Conception.tronque y.length y, ?_, ?_⟩
  · simp only [repimp, if_neg h0, filtrer]
    rw [e]
    rfl
  · rw [c1, List.getD_eq_getElem?_getD, List.getElem?_take_of_lt a, ← List.getD_eq_getElem?_getD, g]
    norm_num

end Verif.Filtre
