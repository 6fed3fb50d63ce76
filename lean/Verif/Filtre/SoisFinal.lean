import Verif.Filtre.SoisPaires
import Mathlib.Tactic.FieldSimp

/-!
# The filter built by `filtre_sois` realises its transfer function (C138)
-/

namespace Verif.Filtre

open Verif.FracRat Finset

/-! ### Specification -/

/-- A polynomial given by its roots, as a polynomial in the delay `X = z⁻¹`: `mlt ∏ (1 - r X)`. -/
noncomputable def enRetards (p : Poly ℂ) : Polynomial ℂ := Polynomial.C p.mlt * (p.coefs.map fun r : ℂ => 1 - Polynomial.C r * Polynomial.X).prod

/-- The difference equation `∑ a_k y(n-k) = ∑ b_k x(n-k)` at time `n`, null past. -/
def Equation (b a : Polynomial ℂ) (x y : List ℂ) (n : ℕ) : Prop := ∑ k ∈ range (n + 1), a.coeff k * y.getD (n - k) 0 = ∑ k ∈ range (n + 1), b.coeff k * x.getD (n - k) 0

/-- The two roots are real, or conjugate. -/
def Conjugues (l : List ℂ) (i j : ℕ) : Prop := ((l.getD i 0).im = 0 ∧ (l.getD j 0).im = 0) ∨ l.getD j 0 = (starRingEnd ℂ) (l.getD i 0)

/-- Transfer functions with as many zeros as poles and real factors, numerator and denominator given by their roots. -/
structure Appariable (h : FRat ℂ) : Prop where
  zeros : h.numer.racines = true
  poles : h.denom.racines = true
  nombre : h.numer.coefs.length = h.denom.coefs.length
  facteurs : h.numer.mlt.im = 0 ∧ h.denom.mlt.im = 0 ∧ h.denom.mlt ≠ 0

/-! ### Proofs -/

theorem conj_nonReel (a b : ℂ) (h : (a.im = 0 ∧ b.im = 0) ∨ b = (starRingEnd ℂ) a) : nonReel b = (starRingEnd ℂ) (nonReel a) := by
  unfold nonReel
  rcases h with ⟨h1, h2⟩ | h
  · rw [if_pos h1, if_pos h2]; simp
  · rw [h]
    by_cases ha : a.im = 0
    · rw [if_pos ha, if_pos (by simpa using ha)]; simp
    · rw [if_neg ha, if_neg (by simpa using ha)]

theorem ecart_conjugues (z p : List ℂ) (i j : ℕ) (h1 : Conjugues z i j) (h2 : Conjugues p i j) : ecartPaire z p i j = 0 :=
  (ecart_nul z p i j).2 ⟨conj_nonReel _ _ h1, conj_nonReel _ _ h2⟩

section
variable {T : Type} [Field T]

theorem trinome_prod {α : Type} (f : α → T × T × T) (P : List α) (h : ∀ q ∈ P, (f q).1 = 1) :
    ((P.map fun q => trinome (f q).1 (f q).2.1 (f q).2.2).prod).coeff 0 = 1 ∧ ((P.map fun q => trinome (f q).1 (f q).2.1 (f q).2.2).prod).natDegree ≤ 2 * P.length := by
  induction P with
  | nil => simp
  | cons q P ih =>
    obtain ⟨h1, h2⟩ := ih fun r hr => h r (List.mem_cons_of_mem _ hr)
    rw [List.map_cons, List.prod_cons]
    constructor
    · rw [Polynomial.mul_coeff_zero, h1, mul_one, h q (by simp)]
      simp [trinome]
    · have := Polynomial.natDegree_mul_le (p := trinome (f q).1 (f q).2.1 (f q).2.2) (q := (P.map fun q => trinome (f q).1 (f q).2.1 (f q).2.2).prod)
      have := trinome_degre (f q).1 (f q).2.1 (f q).2.2
      rw [List.length_cons]
      omega

/-- Denominator and numerator of a section. -/
noncomputable def denomPaire (φ : ℝ →+* T) (p : List ℂ) (q : ℕ × ℕ) : T × T × T := (φ 1, φ (-(p.getD q.2 0 + p.getD q.1 0)).re, φ (p.getD q.2 0 * p.getD q.1 0).re)

theorem sections_relie (φ : ℝ →+* T) (forme2 : Bool) (z p : List ℂ) (P : List (ℕ × ℕ)) : ∀ x : List T,
    ∃ ss y, Chaine.sectionsStep (· + ·) (· - ·) (· * ·) (P.map fun q : ℕ × ℕ => sectionPaire φ forme2 z p q.1 q.2) x = some (ss, y) ∧
      Relie ((P.map fun q => trinome (denomPaire φ p q).1 (denomPaire φ p q).2.1 (denomPaire φ p q).2.2).prod) ((P.map fun q => trinome (denomPaire φ z q).1 (denomPaire φ z q).2.1 (denomPaire φ z q).2.2).prod) (2 * P.length) x y := by
  induction P with
  | nil =>
    intro x
    refine ⟨[], x, rfl, rfl, 0, Or.inl rfl, fun _ => rfl, ?_⟩
    simp
  | cons q P ih =>
    intro x
    obtain ⟨s, y, e, h⟩ := section_relie (φ 1) (φ (-(z.getD q.2 0 + z.getD q.1 0)).re) (φ (z.getD q.2 0 * z.getD q.1 0).re) (φ (-(p.getD q.2 0 + p.getD q.1 0)).re) (φ (p.getD q.2 0 * p.getD q.1 0).re) forme2 x
    obtain ⟨ss, w, e', h'⟩ := ih y
    refine ⟨s :: ss, w, ?_, ?_⟩
    · rw [List.map_cons, Chaine.sectionsStep, sectionPaire, e]
      simp only [e']
    · rw [List.map_cons, List.map_cons, List.prod_cons, List.prod_cons, List.length_cons, show 2 * (P.length + 1) = 2 + 2 * P.length by ring]
      refine Relie.compose (B := trinome (denomPaire φ z q).1 (denomPaire φ z q).2.1 (denomPaire φ z q).2.2) (y := y) ?_ h' ?_ (trinome_degre _ _ _) (trinome_prod (denomPaire φ z) P fun r _ => by simp [denomPaire]).2
      · simp only [denomPaire, map_one] at h ⊢
        exact h
      · simp [trinome, denomPaire]

theorem serie_map (ψ : T →+* ℂ) (x : List T) : serie (x.map ψ) = PowerSeries.map ψ (serie x) := by
  ext n
  rw [PowerSeries.coeff_map, serie, serie, PowerSeries.coeff_mk, PowerSeries.coeff_mk, List.getD_eq_getElem?_getD, List.getD_eq_getElem?_getD, List.getElem?_map]
  cases x[n]? <;> simp

theorem Relie.map (ψ : T →+* ℂ) {A B : Polynomial T} {N : ℕ} {x y : List T} (h : Relie A B N x y) : Relie (A.map ψ) (B.map ψ) N (x.map ψ) (y.map ψ) := by
  obtain ⟨hl, r, dr, hr, hd⟩ := h
  refine ⟨by simp [hl], r.map ψ, ?_, ?_, ?_⟩
  · rcases dr with h | h
    · left; rw [h, Polynomial.map_zero]
    · right; exact (Polynomial.natDegree_map_le).trans_lt h
  · intro h0
    have : x.getD 0 0 = 0 := by
      cases x with
      | nil => simp
      | cons a x =>
        simp only [List.map_cons, List.getD_cons_zero] at h0 ⊢
        exact (map_eq_zero ψ).1 h0
    rw [hr this, Polynomial.map_zero]
  · rw [List.length_map, serie_map, serie_map]
    have := map_dvd (PowerSeries.map ψ) hd
    rw [map_pow, PowerSeries.map_X, map_sub, map_sub, map_mul, map_mul] at this
    simp only [Polynomial.polynomial_map_coe]
    exact this

/-- Product by a constant at the output. -/
theorem Relie.gain {A B : Polynomial T} {N : ℕ} {x y : List T} (h : Relie A B N x y) (g : T) : Relie A (Polynomial.C g * B) N x (y.map (g * ·)) := by
  obtain ⟨hl, r, dr, hr, hd⟩ := h
  refine ⟨by simp [hl], Polynomial.C g * r, ?_, ?_, ?_⟩
  · rcases dr with h | h
    · left; rw [h, mul_zero]
    · right; exact (Polynomial.natDegree_C_mul_le g r).trans_lt h
  · intro h0; rw [hr h0, mul_zero]
  · have e : serie (y.map (g * ·)) = PowerSeries.C g * serie y := by
      ext n
      rw [PowerSeries.coeff_C_mul, serie, serie, PowerSeries.coeff_mk, PowerSeries.coeff_mk, List.getD_eq_getElem?_getD, List.getD_eq_getElem?_getD, List.getElem?_map]
      cases y[n]? <;> simp
    rw [e]
    have := Dvd.dvd.mul_left hd (PowerSeries.C g)
    rw [show PowerSeries.C g * ((A : PowerSeries T) * serie y - (B : PowerSeries T) * serie x - (r : PowerSeries T)) = (A : PowerSeries T) * (PowerSeries.C g * serie y) - ((Polynomial.C g * B : Polynomial T) : PowerSeries T) * serie x -
      ((Polynomial.C g * r : Polynomial T) : PowerSeries T) by push_cast; ring] at this
    exact this
end

theorem Relie.equation {A B : Polynomial ℂ} {N : ℕ} {x y : List ℂ} (h : Relie A B N x y) (n : ℕ) (hn : n < x.length) (h0 : N ≤ n ∨ x.getD 0 0 = 0) : Equation B A x y n := by
  obtain ⟨hl, r, dr, hr, hd⟩ := h
  rw [PowerSeries.X_pow_dvd_iff] at hd
  have := hd n hn
  rw [map_sub, map_sub, Polynomial.coeff_coe] at this
  have hz : r.coeff n = 0 := by
    rcases h0 with h0 | h0
    · rcases dr with h | h
      · rw [h, Polynomial.coeff_zero]
      · exact Polynomial.coeff_eq_zero_of_natDegree_lt (by omega)
    · rw [hr h0, Polynomial.coeff_zero]
  rw [hz, sub_zero, sub_eq_zero, PowerSeries.coeff_mul, PowerSeries.coeff_mul, Finset.Nat.sum_antidiagonal_eq_sum_range_succ_mk, Finset.Nat.sum_antidiagonal_eq_sum_range_succ_mk] at this
  unfold Equation
  simp only [Polynomial.coeff_coe, serie, PowerSeries.coeff_mk] at this
  exact this

theorem trinome_map {T : Type} [Field T] (ψ : T →+* ℂ) (a b c : T) : (trinome a b c).map ψ = trinome (ψ a) (ψ b) (ψ c) := by simp [trinome]

/-- An exact pair gives the product of two first-order factors. -/
theorem paire_exacte (l : List ℂ) (q : ℕ × ℕ) (h : |(-(l.getD q.2 0 + l.getD q.1 0)).im| + |(l.getD q.2 0 * l.getD q.1 0).im| = 0) :
    trinome (1 : ℂ) ((-(l.getD q.2 0 + l.getD q.1 0)).re : ℂ) ((l.getD q.2 0 * l.getD q.1 0).re : ℂ) = (1 - Polynomial.C (l.getD q.1 0) * Polynomial.X) * (1 - Polynomial.C (l.getD q.2 0) * Polynomial.X) := by
  have h1 := abs_nonneg (-(l.getD q.2 0 + l.getD q.1 0)).im
  have h2 := abs_nonneg (l.getD q.2 0 * l.getD q.1 0).im
  have i1 : (-(l.getD q.2 0 + l.getD q.1 0)).im = 0 := abs_eq_zero.1 (by linarith)
  have i2 : (l.getD q.2 0 * l.getD q.1 0).im = 0 := abs_eq_zero.1 (by linarith)
  have e1 : ((-(l.getD q.2 0 + l.getD q.1 0)).re : ℂ) = -(l.getD q.2 0 + l.getD q.1 0) := Complex.ext rfl (by rw [i1]; rfl)
  have e2 : ((l.getD q.2 0 * l.getD q.1 0).re : ℂ) = l.getD q.2 0 * l.getD q.1 0 := Complex.ext rfl (by rw [i2]; rfl)
  rw [e1, e2, trinome]
  simp only [map_neg, map_add, map_mul, map_one]
  ring

theorem prod_indices (l : List ℂ) (P : List (ℕ × ℕ)) :
    (P.map fun q : ℕ × ℕ => (1 - Polynomial.C (l.getD q.1 0) * Polynomial.X) * (1 - Polynomial.C (l.getD q.2 0) * Polynomial.X)).prod = ((indices P).map fun i : ℕ => 1 - Polynomial.C (l.getD i 0) * (Polynomial.X : Polynomial ℂ)).prod := by
  induction P with
  | nil => simp [indices]
  | cons q P ih =>
    rw [List.map_cons, List.prod_cons, ih]
    simp [indices, mul_assoc]

theorem prod_liste (l : List ℂ) : ((List.range l.length).map fun i : ℕ => 1 - Polynomial.C (l.getD i 0) * (Polynomial.X : Polynomial ℂ)).prod = (l.map fun r : ℂ => 1 - Polynomial.C r * Polynomial.X).prod := by
  congr 1
  apply List.ext_getElem (by simp)
  intro i h1 h2
  simp at h1
  simp [List.getD_eq_getElem?_getD, List.getElem?_eq_getElem h1]

/-- The polynomial of exact pairs, over the complex numbers. -/
theorem prod_paires {T : Type} [Field T] (φ : ℝ →+* T) (ψ : T →+* ℂ) (hψ : ∀ r : ℝ, ψ (φ r) = r) (l : List ℂ) (P : List (ℕ × ℕ)) (h : ∀ q ∈ P, |(-(l.getD q.2 0 + l.getD q.1 0)).im| + |(l.getD q.2 0 * l.getD q.1 0).im| = 0) :
    ((P.map fun q => trinome (denomPaire φ l q).1 (denomPaire φ l q).2.1 (denomPaire φ l q).2.2).prod).map ψ = ((indices P).map fun i : ℕ => 1 - Polynomial.C (l.getD i 0) * (Polynomial.X : Polynomial ℂ)).prod := by
  rw [← prod_indices, ← Polynomial.coe_mapRingHom, map_list_prod, List.map_map]
  congr 1
  refine List.map_congr_left fun q hq => ?_
  rw [Function.comp_apply, Polynomial.coe_mapRingHom, trinome_map]
  simp only [denomPaire, hψ, Complex.ofReal_one]
  exact paire_exacte l q (h q hq)

theorem ecart_parts (z p : List ℂ) (q : ℕ × ℕ) (h : ecartPaire z p q.1 q.2 = 0) : |(-(z.getD q.2 0 + z.getD q.1 0)).im| + |(z.getD q.2 0 * z.getD q.1 0).im| = 0 ∧ |(-(p.getD q.2 0 + p.getD q.1 0)).im| + |(p.getD q.2 0 * p.getD q.1 0).im| = 0 := by
  unfold ecartPaire at h
  have h1 := abs_nonneg (-(z.getD q.2 0 + z.getD q.1 0)).im
  have h2 := abs_nonneg (z.getD q.2 0 * z.getD q.1 0).im
  have h3 := abs_nonneg (-(p.getD q.2 0 + p.getD q.1 0)).im
  have h4 := abs_nonneg (p.getD q.2 0 * p.getD q.1 0).im
  exact ⟨by linarith, by linarith⟩

/-- Scaling both sides of the equation. -/
theorem equation_scale (A B : Polynomial ℂ) (gn gd : ℂ) (hg : gd ≠ 0) (x y : List ℂ) (n : ℕ) (h : Equation (Polynomial.C (gn / gd) * B) A x y n) : Equation (Polynomial.C gn * B) (Polynomial.C gd * A) x y n := by
  unfold Equation at *
  simp only [Polynomial.coeff_C_mul, mul_assoc, ← Finset.mul_sum] at *
  rw [h]
  field_simp

theorem ratio_reel (a b : ℂ) (ha : a.im = 0) (hb : b.im = 0) : ((a.re / b.re : ℝ) : ℂ) = a / b := by
  rw [Complex.ofReal_div]
  congr 1
  · exact Complex.ext rfl (by rw [ha]; rfl)
  · exact Complex.ext rfl (by rw [hb]; rfl)

/-- **C138 (transfer function).**  The polynomials in the delay give the value of the fraction at every point. -/
theorem C138_transfert (h : FRat ℂ) (ha : Appariable h) (z : ℂ) (hz : z ≠ 0) : (enRetards h.numer).eval z⁻¹ / (enRetards h.denom).eval z⁻¹ = h.horner (id : ℂ → ℂ) z := by
  have key : ∀ p : Poly ℂ, p.racines = true → z ^ p.coefs.length * (enRetards p).eval z⁻¹ = p.horner (RingHom.id ℂ) z := by
    intro p hp
    rw [C30_horner, Poly.val, if_pos hp, valRacines, enRetards, Polynomial.eval_mul, Polynomial.eval_C, RingHom.id_apply]
    have : ∀ l : List ℂ, z ^ l.length * Polynomial.eval z⁻¹ (l.map fun r : ℂ => 1 - Polynomial.C r * Polynomial.X).prod = (l.map fun c : ℂ => z - c).prod := by
      intro l
      induction l with
      | nil => simp
      | cons r l ih =>
        rw [List.map_cons, List.map_cons, List.prod_cons, List.prod_cons, Polynomial.eval_mul, ← ih, List.length_cons, pow_succ]
        simp only [Polynomial.eval_sub, Polynomial.eval_one, Polynomial.eval_mul, Polynomial.eval_C, Polynomial.eval_X]
        field_simp
    rw [mul_left_comm, this]
    rfl
  have e : h.horner (id : ℂ → ℂ) z = h.numer.horner (RingHom.id ℂ) z / h.denom.horner (RingHom.id ℂ) z := rfl
  rw [e, ← key _ ha.zeros, ← key _ ha.poles, ha.nombre, mul_div_mul_left _ _ (pow_ne_zero _ hz)]

/-- **C138 (even order).**  When the zeros and poles are paired by an involution without fixed point, the filter is built, in both forms and for real and complex samples; for every cutting of every stream its output has
as many samples as the input and satisfies the difference equation of the transfer function at each time from the order on; and, if the signal starts with a 0, at every time with a null past. -/
theorem C138_pair {T : Type} [Field T] (φ : ℝ →+* T) (ψ : T →+* ℂ) (hψ : ∀ r : ℝ, ψ (φ r) = r) (forme2 : Bool) (h : FRat ℂ) (ha : Appariable h) (m : ℕ) (hm : h.numer.coefs.length = 2 * m)
    (σ : ℕ → ℕ) (hσ : ∀ i, i < 2 * m → σ i < 2 * m ∧ σ i ≠ i ∧ σ (σ i) = i ∧ Conjugues h.numer.coefs i (σ i) ∧ Conjugues h.denom.coefs i (σ i)) :
    ∃ c, chaineSois φ forme2 h = some c ∧ ∀ blocs : List (List T), ∃ s y, enchaine (Chaine.step (· + ·) (· - ·) (- ·) (· * ·)) c blocs = some (s, y) ∧ y.length = blocs.flatten.length ∧
      ∀ n, n < y.length → (2 * m ≤ n ∨ blocs.flatten.getD 0 0 = 0) → Equation (enRetards h.numer) (enRetards h.denom) (blocs.flatten.map ψ) (y.map ψ) n := by
  obtain ⟨P, e, lP, hP, ex⟩ := paires_exactes φ forme2 h.numer.coefs h.denom.coefs m (List.range (2 * m)) σ List.nodup_range List.length_range (by
    intro i hi
    obtain ⟨a1, a2, a3, a4, a5⟩ := hσ i (List.mem_range.1 hi)
    exact ⟨List.mem_range.2 a1, a2, a3, ecart_conjugues _ _ _ _ a4 a5⟩)
  have hc : chaineSois φ forme2 h = some ⟨P.map fun q : ℕ × ℕ => sectionPaire φ forme2 h.numer.coefs h.denom.coefs q.1 q.2, φ (h.numer.mlt.re / h.denom.mlt.re), none⟩ := by
    unfold chaineSois racinesComplexes
    rw [if_pos ha.zeros, if_pos ha.poles, Option.bind_some, Option.bind_some, if_neg (not_not.2 ha.nombre), hm, show 2 * m / 2 = m by omega, e, Option.bind_some]
    simp only
    rw [if_pos (by omega)]
  refine ⟨_, hc, fun blocs => ?_⟩
  rw [C18_chaine]
  obtain ⟨ss, y, e1, h1⟩ := sections_relie φ forme2 h.numer.coefs h.denom.coefs P blocs.flatten
  set g := h.numer.mlt.re / h.denom.mlt.re with hg
  have h2 := (h1.gain (φ g)).map ψ
  refine ⟨⟨ss, φ g, none⟩, y.map (φ g * ·), by unfold Chaine.step; simp only [e1], ?_, fun n hn h0 => ?_⟩
  · rw [List.length_map]; exact h1.1
  · rw [Polynomial.map_mul, Polynomial.map_C, hψ, prod_paires φ ψ hψ _ P fun q hq => (ecart_parts _ _ _ (ex q hq)).1, prod_paires φ ψ hψ _ P fun q hq => (ecart_parts _ _ _ (ex q hq)).2, hg, ratio_reel _ _ ha.facteurs.1 ha.facteurs.2.1] at h2
    have h3 := h2.equation n (by rw [List.length_map]; rw [List.length_map, h1.1] at hn; exact hn) (by
      rcases h0 with h0 | h0
      · left; omega
      · right
        cases hb : blocs.flatten with
        | nil => simp
        | cons a l => rw [hb] at h0; simp at h0 ⊢; exact h0)
    have h4 := equation_scale _ _ _ _ ha.facteurs.2.2 _ _ _ h3
    rw [← (List.Perm.map (fun i : ℕ => 1 - Polynomial.C (h.numer.coefs.getD i 0) * (Polynomial.X : Polynomial ℂ)) hP).prod_eq, ← hm, prod_liste, ← (List.Perm.map (fun i : ℕ => 1 - Polynomial.C (h.denom.coefs.getD i 0) * (Polynomial.X : Polynomial ℂ)) hP).prod_eq, ← hm, ha.nombre, prod_liste] at h4
    exact h4

/-- **C138 (odd order).**  Same result with an odd number of zeros and poles, when one index has a real zero and a real pole, all the others are in distinct conjugate pairs, and every index after the real one is paired with an
index before it (as in the designs of the library). -/
theorem C138_impair {T : Type} [Field T] (φ : ℝ →+* T) (ψ : T →+* ℂ) (hψ : ∀ r : ℝ, ψ (φ r) = r) (forme2 : Bool) (h : FRat ℂ) (ha : Appariable h) (m : ℕ) (hm : h.numer.coefs.length = 2 * m + 1)
    (f : ℕ) (hf : f < 2 * m + 1) (f1 : (h.numer.coefs.getD f 0).im = 0) (f2 : (h.denom.coefs.getD f 0).im = 0)
    (σ : ℕ → ℕ) (hσ : ∀ i, i < 2 * m + 1 → i ≠ f → σ i < 2 * m + 1 ∧ σ i ≠ f ∧ σ i ≠ i ∧ σ (σ i) = i ∧ Conjugues h.numer.coefs i (σ i) ∧ Conjugues h.denom.coefs i (σ i))
    (hu : ∀ i, i < 2 * m + 1 → i ≠ f → ∀ j, j < 2 * m + 1 → j ≠ i → Conjugues h.numer.coefs i j → Conjugues h.denom.coefs i j → j = σ i) (hap : ∀ i, i < 2 * m + 1 → f < i → σ i < f) :
    ∃ c, chaineSois φ forme2 h = some c ∧ ∀ blocs : List (List T), ∃ s y, enchaine (Chaine.step (· + ·) (· - ·) (- ·) (· * ·)) c blocs = some (s, y) ∧ y.length = blocs.flatten.length ∧
      ∀ n, n < y.length → (2 * m + 1 ≤ n ∨ blocs.flatten.getD 0 0 = 0) → Equation (enRetards h.numer) (enRetards h.denom) (blocs.flatten.map ψ) (y.map ψ) n := by
  have inv : ∀ a b : ℂ, nonReel b = (starRingEnd ℂ) (nonReel a) → (a.im = 0 ∧ b.im = 0) ∨ b = (starRingEnd ℂ) a := by
    intro a b h
    unfold nonReel at h
    split_ifs at h with h1 h2 h2
    · exact Or.inl ⟨h2, h1⟩
    · exfalso
      have := congrArg Complex.im h
      simp at this
      exact h2 this
    · exfalso
      rw [h] at h1
      simp at h1
    · exact Or.inr h
  obtain ⟨P, e, lP, hP, ex⟩ := paires_exactes_impair φ forme2 h.numer.coefs h.denom.coefs σ f m (List.range (2 * m + 1)) List.pairwise_lt_range List.length_range (by
    refine ⟨List.mem_range.2 hf, ?_, ?_, ?_⟩
    · intro i hi hif
      obtain ⟨a1, a0, a2, a3, a4, a5⟩ := hσ i (List.mem_range.1 hi) hif
      exact ⟨List.mem_range.2 a1, a0, a2, a3, ecart_conjugues _ _ _ _ a4 a5⟩
    · intro i hi hif j hj hji he
      obtain ⟨q1, q2⟩ := (ecart_nul _ _ _ _).1 he
      exact hu i (List.mem_range.1 hi) hif j (List.mem_range.1 hj) hji (inv _ _ q1) (inv _ _ q2)
    · intro i hi hfi
      exact hap i (List.mem_range.1 hi) hfi)
  set g := h.numer.mlt.re / h.denom.mlt.re with hg
  have hc : chaineSois φ forme2 h = some ⟨P.map fun q : ℕ × ℕ => sectionPaire φ forme2 h.numer.coefs h.denom.coefs q.1 q.2, φ 1, some ⟨φ g, φ (-(h.numer.coefs.getD f 0).re * g), φ (-(h.denom.coefs.getD f 0).re), 0, 0⟩⟩ := by
    unfold chaineSois racinesComplexes
    rw [if_pos ha.zeros, if_pos ha.poles, Option.bind_some, Option.bind_some, if_neg (not_not.2 ha.nombre), hm, show (2 * m + 1) / 2 = m by omega, e, Option.bind_some]
    simp only
    rw [if_neg (by omega), f1, f2, if_neg (by norm_num)]
  refine ⟨_, hc, fun blocs => ?_⟩
  rw [C18_chaine]
  obtain ⟨ss, y, e1, h1⟩ := sections_relie φ forme2 h.numer.coefs h.denom.coefs P blocs.flatten
  obtain ⟨fs, w, e2, h2⟩ := fos_relie (φ g) (φ (-(h.numer.coefs.getD f 0).re * g)) (φ (-(h.denom.coefs.getD f 0).re)) y
  have d1 := trinome_prod (denomPaire φ h.denom.coefs) P fun r _ => by simp [denomPaire]
  have h3 := (h1.compose h2 d1.1 d1.2 (by unfold trinome; rw [map_zero, zero_mul, add_zero]; compute_degree)).map ψ
  refine ⟨⟨ss, φ 1, some fs⟩, w, by unfold Chaine.step; simp only [e1, e2], h2.1.trans h1.1, fun n hn h0 => ?_⟩
  have z1 : ((h.numer.coefs.getD f 0).re : ℂ) = h.numer.coefs.getD f 0 := Complex.ext rfl (by rw [f1]; rfl)
  have z2 : ((h.denom.coefs.getD f 0).re : ℂ) = h.denom.coefs.getD f 0 := Complex.ext rfl (by rw [f2]; rfl)
  have hgc : (g : ℂ) = h.numer.mlt / h.denom.mlt := ratio_reel _ _ ha.facteurs.1 ha.facteurs.2.1
  have t1 : (trinome 1 (φ (-(h.denom.coefs.getD f 0).re)) 0).map ψ = 1 - Polynomial.C (h.denom.coefs.getD f 0) * Polynomial.X := by
    rw [trinome_map, hψ, map_one, map_zero, Complex.ofReal_neg, z2, trinome]
    simp only [map_neg, map_one, map_zero]
    ring
  have t2 : (trinome (φ g) (φ (-(h.numer.coefs.getD f 0).re * g)) 0).map ψ = Polynomial.C (g : ℂ) * (1 - Polynomial.C (h.numer.coefs.getD f 0) * Polynomial.X) := by
    rw [trinome_map, hψ, hψ, map_zero, Complex.ofReal_mul, Complex.ofReal_neg, z1, trinome]
    simp only [map_neg, map_mul, map_zero]
    ring
  rw [Polynomial.map_mul, Polynomial.map_mul, t1, t2, prod_paires φ ψ hψ _ P fun q hq => (ecart_parts _ _ _ (ex q hq)).1, prod_paires φ ψ hψ _ P fun q hq => (ecart_parts _ _ _ (ex q hq)).2, mul_left_comm, hgc] at h3
  have h4 := h3.equation n (by rw [List.length_map, ← h1.1, ← h2.1]; exact hn) (by
    rcases h0 with h0 | h0
    · left; omega
    · right
      cases hb : blocs.flatten with
      | nil => simp
      | cons a l => rw [hb] at h0; simp at h0 ⊢; exact h0)
  have h5 := equation_scale _ _ _ _ ha.facteurs.2.2 _ _ _ h4
  have perm : ∀ l : List ℂ, l.length = 2 * m + 1 → ((indices P).map fun i : ℕ => 1 - Polynomial.C (l.getD i 0) * (Polynomial.X : Polynomial ℂ)).prod * (1 - Polynomial.C (l.getD f 0) * Polynomial.X) = (l.map fun r : ℂ => 1 - Polynomial.C r * Polynomial.X).prod := by
    intro l hl
    rw [← prod_liste, hl, (List.Perm.map (fun i : ℕ => 1 - Polynomial.C (l.getD i 0) * (Polynomial.X : Polynomial ℂ)) hP).prod_eq, List.map_append, List.prod_append]
    simp
  rw [perm _ hm, perm _ (by rw [← ha.nombre]; exact hm)] at h5
  exact h5

end Verif.Filtre
