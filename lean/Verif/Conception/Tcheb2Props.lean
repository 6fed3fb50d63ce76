/-
C92: Chebyshev type II designs; elliptic design of order 1.

Specification: the squared modulus of the frequency response in terms of the Chebyshev polynomial `T_n` of Mathlib, the position of the poles.
-/
import Verif.Conception.TchebProps

namespace Verif.Rii

open Verif.FracRat Finset

/-- The parameter `a` of the poles of type II. -/
noncomputable def aII (n : ℕ) (δ : ℝ) : ℝ := Real.arsinh (1 / epsTchebII δ) / n

theorem aII_pos (n : ℕ) (hn : 0 < n) (δ : ℝ) (h : 0 < δ) : 0 < aII n δ ∧ Real.sinh (n * aII n δ) ^ 2 = db2pow δ - 1 := by
  have hn' : (0 : ℝ) < n := by exact_mod_cast hn
  have h1 := eps_pos δ h
  unfold aII epsTchebII
  rw [one_div_one_div]
  constructor
  · exact div_pos (Real.arsinh_pos_iff.2 h1) hn'
  · rw [mul_div_cancel₀ _ hn'.ne', Real.sinh_arsinh, Real.sq_sqrt (by linarith [db_un δ h])]

/-- For an even order no angle has a zero cosine. -/
theorem cos_angle_ne (n k : ℕ) (h2 : n % 2 = 0) (hk : k < n) : Real.cos (angle n k) ≠ 0 := by
  have hn' : (n : ℝ) ≠ 0 := by exact_mod_cast (by omega : n ≠ 0)
  intro h
  obtain ⟨m, hm⟩ := Real.cos_eq_zero_iff.1 h
  unfold angle at hm
  have h1 : (2 * (k : ℝ) + 1) = (2 * m + 1) * n := by
    have := Real.pi_ne_zero
    field_simp at hm
    linear_combination hm
  have h3 : (2 * (k : ℤ) + 1) = (2 * m + 1) * n := by exact_mod_cast h1
  obtain ⟨q, rfl⟩ : ∃ q, n = 2 * q := ⟨n / 2, by omega⟩
  have : (2 * (k : ℤ) + 1) = 2 * ((2 * m + 1) * q) := by
    rw [h3]
    push_cast
    ring
  omega

theorem zeros_forme (n k : ℕ) : 1 / (-Complex.I * ((Real.cos (angleZero n k) : ℝ) : ℂ)) = Complex.I * ((Real.cos (angle n k) : ℝ) : ℂ)⁻¹ := by
  have e : angleZero n k = angle n k := by
    unfold angleZero angle
    ring
  rw [e, one_div, mul_inv]
  congr 1
  rw [inv_neg, Complex.inv_I, neg_neg]

theorem tchebII_forme (n : ℕ) (hn : 0 < n) (h2 : n % 2 = 0) (δ : ℝ) (h : 0 < δ) : ∃ H, tchebychevII n δ = some H ∧ H.numer.racines = true ∧ H.denom.racines = true ∧
    H.numer.coefs = (List.range n).map (fun k : ℕ => Complex.I * ((Real.cos (angle n k) : ℝ) : ℂ)⁻¹) ∧
    H.denom.coefs = (List.range n).map (fun k : ℕ => (poleT n (aII n δ) k)⁻¹) ∧
    ∀ s, valeur H s = ((∏ k ∈ range n, (0 - (poleT n (aII n δ) k)⁻¹)) / (∏ k ∈ range n, (0 - Complex.I * ((Real.cos (angle n k) : ℝ) : ℂ)⁻¹))) *
      (∏ k ∈ range n, (s - Complex.I * ((Real.cos (angle n k) : ℝ) : ℂ)⁻¹)) / (∏ k ∈ range n, (s - (poleT n (aII n δ) k)⁻¹)) := by
  have hs : 0 < Real.sinh (aII n δ) := Real.sinh_pos_iff.2 (aII_pos n hn δ h).1
  have hz : ((List.range n).map fun i : ℕ => 1 / (-Complex.I * ((Real.cos (angleZero n i) : ℝ) : ℂ))) =
      (List.range n).map (fun k : ℕ => Complex.I * ((Real.cos (angle n k) : ℝ) : ℂ)⁻¹) := List.map_congr_left fun k _ => zeros_forme n k
  have hp : ((anglesTcheb n).map fun θ : ℝ => 1 / (((-Real.sinh (aII n δ) * Real.sin θ * copieSigne (Real.sinh (aII n δ)) * copieSigne (Real.sin θ) : ℝ) : ℂ) +
      Complex.I * ((Real.cosh (aII n δ) : ℝ) : ℂ) * ((Real.cos θ : ℝ) : ℂ))) = (List.range n).map (fun k : ℕ => (poleT n (aII n δ) k)⁻¹) := by
    rw [angles_forme, List.map_map]
    refine List.map_congr_left fun k hk => ?_
    have hk := angle_intervalle n k (List.mem_range.1 hk)
    simp only [Function.comp_def]
    have h3 : copieSigne (Real.sin (angle n k)) = 1 := by
      unfold copieSigne
      rw [if_neg (by linarith [Real.sin_pos_of_pos_of_lt_pi hk.1 hk.2])]
    have h4 : copieSigne (Real.sinh (aII n δ)) = 1 := by
      unfold copieSigne
      rw [if_neg (by linarith)]
    rw [h3, h4, one_div, poleT]
    congr 1
    push_cast
    ring
  unfold aII at hp
  unfold tchebychevII
  simp only
  rw [if_neg (by omega), hz, hp]
  simp only [← aII.eq_def]
  refine ⟨_, rfl, rfl, rfl, rfl, rfl, fun s => ?_⟩
  rw [valeur_racines _ rfl rfl]
  rw [horner_racines _ rfl, horner_racines _ rfl]
  simp [Poly.deRacines, List.map_map, Function.comp_def, liste_prod, -zero_sub]

theorem poleT_ne (n : ℕ) (a : ℝ) (ha : 0 < a) (k : ℕ) (hk : k < n) : (poleT n a k).re < 0 := by
  have hk := angle_intervalle n k hk
  rw [pole_re]
  have := mul_pos (Real.sin_pos_of_pos_of_lt_pi hk.1 hk.2) (Real.sinh_pos_iff.2 ha)
  linarith

theorem distance_pole (v : ℝ) (hv : v ≠ 0) (p : ℂ) (hp : p ≠ 0) :
    Complex.normSq (((v⁻¹ : ℝ) : ℂ) * Complex.I - p⁻¹) * Complex.normSq p = Complex.normSq (((-v : ℝ) : ℂ) * Complex.I - p) / v ^ 2 := by
  have hv' : (v : ℂ) ≠ 0 := by exact_mod_cast hv
  rw [← map_mul, show v ^ 2 = Complex.normSq ((v : ℂ) * Complex.I) by simp [Complex.normSq_apply]; ring, ← map_div₀]
  congr 1
  push_cast
  have hI := Complex.I_ne_zero
  field_simp
  linear_combination p * Complex.I_sq

theorem distance_zero (v : ℝ) (hv : v ≠ 0) (c : ℝ) (hc : c ≠ 0) :
    Complex.normSq (((v⁻¹ : ℝ) : ℂ) * Complex.I - Complex.I * (c : ℂ)⁻¹) * c ^ 2 = (v - c) ^ 2 / v ^ 2 := by
  have e : ((v⁻¹ : ℝ) : ℂ) * Complex.I - Complex.I * (c : ℂ)⁻¹ = ((v⁻¹ - c⁻¹ : ℝ) : ℂ) * Complex.I := by
    push_cast
    ring
  rw [e, map_mul, Complex.normSq_ofReal, Complex.normSq_I]
  field_simp
  ring

theorem prod_cos (n : ℕ) (hn : 0 < n) (v : ℝ) : ∏ k ∈ range n, (v - Real.cos (angle n k)) ^ 2 = 4 * T n v ^ 2 / 4 ^ n := by
  have e := prod_tcheb n hn 0 v
  rw [mul_zero, Real.sinh_zero] at e
  rw [show 4 * T n v ^ 2 = 4 * (T n v ^ 2 + 0 ^ 2) by ring, ← e]
  refine prod_congr rfl fun k _ => ?_
  unfold poleT
  rw [Real.sinh_zero, Real.cosh_zero, mul_zero, Complex.ofReal_zero, zero_add, Complex.ofReal_one, mul_one, ← sub_mul, map_mul, Complex.normSq_I, mul_one,
    ← Complex.ofReal_sub, Complex.normSq_ofReal]
  ring

/-- **C92 (type II prototype).** For every even order and attenuation `δ > 0` dB, the type II Chebyshev prototype has `n` poles of negative real part, `n` zeros on the
imaginary axis, gain 1 at zero frequency and `|H(iω)|² = T_n(1/ω)² / (T_n(1/ω)² + 10^(δ/10) - 1)` at every `ω ≠ 0`. -/
theorem C92_prototype_II_partial (n : ℕ) (hn : 0 < n) (h2 : n % 2 = 0) (δ : ℝ) (h : 0 < δ) : ∃ H, tchebychevII n δ = some H ∧ H.numer.racines = true ∧
    H.denom.racines = true ∧ H.numer.coefs.length = n ∧ H.denom.coefs.length = n ∧ (∀ r ∈ H.numer.coefs, r.re = 0 ∧ r ≠ 0) ∧ (∀ p ∈ H.denom.coefs, p.re < 0) ∧
    valeur H 0 = 1 ∧ ∀ ω : ℝ, ω ≠ 0 →
      Complex.normSq (valeur H (ω * Complex.I)) = T n (1 / ω) ^ 2 / (T n (1 / ω) ^ 2 + ((10 : ℝ) ^ (δ / 10) - 1)) := by
  obtain ⟨ha, hs⟩ := aII_pos n hn δ h
  have hε : 0 < db2pow δ - 1 := by linarith [db_un δ h]
  obtain ⟨H, e, rn, rd, cn, cd, hv⟩ := tchebII_forme n hn h2 δ h
  have hc : ∀ k ∈ range n, Real.cos (angle n k) ≠ 0 := fun k hk => cos_angle_ne n k h2 (mem_range.1 hk)
  have hp0 : ∀ k ∈ range n, poleT n (aII n δ) k ≠ 0 := fun k hk h0 => by
    have := poleT_ne n _ ha k (mem_range.1 hk)
    rw [h0] at this
    exact lt_irrefl _ this
  refine ⟨H, e, rn, rd, by rw [cn]; simp, by rw [cd]; simp, ?_, ?_, ?_, fun ω hω => ?_⟩
  · rw [cn]
    intro r hr
    obtain ⟨k, hk, rfl⟩ := List.mem_map.1 hr
    refine ⟨?_, mul_ne_zero Complex.I_ne_zero (inv_ne_zero ?_)⟩
    · rw [← Complex.ofReal_inv, Complex.I_mul_re, Complex.ofReal_im, neg_zero]
    · exact_mod_cast hc k (mem_range.2 (List.mem_range.1 hk))
  · rw [cd]
    intro r hr
    obtain ⟨k, hk, rfl⟩ := List.mem_map.1 hr
    rw [Complex.inv_re]
    exact div_neg_of_neg_of_pos (poleT_ne n _ ha k (List.mem_range.1 hk)) (Complex.normSq_pos.2 (hp0 k (mem_range.2 (List.mem_range.1 hk))))
  · rw [hv]
    have g1 : ∏ k ∈ range n, (0 - (poleT n (aII n δ) k)⁻¹) ≠ 0 := prod_ne_zero_iff.2 fun k hk => by
      rw [zero_sub]
      exact neg_ne_zero.2 (inv_ne_zero (hp0 k hk))
    have g2 : ∏ k ∈ range n, (0 - Complex.I * ((Real.cos (angle n k) : ℝ) : ℂ)⁻¹) ≠ 0 := prod_ne_zero_iff.2 fun k hk => by
      rw [zero_sub]
      exact neg_ne_zero.2 (mul_ne_zero Complex.I_ne_zero (inv_ne_zero (by exact_mod_cast hc k hk)))
    rw [div_mul_cancel₀ _ g2, div_self g1]
  · rw [hv]
    obtain ⟨v, rfl⟩ : ∃ v : ℝ, ω = v⁻¹ := ⟨ω⁻¹, (inv_inv ω).symm⟩
    have hv0 : v ≠ 0 := fun h0 => hω (by rw [h0, inv_zero])
    rw [one_div, inv_inv, map_div₀, map_mul, map_div₀, map_prod, map_prod, map_prod, map_prod]
    have e1 : ∏ k ∈ range n, Complex.normSq (0 - (poleT n (aII n δ) k)⁻¹) = (∏ k ∈ range n, Complex.normSq (poleT n (aII n δ) k))⁻¹ := by
      rw [← prod_inv_distrib]
      exact prod_congr rfl fun k _ => by rw [zero_sub, Complex.normSq_neg, map_inv₀]
    have e2 : ∏ k ∈ range n, Complex.normSq (0 - Complex.I * ((Real.cos (angle n k) : ℝ) : ℂ)⁻¹) = (∏ k ∈ range n, Real.cos (angle n k) ^ 2)⁻¹ := by
      rw [← prod_inv_distrib]
      refine prod_congr rfl fun k _ => ?_
      rw [zero_sub, Complex.normSq_neg, map_mul, Complex.normSq_I, one_mul, map_inv₀, Complex.normSq_ofReal, sq]
    have e3 : (∏ k ∈ range n, Complex.normSq (((v⁻¹ : ℝ) : ℂ) * Complex.I - Complex.I * ((Real.cos (angle n k) : ℝ) : ℂ)⁻¹)) *
        (∏ k ∈ range n, Real.cos (angle n k) ^ 2) = (4 * T n v ^ 2 / 4 ^ n) / (v ^ 2) ^ n := by
      rw [← prod_mul_distrib, prod_congr rfl fun k hk => distance_zero v hv0 _ (hc k hk), prod_div_distrib, prod_cos n hn, prod_const, card_range]
    have e4 : (∏ k ∈ range n, Complex.normSq (((v⁻¹ : ℝ) : ℂ) * Complex.I - (poleT n (aII n δ) k)⁻¹)) *
        (∏ k ∈ range n, Complex.normSq (poleT n (aII n δ) k)) = (4 * (T n v ^ 2 + (db2pow δ - 1)) / 4 ^ n) / (v ^ 2) ^ n := by
      rw [← prod_mul_distrib, prod_congr rfl fun k hk => distance_pole v hv0 _ (hp0 k hk), prod_div_distrib, prod_tcheb n hn, prod_const, card_range, hs]
      have : T n (-v) ^ 2 = T n v ^ 2 := by
        unfold T
        rw [Polynomial.Chebyshev.T_eval_neg]
        rw [mul_pow]
        rcases Int.even_or_odd (n : ℤ) with hp | hp
        · simp [Int.negOnePow_even _ hp]
        · simp [Int.negOnePow_odd _ hp]
      rw [this]
    rw [e1, e2]
    show _ = T n v ^ 2 / (T n v ^ 2 + (db2pow δ - 1))
    have g1 : (0 : ℝ) < ∏ k ∈ range n, Real.cos (angle n k) ^ 2 := prod_pos fun k hk => by
      have := hc k hk
      positivity
    have g2 : (0 : ℝ) < ∏ k ∈ range n, Complex.normSq (poleT n (aII n δ) k) := prod_pos fun k hk => Complex.normSq_pos.2 (hp0 k hk)
    generalize (∏ k ∈ range n, Complex.normSq (((v⁻¹ : ℝ) : ℂ) * Complex.I - Complex.I * ((Real.cos (angle n k) : ℝ) : ℂ)⁻¹)) = A at *
    generalize (∏ k ∈ range n, Complex.normSq (((v⁻¹ : ℝ) : ℂ) * Complex.I - (poleT n (aII n δ) k)⁻¹)) = B at *
    generalize ∏ k ∈ range n, Real.cos (angle n k) ^ 2 = C at *
    generalize (∏ k ∈ range n, Complex.normSq (poleT n (aII n δ) k)) = D at *
    have h5 : (D⁻¹ / C⁻¹ * A / B) = (A * C) / (B * D) := by field_simp
    rw [h5, e3, e4]
    field_simp

/-- **C92 (type II, attenuation).** For an even order the power gain is at most `-δ` dB everywhere in the stopband (`|ω| ≥ 1`), exactly `-δ` dB at its edge, and above
`-δ` dB (and at most 1) in the passband. -/
theorem C92_attenuation_II_partial (n : ℕ) (hn : 0 < n) (h2 : n % 2 = 0) (δ : ℝ) (h : 0 < δ) : ∃ H, tchebychevII n δ = some H ∧
    (∀ ω : ℝ, 1 ≤ |ω| → Complex.normSq (valeur H (ω * Complex.I)) ≤ 1 / (10 : ℝ) ^ (δ / 10)) ∧
    Complex.normSq (valeur H ((1 : ℝ) * Complex.I)) = 1 / (10 : ℝ) ^ (δ / 10) ∧
    ∀ ω : ℝ, ω ≠ 0 → |ω| < 1 → 1 / (10 : ℝ) ^ (δ / 10) < Complex.normSq (valeur H (ω * Complex.I)) ∧ Complex.normSq (valeur H (ω * Complex.I)) ≤ 1 := by
  obtain ⟨H, e, _, _, _, _, _, _, _, hv⟩ := C92_prototype_II_partial n hn h2 δ h
  have h1 : 1 < (10 : ℝ) ^ (δ / 10) := db_un δ h
  refine ⟨H, e, fun ω hω => ?_, ?_, fun ω hω hlt => ?_⟩
  · have h0 : ω ≠ 0 := by
      rintro rfl
      norm_num at hω
    rw [hv ω h0]
    have := T_borne n (1 / ω) (by rw [abs_div, abs_one]; exact (div_le_one (by linarith)).2 hω)
    generalize (10 : ℝ) ^ (δ / 10) = P at *
    rw [div_le_div_iff₀ (by nlinarith [sq_nonneg (T n (1 / ω))]) (by linarith)]
    nlinarith
  · rw [hv 1 one_ne_zero, div_one, T_un]
    congr 1
    · ring
    · ring
  · rw [hv ω hω]
    have h3 : 0 < |ω| := abs_pos.2 hω
    have := T_hors n hn (1 / ω) (by rw [abs_div, abs_one]; exact (one_lt_div h3).2 hlt)
    generalize (10 : ℝ) ^ (δ / 10) = P at *
    constructor
    · rw [div_lt_div_iff₀ (by linarith) (by nlinarith)]
      nlinarith
    · rw [div_le_one (by nlinarith)]
      nlinarith

/-- **C92 (digital low-pass, type II).** For an even order and `0 < fc < 1/2`, `design_riia(n, "lp", "cheb2", fc, ·, δ)` has `n` poles inside the unit disk, gain 1 at zero
frequency, and a power gain of at most `-δ` dB at every pulsation from `2π fc` to `π` (excluded). -/
theorem C92_passe_bas_II_partial (n : ℕ) (hn : 0 < n) (h2 : n % 2 = 0) (fc δ δ₁ : ℝ) (h0 : 0 < fc) (h1 : fc < 1 / 2) (h : 0 < δ) :
    ∃ H, riiaChaine n "lp" "cheb2" fc δ₁ δ = some H ∧ H.denom.coefs.length = n ∧ (∀ p ∈ H.denom.coefs, ‖p‖ < 1) ∧ valeur H 1 = 1 ∧
      ∀ θ : ℝ, 2 * Real.pi * fc ≤ θ → θ < Real.pi →
        Complex.normSq (valeur H (Complex.exp ((θ : ℂ) * Complex.I))) ≤ 1 / (10 : ℝ) ^ (δ / 10) := by
  obtain ⟨Ha, e, rn, rd, ln, ld, hz, hp, v0, _⟩ := C92_prototype_II_partial n hn h2 δ h
  obtain ⟨Ha', e', hatt, _, _⟩ := C92_attenuation_II_partial n hn h2 δ h
  rw [e, Option.some.injEq] at e'
  subst e'
  obtain ⟨_, ht⟩ := pulsation_coupure fc h0 h1
  obtain ⟨H, eH, l, st, v1, vθ⟩ := C89_numerique_bas Ha fc h0 h1 rn rd hp (fun r hr => (hz r hr).1.le) (by rw [ln, ld])
  have hpi := Real.pi_pos
  refine ⟨H, ?_, by rw [l, ld], st, by rw [v1, v0], fun θ ha hb => ?_⟩
  · show (tchebychevII n δ).bind _ = some H
    rw [e]
    exact eH
  · have hc : 0 < Real.cos (θ / 2) := Real.cos_pos_of_mem_Ioo ⟨by nlinarith, by linarith⟩
    rw [vθ θ hc.ne']
    refine hatt _ ?_
    have h3 : Real.tan (Real.pi * fc) ≤ Real.tan (θ / 2) := by
      rcases ha.eq_or_lt with ha | ha
      · rw [← ha]
        apply le_of_eq
        congr 1
        ring
      · exact (Real.tan_lt_tan_of_lt_of_lt_pi_div_two (by nlinarith) (by linarith) (by linarith)).le
    rw [abs_of_pos (div_pos (by linarith) ht), le_div_iff₀ ht, one_mul]
    exact h3

/-- **C92 (odd order, refuted).** For an odd order `tchebychev_II_analogique` divides by `cos(π/2)`: in exact arithmetic one of the zeros does not exist. -/
theorem C92_impair_refute (m : ℕ) (δ : ℝ) : tchebychevII (2 * m + 1) δ = none ∧ Real.cos (angleZero (2 * m + 1) m) = 0 := by
  constructor
  · unfold tchebychevII
    rw [if_pos (by omega)]
  · have : angleZero (2 * m + 1) m = Real.pi / 2 := by
      unfold angleZero
      push_cast
      field_simp
      ring
    rw [this, Real.cos_pi_div_two]

/-- **C92 (elliptic design of order 1, refuted).** The pole of the first-order elliptic prototype is `-sqrt(1/10^(rp/10) - 1)`, the square root of a negative number for every
ripple `rp > 0` dB: the filter is made of NaN. -/
theorem C92_elliptique_refute (rp : ℝ) (h : 0 < rp) : argElliptique1 rp < 0 := by
  have h1 := db_un rp h
  unfold argElliptique1
  have : 1 / db2pow rp < 1 := by
    rw [div_lt_one (by linarith)]
    exact h1
  linarith

/-- Non-vacuity: order 4, attenuation 40 dB, cut-off frequency 1/10. -/
example : ∃ H, riiaChaine 4 "lp" "cheb2" (1 / 10) 0 40 = some H ∧ H.denom.coefs.length = 4 := by
  obtain ⟨H, e, l, _⟩ := C92_passe_bas_II_partial 4 (by norm_num) (by norm_num) (1 / 10) 40 0 (by norm_num) (by norm_num) (by norm_num)
  exact ⟨H, e, l⟩

end Verif.Rii
