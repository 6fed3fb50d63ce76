/-
C91: Chebyshev type I and type II designs.

Specification: the squared modulus of the frequency response in terms of the Chebyshev polynomial `T_n` of Mathlib, the position of the poles.
-/
import Verif.Conception.ButterProps
import Mathlib.Analysis.SpecialFunctions.Trigonometric.Chebyshev.Basic
import Mathlib.Analysis.SpecialFunctions.Trigonometric.Chebyshev.RootsExtrema

namespace Verif.Rii

open Verif.FracRat Finset

/-- The Chebyshev polynomial of the first kind at a real point. -/
noncomputable def T (n : ℕ) (x : ℝ) : ℝ := (Polynomial.Chebyshev.T ℝ n).eval x

/-- The pole `-sinh(a) sin θ + i cosh(a) cos θ`. -/
noncomputable def poleT (n : ℕ) (a : ℝ) (k : ℕ) : ℂ :=
  ((-Real.sin (angle n k) * Real.sinh a : ℝ) : ℂ) + ((Real.cos (angle n k) : ℝ) : ℂ) * Complex.I * ((Real.cosh a : ℝ) : ℂ)

theorem existe_y (n : ℕ) (x : ℝ) : ∃ y : ℂ, y ≠ 0 ∧ (x : ℂ) = (y + y⁻¹) / 2 ∧ ((T n x : ℝ) : ℂ) = (y ^ n + (y ^ n)⁻¹) / 2 := by
  obtain ⟨w, hw⟩ := Complex.cos_surjective (x : ℂ)
  refine ⟨Complex.exp (w * Complex.I), Complex.exp_ne_zero _, ?_, ?_⟩
  · rw [← hw, Complex.cos, ← Complex.exp_neg, neg_mul]
  · unfold T
    rw [Polynomial.Chebyshev.complex_ofReal_eval_T, ← hw, Polynomial.Chebyshev.T_complex_cos, Complex.cos, ← Complex.exp_nat_mul, ← Complex.exp_neg]
    congr 3
    · push_cast; ring
    · push_cast; ring

theorem facteur_tcheb (x y q r : ℂ) (hy : y ≠ 0) (hx : x = (y + y⁻¹) / 2) (hqr : q * r = 1) : x - (q + r) / 2 = (y - q) * (y - r) / (2 * y) := by
  rw [hx, eq_div_iff (mul_ne_zero two_ne_zero hy)]
  field_simp
  linear_combination (-1 : ℂ) * hqr

theorem racUnite_norm (n k : ℕ) : racUnite n k * starRingEnd ℂ (racUnite n k) = 1 := by
  rw [Complex.mul_conj, Complex.normSq_eq_norm_sq]
  unfold racUnite
  rw [Complex.norm_exp_ofReal_mul_I]
  simp

theorem pole_forme (n : ℕ) (a : ℝ) (k : ℕ) : poleT n a k =
    Complex.I * ((Real.exp a * racUnite n k + Real.exp (-a) * starRingEnd ℂ (racUnite n k)) / 2) := by
  have e : racUnite n k = ((Real.cos (angle n k) : ℝ) : ℂ) + ((Real.sin (angle n k) : ℝ) : ℂ) * Complex.I := by
    unfold racUnite
    rw [Complex.exp_mul_I, Complex.ofReal_cos, Complex.ofReal_sin]
  unfold poleT
  rw [e, Real.sinh_eq, Real.cosh_eq]
  simp only [map_add, map_mul, Complex.conj_ofReal, Complex.conj_I]
  push_cast
  linear_combination (-(Complex.exp a - Complex.exp (-a)) / 2 * Complex.sin (angle n k)) * Complex.I_sq

/-- The product of the squared distances from a point of the imaginary axis to the poles. -/
theorem prod_tcheb (n : ℕ) (hn : 0 < n) (a x : ℝ) :
    ∏ k ∈ range n, Complex.normSq ((x : ℂ) * Complex.I - poleT n a k) = 4 * (T n x ^ 2 + Real.sinh (n * a) ^ 2) / 4 ^ n := by
  obtain ⟨y, hy, hx, hT⟩ := existe_y n x
  have hea : ((Real.exp a : ℝ) : ℂ) * ((Real.exp (-a) : ℝ) : ℂ) = 1 := by
    rw [← Complex.ofReal_mul, ← Real.exp_add]
    simp
  have e : ∀ k ∈ range n, ((Complex.normSq ((x : ℂ) * Complex.I - poleT n a k) : ℝ) : ℂ) =
      ((y - (Real.exp a : ℝ) * racUnite n k) * (y - (Real.exp a : ℝ) * starRingEnd ℂ (racUnite n k))) *
      ((y - (Real.exp (-a) : ℝ) * racUnite n k) * (y - (Real.exp (-a) : ℝ) * starRingEnd ℂ (racUnite n k))) * (4 * y ^ 2)⁻¹ := by
    intro k _
    rw [pole_forme, normSq_pole, one_mul, one_mul]
    have hq := racUnite_norm n k
    have f1 := facteur_tcheb x y (Real.exp a * racUnite n k) (Real.exp (-a) * starRingEnd ℂ (racUnite n k)) hy hx (by
      linear_combination hea * racUnite n k * starRingEnd ℂ (racUnite n k) + hq)
    have f2 := facteur_tcheb x y (Real.exp a * starRingEnd ℂ (racUnite n k)) (Real.exp (-a) * racUnite n k) hy hx (by
      linear_combination hea * racUnite n k * starRingEnd ℂ (racUnite n k) + hq)
    have hc : starRingEnd ℂ ((Real.exp a * racUnite n k + Real.exp (-a) * starRingEnd ℂ (racUnite n k)) / 2) =
        (Real.exp a * starRingEnd ℂ (racUnite n k) + Real.exp (-a) * racUnite n k) / 2 := by
      simp only [map_div₀, map_add, map_mul, Complex.conj_ofReal, Complex.conj_conj, map_ofNat]
    rw [hc, f1, f2]
    field_simp
    ring
  have e2 : ((∏ k ∈ range n, Complex.normSq ((x : ℂ) * Complex.I - poleT n a k) : ℝ) : ℂ) =
      ((4 * (T n x ^ 2 + Real.sinh (n * a) ^ 2) / 4 ^ n : ℝ) : ℂ) := by
    rw [Complex.ofReal_prod, prod_congr rfl e, prod_mul_distrib, prod_mul_distrib, prod_racUnite n hn, prod_racUnite n hn, prod_const, card_range]
    have ha : ((Real.exp (n * a) : ℝ) : ℂ) = ((Real.exp a : ℝ) : ℂ) ^ n := by
      rw [← Complex.ofReal_pow, ← Real.exp_nat_mul]
    have hb : ((Real.exp (-(n * a)) : ℝ) : ℂ) = ((Real.exp (-a) : ℝ) : ℂ) ^ n := by
      rw [← Complex.ofReal_pow, ← Real.exp_nat_mul]
      congr 2
      ring
    have hab : ((Real.exp a : ℝ) : ℂ) ^ n * ((Real.exp (-a) : ℝ) : ℂ) ^ n = 1 := by rw [← mul_pow, hea, one_pow]
    rw [Real.sinh_eq]
    push_cast [-Complex.ofReal_exp]
    rw [hT, ha, hb, pow_mul', pow_mul', pow_mul', inv_pow, mul_pow, ← pow_mul y 2 n, pow_mul' y 2 n]
    have hyn : y ^ n ≠ 0 := pow_ne_zero _ hy
    generalize ((Real.exp a : ℝ) : ℂ) ^ n = A at *
    generalize ((Real.exp (-a) : ℝ) : ℂ) ^ n = B at *
    generalize y ^ n = Y at *
    have h4 : ((4 : ℂ)) ^ n ≠ 0 := pow_ne_zero _ (by norm_num)
    field_simp
    linear_combination 4 * (A * B + 1 + 2 * Y ^ 2) * hab
  exact_mod_cast e2

/-! ### Type I -/

theorem db_un (δ : ℝ) (h : 0 < δ) : 1 < db2pow δ := by
  unfold db2pow
  exact Real.one_lt_rpow (by norm_num) (by positivity)

theorem signe_pos (x : ℝ) (h : 0 < x) : signe x = 1 := by
  unfold signe
  rw [if_pos h, if_neg (by linarith)]
  ring

theorem angles_forme (n : ℕ) : anglesTcheb n = (List.range n).map (angle n) := by
  unfold anglesTcheb
  rw [linspace_un, List.map_map]
  refine List.map_congr_left fun k _ => ?_
  simp only [Function.comp_def, angle]
  ring

/-- The parameter `a` of the poles of type I. -/
noncomputable def aI (n : ℕ) (δ : ℝ) : ℝ := Real.arsinh (1 / epsTchebI δ) / n

theorem eps_pos (δ : ℝ) (h : 0 < δ) : 0 < Real.sqrt (db2pow δ - 1) := Real.sqrt_pos.2 (by linarith [db_un δ h])

theorem aI_pos (n : ℕ) (hn : 0 < n) (δ : ℝ) (h : 0 < δ) : 0 < aI n δ ∧ Real.sinh (n * aI n δ) ^ 2 = 1 / (db2pow δ - 1) := by
  have hn' : (0 : ℝ) < n := by exact_mod_cast hn
  have h1 := eps_pos δ h
  unfold aI epsTchebI
  constructor
  · exact div_pos (Real.arsinh_pos_iff.2 (by positivity)) hn'
  · rw [mul_div_cancel₀ _ hn'.ne', Real.sinh_arsinh, div_pow, Real.sq_sqrt (by linarith [db_un δ h]), one_pow]

theorem poles_tchebI (n : ℕ) (hn : 0 < n) (δ : ℝ) (h : 0 < δ) :
    (tchebychevI n δ).denom = Poly.deRacines ((List.range n).map (poleT n (aI n δ))) := by
  have hs : 0 < Real.sinh (aI n δ) := Real.sinh_pos_iff.2 (aI_pos n hn δ h).1
  show Poly.deRacines _ = Poly.deRacines _
  rw [angles_forme, List.map_map]
  congr 1
  refine List.map_congr_left fun k hk => ?_
  have hk := angle_intervalle n k (List.mem_range.1 hk)
  simp only [Function.comp_def]
  rw [← aI, signe_pos _ (Real.sin_pos_of_pos_of_lt_pi hk.1 hk.2), signe_pos _ hs, poleT]
  simp only [mul_one]

theorem pole_re (n : ℕ) (a : ℝ) (k : ℕ) : (poleT n a k).re = -(Real.sin (angle n k) * Real.sinh a) := by
  unfold poleT
  simp [-Complex.ofReal_neg, -Complex.ofReal_mul, -Complex.ofReal_cos, -Complex.ofReal_cosh, -Complex.ofReal_sin, -Complex.ofReal_sinh]

theorem horner_tchebI (n : ℕ) (hn : 0 < n) (δ : ℝ) (h : 0 < δ) (s : ℂ) :
    (tchebychevI n δ).denom.horner id s = ∏ k ∈ range n, (s - poleT n (aI n δ) k) := by
  rw [poles_tchebI n hn δ h, horner_racines _ rfl]
  simp [Poly.deRacines, List.map_map, Function.comp_def, liste_prod]

theorem valeur_tchebI (n : ℕ) (hn : 0 < n) (δ : ℝ) (h : 0 < δ) (s : ℂ) :
    valeur (tchebychevI n δ) s = (∏ k ∈ range n, (0 - poleT n (aI n δ) k)) / ∏ k ∈ range n, (s - poleT n (aI n δ) k) := by
  rw [← horner_tchebI n hn δ h, ← horner_tchebI n hn δ h]
  unfold valeur FRat.horner
  congr 1
  rw [horner_racines _ rfl]
  simp [tchebychevI, numerVide]

/-- **C91 (type I prototype).** For every order `n ≥ 1` and ripple `δ > 0` dB the type I Chebyshev prototype has `n` poles of negative real part, gain 1 at zero frequency
and `|H(iω)|² = (1 + ε² T_n(0)²) / (1 + ε² T_n(ω)²)` with `ε² = 10^(δ/10) - 1`. -/
theorem C91_prototype_I (n : ℕ) (hn : 0 < n) (δ : ℝ) (h : 0 < δ) : (tchebychevI n δ).denom.coefs.length = n ∧
    (∀ p ∈ (tchebychevI n δ).denom.coefs, p.re < 0) ∧ valeur (tchebychevI n δ) 0 = 1 ∧
    ∀ ω : ℝ, Complex.normSq (valeur (tchebychevI n δ) (ω * Complex.I)) =
      (1 + ((10 : ℝ) ^ (δ / 10) - 1) * T n 0 ^ 2) / (1 + ((10 : ℝ) ^ (δ / 10) - 1) * T n ω ^ 2) := by
  obtain ⟨ha, hs⟩ := aI_pos n hn δ h
  have hε : 0 < db2pow δ - 1 := by linarith [db_un δ h]
  have hp : ∀ x : ℝ, 0 < ∏ k ∈ range n, Complex.normSq ((x : ℂ) * Complex.I - poleT n (aI n δ) k) := by
    intro x
    rw [prod_tcheb n hn, hs]
    positivity
  refine ⟨?_, ?_, ?_, fun ω => ?_⟩
  · rw [poles_tchebI n hn δ h]
    simp [Poly.deRacines]
  · rw [poles_tchebI n hn δ h]
    intro p hp
    simp only [Poly.deRacines, List.mem_map, List.mem_range] at hp
    obtain ⟨k, hk, rfl⟩ := hp
    have hk := angle_intervalle n k hk
    rw [pole_re]
    have := mul_pos (Real.sin_pos_of_pos_of_lt_pi hk.1 hk.2) (Real.sinh_pos_iff.2 ha)
    linarith
  · rw [valeur_tchebI n hn δ h]
    refine div_self fun h0 => ?_
    have := hp 0
    rw [← map_prod, Complex.ofReal_zero, zero_mul, h0, map_zero] at this
    exact lt_irrefl _ this
  · rw [valeur_tchebI n hn δ h, map_div₀, map_prod, map_prod]
    have e0 := prod_tcheb n hn (aI n δ) 0
    rw [Complex.ofReal_zero, zero_mul] at e0
    rw [e0, prod_tcheb n hn, hs]
    show _ = (1 + (db2pow δ - 1) * T n 0 ^ 2) / (1 + (db2pow δ - 1) * T n ω ^ 2)
    generalize db2pow δ - 1 = ε at *
    field_simp
    ring

/-- `T_n(0)² = 0` for odd `n`, `1` for even `n`. -/
theorem T_zero (n : ℕ) : T n 0 ^ 2 = if n % 2 = 1 then 0 else 1 := by
  have e : T n 0 = Real.cos (n * (Real.pi / 2)) := by
    unfold T
    have := Polynomial.Chebyshev.T_real_cos (Real.pi / 2) n
    rw [Real.cos_pi_div_two] at this
    rw [this]
    push_cast
    rfl
  rw [e]
  rcases Nat.even_or_odd' n with ⟨m, rfl | rfl⟩
  · rw [if_neg (by omega)]
    have : ((2 * m : ℕ) : ℝ) * (Real.pi / 2) = m * Real.pi := by push_cast; ring
    rw [this, Real.cos_nat_mul_pi, ← pow_mul, mul_comm, pow_mul]
    simp
  · rw [if_pos (by omega)]
    have : ((2 * m + 1 : ℕ) : ℝ) * (Real.pi / 2) = m * Real.pi + Real.pi / 2 := by push_cast; ring
    rw [this, Real.cos_add_pi_div_two, Real.sin_nat_mul_pi]
    simp

theorem T_un (n : ℕ) : T n 1 = 1 := by
  unfold T
  simp

theorem T_borne (n : ℕ) (x : ℝ) (h : |x| ≤ 1) : T n x ^ 2 ≤ 1 := by
  have := Polynomial.Chebyshev.abs_eval_T_real_le_one n h
  exact (sq_le_one_iff_abs_le_one _).2 this

theorem T_hors (n : ℕ) (hn : 0 < n) (x : ℝ) (h : 1 < |x|) : 1 < T n x ^ 2 := by
  have := Polynomial.Chebyshev.one_lt_abs_eval_T_real (n := (n : ℤ)) (by exact_mod_cast hn.ne') h
  exact one_lt_sq_iff_one_lt_abs _ |>.2 this

/-- The squared gain of the digital type I low-pass at the pulsation `θ`. -/
theorem C91_passe_bas_I (n : ℕ) (hn : 0 < n) (fc δ δ₂ : ℝ) (h0 : 0 < fc) (h1 : fc < 1 / 2) (h : 0 < δ) :
    ∃ H, riiaChaine n "lp" "cheb1" fc δ δ₂ = some H ∧ H.denom.coefs.length = n ∧ (∀ p ∈ H.denom.coefs, ‖p‖ < 1) ∧ valeur H 1 = 1 ∧
      ∀ θ : ℝ, Real.cos (θ / 2) ≠ 0 → Complex.normSq (valeur H (Complex.exp ((θ : ℂ) * Complex.I))) =
        (1 + ((10 : ℝ) ^ (δ / 10) - 1) * T n 0 ^ 2) / (1 + ((10 : ℝ) ^ (δ / 10) - 1) * T n (Real.tan (θ / 2) / Real.tan (Real.pi * fc)) ^ 2) := by
  obtain ⟨bl, bp, b0, bω⟩ := C91_prototype_I n hn δ h
  obtain ⟨H, e, l, st, v0, vθ⟩ := C89_numerique_bas (tchebychevI n δ) fc h0 h1 rfl rfl bp (by simp [tchebychevI, numerVide])
    (by simp [tchebychevI, numerVide])
  exact ⟨H, e, by rw [l, bl], st, by rw [v0, b0], fun θ hθ => by rw [vθ θ hθ, bω]⟩

/-- **C91 (ripple, odd order).** For an odd order, in the passband (`|ω| ≤ 1`, i.e. up to the cut-off frequency) the power gain of the type I prototype stays between
`-δ` dB and 0 dB, is exactly `-δ` dB at the edge, and is below `-δ` dB outside. -/
theorem C91_ondulation_I_partial (n : ℕ) (hn : n % 2 = 1) (δ : ℝ) (h : 0 < δ) (ω : ℝ) :
    (|ω| ≤ 1 → 1 / (10 : ℝ) ^ (δ / 10) ≤ Complex.normSq (valeur (tchebychevI n δ) (ω * Complex.I)) ∧
      Complex.normSq (valeur (tchebychevI n δ) (ω * Complex.I)) ≤ 1) ∧
    (1 < |ω| → Complex.normSq (valeur (tchebychevI n δ) (ω * Complex.I)) < 1 / (10 : ℝ) ^ (δ / 10)) ∧
    Complex.normSq (valeur (tchebychevI n δ) ((1 : ℝ) * Complex.I)) = 1 / (10 : ℝ) ^ (δ / 10) := by
  have hn0 : 0 < n := by omega
  obtain ⟨_, _, _, bω⟩ := C91_prototype_I n hn0 δ h
  have h1 : 1 < (10 : ℝ) ^ (δ / 10) := db_un δ h
  rw [bω, bω, T_zero, if_pos hn, T_un, mul_zero, add_zero]
  generalize (10 : ℝ) ^ (δ / 10) = P at *
  refine ⟨fun hω => ?_, fun hω => ?_, ?_⟩
  · have := T_borne n ω hω
    constructor
    · exact one_div_le_one_div_of_le (by nlinarith [sq_nonneg (T n ω)]) (by nlinarith)
    · rw [div_le_one (by nlinarith [sq_nonneg (T n ω)])]
      nlinarith [sq_nonneg (T n ω)]
  · have := T_hors n hn0 ω hω
    exact one_div_lt_one_div_of_lt (by linarith) (by nlinarith)
  · congr 1
    ring

/-- **C91 (ripple, even order, refuted).** For an even order the gain is normalised to 1 at zero frequency, which is the *bottom* of the ripple: the passband gain is at least
1 and reaches `+δ` dB. -/
theorem C91_ondulation_I_refute (n : ℕ) (hn : 0 < n) (h2 : n % 2 = 0) (δ : ℝ) (h : 0 < δ) :
    (∀ ω : ℝ, |ω| ≤ 1 → 1 ≤ Complex.normSq (valeur (tchebychevI n δ) (ω * Complex.I))) ∧
    ∃ ω : ℝ, |ω| ≤ 1 ∧ Complex.normSq (valeur (tchebychevI n δ) (ω * Complex.I)) = (10 : ℝ) ^ (δ / 10) := by
  obtain ⟨_, _, _, bω⟩ := C91_prototype_I n hn δ h
  have h1 : 1 < (10 : ℝ) ^ (δ / 10) := db_un δ h
  have hn' : (0 : ℝ) < n := by exact_mod_cast hn
  constructor
  · intro ω hω
    rw [bω, T_zero, if_neg (by omega)]
    have := T_borne n ω hω
    generalize (10 : ℝ) ^ (δ / 10) = P at *
    rw [le_div_iff₀ (by nlinarith [sq_nonneg (T n ω)])]
    nlinarith
  · refine ⟨Real.cos (Real.pi / (2 * n)), Real.abs_cos_le_one _, ?_⟩
    rw [bω, T_zero, if_neg (by omega)]
    have : T n (Real.cos (Real.pi / (2 * n))) = 0 := by
      unfold T
      rw [Polynomial.Chebyshev.T_real_cos]
      have : ((n : ℤ) : ℝ) * (Real.pi / (2 * n)) = Real.pi / 2 := by
        push_cast
        field_simp
      rw [this, Real.cos_pi_div_two]
    rw [this]
    ring

end Verif.Rii
