import Verif.Telecom.Ber
import Mathlib.MeasureTheory.Integral.IntegralEqImproper
import Mathlib.MeasureTheory.Measure.Prod

namespace Verif.Telecom
open MeasureTheory ProbabilityTheory
open scoped NNReal

theorem exp_integrable : Integrable (fun t : ℝ => Real.exp (-t ^ 2)) := by
  have := integrable_exp_neg_mul_sq (b := 1) one_pos
  simpa using this

theorem erfc_nonneg (x : ℝ) : 0 ≤ erfc x := by
  unfold erfc
  have : 0 ≤ ∫ t in Set.Ioi x, Real.exp (-t ^ 2) := setIntegral_nonneg measurableSet_Ioi fun t _ => (Real.exp_pos _).le
  positivity

/-- Tail of a centred Gaussian variable. -/
theorem queue_ioi (v : ℝ≥0) (hv : v ≠ 0) (a : ℝ) : (gaussianReal 0 v).real (Set.Ioi a) = erfc (a / Real.sqrt (2 * v)) / 2 := by
  have hv' : (0 : ℝ) < v := by exact_mod_cast pos_iff_ne_zero.2 hv
  have hs : 0 < Real.sqrt (2 * v) := Real.sqrt_pos.2 (by positivity)
  unfold Measure.real
  rw [gaussianReal_apply_eq_integral 0 hv, ENNReal.toReal_ofReal (setIntegral_nonneg measurableSet_Ioi fun t _ => gaussianPDFReal_nonneg _ _ _)]
  have h := MeasureTheory.integral_comp_mul_left_Ioi (fun x => gaussianPDFReal 0 v x) (a / Real.sqrt (2 * v)) hs
  rw [mul_div_cancel₀ _ hs.ne'] at h
  have h2 : ∀ t : ℝ, gaussianPDFReal 0 v (Real.sqrt (2 * v) * t) = (Real.sqrt (2 * Real.pi * v))⁻¹ * Real.exp (-t ^ 2) := by
    intro t
    simp only [gaussianPDFReal, sub_zero]
    congr 2
    rw [mul_pow, Real.sq_sqrt (by positivity)]
    field_simp
  simp only [h2] at h
  rw [integral_const_mul] at h
  have h3 : ∫ x in Set.Ioi a, gaussianPDFReal 0 v x = Real.sqrt (2 * v) * ((Real.sqrt (2 * Real.pi * v))⁻¹ * ∫ t in Set.Ioi (a / Real.sqrt (2 * v)), Real.exp (-t ^ 2)) := by
    rw [h, smul_eq_mul, ← mul_assoc, mul_inv_cancel₀ hs.ne', one_mul]
  rw [h3]
  unfold erfc
  generalize (∫ t in Set.Ioi (a / Real.sqrt (2 * v)), Real.exp (-t ^ 2)) = I
  have e : Real.sqrt (2 * Real.pi * v) = Real.sqrt (2 * v) * Real.sqrt Real.pi := by
    rw [← Real.sqrt_mul (by positivity)]; ring_nf
  rw [e]
  have hp : 0 < Real.sqrt Real.pi := Real.sqrt_pos.2 Real.pi_pos
  field_simp

theorem queue_ici (v : ℝ≥0) (hv : v ≠ 0) (a : ℝ) : (gaussianReal 0 v).real (Set.Ici a) = erfc (a / Real.sqrt (2 * v)) / 2 := by
  haveI := nullSingletonClass_gaussianReal (μ := 0) hv
  rw [← queue_ioi v hv a]
  unfold Measure.real
  rw [measure_congr Ioi_ae_eq_Ici]

theorem queue_iio (v : ℝ≥0) (hv : v ≠ 0) (a : ℝ) : (gaussianReal 0 v).real (Set.Iio (-a)) = erfc (a / Real.sqrt (2 * v)) / 2 := by
  rw [← queue_ioi v hv a]
  have h := gaussianReal_map_neg (μ := 0) (v := v)
  rw [neg_zero] at h
  conv_rhs => rw [← h]
  unfold Measure.real
  rw [Measure.map_apply measurable_neg measurableSet_Ioi]
  congr 2
  ext x
  simp only [Set.mem_Iio, Set.mem_preimage, Set.mem_Ioi]
  constructor <;> intro h <;> linarith

theorem queue_iic (v : ℝ≥0) (hv : v ≠ 0) (a : ℝ) : (gaussianReal 0 v).real (Set.Iic (-a)) = erfc (a / Real.sqrt (2 * v)) / 2 := by
  haveI := nullSingletonClass_gaussianReal (μ := 0) hv
  rw [← queue_iio v hv a]
  unfold Measure.real
  rw [measure_congr Iio_ae_eq_Iic]

/-- `erfc` decreases strictly. -/
theorem erfc_strictAnti : StrictAnti erfc := by
  intro x y hxy
  have hp : 0 < Real.sqrt Real.pi := Real.sqrt_pos.2 Real.pi_pos
  unfold erfc
  apply mul_lt_mul_of_pos_left _ (by positivity)
  have h : ∫ t in Set.Ioi x, Real.exp (-t ^ 2) = (∫ t in Set.Ioc x y, Real.exp (-t ^ 2)) + ∫ t in Set.Ioi y, Real.exp (-t ^ 2) := by
    rw [← setIntegral_union (by rw [Set.disjoint_left]; intro t h1 h2; exact absurd h1.2 (not_le.2 h2)) measurableSet_Ioi exp_integrable.integrableOn exp_integrable.integrableOn,
      Set.Ioc_union_Ioi_eq_Ioi hxy.le]
  rw [h]
  have : 0 < ∫ t in Set.Ioc x y, Real.exp (-t ^ 2) := by
    rw [← intervalIntegral.integral_of_le hxy.le]
    exact intervalIntegral.intervalIntegral_pos_of_pos exp_integrable.intervalIntegrable (fun t => Real.exp_pos _) hxy
  linarith

theorem erfc_zero : erfc 0 = 1 := by
  have h1 := queue_ioi 1 one_ne_zero 0
  have h2 := queue_iic 1 one_ne_zero 0
  have h3 : (gaussianReal 0 1).real (Set.Iic 0) + (gaussianReal 0 1).real (Set.Ioi 0) = 1 := by
    rw [← measureReal_union (by rw [Set.disjoint_left]; intro t h1 h2; exact not_le.2 (Set.mem_Ioi.1 h2) (Set.mem_Iic.1 h1)) measurableSet_Ioi, Set.Iic_union_Ioi]
    simp
  rw [neg_zero] at h2
  rw [h1, h2] at h3
  simp only [zero_div] at h3
  linarith

theorem erfc_neg (x : ℝ) : erfc (-x) = 2 - erfc x := by
  have h1 := queue_ioi 1 one_ne_zero (Real.sqrt 2 * x)
  have h2 := queue_iic 1 one_ne_zero (-(Real.sqrt 2 * x))
  have h3 : (gaussianReal 0 1).real (Set.Iic (Real.sqrt 2 * x)) + (gaussianReal 0 1).real (Set.Ioi (Real.sqrt 2 * x)) = 1 := by
    rw [← measureReal_union (by rw [Set.disjoint_left]; intro t h1 h2; exact not_le.2 (Set.mem_Ioi.1 h2) (Set.mem_Iic.1 h1)) measurableSet_Ioi, Set.Iic_union_Ioi]
    simp
  have hs : 0 < Real.sqrt 2 := by positivity
  rw [neg_neg] at h2
  rw [h1, h2] at h3
  have e : (Real.sqrt 2 * x) / Real.sqrt (2 * ((1 : ℝ≥0) : ℝ)) = x := by
    rw [NNReal.coe_one, mul_one]; field_simp
  have e' : -(Real.sqrt 2 * x) / Real.sqrt (2 * ((1 : ℝ≥0) : ℝ)) = -x := by
    rw [NNReal.coe_one, mul_one]; field_simp
  rw [e, e'] at h3
  linarith

theorem erfc_pos (x : ℝ) : 0 < erfc x := lt_of_le_of_lt (erfc_nonneg (x + 1)) (erfc_strictAnti (by linarith))

theorem erfc_lt_two (x : ℝ) : erfc x < 2 := by
  have := erfc_pos (-x)
  rw [erfc_neg] at this
  linarith

theorem erfc_le_one (x : ℝ) (hx : 0 ≤ x) : erfc x ≤ 1 := by
  rw [← erfc_zero]
  exact erfc_strictAnti.antitone hx

theorem db2pow_pos (x : ℝ) : 0 < db2pow x := Real.rpow_pos_of_pos (by norm_num) _

instance (v : ℝ≥0) : IsProbabilityMeasure (bruit v) := by unfold bruit; infer_instance

/-- Probability of a rectangle. -/
theorem bruit_rect (v : ℝ≥0) (s t : Set ℝ) : (bruit v).real (s ×ˢ t) = (gaussianReal 0 v).real s * (gaussianReal 0 v).real t := by
  unfold bruit Measure.real
  rw [Measure.prod_prod, ENNReal.toReal_mul]

theorem bruit_fst (v : ℝ≥0) (s : Set ℝ) : (bruit v).real {n | n.1 ∈ s} = (gaussianReal 0 v).real s := by
  have : {n : ℝ × ℝ | n.1 ∈ s} = s ×ˢ Set.univ := by ext; simp
  rw [this, bruit_rect]
  simp

theorem bruit_snd (v : ℝ≥0) (s : Set ℝ) : (bruit v).real {n | n.2 ∈ s} = (gaussianReal 0 v).real s := by
  have : {n : ℝ × ℝ | n.2 ∈ s} = Set.univ ×ˢ s := by ext; simp
  rw [this, bruit_rect]
  simp

end Verif.Telecom
