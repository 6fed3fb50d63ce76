/-
C69: frequency estimation.
-/
import Verif.Fourier.Estim
import Mathlib.Tactic.LinearCombination
import Mathlib.Analysis.SpecialFunctions.Trigonometric.Bounds
import Mathlib.Algebra.Order.Round
import Mathlib.Data.List.GetD

namespace Verif.Fourier

open Finset

/-! ### Specification -/

/-- Pure complex exponential, of amplitude `A` and normalised frequency `ν`. -/
noncomputable def exponentielle (A : ℂ) (ν : ℝ) (n : ℕ) : List ℂ :=
  (List.range n).map fun j : ℕ => A * Complex.exp ((2 * Real.pi * ν * j : ℝ) * Complex.I)

/-! ### Index of the maximum -/

theorem indexMaxDe_spec (l : List ℝ) (i b : ℕ) (vb : ℝ) :
    ((indexMaxDe l i b vb = b ∧ ∀ v ∈ l, v ≤ vb) ∨
      ∃ j, j < l.length ∧ indexMaxDe l i b vb = i + j ∧ vb ≤ l.getD j 0 ∧ ∀ v ∈ l, v ≤ l.getD j 0) := by
  induction l generalizing i b vb with
  | nil => left; exact ⟨rfl, by simp⟩
  | cons v l ih =>
    unfold indexMaxDe
    split
    · rename_i h
      right
      rcases ih (i + 1) i v with ⟨e, hm⟩ | ⟨j, hj, e, h1, h2⟩
      · exact ⟨0, by simp, by simpa using e, by simpa using h.le, by simpa using hm⟩
      · refine ⟨j + 1, by simpa using hj, by rw [e]; ring, ?_, ?_⟩
        · rw [List.getD_cons_succ]; linarith
        · rw [List.getD_cons_succ]; simpa using ⟨h1, h2⟩
    · rename_i h
      have h := not_lt.1 h
      rcases ih (i + 1) b vb with ⟨e, hm⟩ | ⟨j, hj, e, h1, h2⟩
      · left; exact ⟨e, by simpa using ⟨h, hm⟩⟩
      · right
        refine ⟨j + 1, by simpa using hj, by rw [e]; ring, ?_, ?_⟩
        · rw [List.getD_cons_succ]; linarith
        · rw [List.getD_cons_succ]; simpa using ⟨h.trans h1, h2⟩

theorem indexMax_spec (l : List ℝ) (hl : 0 < l.length) :
    indexMax l < l.length ∧ ∀ v ∈ l, v ≤ l.getD (indexMax l) 0 := by
  cases l with
  | nil => simp at hl
  | cons v l =>
    show indexMaxDe l 1 0 v < _ ∧ ∀ u ∈ v :: l, u ≤ (v :: l).getD (indexMaxDe l 1 0 v) 0
    rcases indexMaxDe_spec l 1 0 v with ⟨e, hm⟩ | ⟨j, hj, e, h1, h2⟩
    · rw [e]; exact ⟨by simp, by simpa using hm⟩
    · rw [e, Nat.add_comm]
      refine ⟨by simpa using hj, ?_⟩
      rw [List.getD_cons_succ]
      simpa using ⟨h1, h2⟩

theorem indexMax_norm (X : List ℂ) (hX : 0 < X.length) :
    indexMax (X.map (‖·‖)) < X.length ∧
      ∀ j, j < X.length → ‖X.getD j 0‖ ≤ ‖X.getD (indexMax (X.map (‖·‖))) 0‖ := by
  obtain ⟨h1, h2⟩ := indexMax_spec (X.map (‖·‖)) (by simpa using hX)
  rw [List.length_map] at h1
  refine ⟨h1, fun j hj => ?_⟩
  have h3 := h2 ‖X.getD j 0‖ (by
    rw [List.getD_eq_getElem _ _ hj]
    exact List.mem_map.2 ⟨_, List.getElem_mem _, rfl⟩)
  rw [List.getD_eq_getElem (X.map (‖·‖)) _ (by simpa using h1), List.getElem_map] at h3
  rw [List.getD_eq_getElem X _ h1]
  exact h3

theorem voisins_some (X : List ℂ) (k : ℕ) (hk : k < X.length) :
    voisins X k = some (X.getD ((k + X.length - 1) % X.length) 0, X.getD k 0, X.getD ((k + 1) % X.length) 0) := by
  have h1 := Nat.mod_lt (k + X.length - 1) (show 0 < X.length by omega)
  have h2 := Nat.mod_lt (k + 1) (show 0 < X.length by omega)
  unfold voisins
  rw [List.getElem?_eq_getElem h1, List.getElem?_eq_getElem hk, List.getElem?_eq_getElem h2,
    List.getD_eq_getElem _ _ h1, List.getD_eq_getElem _ _ hk, List.getD_eq_getElem _ _ h2]

/-! ### Spectrum of an exponential -/

/-- Phase (half angle) between the exponential and bin `m`. -/
noncomputable def ecart (n : ℕ) (ν : ℝ) (m : ℕ) : ℝ := Real.pi * (ν - m / n)

noncomputable def geo (n : ℕ) (a : ℝ) : ℂ := ∑ j ∈ range n, Complex.exp ((2 * a : ℝ) * Complex.I) ^ j

theorem spectre_exp (A : ℂ) (ν : ℝ) (n : ℕ) (hn : 0 < n) (hn2 : n ≤ 2 ^ 29) :
    ∃ X, fft trigoC (exponentielle A ν n) = some X ∧ X.length = n ∧
      ∃ c : ℂ, (A ≠ 0 → c ≠ 0) ∧ ∀ m, m < n → X.getD m 0 = c * geo n (ecart n ν m) := by
  have hl : (exponentielle A ν n).length = n := by simp [exponentielle]
  obtain ⟨X, e, l, t⟩ := C27_fft (exponentielle A ν n) (by omega) (by omega)
  rw [hl] at l t
  have hn' : (n : ℂ) ≠ 0 := by exact_mod_cast hn.ne'
  have hs : (Real.sqrt n : ℂ) ≠ 0 := by
    have : Real.sqrt n ≠ 0 := (Real.sqrt_pos.2 (by exact_mod_cast hn)).ne'
    exact_mod_cast this
  refine ⟨X, e, l, A / Real.sqrt n, fun hA => div_ne_zero hA hs, fun m hm => ?_⟩
  rw [t m hm]
  unfold TFD geo ecart
  rw [hl, div_mul_eq_mul_div, mul_sum]
  congr 1
  apply sum_congr rfl
  intro j hj
  have hj := mem_range.1 hj
  have hg : (exponentielle A ν n).getD j 0 = A * Complex.exp ((2 * Real.pi * ν * j : ℝ) * Complex.I) := by
    rw [exponentielle, List.getD_eq_getElem?_getD, List.getElem?_map, List.getElem?_range hj]; rfl
  rw [hg, mul_assoc, ← Complex.exp_add, ← Complex.exp_nat_mul]
  congr 2
  push_cast
  field_simp
  ring

theorem geo_mul (n : ℕ) (ν : ℝ) (m : ℕ) (hn : 0 < n) :
    geo n (ecart n ν m) * (Complex.exp ((2 * ecart n ν m : ℝ) * Complex.I) - 1)
      = Complex.exp ((2 * Real.pi * (n * ν) : ℝ) * Complex.I) - 1 := by
  have hn' : (n : ℂ) ≠ 0 := by exact_mod_cast hn.ne'
  unfold geo
  rw [geom_sum_mul, ← Complex.exp_nat_mul]
  congr 1
  have : (n : ℂ) * ((2 * ecart n ν m : ℝ) * Complex.I)
      = (2 * Real.pi * (n * ν) : ℝ) * Complex.I + (-(m : ℤ) : ℤ) * (2 * Real.pi * Complex.I) := by
    unfold ecart; push_cast; field_simp; ring
  rw [this, Complex.exp_add, Complex.exp_int_mul_two_pi_mul_I, mul_one]

theorem norm_exp_double (a : ℝ) : ‖Complex.exp ((2 * a : ℝ) * Complex.I) - 1‖ = 2 * |Real.sin a| := by
  have := Complex.norm_exp_I_mul_ofReal_sub_one (2 * a)
  rw [mul_comm] at this
  rw [this, Real.norm_eq_abs, abs_mul]
  norm_num

theorem abs_sin_int (x : ℝ) (q : ℤ) : |Real.sin (x + q * Real.pi)| = |Real.sin x| := by
  rw [Real.sin_add_int_mul_pi, abs_mul, abs_zpow]; simp

/-- The bin of largest modulus is at less than half a bin of the frequency (modulo 1). -/
theorem proche (n : ℕ) (hn : 0 < n) (ν : ℝ) (X : List ℂ) (hX : X.length = n) (c : ℂ) (hc : c ≠ 0)
    (h : ∀ m, m < n → X.getD m 0 = c * geo n (ecart n ν m)) :
    ∃ z : ℤ, |ecart n ν (indexMax (X.map (‖·‖))) + z * Real.pi| ≤ Real.pi / (2 * n) := by
  have hpi := Real.pi_pos
  have hnr : (0 : ℝ) < n := by exact_mod_cast hn
  have hn1 : (1 : ℝ) ≤ n := by exact_mod_cast hn
  obtain ⟨hk, hmax⟩ := indexMax_norm X (by omega)
  set k := indexMax (X.map (‖·‖)) with hkdef
  rw [hX] at hk hmax
  -- nearest bin
  have hb0 : (0 : ℤ) ≤ round ((n : ℝ) * ν) % n := Int.emod_nonneg _ (by omega)
  have hb1 : round ((n : ℝ) * ν) % n < n := Int.emod_lt_of_pos _ (by omega)
  obtain ⟨m, hm⟩ := Int.eq_ofNat_of_zero_le hb0
  have hmn : m < n := by omega
  have hq := Int.mul_ediv_add_emod (round ((n : ℝ) * ν)) n
  rw [hm] at hq
  set q := round ((n : ℝ) * ν) / (n : ℤ)
  have hq' : (n : ℝ) * q + m = round ((n : ℝ) * ν) := by exact_mod_cast hq
  have hround := abs_sub_round ((n : ℝ) * ν)
  have hea : ecart n ν m = Real.pi / n * (n * ν - round ((n : ℝ) * ν)) + q * Real.pi := by
    rw [← hq']; unfold ecart; field_simp; ring
  set a0 := Real.pi / n * (n * ν - round ((n : ℝ) * ν)) with ha0
  have ha0b : |a0| ≤ Real.pi / (2 * n) := by
    rw [ha0, abs_mul, abs_of_pos (by positivity)]
    calc _ ≤ Real.pi / n * (1 / 2) := by gcongr
      _ = _ := by field_simp
  have hpin : Real.pi / (2 * n) ≤ Real.pi / 2 := by
    gcongr; linarith
  have hsm : |Real.sin (ecart n ν m)| ≤ Real.sin (Real.pi / (2 * n)) := by
    rw [hea, abs_sin_int, Real.abs_sin_eq_sin_abs_of_abs_le_pi (by linarith)]
    exact Real.sin_le_sin_of_le_of_le_pi_div_two (by linarith [abs_nonneg a0]) hpin ha0b
  -- the maximum is at least as close
  have hsk : |Real.sin (ecart n ν k)| ≤ |Real.sin (ecart n ν m)| := by
    have gk := geo_mul n ν k hn
    have gm := geo_mul n ν m hn
    have hle := hmax m hmn
    rw [h k hk, h m hmn, norm_mul, norm_mul] at hle
    have hle := le_of_mul_le_mul_left hle (norm_pos_iff.2 hc)
    have nk := congrArg norm gk
    have nm := congrArg norm gm
    rw [norm_mul, norm_exp_double] at nk nm
    by_contra hlt
    have hlt := not_le.1 hlt
    have h0 : 0 < |Real.sin (ecart n ν k)| := lt_of_le_of_lt (abs_nonneg _) hlt
    rcases eq_or_lt_of_le (norm_nonneg (geo n (ecart n ν k))) with hz | hz
    · -- everything would vanish
      have hU : Complex.exp ((2 * Real.pi * (n * ν) : ℝ) * Complex.I) = 1 := by
        rw [← hz, zero_mul] at nk
        exact sub_eq_zero.1 (norm_eq_zero.1 nk.symm)
      obtain ⟨y, hy⟩ := Complex.exp_eq_one_iff.1 hU
      have hy' : (n : ℝ) * ν = y := by
        have h1 : ((2 * Real.pi * (n * ν) : ℝ) : ℂ) * Complex.I = ((2 * Real.pi * y : ℝ) : ℂ) * Complex.I := by
          rw [hy]; push_cast; ring
        have h2 := mul_right_cancel₀ Complex.I_ne_zero h1
        have h3 : 2 * Real.pi * (n * ν) = 2 * Real.pi * y := by exact_mod_cast h2
        exact mul_left_cancel₀ (by positivity) h3
      have hm0 : Complex.exp ((2 * ecart n ν m : ℝ) * Complex.I) = 1 := by
        have : |Real.sin (ecart n ν m)| = 0 := by
          rw [hea, abs_sin_int, ha0, hy', round_intCast, sub_self, mul_zero, Real.sin_zero, abs_zero]
        have := norm_exp_double (ecart n ν m) ▸ (by rw [this, mul_zero] : 2 * |Real.sin (ecart n ν m)| = 0)
        exact sub_eq_zero.1 (norm_eq_zero.1 this)
      have : geo n (ecart n ν m) = n := by unfold geo; rw [hm0]; simp
      rw [this, Complex.norm_natCast, ← hz] at hle
      linarith
    · rcases eq_or_lt_of_le (abs_nonneg (Real.sin (ecart n ν m))) with hs | hs
      · rw [← hs, mul_zero, mul_zero] at nm
        rw [← nm] at nk
        have : 0 < ‖geo n (ecart n ν k)‖ * (2 * |Real.sin (ecart n ν k)|) := by positivity
        linarith
      · have : ‖geo n (ecart n ν m)‖ * (2 * |Real.sin (ecart n ν m)|) < ‖geo n (ecart n ν k)‖ * (2 * |Real.sin (ecart n ν k)|) := by
          calc _ ≤ ‖geo n (ecart n ν k)‖ * (2 * |Real.sin (ecart n ν m)|) := by gcongr
            _ < _ := by gcongr
        rw [nk, nm] at this
        exact lt_irrefl _ this
  -- conclusion
  refine ⟨-round (ν - (k : ℝ) / n), ?_⟩
  set a := ecart n ν k + ((-round (ν - (k : ℝ) / n) : ℤ) : ℝ) * Real.pi with ha
  have hab : |a| ≤ Real.pi / 2 := by
    have h1 : a = Real.pi * ((ν - (k : ℝ) / n) - round (ν - (k : ℝ) / n)) := by
      rw [ha]; unfold ecart; push_cast; ring
    rw [h1, abs_mul, abs_of_pos hpi]
    calc _ ≤ Real.pi * (1 / 2) := by gcongr; exact abs_sub_round _
      _ = _ := by ring
  have hsa : |Real.sin a| ≤ Real.sin (Real.pi / (2 * n)) := by
    rw [ha, abs_sin_int]; exact hsk.trans hsm
  by_contra hgt
  have hgt := not_le.1 hgt
  have := Real.sin_lt_sin_of_lt_of_le_pi_div_two (x := Real.pi / (2 * n)) (y := |a|)
    (by have : 0 < Real.pi / (2 * n) := by positivity
        linarith) hab hgt
  rw [Real.abs_sin_eq_sin_abs_of_abs_le_pi (by linarith)] at hsa
  linarith

theorem exp_double (a : ℝ) :
    Complex.exp ((2 * a : ℝ) * Complex.I) - 1 = Complex.exp (a * Complex.I) * (2 * Complex.I * Real.sin a) ∧
    Complex.exp ((2 * a : ℝ) * Complex.I) + 1 = Complex.exp (a * Complex.I) * (2 * Real.cos a) := by
  have h : Complex.exp ((2 * a : ℝ) * Complex.I) = Complex.exp (a * Complex.I) ^ 2 := by
    rw [← Complex.exp_nat_mul]; congr 1; push_cast; ring
  have hs : (Complex.sin a) ^ 2 + (Complex.cos a) ^ 2 = 1 := Complex.sin_sq_add_cos_sq _
  rw [h, Complex.exp_mul_I]
  push_cast
  have hI := Complex.I_sq
  constructor
  · linear_combination hs - Complex.sin a ^ 2 * hI
  · linear_combination -hs + Complex.sin a ^ 2 * hI

/-- Candan's formula on three consecutive bins of a pure exponential. -/
theorem candan_ratio (n : ℕ) (hn : 3 ≤ n) (a : ℝ) (ha : |a| ≤ Real.pi / (2 * n)) (c : ℂ) (hc : c ≠ 0)
    (t w : ℂ) (ht : t = Complex.exp ((2 * a : ℝ) * Complex.I))
    (hw : w = Complex.exp ((2 * (Real.pi / n) : ℝ) * Complex.I)) (X1 X2 X3 : ℂ)
    (h1 : X1 = c * ∑ j ∈ range n, (t * w) ^ j) (h2 : X2 = c * ∑ j ∈ range n, t ^ j)
    (h3 : X3 = c * ∑ j ∈ range n, (t * w⁻¹) ^ j) :
    2 * X2 - X3 - X1 ≠ 0 ∧
      (X1 - X3) / (2 * X2 - X3 - X1) = ((Real.tan a / Real.tan (Real.pi / n) : ℝ) : ℂ) := by
  have hpi := Real.pi_pos
  have hnr : (3 : ℝ) ≤ n := by exact_mod_cast hn
  have hn0 : (n : ℂ) ≠ 0 := by exact_mod_cast (by omega : n ≠ 0)
  have hb0 : 0 < Real.pi / n := by positivity
  have hb1 : Real.pi / n < Real.pi / 2 := by gcongr; linarith
  have hab : |a| < Real.pi / 2 := by
    refine lt_of_le_of_lt ha ?_
    gcongr; linarith
  have hca : 0 < Real.cos a := Real.cos_pos_of_mem_Ioo ⟨by linarith [neg_abs_le a], by linarith [le_abs_self a]⟩
  have hcb : 0 < Real.cos (Real.pi / n) := Real.cos_pos_of_mem_Ioo ⟨by linarith, by linarith⟩
  have hsb : 0 < Real.sin (Real.pi / n) := Real.sin_pos_of_pos_of_lt_pi hb0 (by linarith)
  obtain ⟨et1, et2⟩ := exp_double a
  obtain ⟨ew1, ew2⟩ := exp_double (Real.pi / n)
  rw [← ht] at et1 et2
  rw [← hw] at ew1 ew2
  have hca' : (Real.cos a : ℂ) ≠ 0 := by exact_mod_cast hca.ne'
  have hcb' : (Real.cos (Real.pi / n) : ℂ) ≠ 0 := by exact_mod_cast hcb.ne'
  have hsb' : (Real.sin (Real.pi / n) : ℂ) ≠ 0 := by exact_mod_cast hsb.ne'
  have hEa := Complex.exp_ne_zero (a * Complex.I)
  have hEb := Complex.exp_ne_zero ((Real.pi / n : ℝ) * Complex.I)
  have ht0 : t ≠ 0 := ht ▸ Complex.exp_ne_zero _
  have hw0 : w ≠ 0 := hw ▸ Complex.exp_ne_zero _
  have ht1 : t + 1 ≠ 0 := by rw [et2]; exact mul_ne_zero hEa (mul_ne_zero two_ne_zero hca')
  have hw1 : w - 1 ≠ 0 := by
    rw [ew1]; exact mul_ne_zero hEb (mul_ne_zero (mul_ne_zero two_ne_zero Complex.I_ne_zero) hsb')
  have hwn : w ^ n = 1 := by
    rw [hw, ← Complex.exp_nat_mul, show (n : ℂ) * ((2 * (Real.pi / n) : ℝ) * Complex.I) = 2 * Real.pi * Complex.I by
      push_cast; field_simp, Complex.exp_two_pi_mul_I]
  have hwn' : (w⁻¹) ^ n = 1 := by rw [inv_pow, hwn, inv_one]
  have htan : (w + 1) * (t - 1) / ((w - 1) * (t + 1)) = ((Real.tan a / Real.tan (Real.pi / n) : ℝ) : ℂ) := by
    rw [et1, et2, ew1, ew2, Real.tan_eq_sin_div_cos, Real.tan_eq_sin_div_cos]
    have hI := Complex.I_ne_zero
    push_cast at hca' hcb' hsb' hEa hEb ⊢
    field_simp
  have e1 := geom_sum_mul (t * w) n
  have e2 := geom_sum_mul t n
  have e3 := geom_sum_mul (t * w⁻¹) n
  rw [mul_pow, hwn, mul_one] at e1
  rw [mul_pow, hwn', mul_one] at e3
  by_cases hU : t ^ n - 1 = 0
  · -- integer number of periods
    have hta : a = 0 := by
      have hU := sub_eq_zero.1 hU
      rw [ht, ← Complex.exp_nat_mul] at hU
      obtain ⟨y, hy⟩ := Complex.exp_eq_one_iff.1 hU
      have h4 : (((n : ℝ) * a : ℝ) : ℂ) * (2 * Complex.I) = ((y * Real.pi : ℝ) : ℂ) * (2 * Complex.I) := by
        have : (n : ℂ) * ((2 * a : ℝ) * Complex.I) = (((n : ℝ) * a : ℝ) : ℂ) * (2 * Complex.I) := by push_cast; ring
        rw [← this, hy]; push_cast; ring
      have h5 : (n : ℝ) * a = y * Real.pi := by
        exact_mod_cast mul_right_cancel₀ (mul_ne_zero two_ne_zero Complex.I_ne_zero) h4
      have h6 : |(y : ℝ)| < 1 := by
        have : |(n : ℝ) * a| ≤ Real.pi / 2 := by
          rw [abs_mul, abs_of_pos (by linarith : (0 : ℝ) < n)]
          calc _ ≤ (n : ℝ) * (Real.pi / (2 * n)) := by gcongr
            _ = _ := by field_simp
        rw [h5, abs_mul, abs_of_pos hpi] at this
        by_contra hge
        have := mul_le_mul_of_nonneg_right (not_lt.1 hge) hpi.le
        linarith
      have h7 : y = 0 := by
        have : |y| < 1 := by exact_mod_cast h6
        exact Int.abs_lt_one_iff.1 this
      rw [h7] at h5
      have : (n : ℝ) ≠ 0 := by linarith
      simpa [this] using h5
    have ht' : t = 1 := by rw [ht, hta]; simp
    subst ht'
    have hg1 : ∑ j ∈ range n, ((1 : ℂ) * w) ^ j = 0 := by
      rw [one_mul] at e1 ⊢
      rw [hU] at e1
      exact (mul_eq_zero.1 e1).resolve_right hw1
    have hg3 : ∑ j ∈ range n, ((1 : ℂ) * w⁻¹) ^ j = 0 := by
      rw [one_mul] at e3 ⊢
      rw [hU] at e3
      refine (mul_eq_zero.1 e3).resolve_right (sub_ne_zero.2 fun h => hw1 ?_)
      rw [inv_eq_one.1 h, sub_self]
    rw [hg1] at h1
    rw [hg3] at h3
    have hg2 : ∑ j ∈ range n, (1 : ℂ) ^ j = n := by simp
    rw [hg2] at h2
    rw [h1, h2, h3, hta]
    simp [hc, hn0]
  · have k1 : t * w - 1 ≠ 0 := fun h => hU (by rw [← e1, h, mul_zero])
    have k2 : t - 1 ≠ 0 := fun h => hU (by rw [← e2, h, mul_zero])
    have k3 : t * w⁻¹ - 1 ≠ 0 := fun h => hU (by rw [← e3, h, mul_zero])
    have k3' : t - w ≠ 0 := by
      intro h; apply k3; rw [sub_eq_zero.1 h, mul_inv_cancel₀ hw0, sub_self]
    have f1 : X1 = c * (t ^ n - 1) / (t * w - 1) := by rw [h1, eq_div_iff k1, mul_assoc, e1]
    have f2 : X2 = c * (t ^ n - 1) / (t - 1) := by rw [h2, eq_div_iff k2, mul_assoc, e2]
    have f3 : X3 = c * (t ^ n - 1) * w / (t - w) := by
      rw [h3, eq_div_iff k3', mul_assoc, mul_assoc, ← e3]
      field_simp
    set V := c * (t ^ n - 1) with hV
    have hV0 : V ≠ 0 := mul_ne_zero hc hU
    have hD : 2 * X2 - X3 - X1 = -V * t * (t + 1) * (w - 1) ^ 2 / ((t - 1) * (t * w - 1) * (t - w)) := by
      rw [f1, f2, f3]; field_simp; ring
    have hN : X1 - X3 = -V * t * (w - 1) * (w + 1) / ((t * w - 1) * (t - w)) := by
      rw [f1, f3]; field_simp; ring
    have hD0 : 2 * X2 - X3 - X1 ≠ 0 := by
      rw [hD]
      refine div_ne_zero (mul_ne_zero (mul_ne_zero (mul_ne_zero (neg_ne_zero.2 hV0) ht0) ht1) (pow_ne_zero _ hw1)) ?_
      exact mul_ne_zero (mul_ne_zero k2 k1) k3'
    refine ⟨hD0, ?_⟩
    rw [← htan, hN, hD]
    field_simp

theorem geo_exp (n : ℕ) (a b : ℝ) (z : ℤ) (h : a = b + z * Real.pi) :
    geo n a = ∑ j ∈ range n, Complex.exp ((2 * b : ℝ) * Complex.I) ^ j := by
  unfold geo
  have : Complex.exp ((2 * a : ℝ) * Complex.I) = Complex.exp ((2 * b : ℝ) * Complex.I) := by
    rw [show ((2 * a : ℝ) * Complex.I : ℂ) = (2 * b : ℝ) * Complex.I + z * (2 * Real.pi * Complex.I) by
      rw [h]; push_cast; ring, Complex.exp_add, Complex.exp_int_mul_two_pi_mul_I, mul_one]
  rw [this]

theorem mod_entier (n m : ℕ) (hn : 0 < n) : ∃ q : ℕ, ((m % n : ℕ) : ℝ) / n = m / n - q := by
  refine ⟨m / n, ?_⟩
  have h : ((n * (m / n) + m % n : ℕ) : ℝ) = m := by rw [Nat.div_add_mod]
  have hn' : (n : ℝ) ≠ 0 := by exact_mod_cast hn.ne'
  rw [← h]; push_cast; field_simp; ring

/-- Final step: reduction to (-1/2, 1/2]. -/
theorem repli (n : ℕ) (hn : 2 ≤ n) (k : ℕ) (hk : k < n) (p : ℝ) (hp : |p| ≤ 1 / 2) :
    -1 / 2 < (if 1 / 2 < (k + p) / n ∧ (k + p) / n ≤ 1 then (k + p) / n - 1 else (k + p) / (n : ℝ)) ∧
    (if 1 / 2 < (k + p) / n ∧ (k + p) / n ≤ 1 then (k + p) / n - 1 else (k + p) / (n : ℝ)) ≤ 1 / 2 ∧
    ∃ z : ℤ, (if 1 / 2 < (k + p) / n ∧ (k + p) / n ≤ 1 then (k + p) / n - 1 else (k + p) / (n : ℝ)) = (k + p) / n + z := by
  have hn' : (2 : ℝ) ≤ n := by exact_mod_cast hn
  have hk1 : (k : ℝ) + 1 ≤ n := by exact_mod_cast hk
  have hk0 : (0 : ℝ) ≤ k := Nat.cast_nonneg _
  obtain ⟨hp1, hp2⟩ := abs_le.1 hp
  have hr1 : (k + p) / n ≤ 1 := by rw [div_le_one (by linarith)]; linarith
  have hr0 : -1 / 2 < (k + p) / n := by rw [lt_div_iff₀ (by linarith)]; linarith
  split
  · rename_i h
    exact ⟨by linarith [h.1], by linarith, -1, by push_cast; ring⟩
  · rename_i h
    refine ⟨hr0, ?_, 0, by simp⟩
    by_contra hc
    exact h ⟨not_le.1 hc, hr1⟩

/-- Two frequencies of (-1/2, 1/2] equal modulo 1 are equal. -/
theorem meme_freq (r ν : ℝ) (z : ℤ) (h : r = ν + z) (r0 : -1 / 2 < r) (r1 : r ≤ 1 / 2) (v0 : -1 / 2 < ν)
    (v1 : ν ≤ 1 / 2) : r = ν := by
  have h1 : (z : ℝ) < 1 := by linarith
  have h2 : (-1 : ℝ) < z := by linarith
  have h1 : z < 1 := by exact_mod_cast h1
  have h2 : -1 < z := by exact_mod_cast h2
  have : z = 0 := by omega
  rw [h, this]; simp

/-- **C69 (Candan's method is exact).**  The frequency of a pure complex exponential — any non null amplitude, any
frequency of (-1/2, 1/2], any length from 3 — is found exactly (in exact arithmetic). -/
theorem C69_candan (A : ℂ) (hA : A ≠ 0) (ν : ℝ) (v0 : -1 / 2 < ν) (v1 : ν ≤ 1 / 2) (n : ℕ) (hn : 3 ≤ n) (hn2 : n ≤ 2 ^ 29) :
    freqestim (exponentielle A ν n) .candan2 = some ν := by
  have hpi := Real.pi_pos
  have hnr : (3 : ℝ) ≤ n := by exact_mod_cast hn
  have hn0 : (n : ℝ) ≠ 0 := by linarith
  obtain ⟨X, e, l, c, hc, hX⟩ := spectre_exp A ν n (by omega) hn2
  obtain ⟨z, hz⟩ := proche n (by omega) ν X l c (hc hA) hX
  have hk := (indexMax_norm X (by omega)).1
  rw [l] at hk
  have hvois := voisins_some X (indexMax (X.map (‖·‖))) (by omega)
  set k := indexMax (X.map (‖·‖)) with hkdef
  set a := ecart n ν k + z * Real.pi with ha
  have b1 : (k + n - 1) % n < n := Nat.mod_lt _ (by omega)
  have b3 : (k + 1) % n < n := Nat.mod_lt _ (by omega)
  rw [l] at hvois
  obtain ⟨q1, hq1⟩ := mod_entier n (k + n - 1) (by omega)
  obtain ⟨q3, hq3⟩ := mod_entier n (k + 1) (by omega)
  have g2 : X.getD k 0 = c * ∑ j ∈ range n, Complex.exp ((2 * a : ℝ) * Complex.I) ^ j := by
    rw [hX k hk, geo_exp n _ a (-z) (by rw [ha]; push_cast; ring)]
  have g1 : X.getD ((k + n - 1) % n) 0 = c * ∑ j ∈ range n,
      (Complex.exp ((2 * a : ℝ) * Complex.I) * Complex.exp ((2 * (Real.pi / n) : ℝ) * Complex.I)) ^ j := by
    rw [hX _ b1, geo_exp n _ (a + Real.pi / n) ((q1 : ℤ) - 1 - z) (by
      rw [ha]; unfold ecart; rw [hq1, Nat.cast_sub (by omega)]; push_cast; field_simp; ring)]
    rw [← Complex.exp_add]
    congr 3; ext j; congr 2; push_cast; ring
  have g3 : X.getD ((k + 1) % n) 0 = c * ∑ j ∈ range n,
      (Complex.exp ((2 * a : ℝ) * Complex.I) * (Complex.exp ((2 * (Real.pi / n) : ℝ) * Complex.I))⁻¹) ^ j := by
    rw [hX _ b3, geo_exp n _ (a - Real.pi / n) ((q3 : ℤ) - z) (by
      rw [ha]; unfold ecart; rw [hq3]; push_cast; field_simp; ring)]
    rw [← Complex.exp_neg, ← Complex.exp_add]
    congr 3; ext j; congr 2; push_cast; ring
  obtain ⟨hD, hR⟩ := candan_ratio n hn a hz c (hc hA) _ _ rfl rfl _ _ _ g1 g2 g3
  have hab : |a| < Real.pi / 2 := by
    refine lt_of_le_of_lt hz ?_
    gcongr; linarith
  have htb : Real.tan (Real.pi / n) ≠ 0 := by
    refine (Real.tan_pos_of_pos_of_lt_pi_div_two (by positivity) ?_).ne'
    gcongr; linarith
  have hcand : candan2 X = some ((k + n * a / Real.pi) / n) := by
    unfold candan2
    simp only [l, ← hkdef, hvois]
    rw [if_neg hD, hR, Complex.ofReal_re]
    congr 3
    have : Real.tan a / Real.tan (Real.pi / n) * (Real.tan (Real.pi / n) / (Real.pi / n)) * Real.pi / n = Real.tan a := by
      field_simp
    rw [this, Real.arctan_tan (by linarith [neg_abs_le a]) (by linarith [le_abs_self a])]
    field_simp
  unfold freqestim
  rw [e]
  simp only [hcand, Option.map_some, Option.some.injEq]
  have hp : |(n : ℝ) * a / Real.pi| ≤ 1 / 2 := by
    rw [abs_div, abs_mul, abs_of_pos hpi, abs_of_pos (by linarith : (0 : ℝ) < n), div_le_iff₀ hpi]
    calc (n : ℝ) * |a| ≤ n * (Real.pi / (2 * n)) := by gcongr
      _ = _ := by field_simp
  obtain ⟨r0, r1, z', hz'⟩ := repli n (by omega) k hk _ hp
  refine meme_freq _ ν (z' + z) ?_ r0 r1 v0 v1
  rw [hz', ha]
  unfold ecart
  push_cast
  field_simp
  ring

/-- **C69 (method of the maximum).**  For a pure complex exponential the method FFT is at most half a bin away, modulo 1. -/
theorem C69_fft (A : ℂ) (hA : A ≠ 0) (ν : ℝ) (n : ℕ) (hn : 0 < n) (hn2 : n ≤ 2 ^ 29) :
    ∃ r, freqestim (exponentielle A ν n) .fft = some r ∧ ∃ z : ℤ, |r - ν - z| ≤ 1 / (2 * n) := by
  have hpi := Real.pi_pos
  have hnr : (1 : ℝ) ≤ n := by exact_mod_cast hn
  obtain ⟨X, e, l, c, hc, hX⟩ := spectre_exp A ν n hn hn2
  obtain ⟨z, hz⟩ := proche n hn ν X l c (hc hA) hX
  have hl : (exponentielle A ν n).length = n := by simp [exponentielle]
  have key : |(indexMax (X.map (‖·‖)) : ℝ) / n - ν - z| ≤ 1 / (2 * n) := by
    have : ecart n ν (indexMax (X.map (‖·‖))) + z * Real.pi = Real.pi * -((indexMax (X.map (‖·‖)) : ℝ) / n - ν - z) := by
      unfold ecart; ring
    rw [this, abs_mul, abs_neg, abs_of_pos hpi] at hz
    have := le_of_mul_le_mul_left (hz.trans_eq (by ring : Real.pi / (2 * n) = Real.pi * (1 / (2 * n)))) hpi
    exact this
  unfold freqestim
  simp only [e, Option.map_some, hl]
  split
  · refine ⟨_, rfl, z - 1, ?_⟩
    push_cast
    rw [show ∀ x y w : ℝ, x - 1 - y - (w - 1) = x - y - w by intros; ring]
    exact key
  · exact ⟨_, rfl, z, key⟩

/-- **C69 (range, methods FFT and QUADRATIC).**  For every signal, a result is in (-1/2, 1/2]. -/
theorem C69_domaine_partial (x : List ℂ) (m : Methode) (hm : m = .fft ∨ m = .quadratique) (hx : 0 < x.length)
    (hx2 : x.length ≤ 2 ^ 29) (r : ℝ) (h : freqestim x m = some r) : -1 / 2 < r ∧ r ≤ 1 / 2 := by
  obtain ⟨X, e, l, -⟩ := C27_fft x hx hx2
  obtain ⟨hk, hmax⟩ := indexMax_norm X (by omega)
  have hvois := voisins_some X _ hk
  set k := indexMax (X.map (‖·‖)) with hkdef
  unfold freqestim at h
  rw [e] at h
  rcases hm with rfl | rfl
  · simp only [Option.map_some, Option.some.injEq, ← hkdef] at h
    rcases Nat.lt_or_ge 1 x.length with h1 | h1
    · obtain ⟨r0, r1, -⟩ := repli x.length h1 k (by omega) 0 (by norm_num)
      rw [add_zero, h] at r0 r1
      exact ⟨r0, r1⟩
    · have : k = 0 := by omega
      rw [this] at h
      norm_num at h
      rw [← h]; norm_num
  · simp only [quadratique, ← hkdef, hvois] at h
    split at h
    · cases h
    · rename_i hd
      have a1 := hmax _ (Nat.mod_lt (k + X.length - 1) (by omega))
      have a3 := hmax _ (Nat.mod_lt (k + 1) (by omega))
      rcases Nat.lt_or_ge 1 x.length with h1 | h1
      · set A1 := ‖X.getD ((k + X.length - 1) % X.length) 0‖
        set A2 := ‖X.getD k 0‖
        set A3 := ‖X.getD ((k + 1) % X.length) 0‖
        have hpos : 0 < 2 * A2 - A3 - A1 := lt_of_le_of_ne (by linarith) (Ne.symm hd)
        have hp : |1 / 2 * (A3 - A1) / (2 * A2 - A3 - A1)| ≤ 1 / 2 := by
          rw [abs_le, le_div_iff₀ hpos, div_le_iff₀ hpos]
          constructor <;> linarith
        simp only [Option.map_some, Option.some.injEq] at h
        obtain ⟨r0, r1, -⟩ := repli X.length (by omega) k hk _ hp
        rw [h] at r0 r1
        exact ⟨r0, r1⟩
      · exfalso
        apply hd
        have hX1 : X.length = 1 := by omega
        have : k = 0 := by omega
        simp [hX1, this]
        ring

/-- **C69 refuted (range, method CANDAN2).**  There is a signal for which the result is above 1. -/
theorem C69_domaine_refute : ∃ (x : List ℂ) (r : ℝ), freqestim x .candan2 = some r ∧ 1 < r := by
  set X : List ℂ := [⟨3 / 4, -3 / 5⟩, ⟨9 / 10, 2 / 5⟩, 1] with hX
  obtain ⟨-, x, -, e⟩ := C27_inverse X (by simp [hX]) (by norm_num [hX])
  have n0 : ‖(⟨3 / 4, -3 / 5⟩ : ℂ)‖ < ‖(⟨9 / 10, 2 / 5⟩ : ℂ)‖ := by
    rw [← sq_lt_sq₀ (norm_nonneg _) (norm_nonneg _), ← Complex.normSq_eq_norm_sq, ← Complex.normSq_eq_norm_sq,
      Complex.normSq_mk, Complex.normSq_mk]
    norm_num
  have n1 : ‖(⟨9 / 10, 2 / 5⟩ : ℂ)‖ < ‖(1 : ℂ)‖ := by
    rw [← sq_lt_sq₀ (norm_nonneg _) (norm_nonneg _), ← Complex.normSq_eq_norm_sq, Complex.normSq_mk]
    norm_num
  have hk : indexMax (X.map (‖·‖)) = 2 := by
    simp only [hX, List.map_cons, List.map_nil, indexMax, indexMaxDe, if_pos n0, if_pos n1]
  have hd : (2 * 1 - ⟨3 / 4, -3 / 5⟩ - ⟨9 / 10, 2 / 5⟩ : ℂ) ≠ 0 := by
    intro h
    have := congrArg Complex.re h
    norm_num at this
  have hr : ((⟨9 / 10, 2 / 5⟩ - ⟨3 / 4, -3 / 5⟩ : ℂ) / (2 * 1 - ⟨3 / 4, -3 / 5⟩ - ⟨9 / 10, 2 / 5⟩)).re = 202 / 130 := by
    rw [Complex.div_re]
    simp [Complex.normSq_apply]
    norm_num
  have hv : voisins X 2 = some (⟨9 / 10, 2 / 5⟩, 1, ⟨3 / 4, -3 / 5⟩) := by
    rw [voisins_some X 2 (by simp [hX])]; simp [hX]
  have hl : ((X.length : ℕ) : ℝ) = 3 := by simp [hX]
  have hc : candan2 X = some ((2 + Real.arctan (202 / 130 * (Real.tan (Real.pi / 3) / (Real.pi / 3)) * Real.pi / 3) / (Real.pi / 3)) / 3) := by
    unfold candan2
    simp only [hk, hv, hl, if_neg hd, hr]
    norm_num
  have hpi := Real.pi_pos
  set q := Real.arctan (202 / 130 * (Real.tan (Real.pi / 3) / (Real.pi / 3)) * Real.pi / 3) with hq
  have ht : 0 < Real.tan (Real.pi / 3) := Real.tan_pos_of_pos_of_lt_pi_div_two (by positivity) (by linarith)
  have hgt : Real.pi / 3 < q := by
    have h1 : Real.arctan (Real.tan (Real.pi / 3)) = Real.pi / 3 := Real.arctan_tan (by linarith) (by linarith)
    rw [← h1, hq]
    apply Real.arctan_strictMono
    have : 202 / 130 * (Real.tan (Real.pi / 3) / (Real.pi / 3)) * Real.pi / 3 = 202 / 130 * Real.tan (Real.pi / 3) := by
      field_simp
    rw [this]; linarith
  have hr1 : 1 < (2 + q / (Real.pi / 3)) / 3 := by
    have : 1 < q / (Real.pi / 3) := by rw [lt_div_iff₀ (by positivity)]; linarith
    linarith
  refine ⟨x, (2 + q / (Real.pi / 3)) / 3, ?_, hr1⟩
  unfold freqestim
  rw [e]
  simp only [hc, Option.map_some, Option.some.injEq]
  rw [if_neg (fun h => not_le.2 hr1 h.2)]

/-- **C69 refuted (a number).**  An impulse, of any length (in particular a single sample: the exponentials of one sample), gives
not-a-number with the methods CANDAN2 (the default) and QUADRATIC. -/
theorem C69_nombre_refute (A : ℂ) (n : ℕ) (hn : n < 2 ^ 29) :
    freqestim (A :: List.replicate n 0) .candan2 = none ∧ freqestim (A :: List.replicate n 0) .quadratique = none := by
  set x : List ℂ := A :: List.replicate n 0 with hx
  have hl : x.length = n + 1 := by simp [hx]
  obtain ⟨X, e, l, t⟩ := C27_fft x (by omega) (by omega)
  have hcst : ∀ k, k < X.length → X.getD k 0 = A / (Real.sqrt x.length : ℂ) := by
    intro k hk
    rw [t k (by omega)]
    unfold TFD
    congr 1
    rw [hl, sum_range_succ', sum_eq_zero]
    · simp [hx]
    · intro j hj
      rw [hx, List.getD_cons_succ, List.getD_eq_getElem?_getD, List.getElem?_replicate]
      split <;> simp
  obtain ⟨hk, -⟩ := indexMax_norm X (by omega)
  have hv := voisins_some X _ hk
  rw [hcst _ hk, hcst _ (Nat.mod_lt _ (by omega)), hcst _ (Nat.mod_lt _ (by omega))] at hv
  constructor
  · unfold freqestim candan2
    simp only [e, hv]
    rw [if_pos (by ring)]; rfl
  · unfold freqestim quadratique
    simp only [e, hv]
    rw [if_pos (by ring)]; rfl

/-- Non-vacuity of the hypotheses of `C69_candan`: a frequency that is not on a bin. -/
example : freqestim (exponentielle 1 (1 / 10) 7) .candan2 = some (1 / 10) :=
  C69_candan 1 one_ne_zero (1 / 10) (by norm_num) (by norm_num) 7 (by norm_num) (by norm_num)

end Verif.Fourier
