import Verif.Reechan.PropsCic
import Verif.Poly.Props
import Mathlib.Analysis.SpecialFunctions.Trigonometric.Basic
import Mathlib.Analysis.SpecialFunctions.Log.Base
import Mathlib.Analysis.SpecialFunctions.Complex.Arg

/-!
# C176: design and frequency response of the CIC filter (core/src/reechan/cic.cc:110-124, 217-229). Exact arithmetic instead of `float`.
-/

namespace Verif.Reechan

open Verif.FracRat

/-! ## Model -/

/-- `design_cic`, core/src/reechan/cic.cc:108-121; `none`: failed assertion. -/
noncomputable def designCic (R N M : ℕ) : Option (FRat ℝ) :=
  if 0 < R ∧ 0 < M then
    some (FRat.pow (FRat.evalInvZ ⟨Poly.deCoefs (List.replicate (R * M) (1 / ((R * M : ℕ) : ℝ))), Poly.deCoefs [1]⟩) N)
  else none

/-- `cic_freq` at the normalised frequency `f`, core/src/reechan/cic.cc:217-229. -/
noncomputable def cicFreq (R N M : ℕ) (f : ℝ) : ℝ :=
  let RM : ℝ := ((R * M : ℕ) : ℝ);
  let d := RM * Real.sin (Real.pi * f);
  if d ≠ 0 then |Real.sin (RM * Real.pi * f) / d| ^ N else 1

/-- The number of additional bits of `cic_analyse`, core/src/reechan/cic.cc:210. -/
noncomputable def cicBits (R N : ℕ) : ℤ := ⌈(N : ℝ) * Real.logb 2 R - 1⌉

/-! ## Proofs -/

theorem rep_uns (n : ℕ) (c : ℝ) (z : ℂ) : rep Complex.ofRealHom (List.replicate n c) z = c * ∑ k ∈ Finset.range n, (z⁻¹) ^ k := by
  unfold rep
  rw [List.length_replicate, Finset.mul_sum]
  refine Finset.sum_congr rfl fun k hk => ?_
  rw [List.getD_eq_getElem _ _ (by simpa using hk), List.getElem_replicate]
  rfl

/-- **C176 (design).** The transfer function of `design_cic` is `((1 + z⁻¹ + … + z^{-(RM-1)}) / RM)^N`, at every `z ≠ 0`. -/
theorem C176_design (R N M : ℕ) (hR : 0 < R) (hM : 0 < M) : ∃ h, designCic R N M = some h ∧
    ∀ z : ℂ, z ≠ 0 → h.horner Complex.ofRealHom z = ((∑ k ∈ Finset.range (R * M), (z⁻¹) ^ k) / ((R * M : ℕ) : ℂ)) ^ N := by
  refine ⟨_, if_pos ⟨hR, hM⟩, fun z hz => ?_⟩
  have hn : 0 < R * M := Nat.mul_pos hR hM
  set n := R * M with hnd
  rw [C31_puissance]
  congr 1
  have hv : ∀ l : List ℝ, (Poly.deCoefs l).versCoefs.coefs = l := by intro l; simp [Poly.versCoefs, Poly.deCoefs]
  unfold FRat.evalInvZ
  simp only [hv, List.length_replicate, List.length_singleton, List.reverse_singleton, List.reverse_replicate]
  have hr := rep_uns n (1 / (n : ℝ)) z
  have hrev := val_reverse Complex.ofRealHom (List.replicate n (1 / (n : ℝ))) z hz
  rw [List.reverse_replicate, List.length_replicate] at hrev
  have goal : valCoefs Complex.ofRealHom (List.replicate n (1 / (n : ℝ))) z / z ^ (n - 1) = (∑ k ∈ Finset.range n, (z⁻¹) ^ k) / (n : ℂ) := by
    obtain ⟨m, hm⟩ : ∃ m, n = m + 1 := ⟨n - 1, by omega⟩
    have e : z * valCoefs Complex.ofRealHom (List.replicate n (1 / (n : ℝ))) z = z ^ n * rep Complex.ofRealHom (List.replicate n (1 / (n : ℝ))) z := hrev
    have e2 : valCoefs Complex.ofRealHom (List.replicate n (1 / (n : ℝ))) z = z ^ (n - 1) * rep Complex.ofRealHom (List.replicate n (1 / (n : ℝ))) z := by
      have : z * valCoefs Complex.ofRealHom (List.replicate n (1 / (n : ℝ))) z = z * (z ^ (n - 1) * rep Complex.ofRealHom (List.replicate n (1 / (n : ℝ))) z) := by
        rw [e, ← mul_assoc, ← pow_succ', show n - 1 + 1 = n by omega]
      exact mul_left_cancel₀ hz this
    rw [e2, mul_div_cancel_left₀ _ (pow_ne_zero _ hz), hr]
    push_cast
    ring
  split
  · unfold FRat.horner
    dsimp only
    rw [C30_puissance, C30_produit _ _ _ z (by simp [Poly.deCoefs]), horner_z, horner_deCoefs, horner_deCoefs]
    have h1 : valCoefs Complex.ofRealHom [(1 : ℝ)] z = 1 := by simp [valCoefs]
    rw [h1, one_mul]
    exact goal
  · rename_i h1
    have hn1 : n = 1 := by omega
    rw [if_neg (by omega)]
    unfold FRat.horner
    dsimp only
    rw [horner_deCoefs, horner_deCoefs]
    have h1 : valCoefs Complex.ofRealHom [(1 : ℝ)] z = 1 := by simp [valCoefs]
    rw [h1]
    have := goal
    rw [hn1] at this ⊢
    simpa using this

theorem norme_exp_moins_un (t : ℝ) : ‖Complex.exp (t * Complex.I) - 1‖ = 2 * |Real.sin (t / 2)| := by
  have : ‖Complex.exp (t * Complex.I) - 1‖ ^ 2 = (2 * |Real.sin (t / 2)|) ^ 2 := by
    rw [← Complex.normSq_eq_norm_sq, Complex.normSq_apply]
    have e : Complex.exp (t * Complex.I) = ⟨Real.cos t, Real.sin t⟩ := by
      apply Complex.ext
      · rw [Complex.exp_ofReal_mul_I_re]
      · rw [Complex.exp_ofReal_mul_I_im]
    rw [e]
    simp only [Complex.sub_re, Complex.sub_im, Complex.one_re, Complex.one_im, mul_pow, sq_abs]
    have h1 := Real.sin_sq_add_cos_sq t
    have h2 := Real.cos_two_mul (t / 2)
    rw [show 2 * (t / 2) = t by ring] at h2
    have h3 := Real.sin_sq_add_cos_sq (t / 2)
    nlinarith
  exact (pow_left_inj₀ (norm_nonneg _) (by positivity) (by norm_num)).1 this

/-- **C176 (response).** `cic_freq` is the magnitude of the transfer function of `design_cic` on the unit circle, at every frequency (including those where its quotient is `0/0`). -/
theorem C176_reponse (R N M : ℕ) (hR : 0 < R) (hM : 0 < M) (f : ℝ) (h : FRat ℝ) (hh : designCic R N M = some h) :
    cicFreq R N M f = ‖h.horner Complex.ofRealHom (Complex.exp ((2 * Real.pi * f : ℝ) * Complex.I))‖ := by
  obtain ⟨h', e, hz⟩ := C176_design R N M hR hM
  rw [e] at hh
  rw [← Option.some.inj hh, hz _ (Complex.exp_ne_zero _), norm_pow, norm_div]
  have hn : 0 < R * M := Nat.mul_pos hR hM
  set n := R * M with hnd
  have hn' : (0 : ℝ) < (n : ℝ) := by exact_mod_cast hn
  set w := (Complex.exp ((2 * Real.pi * f : ℝ) * Complex.I))⁻¹ with hw
  have hw' : w = Complex.exp ((-(2 * Real.pi * f) : ℝ) * Complex.I) := by rw [hw, ← Complex.exp_neg]; push_cast; ring_nf
  have s1 : ‖w - 1‖ = 2 * |Real.sin (Real.pi * f)| := by
    rw [hw', norme_exp_moins_un, show -(2 * Real.pi * f) / 2 = -(Real.pi * f) by ring, Real.sin_neg, abs_neg]
  have s2 : ‖w ^ n - 1‖ = 2 * |Real.sin (n * Real.pi * f)| := by
    rw [hw', ← Complex.exp_nat_mul, show ((n : ℕ) : ℂ) * (((-(2 * Real.pi * f) : ℝ) : ℂ) * Complex.I) = ((-(2 * (n * Real.pi * f)) : ℝ) : ℂ) * Complex.I by push_cast; ring,
      norme_exp_moins_un, show -(2 * ((n : ℝ) * Real.pi * f)) / 2 = -(n * Real.pi * f) by ring, Real.sin_neg, abs_neg]
  have hnorm : ‖((n : ℕ) : ℂ)‖ = (n : ℝ) := by simp
  unfold cicFreq
  simp only [← hnd]
  rw [hnorm]
  split
  · rename_i hd
    have hs : Real.sin (Real.pi * f) ≠ 0 := fun h0 => hd (by rw [h0, mul_zero])
    congr 1
    have hw1 : w ≠ 1 := by
      intro h0
      rw [h0, sub_self, norm_zero] at s1
      have : |Real.sin (Real.pi * f)| = 0 := by linarith
      exact hs (abs_eq_zero.1 this)
    rw [geom_sum_eq hw1, norm_div, s1, s2, abs_div, abs_mul, abs_of_pos hn']
    field_simp
  · rename_i hd
    have hs : Real.sin (Real.pi * f) = 0 := by
      have := not_not.1 hd
      rcases mul_eq_zero.1 this with h0 | h0
      · exact absurd h0 hn'.ne'
      · exact h0
    have hw1 : w = 1 := by
      rw [hs, abs_zero, mul_zero, norm_eq_zero] at s1
      exact sub_eq_zero.1 s1
    simp [hw1, hn'.ne']

/-- **C176 (bounds).** The response is 1 at the null frequency, and at most 1 at every frequency. -/
theorem C176_bornes (R N M : ℕ) (hR : 0 < R) (hM : 0 < M) (f : ℝ) : cicFreq R N M 0 = 1 ∧ 0 ≤ cicFreq R N M f ∧ cicFreq R N M f ≤ 1 := by
  obtain ⟨h, e, hz⟩ := C176_design R N M hR hM
  have hn : 0 < R * M := Nat.mul_pos hR hM
  refine ⟨by simp [cicFreq], ?_, ?_⟩
  · rw [C176_reponse R N M hR hM f h e]; exact norm_nonneg _
  · rw [C176_reponse R N M hR hM f h e, hz _ (Complex.exp_ne_zero _), norm_pow, norm_div]
    refine pow_le_one₀ (by positivity) ?_
    have hb : ‖∑ k ∈ Finset.range (R * M), ((Complex.exp ((2 * Real.pi * f : ℝ) * Complex.I))⁻¹) ^ k‖ ≤ ((R * M : ℕ) : ℝ) := by
      refine le_trans (norm_sum_le _ _) ?_
      have : ∀ k ∈ Finset.range (R * M), ‖((Complex.exp ((2 * Real.pi * f : ℝ) * Complex.I))⁻¹) ^ k‖ = 1 := by
        intro k _
        rw [norm_pow, norm_inv, Complex.norm_exp_ofReal_mul_I, inv_one, one_pow]
      rw [Finset.sum_congr rfl this]
      simp
    have hnorm : ‖((R * M : ℕ) : ℂ)‖ = ((R * M : ℕ) : ℝ) := by rw [Complex.norm_natCast]
    rw [hnorm]
    exact (div_le_one (by exact_mod_cast hn)).2 hb

/-- **C176 (rejection of the aliases).** After the decimation by `R`, what falls on the null frequency is exactly cancelled: the response is null at the multiples of `1/(RM)` which are not multiples of the sampling frequency. -/
theorem C176_zeros (R N M : ℕ) (hR : 0 < R) (hM : 0 < M) (hN : 0 < N) (k : ℤ) (hk : ¬ ((R * M : ℕ) : ℤ) ∣ k) : cicFreq R N M ((k : ℝ) / ((R * M : ℕ) : ℝ)) = 0 := by
  have hn : 0 < R * M := Nat.mul_pos hR hM
  set n := R * M with hnd
  have hn' : (n : ℝ) ≠ 0 := by exact_mod_cast hn.ne'
  have hs : Real.sin (Real.pi * ((k : ℝ) / n)) ≠ 0 := by
    intro h0
    rw [Real.sin_eq_zero_iff] at h0
    obtain ⟨j, hj⟩ := h0
    refine hk ⟨j, ?_⟩
    have h1 : (j : ℝ) * n = k := by
      have := Real.pi_ne_zero
      field_simp at hj
      linarith
    have h2 : j * (n : ℤ) = k := by exact_mod_cast h1
    rw [← h2, mul_comm]
  unfold cicFreq
  simp only [← hnd]
  rw [if_pos (mul_ne_zero hn' hs), show (n : ℝ) * Real.pi * ((k : ℝ) / n) = k * Real.pi by field_simp, Real.sin_int_mul_pi]
  simp [hN.ne']

/-! ### Growth of the word length -/

theorem boxcar_constante (R : ℕ) (hR : 0 < R) (N : ℕ) (a : ℝ) (n : ℕ) : ∀ i, N * (R - 1) ≤ i → i < n → ((boxcar R)^[N] (List.replicate n a)).getD i 0 = R ^ N * a := by
  induction N with
  | zero =>
    intro i _ hi
    rw [Function.iterate_zero, id, List.getD_eq_getElem _ _ (show i < (List.replicate n a).length by simpa using hi)]
    simp
  | succ N ih =>
    intro i h1 hi
    rw [Function.iterate_succ_apply']
    set y := (boxcar R)^[N] (List.replicate n a) with hy
    have hl : y.length = n := by rw [hy, iter_length (boxcar_length R)]; simp
    have hN : (N + 1) * (R - 1) = N * (R - 1) + (R - 1) := by ring
    rw [boxcar, map_getD, if_pos (by rw [hl]; exact hi)]
    have : ∀ k ∈ Finset.range R, Filtre.passe y i k = R ^ N * a := by
      intro k hk
      have hk' : k < R := Finset.mem_range.1 hk
      have hki : k ≤ i := by omega
      rw [Filtre.passe, if_pos hki]
      exact ih (i - k) (by omega) (by omega)
    rw [Finset.sum_congr rfl this, Finset.sum_const, Finset.card_range, nsmul_eq_mul, pow_succ]
    ring

/-- **C176 (additional bits, refuted).** The announced number of additional bits is always too small: whatever `R > 0` and `N`, the non-normalised sums of a constant signal reach `R^N` times the signal (from the sample `N (R - 1)` on),
which is more than `2 ^ nbits` times the signal. -/
theorem C176_bits_refute (R N : ℕ) (hR : 0 < R) (a : ℝ) (ha : 0 < a) (n i : ℕ) (h1 : N * (R - 1) ≤ i) (h2 : i < n) :
    (2 : ℝ) ^ cicBits R N * a < ((boxcar R)^[N] (List.replicate n a)).getD i 0 := by
  rw [boxcar_constante R hR N a n i h1 h2]
  refine mul_lt_mul_of_pos_right ?_ ha
  have hR' : (0 : ℝ) < R := by exact_mod_cast hR
  have h3 : ((cicBits R N : ℤ) : ℝ) < N * Real.logb 2 R := by
    have := Int.ceil_lt_add_one ((N : ℝ) * Real.logb 2 R - 1)
    unfold cicBits
    linarith
  rw [← Real.rpow_intCast, ← Real.rpow_natCast, ← Real.rpow_logb (b := 2) (by norm_num) (by norm_num) hR', ← Real.rpow_mul (by norm_num)]
  refine Real.rpow_lt_rpow_of_exponent_lt (by norm_num) ?_
  rw [mul_comm]
  exact h3

/-- A concrete response: `R = 2`, `N = 1`, at a quarter of the sampling frequency: `√2 / 2`; null at half of it. -/
example : cicFreq 2 1 1 (1 / 2) = 0 := by
  have := C176_zeros 2 1 1 (by norm_num) (by norm_num) (by norm_num) 1 (by decide)
  simpa using this

/-- The doubling of a decimation by 2 needs one more bit, none is announced. -/
example : cicBits 2 1 = 0 := by
  simp [cicBits]

end Verif.Reechan
