/-
C86: raised-cosine, root-raised-cosine and Gaussian designs.  C87: zero-phase filtering.

Specification: values of the coefficients, `Filtre.convolution h x n` (what a FIR filter outputs, C19), `reponse h ν` (frequency response),
limits of the analytic formulas at their singular points, the Fourier integral of the Gaussian pulse.
-/
import Verif.Conception.Cs
import Verif.Conception.TransfProps
import Verif.Util.Props
import Mathlib.Analysis.Real.Pi.Bounds
import Mathlib.Analysis.SpecialFunctions.Gaussian.FourierTransform

namespace Verif.Conception

open Finset Verif.Filtre Filter Topology

/-! ### The pulses -/

theorem sinc1_entier (k : ℤ) (hk : k ≠ 0) : Divers.sinc1 k = 0 := by
  unfold Divers.sinc1
  rw [sinc_val 1 (by have := Real.pi_gt_three; norm_num; linarith) k, if_neg hk, mul_one, mul_comm, Real.sin_int_mul_pi, zero_div]

/-- **C86 (Nyquist).** The raised cosine is 1 at time 0 and null at every other multiple of the symbol period, whatever the roll-off. -/
theorem C86_nyquist (β : ℝ) (h1 : β ≤ 1) : cs 0 β = 1 ∧ ∀ k : ℤ, k ≠ 0 → cs k β = 0 := by
  constructor
  · unfold cs
    rw [if_neg]
    · simp [Divers.sinc1, sinc_zero]
    · rintro ⟨h2, h3⟩
      rw [abs_zero, zero_sub, abs_neg, abs_of_pos (by positivity)] at h3
      rw [div_lt_div_iff₀ (by positivity) (by norm_num)] at h3
      norm_num at h3
      linarith
  · intro k hk
    unfold cs
    rw [sinc1_entier k hk]
    simp

theorem cs_pair (t β : ℝ) : cs (-t) β = cs t β := by
  unfold cs Divers.sinc1
  rw [abs_neg, sinc_neg, mul_neg, Real.cos_neg, mul_neg, neg_sq]

theorem rcs_pair (t β : ℝ) : rcs (-t) β = rcs t β := by
  unfold rcs
  simp only [abs_neg, neg_eq_zero]
  split_ifs
  · rfl
  · rfl
  · rw [show Real.pi * -t * (1 - β) = -(Real.pi * t * (1 - β)) by ring, show Real.pi * -t * (1 + β) = -(Real.pi * t * (1 + β)) by ring,
      Real.sin_neg, Real.cos_neg, show 4 * β * -t = -(4 * β * t) by ring, neg_sq,
      show -Real.sin (Real.pi * t * (1 - β)) + -(4 * β * t) * Real.cos (Real.pi * t * (1 + β)) =
        -(Real.sin (Real.pi * t * (1 - β)) + 4 * β * t * Real.cos (Real.pi * t * (1 + β))) by ring,
      show Real.pi * -t * (1 - (4 * β * t) ^ 2) = -(Real.pi * t * (1 - (4 * β * t) ^ 2)) by ring, neg_div_neg_eq]

theorem seuil (x : ℝ) (h : 0 < x) : |(|x| - x)| < 1 / 10 ^ 7 := by
  rw [abs_of_pos h, sub_self, abs_zero]
  norm_num

theorem limite_quotient (N D : ℝ → ℝ) (a n' d' : ℝ) (hN : N a = 0) (hD : D a = 0) (dN : HasDerivAt N n' a) (dD : HasDerivAt D d' a) (h : d' ≠ 0) :
    Tendsto (fun t => N t / D t) (𝓝[≠] a) (𝓝 (n' / d')) := by
  have t1 := (hasDerivAt_iff_tendsto_slope.1 dN).div (hasDerivAt_iff_tendsto_slope.1 dD) h
  refine t1.congr' ?_
  filter_upwards [self_mem_nhdsWithin] with t ht
  have hta : t - a ≠ 0 := sub_ne_zero.2 ht
  show slope N a t / slope D a t = N t / D t
  rw [slope_def_field, slope_def_field, hN, hD, sub_zero, sub_zero, div_div_div_cancel_right₀ hta]

/-- **C86 (singular points).** The values used at the singular points of the two formulas are the limits of the formulas: raised cosine at
`t = 1/(2β)`, root-raised cosine at `t = 1/(4β)` and at `t = 0`. -/
theorem C86_prolongement (β : ℝ) (hβ : 0 < β) :
    Tendsto (fun t => Real.cos (Real.pi * β * t) / (1 - (2 * β * t) ^ 2)) (𝓝[≠] (1 / (2 * β))) (𝓝 (Real.pi / 4)) ∧
    cs (1 / (2 * β)) β = Divers.sinc1 (1 / (2 * β)) * (Real.pi / 4) ∧
    Tendsto (fun t => (Real.sin (Real.pi * t * (1 - β)) + 4 * β * t * Real.cos (Real.pi * t * (1 + β))) / (Real.pi * t * (1 - (4 * β * t) ^ 2)))
      (𝓝[≠] (1 / (4 * β))) (𝓝 (rcs (1 / (4 * β)) β)) ∧
    Tendsto (fun t => (Real.sin (Real.pi * t * (1 - β)) + 4 * β * t * Real.cos (Real.pi * t * (1 + β))) / (Real.pi * t * (1 - (4 * β * t) ^ 2)))
      (𝓝[≠] 0) (𝓝 (rcs 0 β)) := by
  have hpi := Real.pi_pos
  have dN : ∀ t, HasDerivAt (fun t => Real.sin (Real.pi * t * (1 - β)) + 4 * β * t * Real.cos (Real.pi * t * (1 + β)))
      (Real.cos (Real.pi * t * (1 - β)) * (Real.pi * (1 - β)) + (4 * β * Real.cos (Real.pi * t * (1 + β)) +
        4 * β * t * (-Real.sin (Real.pi * t * (1 + β)) * (Real.pi * (1 + β))))) t := by
    intro t
    have a1 : HasDerivAt (fun t : ℝ => Real.pi * t * (1 - β)) (Real.pi * (1 - β)) t := by
      simpa using ((hasDerivAt_id t).const_mul Real.pi).mul_const (1 - β)
    have a2 : HasDerivAt (fun t : ℝ => Real.pi * t * (1 + β)) (Real.pi * (1 + β)) t := by
      simpa using ((hasDerivAt_id t).const_mul Real.pi).mul_const (1 + β)
    have a3 : HasDerivAt (fun t : ℝ => 4 * β * t) (4 * β) t := by
      simpa using (hasDerivAt_id t).const_mul (4 * β)
    exact a1.sin.add (a3.mul a2.cos)
  have dD : ∀ t, HasDerivAt (fun t => Real.pi * t * (1 - (4 * β * t) ^ 2)) (Real.pi * (1 - 3 * (4 * β * t) ^ 2)) t := by
    intro t
    have a3 : HasDerivAt (fun t : ℝ => 4 * β * t) (4 * β) t := by
      simpa using (hasDerivAt_id t).const_mul (4 * β)
    have a4 : HasDerivAt (fun t : ℝ => Real.pi * t) Real.pi t := by
      simpa using (hasDerivAt_id t).const_mul Real.pi
    have := a4.mul ((a3.pow 2).const_sub 1)
    refine this.congr_deriv ?_
    simp
    ring
  refine ⟨?_, ?_, ?_, ?_⟩
  · have a1 : HasDerivAt (fun t : ℝ => Real.pi * β * t) (Real.pi * β) (1 / (2 * β)) := by
      simpa using (hasDerivAt_id (1 / (2 * β))).const_mul (Real.pi * β)
    have a3 : HasDerivAt (fun t : ℝ => 2 * β * t) (2 * β) (1 / (2 * β)) := by
      simpa using (hasDerivAt_id (1 / (2 * β))).const_mul (2 * β)
    have e1 : Real.pi * β * (1 / (2 * β)) = Real.pi / 2 := by field_simp
    have e2 : 2 * β * (1 / (2 * β)) = 1 := by field_simp
    have a5 : HasDerivAt (fun t : ℝ => 1 - (2 * β * t) ^ 2) (-(4 * β)) (1 / (2 * β)) := by
      refine ((a3.pow 2).const_sub 1).congr_deriv ?_
      rw [e2]
      simp
      ring
    have h := limite_quotient _ _ _ _ _ (by rw [e1, Real.cos_pi_div_two]) (by rw [e2]; ring) a1.cos a5 (by
      intro h
      linarith)
    convert h using 2
    rw [e1, Real.sin_pi_div_two]
    field_simp
  · unfold cs
    rw [if_pos ⟨hβ, seuil _ (by positivity)⟩]
    ring
  · have hv : rcs (1 / (4 * β)) β = β / Real.sqrt 2 * ((1 + 2 / Real.pi) * Real.sin (Real.pi / (4 * β)) + (1 - 2 / Real.pi) * Real.cos (Real.pi / (4 * β))) := by
      unfold rcs
      rw [if_neg (by positivity), if_pos ⟨hβ, seuil _ (by positivity)⟩]
    have e1 : Real.pi * (1 / (4 * β)) * (1 - β) = Real.pi / (4 * β) - Real.pi / 4 := by field_simp
    have e2 : Real.pi * (1 / (4 * β)) * (1 + β) = Real.pi / (4 * β) + Real.pi / 4 := by field_simp
    have e3 : 4 * β * (1 / (4 * β)) = 1 := by field_simp
    have hs : Real.sqrt 2 * Real.sqrt 2 = 2 := Real.mul_self_sqrt (by norm_num)
    have hs0 : 0 < Real.sqrt 2 := Real.sqrt_pos.2 (by norm_num)
    have h := limite_quotient _ _ _ _ _ (by
      rw [e1, e2, e3, Real.sin_sub, Real.cos_add, Real.cos_pi_div_four, Real.sin_pi_div_four]
      ring) (by rw [e3]; ring) (dN (1 / (4 * β))) (dD (1 / (4 * β))) (by rw [e3]; norm_num)
    convert h using 2
    rw [hv, e1, e2, e3, Real.cos_sub, Real.cos_add, Real.sin_add, Real.cos_pi_div_four, Real.sin_pi_div_four]
    have h2 : Real.sqrt 2 / 2 = 1 / Real.sqrt 2 := by
      rw [div_eq_div_iff (by norm_num) hs0.ne', hs]
      ring
    rw [h2]
    field_simp
    ring
  · have hv : rcs 0 β = (1 - β) + 4 * β / Real.pi := by simp [rcs]
    have h := limite_quotient _ _ _ _ _ (by simp) (by simp) (dN 0) (dD 0) (by simp)
    convert h using 2
    rw [hv]
    simp
    field_simp

/-! ### Raised-cosine filter -/

theorem csBrut_length (n : ℕ) (β fc : ℝ) : (csBrut n β fc).length = n := by simp [csBrut]

theorem csBrut_get (n : ℕ) (β fc : ℝ) (i : ℕ) (hi : i < n) : (csBrut n β fc).getD i 0 = cs ((((i : ℤ) - (n / 2 : ℕ) : ℤ) : ℝ) * fc * 2) β := by
  rw [List.getD_eq_getElem _ _ (by rw [csBrut_length]; exact hi)]
  simp only [csBrut, List.getElem_map, List.getElem_range]

theorem rifCs_length (n : ℕ) (β fc : ℝ) : (rifCs n β fc).length = n := by simp [rifCs, csBrut_length]

theorem rifCs_get (n : ℕ) (β fc : ℝ) (i : ℕ) (hi : i < n) :
    (rifCs n β fc).getD i 0 = cs ((((i : ℤ) - (n / 2 : ℕ) : ℤ) : ℝ) * fc * 2) β / (csBrut n β fc).sum := by
  unfold rifCs
  rw [map_getD (fun v => v / (csBrut n β fc).sum) (by simp), csBrut_get n β fc i hi]

theorem somme_div (l : List ℝ) (s : ℝ) : (l.map fun v : ℝ => v / s).sum = l.sum / s := by
  induction l with
  | nil => simp
  | cons a l ih => simp [ih, add_div]

/-- **C86.** `design_rif_cs`: `n` coefficients, of sum 1, symmetric (linear phase) when `n` is odd, null at every non null multiple of the symbol period
`L` when `fc = 1/(2L)`, provided that the sum of the coefficients before normalisation is not 0. -/
theorem C86_cs (n : ℕ) (β fc : ℝ) (hs : (csBrut n β fc).sum ≠ 0) :
    (rifCs n β fc).length = n ∧ (rifCs n β fc).sum = 1 ∧
    (n % 2 = 1 → ∀ i, i < n → (rifCs n β fc).getD (n - 1 - i) 0 = (rifCs n β fc).getD i 0) ∧
    ∀ L : ℕ, 0 < L → fc = 1 / (2 * L) → ∀ i, i < n → (L : ℤ) ∣ (i : ℤ) - (n / 2 : ℕ) → i ≠ n / 2 → (rifCs n β fc).getD i 0 = 0 := by
  refine ⟨rifCs_length n β fc, ?_, ?_, ?_⟩
  · unfold rifCs
    rw [somme_div, div_self hs]
  · intro hn i hi
    rw [rifCs_get _ _ _ _ hi, rifCs_get _ _ _ _ (by omega), ← cs_pair]
    congr 3
    have : ((n - 1 - i : ℕ) : ℤ) - (n / 2 : ℕ) = -((i : ℤ) - (n / 2 : ℕ)) := by omega
    rw [this]
    push_cast
    ring
  · intro L hL hf i hi ⟨k, hk⟩ hne
    rw [rifCs_get _ _ _ _ hi, hk, hf]
    have hk0 : k ≠ 0 := by
      rintro rfl
      omega
    have hL' : (L : ℝ) ≠ 0 := by exact_mod_cast hL.ne'
    have e : ((((L : ℤ) * k : ℤ)) : ℝ) * (1 / (2 * L)) * 2 = (k : ℝ) := by
      push_cast
      field_simp
    rw [e]
    unfold cs
    rw [sinc1_entier k hk0]
    simp

/-- **C86.** With `fc = 1/2` (one sample per symbol), the filter is neutral: a unit impulse in position `n/2`. -/
theorem C86_cs_neutre (n : ℕ) (β : ℝ) (h1 : β ≤ 1) (i : ℕ) (hi : i < n) :
    (rifCs n β (1 / 2)).getD i 0 = if i = n / 2 then 1 else 0 := by
  have hv : ∀ i, i < n → (csBrut n β (1 / 2)).getD i 0 = if i = n / 2 then 1 else 0 := by
    intro i hi
    rw [csBrut_get _ _ _ _ hi]
    have e : ((((i : ℤ) - (n / 2 : ℕ) : ℤ)) : ℝ) * (1 / 2) * 2 = ((((i : ℤ) - (n / 2 : ℕ) : ℤ)) : ℝ) := by ring
    rw [e]
    split
    · rename_i h
      rw [h, sub_self, Int.cast_zero]
      exact (C86_nyquist β h1).1
    · rename_i h
      exact (C86_nyquist β h1).2 _ (by omega)
  have hs : (csBrut n β (1 / 2)).sum = 1 := by
    rw [somme_range, csBrut_length]
    rw [Finset.sum_congr rfl fun j hj => hv j (by simpa using hj)]
    rw [Finset.sum_ite_eq', if_pos (by simp; omega)]
  unfold rifCs
  rw [hs, map_getD (fun v => v / 1) (by simp), hv i hi, div_one]

/-- **C86, refuted** for an even number of coefficients: the raised-cosine filter is not symmetric. -/
theorem C86_pair_refute : (rifCs 2 0 (1 / 2)).getD 0 0 = 0 ∧ (rifCs 2 0 (1 / 2)).getD 1 0 = 1 := by
  constructor
  · rw [C86_cs_neutre 2 0 (by norm_num) 0 (by norm_num)]
    simp
  · rw [C86_cs_neutre 2 0 (by norm_num) 1 (by norm_num)]
    simp

theorem convolRif_some (h x : List ℝ) (hh : 0 < h.length) :
    ∃ y, convolRif h x = some y ∧ y.length = x.length ∧ ∀ n, n < x.length → y.getD n 0 = convolution h x n := by
  obtain ⟨s, y, e, l, g⟩ := rif_step_some h hh x
  exact ⟨y, by rw [convolRif, e]; rfl, l, g⟩

/-- **C86 (no inter-symbol interference).** Symbols placed every `L` samples (zeros in between) and filtered by `design_rif_cs(n, β, 1/(2L))`: at the time
`n/2 + kL` the output is the symbol of time `kL` alone, multiplied by the central coefficient. -/
theorem C86_isi (n L : ℕ) (hn : 0 < n) (hL : 0 < L) (β : ℝ) (hs : (csBrut n β (1 / (2 * L))).sum ≠ 0) (x : List ℝ)
    (hx : ∀ j, ¬ L ∣ j → x.getD j 0 = 0) :
    ∃ y, convolRif (rifCs n β (1 / (2 * L))) x = some y ∧ y.length = x.length ∧
      ∀ k, n / 2 + k * L < x.length → y.getD (n / 2 + k * L) 0 = (rifCs n β (1 / (2 * L))).getD (n / 2) 0 * x.getD (k * L) 0 := by
  obtain ⟨y, e, l, g⟩ := convolRif_some (rifCs n β (1 / (2 * L))) x (by rw [rifCs_length]; exact hn)
  refine ⟨y, e, l, fun k hk => ?_⟩
  rw [g _ hk]
  unfold convolution
  rw [rifCs_length, Finset.sum_eq_single_of_mem (n / 2) (by simp; omega)]
  · simp [passe]
  · intro i hi hne
    simp only [Finset.mem_range] at hi
    by_cases hd : (L : ℤ) ∣ (i : ℤ) - (n / 2 : ℕ)
    · rw [(C86_cs n β _ hs).2.2.2 L hL rfl i hi hd hne, zero_mul]
    · unfold passe
      split
      · rename_i hle
        rw [hx _ ?_, mul_zero]
        intro h
        apply hd
        have h2 : (L : ℤ) ∣ ((n / 2 + k * L - i : ℕ) : ℤ) := by exact_mod_cast h
        have e2 : (i : ℤ) - (n / 2 : ℕ) = (k : ℤ) * L - ((n / 2 + k * L - i : ℕ) : ℤ) := by
          push_cast [Nat.cast_sub hle]
          ring
        rw [e2]
        exact dvd_sub (dvd_mul_left _ _) h2
      · rw [mul_zero]

example : (csBrut 7 (1 / 2) (1 / (2 * (1 : ℕ)))).sum ≠ 0 := by
  have h := fun i hi => C86_cs_neutre 7 (1 / 2) (by norm_num) i hi
  intro hs
  have := h 3 (by norm_num)
  rw [show (1 : ℝ) / 2 = 1 / (2 * (1 : ℕ)) by norm_num] at this
  rw [rifCs_get _ _ _ _ (by norm_num)] at this
  simp only [Nat.cast_one, mul_one] at hs this
  rw [show ((1 : ℝ) / 2) = 1 / 2 from rfl] at *
  norm_num [hs] at this

/-! ### Root-raised-cosine filter -/

theorem rcsBrut_length (n : ℕ) (β osf : ℝ) : (rcsBrut n β osf).length = n := by simp [rcsBrut]

theorem rcsBrut_get (n : ℕ) (β osf : ℝ) (i : ℕ) (hi : i < n) : (rcsBrut n β osf).getD i 0 = rcs (((i : ℝ) - (n / 2 : ℕ)) / osf) β := by
  rw [List.getD_eq_getElem _ _ (by rw [rcsBrut_length]; exact hi)]
  simp only [rcsBrut, List.getElem_map, List.getElem_range]

theorem rcs_zero_pos (β : ℝ) (h0 : 0 ≤ β) : 0 < rcs 0 β := by
  have hpi := Real.pi_pos
  have h4 := Real.pi_lt_four
  have : β ≤ 4 * β / Real.pi := by
    rw [le_div_iff₀ hpi]
    nlinarith
  simp only [rcs, if_true]
  linarith

theorem rcsBrut_energie (n : ℕ) (hn : 0 < n) (β osf : ℝ) (h0 : 0 ≤ β) : 0 < ((rcsBrut n β osf).map fun w : ℝ => w ^ 2).sum := by
  rw [somme_range, List.length_map, rcsBrut_length]
  refine Finset.sum_pos' (fun i _ => ?_) ⟨n / 2, by simp; omega, ?_⟩
  · rw [map_getD (fun w => w ^ 2) (by simp)]
    positivity
  · rw [map_getD (fun w => w ^ 2) (by simp), rcsBrut_get _ _ _ _ (by omega), sub_self, zero_div]
    exact pow_pos (rcs_zero_pos β h0) 2

/-- **C86.** `design_rif_rcs1(n, β, osf, 'e')`: `n` coefficients of unit energy, for every roll-off `β ≥ 0`; `design_rif_rcs1(n, β, osf, 's')` (and
`design_rif_rcs`): coefficients of sum 1 if the sum before normalisation is not 0; both symmetric when `n` is odd. -/
theorem C86_rcs (n : ℕ) (hn : 0 < n) (β osf : ℝ) (h0 : 0 ≤ β) :
    (∃ h, rifRcs1 n β osf true = some h ∧ h.length = n ∧ (h.map fun w : ℝ => w ^ 2).sum = 1 ∧
      (n % 2 = 1 → ∀ i, i < n → h.getD (n - 1 - i) 0 = h.getD i 0)) ∧
    (∃ h, rifRcs1 n β osf false = some h ∧ h.length = n ∧ ((rcsBrut n β osf).sum ≠ 0 → h.sum = 1) ∧
      (n % 2 = 1 → ∀ i, i < n → h.getD (n - 1 - i) 0 = h.getD i 0)) ∧
    ∀ fc, osf = 1 / (2 * fc) → rifRcs n β fc = rifRcs1 n β osf false := by
  have hsym : n % 2 = 1 → ∀ i, i < n → (rcsBrut n β osf).getD (n - 1 - i) 0 = (rcsBrut n β osf).getD i 0 := by
    intro hodd i hi
    rw [rcsBrut_get _ _ _ _ hi, rcsBrut_get _ _ _ _ (by omega), ← rcs_pair]
    congr 1
    have h1 : ((n - 1 - i : ℕ) : ℤ) - (n / 2 : ℕ) = -((i : ℤ) - (n / 2 : ℕ)) := by omega
    have h2 : ((n - 1 - i : ℕ) : ℝ) - (n / 2 : ℕ) = -((i : ℝ) - (n / 2 : ℕ)) := by exact_mod_cast h1
    rw [h2]
    ring
  have hE := rcsBrut_energie n hn β osf h0
  refine ⟨⟨_, by rw [rifRcs1, if_pos hn]; rfl, by simp [rcsBrut_length], ?_, ?_⟩, ⟨_, by rw [rifRcs1, if_pos hn]; rfl, by simp [rcsBrut_length], ?_, ?_⟩, ?_⟩
  · rw [List.map_map]
    have e : ((fun w : ℝ => w ^ 2) ∘ fun v : ℝ => v / Real.sqrt (((rcsBrut n β osf).map fun w : ℝ => w ^ 2).sum)) =
        (fun v : ℝ => v / ((rcsBrut n β osf).map fun w : ℝ => w ^ 2).sum) ∘ fun w : ℝ => w ^ 2 := by
      funext v
      simp only [Function.comp, div_pow, Real.sq_sqrt hE.le]
    rw [e, ← List.map_map, somme_div, div_self hE.ne']
  · intro hodd i hi
    rw [map_getD _ (by simp), map_getD _ (by simp), hsym hodd i hi]
  · intro hs
    rw [somme_div, div_self hs]
  · intro hodd i hi
    rw [map_getD _ (by simp), map_getD _ (by simp), hsym hodd i hi]
  · rintro fc rfl
    rfl

end Verif.Conception
