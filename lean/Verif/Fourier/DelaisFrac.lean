import Verif.Fourier.SpectreProps
import Verif.Fourier.RfftProps
import Verif.Fourier.ReechFreqProps

/-!
# C182, C183: fractional delays and coherence (core/src/fourier/fourier.cc:125-231, 600-698)

Exact arithmetic instead of `float`.
-/

namespace Verif.Fourier

open Finset Complex

/-! ## Model -/

/-- Zero padding on both sides, core/src/fourier/fourier.cc:612-616, 636-640: `x` at the position `n/4` of `n` zeros, `n` being twice the length of `x`. -/
def padDeuxCotes {K : Type} [Zero K] (x : List K) : Option (List K) := ecrit (List.replicate (2 * x.length) 0) (2 * x.length / 4) x

/-- The factors `rot`, core/src/fourier/fourier.cc:621-622. -/
noncomputable def rotDelais (n : ℕ) (τ : ℝ) : List ℂ := (List.range n).map fun i : ℕ => exp (((-2 * Real.pi * i * τ / n + Real.pi * τ : ℝ) : ℂ) * I)

/-- `delais_fractionnaire_c`, core/src/fourier/fourier.cc:607-628. -/
noncomputable def delaisFracC (x : List ℂ) (τ : ℝ) : Option (List ℂ) :=
  (padDeuxCotes x).bind fun x2 : List ℂ =>
  (fft trigoC x2).bind fun X : List ℂ =>
  (fftshift 0 (rotDelais (2 * x.length) τ)).bind fun r : List ℂ =>
  (produit X r).bind fun X2 : List ℂ =>
  (ifft trigoC X2).bind fun y : List ℂ =>
  segment y (2 * x.length / 4) x.length

/-- `délais` on complex vectors, core/src/fourier/fourier.cc:686-698. -/
noncomputable def delaisC (x : List ℂ) (τ : ℝ) : Option (List ℂ) := if (⌊τ⌋ : ℝ) ≠ τ then delaisFracC x τ else delaisEntier x ⌊τ⌋

/-- `coherence`, core/src/fourier/fourier.cc:600-604; `none` as an element: division of zero by zero. -/
noncomputable def coherence (x y : List ℂ) : Option (List (Option ℝ)) :=
  (fft trigoC x).bind fun X : List ℂ =>
  (fft trigoC y).bind fun Y : List ℂ =>
  (produit X (Y.map star)).bind fun P : List ℂ =>
  if X.length = Y.length then some (List.zipWith (fun p (q : ℂ × ℂ) => if ‖q.1‖ * ‖q.2‖ = 0 then none else some (‖p‖ / (‖q.1‖ * ‖q.2‖))) P (X.zip Y)) else none

/-! ## Specification -/

/-- Kernel of the band-limited interpolation over `2 N` samples (Dirichlet kernel): it is 1 at 0 and 0 at the other integers (modulo `2 N`). -/
noncomputable def noyauDirichlet (N : ℕ) (t : ℝ) : ℂ := (∑ f ∈ Ico (-(N : ℤ)) N, exp (((Real.pi * f * t / N : ℝ) : ℂ) * I)) / (2 * N)

/-! ## Proofs -/

theorem getD_of_some {T : Type} (l : List T) (i : ℕ) (d a : T) (h : l[i]? = some a) : l.getD i d = a := by rw [List.getD_eq_getElem?_getD, h]; rfl

theorem pad_some (x : List ℂ) : ∃ x2, padDeuxCotes x = some x2 ∧ x2.length = 2 * x.length ∧ ∀ t, x2.getD t 0 = if 2 * x.length / 4 ≤ t ∧ t < 2 * x.length / 4 + x.length then x.getD (t - 2 * x.length / 4) 0 else 0 := by
  obtain ⟨x2, e, l, g⟩ := ecrit_some (List.replicate (2 * x.length) (0 : ℂ)) x (2 * x.length / 4) (by rw [List.length_replicate]; omega)
  refine ⟨x2, e, by rw [l, List.length_replicate], fun t => ?_⟩
  rw [List.getD_eq_getElem?_getD, g t]
  split
  · rw [← List.getD_eq_getElem?_getD]
  · by_cases ht : t < 2 * x.length
    · rw [List.getElem?_replicate, if_pos ht]; rfl
    · rw [List.getElem?_eq_none (by simp; omega)]; rfl

/-- Signed frequency of the bin `k` among `2 N`. -/
def freqSignee (N k : ℕ) : ℤ := if k < N then k else (k : ℤ) - 2 * N

theorem rot_shift (N : ℕ) (hN : 0 < N) (τ : ℝ) : ∃ r, fftshift 0 (rotDelais (2 * N) τ) = some r ∧ r.length = 2 * N ∧
    ∀ k, k < 2 * N → r.getD k 0 = exp (((-Real.pi * freqSignee N k * τ / N : ℝ) : ℂ) * I) := by
  have hl : (rotDelais (2 * N) τ).length = 2 * N := by simp [rotDelais]
  have hN' : (N : ℝ) ≠ 0 := by exact_mod_cast hN.ne'
  refine ⟨_, fftshift_eq _ _, ?_, fun k hk => ?_⟩
  · rw [List.length_append, List.length_drop, List.length_take, hl]; omega
  · rw [hl, show 2 * N - 2 * N / 2 = N by omega]
    unfold freqSignee
    by_cases h : k < N
    · rw [if_pos h]
      apply getD_of_some
      rw [List.getElem?_append_left (by rw [List.length_drop, hl]; omega), List.getElem?_drop, rotDelais, List.getElem?_map, List.getElem?_range (by omega), Option.map_some]
      congr 4
      push_cast
      field_simp
      ring
    · rw [if_neg h]
      apply getD_of_some
      rw [List.getElem?_append_right (by rw [List.length_drop, hl]; omega), List.length_drop, hl, List.getElem?_take, if_pos (by omega), rotDelais, List.getElem?_map, List.getElem?_range (by omega), Option.map_some]
      congr 4
      rw [show ((k - (2 * N - N) : ℕ) : ℝ) = k - N by rw [show 2 * N - N = N by omega, Nat.cast_sub (by omega)]]
      push_cast
      field_simp
      ring

/-- Sum over the bins = sum over the signed frequencies. -/
theorem somme_freqSignee (N : ℕ) (F : ℤ → ℂ) : ∑ k ∈ range (2 * N), F (freqSignee N k) = ∑ f ∈ Ico (-(N : ℤ)) N, F f := by
  refine sum_nbij' (fun k => freqSignee N k) (fun f => if 0 ≤ f then f.toNat else (f + 2 * N).toNat) ?_ ?_ ?_ ?_ ?_
  · intro k hk
    have := mem_range.1 hk
    rw [mem_Ico]
    unfold freqSignee
    split <;> omega
  · intro f hf
    have := mem_Ico.1 hf
    rw [mem_range]
    split <;> omega
  · intro k hk
    have := mem_range.1 hk
    unfold freqSignee
    split <;> split <;> omega
  · intro f hf
    have := mem_Ico.1 hf
    unfold freqSignee
    split <;> split <;> omega
  · intro k _; rfl

/-- The general result: filtering of the bins by `exp(-iπfτ/N)`. -/
theorem delais_forme (x2 X r X2 y : List ℂ) (N : ℕ) (hN : 0 < N) (τ : ℝ) (l2 : x2.length = 2 * N) (gX : ∀ k, k < 2 * N → X.getD k 0 = TFD (-1) x2 k)
    (gr : ∀ k, k < 2 * N → r.getD k 0 = exp (((-Real.pi * freqSignee N k * τ / N : ℝ) : ℂ) * I)) (l22 : X2.length = 2 * N) (g2 : ∀ t, X2.getD t 0 = X.getD t 0 * r.getD t 0)
    (gy : ∀ k, k < 2 * N → y.getD k 0 = TFD 1 X2 k) (t : ℕ) (ht : t < 2 * N) : y.getD t 0 = ∑ j ∈ range (2 * N), x2.getD j 0 * noyauDirichlet N (t - j - τ) := by
  have hN' : (N : ℝ) ≠ 0 := by exact_mod_cast hN.ne'
  have hNc : (N : ℂ) ≠ 0 := by exact_mod_cast hN.ne'
  have hs : ((Real.sqrt ((2 * N : ℕ) : ℝ) : ℝ) : ℂ) * (Real.sqrt ((2 * N : ℕ) : ℝ) : ℂ) = 2 * N := by
    rw [← ofReal_mul, Real.mul_self_sqrt (by positivity)]; push_cast; ring
  have hsne : ((Real.sqrt ((2 * N : ℕ) : ℝ) : ℝ) : ℂ) ≠ 0 := by
    intro h; rw [h, zero_mul] at hs; exact (mul_ne_zero two_ne_zero hNc) hs.symm
  rw [gy t ht, TFD, l22]
  have e1 : ∀ k ∈ range (2 * N), X2.getD k 0 * exp (1 * (2 * Real.pi * I) * (k * t) / ((2 * N : ℕ) : ℂ)) =
      (∑ j ∈ range (2 * N), x2.getD j 0 * exp (((Real.pi * freqSignee N k * (t - j - τ) / N : ℝ) : ℂ) * I)) / (Real.sqrt ((2 * N : ℕ) : ℝ) : ℂ) := by
    intro k hk
    have hk := mem_range.1 hk
    rw [g2, gX k hk, gr k hk, TFD, l2, div_mul_eq_mul_div, div_mul_eq_mul_div, sum_mul, sum_mul]
    congr 1
    refine sum_congr rfl fun j _ => ?_
    rw [mul_assoc, mul_assoc, ← Complex.exp_add, ← Complex.exp_add]
    congr 1
    unfold freqSignee
    split
    · congr 1
      push_cast
      field_simp
      ring
    · rw [Complex.exp_eq_exp_iff_exists_int]
      refine ⟨(t : ℤ) - j, ?_⟩
      push_cast
      field_simp
      ring
  rw [sum_congr rfl e1, ← sum_div, div_div, hs, sum_comm]
  rw [sum_div]
  refine sum_congr rfl fun j _ => ?_
  rw [noyauDirichlet, ← somme_freqSignee N (fun f => exp (((Real.pi * f * (t - j - τ) / N : ℝ) : ℂ) * I)), ← mul_sum, mul_div_assoc]

theorem somme_pad (N p : ℕ) (u : ℕ → ℂ) (x : ℕ → ℂ) (hp : p + N ≤ 2 * N) (g : ∀ t, u t = if p ≤ t ∧ t < p + N then x (t - p) else 0) (K : ℕ → ℂ) :
    ∑ j ∈ range (2 * N), u j * K j = ∑ m ∈ range N, x m * K (m + p) := by
  have h1 : ∑ j ∈ range (2 * N), u j * K j = ∑ j ∈ Ico p (p + N), u j * K j := by
    refine (sum_subset ?_ ?_).symm
    · intro j hj
      have := mem_Ico.1 hj
      exact mem_range.2 (by omega)
    · intro j _ hj
      rw [g, if_neg (fun h => hj (mem_Ico.2 h)), zero_mul]
  rw [h1, sum_Ico_eq_sum_range, Nat.add_sub_cancel_left]
  refine sum_congr rfl fun m hm => ?_
  have := mem_range.1 hm
  rw [g, if_pos (by omega), Nat.add_sub_cancel_left, add_comm p m]

/-- **C182 (complex signals).** The fractional delay of `x` by `τ` is the band-limited interpolation: `y_k = Σ_m x_m D(k - m - τ)`, with the same length. -/
theorem C182_complexe (x : List ℂ) (τ : ℝ) (hx : 0 < x.length) (hb : 2 * x.length ≤ 2 ^ 29) :
    ∃ y, delaisFracC x τ = some y ∧ y.length = x.length ∧ ∀ k, k < x.length → y.getD k 0 = ∑ m ∈ range x.length, x.getD m 0 * noyauDirichlet x.length (k - m - τ) := by
  obtain ⟨x2, e1, l1, g1⟩ := pad_some x
  obtain ⟨X, e2, l2, g2⟩ := C27_fft x2 (by omega) (by omega)
  obtain ⟨r, e3, l3, g3⟩ := rot_shift x.length hx τ
  obtain ⟨X2, e4, l4, g4⟩ := produit_some X r (by omega)
  obtain ⟨z, e5, l5, g5⟩ := C27_ifft X2 (by omega) (by omega)
  obtain ⟨y, e6, l6, g6⟩ := segment_some z (2 * x.length / 4) x.length (by omega)
  refine ⟨y, by rw [delaisFracC, e1, Option.bind_some, e2, Option.bind_some, e3, Option.bind_some, e4, Option.bind_some, e5, Option.bind_some, e6], l6, fun k hk => ?_⟩
  rw [getD_of_get _ _ _ _ (g6 k hk), delais_forme x2 X r X2 z x.length hx τ l1 (by rw [← l1]; exact g2) g3 (by omega) g4 (by rw [← l1, ← l2, ← l4]; exact g5) _ (by omega),
    somme_pad x.length (2 * x.length / 4) (fun j => x2.getD j 0) (fun j => x.getD j 0) (by omega) g1 (fun j => noyauDirichlet x.length (((2 * x.length / 4 + k : ℕ) : ℝ) - j - τ))]
  refine sum_congr rfl fun m _ => ?_
  congr 2
  push_cast
  ring

/-- **C182 (kernel).** The kernel is 1 at the multiples of `2 N` and 0 at the other integers. -/
theorem C182_noyau_entier (N : ℕ) (hN : 0 < N) (d : ℤ) : noyauDirichlet N d = if (2 * N : ℤ) ∣ d then 1 else 0 := by
  have hNc : (N : ℂ) ≠ 0 := by exact_mod_cast hN.ne'
  unfold noyauDirichlet
  rw [← somme_freqSignee N (fun f => exp (((Real.pi * f * d / N : ℝ) : ℂ) * I))]
  have e : ∀ k ∈ range (2 * N), exp (((Real.pi * freqSignee N k * d / N : ℝ) : ℂ) * I) = exp (2 * Real.pi * I * d / (2 * N)) ^ k := by
    intro k _
    rw [← Complex.exp_nat_mul]
    unfold freqSignee
    split
    · congr 1
      push_cast
      field_simp
    · rw [Complex.exp_eq_exp_iff_exists_int]
      refine ⟨-d, ?_⟩
      push_cast
      field_simp
      ring
  rw [sum_congr rfl e]
  by_cases hd : (2 * N : ℤ) ∣ d
  · rw [if_pos hd]
    obtain ⟨q, rfl⟩ := hd
    have : exp (2 * Real.pi * I * ((2 * N * q : ℤ) : ℂ) / (2 * N)) = 1 := by
      rw [Complex.exp_eq_one_iff]
      exact ⟨q, by push_cast; field_simp⟩
    rw [this]
    simp only [one_pow, sum_const, card_range, nsmul_eq_mul]
    push_cast
    field_simp
  · rw [if_neg hd]
    have hne : exp (2 * Real.pi * I * (d : ℂ) / (2 * N)) ≠ 1 := by
      rw [Ne, Complex.exp_eq_one_iff]
      rintro ⟨q, hq⟩
      apply hd
      refine ⟨q, ?_⟩
      have hpi : (2 * Real.pi * I : ℂ) ≠ 0 := Complex.two_pi_I_ne_zero
      have : (d : ℂ) = 2 * N * q := by
        have h2 : (2 * Real.pi * I : ℂ) * d = (2 * Real.pi * I) * (2 * N * q) := by
          field_simp at hq
          linear_combination (2 * Real.pi * I) * hq
        exact mul_left_cancel₀ hpi h2
      exact_mod_cast this
    rw [geom_sum_eq hne, ← Complex.exp_nat_mul]
    have : exp (((2 * N : ℕ) : ℂ) * (2 * Real.pi * I * d / (2 * N))) = 1 := by
      rw [Complex.exp_eq_one_iff]
      exact ⟨d, by push_cast; field_simp⟩
    rw [this]; simp

/-- **C182 (agreement with the integer delay).** For an integer `τ` (at most the length of the signal, of either sign) the interpolation formula gives the integer delay: the function `délais` has no discontinuity of definition there. -/
theorem C182_entier (x : List ℂ) (d : ℤ) (hd : |d| ≤ x.length) (hx : 0 < x.length) (hb : 2 * x.length ≤ 2 ^ 29) : delaisFracC x d = delaisEntier x d := by
  obtain ⟨y, e1, l1, g1⟩ := C182_complexe x d hx hb
  obtain ⟨z, e2, l2, g2⟩ := C51_delais x d hd
  rw [e1, e2, Option.some.injEq]
  refine list_ext_getD _ _ (by omega) fun k hk => ?_
  rw [g1 k (by omega), g2 k (by omega)]
  have hd' := abs_le.1 hd
  have e : ∀ m ∈ range x.length, x.getD m 0 * noyauDirichlet x.length (k - m - d) = if (k : ℤ) - d = m then x.getD m 0 else 0 := by
    intro m hm
    have hm := mem_range.1 hm
    rw [show ((k : ℝ) - m - d) = (((k : ℤ) - m - d : ℤ) : ℝ) by push_cast; ring, C182_noyau_entier x.length hx]
    by_cases h : (k : ℤ) - d = m
    · rw [if_pos h, if_pos (by rw [show (k : ℤ) - m - d = 0 by omega]; exact dvd_zero _), mul_one]
    · rw [if_neg h, if_neg, mul_zero]
      intro h2
      have := Int.eq_zero_of_abs_lt_dvd h2 (by rw [abs_lt]; constructor <;> omega)
      omega
  rw [sum_congr rfl e]
  by_cases h : 0 ≤ (k : ℤ) - d ∧ (k : ℤ) - d < x.length
  · rw [if_pos h, sum_eq_single ((k : ℤ) - d).toNat]
    · rw [if_pos (by omega)]
    · intro m _ hm; rw [if_neg (by omega)]
    · intro hm; exact absurd (mem_range.2 (by omega)) hm
  · rw [if_neg h]
    refine sum_eq_zero fun m hm => ?_
    have := mem_range.1 hm
    rw [if_neg (by omega)]

/-- **C182 (continuity).** Each sample of the delayed signal is a continuous function of the delay, integer delays included. -/
theorem C182_continu (x : List ℂ) (k : ℕ) (hk : k < x.length) (hb : 2 * x.length ≤ 2 ^ 29) :
    ContinuousOn (fun τ : ℝ => ((delaisC x τ).getD []).getD k 0) (Set.Icc (-x.length) x.length) := by
  have hx : 0 < x.length := by omega
  have hc : Continuous (fun τ : ℝ => ∑ m ∈ range x.length, x.getD m 0 * noyauDirichlet x.length (k - m - τ)) := by
    refine continuous_finset_sum _ fun m _ => ?_
    unfold noyauDirichlet
    fun_prop
  refine hc.continuousOn.congr fun τ hτ => ?_
  obtain ⟨y, e1, l1, g1⟩ := C182_complexe x τ hx hb
  have : delaisC x τ = some y := by
    unfold delaisC
    split
    · exact e1
    · rename_i h
      push_neg at h
      have h1 : ((|⌊τ⌋| : ℤ) : ℝ) ≤ x.length := by
        push_cast
        rw [h]
        exact abs_le.2 hτ
      rw [← C182_entier x ⌊τ⌋ (by exact_mod_cast h1) hx hb, h, e1]
  dsimp only
  rw [this, Option.getD_some, g1 k hk]

theorem energie_norme (N : ℕ) (u : ℕ → ℂ) : ∑ k ∈ range N, u k * star (u k) = ((∑ k ∈ range N, ‖u k‖ ^ 2 : ℝ) : ℂ) := by
  push_cast
  exact sum_congr rfl fun k _ => by rw [Complex.star_def, Complex.mul_conj']

/-- **C182 (energy).** The fractional delay never increases the energy of the signal. -/
theorem C182_energie (x y : List ℂ) (τ : ℝ) (hx : 0 < x.length) (hb : 2 * x.length ≤ 2 ^ 29) (h : delaisFracC x τ = some y) :
    ∑ k ∈ range x.length, ‖y.getD k 0‖ ^ 2 ≤ ∑ k ∈ range x.length, ‖x.getD k 0‖ ^ 2 := by
  obtain ⟨x2, e1, l1, g1⟩ := pad_some x
  obtain ⟨X, e2, l2, g2⟩ := C27_fft x2 (by omega) (by omega)
  obtain ⟨r, e3, l3, g3⟩ := rot_shift x.length hx τ
  obtain ⟨X2, e4, l4, g4⟩ := produit_some X r (by omega)
  obtain ⟨-, z, e5, e5'⟩ := C27_inverse X2 (by omega) (by omega)
  obtain ⟨z', e7, l5, -⟩ := C27_ifft X2 (by omega) (by omega)
  rw [e5] at e7; cases e7
  obtain ⟨y', e6, l6, g6⟩ := segment_some z (2 * x.length / 4) x.length (by omega)
  rw [delaisFracC, e1, Option.bind_some, e2, Option.bind_some, e3, Option.bind_some, e4, Option.bind_some, e5, Option.bind_some, e6, Option.some.injEq] at h
  subst h
  have p1 := C27_parseval x2 x2 X X (by omega) (by omega) rfl e2 e2
  have p2 := C27_parseval z z X2 X2 (by omega) (by omega) rfl e5' e5'
  rw [energie_norme, energie_norme, ofReal_inj] at p1 p2
  have hlen : z.length = 2 * x.length := by omega
  rw [hlen] at p2
  rw [l1] at p1
  have p3 : ∑ k ∈ range (2 * x.length), ‖X2.getD k 0‖ ^ 2 = ∑ k ∈ range (2 * x.length), ‖X.getD k 0‖ ^ 2 := by
    refine sum_congr rfl fun k hk => ?_
    rw [g4, g3 k (mem_range.1 hk), norm_mul, Complex.norm_exp_ofReal_mul_I, mul_one]
  have p4 : ∑ k ∈ range (2 * x.length), ‖x2.getD k 0‖ ^ 2 = ∑ k ∈ range x.length, ‖x.getD k 0‖ ^ 2 := by
    have := somme_pad x.length (2 * x.length / 4) (fun j => ((‖x2.getD j 0‖ ^ 2 : ℝ) : ℂ)) (fun j => ((‖x.getD j 0‖ ^ 2 : ℝ) : ℂ)) (by omega) (fun t => by
      rw [g1]
      split <;> simp) (fun _ => 1)
    simp only [mul_one] at this
    exact_mod_cast this
  rw [← p4, ← p1, ← p3, p2]
  have p5 : ∑ k ∈ range x.length, ‖y'.getD k 0‖ ^ 2 = ∑ k ∈ Ico (2 * x.length / 4) (2 * x.length / 4 + x.length), ‖z.getD k 0‖ ^ 2 := by
    rw [sum_Ico_eq_sum_range, Nat.add_sub_cancel_left]
    refine sum_congr rfl fun k hk => ?_
    rw [getD_of_get _ _ _ _ (g6 k (mem_range.1 hk))]
  rw [p5]
  refine sum_le_sum_of_subset_of_nonneg (fun k hk => ?_) fun _ _ _ => by positivity
  have := mem_Ico.1 hk
  exact mem_range.2 (by omega)

/-- Non-vacuity: a signal of two samples, delayed by one sample or by half a sample. -/
example : (0 < [1, (2 : ℂ)].length) ∧ 2 * [1, (2 : ℂ)].length ≤ 2 ^ 29 ∧ |(1 : ℤ)| ≤ ([1, (2 : ℂ)].length : ℤ) ∧ ((⌊(1 / 2 : ℝ)⌋ : ℤ) : ℝ) ≠ 1 / 2 := by
  refine ⟨by simp, by simp, by simp, ?_⟩
  rw [show ⌊(1 / 2 : ℝ)⌋ = 0 by rw [Int.floor_eq_iff]; norm_num]
  norm_num

/-- **C183.** The coherence of two signals is 1 at every frequency where both are non-null, whatever the signals: it says nothing about them (and it is not defined elsewhere). -/
theorem C183_coherence_refute (x y : List ℂ) (hx : 0 < x.length) (hx2 : x.length ≤ 2 ^ 29) (hl : y.length = x.length) :
    ∃ c, coherence x y = some c ∧ c.length = x.length ∧ ∀ k, k < x.length → c[k]? = some (if TFD (-1) x k ≠ 0 ∧ TFD (-1) y k ≠ 0 then some 1 else none) := by
  obtain ⟨X, e1, l1, g1⟩ := C27_fft x hx hx2
  obtain ⟨Y, e2, l2, g2⟩ := C27_fft y (by omega) (by omega)
  have hp : produit X (Y.map star) = some (List.zipWith (· * ·) X (Y.map star)) := by rw [produit, if_pos (by rw [List.length_map]; omega)]
  refine ⟨_, by rw [coherence, e1, Option.bind_some, e2, Option.bind_some, hp, Option.bind_some, if_pos (by omega)], by simp; omega, fun k hk => ?_⟩
  have hX : X[k]? = some (TFD (-1) x k) := by
    rw [← g1 k hk, List.getElem?_eq_getElem (by omega), List.getD_eq_getElem _ _ (by omega)]
  have hY : Y[k]? = some (TFD (-1) y k) := by
    rw [← g2 k (by omega), List.getElem?_eq_getElem (by omega), List.getD_eq_getElem _ _ (by omega)]
  have hz : (X.zip Y)[k]? = some (TFD (-1) x k, TFD (-1) y k) := by
    rw [List.zip, List.getElem?_zipWith, hX, hY]
  rw [List.getElem?_zipWith, hz, List.getElem?_zipWith, hX, List.getElem?_map, hY]
  simp only [Option.map_some, norm_mul, norm_star, mul_eq_zero, norm_eq_zero, Option.some.injEq]
  by_cases h : TFD (-1) x k ≠ 0 ∧ TFD (-1) y k ≠ 0
  · rw [if_pos h, if_neg (by rw [not_or]; exact h), div_self (mul_ne_zero (norm_ne_zero_iff.2 h.1) (norm_ne_zero_iff.2 h.2))]
  · rw [if_neg h, if_pos]
    by_contra h2
    rw [not_or] at h2
    exact h h2

end Verif.Fourier
