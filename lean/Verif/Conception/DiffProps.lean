/-
C84: FIR differentiators.

Specification: a differentiator gives 0 for a constant and, for the ramp `x_t = t`, the constant slope 1 (once the filter is full).
-/
import Verif.Conception.TransfProps
import Mathlib.Analysis.Real.Pi.Leibniz
import Mathlib.Analysis.SpecificLimits.Normed

namespace Verif.Conception

open Finset Verif.Fourier

/-- Specification: output of the filter `h`, once full, at time `t`, for the signal `x` defined on all times. -/
noncomputable def regime (h : List ℝ) (x : ℤ → ℝ) (t : ℤ) : ℝ := ∑ k ∈ range h.length, h.getD k 0 * x (t - k)

/-- The specification agrees with the filter of C19 as soon as `t ≥ n - 1`. -/
theorem regime_convolution (h : List ℝ) (x : ℤ → ℝ) (N t : ℕ) (h1 : h.length ≤ t + 1) (h2 : t < N) :
    regime h x t = Filtre.convolution h ((List.range N).map fun i : ℕ => x i) t := by
  unfold regime Filtre.convolution Filtre.passe
  refine Finset.sum_congr rfl fun k hk => ?_
  rw [Finset.mem_range] at hk
  rw [if_pos (by omega), List.getD_eq_getElem ((List.range N).map _) _ (by simp; omega), List.getElem_map, List.getElem_range,
    Nat.cast_sub (by omega)]

theorem somme_paire (m : ℕ) (g : ℕ → ℝ) : ∑ i ∈ range (2 * m), g i = ∑ j ∈ range m, (g (m + j) + g (m - 1 - j)) := by
  rw [two_mul, Finset.sum_range_add, Finset.sum_add_distrib, add_comm, ← Finset.sum_range_reflect g m]

theorem somme_impaire (m : ℕ) (g : ℕ → ℝ) : ∑ i ∈ range (2 * m + 1), g i = g m + ∑ j ∈ range m, (g (m + 1 + j) + g (m - 1 - j)) := by
  rw [show 2 * m + 1 = (m + 1) + m by omega, Finset.sum_range_add, Finset.sum_add_distrib, Finset.sum_range_succ, ← Finset.sum_range_reflect g m]
  ring

theorem rifDiff_get (n : ℕ) (hn : 3 ≤ n) (centre : Bool) : ∃ h, rifDiff n centre = some h ∧ h.length = n ∧ ∀ i, i < n → h.getD i 0 =
    if centre then (if (i : ℤ) - (n / 2 : ℕ) = 0 then 0 else (if ((i : ℤ) - (n / 2 : ℕ)) % 2 = 0 then 1 else -1) / (((i : ℤ) - (n / 2 : ℕ) : ℤ) : ℝ))
    else (if ((i : ℤ) - (n / 2 : ℕ) + 1) % 2 = 0 then 1 else -1) /
      (Real.pi * (0.5 + (((i : ℤ) - (n / 2 : ℕ) : ℤ) : ℝ)) * (0.5 + (((i : ℤ) - (n / 2 : ℕ) : ℤ) : ℝ))) := by
  refine ⟨_, by rw [rifDiff, if_neg (by omega), if_neg (by omega)], by simp, fun i hi => ?_⟩
  rw [List.getD_eq_getElem _ _ (by simpa using hi)]
  simp only [List.getElem_map, List.getElem_range]

/-- **C84 (antisymmetry).**  Even number of coefficients not centred, or odd number centred: the coefficients are antisymmetric, hence a constant
gives 0.  Fewer than two coefficients are rejected. -/
theorem C84_antisymetrie (n : ℕ) (centre : Bool) :
    (n < 2 → rifDiff n centre = none) ∧
    (2 ≤ n → (n % 2 = 1 ↔ centre = true) → ∃ h, rifDiff n centre = some h ∧ h.length = n ∧
      (∀ i, i < n → h.getD (n - 1 - i) 0 = -h.getD i 0) ∧ ∀ (c : ℝ) (t : ℤ), regime h (fun _ => c) t = 0) := by
  refine ⟨fun h => by rw [rifDiff, if_pos h], fun h2 hp => ?_⟩
  have hex : ∃ h, rifDiff n centre = some h ∧ h.length = n ∧ (∀ i, i < n → h.getD (n - 1 - i) 0 = -h.getD i 0) := by
    by_cases hn : n = 2
    · subst hn
      refine ⟨[-1, 1], rfl, rfl, fun i hi => ?_⟩
      interval_cases i <;> simp
    · obtain ⟨h, e, l, v⟩ := rifDiff_get n (by omega) centre
      refine ⟨h, e, l, fun i hi => ?_⟩
      rw [v i hi, v _ (by omega)]
      by_cases hc : centre = true
      · subst hc
        have : ((n - 1 - i : ℕ) : ℤ) - (n / 2 : ℕ) = -((i : ℤ) - (n / 2 : ℕ)) := by have := hp.2 rfl; omega
        rw [this]
        simp only [if_true, neg_eq_zero, Int.neg_emod_two, Int.cast_neg]
        split
        · simp
        · rw [div_neg]
      · have hc' : centre = false := by simpa using hc
        subst hc'
        have : ((n - 1 - i : ℕ) : ℤ) - (n / 2 : ℕ) = -((i : ℤ) - (n / 2 : ℕ)) - 1 := by
          have : ¬ n % 2 = 1 := fun h => by simpa using hp.1 h
          omega
        rw [this]
        set k := (i : ℤ) - (n / 2 : ℕ)
        simp only [Bool.false_eq_true, if_false]
        have e1 : (0.5 + ((-k - 1 : ℤ) : ℝ)) = -(0.5 + (k : ℝ)) := by push_cast; ring
        rw [e1, show Real.pi * -(0.5 + (k : ℝ)) * -(0.5 + (k : ℝ)) = Real.pi * (0.5 + (k : ℝ)) * (0.5 + (k : ℝ)) by ring]
        by_cases h0 : (k + 1) % 2 = 0
        · rw [if_pos h0, if_neg (by omega)]; ring
        · rw [if_neg h0, if_pos (by omega)]; ring
  obtain ⟨h, e, l, v⟩ := hex
  refine ⟨h, e, l, v, fun c t => ?_⟩
  unfold regime
  rw [l, ← Finset.sum_mul]
  have : ∑ i ∈ range n, h.getD i 0 = - ∑ i ∈ range n, h.getD i 0 := by
    conv_lhs => rw [← Finset.sum_range_reflect]
    rw [← Finset.sum_neg_distrib]
    exact Finset.sum_congr rfl fun i hi => v i (Finset.mem_range.1 hi)
  rw [show ∑ i ∈ range n, h.getD i 0 = 0 by linarith, zero_mul]

example : (2 ≤ 6 ∧ (6 % 2 = 1 ↔ false = true)) ∧ (2 ≤ 5 ∧ (5 % 2 = 1 ↔ true = true)) := by decide

theorem rampe_paire (m : ℕ) (hm : 2 ≤ m) : ∃ h, rifDiff (2 * m) false = some h ∧ h.length = 2 * m ∧
    ∀ t : ℤ, regime h (fun u : ℤ => (u : ℝ)) t = 4 / Real.pi * ∑ j ∈ range m, (-1) ^ j / (2 * (j : ℝ) + 1) := by
  obtain ⟨h, e, l, v⟩ := rifDiff_get (2 * m) (by omega) false
  refine ⟨h, e, l, fun t => ?_⟩
  unfold regime
  rw [l, somme_paire, Finset.mul_sum]
  refine Finset.sum_congr rfl fun j hj => ?_
  rw [Finset.mem_range] at hj
  rw [v _ (by omega), v _ (by omega)]
  simp only [Bool.false_eq_true, if_false]
  rw [show 2 * m / 2 = m by omega]
  have e1 : (((m + j : ℕ) : ℤ) - (m : ℕ)) = j := by push_cast; ring
  have e2 : (((m - 1 - j : ℕ) : ℤ) - (m : ℕ)) = -(j : ℤ) - 1 := by omega
  have e3 : ((m - 1 - j : ℕ) : ℤ) = (m : ℤ) - 1 - j := by omega
  rw [e1, e2, e3]
  have hpi := Real.pi_ne_zero
  have hj1 : (2 * (j : ℝ) + 1) ≠ 0 := by positivity
  have hj2 : (0.5 + (j : ℝ)) ≠ 0 := by positivity
  have e4 : (0.5 + ((-(j : ℤ) - 1 : ℤ) : ℝ)) = -(0.5 + (j : ℝ)) := by push_cast; ring
  rw [e4]
  have e5 : (0.5 + (((j : ℤ) : ℤ) : ℝ)) = (2 * (j : ℝ) + 1) / 2 := by push_cast; ring
  have e6 : (0.5 + (j : ℝ)) = (2 * (j : ℝ) + 1) / 2 := by ring
  rw [e5, e6]
  rcases Nat.even_or_odd j with hp | hp
  · rw [hp.neg_one_pow]
    have := Nat.even_iff.1 hp
    rw [if_neg (by omega), if_pos (by omega)]
    push_cast
    field_simp
    ring
  · rw [hp.neg_one_pow]
    have := Nat.odd_iff.1 hp
    rw [if_pos (by omega), if_neg (by omega)]
    push_cast
    field_simp
    ring

theorem leibniz_borne (m : ℕ) : |∑ j ∈ range m, (-1 : ℝ) ^ j / (2 * (j : ℝ) + 1) - Real.pi / 4| ≤ 1 / (2 * m + 1) := by
  have hl := Real.tendsto_sum_pi_div_four
  have hs : ∀ n, ∑ j ∈ range n, (-1 : ℝ) ^ j / (2 * (j : ℝ) + 1) = ∑ j ∈ range n, (-1 : ℝ) ^ j * (1 / (2 * (j : ℝ) + 1)) := fun n =>
    Finset.sum_congr rfl fun j _ => by rw [mul_one_div]
  simp only [hs] at hl ⊢
  have ha : Antitone fun j : ℕ => 1 / (2 * (j : ℝ) + 1) := by
    intro a b hab
    apply one_div_le_one_div_of_le (by positivity)
    have : (a : ℝ) ≤ b := by exact_mod_cast hab
    linarith
  have hup : ∀ k, ∑ j ∈ range (2 * k), (-1 : ℝ) ^ j * (1 / (2 * (j : ℝ) + 1)) ≤ Real.pi / 4 := fun k => ha.alternating_series_le_tendsto hl k
  have hdn : ∀ k, Real.pi / 4 ≤ ∑ j ∈ range (2 * k + 1), (-1 : ℝ) ^ j * (1 / (2 * (j : ℝ) + 1)) := fun k => ha.tendsto_le_alternating_series hl k
  have hpos : (0 : ℝ) ≤ 1 / (2 * m + 1) := by positivity
  rcases Nat.even_or_odd' m with ⟨k, hk | hk⟩
  · have h1 := hup k
    have h2 := hdn k
    rw [Finset.sum_range_succ, ← hk, Even.neg_one_pow ⟨k, by omega⟩] at h2
    rw [← hk] at h1
    rw [abs_le]
    constructor <;> linarith
  · have h1 := hdn k
    have h2 := hup (k + 1)
    rw [show 2 * (k + 1) = m + 1 by omega, Finset.sum_range_succ, Odd.neg_one_pow ⟨k, hk⟩] at h2
    rw [← hk] at h1
    rw [abs_le]
    constructor <;> linarith

/-- **C84 (slope).**  With an even number `n ≥ 4` of coefficients (not centred), the response to the ramp `x_t = t` is constant and within
`4 / (π (n+1))` of the slope 1. -/
theorem C84_pente (n : ℕ) (hn : 4 ≤ n) (hp : n % 2 = 0) :
    ∃ h, rifDiff n false = some h ∧ ∃ p : ℝ, (∀ t : ℤ, regime h (fun u : ℤ => (u : ℝ)) t = p) ∧ |p - 1| ≤ 4 / (Real.pi * (n + 1)) := by
  obtain ⟨m, rfl⟩ : ∃ m, n = 2 * m := ⟨n / 2, by omega⟩
  obtain ⟨h, e, l, v⟩ := rampe_paire m (by omega)
  refine ⟨h, e, _, v, ?_⟩
  have hpi := Real.pi_pos
  have hb := leibniz_borne m
  rw [show 4 / Real.pi * ∑ j ∈ range m, (-1 : ℝ) ^ j / (2 * (j : ℝ) + 1) - 1 =
    4 / Real.pi * (∑ j ∈ range m, (-1 : ℝ) ^ j / (2 * (j : ℝ) + 1) - Real.pi / 4) by field_simp, abs_mul, abs_of_pos (by positivity)]
  calc 4 / Real.pi * |∑ j ∈ range m, (-1 : ℝ) ^ j / (2 * (j : ℝ) + 1) - Real.pi / 4| ≤ 4 / Real.pi * (1 / (2 * m + 1)) := by gcongr
    _ = 4 / (Real.pi * (((2 * m : ℕ) : ℝ) + 1)) := by push_cast; rw [div_mul_div_comm, mul_one]

/-- **C84 (slope, refuted for two coefficients).**  `design_rif_diff(2)` gives the opposite of the derivative: slope -1 for the ramp. -/
theorem C84_deux_refute (centre : Bool) : ∃ h, rifDiff 2 centre = some h ∧ ∀ t : ℤ, regime h (fun u : ℤ => (u : ℝ)) t = -1 := by
  refine ⟨[-1, 1], rfl, fun t => ?_⟩
  simp [regime, Finset.sum_range_succ]
  ring

/-- **C84 (slope, refuted for the centred version).**  With an odd number `n = 2m+1 ≥ 3` of coefficients, the centred version answers to the ramp
`x_t = t` by 2 when `m` is odd and by 0 when `m` is even: never by the slope 1, whatever the number of coefficients. -/
theorem C84_centre_refute (m : ℕ) (hm : 1 ≤ m) : ∃ h, rifDiff (2 * m + 1) true = some h ∧
    ∀ t : ℤ, regime h (fun u : ℤ => (u : ℝ)) t = if m % 2 = 1 then 2 else 0 := by
  obtain ⟨h, e, l, v⟩ := rifDiff_get (2 * m + 1) (by omega) true
  refine ⟨h, e, fun t => ?_⟩
  unfold regime
  rw [l, somme_impaire]
  have h0 : h.getD m 0 = 0 := by rw [v m (by omega), show (2 * m + 1) / 2 = m by omega]; simp
  rw [h0, zero_mul, zero_add]
  have ht : ∀ j, j ∈ range m → h.getD (m + 1 + j) 0 * (((t - (m + 1 + j : ℕ) : ℤ)) : ℝ) + h.getD (m - 1 - j) 0 * (((t - (m - 1 - j : ℕ) : ℤ)) : ℝ) =
      2 * (-1) ^ j := by
    intro j hj
    rw [Finset.mem_range] at hj
    rw [v _ (by omega), v _ (by omega), show (2 * m + 1) / 2 = m by omega]
    have e1 : (((m + 1 + j : ℕ) : ℤ) - (m : ℕ)) = j + 1 := by push_cast; ring
    have e2 : (((m - 1 - j : ℕ) : ℤ) - (m : ℕ)) = -((j : ℤ) + 1) := by omega
    have e3 : ((m - 1 - j : ℕ) : ℤ) = (m : ℤ) - 1 - j := by omega
    rw [e1, e2, e3]
    have a1 : ¬ ((j : ℤ) + 1 = 0) := by omega
    have a2 : ¬ (-((j : ℤ) + 1) = 0) := by omega
    simp only [if_true, if_neg a1, if_neg a2]
    have hj1 : ((j : ℝ) + 1) ≠ 0 := by positivity
    rcases Nat.even_or_odd j with hp | hp
    · rw [hp.neg_one_pow]
      have := Nat.even_iff.1 hp
      have b1 : ¬ (((j : ℤ) + 1) % 2 = 0) := by omega
      have b2 : ¬ (-((j : ℤ) + 1) % 2 = 0) := by omega
      simp only [if_neg b1, if_neg b2]
      push_cast
      field_simp
      ring
    · rw [hp.neg_one_pow]
      have := Nat.odd_iff.1 hp
      have b1 : ((j : ℤ) + 1) % 2 = 0 := by omega
      have b2 : -((j : ℤ) + 1) % 2 = 0 := by omega
      simp only [if_pos b1, if_pos b2]
      push_cast
      field_simp
      ring
  rw [Finset.sum_congr rfl ht, ← Finset.mul_sum, neg_one_geom_sum]
  by_cases hp : m % 2 = 1
  · rw [if_neg (by rw [Nat.even_iff]; omega), if_pos hp, mul_one]
  · rw [if_pos (by rw [Nat.even_iff]; omega), if_neg hp, mul_zero]

/-- **C84 (constant, refuted for the other parities).**  With 3 coefficients not centred, or 4 centred, a constant does not give 0. -/
theorem C84_constante_refute :
    (∃ h, rifDiff 3 false = some h ∧ ∀ t : ℤ, regime h (fun _ => 1) t = 4 / (9 * Real.pi)) ∧
    (∃ h, rifDiff 4 true = some h ∧ ∀ t : ℤ, regime h (fun _ => 1) t = -1 / 2) := by
  have hpi := Real.pi_ne_zero
  constructor
  · obtain ⟨h, e, l, v⟩ := rifDiff_get 3 (by norm_num) false
    refine ⟨h, e, fun t => ?_⟩
    unfold regime
    rw [l]
    simp only [Finset.sum_range_succ, Finset.sum_range_zero, v 0 (by norm_num), v 1 (by norm_num), v 2 (by norm_num)]
    norm_num
    field_simp
    norm_num
  · obtain ⟨h, e, l, v⟩ := rifDiff_get 4 (by norm_num) true
    refine ⟨h, e, fun t => ?_⟩
    unfold regime
    rw [l]
    simp only [Finset.sum_range_succ, Finset.sum_range_zero, v 0 (by norm_num), v 1 (by norm_num), v 2 (by norm_num), v 3 (by norm_num)]
    norm_num

end Verif.Conception
