import Verif.Util.Props
import Mathlib.Analysis.SpecialFunctions.Pow.Real

/-!
# C205: time and logarithmic grids (core/include/tsd/tsd.hpp)

Exact real arithmetic.
-/

namespace Verif.Util

/-! ## Model -/

/-- `logspace(a, b, n)`, core/include/tsd/tsd.hpp:955-958: `pow(Vecf::ones(n) * 10, linspace(a, b, n))`. -/
noncomputable def logspace (a b : ℝ) (n : ℕ) : List ℝ := List.zipWith (fun x y : ℝ => x ^ y) (List.replicate n (1 * 10)) (linspace a b n)

/-- `intervalle_temporel(n, fe)`, core/include/tsd/tsd.hpp:989-992. A negative number of samples is an error; a null sampling frequency gives values that are not numbers. -/
noncomputable def intervalleN (n : ℤ) (fe : ℝ) : Option (List ℝ) := if n < 0 ∨ fe = 0 then none else some (linspace 0 ((n - 1 : ℤ) / fe) n.toNat)

/-- `intervalle_temporel(T, fe)`, core/include/tsd/tsd.hpp:995-999. -/
noncomputable def intervalleT (T fe : ℝ) : Option (List ℝ) := intervalleN ⌈T * fe⌉ fe

/-! ## Theorems -/

/-- **C205 (logarithmic grid).** `n` points; point `k` is `10^(a + k(b-a)/(n-1))`; the first is `10^a` and, from two points on, the last is `10^b`. -/
theorem C205_log (a b : ℝ) (n : ℕ) : (logspace a b n).length = n ∧ (∀ k, k < n → (logspace a b n)[k]? = some ((10 : ℝ) ^ (a + k * ((b - a) / ((n : ℝ) - 1))))) ∧ (2 ≤ n → (logspace a b n)[n - 1]? = some ((10 : ℝ) ^ b)) := by
  obtain ⟨h1, h2, h3⟩ := C33_linspace a b n
  have hk : ∀ (k : ℕ) (v : ℝ), k < n → (linspace a b n)[k]? = some v → (logspace a b n)[k]? = some ((10 : ℝ) ^ v) := by
    intro k v hk hv
    unfold logspace
    rw [List.getElem?_zipWith, hv, List.getElem?_replicate, if_pos hk]
    simp
  exact ⟨by simp [logspace, h1], fun k h => hk k _ h (h2 k h), fun h => hk _ _ (by omega) (h3 h)⟩

/-- **C205 (geometric progression).** The ratio of two consecutive points is constant, and greater than 1 exactly when `a < b`. -/
theorem C205_raison (a b : ℝ) (n : ℕ) (hn : 2 ≤ n) : ∃ r : ℝ, 0 < r ∧ (1 < r ↔ a < b) ∧ ∀ k, k + 1 < n → ∃ x y, (logspace a b n)[k]? = some x ∧ (logspace a b n)[k + 1]? = some y ∧ 0 < x ∧ y = r * x := by
  obtain ⟨-, h, -⟩ := C205_log a b n
  have hn' : (0 : ℝ) < (n : ℝ) - 1 := by
    have : (2 : ℝ) ≤ n := by exact_mod_cast hn
    linarith
  refine ⟨(10 : ℝ) ^ ((b - a) / ((n : ℝ) - 1)), by positivity, ?_, fun k hk => ⟨_, _, h k (by omega), h (k + 1) hk, by positivity, ?_⟩⟩
  · rw [Real.one_lt_rpow_iff_of_pos (by norm_num)]
    constructor
    · rintro (⟨-, h⟩ | ⟨h, -⟩)
      · have := (div_pos_iff_of_pos_right hn').1 h
        linarith
      · norm_num at h
    · intro hab
      exact Or.inl ⟨by norm_num, div_pos (by linarith) hn'⟩
  · rw [← Real.rpow_add (by norm_num)]
    congr 1
    push_cast
    ring

/-- **C205 (time grid by number).** Exactly the instants `k / fe`, `k < n`. -/
theorem C205_temps (n : ℕ) (fe : ℝ) (hf : fe ≠ 0) : ∃ t, intervalleN n fe = some t ∧ t.length = n ∧ ∀ k, k < n → t[k]? = some (k / fe) := by
  obtain ⟨h1, h2, -⟩ := C33_linspace (0 : ℝ) (((n : ℤ) - 1 : ℤ) / fe) n
  refine ⟨_, by rw [intervalleN, if_neg (by simp [hf])], by rw [Int.toNat_natCast]; exact h1, fun k hk => ?_⟩
  rw [Int.toNat_natCast, h2 k hk]
  congr 1
  push_cast
  by_cases hn : n = 1
  · subst hn
    obtain rfl : k = 0 := by omega
    simp
  · have : (n : ℝ) - 1 ≠ 0 := by
      rw [sub_ne_zero]
      exact_mod_cast hn
    field_simp
    ring

/-- **C205 (time grid by duration).** Exactly the multiples of the sampling period from 0 up to, and excluding, the duration `T`. -/
theorem C205_duree (T fe : ℝ) (hT : 0 ≤ T) (hf : 0 < fe) : ∃ t, intervalleT T fe = some t ∧ (∀ k, k < t.length → t[k]? = some (k / fe)) ∧ ∀ k : ℕ, (k : ℝ) / fe < T ↔ k < t.length := by
  have h0 : 0 ≤ ⌈T * fe⌉ := Int.ceil_nonneg (by positivity)
  obtain ⟨n, hn⟩ := Int.eq_ofNat_of_zero_le h0
  obtain ⟨t, e, hl, h⟩ := C205_temps n fe hf.ne'
  refine ⟨t, by rw [intervalleT, hn]; exact e, fun k hk => h k (by omega), fun k => ?_⟩
  rw [div_lt_iff₀ hf, hl]
  have : (k : ℤ) < ⌈T * fe⌉ ↔ ((k : ℤ) : ℝ) < T * fe := Int.lt_ceil
  rw [hn] at this
  constructor
  · intro h
    have := this.2 (by exact_mod_cast h)
    omega
  · intro h
    exact_mod_cast this.1 (by omega)

/-- **C205, violated when the grid is empty by number**: no error for a negative duration shorter than one period (an empty grid), but an error from one period on. -/
theorem C205_negative_refute (T fe : ℝ) (hf : 0 < fe) : (-1 < T * fe → T ≤ 0 → intervalleT T fe = some []) ∧ (T * fe ≤ -1 → intervalleT T fe = none) := by
  constructor
  · intro h h'
    have : ⌈T * fe⌉ = 0 := by
      rw [Int.ceil_eq_iff]
      constructor
      · push_cast
        linarith
      · push_cast
        exact mul_nonpos_of_nonpos_of_nonneg h' hf.le
    rw [intervalleT, this, intervalleN, if_neg (by simp [hf.ne'])]
    simp [linspace]
  · intro h
    have : ⌈T * fe⌉ < 0 := by
      have : ⌈T * fe⌉ ≤ -1 := Int.ceil_le.2 (by push_cast; exact h)
      omega
    rw [intervalleT, intervalleN, if_pos (Or.inl this)]

example : ∃ t, intervalleT (1 / 100) 1000 = some t ∧ t.length = 10 := by
  obtain ⟨t, e, -, h⟩ := C205_duree (1 / 100) 1000 (by norm_num) (by norm_num)
  have h1 := (h 9).1 (by norm_num)
  have h2 := mt (h 10).2 (by norm_num)
  exact ⟨t, e, by omega⟩

end Verif.Util
