import Mathlib.Data.Int.Log
import Mathlib.Algebra.Order.Round
import Mathlib.Data.Rat.Floor
import Mathlib.Tactic.Linarith
import Mathlib.Tactic.Ring
import Mathlib.Tactic.NormNum
import Mathlib.Tactic.Positivity

/-!
# Rounding of C++ `double` results

The code converts between integers and `double` (IEEE-754 binary64).  We model the *value* of a `double` as a rational and
the result of each operation as `rnd64` of the exact result: rounding to 53 significant bits.

Simplifications: exponents are unbounded (no overflow, no subnormal — the magnitudes met in the modelled code lie between
2^-30 and 2^70), and ties are rounded upwards (`round`) instead of to even; no theorem depends on the treatment of ties,
because only `rnd64_rel` and `rnd64_exact`, which hold for both rules, are used — except in refutations by
concrete evaluation, whose evaluated operations are not ties.
-/

namespace Verif

/-- Rounding to 53 significant bits (model of IEEE-754 binary64 round-to-nearest, see the module comment). -/
def rnd64 (x : ℚ) : ℚ :=
  (round (x / (2 : ℚ) ^ (Int.log 2 |x| - 52)) : ℤ) * (2 : ℚ) ^ (Int.log 2 |x| - 52)

/-- Conversion `double` → integer in C++: truncation towards zero. -/
def tronque (x : ℚ) : ℤ := if 0 ≤ x then ⌊x⌋ else ⌈x⌉

theorem rnd64_zero : rnd64 0 = 0 := by simp [rnd64]

/-- Relative error of one rounding: at most 2^-53. -/
theorem rnd64_rel (x : ℚ) : |rnd64 x - x| ≤ |x| / 2 ^ 53 := by
  by_cases hx : x = 0
  · subst hx; simp [rnd64_zero]
  have hx' : 0 < |x| := abs_pos.2 hx
  set e : ℤ := Int.log 2 |x| - 52 with he
  have hp : (0 : ℚ) < (2 : ℚ) ^ e := zpow_pos (by norm_num) _
  have h1 : rnd64 x - x = -(x / (2 : ℚ) ^ e - (round (x / (2 : ℚ) ^ e) : ℤ)) * (2 : ℚ) ^ e := by
    unfold rnd64
    rw [← he]
    field_simp
    ring
  rw [h1, abs_mul, abs_neg, abs_of_pos hp]
  have h2 := abs_sub_round (x / (2 : ℚ) ^ e)
  have h3 : (2 : ℚ) ^ (Int.log 2 |x|) ≤ |x| := by
    have := Int.zpow_log_le_self (b := 2) (r := |x|) (by norm_num) hx'
    exact_mod_cast this
  have h4 : (2 : ℚ) ^ e * 2 ^ 52 = (2 : ℚ) ^ (Int.log 2 |x|) := by
    rw [he, zpow_sub₀ (by norm_num)]
    norm_num
  calc _ ≤ (1 / 2) * (2 : ℚ) ^ e := mul_le_mul_of_nonneg_right h2 hp.le
    _ = ((2 : ℚ) ^ e * 2 ^ 52) / 2 ^ 53 := by ring
    _ ≤ _ := by rw [h4]; exact div_le_div_of_nonneg_right h3 (by norm_num)

/-- Integers times powers of two with at most 53 significant bits are not rounded. -/
theorem rnd64_exact (m : ℤ) (k : ℤ) (hm : |m| ≤ 2 ^ 53) : rnd64 ((m : ℚ) * (2 : ℚ) ^ k) = (m : ℚ) * (2 : ℚ) ^ k := by
  by_cases h0 : m = 0
  · subst h0; simp [rnd64_zero]
  set x : ℚ := (m : ℚ) * (2 : ℚ) ^ k with hx
  have hpk : (0 : ℚ) < (2 : ℚ) ^ k := zpow_pos (by norm_num) _
  have hmq : (0 : ℚ) < |(m : ℚ)| := abs_pos.2 (by exact_mod_cast h0)
  have hax : |x| = |(m : ℚ)| * (2 : ℚ) ^ k := by rw [hx, abs_mul, abs_of_pos hpk]
  have hax0 : 0 < |x| := by rw [hax]; positivity
  -- the exact value is an integer multiple of the rounding unit
  have key : ∃ z : ℤ, x / (2 : ℚ) ^ (Int.log 2 |x| - 52) = z := by
    have hle : (2 : ℚ) ^ (Int.log 2 |x|) ≤ |x| := by
      have := Int.zpow_log_le_self (b := 2) (r := |x|) (by norm_num) hax0
      exact_mod_cast this
    have hmle : |(m : ℚ)| ≤ 2 ^ 53 := by exact_mod_cast hm
    by_cases hlog : Int.log 2 |x| - 52 ≤ k
    · obtain ⟨n, hn⟩ := Int.le.dest hlog
      refine ⟨m * 2 ^ n, ?_⟩
      have hk2 : (2 : ℚ) ^ k = (2 : ℚ) ^ (Int.log 2 |x| - 52) * 2 ^ n := by
        conv_lhs => rw [← hn]
        rw [zpow_add₀ (by norm_num), zpow_natCast]
      have hne : (2 : ℚ) ^ (Int.log 2 |x| - 52) ≠ 0 := (zpow_pos (by norm_num) _).ne'
      rw [div_eq_iff hne]
      push_cast
      calc x = (m : ℚ) * (2 : ℚ) ^ k := hx
        _ = _ := by rw [hk2]; ring
    · -- then |m| = 2^53 exactly
      have h1 : (2 : ℚ) ^ (k + 53) ≤ (2 : ℚ) ^ (Int.log 2 |x|) :=
        zpow_le_zpow_right₀ (by norm_num) (by omega)
      have h2 : (2 : ℚ) ^ (k + 53) = (2 : ℚ) ^ k * 2 ^ 53 := by
        rw [zpow_add₀ (by norm_num)]; norm_num
      have h3 : |x| ≤ (2 : ℚ) ^ k * 2 ^ 53 := by
        rw [hax, mul_comm]; exact mul_le_mul_of_nonneg_left hmle hpk.le
      have h4 : |x| = (2 : ℚ) ^ k * 2 ^ 53 := le_antisymm h3 (by rw [← h2]; exact h1.trans hle)
      have h5 : (2 : ℚ) ^ (Int.log 2 |x|) = (2 : ℚ) ^ (k + 53) :=
        le_antisymm (by rw [h2, ← h4]; exact hle) h1
      have h6 : (2 : ℚ) ^ (Int.log 2 |x| - 52) = (2 : ℚ) ^ k * 2 := by
        rw [zpow_sub₀ (by norm_num), h5, h2]; norm_num; ring
      have h7 : |(m : ℚ)| = 2 ^ 53 := by
        rw [hax] at h4
        have := mul_right_cancel₀ hpk.ne' (h4.trans (mul_comm _ _))
        exact this
      have h8 : (m : ℚ) = 2 ^ 53 ∨ (m : ℚ) = -2 ^ 53 := by
        rcases abs_choice (m : ℚ) with h | h
        · left; rw [← h, h7]
        · right; rw [← h7, h]; ring
      rcases h8 with h | h
      · refine ⟨2 ^ 52, ?_⟩
        rw [h6, hx, h]; push_cast; field_simp; norm_num
      · refine ⟨-2 ^ 52, ?_⟩
        rw [h6, hx, h]; push_cast; field_simp; norm_num
  obtain ⟨z, hz⟩ := key
  unfold rnd64
  rw [hz, round_intCast, ← hz]
  have hne : (2 : ℚ) ^ (Int.log 2 |x| - 52) ≠ 0 := (zpow_pos (by norm_num) _).ne'
  field_simp

theorem rnd64_int (m : ℤ) (hm : |m| ≤ 2 ^ 53) : rnd64 (m : ℚ) = m := by
  have := rnd64_exact m 0 hm
  simpa using this

theorem rnd64_nonneg {x : ℚ} (h : 0 ≤ x) : 0 ≤ rnd64 x := by
  have := rnd64_rel x
  rw [abs_of_nonneg h, abs_le] at this
  have h2 : x / 2 ^ 53 ≤ x := div_le_self h (by norm_num)
  linarith [this.1]

theorem tronque_int (z : ℤ) : tronque (z : ℚ) = z := by
  unfold tronque; split <;> simp

theorem tronque_of {x : ℚ} {z : ℤ} (h0 : 0 ≤ x) (h1 : (z : ℚ) ≤ x) (h2 : x < z + 1) : tronque x = z := by
  unfold tronque
  rw [if_pos h0]
  exact Int.floor_eq_iff.2 ⟨h1, h2⟩

end Verif
