/-
C63 (oscillators), C64 (signal generators), C65 (next power of two), C66 (table oscillator).
-/
import Verif.Signaux.Model
import Verif.Util.Props
import Mathlib.Analysis.Calculus.MeanValue
import Mathlib.Analysis.SpecialFunctions.ExpDeriv
import Mathlib.Analysis.Calculus.Deriv.Pow
import Mathlib.Analysis.SpecialFunctions.Trigonometric.Bounds
import Mathlib.Tactic.LinearCombination
import Mathlib.Tactic.IntervalCases

namespace Verif.Signaux

open Complex

/-! ### Specification: harmonic oscillators -/

/-- The frequency in force when each sample is produced, for a sequence of commands. -/
def frequences : ℝ → List Commande → List ℝ
  | _, [] => []
  | _, .configure f :: l => frequences f l
  | f, .step n :: l => List.replicate n f ++ frequences f l

/-! ### C63 -/

theorem boucle_eq (w : ℂ) (n : ℕ) (a : ℂ) :
    OHC.boucle w n a = (a * w ^ n, (List.range n).map fun i => a * w ^ i) := by
  induction n generalizing a with
  | zero => simp [OHC.boucle]
  | succ n ih =>
    unfold OHC.boucle
    rw [ih]
    refine Prod.ext ?_ ?_
    · simp only; ring
    · simp only [List.range_succ_eq_map, List.map_cons, List.map_map, pow_zero, mul_one]
      congr 1
      apply List.map_congr_left
      intro i _
      simp only [Function.comp, Nat.succ_eq_add_one]; ring

theorem rotation_eq (f : ℝ) : exp (I * (2 * Real.pi * f)) = exp ((2 * Real.pi * f : ℝ) * I) := by
  congr 1; push_cast; ring

theorem joue_eq (l : List Commande) (f φ : ℝ) :
    let s : OHC := ⟨exp ((2 * Real.pi * φ : ℝ) * I), exp (I * (2 * Real.pi * f))⟩
    (s.joue l).length = (frequences f l).length ∧
    ∀ k, k < (frequences f l).length →
      (s.joue l)[k]? = some (exp ((2 * Real.pi * (φ + ((frequences f l).take k).sum) : ℝ) * I)) := by
  induction l generalizing f φ with
  | nil => simp [OHC.joue, frequences]
  | cons c l ih =>
    cases c with
    | configure g =>
      simp only [OHC.joue, frequences, OHC.configure]
      exact ih g φ
    | step n =>
      have hn : ‖exp ((2 * Real.pi * φ : ℝ) * I)‖ = 1 := norm_exp_ofReal_mul_I _
      have hp : ∀ i : ℕ, exp ((2 * Real.pi * φ : ℝ) * I) * exp (I * (2 * Real.pi * f)) ^ i
          = exp ((2 * Real.pi * (φ + i * f) : ℝ) * I) := by
        intro i
        rw [← exp_nat_mul, ← exp_add]
        congr 1; push_cast; ring
      have e1 : (OHC.step ⟨exp ((2 * Real.pi * φ : ℝ) * I), exp (I * (2 * Real.pi * f))⟩ n)
          = (⟨exp ((2 * Real.pi * (φ + n * f) : ℝ) * I), exp (I * (2 * Real.pi * f))⟩,
             (List.range n).map fun i => exp ((2 * Real.pi * (φ + (i : ℕ) * f) : ℝ) * I)) := by
        unfold OHC.step
        simp only [hn, ofReal_one, div_one, boucle_eq, hp]
      obtain ⟨h1, h2⟩ := ih f (φ + n * f)
      simp only [OHC.joue, frequences, e1]
      refine ⟨by rw [List.length_append, List.length_append, h1]; simp, ?_⟩
      intro k hk
      by_cases hkn : k < n
      · rw [List.getElem?_append_left (by simpa using hkn), List.getElem?_map,
          List.getElem?_range hkn, List.take_append_of_le_length (by simp; omega)]
        simp [List.take_replicate, Nat.min_eq_left hkn.le]
      · have hk' : k - n < (frequences f l).length := by simp at hk; omega
        rw [List.getElem?_append_right (by simp; omega)]
        simp only [List.length_map, List.length_range]
        rw [h2 _ hk', List.take_append, List.sum_append]
        simp only [List.length_replicate, List.take_replicate, List.sum_replicate, nsmul_eq_mul]
        rw [Nat.min_eq_right (by omega)]
        congr 4; ring

/-- **C63 (complex oscillator).**  Whatever the sequence of requests (blocks of any sizes) and
frequency changes, sample `k` is `exp(2πi φ_k)` where the phase `φ_k` is the sum of the frequencies in
force at the previous samples: no discontinuity between blocks or at frequency changes, unit modulus. -/
theorem C63_ohc (f : ℝ) (l : List Commande) :
    (sourceOhc f l).length = (frequences f l).length ∧
    ∀ k, k < (frequences f l).length →
      (sourceOhc f l)[k]? = some (exp ((2 * Real.pi * ((frequences f l).take k).sum : ℝ) * I)) := by
  have := joue_eq l f 0
  simpa [sourceOhc, OHC.init, OHC.configure] using this

/-- **C63 (real oscillator).**  The same, for the cosine. -/
theorem C63_ohr (f : ℝ) (l : List Commande) :
    (sourceOhr f l).length = (frequences f l).length ∧
    ∀ k, k < (frequences f l).length →
      (sourceOhr f l)[k]? = some (Real.cos (2 * Real.pi * ((frequences f l).take k).sum)) := by
  obtain ⟨h1, h2⟩ := C63_ohc f l
  refine ⟨by simp [sourceOhr, h1], ?_⟩
  intro k hk
  unfold sourceOhr
  rw [List.getElem?_map, h2 k hk, Option.map_some, exp_ofReal_mul_I_re]

/-- **C63 (blocks do not matter).**  At a constant frequency, any cutting in blocks gives
`exp(2πi f k)`. -/
theorem C63_blocs (f : ℝ) (ns : List ℕ) (k : ℕ) (hk : k < ns.sum) :
    (sourceOhc f (ns.map .step))[k]? = some (exp ((2 * Real.pi * (k * f) : ℝ) * I)) := by
  have h : frequences f (ns.map .step) = List.replicate ns.sum f := by
    clear hk
    induction ns with
    | nil => rfl
    | cons n ns ih => simp [frequences, ih, List.replicate_append_replicate]
  obtain ⟨-, h2⟩ := C63_ohc f (ns.map .step)
  rw [h2 k (by rw [h]; simpa using hk), h]
  simp [List.take_replicate, Nat.min_eq_left hk.le]

/-- Non-vacuity: a frequency change after 2 samples. -/
example : frequences (1 / 8) [.step 1, .step 1, .configure (1 / 4), .step 2]
    = [1 / 8, 1 / 8, 1 / 4, 1 / 4] := by simp [frequences]

/-! ### C64 -/

theorem sigexpInterne_eq (w : ℂ) (j n : ℕ) (r : ℂ) :
    sigexpInterne w j n r
      = (r * w ^ min j n, n - min j n, (List.range (min j n)).map fun i => r * w ^ i) := by
  induction j generalizing n r with
  | zero => simp [sigexpInterne]
  | succ j ih =>
    cases n with
    | zero => simp [sigexpInterne]
    | succ n =>
      unfold sigexpInterne
      rw [ih]
      have hm : min (j + 1) (n + 1) = min j n + 1 := by omega
      rw [hm]
      refine Prod.ext ?_ (Prod.ext ?_ ?_)
      · simp only; ring
      · simp only; omega
      · simp only [List.range_succ_eq_map, List.map_cons, List.map_map, pow_zero, mul_one]
        congr 1
        apply List.map_congr_left
        intro i _
        simp only [Function.comp, Nat.succ_eq_add_one]; ring

theorem sigexpExterne_eq (w : ℂ) (hw : ‖w‖ = 1) (t : ℕ) (n : ℕ) (r : ℂ) (hr : ‖r‖ = 1)
    (ht : n ≤ t) : sigexpExterne w t n r = some ((List.range n).map fun i => r * w ^ i) := by
  induction t generalizing n r with
  | zero => obtain rfl : n = 0 := by omega
            simp [sigexpExterne]
  | succ t ih =>
    cases n with
    | zero => simp [sigexpExterne]
    | succ n =>
      unfold sigexpExterne
      simp only [sigexpInterne_eq]
      have hq : ‖r * w ^ min 1000 (n + 1)‖ = 1 := by simp [hr, hw]
      simp only [hq, ofReal_one, div_one]
      rw [ih _ _ hq (by omega)]
      simp only [Option.some.injEq]
      have hs : n + 1 = min 1000 (n + 1) + (n + 1 - min 1000 (n + 1)) := by omega
      conv_rhs => rw [hs, List.range_add, List.map_append, List.map_map]
      congr 1
      apply List.map_congr_left
      intro i _
      simp only [Function.comp, Nat.succ_eq_add_one]; ring

/-- **C64 (sigexp).**  `y_k = exp(2πi k f)`, for every number of samples (the loop ends). -/
theorem C64_sigexp (f : ℝ) (n : ℕ) :
    sigexp f n = some ((List.range n).map fun k : ℕ => exp ((2 * Real.pi * (k * f) : ℝ) * I)) := by
  unfold sigexp
  rw [sigexpExterne_eq _ (norm_exp_ofReal_mul_I _) n n 1 (by simp) (le_refl _)]
  congr 1
  apply List.map_congr_left
  intro k _
  rw [one_mul, ← exp_nat_mul]
  congr 1; push_cast; ring

/-- **C64 (sigsin, sigcos).** -/
theorem C64_sigsin (f : ℝ) (n : ℕ) :
    sigsin f n = some ((List.range n).map fun k : ℕ => Real.sin (2 * Real.pi * (k * f))) ∧
    sigcos f n = some ((List.range n).map fun k : ℕ => Real.cos (2 * Real.pi * (k * f))) := by
  unfold sigsin sigcos
  rw [C64_sigexp]
  simp only [Option.map_some, List.map_map, Option.some.injEq]
  constructor <;> (apply List.map_congr_left; intro k _; simp only [Function.comp])
  · exact exp_ofReal_mul_I_im _
  · exact exp_ofReal_mul_I_re _

/-- **C64 (sawtooth).**  For a period of at least 2: the signal has `n` samples, is periodic of period
`p`, starts at −1, and rises by a constant step up to 1 at the end of each period. -/
theorem C64_sigscie (p n : ℕ) (hp : 2 ≤ p) :
    ∃ x, sigscie p n = some x ∧ x.length = n ∧
      (∀ q j, j < p → q * p + j < n → x[q * p + j]? = some (-1 + 2 * j / ((p : ℚ) - 1))) := by
  by_cases hn : n = 0
  · subst hn; exact ⟨[], by simp [sigscie], rfl, by simp⟩
  refine ⟨_, by rw [sigscie, if_neg hn, if_neg (by omega)], by simp, ?_⟩
  intro q j hj hk
  rw [List.getElem?_map, List.getElem?_range hk, Option.map_some]
  have hm : (q * p + j) % p = j := by rw [Nat.mul_comm, Nat.mul_add_mod, Nat.mod_eq_of_lt hj]
  rw [hm]
  have h1 : (p : ℚ) - 1 ≠ 0 := by
    have : (2 : ℚ) ≤ p := by exact_mod_cast hp
    intro h; linarith
  congr 1
  field_simp
  ring

/-- **C64 refuted (sawtooth of period 1).**  Division by zero. -/
theorem C64_sigscie_refute (n : ℕ) (hn : n ≠ 0) : sigscie 1 n = none := by simp [sigscie, hn]

/-- **C64 (triangle, even period).**  Periodic of period `p`, rises linearly from −1 to 1 during the
first half, decreases linearly during the second; within [−1, 1]. -/
theorem C64_sigtri_partial (m n : ℕ) (hm : 0 < m) :
    ∃ x, sigtri (2 * m) n = some x ∧ x.length = n ∧
      (∀ q j, j < 2 * m → q * (2 * m) + j < n → x[q * (2 * m) + j]?
        = some (if j ≤ m then -1 + 2 * (j : ℚ) / m else 3 - 2 * (j : ℚ) / m)) ∧
      ∀ v ∈ x, -1 ≤ v ∧ v ≤ 1 := by
  have hmq : (0 : ℚ) < m := by exact_mod_cast hm
  have hun : ∀ q j, j < 2 * m → sigtriUn (2 * m) (q * (2 * m) + j)
      = if j ≤ m then -1 + 2 * (j : ℚ) / m else 3 - 2 * (j : ℚ) / m := by
    intro q j hj
    unfold sigtriUn
    have h1 : (q * (2 * m) + j) % (2 * m) = j := by rw [Nat.mul_comm, Nat.mul_add_mod, Nat.mod_eq_of_lt hj]
    have h2 : 2 * m / 2 = m := by omega
    simp only [h1, h2]
    by_cases h3 : j < m
    · rw [if_pos h3, if_pos h3.le]; push_cast; field_simp; ring
    · rw [if_neg h3]
      by_cases h4 : j = m
      · subst h4; rw [if_pos (le_refl _)]; push_cast; field_simp; ring
      · rw [if_neg (by omega)]; push_cast; field_simp; ring
  have hb : ∀ i, -1 ≤ sigtriUn (2 * m) i ∧ sigtriUn (2 * m) i ≤ 1 := by
    intro i
    have hlt : i % (2 * m) < 2 * m := Nat.mod_lt _ (by omega)
    have := hun (i / (2 * m)) (i % (2 * m)) hlt
    rw [Nat.div_add_mod'] at this
    rw [this]
    split
    · rename_i h
      have h5 : ((i % (2 * m) : ℕ) : ℚ) ≤ m := by exact_mod_cast h
      have h6 : (0 : ℚ) ≤ ((i % (2 * m) : ℕ) : ℚ) := Nat.cast_nonneg _
      have h7 : 2 * ((i % (2 * m) : ℕ) : ℚ) / m ≤ 2 := by rw [div_le_iff₀ hmq]; linarith
      have h8 : 0 ≤ 2 * ((i % (2 * m) : ℕ) : ℚ) / m := by positivity
      constructor <;> linarith
    · rename_i h
      have h5 : (m : ℚ) ≤ ((i % (2 * m) : ℕ) : ℚ) := by exact_mod_cast (by omega)
      have h6 : ((i % (2 * m) : ℕ) : ℚ) ≤ 2 * m := by exact_mod_cast hlt.le
      have h7 : 2 * ((i % (2 * m) : ℕ) : ℚ) / m ≤ 4 := by rw [div_le_iff₀ hmq]; linarith
      have h8 : 2 ≤ 2 * ((i % (2 * m) : ℕ) : ℚ) / m := by rw [le_div_iff₀ hmq]; linarith
      constructor <;> linarith
  by_cases hn : n = 0
  · subst hn; exact ⟨[], by simp [sigtri], rfl, by simp, by simp⟩
  refine ⟨_, by rw [sigtri, if_neg hn, if_neg (by omega)], by simp, ?_, ?_⟩
  · intro q j hj hk
    rw [List.getElem?_map, List.getElem?_range hk, Option.map_some, hun q j hj]
  · intro v hv
    obtain ⟨i, -, rfl⟩ := List.mem_map.1 hv
    exact hb i

/-- **C64 refuted (triangle, odd period).**  For every odd period above 1, the signal exceeds 1. -/
theorem C64_sigtri_refute (m : ℕ) (hm : 0 < m) : 1 < sigtriUn (2 * m + 1) m := by
  unfold sigtriUn
  have h1 : m % (2 * m + 1) = m := Nat.mod_eq_of_lt (by omega)
  have h2 : (2 * m + 1) / 2 = m := by omega
  simp only [h1, h2, lt_irrefl, if_false]
  have hmq : (0 : ℚ) < m := by exact_mod_cast hm
  push_cast
  rw [mul_div_assoc', lt_div_iff₀ (by positivity)]
  linarith

/-- **C64 (square wave, even period).**  Periodic of period `p`: −1 during the first half, 1 during
the second. -/
theorem C64_sigcar_partial (m n : ℕ) (hm : 0 < m) :
    ∃ x, sigcar (2 * m) n = some x ∧ x.length = n ∧
      ∀ q j, j < 2 * m → q * (2 * m) + j < n → x[q * (2 * m) + j]? = some (if j < m then -1 else 1) := by
  by_cases hn : n = 0
  · subst hn; exact ⟨[], by simp [sigcar], rfl, by simp⟩
  have h2 : 2 * m / 2 = m := by omega
  refine ⟨_, by rw [sigcar, if_neg hn, if_neg (by omega)], by simp, ?_⟩
  intro q j hj hk
  rw [List.getElem?_map, List.getElem?_range hk, Option.map_some, h2]
  have e : (q * (2 * m) + j) / m = 2 * q + j / m := by
    rw [show q * (2 * m) + j = j + (2 * q) * m by ring, Nat.add_mul_div_right _ _ hm]; ring
  rw [e]
  by_cases h : j < m
  · rw [if_pos h, Nat.div_eq_of_lt h, Nat.add_zero, Nat.mul_mod_right]; norm_num
  · have : j / m = 1 := by
      rw [Nat.div_eq_iff hm]; omega
    rw [if_neg h, this, show (2 * q + 1) % 2 = 1 by omega]; norm_num

/-- **C64 refuted (square wave, odd period).**  With an odd period `p = 2m+1` the signal is of period
`p - 1`: its samples 0 and `p - 1` are equal, and it changes sign between 0 and `m`; sample `p + m - 1`
should be (period `p`) that of index `m - 1`, but has the opposite sign. A period of 1 divides by zero. -/
theorem C64_sigcar_refute (m : ℕ) (hm : 0 < m) :
    (∃ x, sigcar (2 * m + 1) (3 * m + 1) = some x ∧ x[m - 1]? = some (-1) ∧
      x[(m - 1) + (2 * m + 1)]? = some 1) ∧ sigcar 1 1 = none := by
  refine ⟨⟨_, by rw [sigcar, if_neg (by omega), if_neg (by omega)], ?_, ?_⟩, by decide⟩
  · rw [List.getElem?_map, List.getElem?_range (by omega), Option.map_some,
      show (2 * m + 1) / 2 = m by omega, Nat.div_eq_of_lt (by omega)]
    norm_num
  · rw [List.getElem?_map, List.getElem?_range (by omega), Option.map_some,
      show (2 * m + 1) / 2 = m by omega]
    have : (m - 1 + (2 * m + 1)) / m = 3 := by
      rw [show m - 1 + (2 * m + 1) = 3 * m by omega, Nat.mul_div_cancel _ hm]
    rw [this]; norm_num

/-- **C64 (impulse).**  1 at the given position and 0 elsewhere; any other position is refused. -/
theorem C64_sigimp (n : ℕ) (p : ℤ) :
    (0 ≤ p ∧ p < n → ∃ x, sigimp n p = some x ∧ x.length = n ∧
      ∀ k : ℕ, k < n → x[k]? = some (if (k : ℤ) = p then 1 else 0)) ∧
    (¬ (0 ≤ p ∧ p < n) → sigimp n p = none) := by
  refine ⟨fun h => ⟨_, by rw [sigimp, if_pos h], by simp, ?_⟩, fun h => by rw [sigimp, if_neg h]⟩
  intro k hk
  rw [List.getElem?_set]
  by_cases hc : p.toNat = k
  · rw [if_pos hc, if_pos (by simp; omega), if_pos (by omega)]
  · rw [if_neg hc, if_neg (by omega)]; simp [hk]

/-- **C64 (Nyquist signal).**  −1, 1, −1, 1… -/
theorem C64_signyquist (n : ℕ) : (signyquist n).length = n ∧
    ∀ k, k < n → (signyquist n)[k]? = some ((-1) ^ (k + 1)) := by
  induction n using Nat.strong_induction_on with
  | _ n ih =>
    match n with
    | 0 => simp [signyquist]
    | 1 => simp [signyquist]
    | n + 2 =>
      obtain ⟨h1, h2⟩ := ih n (by omega)
      refine ⟨by simp [signyquist, h1], ?_⟩
      intro k hk
      match k with
      | 0 => simp [signyquist]
      | 1 => simp [signyquist]
      | k + 2 =>
        simp only [signyquist, List.getElem?_cons_succ]
        rw [h2 k (by omega)]; congr 1; ring

theorem cumsum_get (f : List ℝ) (k : ℕ) (hk : k < f.length) :
    (Util.cumsum 0 (· + ·) f)[k]? = some ((f.take (k + 1)).sum) := by
  have key : ∀ (f : List ℝ) (a : ℝ) (k : ℕ), k < f.length →
      (Util.cumsumDe (· + ·) a f)[k]? = some (a + (f.take (k + 1)).sum) := by
    intro f
    induction f with
    | nil => intro a k hk; simp at hk
    | cons x f ih =>
      intro a k hk
      cases k with
      | zero => simp [Util.cumsumDe]
      | succ k =>
        simp only [Util.cumsumDe, List.getElem?_cons_succ]
        rw [ih (a + x) k (by simpa using hk)]
        simp [add_assoc]
  have := key f 0 k hk
  rwa [zero_add] at this

/-- **C64 (chirp).**  `x_k = cos(2π Σ_{i ≤ k} f_i)`, with `f_i` going linearly or quadratically from
`f0` to `f1`; any other mode is refused. -/
theorem C64_sigchirp (f0 f1 : ℝ) (n k : ℕ) (hk : k < n) :
    (∃ x, sigchirp f0 f1 n 'l' = some x ∧ x.length = n ∧ x[k]? = some (Real.cos (2 * Real.pi *
      ∑ i ∈ Finset.range (k + 1), (f0 + (f1 - f0) * (i / ((n : ℝ) - 1)))))) ∧
    (∃ x, sigchirp f0 f1 n 'q' = some x ∧ x.length = n ∧ x[k]? = some (Real.cos (2 * Real.pi *
      ∑ i ∈ Finset.range (k + 1), (f0 + (f1 - f0) * (i / ((n : ℝ) - 1)) ^ 2)))) ∧
    ∀ mode, mode ≠ 'l' → mode ≠ 'q' → sigchirp f0 f1 n mode = none := by
  have hcl : ∀ f : List ℝ, (Util.cumsum 0 (· + ·) f).length = f.length := by
    intro f
    have : ∀ (f : List ℝ) a, (Util.cumsumDe (· + ·) a f).length = f.length := by
      intro f; induction f with
      | nil => intro a; rfl
      | cons x f ih => intro a; simp [Util.cumsumDe, ih]
    exact this f 0
  have hsum : ∀ (f : List ℝ) (g : ℕ → ℝ), f.length = n → (∀ i, i < n → f[i]? = some (g i)) →
      (f.take (k + 1)).sum = ∑ i ∈ Finset.range (k + 1), g i := by
    intro f g hf hg
    have : f.take (k + 1) = (List.range (k + 1)).map g := by
      apply List.ext_getElem?
      intro i
      by_cases hi : i < k + 1
      · rw [List.getElem?_take_of_lt hi, hg i (by omega), List.getElem?_map,
          List.getElem?_range hi, Option.map_some]
      · rw [List.getElem?_eq_none (by simp; omega), List.getElem?_eq_none (by simp; omega)]
    rw [this]
    clear this hk
    induction k with
    | zero => simp
    | succ k ih => rw [List.range_succ, List.map_append, List.sum_append, ih, Finset.sum_range_succ _ (k + 1)]; simp
  obtain ⟨hl1, hl2, -⟩ := Util.C33_linspace f0 f1 n
  obtain ⟨hq1, hq2, -⟩ := Util.C33_linspace (0 : ℝ) 1 n
  refine ⟨⟨_, rfl, by simp [hcl, hl1], ?_⟩, ⟨_, rfl, by simp [hcl, hq1], ?_⟩, ?_⟩
  · rw [List.getElem?_map, cumsum_get _ _ (by rw [hl1]; exact hk), Option.map_some,
      hsum _ (fun i => f0 + (f1 - f0) * (i / ((n : ℝ) - 1))) hl1 (fun i hi => by rw [hl2 i hi]; congr 1; ring)]
  · rw [List.getElem?_map, cumsum_get _ _ (by simp [hq1]; exact hk), Option.map_some,
      hsum _ (fun i => f0 + (f1 - f0) * (i / ((n : ℝ) - 1)) ^ 2) (by simp [hq1])
        (fun i hi => by rw [List.getElem?_map, hq2 i hi, Option.map_some]; congr 1; ring)]
  · intro mode h1 h2
    simp [sigchirp, freqChirp, h1, h2]

theorem tempsGauss_get (n k : ℕ) (hk : k < n) :
    (tempsGauss n)[k]? = some (((k : ℝ) - n / 2) / (n / 2)) := by
  obtain ⟨-, h2, -⟩ := Util.C33_linspace (0 : ℝ) ((n : ℝ) - 1) n
  unfold tempsGauss
  rw [List.getElem?_map, h2 k hk, Option.map_some]
  congr 3
  by_cases h1 : (n : ℝ) - 1 = 0
  · have : n = 1 := by
      have : (n : ℝ) = 1 := by linarith
      exact_mod_cast this
    obtain rfl : k = 0 := by omega
    simp
  · field_simp; ring

/-- **C64 (Gaussian pulse and Gaussian-windowed sine).** -/
theorem C64_siggauss (f : ℝ) (n : ℕ) (a : ℝ) :
    (siggauss n a).length = n ∧
    (∀ k, k < n → (siggauss n a)[k]? = some (Real.exp (-a * (((k : ℝ) - n / 2) / (n / 2)) ^ 2))) ∧
    ∃ y, siggsin f n a = some y ∧ y.length = n ∧ ∀ k, k < n → y[k]?
      = some (Real.exp (-a * (((k : ℝ) - n / 2) / (n / 2)) ^ 2) * Real.sin (2 * Real.pi * (f * k))) := by
  have hl : (tempsGauss n).length = n := by simp [tempsGauss, (Util.C33_linspace (0 : ℝ) ((n : ℝ) - 1) n).1]
  refine ⟨by simp [siggauss, hl], ?_, ?_⟩
  · intro k hk
    unfold siggauss
    rw [List.getElem?_map, tempsGauss_get n k hk, Option.map_some]
    congr 2; ring
  · unfold siggsin
    rw [(C64_sigsin f n).1]
    refine ⟨_, rfl, by simp [hl], ?_⟩
    intro k hk
    rw [List.getElem?_zipWith, tempsGauss_get n k hk, List.getElem?_map, List.getElem?_range hk]
    simp only [Option.map_some]
    congr 1
    rw [mul_comm, show (k : ℝ) * f = f * k by ring]
    congr 2; ring

/-- Non-vacuity: the periodic signals on a few periods. -/
example : sigcar 4 6 = some [-1, -1, 1, 1, -1, -1] ∧ sigtri 4 5 = some [-1, 0, 1, 0, -1] ∧
    sigscie 3 4 = some [-1, 0, 1, -1] := by decide +kernel

/-! ### C65 -/

/-- Least power of two above `i` (specification). -/
def EstProchainePuissance (i y : ℕ) : Prop :=
  (∃ k, y = 2 ^ k) ∧ i ≤ y ∧ ∀ k, i ≤ 2 ^ k → y ≤ 2 ^ k

/-- **C65 (next power of two, exact arithmetic).** -/
theorem C65_exact (i : ℕ) (hi : 0 < i) : EstProchainePuissance i (prochainePuissanceDe2 i) := by
  have hl2 : 0 < Real.log 2 := Real.log_pos (by norm_num)
  have hi' : (0 : ℝ) < i := by exact_mod_cast hi
  refine ⟨⟨_, rfl⟩, ?_, ?_⟩
  · unfold prochainePuissanceDe2
    have h := Nat.le_ceil (Real.log i / Real.log 2)
    rw [div_le_iff₀ hl2, ← Real.log_pow] at h
    have := (Real.log_le_log_iff hi' (by positivity)).1 h
    exact_mod_cast this
  · intro k hk
    unfold prochainePuissanceDe2
    apply Nat.pow_le_pow_right (by norm_num)
    rw [Nat.ceil_le, div_le_iff₀ hl2, ← Real.log_pow]
    apply Real.log_le_log hi'
    exact_mod_cast hk

/-- Non-vacuity: the next power of two of 3 is 4. -/
example : prochainePuissanceDe2 3 = 4 := by
  obtain ⟨⟨k, hk⟩, h1, h2⟩ := C65_exact 3 (by norm_num)
  have := h2 2 (by norm_num)
  rw [hk] at h1 this ⊢
  have hk2 : k ≤ 2 := by
    by_contra h
    have : 2 ^ 3 ≤ 2 ^ k := Nat.pow_le_pow_right (by norm_num) (by omega)
    omega
  interval_cases k <;> omega

/-- **C65 refuted (conversion to `float`).**  Whatever the accuracy of the logarithm, the function is
wrong at 2^24 or at 2^24 + 1, because both convert to the same `float`. -/
theorem C65_float_refute (lg2 : ℕ → ℕ) :
    ¬ (EstProchainePuissance (2 ^ 24) (prochainePuissanceDe2F lg2 (2 ^ 24)) ∧
       EstProchainePuissance (2 ^ 24 + 1) (prochainePuissanceDe2F lg2 (2 ^ 24 + 1))) := by
  rintro ⟨⟨-, -, h1⟩, ⟨-, h2, -⟩⟩
  have e : prochainePuissanceDe2F lg2 (2 ^ 24 + 1) = prochainePuissanceDe2F lg2 (2 ^ 24) := by
    unfold prochainePuissanceDe2F
    have : versFloat (2 ^ 24 + 1) = versFloat (2 ^ 24) := by decide +kernel
    rw [this]
  have := h1 24 (le_refl _)
  omega

/-! ### C66 -/

/-- `|e^{iu} - 1 - iu| ≤ u²/2`. -/
theorem reste_exp (u : ℝ) : ‖exp (u * I) - 1 - u * I‖ ≤ u ^ 2 / 2 := by
  have pos : ∀ v : ℝ, 0 ≤ v → ‖exp (v * I) - 1 - v * I‖ ≤ v ^ 2 / 2 := by
    intro v hv
    have hd : ∀ x : ℝ, HasDerivAt (fun t : ℝ => exp (t * I) - 1 - t * I) (exp (x * I) * I - I) x := by
      intro x
      have h1 : HasDerivAt (fun t : ℝ => (t : ℂ) * I) I x := by
        simpa using (Complex.ofRealCLM.hasDerivAt (x := x)).mul_const I
      exact ((h1.cexp).sub_const 1).sub h1
    have hB : ∀ x : ℝ, HasDerivAt (fun t : ℝ => t ^ 2 / 2) x x := by
      intro x
      have := (hasDerivAt_pow 2 x).div_const 2
      simpa using this
    refine image_norm_le_of_norm_deriv_right_le_deriv_boundary (a := 0) (b := v)
      (fun x _ => (hd x).continuousAt.continuousWithinAt)
      (fun x _ => (hd x).hasDerivWithinAt) (by simp) hB ?_ (Set.right_mem_Icc.2 hv)
    intro x hx
    have e : exp (x * I) * I - I = (exp (I * x) - 1) * I := by rw [mul_comm I]; ring
    rw [e, norm_mul, norm_I, mul_one]
    refine le_trans (Real.norm_exp_I_mul_ofReal_sub_one_le) ?_
    rw [Real.norm_eq_abs, abs_of_nonneg hx.1]
  rcases le_total 0 u with h | h
  · exact pos u h
  · have h2 := pos (-u) (by linarith)
    have e : exp (((-u : ℝ) : ℂ) * I) - 1 - ((-u : ℝ) : ℂ) * I
        = (starRingEnd ℂ) (exp (u * I) - 1 - u * I) := by
      rw [map_sub, map_sub, ← exp_conj, map_mul, conj_I, conj_ofReal, map_one]
      push_cast; ring_nf
    rw [e, norm_conj] at h2
    simpa using h2

/-- Error of the linear interpolation of the complex exponential. -/
theorem interpolation_exp (a δ f : ℝ) (h0 : 0 ≤ f) (h1 : f ≤ 1) :
    ‖exp (a * I) * (1 - f : ℝ) + exp ((a + δ : ℝ) * I) * (f : ℝ) - exp ((a + f * δ : ℝ) * I)‖
      ≤ δ ^ 2 / 8 := by
  have e : exp (a * I) * (1 - f : ℝ) + exp ((a + δ : ℝ) * I) * (f : ℝ) - exp ((a + f * δ : ℝ) * I)
      = exp ((a + f * δ : ℝ) * I) * (((1 - f : ℝ) : ℂ) * (exp ((-(f * δ) : ℝ) * I) - 1 - ((-(f * δ) : ℝ) : ℂ) * I)
        + (f : ℂ) * (exp (((1 - f) * δ : ℝ) * I) - 1 - (((1 - f) * δ : ℝ) : ℂ) * I)) := by
    have e1 : exp (a * I) = exp ((a + f * δ : ℝ) * I) * exp ((-(f * δ) : ℝ) * I) := by
      rw [← exp_add]; congr 1; push_cast; ring
    have e2 : exp ((a + δ : ℝ) * I) = exp ((a + f * δ : ℝ) * I) * exp (((1 - f) * δ : ℝ) * I) := by
      rw [← exp_add]; congr 1; push_cast; ring
    rw [e1, e2]; push_cast; ring
  rw [e, norm_mul, norm_exp_ofReal_mul_I, one_mul]
  refine le_trans (norm_add_le _ _) ?_
  rw [norm_mul, norm_mul, norm_real, norm_real, Real.norm_eq_abs, Real.norm_eq_abs,
    abs_of_nonneg h0, abs_of_nonneg (by linarith : 0 ≤ 1 - f)]
  have g1 := mul_le_mul_of_nonneg_left (reste_exp (-(f * δ))) (by linarith : 0 ≤ 1 - f)
  have g2 := mul_le_mul_of_nonneg_left (reste_exp ((1 - f) * δ)) h0
  nlinarith [mul_nonneg (sq_nonneg δ) (sq_nonneg (1 - 2 * f))]

/-- **C66 (table oscillator).**  For every table size and every angle, `step(θ)` is at distance at most
`π²/(2N²)` of `exp(iθ)` (no assertion fails), with equality at the angles of the table. -/
theorem C66_olut (N : ℕ) (hN : 0 < N) (θ : ℝ) :
    ∃ y, olut N θ = some y ∧ ‖y - exp (θ * I)‖ ≤ Real.pi ^ 2 / (2 * N ^ 2) ∧
      ∀ k : ℤ, θ = 2 * Real.pi * k / N → y = exp (θ * I) := by
  have hpi := Real.pi_pos
  have hNr : (0 : ℝ) < N := by exact_mod_cast hN
  obtain ⟨⟨m0, m1, z, hz⟩, -⟩ := Util.C34_modulo_pi Real.pi θ hpi
  set t := Util.modulo2π id Real.pi θ with ht
  have hexp : exp (θ * I) = exp (t * I) := by
    rw [hz]
    have : ((t + z * (2 * Real.pi) : ℝ) : ℂ) * I = t * I + z * (2 * Real.pi * I) := by
      push_cast; ring
    rw [this, exp_add, exp_int_mul_two_pi_mul_I, mul_one]
  obtain ⟨-, hlin, -⟩ := Util.C33_linspace (0 : ℝ) (2 * Real.pi * (1 - 1 / N)) N
  have htab : ∀ k : ℕ, k < N → (olutTable N)[k]? = some (exp ((2 * Real.pi * k / N : ℝ) * I)) := by
    intro k hk
    unfold olutTable
    rw [List.getElem?_map, hlin k hk, Option.map_some]
    congr 4
    by_cases h1 : (N : ℝ) - 1 = 0
    · have : N = 1 := by
        have : (N : ℝ) = 1 := by linarith
        exact_mod_cast this
      obtain rfl : k = 0 := by omega
      simp
    · field_simp; ring
  set idf := t * N / (2 * Real.pi) with hidf
  have hidf0 : 0 ≤ idf := by positivity
  have hidfN : idf < N := by
    rw [hidf, div_lt_iff₀ (by positivity)]
    have := mul_lt_mul_of_pos_right m1 hNr
    linarith
  have hfl0 : 0 ≤ ⌊idf⌋ := Int.floor_nonneg.2 hidf0
  have hflN : ⌊idf⌋ < N := by
    rw [Int.floor_lt]; exact_mod_cast hidfN
  obtain ⟨n, hn⟩ := Int.eq_ofNat_of_zero_le hfl0
  have hnN : n < N := by omega
  have hf0 : 0 ≤ idf - n := by
    have := Int.floor_le idf; rw [hn] at this; push_cast at this; linarith
  have hf1 : idf - n ≤ 1 := by
    have := (Int.lt_floor_add_one idf).le; rw [hn] at this; push_cast at this; linarith
  have hnext : (olutTable N)[(n + 1) % N]? = some (exp ((2 * Real.pi * n / N + 2 * Real.pi / N : ℝ) * I)) := by
    rw [htab _ (Nat.mod_lt _ hN)]
    congr 1
    rcases Nat.lt_or_ge (n + 1) N with h | h
    · rw [Nat.mod_eq_of_lt h]; congr 2; push_cast; ring
    · have : n + 1 = N := by omega
      rw [this, Nat.mod_self]
      have e : ((2 * Real.pi * n / N + 2 * Real.pi / N : ℝ) : ℂ) * I = 2 * Real.pi * I := by
        have : (2 * Real.pi * n / N + 2 * Real.pi / N : ℝ) = 2 * Real.pi := by
          have h3 : (n : ℝ) = N - 1 := by rw [← this]; push_cast; ring
          rw [h3]; field_simp; ring
        rw [this]; push_cast; ring
      rw [e, exp_two_pi_mul_I]; simp
  have hval : olut N θ = some (exp ((2 * Real.pi * n / N : ℝ) * I) * (1 - (idf - n) : ℝ)
      + exp ((2 * Real.pi * n / N + 2 * Real.pi / N : ℝ) * I) * ((idf - n : ℝ) : ℂ)) := by
    unfold olut
    simp only [← ht, ← hidf, hn]
    rw [if_pos ⟨m0, m1⟩, if_pos ⟨by omega, by omega⟩]
    simp only [Int.toNat_natCast, htab n hnN, hnext, Int.cast_natCast]
  have hang : (2 * Real.pi * n / N + (idf - n) * (2 * Real.pi / N) : ℝ) = t := by
    rw [hidf]; field_simp; ring
  refine ⟨_, hval, ?_, ?_⟩
  · have := interpolation_exp (2 * Real.pi * n / N) (2 * Real.pi / N) (idf - n) hf0 hf1
    rw [hang] at this
    rw [hexp]
    refine le_trans this (le_of_eq ?_)
    field_simp; ring
  · intro k hk
    -- the fractional part is zero
    have h1 : idf = ((k - z * N : ℤ) : ℝ) := by
      have : t = 2 * Real.pi * k / N - z * (2 * Real.pi) := by linarith
      rw [hidf, this]; push_cast; field_simp
    have h2 : idf - n = 0 := by
      have h3 : ⌊idf⌋ = k - z * N := by rw [h1]; exact Int.floor_intCast _
      rw [hn] at h3
      rw [h1, ← h3]; simp
    rw [h2, hexp, ← hang, h2]
    simp

end Verif.Signaux
