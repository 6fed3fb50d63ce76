import Verif.Fourier.DetecteurOlaProps

/-!
# C114 (automatic block size): `Ne = 0` in the configuration of the detector

Exact arithmetic (`log` and `ceil` without rounding).
-/

namespace Verif.Fourier

open Finset

/-- Specification: cost per sample of the correlation with transforms of size `2^k` and a pattern of `M` samples (two FFTs of `5 N log2 N` operations for `N - M + 1` samples). -/
noncomputable def coutOla (M k : ℕ) : ℝ := 10 * (2 : ℝ) ^ k * k / ((2 : ℝ) ^ k - (M : ℝ) + 1)

theorem olaComplexite_val (M k : ℕ) (hM : 0 < M) (hk : M ≤ 2 ^ k) : (olaComplexite M (2 ^ k - (M - 1))).1 = coutOla M k := by
  have e : 2 ^ k - (M - 1) + M - 1 = 2 ^ k := by omega
  have c : ((2 ^ k - (M - 1) : ℕ) : ℝ) = (2 : ℝ) ^ k - (M : ℝ) + 1 := by
    rw [Nat.cast_sub (by omega), Nat.cast_sub hM]; push_cast; ring
  unfold olaComplexite coutOla
  simp only [e, c]
  have hp : trigoC.pp2 (2 ^ k) = 2 ^ k := by
    show 2 ^ Nat.clog 2 (2 ^ k) = 2 ^ k
    rw [Nat.clog_pow _ _ (by norm_num)]
  rw [hp]
  have hl : Real.log ((2 ^ k : ℕ) : ℝ) / Real.log 2 = k := by
    have : Real.log 2 ≠ 0 := (Real.log_pos (by norm_num)).ne'
    push_cast
    rw [Real.log_pow]
    field_simp
  rw [hl]
  push_cast
  ring

/-- The loop keeps the first index of the smallest cost. -/
theorem boucleOla_min (M : ℕ) (hM : 0 < M) (n k k0 : ℕ) (hk0 : k0 ≤ k) (hk : M ≤ 2 ^ k0) (b : Option (ℝ × ℕ))
    (hb : (b = none ∧ k0 = k ∧ 0 < n) ∨ ∃ j, k0 ≤ j ∧ j < k ∧ b = some (coutOla M j, 2 ^ j - (M - 1)) ∧ (∀ i, k0 ≤ i → i < k → coutOla M j ≤ coutOla M i) ∧ ∀ i, k0 ≤ i → i < j → coutOla M j < coutOla M i) :
    ∃ j, k0 ≤ j ∧ j < k + n ∧ boucleOla M n k b = some (coutOla M j, 2 ^ j - (M - 1)) ∧ (∀ i, k0 ≤ i → i < k + n → coutOla M j ≤ coutOla M i) ∧ ∀ i, k0 ≤ i → i < j → coutOla M j < coutOla M i := by
  induction n generalizing k b with
  | zero =>
    rcases hb with ⟨-, -, h⟩ | ⟨j, h1, h2, h3, h4, h5⟩
    · omega
    · exact ⟨j, h1, by omega, by simp [boucleOla, h3], by simpa using h4, h5⟩
  | succ n ih =>
    have hc := olaComplexite_val M k hM (hk.trans (Nat.pow_le_pow_right (by norm_num) hk0))
    have hstep := fun b' => ih (k + 1) (by omega) b'
    have e : k + (n + 1) = k + 1 + n := by ring
    rw [e]
    unfold boucleOla
    simp only [hc]
    apply hstep
    right
    rcases hb with ⟨rfl, rfl, -⟩ | ⟨j, h1, h2, rfl, h4, h5⟩
    · refine ⟨k0, le_rfl, by omega, rfl, ?_, by omega⟩
      intro i h1 h2
      have : i = k0 := by omega
      rw [this]
    · by_cases hlt : coutOla M k < coutOla M j
      · refine ⟨k, hk0, by omega, by simp only [hlt, if_true], ?_, ?_⟩
        · intro i h6 h7
          by_cases hi : i = k
          · rw [hi]
          · exact hlt.le.trans (h4 i h6 (by omega))
        · intro i h6 h7
          exact hlt.trans_le (h4 i h6 h7)
      · refine ⟨j, h1, by omega, by simp only [hlt, if_false], ?_, h5⟩
        intro i h6 h7
        by_cases hi : i = k
        · rw [hi]; exact not_lt.1 hlt
        · exact h4 i h6 (by omega)

/-- Comparison of two successive costs. -/
theorem cout_succ (M j : ℕ) (hM : 0 < M) (hj : M ≤ 2 ^ j) : coutOla M (j + 1) < coutOla M j ↔ (2 : ℝ) ^ (j + 1) < ((j : ℝ) + 2) * ((M : ℝ) - 1) := by
  have h1 : (M : ℝ) ≤ (2 : ℝ) ^ j := by exact_mod_cast hj
  have h2 : (1 : ℝ) ≤ M := by exact_mod_cast hM
  have hp : (0 : ℝ) < 2 ^ j := by positivity
  unfold coutOla
  rw [pow_succ]
  push_cast
  generalize (2 : ℝ) ^ j = P at *
  generalize (M : ℝ) = m at *
  generalize (j : ℝ) = t at *
  rw [div_lt_div_iff₀ (by linarith) (by linarith)]
  have e : 10 * P * t * (P * 2 - m + 1) - 10 * (P * 2) * (t + 1) * (P - m + 1) = 10 * P * ((t + 2) * (m - 1) - P * 2) := by ring
  constructor
  · intro h
    have : 0 < 10 * P * ((t + 2) * (m - 1) - P * 2) := by rw [← e]; linarith
    have := pos_of_mul_pos_right this (by positivity)
    linarith
  · intro h
    have : 0 < 10 * P * ((t + 2) * (m - 1) - P * 2) := by
      have : 0 < (t + 2) * (m - 1) - P * 2 := by linarith
      positivity
    rw [← e] at this
    linarith

/-- **C114 (automatic block size).**  For every non-null pattern of `4` to `2^25` samples, the configuration `Ne = 0` is the configuration with a block size `Ne` such that `Ne + M - 1` is a power of
two `2^k` between `2M` and `32M` (the hypotheses of `C114_score` and `C114_complet` hold), of least cost among the sizes `2^i` that are examined. -/
theorem C114_auto (h : List ℂ) (seuil : ℝ) (h1 : 4 ≤ h.length) (h2 : h.length ≤ 2 ^ 25) :
    ∃ k Ne, DetOla.cree h seuil 0 = DetOla.cree h seuil Ne ∧ Ne + h.length - 1 = 2 ^ k ∧ 0 < Ne ∧ 2 ^ k = 2 ^ Nat.clog 2 (Ne + h.length - 1) ∧ 2 * h.length ≤ 2 ^ k ∧ 2 ^ k ≤ 2 * Ne ∧ 2 ^ k ≤ 2 ^ 29 ∧ 2 ^ k < 32 * h.length ∧
      ∀ i, h.length ≤ 2 ^ i → i ≤ 30 → 2 ^ i < h.length * 2 ^ 19 → coutOla h.length k ≤ coutOla h.length i := by
  set M := h.length with hMdef
  have hc1 : M ≤ 2 ^ Nat.clog 2 M := Nat.le_pow_clog (by norm_num) M
  have hc2 : 2 ^ (Nat.clog 2 M - 1) < M := Nat.pow_pred_clog_lt_self (by norm_num) (by omega)
  have hcp : 0 < Nat.clog 2 M := Nat.clog_pos (by norm_num) (by omega)
  have hc3 : Nat.clog 2 M ≤ 25 := by
    by_contra hcon
    have : 2 ^ 25 ≤ 2 ^ (Nat.clog 2 M - 1) := Nat.pow_le_pow_right (by norm_num) (by omega)
    omega
  have hc4 : 2 ^ Nat.clog 2 M < 2 * M := by
    have : 2 ^ Nat.clog 2 M = 2 * 2 ^ (Nat.clog 2 M - 1) := by
      rw [← pow_succ']; congr 1; omega
    omega
  obtain ⟨k, j1, j2, j3, j4, j5⟩ := boucleOla_min M (by omega) (min 20 (31 - Nat.clog 2 M)) (Nat.clog 2 M) (Nat.clog 2 M) le_rfl hc1 none (Or.inl ⟨rfl, rfl, by omega⟩)
  set c := Nat.clog 2 M with hc
  have hMk : M ≤ 2 ^ k := hc1.trans (Nat.pow_le_pow_right (by norm_num) j1)
  -- not too small
  have hlow : 2 * M ≤ 2 ^ k := by
    by_contra hcon
    push Not at hcon
    have hkc : k = c := by
      by_contra hne
      have : 2 ^ (c + 1) ≤ 2 ^ k := Nat.pow_le_pow_right (by norm_num) (by omega)
      rw [pow_succ] at this
      omega
    have := j4 (k + 1) (by omega) (by omega)
    refine absurd ((cout_succ M k (by omega) hMk).2 ?_) (not_lt.2 this)
    have hk2 : 2 ≤ k := by
      by_contra hcon2
      have : 2 ^ k ≤ 2 ^ 1 := Nat.pow_le_pow_right (by norm_num) (by omega)
      omega
    have key : 2 ^ (k + 1) < (k + 2) * (M - 1) := by
      rw [pow_succ]
      by_cases h3 : k = 2
      · subst h3
        omega
      · have hev : 2 ^ k = 2 * 2 ^ (k - 1) := by rw [← pow_succ']; congr 1; omega
        have : 5 * (M - 1) ≤ (k + 2) * (M - 1) := Nat.mul_le_mul_right _ (by omega)
        omega
    have e : ((M - 1 : ℕ) : ℝ) = (M : ℝ) - 1 := by rw [Nat.cast_sub (by omega)]; simp
    rw [← e]
    exact_mod_cast key
  -- not too large
  have hhigh : k ≤ c + 4 := by
    by_contra hcon
    have hlt := j5 (k - 1) (by omega) (by omega)
    have e1 : k - 1 + 1 = k := by omega
    have hk1 : M ≤ 2 ^ (k - 1) := hc1.trans (Nat.pow_le_pow_right (by norm_num) (by omega))
    have hh := (cout_succ M (k - 1) (by omega) hk1).1 (by rw [e1]; exact hlt)
    rw [e1] at hh
    have e : ((M - 1 : ℕ) : ℝ) = (M : ℝ) - 1 := by rw [Nat.cast_sub (by omega)]; simp
    rw [← e] at hh
    have hh2 : 2 ^ k < (k - 1 + 2) * (M - 1) := by exact_mod_cast hh
    have a1 : (k - 1 + 2) * (M - 1) ≤ 32 * (M - 1) := Nat.mul_le_mul_right _ (by omega)
    have a2 : 2 ^ (c + 5) ≤ 2 ^ k := Nat.pow_le_pow_right (by norm_num) (by omega)
    rw [pow_add] at a2
    omega
  have hup : 2 ^ k ≤ 2 ^ (c + 4) := Nat.pow_le_pow_right (by norm_num) hhigh
  have hup2 : 2 ^ (c + 4) = 16 * 2 ^ c := by rw [pow_add]; ring
  have hsum : 2 ^ k - (M - 1) + M - 1 = 2 ^ k := by omega
  refine ⟨k, 2 ^ k - (M - 1), ?_, hsum, by omega, ?_, hlow, by omega, Nat.pow_le_pow_right (by norm_num) (by omega), by omega, ?_⟩
  · have hne : ¬ 2 ^ k - (M - 1) = 0 := by omega
    unfold DetOla.cree olaOptimise
    simp only [if_true, ← hMdef, ← hc, j3, Option.map_some, Option.bind_some, if_neg hne]
  · rw [hsum, Nat.clog_pow _ _ (by norm_num)]
  · intro i hi1 hi2 hi3
    refine j4 i (Nat.clog_le_of_le_pow hi1) ?_
    have : i < c + 20 := by
      by_contra hcon
      have : 2 ^ (c + 20) ≤ 2 ^ i := Nat.pow_le_pow_right (by norm_num) (by omega)
      rw [pow_add] at this
      omega
    omega

/-- **C114 (refuted: the automatic configuration accepts every pattern).**  A pattern of one or two samples with the automatic block size fails an assertion, whatever the samples. -/
theorem C114_court_refute (h : List ℂ) (seuil : ℝ) (h1 : h.length = 1 ∨ h.length = 2) : DetOla.cree h seuil 0 = none := by
  have hcalc : ∀ M : ℕ, (M = 1 ∨ M = 2) → olaOptimise M = some 1 := by
    intro M hM
    have hc1 : M ≤ 2 ^ Nat.clog 2 M := Nat.le_pow_clog (by norm_num) M
    have hc0 : Nat.clog 2 M = M - 1 := by rcases hM with rfl | rfl <;> decide
    rw [hc0] at hc1
    obtain ⟨k, j1, j2, j3, j4, j5⟩ := boucleOla_min M (by omega) (min 20 (31 - (M - 1))) (M - 1) (M - 1) le_rfl hc1 none (Or.inl ⟨rfl, rfl, by omega⟩)
    have hk : k = M - 1 := by
      by_contra hne
      have hlt := j5 (k - 1) (by omega) (by omega)
      have e1 : k - 1 + 1 = k := by omega
      have hk1 : M ≤ 2 ^ (k - 1) := hc1.trans (Nat.pow_le_pow_right (by norm_num) (by omega))
      have hh := (cout_succ M (k - 1) (by omega) hk1).1 (by rw [e1]; exact hlt)
      rw [e1] at hh
      have e : ((M - 1 : ℕ) : ℝ) = (M : ℝ) - 1 := by rw [Nat.cast_sub (by omega)]; simp
      rw [← e] at hh
      have hh2 : 2 ^ k < (k - 1 + 2) * (M - 1) := by exact_mod_cast hh
      have a1 : (k - 1 + 2) * (M - 1) ≤ (k - 1 + 2) * 1 := Nat.mul_le_mul_left _ (by omega)
      have a2 : k < 2 ^ k := Nat.lt_two_pow_self
      have a3 : k + 1 ≤ 2 ^ k := a2
      omega
    unfold olaOptimise
    rw [hc0, j3, hk]
    rcases hM with rfl | rfl <;> simp
  unfold DetOla.cree
  simp only [if_true, hcalc _ h1, Option.bind_some]
  split
  · rfl
  · rw [if_neg]
    rintro ⟨h3, -⟩
    have hp : trigoC.pp2 (1 + (h.length - 1)) < 2 * h.length := by
      show 2 ^ Nat.clog 2 (1 + (h.length - 1)) < _
      rcases h1 with h1 | h1 <;> rw [h1] <;> decide
    change 2 * h.length ≤ trigoC.pp2 (1 + (h.length - 1)) at h3
    omega

/-- Non-vacuity: a pattern of 5 samples. -/
example : ∃ h : List ℂ, 4 ≤ h.length ∧ h.length ≤ 2 ^ 25 ∧ ∃ v ∈ h, v ≠ 0 := ⟨[1, 1, 1, -1, 1], by norm_num, by norm_num, 1, by simp, one_ne_zero⟩

end Verif.Fourier
