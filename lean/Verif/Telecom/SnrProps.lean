import Verif.Telecom.Snr
import Mathlib.Analysis.SpecificLimits.Basic
import Mathlib.Tactic.Linarith
import Mathlib.Tactic.Ring
import Mathlib.Data.List.GetD

/-!
# C107: SNR estimation
-/

namespace Verif.Telecom

open Filter Topology

/-! ### Specification -/

/-- Exponentially weighted mean of the powers `|x|^(2k)` of the samples received (the last one has the weight `γ`). -/
noncomputable def puissancePonderee (γ : ℝ) (k : ℕ) (x : List ℂ) : ℝ := ∑ i ∈ Finset.range x.length, γ * (1 - γ) ^ (x.length - 1 - i) * Complex.normSq (x.getD i 0) ^ k

theorem ponderee_ajout (γ : ℝ) (k : ℕ) (x : List ℂ) (v : ℂ) : puissancePonderee γ k (x ++ [v]) = γ * Complex.normSq v ^ k + (1 - γ) * puissancePonderee γ k x := by
  unfold puissancePonderee
  rw [List.length_append, List.length_singleton, Finset.sum_range_succ, Finset.mul_sum, add_comm]
  congr 1
  · simp
  · apply Finset.sum_congr rfl
    intro i hi
    have hi := Finset.mem_range.1 hi
    rw [List.getD_append _ _ _ _ hi, show x.length + 1 - 1 - i = (x.length - 1 - i) + 1 by omega, pow_succ]
    ring

/-- State after a signal. -/
noncomputable def Matzner.apres (γ : ℝ) (x : List ℂ) : Matzner := x.foldl (Matzner.pas γ) Matzner.initial

theorem apres_val (γ : ℝ) (x : List ℂ) : (Matzner.apres γ x).e2 = puissancePonderee γ 1 x ∧ (Matzner.apres γ x).e4 = puissancePonderee γ 2 x := by
  induction x using List.reverseRecOn with
  | nil => simp [Matzner.apres, Matzner.initial, puissancePonderee]
  | append_singleton x v ih =>
    have h : Matzner.apres γ (x ++ [v]) = (Matzner.apres γ x).pas γ v := by simp [Matzner.apres]
    rw [h, ponderee_ajout, ponderee_ajout, ← ih.1, ← ih.2]
    constructor
    · simp [Matzner.pas]
    · simp only [Matzner.pas]; ring

theorem step_val (γ : ℝ) (s : Matzner) (x : List ℂ) : (s.step γ x).1 = x.foldl (Matzner.pas γ) s ∧ (s.step γ x).2.length = x.length ∧
    ∀ i, i < x.length → (s.step γ x).2[i]? = some ((x.take (i + 1)).foldl (Matzner.pas γ) s).estime := by
  induction x generalizing s with
  | nil => simp [Matzner.step]
  | cons v x ih =>
    obtain ⟨h1, h2, h3⟩ := ih (s.pas γ v)
    refine ⟨by simp [Matzner.step, h1], by simp [Matzner.step, h2], fun i hi => ?_⟩
    cases i with
    | zero => simp [Matzner.step]
    | succ i => simpa [Matzner.step] using h3 i (by simpa using hi)

/-- **C107 (cutting).** The estimates do not depend on the cutting of the signal. -/
theorem C107_decoupe (γ : ℝ) (s : Matzner) (a b : List ℂ) : s.step γ (a ++ b) = (((s.step γ a).1.step γ b).1, (s.step γ a).2 ++ ((s.step γ a).1.step γ b).2) := by
  induction a generalizing s with
  | nil => rfl
  | cons x a ih => simp [Matzner.step, ih]

/-- Cauchy-Schwarz for the weights. -/
theorem ponderee_cs (γ : ℝ) (h0 : 0 ≤ γ) (h1 : γ ≤ 1) (x : List ℂ) : 0 ≤ puissancePonderee γ 1 x ∧ puissancePonderee γ 1 x ^ 2 ≤ puissancePonderee γ 2 x := by
  induction x using List.reverseRecOn with
  | nil => simp [puissancePonderee]
  | append_singleton x v ih =>
    rw [ponderee_ajout, ponderee_ajout]
    have hv := Complex.normSq_nonneg v
    obtain ⟨i1, i2⟩ := ih
    generalize Complex.normSq v = p at *
    generalize puissancePonderee γ 1 x = a at *
    generalize puissancePonderee γ 2 x = b at *
    have h2 : 0 ≤ 1 - γ := by linarith
    refine ⟨by positivity, ?_⟩
    have h3 := mul_le_mul_of_nonneg_left i2 h2
    have h4 := mul_nonneg (mul_nonneg h0 h2) (sq_nonneg (p - a))
    have : (γ * p ^ 1 + (1 - γ) * a) ^ 2 = γ * p ^ 2 + (1 - γ) * a ^ 2 - γ * (1 - γ) * (p - a) ^ 2 := by ring
    rw [this]
    linarith

/-- **C107 (estimates).** For every signal and every forgetting factor `0 ≤ γ ≤ 1`, one estimate per sample; when it is a number, the estimated powers of the signal and of the noise are non-negative and
their sum is the (exponentially weighted) mean power of the samples received. It is a number if and only if the weighted mean of `|x|⁴` is at most twice the square of the mean power. -/
theorem C107_puissance (γ : ℝ) (h0 : 0 ≤ γ) (h1 : γ ≤ 1) (x : List ℂ) : (Matzner.initial.step γ x).2.length = x.length ∧
    ∀ i, i < x.length → ∃ r, (Matzner.initial.step γ x).2[i]? = some r ∧ (r.isSome ↔ puissancePonderee γ 2 (x.take (i + 1)) ≤ 2 * puissancePonderee γ 1 (x.take (i + 1)) ^ 2) ∧
      ∀ S N, r = some (S, N) → 0 ≤ S ∧ 0 ≤ N ∧ S + N = puissancePonderee γ 1 (x.take (i + 1)) ∧ S ^ 2 = 2 * puissancePonderee γ 1 (x.take (i + 1)) ^ 2 - puissancePonderee γ 2 (x.take (i + 1)) := by
  obtain ⟨-, h2, h3⟩ := step_val γ Matzner.initial x
  refine ⟨h2, fun i hi => ⟨_, h3 i hi, ?_⟩⟩
  obtain ⟨e2, e4⟩ := apres_val γ (x.take (i + 1))
  obtain ⟨c0, c1⟩ := ponderee_cs γ h0 h1 (x.take (i + 1))
  unfold Matzner.apres at e2 e4
  unfold Matzner.estime
  rw [e2, e4]
  generalize puissancePonderee γ 1 (x.take (i + 1)) = a at *
  generalize puissancePonderee γ 2 (x.take (i + 1)) = b at *
  constructor
  · split_ifs with h
    · simp; nlinarith
    · simp; nlinarith
  · intro S N h
    split_ifs at h with h5
    simp only [Option.some.injEq, Prod.mk.injEq] at h
    obtain ⟨rfl, rfl⟩ := h
    have h6 : 0 ≤ 2 * a * a - b := by linarith
    refine ⟨Real.sqrt_nonneg _, ?_, by ring, by rw [Real.sq_sqrt h6]; ring⟩
    rw [sub_nonneg]
    exact Real.sqrt_le_iff.2 ⟨c0, by nlinarith⟩

theorem ponderee_constante (γ P : ℝ) (k : ℕ) (x : List ℂ) (hx : ∀ v ∈ x, Complex.normSq v = P) : puissancePonderee γ k x = (1 - (1 - γ) ^ x.length) * P ^ k := by
  induction x using List.reverseRecOn with
  | nil => simp [puissancePonderee]
  | append_singleton x v ih =>
    rw [ponderee_ajout, ih (fun u hu => hx u (by simp [hu])), hx v (by simp), List.length_append, List.length_singleton, pow_succ]
    ring

/-- **C107 (constant envelope).** For a signal without noise, of constant power `P > 0` (PSK), the estimates after `n` samples are numbers if and only if `(1 - γ)^n ≤ 1/2`; with `a = 1 - (1 - γ)^n`, the power of the signal is
`P √(a (2a - 1))` and that of the noise `P (a - √(a (2a - 1)))`. -/
theorem C107_constante_partial (γ P : ℝ) (h0 : 0 ≤ γ) (h1 : γ ≤ 1) (hP : 0 < P) (x : List ℂ) (hx : ∀ v ∈ x, Complex.normSq v = P) (i : ℕ) (hi : i < x.length) :
    (Matzner.initial.step γ x).2[i]? = some (if (1 - γ) ^ (i + 1) ≤ 1 / 2 then
      some (P * Real.sqrt ((1 - (1 - γ) ^ (i + 1)) * (1 - 2 * (1 - γ) ^ (i + 1))), P * (1 - (1 - γ) ^ (i + 1)) - P * Real.sqrt ((1 - (1 - γ) ^ (i + 1)) * (1 - 2 * (1 - γ) ^ (i + 1)))) else
        if (1 - γ) ^ (i + 1) = 1 then some (0, 0) else none) := by
  obtain ⟨-, -, h3⟩ := step_val γ Matzner.initial x
  rw [h3 i hi]
  obtain ⟨e2, e4⟩ := apres_val γ (x.take (i + 1))
  unfold Matzner.apres at e2 e4
  have hx' : ∀ v ∈ x.take (i + 1), Complex.normSq v = P := fun v hv => hx v (List.mem_of_mem_take hv)
  rw [ponderee_constante γ P _ _ hx'] at e2 e4
  have hl : (x.take (i + 1)).length = i + 1 := by simp; omega
  rw [hl] at e2 e4
  unfold Matzner.estime
  rw [e2, e4]
  have hq0 : 0 ≤ (1 - γ) ^ (i + 1) := pow_nonneg (by linarith) _
  have hq1 : (1 - γ) ^ (i + 1) ≤ 1 := pow_le_one₀ (by linarith) (by linarith)
  generalize (1 - γ) ^ (i + 1) = q at *
  have hv : 2 * ((1 - q) * P ^ 1) * ((1 - q) * P ^ 1) - (1 - q) * P ^ 2 = P ^ 2 * ((1 - q) * (1 - 2 * q)) := by ring
  rw [hv]
  congr 1
  split_ifs with a b c c
  · exfalso; have := mul_nonneg (by linarith : 0 ≤ 1 - q) (by linarith : 0 ≤ 1 - 2 * q); nlinarith [sq_nonneg P]
  · rw [c] at a; norm_num at a
  · rfl
  · rw [Real.sqrt_mul (sq_nonneg P), Real.sqrt_sq hP.le]; ring_nf
  · rename_i hq; rw [hq]; simp
  · exfalso
    rename_i hq
    have h5 : 0 < 1 - q := lt_of_le_of_ne (by linarith) (fun h => hq (by linarith))
    push Not at c
    have : (1 - q) * (1 - 2 * q) < 0 := mul_neg_of_pos_of_neg h5 (by linarith)
    have : P ^ 2 * ((1 - q) * (1 - 2 * q)) < 0 := mul_neg_of_pos_of_neg (by positivity) this
    linarith

/-- **C107 (convergence).** For a signal of constant power `P`, the estimated power of the signal tends to `P` and that of the noise to 0. -/
theorem C107_convergence (γ P : ℝ) (h0 : 0 < γ) (h1 : γ ≤ 1) (hP : 0 < P) (x : ℕ → ℂ) (hx : ∀ n, Complex.normSq (x n) = P) :
    ∃ S N : ℕ → ℝ, (∀ᶠ n in atTop, ∀ m, n < m → (Matzner.initial.step γ ((List.range m).map x)).2[n]? = some (some (S n, N n))) ∧ Tendsto S atTop (𝓝 P) ∧ Tendsto N atTop (𝓝 0) := by
  have hq : Tendsto (fun n : ℕ => (1 - γ) ^ (n + 1)) atTop (𝓝 0) :=
    (tendsto_pow_atTop_nhds_zero_of_lt_one (by linarith) (by linarith)).comp (tendsto_add_atTop_nat 1)
  have hS : Tendsto (fun n : ℕ => P * Real.sqrt ((1 - (1 - γ) ^ (n + 1)) * (1 - 2 * (1 - γ) ^ (n + 1)))) atTop (𝓝 P) := by
    have := (((tendsto_const_nhds (x := (1 : ℝ))).sub hq).mul ((tendsto_const_nhds (x := (1 : ℝ))).sub (hq.const_mul 2))).sqrt.const_mul P
    simpa using this
  refine ⟨_, fun n => P * (1 - (1 - γ) ^ (n + 1)) - P * Real.sqrt ((1 - (1 - γ) ^ (n + 1)) * (1 - 2 * (1 - γ) ^ (n + 1))), ?_, hS, ?_⟩
  · have hev := hq.eventually (ge_mem_nhds (show (0 : ℝ) < 1 / 2 by norm_num))
    filter_upwards [hev] with n hn m hm
    have h := C107_constante_partial γ P h0.le h1 hP ((List.range m).map x) (by intro v hv; obtain ⟨k, -, rfl⟩ := List.mem_map.1 hv; exact hx k) n (by simpa using hm)
    rw [h, if_pos hn]
  · have := (((tendsto_const_nhds (x := (1 : ℝ))).sub hq).const_mul P).sub hS
    simpa using this

/-- **C107 (first samples).** If `0 < γ < 1/2`, the first estimate of every signal that begins with a non-null sample is not a number. -/
theorem C107_debut_refute (γ : ℝ) (h0 : 0 < γ) (h1 : γ < 1 / 2) (v : ℂ) (hv : v ≠ 0) (x : List ℂ) : (Matzner.initial.step γ (v :: x)).2[0]? = some none := by
  have hp := Complex.normSq_pos.2 hv
  show some (Matzner.estime (Matzner.pas γ Matzner.initial v)) = _
  unfold Matzner.estime
  congr 1
  rw [if_pos]
  show 2 * (γ * Complex.normSq v + (1 - γ) * 0) * (γ * Complex.normSq v + (1 - γ) * 0) - (γ * (Complex.normSq v * Complex.normSq v) + (1 - γ) * 0) < 0
  generalize Complex.normSq v = p at *
  have : 2 * (γ * p + (1 - γ) * 0) * (γ * p + (1 - γ) * 0) - (γ * (p * p) + (1 - γ) * 0) = -(γ * p ^ 2 * (1 - 2 * γ)) := by ring
  rw [this]
  have : 0 < γ * p ^ 2 * (1 - 2 * γ) := mul_pos (by positivity) (by linarith)
  linarith

/-- Non-vacuity: `γ = 1/2`, PSK symbols of unit power. -/
example : (Matzner.initial.step (1 / 2) [1, Complex.I]).2[1]? = some (some (1 * Real.sqrt ((1 - (1 - 1 / 2) ^ 2) * (1 - 2 * (1 - 1 / 2) ^ 2)),
    1 * (1 - (1 - 1 / 2) ^ 2) - 1 * Real.sqrt ((1 - (1 - 1 / 2) ^ 2) * (1 - 2 * (1 - 1 / 2) ^ 2)))) := by
  rw [C107_constante_partial (1 / 2) 1 (by norm_num) (by norm_num) one_pos [1, Complex.I] (by simp) 1 (by norm_num), if_pos (by norm_num)]

end Verif.Telecom
