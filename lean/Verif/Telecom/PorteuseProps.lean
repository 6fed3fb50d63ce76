/-
C100: phase detectors. C101: loop filters. C102: phase-locked loop.

Specification: the phase error of a sample `A e^{i(2πk/M + φ)}`, the closed loop (`boucleFermee`).
-/
import Verif.Telecom.Porteuse
import Verif.Telecom.FormesProps
import Verif.Conception.Ordre1Props
import Mathlib.Topology.Order.IntermediateValue
import Mathlib.Analysis.Complex.Polynomial.Basic

namespace Verif.Telecom

open Complex

/-- Specification: a sample of amplitude `A`, carrying the datum `k` among `M` phases, with a phase error `φ`. -/
noncomputable def echantillon (M : ℕ) (A : ℝ) (k : ℤ) (φ : ℝ) : ℂ := (A : ℂ) * exp (((2 * Real.pi * k / M + φ : ℝ) : ℂ) * I)

theorem echantillon_puissance (M : ℕ) (hM : 0 < M) (A : ℝ) (k : ℤ) (φ : ℝ) : echantillon M A k φ ^ M = ((A ^ M : ℝ) : ℂ) * exp (((M * φ : ℝ) : ℂ) * I) := by
  have hMr : (M : ℂ) ≠ 0 := by exact_mod_cast hM.ne'
  unfold echantillon
  rw [mul_pow, ← exp_nat_mul]
  have : (M : ℂ) * (((2 * Real.pi * k / M + φ : ℝ) : ℂ) * I) = ((M * φ : ℝ) : ℂ) * I + k * (2 * Real.pi * I) := by
    push_cast
    field_simp
    ring
  rw [this, exp_periodic.int_mul k]
  push_cast
  rfl

/-- **C100 (power loop).** The datum has no effect and the error is `A^M sin(Mφ) / M`, of the sign of `φ` for `|φ| < π/M`. -/
theorem C100_ploop (M : ℕ) (hM : 0 < M) (A : ℝ) (k : ℤ) (φ : ℝ) : pedPloop M (echantillon M A k φ) = A ^ M * Real.sin (M * φ) / M := by
  unfold pedPloop
  rw [echantillon_puissance M hM, im_ofReal_mul, exp_ofReal_mul_I_im]

/-- **C100 (tan loop).** The datum and the amplitude have no effect: the error is exactly `φ`, for `|φ| < π/M`. -/
theorem C100_tloop (M : ℕ) (hM : 0 < M) (A : ℝ) (hA : 0 < A) (k : ℤ) (φ : ℝ) (hφ : |φ| < Real.pi / M) : pedTloop M (echantillon M A k φ) = φ := by
  have hMr : (0 : ℝ) < M := by exact_mod_cast hM
  have h0 : echantillon M A k φ ≠ 0 := mul_ne_zero (by exact_mod_cast hA.ne') (exp_ne_zero _)
  unfold pedTloop
  rw [if_neg h0, echantillon_puissance M hM, arg_real_mul _ (by positivity)]
  have h1 : |M * φ| < Real.pi := by
    rw [abs_mul, abs_of_pos hMr]
    calc (M : ℝ) * |φ| < M * (Real.pi / M) := by gcongr
      _ = Real.pi := by field_simp
  rw [abs_lt] at h1
  rw [arg_exp_mul_I]
  rw [(toIocMod_eq_self _).2 ⟨h1.1, by linarith [h1.2]⟩]
  field_simp

/-- **C100 (Costas, BPSK).** The error is `A² sin(2φ) / 2`, whatever the datum. -/
theorem C100_costa2 (A : ℝ) (k : ℤ) (φ : ℝ) : ∃ p, pedCosta 2 = some p ∧ p (echantillon 2 A k φ) = A ^ 2 * Real.sin (2 * φ) / 2 := by
  refine ⟨fun x => x.re * x.im, rfl, ?_⟩
  have h := C100_ploop 2 (by norm_num) A k φ
  unfold pedPloop at h
  rw [pow_two, mul_im] at h
  push_cast at h
  show (echantillon 2 A k φ).re * (echantillon 2 A k φ).im = _
  linarith

/-- **C100 (Costas, QPSK).** The error is `√2 A sin φ` for `|φ| < π/4`, whatever the datum (the symbols are at the angles `kπ/2`). -/
theorem C100_costa4 (A : ℝ) (hA : 0 < A) (k : ℤ) (φ : ℝ) (hφ : |φ| < Real.pi / 4) :
    ∃ p, pedCosta 4 = some p ∧ p (echantillon 4 A k φ) = Real.sqrt 2 * A * Real.sin φ := by
  refine ⟨_, rfl, ?_⟩
  have hz : echantillon 4 A k φ * exp ((Real.pi / 4 : ℝ) * I) = (A : ℂ) * exp (((Real.pi / 2 * k + (φ + Real.pi / 4) : ℝ) : ℂ) * I) := by
    unfold echantillon
    rw [mul_assoc, ← exp_add]
    congr 2
    push_cast
    ring
  have hpi := Real.pi_pos
  rw [abs_lt] at hφ
  have hc : 0 < Real.cos (φ + Real.pi / 4) := Real.cos_pos_of_mem_Ioo ⟨by linarith, by linarith⟩
  have hs : 0 < Real.sin (φ + Real.pi / 4) := Real.sin_pos_of_pos_of_lt_pi (by linarith) (by linarith)
  have hfin : Real.sin (φ + Real.pi / 4) - Real.cos (φ + Real.pi / 4) = Real.sqrt 2 * Real.sin φ := by
    rw [Real.sin_add, Real.cos_add, Real.sin_pi_div_four, Real.cos_pi_div_four]
    ring
  have hcle : ∀ c s : ℝ, (c = Real.cos (φ + Real.pi / 4) ∧ s = Real.sin (φ + Real.pi / 4)) ∨ (c = -Real.sin (φ + Real.pi / 4) ∧ s = Real.cos (φ + Real.pi / 4)) ∨
      (c = -Real.cos (φ + Real.pi / 4) ∧ s = -Real.sin (φ + Real.pi / 4)) ∨ (c = Real.sin (φ + Real.pi / 4) ∧ s = -Real.cos (φ + Real.pi / 4)) →
      A * s * signe (A * c) - A * c * signe (A * s) = Real.sqrt 2 * A * Real.sin φ := by
    have hpos : ∀ v, 0 < v → signe (A * v) = 1 := fun v hv => by simp [signe, mul_pos hA hv]
    have hneg : ∀ v, 0 < v → signe (A * -v) = -1 := fun v hv => by
      have := mul_pos hA hv
      rw [signe, if_neg (by linarith), if_pos (by linarith)]
    rintro c s (⟨rfl, rfl⟩ | ⟨rfl, rfl⟩ | ⟨rfl, rfl⟩ | ⟨rfl, rfl⟩)
    · rw [hpos _ hc, hpos _ hs]; linear_combination A * hfin
    · rw [hpos _ hc, hneg _ hs]; linear_combination A * hfin
    · rw [hneg _ hc, hneg _ hs]; linear_combination A * hfin
    · rw [hneg _ hc, hpos _ hs]; linear_combination A * hfin
  show ((echantillon 4 A k φ * exp ((Real.pi / 4 : ℝ) * I)).im * signe (echantillon 4 A k φ * exp ((Real.pi / 4 : ℝ) * I)).re -
    (echantillon 4 A k φ * exp ((Real.pi / 4 : ℝ) * I)).re * signe (echantillon 4 A k φ * exp ((Real.pi / 4 : ℝ) * I)).im) = _
  rw [hz, re_ofReal_mul, im_ofReal_mul, exp_ofReal_mul_I_re, exp_ofReal_mul_I_im]
  apply hcle
  generalize φ + Real.pi / 4 = ψ
  obtain ⟨m, hm⟩ : ∃ m : ℤ, k = 4 * m ∨ k = 4 * m + 1 ∨ k = 4 * m + 2 ∨ k = 4 * m + 3 := ⟨k / 4, by omega⟩
  rcases hm with rfl | rfl | rfl | rfl
  · left
    have : Real.pi / 2 * ((4 * m : ℤ) : ℝ) + ψ = ψ + m * (2 * Real.pi) := by push_cast; ring
    rw [this, Real.cos_add_int_mul_two_pi, Real.sin_add_int_mul_two_pi]
    exact ⟨rfl, rfl⟩
  · right; left
    have : Real.pi / 2 * ((4 * m + 1 : ℤ) : ℝ) + ψ = ψ + Real.pi / 2 + m * (2 * Real.pi) := by push_cast; ring
    rw [this, Real.cos_add_int_mul_two_pi, Real.sin_add_int_mul_two_pi, Real.cos_add_pi_div_two, Real.sin_add_pi_div_two]
    exact ⟨rfl, rfl⟩
  · right; right; left
    have : Real.pi / 2 * ((4 * m + 2 : ℤ) : ℝ) + ψ = ψ + Real.pi + m * (2 * Real.pi) := by push_cast; ring
    rw [this, Real.cos_add_int_mul_two_pi, Real.sin_add_int_mul_two_pi, Real.cos_add_pi, Real.sin_add_pi]
    exact ⟨rfl, rfl⟩
  · right; right; right
    have : Real.pi / 2 * ((4 * m + 3 : ℤ) : ℝ) + ψ = ψ - Real.pi / 2 + (m + 1 : ℤ) * (2 * Real.pi) := by push_cast; ring
    rw [this, Real.cos_add_int_mul_two_pi, Real.sin_add_int_mul_two_pi, Real.cos_sub_pi_div_two, Real.sin_sub_pi_div_two]
    exact ⟨rfl, rfl⟩

/-- **C100 (Costas, other orders).** Rejected. -/
theorem C100_costa_rejet (M : ℤ) (h2 : M ≠ 2) (h4 : M ≠ 4) : pedCosta M = none := by simp [pedCosta, h2, h4]

/-- **C100 (decision).** With the PSK waveforms, the error of the decision-directed detector is exactly the difference with the phase of the symbol sent, as long as it is smaller than `π/M`. -/
theorem C100_decision (M : ℕ) (hM : 2 ≤ M) (i : ℕ) (hi : i < M) (A ψ : ℝ) (h0 : 0 < A) (h1 : A ≤ 10 ^ 49) (hψ : |ψ - anglePsk M i| < Real.pi / M) :
    pedDecision (pskConstellation M) (pskPlusProche M) ((A : ℂ) * exp ((ψ : ℂ) * I)) = some (ψ - anglePsk M i) := by
  have hMr : (2 : ℝ) ≤ M := by exact_mod_cast hM
  have hl : i < (pskConstellation M).length := by rw [psk_longueur]; exact hi
  unfold pedDecision
  rw [re_ofReal_mul, im_ofReal_mul, exp_ofReal_mul_I_re, exp_ofReal_mul_I_im, C94_phase M hM i hi A ψ h0 h1 hψ, Option.bind_some, List.getElem?_eq_getElem hl, psk_elt]
  simp only [Option.map_some]
  have hs : cplx (Real.cos (anglePsk M i), Real.sin (anglePsk M i)) = exp ((anglePsk M i : ℂ) * I) := by
    apply Complex.ext
    · rw [exp_ofReal_mul_I_re]; rfl
    · rw [exp_ofReal_mul_I_im]; rfl
  have hc : (A : ℂ) * exp ((ψ : ℂ) * I) * (starRingEnd ℂ) (cplx (Real.cos (anglePsk M i), Real.sin (anglePsk M i))) = (A : ℂ) * exp (((ψ - anglePsk M i : ℝ) : ℂ) * I) := by
    rw [hs, ← exp_conj, map_mul, conj_I, conj_ofReal, mul_assoc, ← exp_add]
    congr 2
    push_cast
    ring
  rw [hc, if_neg (mul_ne_zero (by exact_mod_cast h0.ne') (exp_ne_zero _)), arg_real_mul _ h0, arg_exp_mul_I]
  have h2 : Real.pi / M ≤ Real.pi := div_le_self Real.pi_pos.le (by linarith)
  rw [abs_lt] at hψ
  rw [(toIocMod_eq_self _).2 ⟨by linarith [hψ.1], by linarith [hψ.2]⟩]

/-! ### Loop filters -/

/-- Specification: the loop closed by an ideal phase detector: the error at time `n` is `φ n - θ n`. -/
def boucleFermee (F : Boucle → ℝ → Boucle) (φ : ℕ → ℝ) : ℕ → Boucle
  | 0 => ⟨0, 0, 0⟩
  | n + 1 => F (boucleFermee F φ n) (φ n - (boucleFermee F φ n).θ)

/-- Specification: the phase error at time `n`. -/
def erreur (F : Boucle → ℝ → Boucle) (φ : ℕ → ℝ) (n : ℕ) : ℝ := φ n - (boucleFermee F φ n).θ

/-- **C101 (first order).** Phase ramp `φ₀ + ω n`: the error is exactly `ω/α + (1-α)^n (φ₀ - ω/α)`; so for a constant phase it vanishes geometrically (`0 < α < 2`), and it tends to `ω/α` for
a frequency offset. -/
theorem C101_ordre1 (α φ0 ω : ℝ) (hα : α ≠ 0) (n : ℕ) : erreur (lf1 α) (fun n => φ0 + ω * n) n = ω / α + (1 - α) ^ n * (φ0 - ω / α) := by
  induction n with
  | zero => simp [erreur, boucleFermee]
  | succ n ih =>
    have e : erreur (lf1 α) (fun n => φ0 + ω * n) (n + 1) = (1 - α) * erreur (lf1 α) (fun n => φ0 + ω * n) n + ω := by
      simp only [erreur, boucleFermee, lf1]
      push_cast
      ring
    rw [e, ih, pow_succ]
    field_simp
    ring

/-- The error of the second-order loop. -/
theorem erreur2 (BL η φ0 ω : ℝ) (n : ℕ) :
    let e := erreur (lf2 BL η) (fun n => φ0 + ω * n)
    let γ := gammaLf2 BL η
    let ρ := rhoLf2 BL η
    e 0 = φ0 ∧ e 1 = φ0 + ω ∧ e 2 = φ0 + 2 * ω - γ * (1 + ρ) * φ0 ∧ e (n + 3) - 2 * e (n + 2) + (1 + γ * (1 + ρ)) * e (n + 1) - γ * e n = 0 := by
  intro e γ ρ
  have hμ : ∀ n, e (n + 1) = e n + ω - (boucleFermee (lf2 BL η) (fun n => φ0 + ω * n) n).μ := by
    intro n
    simp only [e, erreur, boucleFermee, lf2]
    push_cast
    ring
  have hd : ∀ n, (boucleFermee (lf2 BL η) (fun n => φ0 + ω * n) (n + 1)).dernier = e n := fun n => rfl
  have hμ2 : ∀ n, (boucleFermee (lf2 BL η) (fun n => φ0 + ω * n) (n + 1)).μ = (boucleFermee (lf2 BL η) (fun n => φ0 + ω * n) n).μ +
      γ * ((1 + ρ) * e n - (boucleFermee (lf2 BL η) (fun n => φ0 + ω * n) n).dernier) := fun n => rfl
  have h0 : e 0 = φ0 := by simp [e, erreur, boucleFermee]
  have hμ0 : (boucleFermee (lf2 BL η) (fun n => φ0 + ω * n) 0).μ = 0 := rfl
  have hd0 : (boucleFermee (lf2 BL η) (fun n => φ0 + ω * n) 0).dernier = 0 := rfl
  have h1 : e 1 = φ0 + ω := by rw [hμ 0, h0, hμ0]; ring
  refine ⟨h0, h1, ?_, ?_⟩
  · rw [hμ 1, h1, hμ2 0, hμ0, hd0, h0]; ring
  · rw [hμ (n + 2), hμ2 (n + 1), hd n]
    have := hμ (n + 1)
    linear_combination (-1) * this

/-- A root of `z² + p z + q` is inside the unit circle. -/
theorem racine_dedans (p q : ℝ) (hq : q < 1) (h1 : 0 < 1 + p + q) (h2 : 0 < 1 - p + q) (z : ℂ) (hz : z ^ 2 + p * z + q = 0) : ‖z‖ < 1 := by
  obtain ⟨x, y⟩ := z
  have hre := congrArg Complex.re hz
  have him := congrArg Complex.im hz
  simp [pow_two] at hre him
  have hn : ‖(⟨x, y⟩ : ℂ)‖ ^ 2 = x ^ 2 + y ^ 2 := by
    rw [← normSq_eq_norm_sq, normSq_apply]
    ring
  have : x ^ 2 + y ^ 2 < 1 := by
    by_cases hy : y = 0
    · subst hy
      simp at hre
      have hx1 : x < 1 := by
        by_contra h
        rw [not_lt] at h
        have : 0 < (x - 1) * (q - x) := by nlinarith
        have hx : 0 < x - 1 := by
          rcases lt_or_eq_of_le h with h' | h'
          · linarith
          · rw [← h'] at this; simp at this
        have : 0 < q - x := by
          by_contra hh
          nlinarith
        linarith
      have hx2 : -1 < x := by
        by_contra h
        rw [not_lt] at h
        have : 0 < (-x - 1) * (q - -x) := by nlinarith
        have hx : 0 < -x - 1 := by
          rcases lt_or_eq_of_le h with h' | h'
          · linarith
          · rw [h'] at this; simp at this
        have : 0 < q - -x := by
          by_contra hh
          nlinarith
        linarith
      nlinarith
    · have hp : p = -2 * x := by
        have : y * (2 * x + p) = 0 := by linarith
        rcases mul_eq_zero.1 this with h | h
        · exact absurd h hy
        · linarith
      subst hp
      nlinarith
  have h3 : ‖(⟨x, y⟩ : ℂ)‖ ^ 2 < 1 := by rw [hn]; exact this
  nlinarith [norm_nonneg (⟨x, y⟩ : ℂ)]

/-- A first-order recursion driven by a geometric sequence. -/
theorem recurrence_geometrique (a : ℂ) (u v : ℕ → ℂ) (c C : ℝ) (ha : ‖a‖ < c) (hv : ∀ n, ‖v n‖ ≤ C * c ^ n) (hu : ∀ n, u (n + 1) = a * u n + v n) :
    ∃ D, ∀ n, ‖u n‖ ≤ D * c ^ n := by
  have hc : 0 < c := lt_of_le_of_lt (norm_nonneg _) ha
  have hca : 0 < c - ‖a‖ := by linarith
  refine ⟨max ‖u 0‖ (C / (c - ‖a‖)), fun n => ?_⟩
  set D := max ‖u 0‖ (C / (c - ‖a‖)) with hD
  have hCD : C ≤ D * (c - ‖a‖) := by
    rw [← div_le_iff₀ hca]
    exact le_max_right _ _
  induction n with
  | zero =>
    rw [pow_zero, mul_one]
    exact le_max_left _ _
  | succ n ih =>
    have hp : 0 < c ^ n := pow_pos hc n
    rw [hu]
    calc ‖a * u n + v n‖ ≤ ‖a‖ * ‖u n‖ + ‖v n‖ := by
          refine (norm_add_le _ _).trans ?_
          rw [norm_mul]
      _ ≤ ‖a‖ * (D * c ^ n) + D * (c - ‖a‖) * c ^ n := by
          have h1 : ‖a‖ * ‖u n‖ ≤ ‖a‖ * (D * c ^ n) := mul_le_mul_of_nonneg_left ih (norm_nonneg _)
          have h2 := (hv n).trans (mul_le_mul_of_nonneg_right hCD hp.le)
          linarith
      _ = D * c ^ (n + 1) := by ring

/-- The characteristic polynomial has a root `r` in `]0, 1[`, and the two others have the product `q = γ/r`, with `q < 1` exactly if `γ + ρ < 1`. -/
theorem cubique (γ ρ : ℝ) (hγ : 0 < γ) (hρ : 0 < ρ) : ∃ r p q : ℝ, 0 < r ∧ r < 1 ∧ p - r = -2 ∧ q - r * p = 1 + γ * (1 + ρ) ∧ r * q = γ ∧
    0 < 1 + p + q ∧ 0 < 1 - p + q ∧ (γ + ρ < 1 → q < 1) ∧ (1 ≤ γ + ρ → 1 ≤ q) := by
  set P : ℝ → ℝ := fun z => z ^ 3 - 2 * z ^ 2 + (1 + γ * (1 + ρ)) * z - γ with hP
  have hcont : Continuous P := by
    rw [hP]
    fun_prop
  have hγρ := mul_pos hγ hρ
  have hP1 : 0 < P 1 := by
    simp only [hP]
    nlinarith
  have hP0 : P 0 < 0 := by
    simp only [hP]
    linarith
  have hPγ : P γ = γ ^ 2 * (γ + ρ - 1) := by
    simp only [hP]
    ring
  have hfin : ∀ r, 0 < r → r < 1 → P r = 0 → (γ + ρ < 1 → γ < r) → (1 ≤ γ + ρ → r ≤ γ) → ∃ r p q : ℝ, 0 < r ∧ r < 1 ∧ p - r = -2 ∧ q - r * p = 1 + γ * (1 + ρ) ∧ r * q = γ ∧
      0 < 1 + p + q ∧ 0 < 1 - p + q ∧ (γ + ρ < 1 → q < 1) ∧ (1 ≤ γ + ρ → 1 ≤ q) := by
    intro r h0 h1 hr hlt hle
    simp only [hP] at hr
    have hq : r * (γ / r) = γ := by field_simp
    have hqr : γ / r - r * (r - 2) = 1 + γ * (1 + ρ) := by
      have : r * (γ / r - r * (r - 2)) = r * (1 + γ * (1 + ρ)) := by
        rw [mul_sub, hq]
        linarith
      exact mul_left_cancel₀ h0.ne' this
    refine ⟨r, r - 2, γ / r, h0, h1, by ring, hqr, hq, ?_, ?_, fun h => ?_, fun h => ?_⟩
    · have hprod : (1 - r) * (1 + (r - 2) + γ / r) = γ * ρ := by linear_combination hqr - hq
      have h1r : 0 < 1 - r := by linarith
      exact (pos_iff_pos_of_mul_pos (by rw [hprod]; exact hγρ)).1 h1r
    · have : 0 < γ / r := div_pos hγ h0
      linarith
    · exact (div_lt_one h0).2 (hlt h)
    · exact (one_le_div h0).2 (hle h)
  by_cases h : γ + ρ < 1
  · have hg1 : γ < 1 := by linarith
    have hPg : P γ < 0 := by
      rw [hPγ]
      exact mul_neg_of_pos_of_neg (by positivity) (by linarith)
    obtain ⟨r, hr, hr0⟩ := intermediate_value_Ioo hg1.le hcont.continuousOn (show (0 : ℝ) ∈ Set.Ioo (P γ) (P 1) from ⟨hPg, hP1⟩)
    exact hfin r (hγ.trans hr.1) hr.2 hr0 (fun _ => hr.1) (fun h' => absurd h' (not_le.2 h))
  · rw [not_lt] at h
    by_cases hg1 : γ < 1
    · have hPg : 0 ≤ P γ := by
        rw [hPγ]
        exact mul_nonneg (by positivity) (by linarith)
      obtain ⟨r, hr, hr0⟩ := intermediate_value_Icc hγ.le hcont.continuousOn (show (0 : ℝ) ∈ Set.Icc (P 0) (P γ) from ⟨hP0.le, hPg⟩)
      have hr1 : 0 < r := by
        rcases lt_or_eq_of_le hr.1 with h' | h'
        · exact h'
        · rw [← h'] at hr0; linarith
      exact hfin r hr1 (lt_of_le_of_lt hr.2 hg1) hr0 (fun h' => absurd h (not_le.2 h')) (fun _ => hr.2)
    · obtain ⟨r, hr, hr0⟩ := intermediate_value_Ioo zero_le_one hcont.continuousOn (show (0 : ℝ) ∈ Set.Ioo (P 0) (P 1) from ⟨hP0, hP1⟩)
      exact hfin r hr.1 hr.2 hr0 (fun h' => absurd h (not_le.2 h')) (fun _ => hr.2.le.trans (not_lt.1 hg1))

theorem gains_lf2 (BL η : ℝ) (hB : 0 < BL) (hη : η ≠ 0) : 0 < gammaLf2 BL η ∧ 0 < rhoLf2 BL η ∧ gammaLf2 BL η + rhoLf2 BL η = 4 * BL := by
  have h2 : 0 < η * η := mul_self_pos.2 hη
  have hd : 0 < 1 + 4 * η * η := by nlinarith
  refine ⟨div_pos (by nlinarith) (by linarith), div_pos (by linarith) hd, ?_⟩
  unfold gammaLf2 rhoLf2
  rw [one_mul, ← add_div, div_eq_iff hd.ne']
  ring

/-- **C101 (second order).** For every damping factor `η ≠ 0` and every bandwidth `BL < 1/4` the second-order loop is stable: whatever the phase and frequency offsets the error vanishes
geometrically. -/
theorem C101_ordre2 (BL η φ0 ω : ℝ) (hB : 0 < BL) (hη : η ≠ 0) (hB4 : BL < 1 / 4) :
    ∃ c C, 0 < c ∧ c < 1 ∧ ∀ n, |erreur (lf2 BL η) (fun n => φ0 + ω * n) n| ≤ C * c ^ n := by
  obtain ⟨hγ, hρ, hs⟩ := gains_lf2 BL η hB hη
  obtain ⟨r, p, q, hr0, hr1, e1, e2, e3, h1, h2, h3, _⟩ := cubique _ _ hγ hρ
  have hq := h3 (by rw [hs]; linarith)
  have hrec := fun n => (erreur2 BL η φ0 ω n).2.2.2
  generalize erreur (lf2 BL η) (fun n => φ0 + ω * n) = e at *
  generalize gammaLf2 BL η = γ at *
  generalize rhoLf2 BL η = ρ at *
  obtain ⟨s, hs2⟩ := IsAlgClosed.exists_pow_nat_eq ((p : ℂ) ^ 2 - 4 * q) (n := 2) (by norm_num)
  set a : ℂ := (-p + s) / 2 with ha
  set b : ℂ := (-p - s) / 2 with hb
  have hsum : a + b = -p := by rw [ha, hb]; ring
  have hprod : a * b = q := by
    rw [ha, hb]
    linear_combination (-1 / 4) * hs2
  have hra : ‖a‖ < 1 := racine_dedans p q hq h1 h2 a (by linear_combination a * hsum - hprod)
  have hrb : ‖b‖ < 1 := racine_dedans p q hq h1 h2 b (by linear_combination b * hsum - hprod)
  obtain ⟨c, hc1, hc2⟩ := exists_between (show max (max ‖a‖ ‖b‖) r < 1 from max_lt (max_lt hra hrb) hr1)
  have hca : ‖a‖ < c := lt_of_le_of_lt ((le_max_left _ _).trans (le_max_left _ _)) hc1
  have hcb : ‖b‖ < c := lt_of_le_of_lt ((le_max_right _ _).trans (le_max_left _ _)) hc1
  have hcr : r < c := lt_of_le_of_lt (le_max_right _ _) hc1
  have hc0 : 0 < c := lt_of_le_of_lt (norm_nonneg _) hca
  have hrecC : ∀ n, ((e (n + 3) : ℝ) : ℂ) - 2 * e (n + 2) + (1 + γ * (1 + ρ)) * e (n + 1) - γ * e n = 0 := by
    intro n
    exact_mod_cast hrec n
  have E1 : (p : ℂ) - r = -2 := by exact_mod_cast e1
  have E2 : (q : ℂ) - r * p = 1 + γ * (1 + ρ) := by exact_mod_cast e2
  have E3 : (r : ℂ) * q = γ := by exact_mod_cast e3
  -- cascade
  let u : ℕ → ℂ := fun n => (e (n + 1) : ℂ) - r * e n
  let v : ℕ → ℂ := fun n => u (n + 1) - a * u n
  have hv : ∀ n, v (n + 1) = b * v n + 0 := by
    intro n
    simp only [v, u]
    linear_combination hrecC n + (e (n + 2) : ℂ) * E1 + (e (n + 1) : ℂ) * E2 - (e n : ℂ) * E3 - (e (n + 2) - r * e (n + 1) : ℂ) * hsum + (e (n + 1) - r * e n : ℂ) * hprod
  obtain ⟨D1, hD1⟩ := recurrence_geometrique b v (fun _ => 0) c 0 hcb (fun n => by simp) hv
  obtain ⟨D2, hD2⟩ := recurrence_geometrique a u v c D1 hca hD1 (fun n => by simp only [v]; ring)
  obtain ⟨D3, hD3⟩ := recurrence_geometrique (r : ℂ) (fun n => (e n : ℂ)) u c D2 (by rw [norm_real, Real.norm_of_nonneg hr0.le]; exact hcr) hD2 (fun n => by simp only [u]; ring)
  refine ⟨c, D3, hc0, hc2, fun n => ?_⟩
  have := hD3 n
  rwa [norm_real, Real.norm_eq_abs] at this

/-- **C101 (second order, limit).** For `BL ≥ 1/4` the loop does not converge: there are a phase and a frequency offset for which the error does not tend to 0. With `C101_ordre2`: the loop
is stable if and only if `BL < 1/4`, whatever `η`. -/
theorem C101_ordre2_limite (BL η : ℝ) (hη : η ≠ 0) (hB4 : 1 / 4 ≤ BL) :
    ∃ φ0 ω, ¬ Filter.Tendsto (erreur (lf2 BL η) (fun n => φ0 + ω * n)) Filter.atTop (nhds 0) := by
  obtain ⟨hγ, hρ, hs⟩ := gains_lf2 BL η (by linarith) hη
  obtain ⟨r, p, q, hr0, hr1, e1, e2, e3, _, _, _, h4⟩ := cubique _ _ hγ hρ
  have hq := h4 (by rw [hs]; linarith)
  have hg := mul_pos hγ hρ
  -- initial condition with u 0 = 0, u 1 = -det
  refine ⟨1, -(1 - r), fun hlim => ?_⟩
  have hrec := fun n => (erreur2 BL η 1 (-(1 - r)) n).2.2.2
  obtain ⟨i0, i1, i2, _⟩ := erreur2 BL η 1 (-(1 - r)) 0
  generalize erreur (lf2 BL η) (fun n => 1 + -(1 - r) * n) = e at *
  generalize gammaLf2 BL η = γ at *
  generalize rhoLf2 BL η = ρ at *
  let u : ℕ → ℝ := fun n => e (n + 1) - r * e n
  let D : ℕ → ℝ := fun n => u (n + 1) ^ 2 - u n * u (n + 2)
  have hu : ∀ n, u (n + 2) = -p * u (n + 1) - q * u n := by
    intro n
    simp only [u]
    linear_combination hrec n + e (n + 2) * e1 + e (n + 1) * e2 - e n * e3
  have hD : ∀ n, D (n + 1) = q * D n := by
    intro n
    simp only [D]
    rw [hu (n + 1), hu n]
    ring
  have hDn : ∀ n, D 0 ≤ D n := by
    have hD0 : ∀ n, 0 ≤ D 0 → 0 ≤ D n ∧ D 0 ≤ D n := by
      intro n h0
      induction n with
      | zero => exact ⟨h0, le_rfl⟩
      | succ n ih =>
        rw [hD]
        exact ⟨mul_nonneg (by linarith) ih.1, ih.2.trans (le_mul_of_one_le_left ih.1 hq)⟩
    intro n
    refine (hD0 n ?_).2
    have : u 0 = 0 := by
      simp only [u]
      rw [i1, i0]
      ring
    simp only [D, this]
    nlinarith [sq_nonneg (u 1)]
  have hu0 : Filter.Tendsto u Filter.atTop (nhds 0) := by
    have h1 := (Filter.tendsto_add_atTop_iff_nat 1).2 hlim
    simpa [u] using h1.sub (hlim.const_mul r)
  have hDl : Filter.Tendsto D Filter.atTop (nhds 0) := by
    have h1 := (Filter.tendsto_add_atTop_iff_nat 1).2 hu0
    have h2 := (Filter.tendsto_add_atTop_iff_nat 2).2 hu0
    simpa [D] using (h1.pow 2).sub (hu0.mul h2)
  have hle : D 0 ≤ 0 := ge_of_tendsto' hDl hDn
  have hD0 : 0 < D 0 := by
    have h0 : u 0 = 0 := by
      simp only [u]
      rw [i1, i0]
      ring
    have h1 : u 1 = -((1 - r) ^ 2 + γ * (1 + ρ)) := by
      simp only [u]
      rw [i1, i2]
      ring
    have hgp : 0 < (1 - r) ^ 2 + γ * (1 + ρ) := by nlinarith [sq_nonneg (1 - r)]
    simp only [D, h0, h1]
    rw [zero_mul, sub_zero, neg_sq]
    positivity
  linarith

/-! ### Phase-locked loop -/

/-- **C102 (cutting).** The loop does not depend on the cutting of the signal. -/
theorem C102_decoupe (c : ConfigPll) (s : Boucle) (a b : List ℂ) :
    pllStep c s (a ++ b) = ((pllStep c (pllStep c s a).1 b).1, (pllStep c s a).2 ++ (pllStep c (pllStep c s a).1 b).2) := by
  induction a generalizing s with
  | nil => rfl
  | cons x a ih => simp [pllStep, ih]

/-- **C102 (modulus).** The loop only turns the samples: one output per sample, of the same modulus. -/
theorem C102_module (c : ConfigPll) (s : Boucle) (x : List ℂ) : ((pllStep c s x).2.map fun y => ‖y‖) = x.map fun v => ‖v‖ := by
  induction x generalizing s with
  | nil => rfl
  | cons v x ih =>
    have h : ‖v * exp (((-s.θ : ℝ) : ℂ) * I)‖ = ‖v‖ := by rw [norm_mul, norm_exp_ofReal_mul_I, mul_one]
    simp only [pllStep, pllPas, List.map_cons, ih, h]

theorem pll_erreur (c : ConfigPll) (hc : c.ordre = 1) (htc : 0 < c.tc) (M : ℕ)
    (hd : ∀ A k ψ, 0 < A → |ψ| < Real.pi / M → c.detecteur (echantillon M A k ψ) = ψ) (x : List (ℝ × ℤ)) (hx : ∀ v ∈ x, 0 < v.1) (φ : ℝ) (s : Boucle) (hs : |φ - s.θ| < Real.pi / M) :
    (pllStep c s (x.map fun v => echantillon M v.1 v.2 φ)).2 = (x.zipIdx).map fun v => echantillon M v.1.1 v.1.2 ((φ - s.θ) * Real.exp (-v.2 / c.tc)) := by
  have hα : Conception.lexpTcVersCoef c.tc = 1 - Real.exp (-1 / c.tc) := Conception.C85_coef.2.2.2.2.1 c.tc htc.ne'
  have hcle : ∀ (x : List (ℝ × ℤ)) (m : ℕ) (s : Boucle) (δ : ℝ), (∀ v ∈ x, 0 < v.1) → |δ| < Real.pi / M → φ - s.θ = δ * Real.exp (-m / c.tc) →
      (pllStep c s (x.map fun v => echantillon M v.1 v.2 φ)).2 = (x.zipIdx m).map fun v => echantillon M v.1.1 v.1.2 (δ * Real.exp (-v.2 / c.tc)) := by
    intro x
    induction x with
    | nil => intros; rfl
    | cons v x ih =>
      intro m s δ hx hδ hs
      have hy : (pllPas c s (echantillon M v.1 v.2 φ)).2 = echantillon M v.1 v.2 (δ * Real.exp (-m / c.tc)) := by
        rw [← hs]
        simp only [pllPas, echantillon]
        rw [mul_assoc, ← exp_add]
        congr 2
        push_cast
        ring
      have he : Real.exp (-m / c.tc) ≤ 1 := by
        rw [Real.exp_le_one_iff]
        exact div_nonpos_of_nonpos_of_nonneg (by simp) htc.le
      have hb : |δ * Real.exp (-m / c.tc)| < Real.pi / M := by
        rw [abs_mul, abs_of_pos (Real.exp_pos _)]
        exact lt_of_le_of_lt (mul_le_of_le_one_right (abs_nonneg _) he) hδ
      have hs' : φ - (pllPas c s (echantillon M v.1 v.2 φ)).1.θ = δ * Real.exp (-(m + 1 : ℕ) / c.tc) := by
        have h1 : (pllPas c s (echantillon M v.1 v.2 φ)).1 = c.filtre s (c.detecteur (pllPas c s (echantillon M v.1 v.2 φ)).2) := rfl
        rw [h1, hy, hd _ _ _ (hx v (by simp)) hb, ConfigPll.filtre, if_pos hc]
        simp only [lf1, hα]
        have : Real.exp (-(m + 1 : ℕ) / c.tc) = Real.exp (-m / c.tc) * Real.exp (-1 / c.tc) := by
          rw [← Real.exp_add]
          congr 1
          push_cast
          ring
        rw [this]
        linear_combination hs
      rw [List.map_cons, List.zipIdx_cons, List.map_cons]
      show (pllPas c s (echantillon M v.1 v.2 φ)).2 :: (pllStep c (pllPas c s (echantillon M v.1 v.2 φ)).1 (x.map fun v => echantillon M v.1 v.2 φ)).2 = _
      rw [hy, ih (m + 1) _ δ (fun w hw => hx w (by simp [hw])) hδ hs']
  exact hcle x 0 s (φ - s.θ) hx hs (by simp)

/-- **C102 (first order, tan loop).** For every sequence of amplitudes and data of an `M`-PSK signal with a constant phase error `|φ| < π/M`, the first-order loop of time constant `tc` leaves
exactly the error `φ e^{-n/tc}` on the sample `n`: the recovery does not depend on the data nor on the amplitudes. -/
theorem C102_psk (M : ℕ) (hM : 0 < M) (tc bp : ℝ) (htc : 0 < tc) (x : List (ℝ × ℤ)) (hx : ∀ v ∈ x, 0 < v.1) (φ : ℝ) (hφ : |φ| < Real.pi / M) :
    (pllStep ⟨some (pedTloop M), 1, tc, bp⟩ ⟨0, 0, 0⟩ (x.map fun v => echantillon M v.1 v.2 φ)).2 =
      (x.zipIdx).map fun v => echantillon M v.1.1 v.1.2 (φ * Real.exp (-v.2 / tc)) := by
  have := pll_erreur ⟨some (pedTloop M), 1, tc, bp⟩ rfl htc M (fun A k ψ hA hψ => C100_tloop M hM A hA k ψ hψ) x hx φ ⟨0, 0, 0⟩ (by simpa using hφ)
  simpa using this

/-- **C102 (first order, default detector).** Same property for a carrier without data (`M = 1`) and the default detector, for `|φ| < π`. -/
theorem C102_defaut (tc bp : ℝ) (htc : 0 < tc) (x : List (ℝ × ℤ)) (hx : ∀ v ∈ x, 0 < v.1) (φ : ℝ) (hφ : |φ| < Real.pi) :
    (pllStep ⟨none, 1, tc, bp⟩ ⟨0, 0, 0⟩ (x.map fun v => echantillon 1 v.1 v.2 φ)).2 = (x.zipIdx).map fun v => echantillon 1 v.1.1 v.1.2 (φ * Real.exp (-v.2 / tc)) := by
  have := pll_erreur ⟨none, 1, tc, bp⟩ rfl htc 1 (fun A k ψ hA hψ => by
    have h := C100_tloop 1 one_pos A hA k ψ hψ
    unfold pedTloop at h
    have h0 : echantillon 1 A k ψ ≠ 0 := mul_ne_zero (by exact_mod_cast hA.ne') (exp_ne_zero _)
    rw [if_neg h0, pow_one] at h
    simpa [ConfigPll.detecteur] using h) x hx φ ⟨0, 0, 0⟩ (by simpa using hφ)
  simpa using this

/-- Non-vacuity of the stability theorem: the default bandwidth, and `η = 1`. -/
example : (0 : ℝ) < 1 / 100 ∧ (1 : ℝ) ≠ 0 ∧ (1 / 100 : ℝ) < 1 / 4 := by norm_num

/-- Non-vacuity: two QPSK samples, `φ = 1/2 < π/4`, `tc = 10`. -/
example : (pllStep ⟨some (pedTloop 4), 1, 10, 0⟩ ⟨0, 0, 0⟩ ([(1, 0), (2, 3)].map fun v : ℝ × ℤ => echantillon 4 v.1 v.2 (1 / 2))).2 =
    [echantillon 4 1 0 (1 / 2), echantillon 4 2 3 (1 / 2 * Real.exp (-1 / 10))] := by
  rw [C102_psk 4 (by norm_num) 10 0 (by norm_num) _ (by simp) (1 / 2) (by
    rw [abs_of_pos (by norm_num)]
    have := Real.pi_gt_three
    push_cast
    linarith)]
  simp

end Verif.Telecom
