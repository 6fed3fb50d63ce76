/-
C86 (Gaussian designs) and C87 (zero-phase filtering).
-/
import Verif.Conception.CsProps

namespace Verif.Conception

open Finset Verif.Filtre

/-! ### Gaussian filter -/

/-- Specification: sample `i` of the Gaussian pulse of standard deviation `σ` centred on `(n-1)/2 - dt`. -/
noncomputable def gauss (n : ℕ) (σ dt : ℝ) (i : ℕ) : ℝ := Real.exp (-((i : ℝ) - ((n : ℝ) - 1) / 2 + dt) ^ 2 / (2 * σ * σ))

theorem gauss_brut (n : ℕ) (σ dt : ℝ) :
    ((Util.linspace (-((n : ℝ) - 1) / 2) (((n : ℝ) - 1) / 2) n).map fun v : ℝ => v + dt).map (fun v : ℝ => Real.exp (-v ^ 2 / (2 * σ * σ))) =
      (List.range n).map (gauss n σ dt) := by
  obtain ⟨h1, h2, -⟩ := Util.C33_linspace (-((n : ℝ) - 1) / 2) (((n : ℝ) - 1) / 2) n
  refine List.ext_getElem? fun k => ?_
  simp only [List.getElem?_map]
  by_cases hk : k < n
  · rw [h2 k hk, List.getElem?_range hk]
    simp only [Option.map_some, gauss]
    congr 4
    by_cases hn : n = 1
    · subst hn
      have : k = 0 := by omega
      subst this
      simp
    · have : ((n : ℝ) - 1) ≠ 0 := by
        intro h
        apply hn
        have : (n : ℝ) = 1 := by linarith
        exact_mod_cast this
      rw [show ((n : ℝ) - 1) / 2 - -((n : ℝ) - 1) / 2 = (n : ℝ) - 1 by ring, div_self this]
      ring
  · rw [List.getElem?_eq_none (by omega), List.getElem?_eq_none (by simpa using hk)]
    rfl

theorem gauss_pos (n : ℕ) (σ dt : ℝ) (i : ℕ) : 0 < gauss n σ dt i := Real.exp_pos _

theorem range_getD (f : ℕ → ℝ) (n i : ℕ) (hi : i < n) : ((List.range n).map f).getD i 0 = f i := by
  rw [List.getD_eq_getElem _ _ (by simpa using hi)]
  simp

theorem gauss_somme (n : ℕ) (hn : 0 < n) (σ dt : ℝ) : 0 < ((List.range n).map (gauss n σ dt)).sum := by
  rw [somme_range]
  refine Finset.sum_pos (fun i hi => ?_) ⟨0, by simpa using hn⟩
  simp only [List.length_map, List.length_range, Finset.mem_range] at hi
  rw [range_getD _ _ _ hi]
  exact gauss_pos _ _ _ _

theorem gen_forme (n : ℕ) (hn : 0 < n) (σ dt : ℝ) :
    rifGaussienGen n σ dt = ((List.range n).map (gauss n σ dt)).map fun v : ℝ => v / ((List.range n).map (gauss n σ dt)).sum := by
  unfold rifGaussienGen
  simp only [gauss_brut]
  rw [if_pos (gauss_somme n hn σ dt)]

/-- **C86.** `design_rif_gaussien(n, σ)`: `n` positive coefficients of sum 1, proportional to the samples of a Gaussian of standard deviation `σ`
centred on the middle of the filter, symmetric, growing towards the centre. -/
theorem C86_gaussien (n : ℕ) (hn : 0 < n) (σ : ℝ) (hσ : σ ≠ 0) :
    (rifGaussien n σ).length = n ∧ (rifGaussien n σ).sum = 1 ∧
    (∃ c, 0 < c ∧ ∀ i, i < n → (rifGaussien n σ).getD i 0 = c * Real.exp (-((i : ℝ) - ((n : ℝ) - 1) / 2) ^ 2 / (2 * σ ^ 2))) ∧
    (∀ i, i < n → (rifGaussien n σ).getD (n - 1 - i) 0 = (rifGaussien n σ).getD i 0) ∧
    ∀ i, 2 * (i + 1) < n + 1 → (rifGaussien n σ).getD i 0 < (rifGaussien n σ).getD (i + 1) 0 ∨ 2 * (i + 1) = n := by
  have hs := gauss_somme n hn σ 0
  have hv : ∀ i, i < n → (rifGaussien n σ).getD i 0 =
      (1 / ((List.range n).map (gauss n σ 0)).sum) * Real.exp (-((i : ℝ) - ((n : ℝ) - 1) / 2) ^ 2 / (2 * σ ^ 2)) := by
    intro i hi
    unfold rifGaussien
    rw [gen_forme n hn, map_getD _ (by simp), range_getD _ _ _ hi, gauss, add_zero, show 2 * σ * σ = 2 * σ ^ 2 by ring]
    ring
  refine ⟨by unfold rifGaussien; rw [gen_forme n hn]; simp, ?_, ⟨_, one_div_pos.2 hs, hv⟩, ?_, ?_⟩
  · unfold rifGaussien
    rw [gen_forme n hn, somme_div, div_self hs.ne']
  · intro i hi
    rw [hv i hi, hv _ (by omega)]
    have h2 : ((n - 1 - i : ℕ) : ℝ) = (n : ℝ) - 1 - i := by
      rw [Nat.cast_sub (by omega), Nat.cast_sub (by omega)]
      simp
    rw [h2, show (n : ℝ) - 1 - i - ((n : ℝ) - 1) / 2 = -((i : ℝ) - ((n : ℝ) - 1) / 2) by ring, neg_sq]
  · intro i hi
    by_cases h2 : 2 * (i + 1) = n
    · exact Or.inr h2
    · left
      rw [hv i (by omega), hv (i + 1) (by omega)]
      refine mul_lt_mul_of_pos_left (Real.exp_lt_exp.2 ?_) (one_div_pos.2 hs)
      have hi2 : 2 * ((i : ℝ) + 1) < n := by
        have : 2 * (i + 1) < n := by omega
        exact_mod_cast this
      have hσ2 : 0 < 2 * σ ^ 2 := by positivity
      rw [div_lt_div_iff_of_pos_right hσ2]
      push_cast
      nlinarith

/-! ### Gaussian filter of the GFSK modulation -/

/-- **C86.** `design_rif_gaussien_telecom(n, BT, osf)`: `n` positive coefficients of sum 1, symmetric except (at most) for the `osf - 1` first and last
ones. -/
theorem C86_telecom_partial (n : ℕ) (hn : 0 < n) (BT : ℝ) (osf : ℕ) (ho : 0 < osf) :
    ∃ h, rifGaussienTelecom n BT osf = some h ∧ h.length = n ∧ h.sum = 1 ∧ (∀ i, i < n → 0 < h.getD i 0) ∧
      ∀ i, i < n → osf ≤ i + 1 → i + osf ≤ n → h.getD (n - 1 - i) 0 = h.getD i 0 := by
  set σ := btVersSigma BT * osf with hσ
  set d : ℝ := ((osf : ℝ) - 1) / 2 with hd
  set S := ((List.range n).map (gauss n σ d)).sum with hS
  have hS0 : 0 < S := gauss_somme n hn σ d
  obtain ⟨y, e, l, g⟩ := convolRif_some (List.replicate osf (1 / (osf : ℝ))) (rifGaussienGen n σ d) (by simpa using ho)
  have hl : (rifGaussienGen n σ d).length = n := by rw [gen_forme n hn]; simp
  have hx : ∀ i, i < n → (rifGaussienGen n σ d).getD i 0 = gauss n σ d i / S := by
    intro i hi
    rw [gen_forme n hn, map_getD _ (by simp), range_getD _ _ _ hi]
  have ho' : (0 : ℝ) < osf := by exact_mod_cast ho
  have hy : ∀ i, i < n → y.getD i 0 = ∑ j ∈ range osf, (1 / (osf : ℝ)) * (if j ≤ i then gauss n σ d (i - j) / S else 0) := by
    intro i hi
    rw [g i (by omega)]
    unfold convolution
    rw [List.length_replicate]
    refine Finset.sum_congr rfl fun j hj => ?_
    simp only [Finset.mem_range] at hj
    rw [List.getD_eq_getElem _ _ (by simpa using hj), List.getElem_replicate]
    unfold passe
    split
    · rw [hx _ (by omega)]
    · rfl
  have hypos : ∀ i, i < n → 0 < y.getD i 0 := by
    intro i hi
    rw [hy i hi]
    refine Finset.sum_pos' (fun j _ => ?_) ⟨0, by simpa using ho, ?_⟩
    · split
      · have := gauss_pos n σ d (i - j)
        positivity
      · simp
    · rw [if_pos (Nat.zero_le _)]
      have := gauss_pos n σ d (i - 0)
      positivity
  have hys : 0 < y.sum := by
    rw [somme_range, l, hl]
    exact Finset.sum_pos (fun i hi => hypos i (by simpa using hi)) ⟨0, by simpa using hn⟩
  refine ⟨y.map fun v : ℝ => v / y.sum, ?_, by simp [l, hl], by rw [somme_div, div_self hys.ne'], ?_, ?_⟩
  · unfold rifGaussienTelecom
    simp only [← hσ, ← hd, e, Option.map_some]
  · intro i hi
    rw [map_getD (fun v => v / y.sum) (by simp)]
    exact div_pos (hypos i hi) hys
  · intro i hi h1 h2
    rw [map_getD (fun v => v / y.sum) (by simp), map_getD (fun v => v / y.sum) (by simp)]
    congr 1
    rw [hy i hi, hy _ (by omega), ← Finset.sum_range_reflect]
    refine Finset.sum_congr rfl fun j hj => ?_
    simp only [Finset.mem_range] at hj
    rw [if_pos (by omega), if_pos (by omega)]
    congr 2
    unfold gauss
    congr 3
    have e1 : ((n - 1 - i - (osf - 1 - j) : ℕ) : ℝ) = (n : ℝ) - i - osf + j := by
      have : ((n - 1 - i - (osf - 1 - j) : ℕ) : ℤ) = (n : ℤ) - i - osf + j := by omega
      exact_mod_cast this
    have e2 : ((i - j : ℕ) : ℝ) = (i : ℝ) - j := by
      have : ((i - j : ℕ) : ℤ) = (i : ℤ) - j := by omega
      exact_mod_cast this
    rw [e1, e2, hd]
    ring

/-- **C86, refuted** at the ends: whatever `BT`, with 2 coefficients and a factor 2 the "centred" filter is not symmetric. -/
theorem C86_telecom_refute (BT : ℝ) : ∃ h, rifGaussienTelecom 2 BT 2 = some h ∧ h.getD 0 0 < h.getD 1 0 := by
  obtain ⟨y, e, l, g⟩ := convolRif_some (List.replicate 2 (1 / ((2 : ℕ) : ℝ))) (rifGaussienGen 2 (btVersSigma BT * (2 : ℕ)) ((((2 : ℕ) : ℝ) - 1) / 2))
    (by simp)
  obtain ⟨h, e1, -, hs, hp, -⟩ := C86_telecom_partial 2 (by norm_num) BT 2 (by norm_num)
  have e2 : h = y.map fun v : ℝ => v / y.sum := by
    have : rifGaussienTelecom 2 BT 2 = some (y.map fun v : ℝ => v / y.sum) := by
      unfold rifGaussienTelecom
      simp only [e, Option.map_some]
    rw [this] at e1
    exact (Option.some.inj e1).symm
  refine ⟨h, e1, ?_⟩
  have hl : (rifGaussienGen 2 (btVersSigma BT * (2 : ℕ)) ((((2 : ℕ) : ℝ) - 1) / 2)).length = 2 := by rw [gen_forme 2 (by norm_num)]; simp
  have h0 := hp 0 (by norm_num)
  have y0 := g 0 (by omega)
  have y1 := g 1 (by omega)
  have hx1 : 0 < (rifGaussienGen 2 (btVersSigma BT * (2 : ℕ)) ((((2 : ℕ) : ℝ) - 1) / 2)).getD 1 0 := by
    rw [gen_forme 2 (by norm_num), map_getD _ (by simp), range_getD _ _ _ (by norm_num)]
    exact div_pos (gauss_pos _ _ _ _) (gauss_somme 2 (by norm_num) _ _)
  simp only [convolution, passe, List.length_replicate, Finset.sum_range_succ, Finset.sum_range_zero] at y0 y1
  simp [List.replicate_succ] at y0 y1
  have hlt : y.getD 0 0 < y.getD 1 0 := by
    simp only [List.getD_eq_getElem?_getD] at *
    rw [y0, y1]
    push_cast at hx1
    linarith
  rw [e2, map_getD (fun v => v / y.sum) (by simp)] at h0
  have hys : 0 < y.sum := by
    by_contra hneg
    have hle : y.sum ≤ 0 := not_lt.1 hneg
    have hx0 : 0 < (rifGaussienGen 2 (btVersSigma BT * (2 : ℕ)) ((((2 : ℕ) : ℝ) - 1) / 2)).getD 0 0 := by
      rw [gen_forme 2 (by norm_num), map_getD _ (by simp), range_getD _ _ _ (by norm_num)]
      exact div_pos (gauss_pos _ _ _ _) (gauss_somme 2 (by norm_num) _ _)
    have : 0 < y.getD 0 0 := by
      simp only [List.getD_eq_getElem?_getD] at *
      rw [y0]
      push_cast at hx0
      linarith
    have := div_nonpos_of_nonneg_of_nonpos this.le hle
    linarith
  rw [e2, map_getD (fun v => v / y.sum) (by simp), map_getD (fun v => v / y.sum) (by simp)]
  exact div_lt_div_of_pos_right hlt hys

/-- Specification: Fourier transform at the frequency `f` of the Gaussian pulse of standard deviation `σ`. -/
noncomputable def spectreGauss (σ f : ℝ) : ℂ := ∫ x : ℝ, Complex.exp (-(2 * Real.pi * Complex.I) * f * x) * Complex.exp (-(1 / (2 * σ ^ 2) : ℝ) * (x : ℂ) ^ 2)

/-- **C86.** `BT_vers_sigma`: the Gaussian pulse with this standard deviation (in symbol periods) has lost exactly 3 dB (half the power) at the frequency `BT`
(in multiples of the symbol frequency). -/
theorem C86_bt (BT : ℝ) (h : 0 < BT) : 0 < Complex.normSq (spectreGauss (btVersSigma BT) 0) ∧
    Complex.normSq (spectreGauss (btVersSigma BT) BT) = Complex.normSq (spectreGauss (btVersSigma BT) 0) / 2 := by
  have hpi := Real.pi_pos
  have hlog : 0 < Real.log 2 := Real.log_pos (by norm_num)
  have hσ : 0 < btVersSigma BT := by
    unfold btVersSigma
    have := Real.sqrt_pos.2 hlog
    positivity
  have hσ2 : btVersSigma BT ^ 2 * (4 * BT ^ 2 * Real.pi ^ 2) = Real.log 2 := by
    unfold btVersSigma
    rw [div_pow, Real.sq_sqrt hlog.le]
    field_simp
    ring
  generalize btVersSigma BT = σ at *
  have hb : 0 < (((1 / (2 * σ ^ 2) : ℝ) : ℂ)).re := by
    rw [Complex.ofReal_re]
    positivity
  have hv : ∀ f : ℝ, spectreGauss σ f = (Real.pi / ((1 / (2 * σ ^ 2) : ℝ) : ℂ)) ^ (1 / 2 : ℂ) * ((Real.exp (-(2 * Real.pi * f) ^ 2 * σ ^ 2 / 2) : ℝ) : ℂ) := by
    intro f
    have := fourierIntegral_gaussian hb (-(2 * Real.pi * f : ℝ) : ℂ)
    unfold spectreGauss
    rw [show (∫ x : ℝ, Complex.exp (-(2 * Real.pi * Complex.I) * f * x) * Complex.exp (-(1 / (2 * σ ^ 2) : ℝ) * (x : ℂ) ^ 2)) =
      ∫ x : ℝ, Complex.exp (Complex.I * (-(2 * Real.pi * f : ℝ) : ℂ) * x) * Complex.exp (-(1 / (2 * σ ^ 2) : ℝ) * (x : ℂ) ^ 2) from by
        congr 1
        funext x
        congr 2
        push_cast
        ring, this]
    congr 1
    rw [Complex.ofReal_exp]
    congr 1
    have hσc : (σ : ℂ) ≠ 0 := by exact_mod_cast hσ.ne'
    push_cast
    field_simp
    ring
  have h0 : (Real.pi / ((1 / (2 * σ ^ 2) : ℝ) : ℂ)) ≠ 0 := by
    refine div_ne_zero (by exact_mod_cast hpi.ne') ?_
    exact_mod_cast (show (1 / (2 * σ ^ 2) : ℝ) ≠ 0 by positivity)
  have hc : 0 < Complex.normSq ((Real.pi / ((1 / (2 * σ ^ 2) : ℝ) : ℂ)) ^ (1 / 2 : ℂ)) := by
    rw [Complex.normSq_pos]
    intro hz
    rw [Complex.cpow_eq_zero_iff] at hz
    exact h0 hz.1
  rw [hv, hv, Complex.normSq_mul, Complex.normSq_mul, Complex.normSq_ofReal, Complex.normSq_ofReal]
  constructor
  · have := Real.exp_pos (-(2 * Real.pi * 0) ^ 2 * σ ^ 2 / 2)
    positivity
  · rw [← Real.exp_add, ← Real.exp_add]
    have e1 : -(2 * Real.pi * BT) ^ 2 * σ ^ 2 / 2 + -(2 * Real.pi * BT) ^ 2 * σ ^ 2 / 2 = -Real.log 2 := by
      rw [← hσ2]
      ring
    rw [e1, Real.exp_neg, Real.exp_log (by norm_num)]
    simp
    ring

/-! ### Zero-phase filtering -/

/-- **C87.** `filtfilt(h, x)` succeeds for every non empty FIR filter and every signal: sample `n` is `∑_k h_k u(n+k)` where `u` is `x` filtered by `h`
(and 0 beyond the end). -/
theorem C87_filtfilt (h x : List ℝ) (hh : 0 < h.length) :
    ∃ y, filtfilt h x = some y ∧ y.length = x.length ∧ ∀ n, n < x.length →
      y.getD n 0 = ∑ k ∈ range h.length, h.getD k 0 * if n + k < x.length then convolution h x (n + k) else 0 := by
  obtain ⟨u, e1, l1, g1⟩ := convolRif_some h x hh
  obtain ⟨v, e2, l2, g2⟩ := convolRif_some h u.reverse hh
  rw [List.length_reverse] at l2 g2
  refine ⟨v.reverse, by rw [filtfilt, e1, Option.bind_some, e2, Option.map_some], by rw [List.length_reverse]; omega, fun n hn => ?_⟩
  have hr : ∀ (w : List ℝ) (i : ℕ), i < w.length → w.reverse.getD i 0 = w.getD (w.length - 1 - i) 0 := by
    intro w i hi
    rw [List.getD_eq_getElem _ _ (by simpa using hi), List.getD_eq_getElem _ _ (by omega), List.getElem_reverse]
  rw [hr v n (by omega), g2 _ (by omega)]
  unfold convolution
  refine Finset.sum_congr rfl fun k _ => ?_
  congr 1
  unfold passe
  by_cases hk : n + k < x.length
  · rw [if_pos (by omega), if_pos hk, hr u _ (by omega), show u.length - 1 - (v.length - 1 - n - k) = n + k by omega, g1 _ hk]
    rfl
  · rw [if_neg (by omega), if_neg hk]

theorem normSq_reponse (h : List ℝ) (ν : ℝ) : Complex.normSq (reponse h ν) =
    (∑ k ∈ range h.length, h.getD k 0 * Real.cos (2 * Real.pi * ν * k)) ^ 2 + (∑ k ∈ range h.length, h.getD k 0 * Real.sin (2 * Real.pi * ν * k)) ^ 2 := by
  have e : reponse h ν = ((∑ k ∈ range h.length, h.getD k 0 * Real.cos (2 * Real.pi * ν * k) : ℝ) : ℂ) +
      ((-∑ k ∈ range h.length, h.getD k 0 * Real.sin (2 * Real.pi * ν * k) : ℝ) : ℂ) * Complex.I := by
    unfold reponse
    push_cast
    rw [neg_mul (∑ x ∈ range h.length, ((h.getD x 0 : ℝ) : ℂ) * Complex.sin (2 * Real.pi * ν * x)) Complex.I, Finset.sum_mul, ← sub_eq_add_neg,
      ← Finset.sum_sub_distrib]
    refine Finset.sum_congr rfl fun k _ => ?_
    rw [show -(2 * (Real.pi : ℂ) * Complex.I) * ν * k = (-(2 * Real.pi * ν * k)) * Complex.I by ring, Complex.exp_mul_I, Complex.cos_neg, Complex.sin_neg]
    ring
  rw [e, Complex.normSq_add_mul_I]
  ring

/-- **C87 (zero phase).** Filtering a sinusoid of any frequency, amplitude and phase: away from the ends (at least one filter length) the output is the
input multiplied by the squared gain of the filter, without any phase shift. -/
theorem C87_phase_nulle (h x : List ℝ) (hh : 0 < h.length) (ν A φ : ℝ)
    (hx : ∀ j, j < x.length → x.getD j 0 = A * Real.cos (2 * Real.pi * ν * j + φ)) :
    ∃ y, filtfilt h x = some y ∧ y.length = x.length ∧ ∀ n, h.length ≤ n + 1 → n + h.length ≤ x.length →
      y.getD n 0 = Complex.normSq (reponse h ν) * x.getD n 0 := by
  obtain ⟨y, e, l, g⟩ := C87_filtfilt h x hh
  refine ⟨y, e, l, fun n h1 h2 => ?_⟩
  rw [g n (by omega), normSq_reponse, hx n (by omega)]
  set C := ∑ k ∈ range h.length, h.getD k 0 * Real.cos (2 * Real.pi * ν * k) with hC
  set S := ∑ k ∈ range h.length, h.getD k 0 * Real.sin (2 * Real.pi * ν * k) with hS
  have hu : ∀ k, k < h.length → convolution h x (n + k) =
      A * (Real.cos (2 * Real.pi * ν * (n + k : ℕ) + φ) * C + Real.sin (2 * Real.pi * ν * (n + k : ℕ) + φ) * S) := by
    intro k hk
    unfold convolution
    rw [hC, hS, Finset.mul_sum, Finset.mul_sum, ← Finset.sum_add_distrib, Finset.mul_sum]
    refine Finset.sum_congr rfl fun j hj => ?_
    simp only [Finset.mem_range] at hj
    unfold passe
    rw [if_pos (by omega), hx _ (by omega)]
    have e1 : 2 * Real.pi * ν * ((n + k - j : ℕ) : ℝ) + φ = (2 * Real.pi * ν * (n + k : ℕ) + φ) - 2 * Real.pi * ν * j := by
      rw [Nat.cast_sub (by omega)]
      ring
    rw [e1, Real.cos_sub]
    ring
  have hsum : ∀ k ∈ range h.length, h.getD k 0 * (if n + k < x.length then convolution h x (n + k) else 0) =
      A * ((Real.cos (2 * Real.pi * ν * n + φ) * C + Real.sin (2 * Real.pi * ν * n + φ) * S) * (h.getD k 0 * Real.cos (2 * Real.pi * ν * k)) +
        (Real.cos (2 * Real.pi * ν * n + φ) * S - Real.sin (2 * Real.pi * ν * n + φ) * C) * (h.getD k 0 * Real.sin (2 * Real.pi * ν * k))) := by
    intro k hk
    simp only [Finset.mem_range] at hk
    rw [if_pos (by omega), hu k hk]
    have e1 : 2 * Real.pi * ν * ((n + k : ℕ) : ℝ) + φ = (2 * Real.pi * ν * n + φ) + 2 * Real.pi * ν * k := by
      push_cast
      ring
    rw [e1]
    generalize 2 * Real.pi * ν * (n : ℝ) + φ = θ
    rw [Real.cos_add, Real.sin_add]
    ring
  rw [Finset.sum_congr rfl hsum, ← Finset.mul_sum, Finset.sum_add_distrib, ← Finset.mul_sum, ← Finset.mul_sum, ← hC, ← hS]
  ring

example : ∀ j, j < ([1, 1, 1, 1] : List ℝ).length → ([1, 1, 1, 1] : List ℝ).getD j 0 = 1 * Real.cos (2 * Real.pi * 0 * j + 0) := by
  intro j hj
  simp at hj
  match j, hj with
  | 0, _ => simp
  | 1, _ => simp
  | 2, _ => simp
  | 3, _ => simp

/-- **C87 (impulse).** The answer to an impulse of position `p` (at least one filter length before the end) is symmetric around `p`: no delay. -/
theorem C87_impulsion (h : List ℝ) (hh : 0 < h.length) (N p : ℕ) (hp : p + h.length ≤ N) (a : ℝ) :
    ∃ y, filtfilt h ((List.replicate N 0).set p a) = some y ∧ y.length = N ∧
      ∀ d, d ≤ p → p + d < N → y.getD (p + d) 0 = y.getD (p - d) 0 := by
  set x := (List.replicate N (0 : ℝ)).set p a with hx
  have lx : x.length = N := by simp [hx]
  have vx : ∀ j, j < N → x.getD j 0 = if j = p then a else 0 := by
    intro j hj
    rw [List.getD_eq_getElem _ _ (by omega)]
    simp only [hx, List.getElem_set, List.getElem_replicate, eq_comm]
  obtain ⟨y, e, l, g⟩ := C87_filtfilt h x hh
  refine ⟨y, e, by omega, fun d hd hN => ?_⟩
  have hu : ∀ t, t < N → convolution h x t = if p ≤ t then h.getD (t - p) 0 * a else 0 := by
    intro t ht
    unfold convolution passe
    by_cases hpt : p ≤ t
    · rw [if_pos hpt]
      by_cases htp : t - p < h.length
      · rw [Finset.sum_eq_single_of_mem (t - p) (by simpa using htp)]
        · rw [if_pos (by omega), vx _ (by omega), if_pos (by omega)]
        · intro k hk hne
          simp only [Finset.mem_range] at hk
          split
          · rw [vx _ (by omega), if_neg (by omega), mul_zero]
          · rw [mul_zero]
      · rw [List.getD_eq_default _ _ (by omega), zero_mul]
        refine Finset.sum_eq_zero fun k hk => ?_
        simp only [Finset.mem_range] at hk
        split
        · rw [vx _ (by omega), if_neg (by omega), mul_zero]
        · rw [mul_zero]
    · rw [if_neg hpt]
      refine Finset.sum_eq_zero fun k hk => ?_
      split
      · rw [vx _ (by omega), if_neg (by omega), mul_zero]
      · rw [mul_zero]
  have hz : ∀ j, h.length ≤ j → h.getD j 0 = 0 := fun j hj => List.getD_eq_default _ _ hj
  rw [g _ (by omega), g _ (by omega)]
  have e1 : ∀ k ∈ range h.length, h.getD k 0 * (if p + d + k < x.length then convolution h x (p + d + k) else 0) = h.getD k 0 * h.getD (k + d) 0 * a := by
    intro k _
    split
    · rw [hu _ (by omega), if_pos (by omega), show p + d + k - p = k + d by omega]
      ring
    · rw [hz (k + d) (by omega)]
      ring
  have e2 : ∀ k ∈ range h.length, h.getD k 0 * (if p - d + k < x.length then convolution h x (p - d + k) else 0) =
      if d ≤ k then h.getD k 0 * h.getD (k - d) 0 * a else 0 := by
    intro k hk
    simp only [Finset.mem_range] at hk
    rw [if_pos (by omega), hu _ (by omega)]
    split
    · rw [if_pos (by omega), show p - d + k - p = k - d by omega]
      ring
    · rw [if_neg (by omega), mul_zero]
  rw [Finset.sum_congr rfl e1, Finset.sum_congr rfl e2]
  by_cases hd2 : d ≤ h.length
  · obtain ⟨m, hm⟩ : ∃ m, h.length = d + m := ⟨h.length - d, by omega⟩
    have s1 : ∑ k ∈ range (m + d), h.getD k 0 * h.getD (k + d) 0 * a = ∑ k ∈ range m, h.getD k 0 * h.getD (k + d) 0 * a := by
      rw [Finset.sum_range_add, Finset.sum_eq_zero (s := range d) (fun k _ => by
        rw [hz (m + k + d) (by omega)]
        ring), add_zero]
    have s2 : ∑ k ∈ range (d + m), (if d ≤ k then h.getD k 0 * h.getD (k - d) 0 * a else 0) =
        ∑ k ∈ range m, h.getD k 0 * h.getD (k + d) 0 * a := by
      rw [Finset.sum_range_add, Finset.sum_eq_zero (s := range d) (fun k hk => by
        simp only [Finset.mem_range] at hk
        rw [if_neg (by omega)]), zero_add]
      refine Finset.sum_congr rfl fun k _ => ?_
      rw [if_pos (by omega), show d + k - d = k by omega, show d + k = k + d by omega]
      ring
    rw [hm, s2, show d + m = m + d by omega, s1]
  · rw [Finset.sum_eq_zero fun k hk => ?_, Finset.sum_eq_zero fun k hk => ?_]
    · simp only [Finset.mem_range] at hk
      rw [if_neg (by omega)]
    · rw [hz (k + d) (by omega)]
      ring

end Verif.Conception
