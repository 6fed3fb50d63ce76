/-
C76 (resampling through the DFT), C77 (chirp transform).
-/
import Verif.Fourier.ReechFreq
import Verif.Fourier.SpectreProps
import Verif.Fourier.DelaisProps
import Verif.Fourier.OlaProps

namespace Verif.Fourier

open Finset Complex

/-- The phasor of the inverse DFT. -/
noncomputable def phaseur (k t n : ℕ) : ℂ := exp (1 * (2 * Real.pi * I) * (k * t) / n)

theorem TFD_phaseur (X : List ℂ) (t : ℕ) :
    TFD 1 X t = (∑ k ∈ range X.length, X.getD k 0 * phaseur k t X.length) / (Real.sqrt X.length : ℂ) := rfl

/-- Same angle modulo a turn. -/
theorem phaseur_eq (k t n k' t' n' : ℕ) (hn : 0 < n) (hn' : 0 < n') (z : ℤ) (h : (k : ℤ) * t * n' = k' * t' * n + z * n * n') :
    phaseur k t n = phaseur k' t' n' := by
  unfold phaseur
  rw [exp_eq_exp_iff_exists_int]
  refine ⟨z, ?_⟩
  have h1 : (n : ℂ) ≠ 0 := by exact_mod_cast hn.ne'
  have h2 : (n' : ℂ) ≠ 0 := by exact_mod_cast hn'.ne'
  have h3 : (k : ℂ) * t * n' = k' * t' * n + z * n * n' := by exact_mod_cast congrArg (fun v : ℤ => (v : ℂ)) h
  field_simp
  linear_combination h3

/-- The spectrum copied: both ends kept, zeros between. -/
theorem copie_spectre (X : List ℂ) (n2 h : ℕ) (h1 : 2 * h ≤ X.length) (h2 : 2 * h ≤ n2) :
    ∃ X2 : List ℂ, ((segment X 0 h).bind fun a => (ecrit (List.replicate n2 0) 0 a).bind fun X2 => (queue X h).bind fun b => ecritQueue X2 b) = some X2 ∧
      X2.length = n2 ∧ (∀ k, k < h → X2.getD k 0 = X.getD k 0) ∧ (∀ i, i < h → X2.getD (n2 - h + i) 0 = X.getD (X.length - h + i) 0) ∧
      (∀ k, h ≤ k → k < n2 - h → X2.getD k 0 = 0) := by
  have l1 : (X.take h).length = h := by rw [List.length_take]; omega
  have l2 : (X.drop (X.length - h)).length = h := by rw [List.length_drop]; omega
  refine ⟨X.take h ++ List.replicate (n2 - 2 * h) 0 ++ X.drop (X.length - h), ?_, ?_, ?_, ?_, ?_⟩
  · have q : queue X h = some (X.drop (X.length - h)) := by
      unfold queue
      rw [if_pos (by omega), segment_val _ _ _ (by omega), List.take_of_length_le (by omega)]
    rw [segment_val _ _ _ (by omega), q]
    simp only [List.drop_zero, Option.bind_some]
    have w : ecrit (List.replicate n2 (0 : ℂ)) 0 (X.take h) = some (X.take h ++ List.replicate (n2 - h) 0) := by
      unfold ecrit
      rw [if_pos (by rw [l1]; simp; omega), l1, List.take_zero, List.nil_append, Nat.zero_add, List.drop_replicate]
    rw [w]
    simp only [Option.bind_some]
    have lw : (X.take h ++ List.replicate (n2 - h) (0 : ℂ)).length = n2 := by simp; omega
    unfold ecritQueue ecrit
    rw [lw, l2, if_pos (by omega), if_pos (by omega)]
    congr 1
    rw [show n2 - h + h = n2 by omega, List.drop_of_length_le (l := X.take h ++ List.replicate (n2 - h) (0 : ℂ)) (by omega), List.append_nil, List.take_append, l1, List.take_replicate,
      List.take_of_length_le (l := X.take h) (by omega), show min (n2 - h - h) (n2 - h) = n2 - 2 * h by omega]
  · simp; omega
  · intro k hk
    rw [List.append_assoc, List.getD_append _ _ _ _ (by omega), List.getD_eq_getElem _ _ (by omega), List.getElem_take,
      List.getD_eq_getElem _ _ (by omega)]
  · intro i hi
    rw [List.getD_append_right _ _ _ _ (by simp; omega), List.getD_eq_getElem _ _ (by simp; omega), List.getElem_drop,
      List.getD_eq_getElem _ _ (by omega)]
    congr 1
    simp; omega
  · intro k hk hk2
    rw [List.getD_append _ _ _ _ (by simp; omega), List.getD_append_right _ _ _ _ (by omega), List.getD_replicate _ (by omega)]

/-- The inverse DFT of the copied spectrum, at a time which corresponds to sample `u` of the original signal, misses the middle bins. -/
theorem somme_copie (X X2 : List ℂ) (n2 h t u : ℕ) (hn : 0 < X.length) (hn2 : 0 < n2) (h1 : 2 * h ≤ X.length) (h2 : 2 * h ≤ n2) (l2 : X2.length = n2)
    (g1 : ∀ k, k < h → X2.getD k 0 = X.getD k 0) (g2 : ∀ i, i < h → X2.getD (n2 - h + i) 0 = X.getD (X.length - h + i) 0)
    (g3 : ∀ k, h ≤ k → k < n2 - h → X2.getD k 0 = 0) (htu : t * X.length = u * n2) :
    ∑ k ∈ range n2, X2.getD k 0 * phaseur k t n2 =
      ∑ k ∈ range X.length, X.getD k 0 * phaseur k u X.length
        - ∑ i ∈ range (X.length - 2 * h), X.getD (h + i) 0 * phaseur (h + i) u X.length := by
  have split : ∀ (N : ℕ) (F : ℕ → ℂ), 2 * h ≤ N → ∑ k ∈ range N, F k =
      ∑ k ∈ range h, F k + ∑ i ∈ range (N - 2 * h), F (h + i) + ∑ i ∈ range h, F (N - h + i) := by
    intro N F hN
    obtain ⟨d, rfl⟩ := Nat.exists_eq_add_of_le hN
    rw [show 2 * h + d = h + d + h by ring, sum_range_add _ (h + d) h, sum_range_add _ h d, show h + d + h - 2 * h = d by omega,
      show h + d + h - h = h + d by omega]
  rw [split n2 _ h2, split X.length _ h1]
  have hz : ((t : ℤ) * X.length) = u * n2 := by exact_mod_cast htu
  have e1 : ∑ k ∈ range h, X2.getD k 0 * phaseur k t n2 = ∑ k ∈ range h, X.getD k 0 * phaseur k u X.length := by
    refine sum_congr rfl fun k hk => ?_
    rw [g1 k (mem_range.1 hk), phaseur_eq k t n2 k u X.length hn2 hn 0 (by linear_combination (k : ℤ) * hz)]
  have e2 : ∑ i ∈ range (n2 - 2 * h), X2.getD (h + i) 0 * phaseur (h + i) t n2 = 0 := by
    apply sum_eq_zero
    intro i hi
    have := mem_range.1 hi
    rw [g3 _ (by omega) (by omega), zero_mul]
  have e3 : ∑ i ∈ range h, X2.getD (n2 - h + i) 0 * phaseur (n2 - h + i) t n2 =
      ∑ i ∈ range h, X.getD (X.length - h + i) 0 * phaseur (X.length - h + i) u X.length := by
    refine sum_congr rfl fun i hi => ?_
    rw [g2 i (mem_range.1 hi), phaseur_eq (n2 - h + i) t n2 (X.length - h + i) u X.length hn2 hn ((t : ℤ) - u) (by
      have a1 : ((n2 - h + i : ℕ) : ℤ) = n2 - h + i := by omega
      have a2 : ((X.length - h + i : ℕ) : ℤ) = X.length - h + i := by omega
      rw [a1, a2]
      linear_combination (-(h : ℤ) + i) * hz)]
  rw [e1, e2, e3]
  ring

theorem changeTaille_some (X : List ℂ) (n2 h : ℕ) (lom : ℝ) (hn : 0 < X.length) (hn2 : 0 < n2) (hb : n2 ≤ 2 ^ 29) (h1 : 2 * h ≤ X.length) (h2 : 2 * h ≤ n2) :
    ∃ y, changeTaille X n2 h lom = some y ∧ y.length = n2 ∧ ∀ t u, t < n2 → t * X.length = u * n2 →
      y.getD t 0 = (∑ k ∈ range X.length, X.getD k 0 * phaseur k u X.length
        - ∑ i ∈ range (X.length - 2 * h), X.getD (h + i) 0 * phaseur (h + i) u X.length) / (Real.sqrt n2 : ℂ) * (Real.sqrt lom : ℂ) := by
  obtain ⟨X2, e, l2, g1, g2, g3⟩ := copie_spectre X n2 h h1 h2
  obtain ⟨y, ey, ly, gy⟩ := C27_ifft X2 (by omega) (by omega)
  refine ⟨y.map fun v => v * (Real.sqrt lom : ℂ), ?_, by simp [ly, l2], fun t u ht htu => ?_⟩
  · unfold changeTaille
    simp only [Option.bind_eq_bind]
    have e' : ((segment X 0 h).bind fun a => (ecrit (List.replicate n2 0) 0 a).bind fun X2 => (queue X h).bind fun b =>
        (ecritQueue X2 b).bind fun X2 => (ifft trigoC X2).bind fun y => some (y.map fun v => v * (Real.sqrt lom : ℂ)))
        = (((segment X 0 h).bind fun a => (ecrit (List.replicate n2 0) 0 a).bind fun X2 => (queue X h).bind fun b => ecritQueue X2 b).bind
          fun X2 => (ifft trigoC X2).bind fun y => some (y.map fun v => v * (Real.sqrt lom : ℂ))) := by
      simp only [Option.bind_assoc]
    rw [e', e]
    simp only [Option.bind_some, ey]
  · rw [List.getD_eq_getElem _ _ (by simp; omega), List.getElem_map]
    have := gy t (by omega)
    rw [List.getD_eq_getElem _ _ (by omega)] at this
    rw [this, TFD_phaseur, l2, somme_copie X X2 n2 h t u hn hn2 h1 h2 l2 g1 g2 g3 htu]

theorem arrondi_nat (n : ℕ) (r : ℝ) (h : r = n) : arrondi r = n := by
  rw [h]; exact_mod_cast arrondi_entier (n : ℤ)

/-- Inverse DFT of the DFT. -/
theorem TFD_retour (x X : List ℂ) (hx : 0 < x.length) (hx2 : x.length ≤ 2 ^ 29) (lX : X.length = x.length) (gX : ∀ k, k < x.length → X.getD k 0 = TFD (-1) x k)
    (u : ℕ) (hu : u < x.length) : ∑ k ∈ range X.length, X.getD k 0 * phaseur k u X.length = x.getD u 0 * (Real.sqrt x.length : ℂ) := by
  obtain ⟨⟨y, e1, e2⟩, -⟩ := C27_inverse x hx hx2
  obtain ⟨Y, e3, l3, g3⟩ := C27_fft x hx hx2
  rw [e1] at e3; cases e3
  have hyX : X = y := list_ext_getD _ _ (by omega) fun i hi => by rw [gX i (by omega), g3 i (by omega)]
  obtain ⟨z, e4, l4, g4⟩ := C27_ifft y (by omega) (by omega)
  rw [e2] at e4; cases e4
  have := g4 u (by omega)
  rw [hyX, this, TFD_phaseur, l3]
  have hne : (Real.sqrt x.length : ℂ) ≠ 0 := by
    rw [ofReal_ne_zero]; exact (Real.sqrt_pos.2 (by exact_mod_cast hx)).ne'
  field_simp

/-- Contribution of DFT bin `k` to sample `u` of the signal `x`. -/
noncomputable def raie (x : List ℂ) (k u : ℕ) : ℂ := TFD (-1) x k * exp (2 * Real.pi * I * (k * u) / x.length) / (Real.sqrt x.length : ℂ)

/-- Interpolation, general form. -/
theorem interp_forme (x : List ℝ) (R : ℕ) (hx : 0 < x.length) (hR : 2 ≤ R) (hb : R * x.length ≤ 2 ^ 29) :
    ∃ y, reechanFreqR x R = some y ∧ y.length = R * x.length ∧ ∀ u, u < x.length →
      y.getD (R * u) 0 = x.getD u 0 - (if x.length % 2 = 0 then 0 else (raie (enC x) (x.length / 2) u).re) := by
  have hle : x.length ≤ R * x.length := Nat.le_mul_of_pos_left _ (by omega)
  obtain ⟨X, eX, lX, gX⟩ := C49_rfft x hx (by omega)
  obtain ⟨y, ey, ly, gy⟩ := changeTaille_some X (R * x.length) (x.length / 2) R (by omega) (by omega) hb (by omega) (by omega)
  have hR1 : (R : ℝ) ≠ 1 := by
    have : (2 : ℝ) ≤ R := by exact_mod_cast hR
    intro h; linarith
  have hR2 : (1 : ℝ) < R := by exact_mod_cast (by omega : 1 < R)
  refine ⟨y.map re, ?_, by simp [ly], fun u hu => ?_⟩
  · unfold reechanFreqR reechSpectre
    rw [if_neg hR1, eX]
    simp only [Option.bind_some]
    rw [arrondi_nat (R * x.length) _ (by push_cast; ring), if_neg (by omega), if_pos hR2, Int.toNat_natCast, ey]
    rfl
  · have htu : R * u < R * x.length := Nat.mul_lt_mul_of_pos_left hu (by omega)
    rw [List.getD_eq_getElem _ _ (by simp; omega), List.getElem_map]
    have := gy (R * u) u htu (by rw [lX]; ring)
    rw [List.getD_eq_getElem _ _ (by omega), TFD_retour (enC x) X (by rw [enC_length]; exact hx) (by rw [enC_length]; omega) (by rw [enC_length]; exact lX)
      (by rw [enC_length]; exact gX) u (by rw [enC_length]; exact hu), enC_length, enC_getD, lX] at this
    rw [this]
    have s1 : (Real.sqrt x.length : ℂ) ≠ 0 := by
      rw [ofReal_ne_zero]; exact (Real.sqrt_pos.2 (by exact_mod_cast hx)).ne'
    have s2 : (Real.sqrt R : ℂ) ≠ 0 := by
      rw [ofReal_ne_zero]; exact (Real.sqrt_pos.2 (by linarith)).ne'
    have s3 : ((Real.sqrt ((R * x.length : ℕ) : ℝ) : ℝ) : ℂ) = (Real.sqrt R : ℂ) * (Real.sqrt x.length : ℂ) := by
      rw [Nat.cast_mul, Real.sqrt_mul (Nat.cast_nonneg _), ofReal_mul]
    rw [s3]
    split
    · rename_i hp
      rw [show x.length - 2 * (x.length / 2) = 0 by omega, range_zero, sum_empty, sub_zero, sub_zero,
        show (x.getD u 0 : ℂ) * (Real.sqrt x.length : ℂ) / ((Real.sqrt R : ℂ) * (Real.sqrt x.length : ℂ)) * (Real.sqrt R : ℂ) = (x.getD u 0 : ℂ) by
          field_simp, ofReal_re]
    · rename_i hp
      rw [show x.length - 2 * (x.length / 2) = 1 by omega, sum_range_one, add_zero, gX _ (by omega),
        show ((x.getD u 0 : ℂ) * (Real.sqrt x.length : ℂ) - TFD (-1) (enC x) (x.length / 2) * phaseur (x.length / 2) u x.length) /
          ((Real.sqrt R : ℂ) * (Real.sqrt x.length : ℂ)) * (Real.sqrt R : ℂ) = (x.getD u 0 : ℂ) - raie (enC x) (x.length / 2) u by
          unfold raie phaseur
          rw [enC_length, one_mul]
          field_simp, sub_re, ofReal_re]

/-- Inverse DFT of a spectrum reduced to its first bin. -/
theorem ifft_continu (N : ℕ) (hN : 0 < N) (hN2 : N ≤ 2 ^ 29) (a : ℂ) :
    ifft trigoC (a :: List.replicate (N - 1) 0) = some (List.replicate N (a / (Real.sqrt N : ℂ))) := by
  have l0 : (a :: List.replicate (N - 1) (0 : ℂ)).length = N := by simp; omega
  obtain ⟨y, e, l, g⟩ := C27_ifft (a :: List.replicate (N - 1) 0) (by omega) (by omega)
  rw [e]
  congr 1
  refine list_ext_getD _ _ (by simp; omega) fun k hk => ?_
  rw [g k (by omega), List.getD_replicate _ (by omega)]
  unfold TFD
  rw [l0, sum_eq_single 0]
  · simp
  · intro j hj h0
    obtain ⟨i, rfl⟩ := Nat.exists_eq_succ_of_ne_zero h0
    have := mem_range.1 hj
    rw [List.getD_cons_succ, List.getD_replicate _ (by omega), zero_mul]
  · intro h; exact absurd (mem_range.2 hN) h

/-- DFT of a constant. -/
theorem fft_constante (N : ℕ) (hN : 0 < N) (hN2 : N ≤ 2 ^ 29) :
    fft trigoC (List.replicate N 1) = some ((Real.sqrt N : ℂ) :: List.replicate (N - 1) 0) := by
  have l0 : ((Real.sqrt N : ℂ) :: List.replicate (N - 1) (0 : ℂ)).length = N := by simp; omega
  obtain ⟨-, y, e1, e2⟩ := C27_inverse ((Real.sqrt N : ℂ) :: List.replicate (N - 1) 0) (by omega) (by omega)
  rw [ifft_continu N hN hN2, Option.some.injEq, div_self (by
    rw [ofReal_ne_zero]; exact (Real.sqrt_pos.2 (by exact_mod_cast hN)).ne')] at e1
  rw [e1, e2]

/-- **C76 (interpolation, even sizes).**  For every real signal of even size and every integer ratio `R ≥ 2`, the result has `R n` samples and goes
through the original ones, without delay. -/
theorem C76_interp_partial (x : List ℝ) (R : ℕ) (hx : 0 < x.length) (hp : x.length % 2 = 0) (hR : 2 ≤ R) (hb : R * x.length ≤ 2 ^ 29) :
    ∃ y, reechanFreqR x R = some y ∧ y.length = R * x.length ∧ ∀ u, u < x.length → y.getD (R * u) 0 = x.getD u 0 := by
  obtain ⟨y, e, l, g⟩ := interp_forme x R hx hR hb
  exact ⟨y, e, l, fun u hu => by rw [g u hu, if_pos hp, sub_zero]⟩

/-- **C76 refuted (odd sizes).**  For odd sizes, the highest positive bin is lost (its conjugate is not): sample `R u` is wrong by the real part of
its contribution … -/
theorem C76_impair_refute (x : List ℝ) (R : ℕ) (hx : x.length % 2 = 1) (hR : 2 ≤ R) (hb : R * x.length ≤ 2 ^ 29) :
    ∃ y, reechanFreqR x R = some y ∧ ∀ u, u < x.length → y.getD (R * u) 0 = x.getD u 0 - (raie (enC x) (x.length / 2) u).re := by
  obtain ⟨y, e, l, g⟩ := interp_forme x R (by omega) hR hb
  exact ⟨y, e, fun u hu => by rw [g u hu, if_neg (by omega)]⟩

/-- … so that a signal of one sample becomes null. -/
theorem C76_un_refute (a : ℝ) : ∃ y, reechanFreqR [a] 2 = some y ∧ y.getD 0 0 = 0 := by
  obtain ⟨y, e, g⟩ := C76_impair_refute [a] 2 rfl (by norm_num) (by norm_num)
  refine ⟨y, by simpa using e, ?_⟩
  have := g 0 (by simp)
  simpa [raie, TFD, enC] using this

/-- **C76 refuted (complex signals).**  Whatever the ratio, the result of the complex version is real: imaginary parts are lost. -/
theorem C76_complexe_refute (x : List ℂ) (lom : ℝ) (hl : lom ≠ 1) (y : List ℂ) (h : reechanFreqC x lom = some y) : ∀ v ∈ y, v.im = 0 := by
  unfold reechanFreqC at h
  rw [if_neg hl] at h
  obtain ⟨X, -, h⟩ := Option.bind_eq_some_iff.1 h
  obtain ⟨z, -, rfl⟩ := Option.map_eq_some_iff.1 h
  intro v hv
  obtain ⟨w, -, rfl⟩ := List.mem_map.1 hv
  simp [reC]

/-- **C76 (unit ratio).** -/
theorem C76_identite (x : List ℝ) : reechanFreqR x 1 = some x := by unfold reechanFreqR; rw [if_pos rfl]

/-- **C76 (decimation).**  For a real signal of `n = R n₂` samples, `n₂` even, without components at the bins `n₂/2 … n - n₂/2 - 1`, the result with
ratio `1/R` is one sample out of `R`. -/
theorem C76_decim (x : List ℝ) (R m : ℕ) (hR : 2 ≤ R) (hm : 0 < m) (hx : x.length = R * (2 * m)) (hb : x.length ≤ 2 ^ 29)
    (hlim : ∀ k, m ≤ k → k < x.length - m → TFD (-1) (enC x) k = 0) :
    ∃ y, reechanFreqR x (1 / R) = some y ∧ y.length = 2 * m ∧ ∀ u, u < 2 * m → y.getD u 0 = x.getD (R * u) 0 := by
  have hle : 2 * m ≤ x.length := by rw [hx]; exact Nat.le_mul_of_pos_left _ (by omega)
  have hRr : (2 : ℝ) ≤ R := by exact_mod_cast hR
  obtain ⟨X, eX, lX, gX⟩ := C49_rfft x (by omega) hb
  obtain ⟨y, ey, ly, gy⟩ := changeTaille_some X (2 * m) m (1 / R) (by omega) (by omega) (by omega) (by omega) (by omega)
  have hl : (1 / R : ℝ) < 1 := by rw [div_lt_one (by linarith)]; linarith
  refine ⟨y.map re, ?_, by simp [ly], fun u hu => ?_⟩
  · unfold reechanFreqR reechSpectre
    rw [if_neg hl.ne, eX]
    simp only [Option.bind_some]
    rw [arrondi_nat (2 * m) _ (by rw [hx]; push_cast; field_simp), if_neg (by omega), if_neg (by linarith), Int.toNat_natCast,
      show 2 * m / 2 = m by omega, ey]
    rfl
  · rw [List.getD_eq_getElem _ _ (by simp; omega), List.getElem_map]
    have hRu : R * u < x.length := by rw [hx]; exact Nat.mul_lt_mul_of_pos_left hu (by omega)
    have := gy u (R * u) hu (by rw [lX, hx]; ring)
    rw [List.getD_eq_getElem _ _ (by omega), TFD_retour (enC x) X (by rw [enC_length]; omega) (by rw [enC_length]; omega) (by rw [enC_length]; exact lX)
      (by rw [enC_length]; exact gX) _ (by rw [enC_length]; exact hRu), enC_length, enC_getD, lX] at this
    rw [sum_eq_zero (s := range (x.length - 2 * m)) (by
      intro i hi
      have := mem_range.1 hi
      rw [gX _ (by omega), hlim _ (by omega) (by omega), zero_mul]), sub_zero] at this
    rw [this]
    have hmr : (0 : ℝ) < m := by exact_mod_cast hm
    have s3 : Real.sqrt (x.length : ℝ) = Real.sqrt R * Real.sqrt ((2 * m : ℕ) : ℝ) := by
      rw [hx, Nat.cast_mul, Real.sqrt_mul (Nat.cast_nonneg _)]
    have s1 : Real.sqrt ((2 * m : ℕ) : ℝ) ≠ 0 := (Real.sqrt_pos.2 (by push_cast; linarith)).ne'
    have s2 : Real.sqrt (R : ℝ) ≠ 0 := (Real.sqrt_pos.2 (by linarith)).ne'
    rw [s3, Real.sqrt_div (by norm_num), Real.sqrt_one]
    have : (x.getD (R * u) 0 : ℂ) * ((Real.sqrt R * Real.sqrt ((2 * m : ℕ) : ℝ) : ℝ) : ℂ) / ((Real.sqrt ((2 * m : ℕ) : ℝ) : ℝ) : ℂ) * ((1 / Real.sqrt R : ℝ) : ℂ)
        = ((x.getD (R * u) 0 : ℝ) : ℂ) := by
      rw [← ofReal_mul, ← ofReal_div, ← ofReal_mul]
      congr 1
      field_simp
    rw [this, ofReal_re]

/-- Non-vacuity of the decimation: a constant signal of four samples has no component at bins 1 and 2. -/
example (a : ℝ) : ∀ k, 1 ≤ k → k < 4 - 1 → TFD (-1) (enC (List.replicate 4 a)) k = 0 := by
  intro k h1 h2
  have h := fft_constante 4 (by norm_num) (by norm_num)
  obtain ⟨Y, e, -, g⟩ := C27_fft (List.replicate 4 1) (by simp) (by norm_num)
  rw [h, Option.some.injEq] at e
  have h3 := g k (by simp; omega)
  have h4 : TFD (-1) (List.replicate 4 1) k = 0 := by
    rw [← h3, ← e]
    obtain ⟨i, rfl⟩ := Nat.exists_eq_add_of_le' h1
    rw [List.getD_cons_succ, List.getD_replicate _ (by omega)]
  have : TFD (-1) (enC (List.replicate 4 a)) k = a * TFD (-1) (List.replicate 4 1) k := by
    unfold TFD enC
    simp only [List.map_replicate, List.length_replicate]
    rw [mul_div_assoc', mul_sum]
    congr 1
    refine sum_congr rfl fun j hj => ?_
    rw [List.getD_replicate _ (mem_range.1 hj), List.getD_replicate _ (mem_range.1 hj)]
    ring
  rw [this, h4, mul_zero]

/-! ### C77 -/

/-- **C77 refuted (sizes).**  `czt` fails (products of vectors of different sizes) as soon as the number of points asked is not the number of samples. -/
theorem C77_dimensions_refute (x : List ℂ) (m : ℕ) (W z0 : ℂ) (hx : 0 < x.length) (hx2 : x.length + m ≤ 2 ^ 28) (hm : m ≠ x.length) : czt x m W z0 = none := by
  cases h : czt x m W z0 with
  | none => rfl
  | some r =>
    exfalso
    unfold czt at h
    simp only [Option.bind_eq_bind, Option.bind_eq_some_iff] at h
    obtain ⟨g, -, hmv, -, hc1, e1, hq, -, hc2, e2, gc, e3, Hc, e4, Gc, e5, P, e6, -⟩ := h
    have le : ∀ (y v w : List ℂ) i, ecrit y i v = some w → w.length = y.length := by
      intro y v w i h
      unfold ecrit at h
      split at h
      · rename_i hl
        cases h
        simp; omega
      · cases h
    have lq : ∀ (y v w : List ℂ), ecritQueue y v = some w → w.length = y.length := by
      intro y v w h
      unfold ecritQueue at h
      split at h
      · exact le _ _ _ _ h
      · cases h
    have l1 : hc2.length = m + x.length - 1 := by rw [lq _ _ _ e2, le _ _ _ _ e1, List.length_replicate]
    have l2 : gc.length = m + m - 1 := by rw [le _ _ _ _ e3, List.length_replicate]
    have lf : ∀ u U : List ℂ, u.length ≤ 2 ^ 29 → fft trigoC u = some U → U.length = u.length := by
      intro u U hu h
      rcases Nat.eq_zero_or_pos u.length with h0 | h0
      · rw [List.length_eq_zero_iff.1 h0, C27_vide.1] at h; cases h
      · obtain ⟨V, e, l, -⟩ := C27_fft u h0 hu
        rw [e] at h; cases h; exact l
    have l3 := lf _ _ (by omega) e4
    have l4 := lf _ _ (by omega) e5
    unfold produit at e6
    have hpos : 0 < gc.length := by
      rcases Nat.eq_zero_or_pos gc.length with h0 | h0
      · rw [List.length_eq_zero_iff.1 h0, C27_vide.1] at e5; cases e5
      · exact h0
    rw [if_neg (by omega)] at e6
    cases e6

theorem mapM_some {A B : Type} (l : List A) (f : A → Option B) (g : A → B) (h : ∀ i ∈ l, f i = some (g i)) : l.mapM f = some (l.map g) := by
  induction l with
  | nil => rfl
  | cons a l ih =>
    rw [List.mapM_cons, h a List.mem_cons_self, ih fun i hi => h i (List.mem_cons_of_mem _ hi)]
    rfl

/-- Specification: chirp z-transform, `Σ_k x_k (z₀ W^{-j})^{-k}`. -/
noncomputable def cztSpec (x : List ℂ) (W z0 : ℂ) (j : ℕ) : ℂ := ∑ k ∈ range x.length, x.getD k 0 * (z0 * W ^ (-(j : ℤ))) ^ (-(k : ℤ))

/-- **C77 refuted (values).**  Even with as many points as samples: for `W = z₀ = 1` every point should be `Σ x`; the result is `Σ x / √(2n-1)`. -/
theorem C77_valeurs_refute (x : List ℂ) (hx : 0 < x.length) (hx2 : 2 * x.length ≤ 2 ^ 29) :
    czt x x.length 1 1 = some (List.replicate x.length (x.sum / (Real.sqrt ((2 * x.length - 1 : ℕ) : ℝ) : ℂ))) ∧ ∀ j, cztSpec x 1 1 j = x.sum := by
  have sumx : ∀ l : List ℂ, ∑ k ∈ range l.length, l.getD k 0 = l.sum := by
    intro l
    induction l with
    | nil => simp
    | cons a l ih => rw [List.length_cons, sum_range_succ', List.sum_cons]; simp only [List.getD_cons_succ, List.getD_cons_zero]; rw [ih, add_comm]
  constructor
  · generalize hN : 2 * x.length - 1 = N
    have hN0 : 0 < N := by omega
    have hsq : (Real.sqrt N : ℂ) ≠ 0 := by rw [ofReal_ne_zero]; exact (Real.sqrt_pos.2 (by exact_mod_cast hN0)).ne'
    have hh : cztH 1 x.length = List.replicate N 1 := by
      unfold cztH
      rw [hN, List.eq_replicate_iff]
      refine ⟨by simp, fun b hb => ?_⟩
      obtain ⟨i, -, rfl⟩ := List.mem_map.1 hb
      simp only [one_cpow, ite_self]
    have hg : cztG 1 x.length (List.replicate N 1) x = some x := by
      unfold cztG
      rw [mapM_some (g := fun i => x.getD i 0)]
      · congr 1
        refine list_ext_getD _ _ (by simp) fun i hi => ?_
        rw [List.getD_eq_getElem _ _ hi, List.getElem_map, List.getElem_range]
      · intro i hi
        have hi := List.mem_range.1 hi
        rw [List.getElem?_replicate, if_pos (by omega)]
        simp only [one_ne_zero, if_false, one_zpow, mul_one, div_one]
    have hm : segment (List.replicate N (1 : ℂ)) (x.length - 1) x.length = some (List.replicate x.length 1) := by
      rw [segment_val _ _ _ (by simp; omega), List.drop_replicate, List.take_replicate]
      congr 2; omega
    have hq : segment (List.replicate N (1 : ℂ)) (x.length - x.length) (x.length - 1) = some (List.replicate (x.length - 1) 1) := by
      rw [segment_val _ _ _ (by simp; omega), List.drop_replicate, List.take_replicate]
      congr 2; omega
    have w1 : ecrit (List.replicate N (0 : ℂ)) 0 (List.replicate x.length 1) = some (List.replicate x.length 1 ++ List.replicate (x.length - 1) 0) := by
      unfold ecrit
      rw [if_pos (by simp; omega)]
      simp
      omega
    have w2 : ecritQueue (List.replicate x.length (1 : ℂ) ++ List.replicate (x.length - 1) 0) (List.replicate (x.length - 1) 1) = some (List.replicate N 1) := by
      unfold ecritQueue ecrit
      rw [if_pos (by simp), if_pos (by simp)]
      simp only [List.length_append, List.length_replicate, Nat.add_sub_cancel]
      rw [List.take_left' (by simp), List.drop_of_length_le (by simp), List.append_nil, List.replicate_append_replicate]
      congr 2; omega
    have w3 : ecrit (List.replicate N (0 : ℂ)) 0 x = some (x ++ List.replicate (x.length - 1) 0) := by
      unfold ecrit
      rw [if_pos (by simp; omega)]
      simp
      omega
    have lx : (x ++ List.replicate (x.length - 1) (0 : ℂ)).length = N := by simp; omega
    obtain ⟨G, eG, lG, gG⟩ := C27_fft (x ++ List.replicate (x.length - 1) 0) (by omega) (by omega)
    have G0 : G.getD 0 0 = x.sum / (Real.sqrt N : ℂ) := by
      rw [gG 0 (by omega)]
      unfold TFD
      rw [lx]
      congr 1
      have := sumx (x ++ List.replicate (x.length - 1) 0)
      rw [lx, List.sum_append, List.sum_replicate, smul_zero, add_zero] at this
      rw [← this]
      refine sum_congr rfl fun j _ => by simp
    have hP : produit ((Real.sqrt N : ℂ) :: List.replicate (N - 1) 0) G = some (x.sum :: List.replicate (N - 1) 0) := by
      unfold produit
      rw [if_pos (by simp; omega)]
      congr 1
      refine list_ext_getD _ _ (by simp; omega) fun k hk => ?_
      have hkN : k < N := by simp at hk; omega
      rw [List.getD_eq_getElem _ _ hk, List.getElem_zipWith]
      rcases k with _ | k
      · rw [List.getD_eq_getElem _ _ (by omega)] at G0
        rw [G0, List.getElem_cons_zero, List.getD_cons_zero]
        field_simp
      · rw [List.getElem_cons_succ, List.getElem_replicate, zero_mul, List.getD_cons_succ, List.getD_replicate _ (by omega)]
    unfold czt
    simp only [max_self, hh, hg, Option.bind_eq_bind, Option.bind_some, hm, hq, show x.length + x.length - 1 = N by omega, w1, w2, w3,
      fft_constante N hN0 (by omega), eG, hP, ifft_continu N hN0 (by omega)]
    rw [segment_val _ _ _ (by simp; omega), List.drop_zero, List.take_replicate, show min x.length N = x.length by omega]
    simp
  · intro j
    unfold cztSpec
    simp only [one_zpow, mul_one]
    exact sumx x

/-- Non-vacuity of C77: two samples, two points. -/
example : 0 < [(1 : ℂ), 2].length ∧ 2 * [(1 : ℂ), 2].length ≤ 2 ^ 29 := by norm_num

end Verif.Fourier
