import Verif.Fourier.DetecteurProps
import Mathlib.Algebra.Order.Chebyshev

/-!
# C112: patterns with a relatively small imaginary part (core/src/fourier/detection.cc:177-192)

The filter mode drops the imaginary part of such patterns. The output is the score computed with the correlation with the real part; the difference of the correlations is bounded.
-/

namespace Verif.Fourier

open Finset

/-! ### Specification -/

/-- The score of the window that ends at `k`, computed with the correlation `C`. -/
noncomputable def scoreAvec (C : ℂ) (h x : List ℂ) (k : ℤ) : ℝ :=
  if ‖C‖ / Real.sqrt (enMotif h) ≤ 1 / 10 ^ 6 then 0 else ‖C‖ / Real.sqrt ((enFen h.length x k + h.length / 10 ^ 20) * enMotif h)

/-- The real part of a pattern. -/
noncomputable def partieReelle (h : List ℂ) : List ℂ := h.map fun v : ℂ => (v.re : ℂ)

/-! ### Proofs -/

theorem scoreAvec_correl (h x : List ℂ) (k : ℤ) : scoreAvec (correl h x k) h x k = scoreDet h x k := rfl

theorem enMotif_pos (h : List ℂ) (hH : ∃ v ∈ h, v ≠ 0) : 0 < enMotif h := by
  obtain ⟨v, hv, h0⟩ := hH
  obtain ⟨i, hi, rfl⟩ := List.getElem_of_mem hv
  refine sum_pos' (fun _ _ => by positivity) ⟨i, mem_range.2 hi, ?_⟩
  rw [List.getD_eq_getElem _ _ hi]
  have := norm_pos_iff.2 h0
  positivity

theorem coefs_reels (h : List ℂ) (r : ℝ) (hr : 0 < r) (hf : ¬ Franc h) :
    coefsMotif (h.map fun v : ℂ => v / (r : ℂ)) = (partieReelle h).reverse.map fun v : ℂ => (starRingEnd ℂ) v / (r : ℂ) := by
  have e1 : ((h.map fun v : ℂ => v / (r : ℂ)).map fun v : ℂ => |v.im|).sum = (h.map fun v : ℂ => |v.im|).sum / r := by
    rw [List.map_map, div_eq_mul_inv, ← List.sum_map_mul_right]
    congr 1
    apply List.map_congr_left
    intro v _
    simp only [Function.comp, Complex.div_ofReal_im, abs_div, abs_of_pos hr]; ring
  have e2 : ((h.map fun v : ℂ => v / (r : ℂ)).map fun v : ℂ => ‖v‖).sum = (h.map fun v : ℂ => ‖v‖).sum / r := by
    rw [List.map_map, div_eq_mul_inv, ← List.sum_map_mul_right]
    congr 1
    apply List.map_congr_left
    intro v _
    simp only [Function.comp, norm_div, Complex.norm_real, Real.norm_eq_abs, abs_of_pos hr]; ring
  unfold Franc at hf
  rw [not_or, not_le] at hf
  have hI : 0 ≤ (h.map fun v : ℂ => |v.im|).sum := List.sum_nonneg (by simp)
  have hS : 0 < (h.map fun v : ℂ => ‖v‖).sum := by
    have := hf.2
    linarith [mul_nonneg (by norm_num : (0 : ℝ) ≤ 10 ^ 7) hI]
  unfold coefsMotif partieReelle
  rw [e1, e2, div_div_div_cancel_right₀ hr.ne', ← List.map_reverse, ← List.map_reverse, if_pos]
  · rw [List.map_map, List.map_map]
    apply List.map_congr_left
    intro v _
    simp only [Function.comp, Complex.div_ofReal_re, Complex.ofReal_div, Complex.conj_ofReal]
  · rw [div_lt_iff₀ hS]
    have := hf.2
    norm_num at this ⊢
    linarith

theorem valeur_avec (h : List ℂ) (x : List ℂ) (k : ℤ) (hM : 0 < h.length) (hH : 0 < enMotif h) (C : ℂ) :
    Real.sqrt (1 : ℕ) / Real.sqrt h.length * Real.sqrt (‖if ‖C / (Real.sqrt (enMotif h) : ℂ)‖ ≤ 1 / 10 ^ 6 then (0 : ℂ) else C / (Real.sqrt (enMotif h) : ℂ)‖ ^ 2 / (enFen h.length x k / h.length + 1 / 10 ^ 20)) = scoreAvec C h x k := by
  have hMr : (0 : ℝ) < h.length := by exact_mod_cast hM
  have hE : 0 ≤ enFen h.length x k := sum_nonneg fun _ _ => by positivity
  have hn : ‖C / (Real.sqrt (enMotif h) : ℂ)‖ = ‖C‖ / Real.sqrt (enMotif h) := by
    rw [norm_div, Complex.norm_real, Real.norm_eq_abs, abs_of_nonneg (Real.sqrt_nonneg _)]
  unfold scoreAvec
  rw [hn]
  split
  · simp
  · rw [hn, div_pow, Real.sq_sqrt hH.le, Nat.cast_one, Real.sqrt_one, ← Real.sqrt_one, ← Real.sqrt_div' _ hMr.le, ← Real.sqrt_mul (by positivity), ← Real.sqrt_sq (norm_nonneg C), ← Real.sqrt_div' _ (by positivity), Real.sqrt_sq (norm_nonneg _)]
    congr 1
    rw [Real.sqrt_one]
    field_simp

/-- **C112 (small imaginary part).** For a pattern whose imaginary part is not null but relatively small, the detector in filter mode is created, processes every stream in blocks of at least two samples, and its output is the score of the window that
ends at each sample, computed with the correlation with the real part of the pattern, whatever the cutting into blocks. -/
theorem C112_reel (h : List ℂ) (seuil : ℝ) (hM : 2 ≤ h.length) (hH : ∃ v ∈ h, v ≠ 0) (hf : ¬ Franc h) (xs : List (List ℂ)) (hb : ∀ b ∈ xs, 2 ≤ b.length) :
    ∃ s0 s y d, DetRif.cree h seuil = some s0 ∧ s0.flux xs = some (s, y, d) ∧ d.length = xs.length ∧ y.length = xs.flatten.length ∧
      ∀ k, k < y.length → y[k]? = some (scoreAvec (correl (partieReelle h) xs.flatten k) h xs.flatten k) := by
  have hE : 0 < enMotif h := enMotif_pos h hH
  have hr : 0 < normeMotif h := by rw [normeMotif_carre]; exact Real.sqrt_pos.2 hE
  have lR : (partieReelle h).length = h.length := List.length_map ..
  have hcree : DetRif.cree h seuil = some ⟨Filtre.Rif.init 0 ((partieReelle h).reverse.map fun v : ℂ => (starRingEnd ℂ) v / (normeMotif h : ℂ)), Filtre.Mg.init 0 h.length, ⟨h.length, 1, h.length - 1, seuil, normeMotif h, 0, 0, 0, 0, none, 0⟩⟩ := by
    unfold DetRif.cree
    simp only
    rw [if_neg hr.ne', coefs_reels h _ hr hf]
  obtain ⟨r', c, hc1, hc2, hc3⟩ := Filtre.C19_convolution ((partieReelle h).reverse.map fun v : ℂ => (starRingEnd ℂ) v / (normeMotif h : ℂ)) (by simp [lR]; omega) xs
  obtain ⟨m', e, he1, he2, he3⟩ := Filtre.C23_moyenne h.length (by omega) (xs.map fun x => x.map fun v : ℂ => ‖v‖ ^ 2)
  have hfl : (xs.map fun x => x.map fun v : ℂ => ‖v‖ ^ 2).flatten = xs.flatten.map fun v : ℂ => ‖v‖ ^ 2 := by rw [List.map_flatten]
  rw [hfl] at he2 he3
  rw [List.length_map] at he2
  obtain ⟨s, d, hs, hd⟩ := flux_some xs ⟨Filtre.Rif.init 0 ((partieReelle h).reverse.map fun v : ℂ => (starRingEnd ℂ) v / (normeMotif h : ℂ)), Filtre.Mg.init 0 h.length, ⟨h.length, 1, h.length - 1, seuil, normeMotif h, 0, 0, 0, 0, none, 0⟩⟩ h.length rfl hM hb r' m' c e hc1 he1
  refine ⟨_, s, _, d, hcree, hs, hd, ?_, ?_⟩
  · simp [normaliseCorr, seuille, hc2, he2]
  · intro k hk
    have hk' : k < xs.flatten.length := by simpa [normaliseCorr, seuille, hc2, he2] using hk
    unfold normaliseCorr seuille
    rw [List.getElem?_zipWith, List.getElem?_map, hc3 k (by omega), he3 k (by omega)]
    simp only [Option.map_some]
    rw [convol_correl, moyenne_energie, normeMotif_carre]
    congr 1
    exact valeur_avec h xs.flatten k (by omega) hE _

theorem somme_image_getD (g : ℂ → ℝ) (h : List ℂ) : (h.map g).sum = ∑ i ∈ range h.length, g (h.getD i 0) := by
  induction h with
  | nil => simp
  | cons v h ih => rw [List.map_cons, List.sum_cons, ih, List.length_cons, sum_range_succ', List.getD_cons_zero, add_comm]; simp

/-- **C112 (small imaginary part).** The correlation with the real part of such a pattern differs from the correlation with the pattern by less than `10⁻⁷ √M` times the bound of Cauchy-Schwarz, so that the score, when neither correlation is taken for null, differs
from the documented score by at most `10⁻⁷ √M`. -/
theorem C112_ecart (h : List ℂ) (hf : ¬ Franc h) (x : List ℂ) (k : ℤ) :
    ‖correl (partieReelle h) x k - correl h x k‖ ≤ Real.sqrt h.length / 10 ^ 7 * Real.sqrt (enFen h.length x k * enMotif h) ∧
    (1 / 10 ^ 6 < ‖correl h x k‖ / Real.sqrt (enMotif h) → 1 / 10 ^ 6 < ‖correl (partieReelle h) x k‖ / Real.sqrt (enMotif h) →
      |scoreAvec (correl (partieReelle h) x k) h x k - scoreDet h x k| ≤ Real.sqrt h.length / 10 ^ 7) := by
  have lR : (partieReelle h).length = h.length := List.length_map ..
  have gR : ∀ i, (partieReelle h).getD i 0 = (((h.getD i 0).re : ℝ) : ℂ) := by
    intro i
    unfold partieReelle
    rw [List.getD_eq_getElem?_getD, List.getElem?_map, List.getD_eq_getElem?_getD]
    cases h[i]? <;> simp
  have hE : 0 ≤ enFen h.length x k := sum_nonneg fun _ _ => by positivity
  have hH : 0 ≤ enMotif h := sum_nonneg fun _ _ => by positivity
  have hf' := hf
  unfold Franc at hf
  rw [not_or, not_le, somme_image_getD (fun v : ℂ => |v.im|), somme_image_getD (fun v : ℂ => ‖v‖)] at hf
  have hf := hf.2
  have hA : ‖correl (partieReelle h) x k - correl h x k‖ ≤ Real.sqrt h.length / 10 ^ 7 * Real.sqrt (enFen h.length x k * enMotif h) := by
    have e0 : correl (partieReelle h) x k - correl h x k = ∑ i ∈ range h.length, fen h.length x k i * (((h.getD i 0).im : ℝ) * Complex.I) := by
      unfold correl
      rw [lR, ← sum_sub_distrib]
      refine sum_congr rfl fun i _ => ?_
      rw [gR, ← mul_sub]
      congr 1
      apply Complex.ext <;> simp
    have e1 : ‖correl (partieReelle h) x k - correl h x k‖ ≤ ∑ i ∈ range h.length, Real.sqrt (enFen h.length x k) * |(h.getD i 0).im| := by
      rw [e0]
      refine (norm_sum_le _ _).trans (sum_le_sum fun i hi => ?_)
      rw [norm_mul, norm_mul, Complex.norm_I, mul_one, Complex.norm_real, Real.norm_eq_abs]
      refine mul_le_mul_of_nonneg_right (Real.le_sqrt_of_sq_le ?_) (abs_nonneg _)
      exact single_le_sum (f := fun i : ℕ => ‖fen h.length x k i‖ ^ 2) (fun _ _ => by positivity) hi
    have e2 : ∑ i ∈ range h.length, ‖h.getD i 0‖ ≤ Real.sqrt h.length * Real.sqrt (enMotif h) := by
      rw [← Real.sqrt_mul (by positivity)]
      refine Real.le_sqrt_of_sq_le ?_
      have := sq_sum_le_card_mul_sum_sq (s := range h.length) (f := fun i : ℕ => ‖h.getD i 0‖)
      rw [card_range] at this
      exact this
    rw [← mul_sum] at e1
    rw [Real.sqrt_mul hE]
    have e3 : ∑ i ∈ range h.length, |(h.getD i 0).im| ≤ Real.sqrt h.length * Real.sqrt (enMotif h) / 10 ^ 7 := by
      rw [le_div_iff₀ (by positivity)]
      linarith
    calc _ ≤ _ := e1
      _ ≤ Real.sqrt (enFen h.length x k) * (Real.sqrt h.length * Real.sqrt (enMotif h) / 10 ^ 7) := mul_le_mul_of_nonneg_left e3 (Real.sqrt_nonneg _)
      _ = _ := by ring
  refine ⟨hA, fun h1 h2 => ?_⟩
  unfold scoreDet scoreAvec
  rw [if_neg (by linarith), if_neg (by linarith), ← sub_div, abs_div, abs_of_nonneg (Real.sqrt_nonneg _)]
  have hP : 0 < enMotif h := by
    rcases hH.lt_or_eq with g | g
    · exact g
    · rw [← g] at h1
      norm_num at h1
  have hL : 0 < h.length := by
    rcases Nat.eq_zero_or_pos h.length with g | g
    · rw [List.length_eq_zero_iff] at g
      subst g
      simp [enMotif] at hP
    · exact g
  have hLr : (0 : ℝ) < h.length := by exact_mod_cast hL
  rw [div_le_iff₀ (Real.sqrt_pos.2 (by positivity))]
  refine (abs_norm_sub_norm_le _ _).trans (hA.trans (mul_le_mul_of_nonneg_left (Real.sqrt_le_sqrt ?_) (by positivity)))
  refine mul_le_mul_of_nonneg_right ?_ hH
  have : (0 : ℝ) ≤ h.length / 10 ^ 20 := by positivity
  linarith

/-- Non-vacuity of `C112_reel` and `C112_ecart`: a pattern whose imaginary part is small. -/
theorem exemple_reel : ¬ Franc [1, (1 / 10 ^ 8 : ℝ) * Complex.I] := by
  unfold Franc
  rw [not_or]
  constructor
  · intro h
    have := h ((1 / 10 ^ 8 : ℝ) * Complex.I) (by simp)
    norm_num at this
  · rw [not_le]
    simp
    norm_num

/-- **C112 (small imaginary part, refuted).** The output can be null for a window whose documented score is not: the pattern `(1, 10⁻⁸ i)` and the window `(0, 10⁹)`. -/
theorem C112_reel_refute : ∃ h x : List ℂ, ¬ Franc h ∧ scoreAvec (correl (partieReelle h) x 1) h x 1 = 0 ∧ 0 < scoreDet h x 1 := by
  refine ⟨[1, (1 / 10 ^ 8 : ℝ) * Complex.I], [0, ((10 ^ 9 : ℝ) : ℂ)], exemple_reel, ?_, ?_⟩
  · have : correl (partieReelle [1, (1 / 10 ^ 8 : ℝ) * Complex.I]) [0, ((10 ^ 9 : ℝ) : ℂ)] 1 = 0 := by
      have e : partieReelle [1, (1 / 10 ^ 8 : ℝ) * Complex.I] = [1, 0] := by
        simp only [partieReelle, List.map_cons, List.map_nil, Complex.re_ofReal_mul, Complex.I_re, mul_zero, Complex.one_re, Complex.ofReal_one, Complex.ofReal_zero]
      rw [e]
      simp [correl, fen, ech, sum_range_succ]
    unfold scoreAvec
    rw [this]
    simp
  · have hc : ‖correl [1, (1 / 10 ^ 8 : ℝ) * Complex.I] [0, ((10 ^ 9 : ℝ) : ℂ)] 1‖ = 10 := by
      simp [correl, fen, ech, sum_range_succ]
      norm_num
    have hm : enMotif [1, (1 / 10 ^ 8 : ℝ) * Complex.I] = 1 + 1 / 10 ^ 16 := by
      simp [enMotif, sum_range_succ]
      norm_num
    have hq : Real.sqrt (1 + 1 / 10 ^ 16) ≤ 2 := Real.sqrt_le_iff.2 ⟨by norm_num, by norm_num⟩
    have hq0 : 0 < Real.sqrt (1 + 1 / 10 ^ 16 : ℝ) := Real.sqrt_pos.2 (by positivity)
    unfold scoreDet
    rw [hc, hm, if_neg]
    · refine div_pos (by norm_num) (Real.sqrt_pos.2 (mul_pos ?_ (by positivity)))
      have : 0 ≤ enFen ([1, (1 / 10 ^ 8 : ℝ) * Complex.I] : List ℂ).length [0, ((10 ^ 9 : ℝ) : ℂ)] 1 := sum_nonneg fun _ _ => by positivity
      simp only [List.length_cons, List.length_nil] at this ⊢
      positivity
    · rw [not_le, lt_div_iff₀ hq0]
      linarith

end Verif.Fourier
