/-
C67 (Goertzel), C68 (frequency grids).
-/
import Verif.Fourier.Estim
import Mathlib.Analysis.InnerProductSpace.PiL2
import Mathlib.Algebra.Order.Chebyshev
import Mathlib.Tactic.LinearCombination

namespace Verif.Fourier

open Verif.Filtre Finset

/-! ### Specification -/

/-- Fourier transform of a finite real signal at the normalised frequency `f`. -/
noncomputable def fourierEn (x : List ℝ) (f : ℝ) : ℂ :=
  ∑ j ∈ range x.length, (x.getD j 0 : ℂ) * Complex.exp (-(2 * Real.pi * f * j : ℝ) * Complex.I)

/-! ### C67 -/

theorem somme_range (n : ℕ) (g : ℕ → ℝ) : ((List.range n).map g).sum = ∑ j ∈ range n, g j := by
  induction n with
  | zero => simp
  | succ n ih => rw [List.range_succ, List.map_append, List.sum_append, ih, sum_range_succ]; simp

theorem goertzel_invariant (θ : ℝ) (x : List ℝ) (w : ℝ × ℝ) :
    let z := Complex.exp (θ * Complex.I)
    let r := x.foldl (goertzelPas (Real.cos θ)) w
    (r.1 : ℂ) - star z * r.2 = z ^ x.length * ((w.1 : ℂ) - star z * w.2) +
      ∑ j ∈ range x.length, (x.getD j 0 : ℂ) * z ^ (x.length - 1 - j) := by
  intro z
  have hz : z * star z = 1 := by
    show z * (starRingEnd ℂ) z = 1
    rw [Complex.mul_conj, Complex.normSq_eq_norm_sq, Complex.norm_exp_ofReal_mul_I]; simp
  have hc : (2 * Real.cos θ : ℝ) = z + star z := by
    show _ = z + (starRingEnd ℂ) z
    rw [Complex.add_conj, Complex.exp_ofReal_mul_I_re]
  induction x generalizing w with
  | nil => simp
  | cons x xs ih =>
    simp only [List.foldl_cons]
    have := ih (goertzelPas (Real.cos θ) w x)
    simp only at this
    rw [this, List.length_cons, sum_range_succ']
    simp only [List.getD_cons_succ, List.getD_cons_zero, goertzelPas]
    have hs : ∀ j ∈ range xs.length, (xs.getD j 0 : ℂ) * z ^ (xs.length + 1 - 1 - (j + 1))
        = (xs.getD j 0 : ℂ) * z ^ (xs.length - 1 - j) := by
      intro j _; congr 2; omega
    rw [sum_congr rfl hs]
    push_cast
    rw [show (2 * Complex.cos (θ : ℂ)) = z + star z by rw [← hc]; push_cast; ring]
    rw [Nat.sub_zero]
    linear_combination (z ^ xs.length * (w.2 : ℂ)) * hz

theorem goertzel_energie (f : ℝ) (x : List ℝ) :
    goertzelFin (Real.cos (2 * Real.pi * f)) (x.foldl (goertzelPas (Real.cos (2 * Real.pi * f))) (0, 0))
      = 2 * ‖fourierEn x f‖ ^ 2 := by
  set θ := 2 * Real.pi * f with hθ
  have inv := goertzel_invariant θ x (0, 0)
  set w := x.foldl (goertzelPas (Real.cos θ)) (0, 0) with hw
  set z := Complex.exp (θ * Complex.I) with hzdef
  simp only [Complex.ofReal_zero, mul_zero, sub_zero, zero_add] at inv
  have hnz : ‖z‖ = 1 := Complex.norm_exp_ofReal_mul_I θ
  -- numerator as a squared norm
  have h1 : goertzelFin (Real.cos θ) w = 2 * ‖(w.1 : ℂ) - star z * w.2‖ ^ 2 := by
    rw [← Complex.normSq_eq_norm_sq, Complex.normSq_apply]
    have hre : (star z).re = Real.cos θ := by
      show ((starRingEnd ℂ) z).re = _
      rw [Complex.conj_re, hzdef, Complex.exp_ofReal_mul_I_re]
    have him : (star z).im = -Real.sin θ := by
      show ((starRingEnd ℂ) z).im = _
      rw [Complex.conj_im, hzdef, Complex.exp_ofReal_mul_I_im]
    simp only [Complex.sub_re, Complex.sub_im, Complex.mul_re, Complex.mul_im, Complex.ofReal_re,
      Complex.ofReal_im, mul_zero, sub_zero, hre, him, zero_add, zero_sub]
    unfold goertzelFin
    have := Real.sin_sq_add_cos_sq θ
    linear_combination (-2 * w.2 ^ 2) * this
  have h2 : ((w.1 : ℂ) - star z * w.2) = z ^ (x.length - 1) * fourierEn x f := by
    rw [inv]
    unfold fourierEn
    rw [mul_sum]
    apply sum_congr rfl
    intro j hj
    have hj := mem_range.1 hj
    have e1 : z ^ (x.length - 1) = z ^ (x.length - 1 - j) * z ^ j := by rw [← pow_add]; congr 1; omega
    have e2 : z ^ j * Complex.exp (-(2 * Real.pi * f * j : ℝ) * Complex.I) = 1 := by
      rw [hzdef, ← Complex.exp_nat_mul, ← Complex.exp_add, hθ]
      rw [show ((j : ℂ) * (((2 * Real.pi * f : ℝ) : ℂ) * Complex.I) + -(2 * Real.pi * f * j : ℝ) * Complex.I) = 0 by
        push_cast; ring, Complex.exp_zero]
    rw [e1]
    linear_combination (-(x.getD j 0 : ℂ) * z ^ (x.length - 1 - j)) * e2
  rw [h1, h2, norm_mul, norm_pow, hnz, one_pow, one_mul]

/-- **C67 (Goertzel on a buffer).**  For every signal and frequency the result is
`2|X(f)|² / (n Σ x²)`; it is not a number exactly for a null (or empty) signal. -/
theorem C67_goertzel (x : List ℝ) (f : ℝ) :
    goertzel x f = if ∀ v ∈ x, v = 0 then none
      else some (2 * ‖fourierEn x f‖ ^ 2 / (x.length * (x.map fun v => v ^ 2).sum)) := by
  unfold goertzel divise
  simp only [goertzel_energie]
  have hsq : (x.map fun v => v * v) = x.map fun v => v ^ 2 := by
    apply List.map_congr_left; intro v _; ring
  rw [hsq]
  have hz : (x.map fun v => v ^ 2).sum * (x.length : ℝ) = 0 ↔ ∀ v ∈ x, v = 0 := by
    have key : ∀ l : List ℝ, 0 ≤ (l.map fun v => v ^ 2).sum ∧ ((l.map fun v => v ^ 2).sum = 0 ↔ ∀ v ∈ l, v = 0) := by
      intro l
      induction l with
      | nil => simp
      | cons a l ih =>
        obtain ⟨i1, i2⟩ := ih
        have ha := sq_nonneg a
        simp only [List.map_cons, List.sum_cons, List.mem_cons, forall_eq_or_imp]
        refine ⟨by linarith, ?_, ?_⟩
        · intro h
          exact ⟨pow_eq_zero_iff (n := 2) (by norm_num) |>.1 (by linarith), i2.1 (by linarith)⟩
        · rintro ⟨h1, h2⟩; rw [h1, i2.2 h2]; ring
    rw [mul_eq_zero, (key x).2]
    constructor
    · rintro (h | h)
      · exact h
      · have : x = [] := by simpa using h
        subst this; simp
    · exact fun h => .inl h
  by_cases h : ∀ v ∈ x, v = 0
  · rw [if_pos (hz.2 h), if_pos h]
  · rw [if_neg (fun hc => h (hz.1 hc)), if_neg h, mul_comm (x.map _).sum]

theorem fourierEn_cs (x : List ℝ) (f : ℝ) :
    ‖fourierEn x f‖ ^ 2 ≤ x.length * (x.map fun v => v ^ 2).sum := by
  have hs : (x.map fun v => v ^ 2).sum = ∑ j ∈ range x.length, (x.getD j 0) ^ 2 := by
    induction x with
    | nil => simp
    | cons a l ih =>
      rw [List.map_cons, List.sum_cons, ih, List.length_cons, sum_range_succ']
      simp only [List.getD_cons_succ, List.getD_cons_zero]
      ring
  have h1 : ‖fourierEn x f‖ ≤ ∑ j ∈ range x.length, |x.getD j 0| := by
    unfold fourierEn
    refine le_trans (norm_sum_le _ _) (sum_le_sum fun j _ => ?_)
    rw [norm_mul, Complex.norm_real, Real.norm_eq_abs,
      show (-(2 * Real.pi * f * j : ℝ) * Complex.I : ℂ) = ((-(2 * Real.pi * f * j) : ℝ) : ℂ) * Complex.I by push_cast; ring,
      Complex.norm_exp_ofReal_mul_I, mul_one]
  calc ‖fourierEn x f‖ ^ 2 ≤ (∑ j ∈ range x.length, |x.getD j 0|) ^ 2 :=
        pow_le_pow_left₀ (norm_nonneg _) h1 2
    _ ≤ (range x.length).card * ∑ j ∈ range x.length, |x.getD j 0| ^ 2 := sq_sum_le_card_mul_sum_sq
    _ = _ := by rw [card_range, hs]; simp [sq_abs]

/-- **C67 (bounds of the score).**  The score lies between 0 and 2. (The documentation announces 1: see
the next theorem and the refutation below.) -/
theorem C67_score_partial (x : List ℝ) (f : ℝ) (s : ℝ) (h : goertzel x f = some s) : 0 ≤ s ∧ s ≤ 2 := by
  rw [C67_goertzel] at h
  split at h
  · cases h
  · rename_i hnz
    have hs := Option.some.inj h
    have hcs := fourierEn_cs x f
    have hnn := sq_nonneg ‖fourierEn x f‖
    rw [← hs]
    constructor
    · apply div_nonneg (by linarith) (le_trans hnn hcs)
    · rcases eq_or_lt_of_le (le_trans hnn hcs) with h0 | h0
      · rw [← h0, div_zero]; norm_num
      · rw [div_le_iff₀ h0]; linarith

/-- **C67 refuted (score at most 1).**  A constant signal at frequency 0 has score 2, for every length. -/
theorem C67_score_refute (n : ℕ) (a : ℝ) (hn : 0 < n) (ha : a ≠ 0) :
    goertzel (List.replicate n a) 0 = some 2 := by
  rw [C67_goertzel, if_neg (fun h => ha (h a (by simp; omega)))]
  have hf : fourierEn (List.replicate n a) 0 = n * a := by
    unfold fourierEn
    have : ∀ j ∈ range (List.replicate n a).length, ((List.replicate n a).getD j 0 : ℂ)
        * Complex.exp (-(2 * Real.pi * (0 : ℝ) * j : ℝ) * Complex.I) = (a : ℂ) := by
      intro j hj
      have hj : j < n := by simpa using hj
      rw [List.getD_eq_getElem?_getD, List.getElem?_replicate, if_pos hj]
      simp
    rw [sum_congr rfl this]; simp
  rw [hf]
  have hn' : (n : ℝ) ≠ 0 := by exact_mod_cast hn.ne'
  simp only [List.length_replicate, List.map_replicate, List.sum_replicate, nsmul_eq_mul, norm_mul,
    Complex.norm_natCast, Complex.norm_real, Real.norm_eq_abs, mul_pow, sq_abs]
  congr 1
  field_simp

/-- **C67 (pure tone).**  A sinusoid of frequency `k/n`, `0 < k < n/2`, analysed at its frequency on `n`
samples, is such that the score is 1. Stated for the cosine. -/
theorem C67_ton (n k : ℕ) (hk : 0 < k) (hn : 2 * k < n) :
    goertzel ((List.range n).map fun j : ℕ => Real.cos (2 * Real.pi * ((k : ℝ) / n) * j)) ((k : ℝ) / n)
      = some 1 := by
  have hn0 : 0 < n := by omega
  have hnr : (n : ℝ) ≠ 0 := by exact_mod_cast hn0.ne'
  have hnc : (n : ℂ) ≠ 0 := by exact_mod_cast hn0.ne'
  set ζ := Complex.exp (2 * Real.pi * Complex.I / n) with hζ
  have hprim : IsPrimitiveRoot ζ n := Complex.isPrimitiveRoot_exp n hn0.ne'
  have hcos : ∀ j : ℕ, ((Real.cos (2 * Real.pi * ((k : ℝ) / n) * j) : ℝ) : ℂ)
      = (ζ ^ (k * j) + (ζ⁻¹) ^ (k * j)) / 2 := by
    intro j
    rw [Complex.ofReal_cos, Complex.cos, hζ, ← Complex.exp_neg, ← Complex.exp_nat_mul, ← Complex.exp_nat_mul]
    congr 2
    · congr 1; push_cast; field_simp
    · congr 1; push_cast; field_simp
  have hgeo : ∑ j ∈ range n, (ζ ^ (2 * k)) ^ j = 0 := by
    have h1 : ζ ^ (2 * k) ≠ 1 := by
      intro h
      have := hprim.dvd_of_pow_eq_one _ h
      have := Nat.le_of_dvd (by omega) this
      omega
    have h2 := geom_sum_mul (ζ ^ (2 * k)) n
    have h3 : (ζ ^ (2 * k)) ^ n = 1 := by rw [← pow_mul, mul_comm, pow_mul, hprim.pow_eq_one, one_pow]
    rw [h3, sub_self] at h2
    exact (mul_eq_zero.1 h2).resolve_right (sub_ne_zero.2 h1)
  have hζ0 : ζ ≠ 0 := Complex.exp_ne_zero _
  have hgeo' : ∑ j ∈ range n, (ζ⁻¹ ^ (2 * k)) ^ j = 0 := by
    have hp := hprim.inv
    have h1 : ζ⁻¹ ^ (2 * k) ≠ 1 := by
      intro h
      have := hp.dvd_of_pow_eq_one _ h
      have := Nat.le_of_dvd (by omega) this
      omega
    have h2 := geom_sum_mul (ζ⁻¹ ^ (2 * k)) n
    have h3 : (ζ⁻¹ ^ (2 * k)) ^ n = 1 := by rw [← pow_mul, mul_comm, pow_mul, hp.pow_eq_one, one_pow]
    rw [h3, sub_self] at h2
    exact (mul_eq_zero.1 h2).resolve_right (sub_ne_zero.2 h1)
  set x : List ℝ := (List.range n).map fun j : ℕ => Real.cos (2 * Real.pi * ((k : ℝ) / n) * j) with hx
  have hxl : x.length = n := by simp [hx]
  have hxg : ∀ j, j < n → x.getD j 0 = Real.cos (2 * Real.pi * ((k : ℝ) / n) * j) := by
    intro j hj
    rw [hx, List.getD_eq_getElem?_getD, List.getElem?_map, List.getElem?_range hj]; rfl
  -- transform
  have hF : fourierEn x ((k : ℝ) / n) = n / 2 := by
    unfold fourierEn
    rw [hxl]
    have : ∀ j ∈ range n, (x.getD j 0 : ℂ) * Complex.exp (-(2 * Real.pi * ((k : ℝ) / n) * j : ℝ) * Complex.I)
        = 1 / 2 + (1 / 2) * (ζ⁻¹ ^ (2 * k)) ^ j := by
      intro j hj
      rw [hxg j (mem_range.1 hj), hcos]
      have e : Complex.exp (-(2 * Real.pi * ((k : ℝ) / n) * j : ℝ) * Complex.I) = ζ⁻¹ ^ (k * j) := by
        rw [hζ, ← Complex.exp_neg, ← Complex.exp_nat_mul]
        congr 1; push_cast; field_simp
      rw [e]
      have h1 : ζ ^ (k * j) * ζ⁻¹ ^ (k * j) = 1 := by rw [← mul_pow, mul_inv_cancel₀ hζ0, one_pow]
      have h2 : (ζ⁻¹ ^ (2 * k)) ^ j = ζ⁻¹ ^ (k * j) * ζ⁻¹ ^ (k * j) := by
        rw [← pow_mul, ← pow_add]; congr 1; ring
      rw [h2]
      linear_combination (1 / 2) * h1
    rw [sum_congr rfl this, sum_add_distrib, ← mul_sum, hgeo']
    simp; ring
  have hE : (x.map fun v => v ^ 2).sum = (n : ℝ) / 2 := by
    have hsum : (x.map fun v => v ^ 2).sum = ∑ j ∈ range n, (Real.cos (2 * Real.pi * ((k : ℝ) / n) * j)) ^ 2 := by
      rw [hx, List.map_map]
      exact somme_range n _
    have hc : (((x.map fun v => v ^ 2).sum : ℝ) : ℂ) = ((n / 2 : ℝ) : ℂ) := by
      rw [hsum]
      push_cast
      have : ∀ j ∈ range n, (Complex.cos (2 * Real.pi * ((k : ℂ) / n) * j)) ^ 2
          = 1 / 2 + (1 / 4) * (ζ ^ (2 * k)) ^ j + (1 / 4) * (ζ⁻¹ ^ (2 * k)) ^ j := by
        intro j _
        have := hcos j
        push_cast at this
        rw [this]
        have h1 : ζ ^ (k * j) * ζ⁻¹ ^ (k * j) = 1 := by rw [← mul_pow, mul_inv_cancel₀ hζ0, one_pow]
        have h2 : (ζ⁻¹ ^ (2 * k)) ^ j = ζ⁻¹ ^ (k * j) * ζ⁻¹ ^ (k * j) := by
          rw [← pow_mul, ← pow_add]; congr 1; ring
        have h3 : (ζ ^ (2 * k)) ^ j = ζ ^ (k * j) * ζ ^ (k * j) := by
          rw [← pow_mul, ← pow_add]; congr 1; ring
        rw [h2, h3]
        linear_combination (1 / 2) * h1
      rw [sum_congr rfl this, sum_add_distrib, sum_add_distrib, ← mul_sum, ← mul_sum, hgeo, hgeo']
      simp; ring
    exact_mod_cast hc
  rw [C67_goertzel, if_neg, hF, hE, hxl]
  · congr 1
    rw [norm_div, Complex.norm_natCast]
    simp only [Complex.norm_ofNat]
    field_simp
  · intro h
    have : x.getD 0 0 = 0 := by
      rw [List.getD_eq_getElem _ _ (by omega)]
      exact h _ (List.getElem_mem _)
    rw [hxg 0 hn0] at this
    simp at this

/-! #### Streaming filter -/

theorem derniers_bloc (R : ℕ) (a r : List ℝ) (h : r.length = R) : derniers 0 R (a ++ r) = r := by
  unfold derniers
  rw [List.length_append, ← List.append_assoc, List.drop_append]
  have h1 : (List.replicate R (0 : ℝ) ++ a).length = R + a.length := by simp
  rw [List.drop_of_length_le (by rw [h1]; omega), h1, h]
  rw [show a.length + R - (R + a.length) = 0 by omega]
  simp

/-- Invariant of the loop: `a` complete blocks, `r` the current partial block. -/
theorem boucle_goertzel (f : ℝ) (R : ℕ) (hR : 0 < R) (xs es : List ℝ) (a r : List ℝ) (hr : r.length < R)
    (hes : es.length = xs.length)
    (he : ∀ i, i < xs.length → es[i]? = some ((derniers 0 R ((a ++ r ++ xs.take (i + 1)).map fun v => v * v)).sum * (1 / (R : ℝ)))) :
    ∃ r' q, Goertzel.boucle (Real.cos (2 * Real.pi * f)) R xs es
        (r.foldl (goertzelPas (Real.cos (2 * Real.pi * f))) (0, 0)) r.length
      = some (r'.foldl (goertzelPas (Real.cos (2 * Real.pi * f))) (0, 0), r'.length,
          (Tampon.paquets R (r ++ xs)).map fun b => goertzel b f) ∧
      r'.length < R ∧ q.length = ((r ++ xs).length / R) * R ∧ r ++ xs = q ++ r' := by
  induction xs generalizing es a r with
  | nil =>
    refine ⟨r, [], ?_, hr, ?_, by simp⟩
    · simp [Goertzel.boucle, Tampon.paquets_court R r hr]
    · simp [Nat.div_eq_of_lt hr]
  | cons x xs ih =>
    cases es with
    | nil => simp at hes
    | cons e es =>
      unfold Goertzel.boucle
      have hfold : goertzelPas (Real.cos (2 * Real.pi * f)) (r.foldl (goertzelPas (Real.cos (2 * Real.pi * f))) (0, 0)) x
          = (r ++ [x]).foldl (goertzelPas (Real.cos (2 * Real.pi * f))) (0, 0) := by simp
      simp only [hfold]
      by_cases hfull : R ≤ r.length + 1
      · rw [if_pos hfull]
        have hl : (r ++ [x]).length = R := by simp; omega
        have hnext : ∀ i, i < xs.length → es[i]? = some ((derniers 0 R (((a ++ (r ++ [x])) ++ [] ++ xs.take (i + 1)).map fun v => v * v)).sum * (1 / (R : ℝ))) := by
          intro i hi
          have := he (i + 1) (by simp; omega)
          rw [List.getElem?_cons_succ] at this
          rw [this]
          simp [List.append_assoc]
        obtain ⟨r', q, e1, h2, h3, h4⟩ := ih es (a ++ (r ++ [x])) [] (by simpa using hR) (by simpa using hes) hnext
        simp only [List.foldl_nil, List.length_nil, List.nil_append] at e1 h3 h4
        rw [e1]
        have hcat : r ++ x :: xs = (r ++ [x]) ++ xs := by simp
        refine ⟨r', (r ++ [x]) ++ q, ?_, h2, ?_, ?_⟩
        · simp only [Option.some.injEq, Prod.mk.injEq, true_and]
          rw [hcat, Tampon.paquets_append R hR _ _ 1 (by omega), Tampon.paquets_un R hR _ hl, List.map_append]
          simp only [List.map_cons, List.map_nil, List.singleton_append, List.cons.injEq, and_true]
          have h0 := he 0 (by simp)
          simp only [List.getElem?_cons_zero, Option.some.injEq, zero_add] at h0
          have htk : a ++ r ++ (x :: xs).take 1 = a ++ (r ++ [x]) := by simp
          rw [htk, List.map_append, derniers_bloc R _ _ (by rw [List.length_map]; exact hl)] at h0
          unfold goertzel
          simp only [hl]
          congr 1
          rw [h0]
          have : (R : ℝ) ≠ 0 := by exact_mod_cast hR.ne'
          field_simp
        · rw [List.length_append, h3, hcat, List.length_append (as := r ++ [x]), hl]
          rw [Nat.add_div_left _ hR]; ring
        · rw [hcat, h4]; simp
      · rw [if_neg hfull]
        have hl : (r ++ [x]).length = r.length + 1 := by simp
        have hnext : ∀ i, i < xs.length → es[i]? = some ((derniers 0 R ((a ++ (r ++ [x]) ++ xs.take (i + 1)).map fun v => v * v)).sum * (1 / (R : ℝ))) := by
          intro i hi
          have := he (i + 1) (by simp; omega)
          rw [List.getElem?_cons_succ] at this
          rw [this]
          simp [List.append_assoc]
        obtain ⟨r', q, e1, h2, h3, h4⟩ := ih es a (r ++ [x]) (by omega) (by simpa using hes) hnext
        rw [hl] at e1
        refine ⟨r', q, ?_, h2, ?_, ?_⟩
        · rw [e1]; simp
        · rw [h3]; simp
        · rw [← h4]; simp

/-- **C67 (streaming Goertzel).**  For every block size `R ≥ 1` and every cutting of the input stream,
the outputs are the scores (`goertzel`) of the successive blocks of `R` samples. -/
theorem C67_filtre (f : ℝ) (R : ℕ) (hR : 0 < R) (blocs : List (List ℝ)) :
    ∃ s, enchaine Goertzel.step (Goertzel.init f R) blocs
      = some (s, (Tampon.paquets R blocs.flatten).map fun b => goertzel b f) := by
  -- general form, from a state that has seen the samples `a ++ r`
  have key : ∀ (blocs : List (List ℝ)) (s : Goertzel) (a r : List ℝ) (q : ℕ), a.length = q * R → r.length < R →
      s.R = R → s.c = Real.cos (2 * Real.pi * f) → s.cnt = r.length →
      s.w = r.foldl (goertzelPas (Real.cos (2 * Real.pi * f))) (0, 0) →
      (s.mg.K = R ∧ s.mg.fenetre.length = R ∧ s.mg.index < R ∧
        tourne s.mg.fenetre s.mg.index = derniers 0 R ((a ++ r).map fun v => v * v) ∧
        s.mg.accu = (derniers 0 R ((a ++ r).map fun v => v * v)).sum) →
      ∃ s', enchaine Goertzel.step s blocs
        = some (s', (Tampon.paquets R (r ++ blocs.flatten)).map fun b => goertzel b f) := by
    intro blocs
    induction blocs with
    | nil =>
      intro s a r q ha hr _ _ _ _ _
      exact ⟨s, by simp [enchaine, Tampon.paquets_court R r hr]⟩
    | cons b bs ih =>
      intro s a r q ha hr hsR hsc hcnt hw hmg
      -- energies
      obtain ⟨mg', en, e1, r1, hl, ho⟩ := boucle_hist (Mg.ech (· + ·) (· - ·) (fun a => a * (1 / (R : ℝ))))
        (fun (s : Mg ℝ) h => s.K = R ∧ s.fenetre.length = R ∧ s.index < R ∧ tourne s.fenetre s.index = derniers 0 R h ∧
          s.accu = (derniers 0 R h).sum)
        (fun l => (derniers 0 R l).sum * (1 / (R : ℝ))) (fun s h x hr => mg_rep R hR s h x hr)
        (b.map fun v => v * v) s.mg ((a ++ r).map fun v => v * v) hmg
      have hes : en.length = b.length := by rw [hl]; simp
      obtain ⟨r', qq, e2, h2, h3, h4⟩ := boucle_goertzel f R hR b en a r hr hes (by
        intro i hi
        rw [ho i (by simpa using hi)]
        simp [List.map_append, List.map_take])
      have hstep : Goertzel.step s b = some ({ s with w := r'.foldl (goertzelPas (Real.cos (2 * Real.pi * f))) (0, 0), cnt := r'.length, mg := mg' },
          (Tampon.paquets R (r ++ b)).map fun b => goertzel b f) := by
        unfold Goertzel.step Mg.step
        rw [hsR, if_neg (by omega), if_neg (by rw [hmg.1]; omega), e1]
        simp only [hsc, hw, hcnt, e2]
        rw [if_pos]
        simp [Tampon.paquets, Nat.add_comm]
      obtain ⟨s', e5⟩ := ih { s with w := r'.foldl (goertzelPas (Real.cos (2 * Real.pi * f))) (0, 0), cnt := r'.length, mg := mg' }
        (a ++ qq) r' (q + (r ++ b).length / R) (by rw [List.length_append, ha, h3]; ring) h2 hsR hsc rfl rfl (by
          have : (a ++ qq ++ r').map (fun v => v * v) = (a ++ r).map (fun v => v * v) ++ b.map fun v => v * v := by
            rw [List.append_assoc, ← h4]; simp
          rw [this]; exact r1)
      refine ⟨s', ?_⟩
      simp only [enchaine, hstep, e5, Option.some.injEq, Prod.mk.injEq, true_and]
      rw [List.flatten_cons, ← List.append_assoc, h4, List.append_assoc,
        Tampon.paquets_append R hR qq r' _ h3, Tampon.paquets_append R hR qq (r' ++ bs.flatten) _ h3,
        Tampon.paquets_court R r' h2, List.append_nil, List.map_append]
  obtain ⟨s', h⟩ := key blocs (Goertzel.init f R) [] [] 0 (by simp) (by simpa using hR) rfl rfl rfl rfl
    ⟨rfl, by simp [Goertzel.init, Mg.init], hR, by simp [Goertzel.init, Mg.init, tourne, derniers],
      by simp [Goertzel.init, Mg.init, derniers]⟩
  exact ⟨s', by simpa using h⟩

/-- Non-vacuity: two blocks of two samples, given in three calls. -/
example : Tampon.paquets 2 [[(1 : ℝ)], [2, 3], [4, 5]].flatten = [[1, 2], [3, 4]] := by
  simp [Tampon.paquets, List.range_succ]

/-! ### C68 -/

/-- `f` is the frequency of bin `k` of a DFT of `n` points: `k/n` modulo 1, between −1/2 and 1/2. -/
def EstFrequence (n : ℕ) (k : ℤ) (f : ℚ) : Prop := -1 / 2 ≤ f ∧ f ≤ 1 / 2 ∧ ∃ z : ℤ, f = k / n + z

theorem linspace_get (a b : ℚ) (n k : ℕ) (hk : k < n) :
    (Util.linspace a b n)[k]? = some (a + k * ((b - a) / ((n : ℚ) - 1))) := (Util.C33_linspace a b n).2.1 k hk

/-- **C68 (even sizes).**  For even `n`, element `k` of `tfd_freqs(n)` is the frequency of bin `k`, and
element `k` of `tfd_freqs(n, oui)` and of `psd_freqs(n)` that of bin `k - n/2`. -/
theorem C68_pair_partial (m : ℕ) (hm : 0 < m) :
    (tfdFreqs (2 * m) false).length = 2 * m ∧ (tfdFreqs (2 * m) true).length = 2 * m ∧
    (∀ k, k < 2 * m → ∃ f, (tfdFreqs (2 * m) false)[k]? = some f ∧ EstFrequence (2 * m) k f) ∧
    (∀ k, k < 2 * m → ∃ f, (tfdFreqs (2 * m) true)[k]? = some f ∧ EstFrequence (2 * m) (k - m) f) ∧
    psdFreqs (2 * m) true = tfdFreqs (2 * m) true := by
  have hpar : (2 * m) % 2 = 0 := by omega
  have hdiv : 2 * m / 2 = m := by omega
  have hmq : (0 : ℚ) < m := by exact_mod_cast hm
  have hm1 : (1 : ℚ) ≤ m := by exact_mod_cast hm
  have hlen : ∀ (a b : ℚ) n, (Util.linspace a b n).length = n := fun a b n => (Util.C33_linspace a b n).1
  have hbin : ∀ (j : ℤ) (z : ℤ) (k : ℤ), -(m : ℤ) ≤ j → j < m → j = k + 2 * m * z →
      EstFrequence (2 * m) k ((j : ℚ) / (2 * m)) := by
    intro j z k h1 h2 h3
    have h1' : -(m : ℚ) ≤ j := by exact_mod_cast h1
    have h2' : (j : ℚ) ≤ m := by exact_mod_cast h2.le
    refine ⟨?_, ?_, z, ?_⟩
    · rw [div_le_div_iff₀ (by norm_num) (by positivity)]; linarith
    · rw [div_le_div_iff₀ (by positivity) (by norm_num)]; linarith
    · rw [h3]; push_cast; field_simp
  -- the regular grids
  have hgrid0 : ∀ k : ℕ, k < m → (Util.linspace (0 : ℚ) (1 / 2 - 1 / ((2 * m : ℕ) : ℚ)) m)[k]? = some ((k : ℚ) / (2 * m)) := by
    intro k hk
    rw [linspace_get _ _ _ _ hk]
    congr 1
    rcases Nat.lt_or_ge 1 m with h | h
    · have : (m : ℚ) - 1 ≠ 0 := by
        have : (1 : ℚ) < m := by exact_mod_cast h
        intro hc; linarith
      push_cast; field_simp; ring
    · obtain rfl : k = 0 := by omega
      simp
  have hgrid1 : ∀ k : ℕ, k < m → (Util.linspace (-1 / 2 : ℚ) (-1 / ((2 * m : ℕ) : ℚ)) m)[k]? = some (((k : ℚ) - m) / (2 * m)) := by
    intro k hk
    rw [linspace_get _ _ _ _ hk]
    congr 1
    rcases Nat.lt_or_ge 1 m with h | h
    · have : (m : ℚ) - 1 ≠ 0 := by
        have : (1 : ℚ) < m := by exact_mod_cast h
        intro hc; linarith
      push_cast; field_simp; ring
    · obtain rfl : k = 0 := by omega
      obtain rfl : m = 1 := by omega
      norm_num
  have hgrid2 : ∀ k : ℕ, k < 2 * m → (Util.linspace (-1 / 2 : ℚ) (1 / 2 - 1 / ((2 * m : ℕ) : ℚ)) (2 * m))[k]? = some (((k : ℚ) - m) / (2 * m)) := by
    intro k hk
    rw [linspace_get _ _ _ _ hk]
    congr 1
    have : (2 * (m : ℚ)) - 1 ≠ 0 := by intro hc; linarith
    push_cast; field_simp; ring
  refine ⟨?_, ?_, ?_, ?_, ?_⟩
  · simp [tfdFreqs, hlen, hdiv]; omega
  · simp [tfdFreqs, hlen]
  · intro k hk
    simp only [tfdFreqs, Bool.false_eq_true, if_false, hpar, if_true, hdiv]
    by_cases h : k < m
    · rw [List.getElem?_append_left (by rw [hlen]; exact h), hgrid0 k h]
      exact ⟨_, rfl, by simpa using hbin k 0 k (by omega) (by omega) (by ring)⟩
    · rw [List.getElem?_append_right (by rw [hlen]; omega), hlen, hgrid1 (k - m) (by omega)]
      refine ⟨_, rfl, ?_⟩
      have := hbin ((k : ℤ) - 2 * m) (-1) k (by omega) (by omega) (by ring)
      rw [Nat.cast_sub (by omega)]
      convert this using 2
      push_cast; ring
  · intro k hk
    simp only [tfdFreqs, if_true, hpar]
    rw [hgrid2 k hk]
    refine ⟨_, rfl, ?_⟩
    have := hbin ((k : ℤ) - m) 0 (k - m) (by omega) (by omega) (by ring)
    convert this using 2
    push_cast; ring
  · simp [psdFreqs, tfdFreqs]

/-- **C68 refuted (odd sizes).**  For odd `n ≥ 3`, no element of `tfd_freqs(n, oui)` or `psd_freqs(n)` is the frequency
of a bin, and the first negative frequency of `tfd_freqs(n)` is not either. -/
theorem C68_impair_refute (m : ℕ) (hm : 0 < m) :
    (∀ k, k < 2 * m + 1 → ∃ f, (tfdFreqs (2 * m + 1) true)[k]? = some f ∧ (psdFreqs (2 * m + 1) true)[k]? = some f ∧
      ∀ b, ¬ EstFrequence (2 * m + 1) b f) ∧
    ∃ f, (tfdFreqs (2 * m + 1) false)[m + 1]? = some f ∧ ∀ b, ¬ EstFrequence (2 * m + 1) b f := by
  have hpar : (2 * m + 1) % 2 = 1 := by omega
  have hdiv : (2 * m + 1) / 2 = m := by omega
  have hmq : (0 : ℚ) < m := by exact_mod_cast hm
  have hlen : ∀ (a b : ℚ) n, (Util.linspace a b n).length = n := fun a b n => (Util.C33_linspace a b n).1
  have hno : ∀ (c : ℤ) (b : ℤ), ¬ EstFrequence (2 * m + 1) b ((c + 1 / 2 : ℚ) / (2 * m + 1)) := by
    rintro c b ⟨-, -, z, h⟩
    have h1 : (2 * (m : ℚ) + 1) ≠ 0 := by positivity
    push_cast at h
    field_simp at h
    have : (2 * c + 1 : ℤ) = 2 * (b + z * (2 * m + 1)) := by
      have h2 : ((2 * c + 1 : ℤ) : ℚ) = ((2 * (b + z * (2 * m + 1)) : ℤ) : ℚ) := by push_cast; linarith
      exact_mod_cast h2
    omega
  constructor
  · intro k hk
    have e : (Util.linspace (-1 / 2 + 1 / ((2 * m + 1 : ℕ) : ℚ)) (1 / 2) (2 * m + 1))[k]?
        = some ((((k : ℤ) - m : ℤ) + 1 / 2 : ℚ) / (2 * m + 1)) := by
      rw [linspace_get _ _ _ _ hk]
      congr 1
      have h1 : (2 * (m : ℚ) + 1) ≠ 0 := by positivity
      have h2 : (2 * (m : ℚ) + 1) - 1 ≠ 0 := by intro hc; linarith
      push_cast
      field_simp
      ring
    refine ⟨_, ?_, ?_, hno ((k : ℤ) - m)⟩
    · simp only [tfdFreqs, if_true, hpar]; rw [if_neg (by omega)]; exact e
    · simp only [psdFreqs, if_true, hpar]; rw [if_neg (by omega)]; exact e
  · refine ⟨-1 / 2, ?_, ?_⟩
    · simp only [tfdFreqs, Bool.false_eq_true, if_false, hpar, hdiv]
      rw [if_neg (by omega), List.getElem?_append_right (by rw [hlen]), hlen, linspace_get _ _ _ _ (by omega)]
      simp
    · have := hno (-(m : ℤ) - 1)
      intro b hb
      apply this b
      convert hb using 1
      have h1 : (2 * (m : ℚ) + 1) ≠ 0 := by positivity
      push_cast
      field_simp
      ring

/-- **C68 refuted (positive frequencies only).**  For every `n ≥ 4`, element 1 of `psd_freqs(n, non)` is not `1/n`. -/
theorem C68_reel_refute (n : ℕ) (hn : 4 ≤ n) : ∃ f : ℚ, (psdFreqs n false)[1]? = some f ∧ f ≠ 1 / n := by
  have hk : 1 < n / 2 := by omega
  refine ⟨_, by simp only [psdFreqs, Bool.false_eq_true, if_false]; exact linspace_get _ _ _ _ hk, ?_⟩
  have hn4 : (4 : ℚ) ≤ n := by exact_mod_cast hn
  intro h
  rcases Nat.even_or_odd' n with ⟨m, hm | hm⟩
  · have h2 : n / 2 = m := by omega
    rw [h2, if_neg (by omega)] at h
    have hm2 : (2 : ℚ) ≤ m := by exact_mod_cast (by omega)
    have h3 : (m : ℚ) - 1 ≠ 0 := by intro hc; linarith
    have h4 : (n : ℚ) = 2 * m := by exact_mod_cast hm
    rw [h4] at h
    push_cast at h
    field_simp at h
    linarith
  · have h2 : n / 2 = m := by omega
    rw [h2, if_pos (by omega)] at h
    have hm2 : (2 : ℚ) ≤ m := by exact_mod_cast (by omega)
    have h3 : (m : ℚ) - 1 ≠ 0 := by intro hc; linarith
    have h4 : (n : ℚ) = 2 * m + 1 := by exact_mod_cast hm
    have h5 : (2 * (m : ℚ) + 1) ≠ 0 := by positivity
    rw [h4] at h
    push_cast at h
    field_simp at h
    linarith

end Verif.Fourier
