/-
C79: the window of Dolph-Chebyshev.
-/
import Verif.Conception.FenetresProps
import Verif.Fourier.ReechFreqProps
import Mathlib.Analysis.SpecialFunctions.Trigonometric.Chebyshev.RootsExtrema

namespace Verif.Conception

open Finset Verif.Fourier
open Polynomial.Chebyshev (T)

/-! ### `cheb_eval` is the polynomial of Chebyshev -/

/-- **C79 (evaluation).**  `cheb_eval(x, n)` is the value at `x` of the Chebyshev polynomial of the first kind, for every real `x`. -/
theorem C79_polynome (x : ℝ) (n : ℕ) : chebEval x n = (T ℝ n).eval x := by
  unfold chebEval
  split
  · rename_i h
    conv_rhs => rw [← Real.cos_arccos h.1 h.2]
    rw [Polynomial.Chebyshev.T_real_cos]
    push_cast; rfl
  · rename_i h
    split
    · rename_i h1
      conv_rhs => rw [← Real.cosh_arcosh h1]
      rw [Polynomial.Chebyshev.T_real_cosh]
      push_cast; rfl
    · rename_i h1
      have h2 : 1 ≤ -x := by
        by_contra h3
        exact h ⟨by linarith, by linarith⟩
      conv_rhs => rw [← neg_neg x, Polynomial.Chebyshev.T_eval_neg, ← Real.cosh_arcosh h2, Polynomial.Chebyshev.T_real_cosh]
      push_cast
      congr 1
      rcases Nat.even_or_odd n with he | ho
      · rw [if_neg (by rw [Nat.even_iff] at he; omega), Int.negOnePow_even _ (by exact_mod_cast he)]; simp
      · rw [if_pos (Nat.odd_iff.1 ho), Int.negOnePow_odd _ (by exact_mod_cast ho)]; simp

theorem chebBeta_val (A : ℝ) (hA : 0 < A) (m : ℕ) (hm : 0 < m) : (T ℝ m).eval (chebBeta A m) = A := by
  have hm' : (m : ℝ) ≠ 0 := by exact_mod_cast hm.ne'
  unfold chebBeta
  split
  · rename_i h
    rw [Polynomial.Chebyshev.T_real_cosh]
    push_cast
    rw [show (m : ℝ) * (Real.arcosh A * (1 / m)) = Real.arcosh A by field_simp, Real.cosh_arcosh h]
  · rename_i h
    rw [Polynomial.Chebyshev.T_real_cos]
    push_cast
    rw [show (m : ℝ) * (Real.arccos A * (1 / m)) = Real.arccos A by field_simp, Real.cos_arccos (by linarith) (by linarith)]

/-! ### Trigonometric expansion of `T_N(β cos θ)` -/

/-- Coefficients of `z^N T_N(β (z + 1/z)/2)` as a polynomial in `z²`. -/
noncomputable def coefT (β : ℝ) : ℕ → ℤ → ℝ
  | 0, k => if k = 0 then 1 else 0
  | 1, k => if k = 0 ∨ k = 1 then β / 2 else 0
  | N + 2, k => β * (coefT β (N + 1) k + coefT β (N + 1) (k - 1)) - coefT β N (k - 1)

theorem coefT_hors (β : ℝ) : ∀ (N : ℕ) (k : ℤ), (k < 0 ∨ (N : ℤ) < k) → coefT β N k = 0
  | 0, k, h => by unfold coefT; rw [if_neg]; omega
  | 1, k, h => by unfold coefT; rw [if_neg]; push_cast at h; omega
  | N + 2, k, h => by
    unfold coefT
    rw [coefT_hors β (N + 1) k (by push_cast at *; omega), coefT_hors β (N + 1) (k - 1) (by push_cast at *; omega),
      coefT_hors β N (k - 1) (by push_cast at *; omega)]
    ring

theorem coefT_sym (β : ℝ) : ∀ (N : ℕ) (k : ℤ), coefT β N (N - k) = coefT β N k
  | 0, k => by unfold coefT; congr 1; push_cast; simp
  | 1, k => by
    unfold coefT
    congr 1
    push_cast
    apply propext
    constructor <;> intro h <;> omega
  | N + 2, k => by
    unfold coefT
    have h1 := coefT_sym β (N + 1) (k - 1)
    have h2 := coefT_sym β (N + 1) k
    have h3 := coefT_sym β N (k - 1)
    push_cast at *
    rw [show (N : ℤ) + 2 - k = N + 1 - (k - 1) by ring, h1, show (N : ℤ) + 1 - (k - 1) - 1 = N + 1 - k by ring, h2,
      show (N : ℤ) + 1 - k = N - (k - 1) by ring, h3]
    ring

theorem somme_decale (f : ℤ → ℝ) (hf : f (-1) = 0) (u : ℂ) (M : ℕ) :
    ∑ k ∈ range (M + 1), (f ((k : ℤ) - 1) : ℂ) * u ^ k = u * ∑ k ∈ range M, (f k : ℂ) * u ^ k := by
  rw [sum_range_succ', mul_sum]
  simp only [Nat.cast_zero, zero_sub, hf, Complex.ofReal_zero, zero_mul, add_zero]
  apply sum_congr rfl
  intro k _
  rw [show (((k + 1 : ℕ) : ℤ) - 1) = k by push_cast; ring, pow_succ]
  ring

theorem somme_prolonge (f : ℤ → ℝ) (u : ℂ) (M P : ℕ) (h : M ≤ P) (hf : ∀ k : ℕ, M ≤ k → f k = 0) :
    ∑ k ∈ range P, (f k : ℂ) * u ^ k = ∑ k ∈ range M, (f k : ℂ) * u ^ k := by
  symm
  apply sum_subset (range_mono h)
  intro k _ hk
  rw [mem_range, not_lt] at hk
  rw [hf k hk]; simp

theorem coefT_eval (β : ℝ) (z : ℂ) (hz : z ≠ 0) : ∀ N : ℕ,
    z ^ N * (T ℂ N).eval ((β : ℂ) * ((z + z⁻¹) / 2)) = ∑ k ∈ range (N + 1), (coefT β N k : ℂ) * (z ^ 2) ^ k
  | 0 => by simp [coefT]
  | 1 => by
    rw [show ((1 : ℕ) : ℤ) = 1 from rfl, Polynomial.Chebyshev.T_one]
    simp only [sum_range_succ, sum_range_zero, coefT]
    simp
    field_simp
    ring
  | N + 2 => by
    have h1 := coefT_eval β z hz (N + 1)
    have h2 := coefT_eval β z hz N
    have e : ((N + 2 : ℕ) : ℤ) = (N : ℤ) + 2 := by push_cast; rfl
    rw [e, Polynomial.Chebyshev.T_add_two]
    have s : ∑ k ∈ range (N + 2 + 1), (coefT β (N + 2) k : ℂ) * (z ^ 2) ^ k =
        β * (∑ k ∈ range (N + 3), (coefT β (N + 1) k : ℂ) * (z ^ 2) ^ k +
          ∑ k ∈ range (N + 3), (coefT β (N + 1) ((k : ℤ) - 1) : ℂ) * (z ^ 2) ^ k) -
          ∑ k ∈ range (N + 3), (coefT β N ((k : ℤ) - 1) : ℂ) * (z ^ 2) ^ k := by
      rw [← sum_add_distrib, mul_sum, ← sum_sub_distrib]
      apply sum_congr rfl
      intro k _
      rw [coefT]
      push_cast
      ring
    rw [s, somme_decale _ (coefT_hors β _ _ (by omega)), somme_decale _ (coefT_hors β _ _ (by omega)),
      somme_prolonge (coefT β (N + 1)) _ (N + 2) (N + 3) (by omega) (fun k hk => coefT_hors β _ _ (by push_cast; omega)),
      somme_prolonge (coefT β N) _ (N + 1) (N + 2) (by omega) (fun k hk => coefT_hors β _ _ (by omega)), ← h1, ← h2]
    simp only [Polynomial.eval_sub, Polynomial.eval_mul, Polynomial.eval_X, Polynomial.eval_ofNat]
    push_cast
    field_simp
    ring

/-- `T_N(β cos θ) = Σ_k a_k e^{i(2k-N)θ}`. -/
theorem T_trigo (β θ : ℝ) (N : ℕ) :
    (((T ℝ N).eval (β * Real.cos θ) : ℝ) : ℂ) =
      ∑ k ∈ range (N + 1), (coefT β N k : ℂ) * Complex.exp (Complex.I * ((2 * k - N) * θ)) := by
  have h := coefT_eval β (Complex.exp (Complex.I * θ)) (Complex.exp_ne_zero _) N
  have hc : (β : ℂ) * ((Complex.exp (Complex.I * θ) + (Complex.exp (Complex.I * θ))⁻¹) / 2) = ((β * Real.cos θ : ℝ) : ℂ) := by
    push_cast
    rw [Complex.cos, ← Complex.exp_neg]
    congr 3
    · congr 1; ring
    · congr 1; ring
  rw [hc] at h
  have hT : (T ℂ N).eval ((β * Real.cos θ : ℝ) : ℂ) = (((T ℝ N).eval (β * Real.cos θ) : ℝ) : ℂ) := by
    rw [← Polynomial.Chebyshev.map_T (algebraMap ℝ ℂ), Polynomial.eval_map_algebraMap]
    exact Polynomial.aeval_algebraMap_apply_eq_algebraMap_eval _ _
  rw [hT] at h
  have h3 : Complex.exp (-(Complex.I * (N * θ))) * (Complex.exp (Complex.I * θ)) ^ N = 1 := by
    rw [← Complex.exp_nat_mul, ← Complex.exp_add]
    rw [show -(Complex.I * (N * θ)) + N * (Complex.I * θ) = 0 by ring, Complex.exp_zero]
  have h4 : (((T ℝ N).eval (β * Real.cos θ) : ℝ) : ℂ) = Complex.exp (-(Complex.I * (N * θ))) *
      (Complex.exp (Complex.I * θ) ^ N * (((T ℝ N).eval (β * Real.cos θ) : ℝ) : ℂ)) := by
    rw [← mul_assoc, h3, one_mul]
  rw [h4, h, mul_sum]
  apply sum_congr rfl
  intro k _
  rw [← Complex.exp_nat_mul, ← Complex.exp_nat_mul, mul_left_comm, ← Complex.exp_add]
  congr 2
  push_cast
  ring

/-! ### The window -/

theorem valeurMax_prop (l : List ℝ) (hl : l ≠ []) : valeurMax l ∈ l ∧ ∀ x ∈ l, x ≤ valeurMax l := by
  have key : ∀ (l : List ℝ) (v : ℝ), (l.foldl max v = v ∨ l.foldl max v ∈ l) ∧ v ≤ l.foldl max v ∧ ∀ x ∈ l, x ≤ l.foldl max v := by
    intro l
    induction l with
    | nil => intro v; simp
    | cons a l ih =>
      intro v
      obtain ⟨h1, h2, h3⟩ := ih (max v a)
      refine ⟨?_, (le_max_left v a).trans h2, fun x hx => ?_⟩
      · rw [List.foldl_cons]
        rcases h1 with h1 | h1
        · rcases max_choice v a with h | h
          · left; rw [h1, h]
          · right; rw [h1, h]; exact List.mem_cons_self
        · right; exact List.mem_cons_of_mem _ h1
      · rcases List.mem_cons.1 hx with rfl | hx
        · exact (le_max_right v x).trans h2
        · exact h3 x hx
  cases l with
  | nil => exact absurd rfl hl
  | cons v l =>
    obtain ⟨h1, h2, h3⟩ := key l v
    refine ⟨?_, fun x hx => ?_⟩
    · show l.foldl max v ∈ v :: l
      rcases h1 with h1 | h1
      · rw [h1]; exact List.mem_cons_self
      · exact List.mem_cons_of_mem _ h1
    · rcases List.mem_cons.1 hx with rfl | hx
      · exact h2
      · exact h3 x hx

/-- The coefficients folded on `N` points (`a_0` and `a_N` fall on the same point). -/
noncomputable def replie (β : ℝ) (N : ℕ) : List ℂ :=
  (List.range N).map fun j : ℕ => ((if j = 0 then 2 * coefT β N 0 else coefT β N j : ℝ) : ℂ)

theorem replie_getD (β : ℝ) (N j : ℕ) (hj : j < N) :
    (replie β N).getD j 0 = ((if j = 0 then 2 * coefT β N 0 else coefT β N j : ℝ) : ℂ) := by
  rw [List.getD_eq_getElem _ _ (by simp [replie]; exact hj)]
  simp [replie]

theorem coefT_N (β : ℝ) (N : ℕ) : coefT β N N = coefT β N 0 := by
  have := coefT_sym β N 0
  simpa using this

theorem somme_replie (β : ℝ) (N : ℕ) (hN : 0 < N) (u : ℂ) (hu : u ^ N = 1) :
    ∑ k ∈ range (N + 1), (coefT β N k : ℂ) * u ^ k = ∑ j ∈ range N, (replie β N).getD j 0 * u ^ j := by
  have hR : ∑ j ∈ range N, (replie β N).getD j 0 * u ^ j =
      ∑ j ∈ range N, ((if j = 0 then 2 * coefT β N 0 else coefT β N j : ℝ) : ℂ) * u ^ j :=
    sum_congr rfl fun j hj => by rw [replie_getD β N j (mem_range.1 hj)]
  rw [hR]
  obtain ⟨M, rfl⟩ : ∃ M, N = M + 1 := ⟨N - 1, by omega⟩
  rw [sum_range_succ, sum_range_succ', hu, coefT_N, sum_range_succ']
  simp only [Nat.cast_zero, pow_zero, mul_one, if_true, if_false, Complex.ofReal_mul, Complex.ofReal_ofNat,
    Nat.cast_add, Nat.cast_one, add_eq_zero, one_ne_zero, and_false]
  ring

theorem somme_renverse (β : ℝ) (N : ℕ) (hN : 0 < N) (u : ℂ) (hu : u ^ N = 1) :
    ∑ k ∈ range (N + 1), (coefT β N k : ℂ) * u ^ k = ∑ k ∈ range (N + 1), (coefT β N k : ℂ) * u⁻¹ ^ k := by
  have hu0 : u ≠ 0 := by
    rintro rfl
    rw [zero_pow hN.ne'] at hu; exact zero_ne_one hu
  rw [← sum_range_reflect]
  apply sum_congr rfl
  intro k hk
  have hk' : k ≤ N := by rw [mem_range] at hk; omega
  rw [show N + 1 - 1 - k = N - k by omega]
  have : ((N - k : ℕ) : ℤ) = N - k := by push_cast [hk']; ring
  rw [this, coefT_sym, inv_pow]
  congr 1
  apply eq_inv_of_mul_eq_one_left
  rw [← pow_add, show N - k + k = N by omega, hu]

theorem chebSpectre_get (n : ℕ) (hn : 2 ≤ n) (β : ℝ) (i : ℕ) (hi : i < n - 1) :
    (((chebSpectre n β).getD i 0 : ℝ) : ℂ) = ∑ k ∈ range n, (coefT β (n - 1) k : ℂ) * Complex.exp (2 * Real.pi * Complex.I * i / (n - 1 : ℕ)) ^ k := by
  obtain ⟨N, rfl⟩ : ∃ N, n = N + 1 := ⟨n - 1, by omega⟩
  have hN : (N : ℂ) ≠ 0 := by exact_mod_cast (by omega : N ≠ 0)
  have h1 : N + 1 - 1 = N := by omega
  rw [List.getD_eq_getElem _ _ (by simp [chebSpectre]; omega)]
  simp only [chebSpectre, List.getElem_map, List.getElem_range, h1]
  rw [C79_polynome, Complex.ofReal_mul, T_trigo, mul_sum]
  apply sum_congr rfl
  intro k _
  rw [mul_left_comm, ← Complex.exp_nat_mul]
  congr 1
  have hs : ((if i % 2 = 1 then -1 else 1 : ℝ) : ℂ) = Complex.exp (Complex.I * (Real.pi * i)) := by
    rw [show Complex.I * ((Real.pi : ℂ) * i) = i * (Real.pi * Complex.I) by ring, Complex.exp_nat_mul, Complex.exp_pi_mul_I]
    rcases Nat.even_or_odd i with he | ho
    · rw [if_neg (by rw [Nat.even_iff] at he; omega), he.neg_one_pow]; simp
    · rw [if_pos (Nat.odd_iff.1 ho), ho.neg_one_pow]; simp
  rw [hs, ← Complex.exp_add]
  congr 1
  push_cast
  have : (N : ℂ) + 1 - 1 = N := by ring
  rw [this]
  field_simp
  ring

theorem ifft_spectre (n : ℕ) (hn : 2 ≤ n) (hn2 : n - 1 ≤ 2 ^ 29) (β : ℝ) :
    ∃ v, ifft trigoC (enC (chebSpectre n β)) = some v ∧ v.length = n - 1 ∧
      ∀ j, j < n - 1 → v.getD j 0 = (Real.sqrt (n - 1 : ℕ) : ℂ) * (replie β (n - 1)).getD j 0 := by
  obtain ⟨N, rfl⟩ : ∃ N, n = N + 1 := ⟨n - 1, by omega⟩
  rw [show N + 1 - 1 = N by omega] at hn2 ⊢
  have hN : 0 < N := by omega
  have lR : (replie β N).length = N := by simp [replie]
  have lX : (enC (chebSpectre (N + 1) β)).length = N := by rw [enC_length]; simp [chebSpectre]
  obtain ⟨⟨y, e1, e2⟩, -⟩ := C27_inverse (replie β N) (by omega) (by omega)
  obtain ⟨y', e3, l3, g3⟩ := C27_fft (replie β N) (by omega) (by omega)
  rw [e1] at e3; cases e3
  obtain ⟨z, e4, l4, g4⟩ := C27_ifft y (by omega) (by omega)
  rw [e2] at e4; cases e4
  obtain ⟨v, e5, l5, g5⟩ := C27_ifft (enC (chebSpectre (N + 1) β)) (by omega) (by omega)
  refine ⟨v, e5, by omega, fun j hj => ?_⟩
  rw [g5 j (by omega), g4 j (by omega)]
  have hs : (Real.sqrt N : ℂ) ≠ 0 := by
    have : Real.sqrt N ≠ 0 := (Real.sqrt_pos.2 (by exact_mod_cast hN)).ne'
    exact_mod_cast this
  have hXy : ∀ i, i < N → (enC (chebSpectre (N + 1) β)).getD i 0 = (Real.sqrt N : ℂ) * y.getD i 0 := by
    intro i hi
    rw [enC_getD, chebSpectre_get (N + 1) hn β i (by omega), g3 i (by omega)]
    unfold TFD
    rw [lR, mul_div_cancel₀ _ hs]
    rw [show N + 1 - 1 = N by omega]
    have hNc : (N : ℂ) ≠ 0 := by exact_mod_cast hN.ne'
    have hu : Complex.exp (2 * Real.pi * Complex.I * i / N) ^ N = 1 := by
      rw [← Complex.exp_nat_mul, show (N : ℂ) * (2 * Real.pi * Complex.I * i / N) = i * (2 * Real.pi * Complex.I) by field_simp,
        Complex.exp_nat_mul_two_pi_mul_I]
    rw [somme_renverse β N hN _ hu, somme_replie β N hN _ (by rw [inv_pow, hu, inv_one])]
    apply sum_congr rfl
    intro k _
    congr 1
    rw [← Complex.exp_neg, ← Complex.exp_nat_mul]
    congr 1
    ring
  unfold TFD
  rw [lX, l3, lR, ← mul_div_assoc, mul_sum]
  congr 1
  apply sum_congr rfl
  intro i hi
  rw [hXy i (mem_range.1 hi), mul_assoc]

/-- The un-normalised window: `√N a_k`. -/
theorem chebFin_val (N : ℕ) (hN : 0 < N) (β : ℝ) (v : List ℂ) (lv : v.length = N)
    (gv : ∀ j, j < N → v.getD j 0 = (Real.sqrt N : ℂ) * (replie β N).getD j 0) :
    ∃ w : List ℝ, chebFin (v.map Complex.re) = w.map (fun x : ℝ => x / valeurMax w) ∧ w.length = N + 1 ∧
      ∀ k, k ≤ N → w.getD k 0 = Real.sqrt N * coefT β N k := by
  have gr : ∀ j, j < N → (v.map Complex.re).getD j 0 = Real.sqrt N * (if j = 0 then 2 * coefT β N 0 else coefT β N j) := by
    intro j hj
    have h1 := gv j hj
    rw [replie_getD β N j hj, ← Complex.ofReal_mul] at h1
    rw [List.getD_eq_getElem _ _ (by omega)] at h1
    rw [List.getD_eq_getElem _ _ (by rw [List.length_map]; omega), List.getElem_map, h1, Complex.ofReal_re]
  have lr : (v.map Complex.re).length = N := by simp [lv]
  cases hv : v.map Complex.re with
  | nil => rw [hv] at lr; simp at lr; omega
  | cons a l =>
    rw [hv] at lr gr
    have ha : a = Real.sqrt N * (2 * coefT β N 0) := by
      have := gr 0 hN
      simpa using this
    have ll : l.length + 1 = N := by simpa using lr
    refine ⟨(a / 2) :: l ++ [a / 2], rfl, by simp; omega, fun k hk => ?_⟩
    rcases Nat.eq_zero_or_pos k with h | h
    · subst h
      simp [ha]
      ring
    · obtain ⟨j, rfl⟩ : ∃ j, k = j + 1 := ⟨k - 1, by omega⟩
      rcases Nat.lt_or_ge (j + 1) N with h1 | h1
      · have := gr (j + 1) h1
        rw [if_neg (by omega)] at this
        rw [← this]
        simp only [List.cons_append, List.getD_cons_succ]
        rw [List.getD_append _ _ _ _ (by omega)]
      · have e : j + 1 = N := by omega
        rw [e, coefT_N, ← e]
        simp only [List.cons_append, List.getD_cons_succ]
        rw [List.getD_append_right _ _ _ _ (by omega), show j - l.length = 0 by omega]
        rw [e]
        simp [ha]
        ring

/-- Specification: frequency response of the `n` coefficients `w`, centred on `(n-1)/2`, at the angular frequency `ω`. -/
noncomputable def reponseCentree (w : List ℝ) (ω : ℝ) : ℂ :=
  ∑ k ∈ range w.length, (w.getD k 0 : ℂ) * Complex.exp (-Complex.I * (ω * (k - ((w.length : ℂ) - 1) / 2)))

/-- **C79 (window).**  For every size `n ≥ 2` and attenuation `A` (in dB): the window has `n` samples, is symmetric, its maximum is 1, and its
frequency response is proportional to `T_{n-1}(β cos(ω/2))` with `T_{n-1}(β) = 10^{A/20}`. -/
theorem C79_reponse (n : ℕ) (hn : 2 ≤ n) (hn2 : n - 1 ≤ 2 ^ 29) (A : ℝ) (sym : Bool) :
    ∃ w c β, fenChebychev n A sym = some w ∧ w.length = n ∧ (∀ k, k < n → w.getD (n - 1 - k) 0 = w.getD k 0) ∧
      (∀ k, k < n → w.getD k 0 ≤ 1) ∧ (∃ k, k < n ∧ w.getD k 0 = 1) ∧
      0 < c ∧ (T ℝ ((n : ℤ) - 1)).eval β = (10 : ℝ) ^ (A / 20) ∧ (0 ≤ A → 1 ≤ β) ∧
      ∀ ω : ℝ, reponseCentree w ω = ((c * (T ℝ ((n : ℤ) - 1)).eval (β * Real.cos (ω / 2)) : ℝ) : ℂ) := by
  obtain ⟨N, rfl⟩ : ∃ N, n = N + 1 := ⟨n - 1, by omega⟩
  have hN : 0 < N := by omega
  set Al := (10 : ℝ) ^ (A / 20) with hAl
  have hA0 : 0 < Al := by positivity
  set β := chebBeta Al N with hβ
  have hT := chebBeta_val Al hA0 N hN
  obtain ⟨v, e1, l1, g1⟩ := ifft_spectre (N + 1) hn hn2 β
  rw [show N + 1 - 1 = N by omega] at l1 g1
  obtain ⟨w, e2, l2, g2⟩ := chebFin_val N hN β v l1 g1
  have hw0 : w ≠ [] := by intro h; rw [h] at l2; simp at l2
  obtain ⟨m1, m2⟩ := valeurMax_prop w hw0
  have hsq : 0 < Real.sqrt N := Real.sqrt_pos.2 (by exact_mod_cast hN)
  -- the sum of the coefficients
  have hsom : ∑ k ∈ range (N + 1), coefT β N k = Al := by
    have := T_trigo β 0 N
    simp only [Real.cos_zero, mul_one] at this
    rw [← hβ] at hT
    rw [hT] at this
    have h2 : ((Al : ℝ) : ℂ) = ((∑ k ∈ range (N + 1), coefT β N k : ℝ) : ℂ) := by
      rw [this]; push_cast; simp
    exact_mod_cast h2.symm
  have hmax : 0 < valeurMax w := by
    by_contra hneg
    have : ∑ k ∈ range (N + 1), coefT β N k ≤ 0 := by
      apply sum_nonpos
      intro k hk
      have hk' : k ≤ N := by rw [mem_range] at hk; omega
      have h1 := g2 k hk'
      have h2 : w.getD k 0 ≤ 0 := by
        rw [List.getD_eq_getElem _ _ (by omega)]
        exact (m2 _ (List.getElem_mem _)).trans (not_lt.1 hneg)
      rw [h1] at h2
      by_contra h3
      exact absurd h2 (not_le.2 (mul_pos hsq (not_le.1 h3)))
    linarith
  have gw : ∀ k, k ≤ N → (w.map (fun x : ℝ => x / valeurMax w)).getD k 0 = Real.sqrt N * coefT β N k / valeurMax w := by
    intro k hk
    rw [← g2 k hk, List.getD_eq_getElem _ _ (by simp; omega), List.getD_eq_getElem _ _ (by omega), List.getElem_map]
  have hT' : (T ℝ (((N + 1 : ℕ) : ℤ) - 1)) = T ℝ (N : ℤ) := by congr 1; push_cast; ring
  refine ⟨w.map (fun x : ℝ => x / valeurMax w), Real.sqrt N / valeurMax w, β, ?_, by simp [l2], fun k hk => ?_, fun k hk => ?_, ?_,
    div_pos hsq hmax, by rw [hT']; exact hT, fun hA => ?_, fun ω => ?_⟩
  · unfold fenChebychev
    rw [if_neg (by omega)]
    simp only [show N + 1 - 1 = N by omega]
    rw [← hAl, ← hβ, e1, Option.map_some, e2]
  · rw [gw k (by omega), gw _ (by omega)]
    have := coefT_sym β N k
    rw [show ((N + 1 - 1 - k : ℕ) : ℤ) = N - k by omega, this]
  · rw [gw k (by omega), ← g2 k (by omega), div_le_one hmax, List.getD_eq_getElem _ _ (by omega)]
    exact m2 _ (List.getElem_mem _)
  · obtain ⟨k, hk, e⟩ := List.getElem_of_mem m1
    refine ⟨k, by omega, ?_⟩
    rw [gw k (by omega), ← g2 k (by omega), List.getD_eq_getElem _ _ hk, e, div_self hmax.ne']
  · have h1 : 1 ≤ Al := by
      rw [hAl]; exact Real.one_le_rpow (by norm_num) (by positivity)
    rw [hβ]
    unfold chebBeta
    rw [if_pos h1]
    exact Real.one_le_cosh _
  · have hc : Real.cos (ω / 2) = Real.cos (-(ω / 2)) := (Real.cos_neg _).symm
    rw [hT', hc, Complex.ofReal_mul, T_trigo, mul_sum]
    unfold reponseCentree
    rw [List.length_map, l2]
    apply sum_congr rfl
    intro k hk
    rw [mem_range] at hk
    rw [gw k (by omega)]
    have : Complex.exp (-Complex.I * (ω * (k - (((N + 1 : ℕ) : ℂ) - 1) / 2))) = Complex.exp (Complex.I * ((2 * k - N) * ((-(ω / 2) : ℝ) : ℂ))) := by
      congr 1; push_cast; ring
    rw [this]
    push_cast
    ring

/-- **C79 (attenuation).**  For every size `n ≥ 2` and attenuation `A ≥ 0` dB, there is `β ≥ 1` such that outside the main lobe
(`|cos(ω/2)| ≤ 1/β`) the response of the window never exceeds its response at 0 divided by `10^{A/20}`, and this bound is reached at the edge of the main lobe. -/
theorem C79_attenuation (n : ℕ) (hn : 2 ≤ n) (hn2 : n - 1 ≤ 2 ^ 29) (A : ℝ) (hA : 0 ≤ A) (sym : Bool) :
    ∃ w β, fenChebychev n A sym = some w ∧ 1 ≤ β ∧ (T ℝ ((n : ℤ) - 1)).eval β = (10 : ℝ) ^ (A / 20) ∧ 0 < ‖reponseCentree w 0‖ ∧
      (∀ ω : ℝ, |Real.cos (ω / 2)| ≤ 1 / β → ‖reponseCentree w ω‖ ≤ ‖reponseCentree w 0‖ / (10 : ℝ) ^ (A / 20)) ∧
      (∀ ω : ℝ, Real.cos (ω / 2) = 1 / β → ‖reponseCentree w ω‖ = ‖reponseCentree w 0‖ / (10 : ℝ) ^ (A / 20)) := by
  obtain ⟨w, c, β, e, -, -, -, -, hc, hT, hβ, g⟩ := C79_reponse n hn hn2 A sym
  have hβ1 := hβ hA
  have hp : (0 : ℝ) < (10 : ℝ) ^ (A / 20) := by positivity
  have h0 : ‖reponseCentree w 0‖ = c * (10 : ℝ) ^ (A / 20) := by
    rw [g 0, Complex.norm_real, zero_div, Real.cos_zero, mul_one, hT, Real.norm_eq_abs, abs_of_pos (mul_pos hc hp)]
  have hq : ‖reponseCentree w 0‖ / (10 : ℝ) ^ (A / 20) = c := by rw [h0, mul_div_cancel_right₀ _ hp.ne']
  refine ⟨w, β, e, hβ1, hT, by rw [h0]; positivity, fun ω h => ?_, fun ω h => ?_⟩
  · rw [hq, g ω, Complex.norm_real, Real.norm_eq_abs, abs_mul, abs_of_pos hc]
    apply mul_le_of_le_one_right hc.le
    apply Polynomial.Chebyshev.abs_eval_T_real_le_one
    rw [abs_mul, abs_of_pos (by linarith : 0 < β)]
    calc β * |Real.cos (ω / 2)| ≤ β * (1 / β) := by gcongr
      _ = 1 := by rw [mul_one_div, div_self (by linarith)]
  · rw [hq, g ω, Complex.norm_real, Real.norm_eq_abs, h, mul_one_div, div_self (by linarith)]
    simp [abs_of_pos hc]

example : ∃ w, fenChebychev 5 60 true = some w ∧ w.length = 5 ∧ w.getD 4 0 = w.getD 0 0 := by
  obtain ⟨w, c, β, e, l, s, _⟩ := C79_reponse 5 (by norm_num) (by norm_num) 60 true
  exact ⟨w, e, l, s 0 (by norm_num)⟩

/-- C79, refuted: the argument `symetrique` is ignored.  Asked for as periodic, a window must be even around `n/2` (`w_k = w_{n-k}`, C78); the
Chebyshev window of 3 points is not. -/
theorem C79_periodique_refute : ∃ w, fenetre .chebychev 3 false = some w ∧ w.getD 1 0 ≠ w.getD 2 0 := by
  obtain ⟨w, c, β, e, l, s, m, ⟨k, hk, k1⟩, hc, hT, _, g⟩ := C79_reponse 3 (by norm_num) (by norm_num) 80 true
  refine ⟨w, e, fun h12 => ?_⟩
  have h02 := s 0 (by norm_num)
  simp only [show 3 - 1 - 0 = 2 from rfl] at h02
  have h1 : w.getD 0 0 = 1 ∧ w.getD 1 0 = 1 ∧ w.getD 2 0 = 1 := by
    have : k = 0 ∨ k = 1 ∨ k = 2 := by omega
    rcases this with h | h | h <;> subst h
    · exact ⟨k1, by rw [h12, h02, k1], by rw [h02, k1]⟩
    · exact ⟨by rw [← h02, ← h12, k1], k1, by rw [← h12, k1]⟩
    · exact ⟨by rw [← h02, k1], by rw [h12, k1], k1⟩
  have hT2 : (T ℝ (((3 : ℕ) : ℤ) - 1)) = T ℝ 2 := rfl
  rw [hT2] at g hT
  have g0 := g 0
  have gp := g Real.pi
  rw [zero_div, Real.cos_zero, mul_one, hT] at g0
  rw [Real.cos_pi_div_two, mul_zero, Polynomial.Chebyshev.T_two] at gp
  unfold reponseCentree at g0 gp
  rw [l] at g0 gp
  simp only [sum_range_succ, sum_range_zero, h1.1, h1.2.1, h1.2.2] at g0 gp
  have x0 : Complex.exp (-Complex.I * ((Real.pi : ℂ) * (((0 : ℕ) : ℂ) - (((3 : ℕ) : ℂ) - 1) / 2))) = -1 := by
    rw [← Complex.exp_pi_mul_I]; congr 1; push_cast; ring
  have x1 : Complex.exp (-Complex.I * ((Real.pi : ℂ) * (((1 : ℕ) : ℂ) - (((3 : ℕ) : ℂ) - 1) / 2))) = 1 := by
    rw [show -Complex.I * ((Real.pi : ℂ) * (((1 : ℕ) : ℂ) - (((3 : ℕ) : ℂ) - 1) / 2)) = 0 by push_cast; ring, Complex.exp_zero]
  have x2 : Complex.exp (-Complex.I * ((Real.pi : ℂ) * (((2 : ℕ) : ℂ) - (((3 : ℕ) : ℂ) - 1) / 2))) = -1 := by
    have : Complex.exp (-(Real.pi * Complex.I)) = -1 := by rw [Complex.exp_neg, Complex.exp_pi_mul_I]; norm_num
    rw [← this]; congr 1; push_cast; ring
  rw [x0, x1, x2] at gp
  simp only [Complex.ofReal_zero, zero_mul, mul_zero, Complex.exp_zero, Complex.ofReal_one] at g0
  have p1 : ((-1 : ℝ) : ℂ) = ((c * Polynomial.eval 0 (2 * Polynomial.X ^ 2 - 1) : ℝ) : ℂ) := by
    rw [← gp]; push_cast; ring
  have p0 : ((3 : ℝ) : ℂ) = ((c * (10 : ℝ) ^ ((80 : ℝ) / 20) : ℝ) : ℂ) := by
    rw [← g0]; push_cast; ring
  have q1 : (-1 : ℝ) = c * Polynomial.eval 0 (2 * Polynomial.X ^ 2 - 1) := by exact_mod_cast p1
  have q0 : (3 : ℝ) = c * (10 : ℝ) ^ ((80 : ℝ) / 20) := by exact_mod_cast p0
  have : (10 : ℝ) ^ ((80 : ℝ) / 20) = 10 ^ 4 := by
    rw [show (80 : ℝ) / 20 = ((4 : ℕ) : ℝ) by norm_num, Real.rpow_natCast]
  rw [this] at q0
  simp at q1
  rw [← q1] at q0
  norm_num at q0

end Verif.Conception
