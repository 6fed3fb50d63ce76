/-
C136: group delay of linear-phase filters.
-/
import Verif.Conception.AnalyseProps

namespace Verif.Conception

open Verif.Fourier Verif.FracRat Finset

/-- Difference of the phases of two complex numbers of directions `u` and `u e^{-iδ}`, up to signs. -/
theorem ecart_phase (u : ℂ) (hu : u ≠ 0) (A B δ φ ψ : ℝ) (hA : A ≠ 0) (hB : B ≠ 0) (j k : ℤ) (hφ : φ = (u * A).arg + j * (2 * Real.pi))
    (hψ : ψ = (u * Complex.exp (-(Complex.I * δ)) * B).arg + k * (2 * Real.pi)) : Complex.exp (((ψ - φ + δ : ℝ) : ℂ) * Complex.I) = if 0 < A * B then 1 else -1 := by
  have tour : ∀ (z : ℂ) (θ : ℝ) (m : ℤ), z ≠ 0 → θ = z.arg + m * (2 * Real.pi) → (‖z‖ : ℂ) * Complex.exp ((θ : ℂ) * Complex.I) = z := by
    intro z θ m _ h
    have : (θ : ℂ) * Complex.I = (z.arg : ℂ) * Complex.I + m * (2 * Real.pi * Complex.I) := by
      rw [h]; push_cast; ring
    rw [this, Complex.exp_add, Complex.exp_int_mul_two_pi_mul_I, mul_one, Complex.norm_mul_exp_arg_mul_I]
  have hAc : (A : ℂ) ≠ 0 := by exact_mod_cast hA
  have hBc : (B : ℂ) ≠ 0 := by exact_mod_cast hB
  have h1 := tour (u * A) φ j (mul_ne_zero hu hAc) hφ
  have h2 := tour (u * Complex.exp (-(Complex.I * δ)) * B) ψ k (mul_ne_zero (mul_ne_zero hu (Complex.exp_ne_zero _)) hBc) hψ
  have ne : ‖Complex.exp (-(Complex.I * δ))‖ = 1 := by
    rw [show -(Complex.I * (δ : ℂ)) = ((-δ : ℝ) : ℂ) * Complex.I by push_cast; ring, Complex.norm_exp_ofReal_mul_I]
  rw [norm_mul, Complex.norm_real, Real.norm_eq_abs] at h1
  rw [norm_mul, norm_mul, ne, mul_one, Complex.norm_real, Real.norm_eq_abs] at h2
  have hun : (‖u‖ : ℂ) ≠ 0 := by exact_mod_cast norm_ne_zero_iff.2 hu
  have hAa : ((|A| : ℝ) : ℂ) ≠ 0 := by exact_mod_cast abs_ne_zero.2 hA
  have hBa : ((|B| : ℝ) : ℂ) ≠ 0 := by exact_mod_cast abs_ne_zero.2 hB
  have hr : Complex.exp (((ψ - φ + δ : ℝ) : ℂ) * Complex.I) = Complex.exp ((ψ : ℂ) * Complex.I) * Complex.exp (Complex.I * δ) / Complex.exp ((φ : ℂ) * Complex.I) := by
    rw [eq_div_iff (Complex.exp_ne_zero _), ← Complex.exp_add, ← Complex.exp_add]
    congr 1
    push_cast
    ring
  have e1 : Complex.exp ((φ : ℂ) * Complex.I) = u * A / (‖u‖ * (|A| : ℝ)) := by
    rw [eq_div_iff (mul_ne_zero hun hAa)]
    rw [← h1]
    push_cast
    ring
  have e2 : Complex.exp ((ψ : ℂ) * Complex.I) * Complex.exp (Complex.I * δ) = u * B / (‖u‖ * (|B| : ℝ)) := by
    rw [eq_div_iff (mul_ne_zero hun hBa)]
    have e3 : Complex.exp (-(Complex.I * δ)) * Complex.exp (Complex.I * δ) = 1 := by rw [← Complex.exp_add]; simp
    calc Complex.exp ((ψ : ℂ) * Complex.I) * Complex.exp (Complex.I * δ) * (‖u‖ * (|B| : ℝ)) = (((‖u‖ * |B| : ℝ) : ℂ) * Complex.exp ((ψ : ℂ) * Complex.I)) * Complex.exp (Complex.I * δ) := by push_cast; ring
      _ = u * B * (Complex.exp (-(Complex.I * δ)) * Complex.exp (Complex.I * δ)) := by rw [h2]; ring
      _ = u * B := by rw [e3, mul_one]
  have hq : Complex.exp (((ψ - φ + δ : ℝ) : ℂ) * Complex.I) = ((B / |B| * (|A| / A) : ℝ) : ℂ) := by
    rw [hr, e1, e2]
    push_cast
    field_simp
  rw [hq]
  rcases lt_or_gt_of_ne hA with a | a <;> rcases lt_or_gt_of_ne hB with b | b
  · rw [if_pos (mul_pos_of_neg_of_neg a b), abs_of_neg a, abs_of_neg b, div_neg, div_self hB, neg_div, div_self hA]; norm_num
  · rw [if_neg (not_lt.2 (mul_neg_of_neg_of_pos a b).le), abs_of_neg a, abs_of_pos b, div_self hB, neg_div, div_self hA]; norm_num
  · rw [if_neg (not_lt.2 (mul_neg_of_pos_of_neg a b).le), abs_of_pos a, abs_of_neg b, div_neg, div_self hB, div_self hA]; norm_num
  · rw [if_pos (mul_pos a b), abs_of_pos a, abs_of_pos b, div_self hB, div_self hA]; norm_num

theorem tour_un (t : ℝ) (h : Complex.exp ((t : ℂ) * Complex.I) = 1) (hl : |t| < 2 * Real.pi) : t = 0 := by
  rw [Complex.exp_eq_one_iff] at h
  obtain ⟨n, hn⟩ := h
  have h1 : t = n * (2 * Real.pi) := by
    have : ((t : ℂ)) = ((n * (2 * Real.pi) : ℝ) : ℂ) := by
      apply mul_right_cancel₀ Complex.I_ne_zero
      rw [hn]; push_cast; ring
    exact_mod_cast this
  have : n = 0 := by
    by_contra hne
    have h2 : (1 : ℝ) ≤ |(n : ℝ)| := by exact_mod_cast Int.one_le_abs hne
    rw [h1, abs_mul, abs_of_pos (by positivity : (0 : ℝ) < 2 * Real.pi)] at hl
    nlinarith [Real.pi_pos]
  rw [h1, this]; simp

/-- **C136 (group delay).**  Let a design whose response, on the grid `k/(2 npts)`, is `c e^{-2πifτ} A(f)` with `A` real (linear phase of delay `τ`, `0 ≤ 2τ < npts`).  Then `frgroup` returns `npts` values; between
two successive grid points where the response does not vanish, the value is exactly the delay `τ` when `A` keeps its sign, and not-a-number when it changes (jump of the phase); the last value is repeated. -/
theorem C136_groupe (d : Design) (npts : ℕ) (hn : 2 ≤ npts) (hd : ∀ h : List ℝ, d = .rif h → h ≠ [] ∧ h.length ≤ 2 * npts ∧ 2 * npts ≤ 2 ^ 29)
    (c : ℂ) (hc : c ≠ 0) (τ : ℝ) (h0 : 0 ≤ τ) (h1 : 2 * τ < npts) (A : ℕ → ℝ)
    (hA : ∀ k, k < npts → d.H (cercle ((k : ℝ) / (2 * npts))) = c * Complex.exp (-(Complex.I * (2 * Real.pi * ((k : ℝ) / (2 * npts)) * τ : ℝ))) * A k) :
    ∃ fr g, frgroup d npts = some (fr, g) ∧ fr.length = npts ∧ g.length = npts ∧ (∀ k, k < npts → fr.getD k 0 = (k : ℝ) / (2 * npts)) ∧
      (∀ k, k + 1 < npts → A k ≠ 0 → A (k + 1) ≠ 0 → g.getD k none = if 0 < A k * A (k + 1) then some τ else none) ∧ g.getD (npts - 1) none = g.getD (npts - 2) none := by
  have hd0 : d ≠ .rif [] := fun e => (hd [] e).1 rfl
  have hnr : (0 : ℝ) < npts := by exact_mod_cast (by omega : 0 < npts)
  obtain ⟨fr, φ, e, lf, lφ, gf, -, cφ, sφ⟩ := C134_frphase d hd0 npts (by omega)
  obtain ⟨fr2, A2, e2, -⟩ := C134_frmag_partial d npts (by omega) hd
  set pas := 2 * Real.pi * (fr.getD 1 0 - fr.getD 0 0) with hpas
  have hp : pas = Real.pi / npts := by
    rw [hpas, gf 1 (by omega), gf 0 (by omega)]
    push_cast
    field_simp
    ring
  refine ⟨fr, (List.range npts).map fun k : ℕ => (fun k : ℕ => if |φ.getD (k + 1) 0 - φ.getD k 0| > Real.pi / 2 then none else some (-(φ.getD (k + 1) 0 - φ.getD k 0) / pas)) (if k = npts - 1 then npts - 2 else k), ?_, lf, by simp, gf, ?_, ?_⟩
  · rw [frgroup, e, Option.bind_some, e2, Option.bind_some, if_pos hn]
  · intro k hk hAk hAk1
    rw [List.getD_eq_getElem?_getD, List.getElem?_map, List.getElem?_range (by omega), Option.map_some, Option.getD_some, if_neg (by omega)]
    dsimp only
    obtain ⟨j1, hj1⟩ := cφ k (by omega)
    obtain ⟨j2, hj2⟩ := cφ (k + 1) hk
    set δ := Real.pi * τ / npts with hδ
    have hδ0 : 0 ≤ δ := by positivity
    have hδ1 : δ < Real.pi / 2 := by
      rw [hδ, div_lt_div_iff₀ hnr (by norm_num)]
      nlinarith [Real.pi_pos]
    rw [hA k (by omega)] at hj1
    rw [hA (k + 1) hk] at hj2
    have hu : c * Complex.exp (-(Complex.I * (2 * Real.pi * (((k + 1 : ℕ) : ℝ) / (2 * npts)) * τ : ℝ))) = c * Complex.exp (-(Complex.I * (2 * Real.pi * ((k : ℝ) / (2 * npts)) * τ : ℝ))) * Complex.exp (-(Complex.I * (δ : ℝ))) := by
      rw [mul_assoc c, ← Complex.exp_add]
      congr 2
      rw [hδ]
      push_cast
      have : (npts : ℂ) ≠ 0 := by exact_mod_cast hnr.ne'
      field_simp
      ring
    rw [hu] at hj2
    have key := ecart_phase _ (mul_ne_zero hc (Complex.exp_ne_zero _)) (A k) (A (k + 1)) δ _ _ hAk hAk1 j1 j2 hj1 hj2
    have hs := abs_le.1 (sφ k hk)
    clear_value pas δ
    generalize φ.getD (k + 1) 0 - φ.getD k 0 = t at *
    have hpi := Real.pi_pos
    by_cases hsg : 0 < A k * A (k + 1)
    · rw [if_pos hsg] at key ⊢
      have : t + δ = 0 := tour_un _ key (by rw [abs_lt]; constructor <;> linarith)
      have ht : t = -δ := by linarith
      rw [if_neg (by rw [ht, abs_neg, abs_of_nonneg hδ0]; linarith), ht, hp, hδ, neg_neg]
      congr 1
      field_simp
    · rw [if_neg hsg] at key ⊢
      have h2 : Complex.exp (((t + δ - Real.pi : ℝ) : ℂ) * Complex.I) = 1 := by
        rw [show ((t + δ - Real.pi : ℝ) : ℂ) * Complex.I = ((t + δ : ℝ) : ℂ) * Complex.I - Real.pi * Complex.I by push_cast; ring, Complex.exp_sub, key, Complex.exp_pi_mul_I]
        norm_num
      rw [if_pos]
      rw [gt_iff_lt, lt_abs]
      by_cases hb : -Real.pi < t + δ
      · have := tour_un _ h2 (by rw [abs_lt]; constructor <;> linarith)
        left; linarith
      · right; linarith
  · rw [List.getD_eq_getElem?_getD, List.getD_eq_getElem?_getD, List.getElem?_map, List.getElem?_map, List.getElem?_range (by omega), List.getElem?_range (by omega), Option.map_some, Option.map_some, if_pos rfl, if_neg (by omega)]

/-- **C136 (symmetric FIR filters).**  For a symmetric FIR filter of `n ≤ npts` coefficients, the group delay is `(n-1)/2` samples between all the successive points where the amplitude response is non-null and keeps
its sign, and not-a-number where it changes sign. -/
theorem C136_rif_symetrique (h : List ℝ) (hh : h ≠ []) (hs : ∀ k, k < h.length → h.getD (h.length - 1 - k) 0 = h.getD k 0) (npts : ℕ) (hn : 2 ≤ npts) (hl : h.length ≤ npts) (h29 : 2 * npts ≤ 2 ^ 29) :
    ∃ fr g A, frgroup (.rif h) npts = some (fr, g) ∧ rifamp2 h fr = some A ∧ fr.length = npts ∧ g.length = npts ∧ A.length = npts ∧
      ∀ k, k + 1 < npts → A.getD k 0 ≠ 0 → A.getD (k + 1) 0 ≠ 0 → g.getD k none = if 0 < A.getD k 0 * A.getD (k + 1) 0 then some (((h.length : ℝ) - 1) / 2) else none := by
  have hp := List.length_pos_iff.2 hh
  obtain ⟨A, eA, lA, gA⟩ := C130_symetrique h hp hs (grilleFreq npts)
  rw [grilleFreq_length] at lA gA
  have h1 : (1 : ℝ) ≤ h.length := by exact_mod_cast hp
  have h2 : (h.length : ℝ) ≤ npts := by exact_mod_cast hl
  obtain ⟨fr, g, e, lf, lg, gf, gg, -⟩ := C136_groupe (.rif h) npts hn (by intro h' e; cases e; exact ⟨hh, by omega, h29⟩) 1 one_ne_zero (((h.length : ℝ) - 1) / 2) (by linarith) (by linarith) (fun k => A.getD k 0) (by
    intro k hk
    rw [H_cercle, ← grilleFreq_getD npts k hk, gA k hk, one_mul]
    congr 4
    push_cast
    ring)
  have hfr : fr = grilleFreq npts := reels_ext _ _ (by rw [lf, grilleFreq_length]) fun i hi => by rw [gf i (by omega), grilleFreq_getD npts i (by omega)]
  exact ⟨fr, g, A, e, by rw [hfr]; exact eA, lf, lg, lA, gg⟩

/-- The two-sample mean: delay 1/2 at the first point. -/
example : ∃ fr g, frgroup (.rif [1 / 2, 1 / 2]) 4 = some (fr, g) ∧ g.getD 0 none = some (1 / 2) := by
  obtain ⟨fr, g, A, e, eA, lf, lg, lA, gg⟩ := C136_rif_symetrique [1 / 2, 1 / 2] (by simp) (by intro k hk; simp only [List.length_cons, List.length_nil] at hk; interval_cases k <;> simp) 4 (by norm_num) (by simp) (by norm_num)
  have hfr : ∀ k, k < 4 → fr.getD k 0 = (k : ℝ) / 8 := by
    intro k hk
    obtain ⟨fr', φ, e', lf', -, gf', -⟩ := C134_frphase (.rif [1 / 2, 1 / 2]) (by simp) 4 (by norm_num)
    obtain ⟨fr2, A2, e2, -⟩ := C134_frmag_partial (.rif [1 / 2, 1 / 2]) 4 (by norm_num) (by simp)
    rw [frgroup, e', Option.bind_some, e2, Option.bind_some, if_pos (by norm_num)] at e
    simp only [Option.some.injEq, Prod.mk.injEq] at e
    rw [← e.1, gf' k hk]
    norm_num
  rw [rifamp2, riftype_some _ (by simp)] at eA
  simp only [Option.map_some, Option.some.injEq] at eA
  have hA : ∀ k, k < 4 → A.getD k 0 = Real.cos (Real.pi * (k / 8)) := by
    intro k hk
    have h1 := hfr k hk
    rw [List.getD_eq_getElem?_getD, List.getElem?_eq_getElem (by omega), Option.getD_some] at h1
    rw [← eA, List.getD_eq_getElem?_getD, List.getElem?_map, List.getElem?_eq_getElem (by omega), Option.map_some, Option.getD_some, h1]
    simp [rifampImpl]
    congr 1
    ring
  have p0 : 0 < A.getD 0 0 := by rw [hA 0 (by norm_num)]; simp
  have p1 : 0 < A.getD 1 0 := by
    rw [hA 1 (by norm_num)]
    refine Real.cos_pos_of_mem_Ioo ⟨?_, ?_⟩ <;> (push_cast; linarith [Real.pi_pos])
  refine ⟨fr, g, e, ?_⟩
  rw [gg 0 (by norm_num) p0.ne' p1.ne', if_pos (mul_pos p0 p1)]
  norm_num

end Verif.Conception
