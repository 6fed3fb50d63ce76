/-
C70 (Chebyshev polynomials), C71 (cardinal sine, Dirichlet kernel).
-/
import Verif.Divers.Model
import Verif.Poly.Props
import Verif.Util.Props
import Mathlib.Analysis.SpecialFunctions.Integrals.Basic
import Mathlib.Analysis.SpecialFunctions.Trigonometric.Bounds
import Mathlib.RingTheory.Polynomial.Chebyshev
import Mathlib.Analysis.SpecialFunctions.Trigonometric.Chebyshev.Basic

namespace Verif.Divers

open Verif.FracRat Finset

/-! ### C70 -/

theorem boucleCheb_racines {K : Type} [Field K] (nb : ℕ) (T0 T1 : Poly K) (h1 : T1.racines = false) :
    (boucleCheb nb T0 T1).racines = false := by
  induction nb generalizing T0 T1 with
  | zero => exact h1
  | succ nb ih => exact ih _ _ rfl

/-- The loop follows every sequence with the recurrence `s (m+2) = 2 x s (m+1) - s m`. -/
theorem boucleCheb_val {K L : Type} [Field K] [Field L] (φ : K →+* L) (x : L) (s : ℕ → L)
    (hs : ∀ m, s (m + 2) = 2 * x * s (m + 1) - s m) (nb : ℕ) (T0 T1 : Poly K) (m : ℕ)
    (h0 : T0.horner φ x = s m) (h1 : T1.horner φ x = s (m + 1)) :
    (boucleCheb nb T0 T1).horner φ x = s (m + 1 + nb) := by
  induction nb generalizing T0 T1 m with
  | zero => exact h1
  | succ nb ih =>
    rw [boucleCheb, ih _ _ (m + 1) h1]
    · congr 1; omega
    · rw [C30_difference, C30_produit φ _ _ x (fun h => by simp [Poly.mulScal, Poly.z, Poly.deCoefs] at h),
        (C30_scalaire φ _ _ x).1, horner_z, h0, h1, hs, map_ofNat]
      ring

theorem chebychevTU_val {K L : Type} [Field K] [Field L] (φ : K →+* L) (x : L) (s : ℕ → L) (b : Bool)
    (hs : ∀ m, s (m + 2) = 2 * x * s (m + 1) - s m) (h0 : s 0 = 1) (h1 : s 1 = if b then x else 2 * x) (n : ℕ) :
    (chebychevTU n b : Poly K).horner φ x = s n := by
  have e0 : (Poly.one : Poly K).horner φ x = s 0 := by rw [horner_one, h0]
  have e1 : (if b.toNat = 1 then Poly.z else (Poly.z : Poly K).mulScal 2).horner φ x = s 1 := by
    rw [h1]
    cases b
    · simp only [Bool.toNat_false, Nat.reduceEqDiff, if_false, Bool.false_eq_true]
      rw [(C30_scalaire φ _ _ x).1, horner_z, map_ofNat, mul_comm]
    · simp only [Bool.toNat_true, if_true]; exact horner_z φ x
  show (if n = 0 then Poly.one else if n = 1 then (if b.toNat = 1 then Poly.z else (Poly.z : Poly K).mulScal 2) else
    boucleCheb (n - 1) Poly.one (if b.toNat = 1 then Poly.z else (Poly.z : Poly K).mulScal 2)).horner φ x = s n
  generalize (if b.toNat = 1 then Poly.z else (Poly.z : Poly K).mulScal 2) = T1 at e1 ⊢
  split
  · rename_i h; rw [h]; exact e0
  · split
    · rename_i h; rw [h]; exact e1
    · rename_i ha hb
      rw [boucleCheb_val φ x s hs (n - 1) _ _ 0 e0 e1]
      congr 1; omega

/-- **C70 (first kind).**  `T_n(cos θ) = cos nθ` for every degree and every angle. -/
theorem C70_T (n : ℕ) (θ : ℝ) :
    (chebychevT n : Poly ℝ).horner (RingHom.id ℝ) (Real.cos θ) = Real.cos (n * θ) := by
  refine chebychevTU_val (RingHom.id ℝ) _ (fun m : ℕ => Real.cos (m * θ)) true ?_ (by simp) (by simp) n
  intro m
  have h := Real.cos_add_cos ((m + 2 : ℕ) * θ) (m * θ)
  have e1 : (((m + 2 : ℕ) : ℝ) * θ + m * θ) / 2 = (m + 1 : ℕ) * θ := by push_cast; ring
  have e2 : (((m + 2 : ℕ) : ℝ) * θ - m * θ) / 2 = θ := by push_cast; ring
  rw [e1, e2] at h
  linarith

/-- **C70 (first kind, everywhere).**  For every argument (also outside [-1, 1]), in every field, the value is that of the
Chebyshev polynomial of the first kind. -/
theorem C70_T_partout {K : Type} [Field K] (n : ℕ) (x : K) :
    (chebychevT n : Poly K).horner (RingHom.id K) x = (Polynomial.Chebyshev.T K n).eval x := by
  refine chebychevTU_val (RingHom.id K) x (fun m : ℕ => (Polynomial.Chebyshev.T K m).eval x) true ?_ (by simp) (by simp) n
  intro m
  have := Polynomial.Chebyshev.T_add_two K m
  push_cast
  rw [this]; simp

/-- **C70 refuted (second kind).**  `Chebychev_U(n)` is the polynomial of the FIRST kind, for every degree (the value 2 of the boolean
parameter is converted to 1), and it is not the polynomial of the second kind for any `n ≥ 1`. -/
theorem C70_U_refute (n : ℕ) (hn : 0 < n) :
    (chebychevU n : Poly ℝ) = chebychevT n ∧
    (chebychevU n : Poly ℝ).horner (RingHom.id ℝ) 1 ≠ (Polynomial.Chebyshev.U ℝ n).eval 1 := by
  have h : (chebychevU n : Poly ℝ) = chebychevT n := rfl
  refine ⟨h, ?_⟩
  rw [h, C70_T_partout]
  simp only [Polynomial.Chebyshev.T_eval_one, Polynomial.Chebyshev.U_eval_one]
  have : (0 : ℝ) < n := by exact_mod_cast hn
  push_cast
  intro h; linarith

/-- **C70 (second kind, what the recurrence would give).**  Called with a false kind, `Chebychev_TU` is the polynomial of the second kind. -/
theorem C70_U_partial {K : Type} [Field K] (n : ℕ) (x : K) :
    (chebychevTU n false : Poly K).horner (RingHom.id K) x = (Polynomial.Chebyshev.U K n).eval x := by
  refine chebychevTU_val (RingHom.id K) x (fun m : ℕ => (Polynomial.Chebyshev.U K m).eval x) false ?_ (by simp) (by simp) n
  intro m
  have := Polynomial.Chebyshev.U_add_two K m
  push_cast
  rw [this]; simp

example : (chebychevT 3 : Poly ℚ).horner (RingHom.id ℚ) 2 = 26 := by
  simp [chebychevT, versBool, chebychevTU, boucleCheb, Poly.horner, Poly.z, Poly.one, Poly.deCoefs, Poly.mulScal, Poly.mul, Poly.sub,
    Poly.add, Poly.neg, Poly.versCoefs, produitCoefs, boucleProduit, ajouteCoefs, partiel, hornerCoefs]
  norm_num

/-! ### C71 -/

/-- Specification: Fourier transform, at the frequency `f`, of the gate of width `T` centred at 0. -/
noncomputable def tfPorte (T f : ℝ) : ℂ := ∫ t in (-(T / 2))..(T / 2), Complex.exp (-(2 * Real.pi * f : ℝ) * Complex.I * t)

/-- Specification: Dirichlet kernel. -/
noncomputable def noyau (N : ℕ) (Ω : ℝ) : ℂ := ∑ k ∈ Icc (-(N : ℤ)) N, Complex.exp (-(Ω * k : ℝ) * Complex.I)

theorem tfPorte_val (T f : ℝ) (hf : f ≠ 0) : tfPorte T f = ((Real.sin (Real.pi * T * f) / (Real.pi * f) : ℝ) : ℂ) := by
  unfold tfPorte
  have hpi : (Real.pi : ℂ) ≠ 0 := by exact_mod_cast Real.pi_ne_zero
  have hf' : (f : ℂ) ≠ 0 := by exact_mod_cast hf
  have hI := Complex.I_ne_zero
  have hc : (-(2 * Real.pi * f : ℝ) * Complex.I : ℂ) ≠ 0 := by
    push_cast
    exact mul_ne_zero (neg_ne_zero.2 (mul_ne_zero (mul_ne_zero two_ne_zero hpi) hf')) hI
  rw [integral_exp_mul_complex hc]
  push_cast
  rw [Complex.sin]
  have e1 : -(2 * (Real.pi : ℂ) * f) * Complex.I * (T / 2) = -(Real.pi * T * f) * Complex.I := by ring
  have e2 : -(2 * (Real.pi : ℂ) * f) * Complex.I * -(T / 2) = Real.pi * T * f * Complex.I := by ring
  rw [e1, e2]
  field_simp
  ring_nf
  rw [Complex.I_sq]
  ring

theorem tfPorte_zero (T : ℝ) : tfPorte T 0 = T := by
  unfold tfPorte
  simp

/-- **C71 (cardinal sine).**  `sinc(T, f)` is the Fourier transform of the gate of width `T`, exactly when
`|πTf| ≥ 10⁻⁷` or `f = 0`, and with an error of at most `10⁻¹⁴ |T|` otherwise. -/
theorem C71_sinc (T f : ℝ) :
    ((1 / 10 ^ 7 ≤ |Real.pi * T * f| ∨ f = 0) → (sinc T f : ℂ) = tfPorte T f) ∧
    ‖(sinc T f : ℂ) - tfPorte T f‖ ≤ |T| / 10 ^ 14 := by
  by_cases hf : f = 0
  · have : sinc T f = T := by unfold sinc; rw [hf]; simp
    rw [this, hf, tfPorte_zero]
    refine ⟨fun _ => rfl, ?_⟩
    rw [sub_self, norm_zero]; positivity
  · by_cases ha : |Real.pi * T * f| < 1 / 10 ^ 7
    · have : sinc T f = T := by unfold sinc; rw [if_pos ha]
      rw [this]
      refine ⟨fun h => ?_, ?_⟩
      · rcases h with h | h
        · exact absurd ha (not_lt.2 h)
        · exact absurd h hf
      · rw [tfPorte_val T f hf, ← Complex.ofReal_sub, Complex.norm_real, Real.norm_eq_abs]
        set a := Real.pi * T * f with hadef
        have hpf : Real.pi * f ≠ 0 := mul_ne_zero Real.pi_ne_zero hf
        have hT : T = a / (Real.pi * f) := by rw [hadef]; field_simp
        have h1 : T - Real.sin a / (Real.pi * f) = (a - Real.sin a) / (Real.pi * f) := by rw [sub_div, ← hT]
        have hab : |a| ≤ 1 := by
          refine ha.le.trans ?_
          norm_num
        have hb := Real.sin_bound hab
        have h2 : |a - Real.sin a| ≤ |a| ^ 3 := by
          have e : a - Real.sin a = a ^ 3 / 6 - (Real.sin a - (a - a ^ 3 / 6)) := by ring
          rw [e]
          refine (abs_sub _ _).trans ?_
          rw [abs_div, abs_pow]
          have h4 : |a| ^ 4 ≤ |a| ^ 3 := by
            rw [pow_succ]; exact mul_le_of_le_one_right (by positivity) hab
          have h6 : |(6 : ℝ)| = 6 := by norm_num
          rw [h6]
          have := abs_nonneg a
          have := pow_nonneg this 3
          nlinarith
        rw [h1, abs_div]
        have hT' : |T| = |a| / |Real.pi * f| := by rw [hT, abs_div]
        rw [hT']
        have hpos : 0 < |Real.pi * f| := abs_pos.2 hpf
        rw [div_le_iff₀ hpos]
        calc |a - Real.sin a| ≤ |a| * |a| ^ 2 := by rw [← pow_succ']; exact h2
          _ ≤ |a| * (1 / 10 ^ 14) := by
              gcongr
              calc |a| ^ 2 ≤ (1 / 10 ^ 7) ^ 2 := by gcongr
                _ = 1 / 10 ^ 14 := by norm_num
          _ = _ := by field_simp
    · have e : sinc T f = Real.sin (Real.pi * T * f) / (Real.pi * f) := by unfold sinc; rw [if_neg ha]
      rw [e, tfPorte_val T f hf, sub_self, norm_zero]
      exact ⟨fun _ => rfl, by positivity⟩

/-- **C71 (interpolation nodes).**  `sinc(0) = 1` and `sinc(k) = 0` for every other integer. -/
theorem C71_noeuds (k : ℤ) : sinc1 k = if k = 0 then 1 else 0 := by
  unfold sinc1 sinc
  split
  · rename_i h; simp [h]
  · rename_i hk
    have h1 : (1 : ℝ) ≤ |(k : ℝ)| := by
      have : 1 ≤ |k| := Int.one_le_abs hk
      exact_mod_cast this
    have hpi := Real.two_le_pi
    rw [if_neg]
    · rw [mul_one, mul_comm, Real.sin_int_mul_pi, zero_div]
    · rw [mul_one, abs_mul, abs_of_pos Real.pi_pos, not_lt]
      calc (1 / 10 ^ 7 : ℝ) ≤ 2 * 1 := by norm_num
        _ ≤ Real.pi * |(k : ℝ)| := by gcongr

theorem noyau_cos (N : ℕ) (Ω : ℝ) : noyau N Ω = ((1 + 2 * ∑ k ∈ range N, Real.cos ((k + 1) * Ω) : ℝ) : ℂ) := by
  induction N with
  | zero => simp [noyau]
  | succ N ih =>
    have hI : Icc (-((N + 1 : ℕ) : ℤ)) ((N + 1 : ℕ) : ℤ) = insert (-((N + 1 : ℕ) : ℤ)) (insert (((N + 1 : ℕ) : ℤ)) (Icc (-(N : ℤ)) N)) := by
      ext k
      simp only [mem_Icc, mem_insert]
      push_cast
      omega
    unfold noyau at ih ⊢
    rw [hI, sum_insert (by simp; omega), sum_insert (by simp), ih, sum_range_succ]
    push_cast
    rw [Complex.cos]
    have e1 : -((Ω : ℂ) * (-1 + -(N : ℂ))) * Complex.I = ((N : ℂ) + 1) * Ω * Complex.I := by ring
    have e2 : -((Ω : ℂ) * ((N : ℂ) + 1)) * Complex.I = -(((N : ℂ) + 1) * Ω) * Complex.I := by ring
    have e3 : -((Ω : ℂ) * -((N : ℂ) + 1)) * Complex.I = ((N : ℂ) + 1) * Ω * Complex.I := by ring
    first | rw [e1, e2] | rw [e3, e2]
    ring

theorem noyau_sin (N : ℕ) (Ω : ℝ) :
    (1 + 2 * ∑ k ∈ range N, Real.cos ((k + 1) * Ω)) * Real.sin (Ω / 2) = Real.sin ((N + 1 / 2) * Ω) := by
  induction N with
  | zero => simp; congr 1; ring
  | succ N ih =>
    rw [sum_range_succ]
    have h := Real.sin_sub_sin (((N + 1 : ℕ) + 1 / 2 : ℝ) * Ω) ((N + 1 / 2) * Ω)
    have e1 : ((((N + 1 : ℕ) : ℝ) + 1 / 2) * Ω - (N + 1 / 2) * Ω) / 2 = Ω / 2 := by push_cast; ring
    have e2 : ((((N + 1 : ℕ) : ℝ) + 1 / 2) * Ω + (N + 1 / 2) * Ω) / 2 = (N + 1) * Ω := by push_cast; ring
    rw [e1, e2] at h
    linear_combination ih - h

theorem noyau_periode (N : ℕ) (Ω : ℝ) (z : ℤ) : noyau N (Ω + z * (2 * Real.pi)) = noyau N Ω := by
  unfold noyau
  apply sum_congr rfl
  intro k _
  rw [show (-((Ω + z * (2 * Real.pi)) * k : ℝ) * Complex.I : ℂ) = -(Ω * k : ℝ) * Complex.I + ((-(z * k) : ℤ) : ℂ) * (2 * Real.pi * Complex.I) by
    push_cast; ring, Complex.exp_add, Complex.exp_int_mul_two_pi_mul_I, mul_one]

/-- **C71 (Dirichlet kernel).**  `Dirichlet(N, Ω)` is `Σ_{-N}^{N} e^{-ikΩ}`, exactly when `Ω` is at `10⁻⁵` at least of every multiple of
`2π`, and with an error of at most `10⁻¹⁰ N³` otherwise. -/
theorem C71_dirichlet (N : ℕ) (Ω : ℝ) :
    ((∀ z : ℤ, 1 / 10 ^ 5 ≤ |Ω - z * (2 * Real.pi)|) → (dirichlet N Ω : ℂ) = noyau N Ω) ∧
    ‖(dirichlet N Ω : ℂ) - noyau N Ω‖ ≤ N ^ 3 / 10 ^ 10 := by
  have hpi := Real.two_le_pi
  obtain ⟨h0, h1, z, hz⟩ := (Util.C34_modulo_pi Real.pi Ω Real.pi_pos).1
  set r := Util.modulo2π id Real.pi Ω with hr
  have hper : noyau N Ω = noyau N r := by rw [hz, noyau_periode]
  by_cases hc : r < 1 / 10 ^ 5 ∨ 2 * Real.pi - r < 1 / 10 ^ 5
  · have hd : dirichlet N Ω = 2 * N + 1 := by unfold dirichlet; simp only [← hr]; rw [if_pos hc]
    -- distance to the nearest multiple
    obtain ⟨δ, y, hδ, hδe⟩ : ∃ (δ : ℝ) (y : ℤ), |δ| < 1 / 10 ^ 5 ∧ Ω = δ + y * (2 * Real.pi) := by
      rcases hc with hc | hc
      · exact ⟨r, z, by rw [abs_of_nonneg h0]; exact hc, hz⟩
      · refine ⟨r - 2 * Real.pi, z + 1, ?_, ?_⟩
        · rw [abs_sub_comm, abs_of_pos (by linarith)]; exact hc
        · push_cast; rw [hz]; ring
    constructor
    · intro h
      exfalso
      have := h y
      rw [hδe, add_sub_cancel_right] at this
      linarith
    · rw [hd, hδe, noyau_periode, noyau_cos, ← Complex.ofReal_sub, Complex.norm_real, Real.norm_eq_abs]
      have : (2 * (N : ℝ) + 1 - (1 + 2 * ∑ k ∈ range N, Real.cos ((k + 1) * δ)))
          = 2 * ∑ k ∈ range N, (1 - Real.cos ((k + 1) * δ)) := by
        rw [sum_sub_distrib]; simp; ring
      rw [this]
      have hb : ∀ k ∈ range N, 2 * (1 - Real.cos ((k + 1) * δ)) ≤ (N : ℝ) ^ 2 * (1 / 10 ^ 10) := by
        intro k hk
        have hk : (k : ℝ) + 1 ≤ N := by exact_mod_cast mem_range.1 hk
        have h := Real.one_sub_sq_div_two_le_cos (x := (k + 1) * δ)
        have hsq : δ ^ 2 ≤ 1 / 10 ^ 10 := by
          rw [← sq_abs]
          calc |δ| ^ 2 ≤ (1 / 10 ^ 5) ^ 2 := by gcongr
            _ = _ := by norm_num
        calc 2 * (1 - Real.cos ((k + 1) * δ)) ≤ ((k + 1) * δ) ^ 2 := by linarith
          _ = ((k : ℝ) + 1) ^ 2 * δ ^ 2 := by ring
          _ ≤ _ := by gcongr
      have hnn : 0 ≤ 2 * ∑ k ∈ range N, (1 - Real.cos ((k + 1) * δ)) :=
        mul_nonneg (by norm_num) (sum_nonneg fun k _ => by linarith [Real.cos_le_one (((k : ℝ) + 1) * δ)])
      have hle : 2 * ∑ k ∈ range N, (1 - Real.cos ((k + 1) * δ)) ≤ (N : ℝ) ^ 3 / 10 ^ 10 := by
        rw [mul_sum]
        calc _ ≤ ∑ _k ∈ range N, (N : ℝ) ^ 2 * (1 / 10 ^ 10) := sum_le_sum hb
          _ = _ := by rw [sum_const, card_range, nsmul_eq_mul]; ring
      rw [abs_of_nonneg hnn]
      exact hle
  · have hc := not_or.1 hc
    have h2 := not_lt.1 hc.1
    have h3 := not_lt.1 hc.2
    have hs : 0 < Real.sin (r / 2) := Real.sin_pos_of_pos_of_lt_pi (by
      have : (0 : ℝ) < 1 / 10 ^ 5 := by norm_num
      linarith) (by linarith)
    have hd : (dirichlet N Ω : ℂ) = noyau N Ω := by
      rw [hper, noyau_cos]
      congr 1
      unfold dirichlet
      simp only [← hr]
      rw [if_neg (not_or.2 hc), div_eq_iff hs.ne', noyau_sin]
    refine ⟨fun _ => hd, ?_⟩
    rw [hd, sub_self, norm_zero]; positivity

end Verif.Divers
