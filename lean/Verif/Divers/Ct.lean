/-
C163: continuous-time functions (core/src/ct.cc): numerical integration and Fourier transform.
-/
import Verif.Util.Props
import Mathlib.MeasureTheory.Integral.IntervalIntegral.TrapezoidalRule
import Mathlib.Analysis.SpecialFunctions.Trigonometric.Deriv
import Mathlib.Analysis.Complex.Trigonometric
import Mathlib.Analysis.RCLike.Basic
import Mathlib.MeasureTheory.Integral.IntervalIntegral.Basic

namespace Verif.Ct
open MeasureTheory

/-! ## Model (exact arithmetic; the tests of `isnan` are not modelled) -/

/-- The loop of `intégrale_trap`, core/src/ct.cc:45-63: `f0` is the value at the preceding point, `y` the sum. -/
noncomputable def trapBoucle {K : Type} [RCLike K] (δ : K) (f : ℝ → K) : K → K → List ℝ → K
  | _, y, [] => y
  | f0, y, t :: l => trapBoucle δ f (f t) (y + δ * (f0 + f t) * (1 / 2)) l

/-- `intégrale_trap(f, tmin, tmax, n)`, core/src/ct.cc:30-71; `none`: `t(0)` of an empty vector. -/
noncomputable def integraleTrap {K : Type} [RCLike K] (f : ℝ → K) (tmin tmax : ℝ) (n : ℕ) : Option K :=
  match Util.linspace tmin tmax n with
  | [] => none
  | t0 :: l => some (trapBoucle (((tmax - tmin) / ((n : ℝ) - 1) : ℝ) : K) f (f t0) 0 l)

/-- `tfc(f, δT, δF, nt, nf)`, core/src/ct.cc:113-143: the values for each frequency of the grid. -/
noncomputable def tfc (f : ℝ → ℂ) (δT δF : ℝ) (nt nf : ℕ) : Option (List ℂ) :=
  (Util.linspace (-δF / 2) (δF / 2) nf).mapM fun fi : ℝ => integraleTrap (fun x : ℝ => f x * Complex.exp ((-2 * Real.pi * x * fi : ℝ) * Complex.I)) (-δT / 2) (δT / 2) nt

/-- `FonctionEchantillonnée`, core/include/tsd/ct.hpp:22-49. -/
structure Echantillonnee where
  data : List ℝ
  tmin : ℝ
  tmax : ℝ

/-- `FonctionEchantillonnée::def`, core/include/tsd/ct.hpp:52-64. -/
noncomputable def echantillonne (tmin tmax : ℝ) (n : ℕ) (f : ℝ → ℝ) : Echantillonnee := ⟨(Util.linspace tmin tmax n).map f, tmin, tmax⟩

/-- `FonctionEchantillonnée::fe`, core/include/tsd/ct.hpp:44-45. -/
noncomputable def Echantillonnee.fe (s : Echantillonnee) : ℝ := ((s.data.length : ℝ) - 1) / (s.tmax - s.tmin)

/-- `fct_échelon`, core/src/ct.cc:11. -/
noncomputable def fctEchelon (x : ℝ) : ℝ := if x < 0 then -1 else if x = 0 then 0 else 1

/-! ## Proofs -/

theorem trapBoucle_somme {K : Type} [RCLike K] (δ : K) (f : ℝ → K) (t : ℕ → ℝ) (n k : ℕ) (y : K) : trapBoucle δ f (f (t k)) y ((List.range n).map fun i => t (k + 1 + i)) =
    y + ∑ i ∈ Finset.range n, δ * (f (t (k + i)) + f (t (k + i + 1))) * (1 / 2) := by
  induction n generalizing k y with
  | zero => simp [trapBoucle]
  | succ n ih =>
    rw [List.range_succ_eq_map, List.map_cons, List.map_map]
    show trapBoucle δ f (f (t (k + 1 + 0))) (y + δ * (f (t k) + f (t (k + 1 + 0))) * (1 / 2)) _ = _
    rw [Nat.add_zero]
    have e : ((List.range n).map ((fun i => t (k + 1 + i)) ∘ Nat.succ)) = (List.range n).map fun i => t (k + 1 + 1 + i) := by
      apply List.map_congr_left
      intro i _
      simp only [Function.comp]
      congr 1
      omega
    rw [e, ih (k + 1), Finset.sum_range_succ', Nat.add_zero, add_assoc, add_comm (δ * _ * _)]
    congr 2
    apply Finset.sum_congr rfl
    intro i _
    rw [show k + 1 + i = k + (i + 1) by omega]

theorem integraleTrap_somme {K : Type} [RCLike K] (f : ℝ → K) (a b : ℝ) (N : ℕ) : integraleTrap f a b (N + 1) =
    some (∑ i ∈ Finset.range N, ((((b - a) / N : ℝ) : K)) * (f (a + i * ((b - a) / N)) + f (a + (i + 1 : ℕ) * ((b - a) / N))) * (1 / 2)) := by
  have hl : Util.linspace a b (N + 1) = (a + (0 : ℕ) * ((b - a) / N)) :: (List.range N).map fun i : ℕ => a + ((0 + 1 + i : ℕ) : ℝ) * ((b - a) / N) := by
    apply List.ext_getElem?
    intro i
    obtain ⟨h1, h2, -⟩ := Util.C33_linspace a b (N + 1)
    have hN : (((N + 1 : ℕ) : ℝ) - 1) = N := by push_cast; ring
    rcases Nat.lt_or_ge i (N + 1) with h | h
    · rw [h2 i h, hN]
      cases i with
      | zero => simp
      | succ i =>
        rw [List.getElem?_cons_succ, List.getElem?_map, List.getElem?_range (by omega), Option.map_some]
        rw [show 0 + 1 + i = i + 1 by omega]
    · rw [List.getElem?_eq_none (by omega), List.getElem?_eq_none (by simpa using h)]
  unfold integraleTrap
  rw [hl]
  simp only
  rw [show (((N + 1 : ℕ) : ℝ) - 1) = N by push_cast; ring]
  have := trapBoucle_somme ((((b - a) / N : ℝ) : K)) f (fun k : ℕ => a + (k : ℝ) * ((b - a) / N)) N 0 0
  rw [this, zero_add]
  congr 1
  apply Finset.sum_congr rfl
  intro i _
  rw [Nat.zero_add]

/-- **C163 (trapezoidal rule).** With `N + 1 ≥ 2` points the result is the trapezoidal rule on `N` equal intervals. -/
theorem C163_trapezes (f : ℝ → ℝ) (a b : ℝ) (N : ℕ) (hN : 0 < N) :
    integraleTrap f a b (N + 1) = some ((b - a) / N * ((f a + f b) / 2 + ∑ k ∈ Finset.range (N - 1), f (a + (k + 1) * (b - a) / N))) := by
  have hN' : (N : ℝ) ≠ 0 := by exact_mod_cast hN.ne'
  rw [integraleTrap_somme]
  congr 1
  have h := sum_trapezoidal_integral_adjacent_intervals (f := f) (a := a) (h := (b - a) / N) hN
  rw [show a + (N : ℝ) * ((b - a) / N) = b by field_simp; ring] at h
  show _ = trapezoidal_integral f N a b
  rw [← h]
  apply Finset.sum_congr rfl
  intro i _
  rw [trapezoidal_integral_one]
  push_cast
  simp only [RCLike.ofReal_real_eq_id, id_eq]
  ring

/-- **C163 (one point, no point).** With one point the result is 0; without point the access is out of range. -/
theorem C163_un_point {K : Type} [RCLike K] (f : ℝ → K) (a b : ℝ) : integraleTrap f a b 1 = some 0 ∧ integraleTrap f a b 0 = none := by
  refine ⟨?_, rfl⟩
  have := integraleTrap_somme f a b 0
  simpa using this

/-- Error bound from explicit derivatives. -/
theorem trapeze_erreur (g g1 g2 : ℝ → ℝ) (h1 : ∀ t, HasDerivAt g (g1 t) t) (h2 : ∀ t, HasDerivAt g1 (g2 t) t) (ζ : ℝ) (hζ : ∀ t, |g2 t| ≤ ζ) (a b : ℝ) (N : ℕ) (hN : 0 < N) :
    |trapezoidal_integral g N a b - ∫ x in a..b, g x| ≤ |b - a| ^ 3 * ζ / (12 * N ^ 2) := by
  rcases eq_or_ne a b with rfl | hab
  · simp [trapezoidal_integral]
  · have hu : UniqueDiffOn ℝ (Set.uIcc a b) := uniqueDiffOn_Icc (by simpa using hab.symm)
    have d1 : ∀ x ∈ Set.uIcc a b, derivWithin g (Set.uIcc a b) x = g1 x := fun x hx => (h1 x).hasDerivWithinAt.derivWithin (hu x hx)
    have d2 : ∀ x ∈ Set.uIcc a b, derivWithin (derivWithin g (Set.uIcc a b)) (Set.uIcc a b) x = g2 x := by
      intro x hx
      rw [derivWithin_congr d1 (d1 x hx)]
      exact (h2 x).hasDerivWithinAt.derivWithin (hu x hx)
    refine trapezoidal_error_le (fun x _ => (h1 x).differentiableAt.differentiableWithinAt) (fun x hx => ?_) (fun x => ?_) hN
    · exact ((h2 x).hasDerivWithinAt.congr d1 (d1 x hx)).differentiableWithinAt
    · rw [show (2 : ℕ) = 1 + 1 from rfl, iteratedDerivWithin_succ, show iteratedDerivWithin 1 g (Set.uIcc a b) = derivWithin g (Set.uIcc a b) from iteratedDerivWithin_one]
      by_cases hx : x ∈ Set.uIcc a b
      · rw [d2 x hx]
        exact hζ x
      · rw [derivWithin_zero_of_notMem_closure (by rwa [IsClosed.closure_eq (show IsClosed (Set.uIcc a b) from isClosed_Icc)]), abs_zero]
        exact (abs_nonneg _).trans (hζ x)

/-- **C163 (error).** For a function with a second derivative bounded by `ζ`, the error on the integral is at most `|b - a|³ ζ / (12 N²)`, with `N + 1` points. -/
theorem C163_erreur (g g1 g2 : ℝ → ℝ) (h1 : ∀ t, HasDerivAt g (g1 t) t) (h2 : ∀ t, HasDerivAt g1 (g2 t) t) (ζ : ℝ) (hζ : ∀ t, |g2 t| ≤ ζ) (a b : ℝ) (N : ℕ) (hN : 0 < N) :
    ∃ y, integraleTrap g a b (N + 1) = some y ∧ |y - ∫ x in a..b, g x| ≤ |b - a| ^ 3 * ζ / (12 * N ^ 2) :=
  ⟨_, C163_trapezes g a b N hN, trapeze_erreur g g1 g2 h1 h2 ζ hζ a b N hN⟩

/-- **C163 (affine functions).** The integral of an affine function is exact, whatever the number of points (at least 2). -/
theorem C163_affine (u v a b : ℝ) (N : ℕ) (hN : 0 < N) : integraleTrap (fun t => u * t + v) a b (N + 1) = some (∫ x in a..b, (u * x + v)) := by
  obtain ⟨y, h, e⟩ := C163_erreur (fun t => u * t + v) (fun _ => u) (fun _ => 0) (fun t => by simpa using ((hasDerivAt_id t).const_mul u).add_const v) (fun t => hasDerivAt_const t u) 0 (by simp) a b N hN
  rw [h]
  rw [mul_zero, zero_div] at e
  rw [sub_eq_zero.1 (abs_nonpos_iff.1 e)]

/-! ## Fourier transform -/

theorem integraleTrap_re (f : ℝ → ℂ) (a b : ℝ) (N : ℕ) (y : ℂ) (h : integraleTrap f a b (N + 1) = some y) : integraleTrap (fun t => (f t).re) a b (N + 1) = some y.re ∧
    integraleTrap (fun t => (f t).im) a b (N + 1) = some y.im := by
  rw [integraleTrap_somme] at h
  rw [integraleTrap_somme, integraleTrap_somme]
  obtain rfl := Option.some.inj h
  generalize (b - a) / (N : ℝ) = δ
  have hh : (1 / 2 : ℂ) = ((1 / 2 : ℝ) : ℂ) := by push_cast; rfl
  have hδ : (((δ : ℝ) : ℂ)) = (RCLike.ofReal δ : ℂ) := rfl
  refine ⟨?_, ?_⟩
  · congr 1
    rw [Complex.re_sum]
    apply Finset.sum_congr rfl
    intro i _
    rw [hh, Complex.re_mul_ofReal, ← hδ, Complex.re_ofReal_mul, Complex.add_re]
    rfl
  · congr 1
    rw [Complex.im_sum]
    apply Finset.sum_congr rfl
    intro i _
    rw [hh, Complex.im_mul_ofReal, ← hδ, Complex.im_ofReal_mul, Complex.add_im]
    rfl

theorem mapM_longueur {A B : Type} (g : A → Option B) (P : A → B → Prop) (l : List A) (hg : ∀ a ∈ l, ∃ b, g a = some b ∧ P a b) :
    ∃ r, l.mapM g = some r ∧ r.length = l.length ∧ ∀ (i : ℕ) (a : A), l[i]? = some a → ∃ b : B, r[i]? = some b ∧ P a b := by
  induction l with
  | nil => exact ⟨[], rfl, rfl, by simp⟩
  | cons a l ih =>
    obtain ⟨r, h1, h2, h3⟩ := ih fun b hb => hg b (by simp [hb])
    obtain ⟨b, hb, hP⟩ := hg a (by simp)
    refine ⟨b :: r, by rw [List.mapM_cons, hb, h1]; rfl, by simp [h2], fun i x hx => ?_⟩
    cases i with
    | zero =>
      simp only [List.getElem?_cons_zero, Option.some.injEq] at hx
      subst hx
      exact ⟨b, rfl, hP⟩
    | succ i => simpa using h3 i x (by simpa using hx)

/-- **C163 (Fourier transform).** For a real function bounded by `M0` with a first derivative bounded by `M1` and a second one bounded by `M2`, each value returned (`nt = N + 1` time points) approximates the Fourier integral truncated
to `[-δT/2, δT/2]`, at the frequency of the grid, with an error of at most `|δT|³ (M2 + 2 |ω| M1 + ω² M0) / (12 N²)` on the real part and on the imaginary part. -/
theorem C163_fourier (f f1 f2 : ℝ → ℝ) (h1 : ∀ t, HasDerivAt f (f1 t) t) (h2 : ∀ t, HasDerivAt f1 (f2 t) t) (M0 M1 M2 : ℝ) (hM0 : ∀ t, |f t| ≤ M0) (hM1 : ∀ t, |f1 t| ≤ M1) (hM2 : ∀ t, |f2 t| ≤ M2)
    (δT δF : ℝ) (N nf : ℕ) (hN : 0 < N) : ∃ H, tfc (fun t => (f t : ℂ)) δT δF (N + 1) nf = some H ∧ H.length = nf ∧ ∀ i, i < nf → ∃ ν y, ν = -δF / 2 + i * (δF / ((nf : ℝ) - 1)) ∧ H[i]? = some y ∧
      |y.re - ∫ t in (-δT / 2)..(δT / 2), f t * Real.cos (2 * Real.pi * ν * t)| ≤ |δT| ^ 3 * (M2 + 2 * |2 * Real.pi * ν| * M1 + (2 * Real.pi * ν) ^ 2 * M0) / (12 * N ^ 2) ∧
      |y.im + ∫ t in (-δT / 2)..(δT / 2), f t * Real.sin (2 * Real.pi * ν * t)| ≤ |δT| ^ 3 * (M2 + 2 * |2 * Real.pi * ν| * M1 + (2 * Real.pi * ν) ^ 2 * M0) / (12 * N ^ 2) := by
  have key : ∀ ν : ℝ, ∃ y, integraleTrap (fun x : ℝ => (f x : ℂ) * Complex.exp ((-2 * Real.pi * x * ν : ℝ) * Complex.I)) (-δT / 2) (δT / 2) (N + 1) = some y ∧
      |y.re - ∫ t in (-δT / 2)..(δT / 2), f t * Real.cos (2 * Real.pi * ν * t)| ≤ |δT| ^ 3 * (M2 + 2 * |2 * Real.pi * ν| * M1 + (2 * Real.pi * ν) ^ 2 * M0) / (12 * N ^ 2) ∧
      |y.im + ∫ t in (-δT / 2)..(δT / 2), f t * Real.sin (2 * Real.pi * ν * t)| ≤ |δT| ^ 3 * (M2 + 2 * |2 * Real.pi * ν| * M1 + (2 * Real.pi * ν) ^ 2 * M0) / (12 * N ^ 2) := by
    intro ν
    have hs := integraleTrap_somme (fun x : ℝ => (f x : ℂ) * Complex.exp ((-2 * Real.pi * x * ν : ℝ) * Complex.I)) (-δT / 2) (δT / 2) N
    obtain ⟨hre, him⟩ := integraleTrap_re _ _ _ _ _ hs
    refine ⟨_, hs, ?_⟩
    clear hs
    revert hre him
    generalize (∑ i ∈ Finset.range N, _ : ℂ) = y
    intro hre him
    generalize hω : 2 * Real.pi * ν = ω
    have hc : ∀ t, HasDerivAt (fun t => Real.cos (ω * t)) (-(ω * Real.sin (ω * t))) t := fun t => by
      refine (((hasDerivAt_id t).const_mul ω).cos).congr_deriv ?_
      simp only [id_eq]
      ring
    have hsn : ∀ t, HasDerivAt (fun t => Real.sin (ω * t)) (ω * Real.cos (ω * t)) t := fun t => by
      refine (((hasDerivAt_id t).const_mul ω).sin).congr_deriv ?_
      simp only [id_eq]
      ring
    have hb : ∀ (t u v : ℝ), |u| ≤ 1 → |v| ≤ 1 → |f2 t * u + 2 * ω * f1 t * v - ω ^ 2 * f t * u| ≤ M2 + 2 * |ω| * M1 + ω ^ 2 * M0 := by
      intro t u v hu hv
      have a1 : |f2 t * u| ≤ M2 := by
        rw [abs_mul]
        exact (mul_le_of_le_one_right (abs_nonneg _) hu).trans (hM2 t)
      have a2 : |2 * ω * f1 t * v| ≤ 2 * |ω| * M1 := by
        rw [abs_mul, abs_mul, abs_mul, abs_two]
        refine (mul_le_of_le_one_right (by positivity) hv).trans ?_
        exact mul_le_mul_of_nonneg_left (hM1 t) (by positivity)
      have a3 : |ω ^ 2 * f t * u| ≤ ω ^ 2 * M0 := by
        rw [abs_mul, abs_mul, abs_of_nonneg (sq_nonneg ω)]
        refine (mul_le_of_le_one_right (by positivity) hu).trans ?_
        exact mul_le_mul_of_nonneg_left (hM0 t) (sq_nonneg ω)
      calc _ ≤ |f2 t * u + 2 * ω * f1 t * v| + |ω ^ 2 * f t * u| := abs_sub _ _
        _ ≤ |f2 t * u| + |2 * ω * f1 t * v| + |ω ^ 2 * f t * u| := by gcongr; exact abs_add_le _ _
        _ ≤ _ := by gcongr
    refine ⟨?_, ?_⟩
    · obtain ⟨z, e1, e2⟩ := C163_erreur (fun t => f t * Real.cos (ω * t)) (fun t => f1 t * Real.cos (ω * t) + f t * -(ω * Real.sin (ω * t)))
        (fun t => f2 t * Real.cos (ω * t) + 2 * ω * f1 t * (-Real.sin (ω * t)) - ω ^ 2 * f t * Real.cos (ω * t)) (fun t => (h1 t).mul (hc t))
        (fun t => by
          have := ((h2 t).mul (hc t)).add ((h1 t).mul ((hsn t).const_mul ω).neg)
          refine this.congr_deriv ?_
          simp only [Pi.neg_apply]
          ring) (M2 + 2 * |ω| * M1 + ω ^ 2 * M0)
        (fun t => hb t _ _ (Real.abs_cos_le_one _) (by rw [abs_neg]; exact Real.abs_sin_le_one _)) (-δT / 2) (δT / 2) N hN
      have hf : (fun t : ℝ => ((f t : ℂ) * Complex.exp ((-2 * Real.pi * t * ν : ℝ) * Complex.I)).re) = fun t => f t * Real.cos (ω * t) := by
        funext t
        rw [Complex.re_ofReal_mul, Complex.exp_ofReal_mul_I_re, show -2 * Real.pi * t * ν = -(ω * t) by rw [← hω]; ring, Real.cos_neg]
      rw [hf, e1] at hre
      rw [← Option.some.inj hre]
      rwa [show δT / 2 - -δT / 2 = δT by ring] at e2
    · obtain ⟨z, e1, e2⟩ := C163_erreur (fun t => -(f t * Real.sin (ω * t))) (fun t => -(f1 t * Real.sin (ω * t) + f t * (ω * Real.cos (ω * t))))
        (fun t => -(f2 t * Real.sin (ω * t) + 2 * ω * f1 t * Real.cos (ω * t) - ω ^ 2 * f t * Real.sin (ω * t))) (fun t => ((h1 t).mul (hsn t)).neg)
        (fun t => by
          have := (((h2 t).mul (hsn t)).add ((h1 t).mul ((hc t).const_mul ω))).neg
          refine this.congr_deriv ?_
          ring) (M2 + 2 * |ω| * M1 + ω ^ 2 * M0)
        (fun t => by rw [abs_neg]; exact hb t _ _ (Real.abs_sin_le_one _) (Real.abs_cos_le_one _)) (-δT / 2) (δT / 2) N hN
      have hf : (fun t : ℝ => ((f t : ℂ) * Complex.exp ((-2 * Real.pi * t * ν : ℝ) * Complex.I)).im) = fun t => -(f t * Real.sin (ω * t)) := by
        funext t
        rw [Complex.im_ofReal_mul, Complex.exp_ofReal_mul_I_im, show -2 * Real.pi * t * ν = -(ω * t) by rw [← hω]; ring, Real.sin_neg]
        ring
      rw [hf, e1] at him
      rw [← Option.some.inj him]
      rw [show δT / 2 - -δT / 2 = δT by ring, intervalIntegral.integral_neg, sub_neg_eq_add] at e2
      exact e2
  obtain ⟨l1, l2, -⟩ := Util.C33_linspace (-δF / 2) (δF / 2) nf
  obtain ⟨H, e, hl, hv⟩ := mapM_longueur (fun fi : ℝ => integraleTrap (fun x : ℝ => (f x : ℂ) * Complex.exp ((-2 * Real.pi * x * fi : ℝ) * Complex.I)) (-δT / 2) (δT / 2) (N + 1)) _
    (Util.linspace (-δF / 2) (δF / 2) nf) (fun ν _ => key ν)
  refine ⟨H, e, by rw [hl, l1], fun i hi => ?_⟩
  obtain ⟨y, hy, hb⟩ := hv i _ (l2 i hi)
  refine ⟨-δF / 2 + i * (δF / ((nf : ℝ) - 1)), y, rfl, hy, ?_⟩
  rw [show δF / 2 - -δF / 2 = δF by ring] at hb
  exact hb

/-- **C163 (sampled functions).** Sample `i` is the value at `tmin + i / fe`. -/
theorem C163_echantillons (tmin tmax : ℝ) (n : ℕ) (f : ℝ → ℝ) : (echantillonne tmin tmax n f).data.length = n ∧
    ∀ i, i < n → (echantillonne tmin tmax n f).data[i]? = some (f (tmin + i / (echantillonne tmin tmax n f).fe)) := by
  obtain ⟨h1, h2, -⟩ := Util.C33_linspace tmin tmax n
  have hl : (echantillonne tmin tmax n f).data.length = n := by simp [echantillonne, h1]
  refine ⟨hl, fun i hi => ?_⟩
  unfold Echantillonnee.fe
  rw [hl]
  show ((Util.linspace tmin tmax n).map f)[i]? = _
  rw [List.getElem?_map, h2 i hi, Option.map_some]
  congr 2
  show _ = tmin + i / (((n : ℝ) - 1) / (tmax - tmin))
  rw [div_div_eq_mul_div, mul_div_assoc]

/-- **C163 (unit step, refuted).** The unit step is not 0 before 0: it is the sign function. -/
theorem C163_echelon_refute (x : ℝ) (hx : x < 0) : fctEchelon x = -1 := by
  unfold fctEchelon
  rw [if_pos hx]

/-- Non-vacuity of the error bounds: the cosine. -/
example : ∃ y, integraleTrap Real.cos 0 1 (1000 + 1) = some y ∧ |y - ∫ x in (0 : ℝ)..1, Real.cos x| ≤ 1 / 10 ^ 7 := by
  obtain ⟨y, h, e⟩ := C163_erreur Real.cos (fun t => -Real.sin t) (fun t => -Real.cos t) Real.hasDerivAt_cos (fun t => (Real.hasDerivAt_sin t).neg) 1
    (fun t => by rw [abs_neg]; exact Real.abs_cos_le_one t) 0 1 1000 (by norm_num)
  refine ⟨y, h, e.trans ?_⟩
  norm_num

end Verif.Ct
