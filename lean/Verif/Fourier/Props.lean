import Verif.Fourier.PlanLemmas
import Mathlib.RingTheory.RootsOfUnity.Complex
import Mathlib.Data.Nat.Log
import Mathlib.Analysis.Real.Sqrt
import Mathlib.Tactic.NormNum

/-!
# C27: the FFT computes the discrete Fourier transform

Specification (`TFD`): the orthonormal discrete Fourier transform, `X_k = (1/√n) Σ_j x_j exp(-2πi jk/n)` (and `exp(+2πi jk/n)` for the
inverse one), written directly with complex exponentials.
-/

namespace Verif.Fourier

open Finset Complex

/-- Specification: coefficient `k` of the orthonormal DFT of `x`; `signe` is `-1` (direct) or `1` (inverse). -/
noncomputable def TFD (signe : ℂ) (x : List ℂ) (k : Nat) : ℂ :=
  (∑ j ∈ range x.length, x.getD j 0 * exp (signe * (2 * Real.pi * I) * (j * k) / x.length)) / (Real.sqrt x.length : ℂ)

/-- The floating-point constants of the code, read in exact arithmetic: core/src/fourier/fourier.cc:34 (`polar(1, -2π/n)`),
core/src/fourier/fourier.cc:398-401 (`polar(-2π/n * d²/2)`), `sqrt`, `conj`, core/src/tsd.cc:287-291 (`prochaine_puissance_de_2`: the
least power of two not below its argument; the float logarithms that compute it are not modelled). -/
noncomputable def trigoC : Trigo ℂ where
  w n := exp (-(2 * Real.pi * I / n))
  chirp n d := exp (-(2 * Real.pi * I / n) * ((d : ℂ) ^ 2 / 2))
  racine n := (Real.sqrt n : ℂ)
  conj := star
  pp2 n := 2 ^ Nat.clog 2 n

theorem conj_exp_I (θ : ℝ) : star (exp (-(θ * I))) = (exp (-(θ * I)))⁻¹ := by
  rw [← exp_neg]
  show (starRingEnd ℂ) (exp (-(θ * I))) = _
  rw [← exp_conj]
  simp

theorem loisC : Lois trigoC where
  prim n hn := by
    show IsPrimitiveRoot (exp (-(2 * Real.pi * I / n))) n
    rw [exp_neg]
    exact (isPrimitiveRoot_exp n (by omega)).inv
  carre n hn := by
    show exp (-(2 * Real.pi * I / ((2 * n : ℕ) : ℂ))) ^ 2 = exp (-(2 * Real.pi * I / n))
    rw [← exp_nat_mul]
    congr 1
    have : (n : ℂ) ≠ 0 := by exact_mod_cast hn.ne'
    push_cast
    field_simp
  conjw n i hn := by
    show star (exp (-(2 * Real.pi * I / n)) ^ i) = (exp (-(2 * Real.pi * I / n)) ^ i)⁻¹
    have := conj_exp_I (2 * Real.pi / n)
    have e : (((2 * Real.pi / n : ℝ) : ℂ) * I) = 2 * Real.pi * I / n := by push_cast; ring
    rw [e] at this
    rw [star_pow, this, inv_pow]
  racine_un := by simp [trigoC]
  racine_mul a b := by
    show ((Real.sqrt ((a * b : ℕ) : ℝ) : ℝ) : ℂ) = (Real.sqrt a : ℂ) * (Real.sqrt b : ℂ)
    rw [Nat.cast_mul, Real.sqrt_mul (Nat.cast_nonneg a), ofReal_mul]
  racine_carre n := by
    show (Real.sqrt n : ℂ) * (Real.sqrt n : ℂ) = n
    rw [← ofReal_mul, Real.mul_self_sqrt (Nat.cast_nonneg n)]; simp
  racine_ne n hn := by
    show (Real.sqrt n : ℂ) ≠ 0
    rw [ofReal_ne_zero]
    exact (Real.sqrt_pos.2 (by exact_mod_cast hn)).ne'
  conjc n d _ := by
    show star (exp (-(2 * Real.pi * I / n) * ((d : ℂ) ^ 2 / 2))) = _
    have := conj_exp_I (2 * Real.pi / n * ((d : ℝ) ^ 2 / 2))
    have e : -((((2 * Real.pi / n * ((d : ℝ) ^ 2 / 2)) : ℝ) : ℂ) * I) = -(2 * Real.pi * I / n) * ((d : ℂ) ^ 2 / 2) := by
      push_cast; ring
    rw [e] at this
    exact this
  chirp n k j hn := by
    show exp (-(2 * Real.pi * I / n) * (((k : Int) : ℂ) ^ 2 / 2)) * exp (-(2 * Real.pi * I / n) * (((j : Int) : ℂ) ^ 2 / 2)) *
      (exp (-(2 * Real.pi * I / n) * ((((k : Int) - (j : Int) : Int) : ℂ) ^ 2 / 2)))⁻¹ = exp (-(2 * Real.pi * I / n)) ^ (k * j)
    rw [← exp_neg, ← exp_add, ← exp_add, ← exp_nat_mul]
    congr 1
    push_cast
    ring
  pp2 m hm := by
    refine ⟨Nat.clog 2 m, rfl, Nat.le_pow_clog (by omega) m, ?_⟩
    by_cases h1 : m = 1
    · subst h1; simp
    · have h2 := Nat.pow_pred_clog_lt_self (b := 2) (by omega) (x := m) (by omega)
      have h3 : 0 < Nat.clog 2 m := Nat.clog_pos (by omega) (by omega)
      obtain ⟨c, hc⟩ : ∃ c, Nat.clog 2 m = c + 1 := ⟨Nat.clog 2 m - 1, by omega⟩
      rw [hc] at h2 ⊢
      rw [pow_succ]
      simp only [Nat.pred_succ] at h2
      omega

theorem dft_TFD (avant : Bool) (x : List ℂ) (k : Nat) :
    dft (ratio trigoC x.length avant) x.length (fun j => x.getD j 0) k / trigoC.racine x.length =
      TFD (if avant then -1 else 1) x k := by
  unfold dft TFD
  congr 1
  refine sum_congr rfl fun j _ => ?_
  rw [mul_comm]
  congr 1
  cases avant
  · show (exp (-(2 * Real.pi * I / x.length)))⁻¹ ^ (k * j) = _
    rw [← exp_neg, ← exp_nat_mul]
    congr 1
    push_cast
    simp
    ring
  · show (exp (-(2 * Real.pi * I / x.length))) ^ (k * j) = _
    rw [← exp_nat_mul]
    congr 1
    push_cast
    simp
    ring

/-! ## Histories of a plan -/

/-- The calls a user can make on a plan. -/
inductive OpPlan where
  | configure (n : Nat) (avant : Bool)
  | step (x : List ℂ) (avant : Bool)

/-- One call; a failed assertion stops the program (`none`). -/
noncomputable def Plan.appel (p : Plan ℂ) : OpPlan → Option (Plan ℂ)
  | .configure n avant => some (p.configure trigoC n avant)
  | .step x avant => (p.step trigoC x avant).map Prod.fst

/-- A history of calls. -/
noncomputable def Plan.histoire (p : Plan ℂ) : List OpPlan → Option (Plan ℂ)
  | [] => some p
  | o :: l => match p.appel o with
    | none => none
    | some p' => p'.histoire l

/-- Only sizes that the 32-bit integers of the code can hold with the chirp padding. -/
def OpPlan.taille : OpPlan → Nat
  | .configure n _ => n
  | .step x _ => x.length

theorem appel_valide (p p' : Plan ℂ) (o : OpPlan) (ho : o.taille ≤ 2 ^ 29) (h : Valide trigoC p) (e : p.appel o = some p') :
    Valide trigoC p' := by
  cases o with
  | configure n avant =>
    simp only [Plan.appel, Option.some.injEq] at e
    rw [← e]
    exact .inr ⟨n, configure_pret _ _ _ _⟩
  | step x avant =>
    simp only [Plan.appel] at e
    by_cases hx : x.length = 0
    · unfold Plan.step at e
      rw [if_pos hx] at e
      cases e
    · obtain ⟨q, y, e2, hq, _⟩ := step_tfd loisC avant x.length x p rfl (by omega) ho h
      rw [e2] at e
      simp only [Option.map_some, Option.some.injEq] at e
      rw [← e]
      exact .inr ⟨_, hq⟩

theorem histoire_valide (l : List OpPlan) : ∀ (p p' : Plan ℂ), (∀ o ∈ l, o.taille ≤ 2 ^ 29) → Valide trigoC p →
    p.histoire l = some p' → Valide trigoC p' := by
  induction l with
  | nil => intro p p' _ h e; cases e; exact h
  | cons o l ih =>
    intro p p' ho h e
    rw [Plan.histoire] at e
    cases e1 : p.appel o with
    | none => rw [e1] at e; cases e
    | some q =>
      rw [e1] at e
      exact ih q p' (fun o' h' => ho o' (List.mem_cons_of_mem _ h')) (appel_valide p q o (ho o List.mem_cons_self) h e1) e

/-! ## Theorems -/

/-- C27: after every history of calls on a plan (any sizes, any directions), `step(x, avant)` computes the orthonormal DFT of `x`, direct or
inverse as asked, for every length from 1 to `2^29`: powers of two, odd sizes and all others. -/
theorem C27_plan (l : List OpPlan) (hl : ∀ o ∈ l, o.taille ≤ 2 ^ 29) (p : Plan ℂ) (hp : (Plan.neuf : Plan ℂ).histoire l = some p)
    (x : List ℂ) (hx : 0 < x.length) (hx2 : x.length ≤ 2 ^ 29) (avant : Bool) :
    ∃ p' y, p.step trigoC x avant = some (p', y) ∧ y.length = x.length ∧
      ∀ k, k < x.length → y.getD k 0 = TFD (if avant then -1 else 1) x k := by
  obtain ⟨p', y, e, _, t⟩ := step_tfd loisC avant x.length x p rfl hx hx2 (histoire_valide l _ _ hl (.inl rfl) hp)
  refine ⟨p', y, e, t.1, fun k hk => ?_⟩
  rw [t.2 k hk, dft_TFD avant x]

theorem fft_some (x : List ℂ) (hx : 0 < x.length) (hx2 : x.length ≤ 2 ^ 29) :
    ∃ y, fft trigoC x = some y ∧ EstTfd trigoC true x y := by
  obtain ⟨p', y, e, _, t⟩ := step_tfd loisC true x.length x Plan.neuf rfl hx hx2 (.inl rfl)
  exact ⟨y, by rw [fft, e]; rfl, t⟩

theorem ifft_some (x : List ℂ) (hx : 0 < x.length) (hx2 : x.length ≤ 2 ^ 29) :
    ∃ y, ifft trigoC x = some y ∧ EstTfd trigoC false x y := by
  obtain ⟨p', y, e, _, t⟩ := step_tfd loisC false x.length x Plan.neuf rfl hx hx2 (.inl rfl)
  exact ⟨y, by rw [ifft, e]; rfl, t⟩

/-- C27: `fft(x)` is the orthonormal DFT of `x`, for every length. -/
theorem C27_fft (x : List ℂ) (hx : 0 < x.length) (hx2 : x.length ≤ 2 ^ 29) :
    ∃ y, fft trigoC x = some y ∧ y.length = x.length ∧ ∀ k, k < x.length → y.getD k 0 = TFD (-1) x k := by
  obtain ⟨y, e, t⟩ := fft_some x hx hx2
  exact ⟨y, e, t.1, fun k hk => by rw [t.2 k hk, dft_TFD true x]; simp⟩

/-- C27: `ifft(X)` is the inverse orthonormal DFT, for every length. -/
theorem C27_ifft (x : List ℂ) (hx : 0 < x.length) (hx2 : x.length ≤ 2 ^ 29) :
    ∃ y, ifft trigoC x = some y ∧ y.length = x.length ∧ ∀ k, k < x.length → y.getD k 0 = TFD 1 x k := by
  obtain ⟨y, e, t⟩ := ifft_some x hx hx2
  exact ⟨y, e, t.1, fun k hk => by rw [t.2 k hk, dft_TFD false x]; simp⟩

theorem list_ext_getD (x y : List ℂ) (hl : x.length = y.length) (h : ∀ i, i < x.length → x.getD i 0 = y.getD i 0) : x = y := by
  refine List.ext_getElem hl fun i h1 h2 => ?_
  have := h i h1
  rwa [List.getD_eq_getElem _ _ h1, List.getD_eq_getElem _ _ h2] at this

theorem estTfd_inverse (avant : Bool) (x y z : List ℂ) (hx : 0 < x.length) (h1 : EstTfd trigoC avant x y)
    (h2 : EstTfd trigoC (!avant) y z) : z = x := by
  refine list_ext_getD _ _ (by rw [h2.1, h1.1]) fun i hi => ?_
  have hi' : i < x.length := by rw [← h1.1, ← h2.1]; exact hi
  rw [h2.2 i (by rw [← h2.1]; exact hi), h1.1]
  have hr : ratio trigoC x.length (!avant) = (ratio trigoC x.length avant)⁻¹ := by
    cases avant
    · show ratio trigoC x.length true = (ratio trigoC x.length false)⁻¹
      rw [ratio_not, inv_inv]
    · exact ratio_not _ _
  rw [hr]
  have hc : dft (ratio trigoC x.length avant)⁻¹ x.length (fun j => y.getD j 0) i =
      dft (ratio trigoC x.length avant)⁻¹ x.length (dft (ratio trigoC x.length avant) x.length (fun j => x.getD j 0)) i /
        trigoC.racine x.length := by
    unfold dft
    rw [sum_div]
    refine sum_congr rfl fun j hj => ?_
    simp only []
    rw [h1.2 j (mem_range.1 hj)]
    unfold dft
    ring
  rw [hc, dft_inverse _ _ hx (ratio_prim loisC _ hx avant) _ _ hi', div_div, loisC.racine_carre]
  have : (x.length : ℂ) ≠ 0 := by exact_mod_cast hx.ne'
  field_simp

/-- C27: the inverse transform undoes the direct one and conversely, for every length. -/
theorem C27_inverse (x : List ℂ) (hx : 0 < x.length) (hx2 : x.length ≤ 2 ^ 29) :
    (∃ y, fft trigoC x = some y ∧ ifft trigoC y = some x) ∧ (∃ y, ifft trigoC x = some y ∧ fft trigoC y = some x) := by
  constructor
  · obtain ⟨y, e, t⟩ := fft_some x hx hx2
    obtain ⟨z, e2, t2⟩ := ifft_some y (by rw [t.1]; exact hx) (by rw [t.1]; exact hx2)
    exact ⟨y, e, by rw [e2, estTfd_inverse true x y z hx t t2]⟩
  · obtain ⟨y, e, t⟩ := ifft_some x hx hx2
    obtain ⟨z, e2, t2⟩ := fft_some y (by rw [t.1]; exact hx) (by rw [t.1]; exact hx2)
    exact ⟨y, e, by rw [e2, estTfd_inverse false x y z hx t t2]⟩

/-- C27: the transform of an empty signal is rejected (failed assertion). -/
theorem C27_vide : fft trigoC [] = none ∧ ifft trigoC [] = none := by
  constructor <;> · simp [fft, ifft, Plan.step]

/-- C27, refuted for plans: a plan configured for the INVERSE transform, `configure(n, non)`, when called as `plan->step(x)` (the
direction argument of this overload defaults to "direct"), computes the DIRECT transform: for `x = (0, 1, 0)` the coefficient 1 obtained is
not the inverse DFT. -/
theorem C27_direction_refute : ∃ (x : List ℂ) (p' : Plan ℂ) (y : List ℂ),
    ((Plan.neuf : Plan ℂ).configure trigoC x.length false).stepDefaut trigoC x = some (p', y) ∧ y.getD 1 0 ≠ TFD 1 x 1 := by
  obtain ⟨p', y, e, l, g⟩ := C27_plan [.configure 3 false] (by simp [OpPlan.taille]) _ rfl [0, 1, 0] (by simp) (by norm_num) true
  refine ⟨[0, 1, 0], p', y, e, ?_⟩
  rw [g 1 (by simp)]
  unfold TFD
  simp only [List.length_cons, List.length_nil, sum_range_succ, sum_range_zero]
  simp only [List.getD_cons_zero, List.getD_cons_succ, if_true]
  intro h
  have h3 : (Real.sqrt ((0 + 1 + 1 + 1 : ℕ) : ℝ) : ℂ) ≠ 0 := by
    rw [ofReal_ne_zero]; exact (Real.sqrt_pos.2 (by norm_num)).ne'
  rw [div_left_inj' h3] at h
  simp only [zero_mul, one_mul, zero_add, add_zero] at h
  have e1 : (exp (2 * Real.pi * I / 3)) ^ 2 = 1 := by
    have h4 : exp (-(2 * Real.pi * I / 3)) = exp (2 * Real.pi * I / 3) := by
      convert h using 2 <;> push_cast <;> ring
    rw [pow_two]
    nth_rewrite 1 [← h4]
    rw [← exp_add]
    simp
  have h5 := (isPrimitiveRoot_exp 3 (by omega)).dvd_of_pow_eq_one 2 (by simpa using e1)
  omega

/-! ## Energy and linearity -/

theorem star_TFD (x : List ℂ) (k : Nat) : star (TFD (-1) x k) = TFD 1 (x.map star) k := by
  unfold TFD
  rw [star_div₀, star_sum, List.length_map]
  congr 1
  · refine sum_congr rfl fun j hj => ?_
    rw [star_mul']
    congr 1
    · rw [List.getD_eq_getElem _ _ (mem_range.1 hj), List.getD_eq_getElem _ _ (by simpa using mem_range.1 hj), List.getElem_map]
    · show (starRingEnd ℂ) (exp _) = _
      rw [← exp_conj]
      congr 1
      have h2 : (starRingEnd ℂ) 2 = 2 := conj_ofNat 2
      simp [h2]
  · exact conj_ofReal _

theorem dft_parseval {K : Type} [Field K] (ρ : K) (N : Nat) (hN : 0 < N) (h : IsPrimitiveRoot ρ N) (u v : Nat → K) :
    ∑ k ∈ range N, dft ρ N u k * dft ρ⁻¹ N v k = N * ∑ a ∈ range N, u a * v a := by
  unfold dft
  have e : ∀ k ∈ range N, (∑ a ∈ range N, ρ ^ (k * a) * u a) * (∑ b ∈ range N, ρ⁻¹ ^ (k * b) * v b) =
      ∑ a ∈ range N, ∑ b ∈ range N, (ρ ^ (k * a) * ρ⁻¹ ^ (k * b)) * (u a * v b) := by
    intro k _
    rw [sum_mul_sum]
    refine sum_congr rfl fun a _ => sum_congr rfl fun b _ => by ring
  rw [sum_congr rfl e, sum_comm, mul_sum]
  refine sum_congr rfl fun a ha => ?_
  have ha := mem_range.1 ha
  rw [sum_comm]
  have e2 : ∀ b ∈ range N, ∑ k ∈ range N, (ρ ^ (k * a) * ρ⁻¹ ^ (k * b)) * (u a * v b) = if b = a then N * (u a * v a) else 0 := by
    intro b hb
    rw [← sum_mul, ortho ρ N hN h, Nat.mod_eq_of_lt ha, Nat.mod_eq_of_lt (mem_range.1 hb)]
    by_cases hc : b = a
    · rw [if_pos hc.symm, if_pos hc, hc]
    · rw [if_neg (fun e => hc e.symm), if_neg hc, zero_mul]
  rw [sum_congr rfl e2, sum_ite_eq', if_pos (mem_range.2 ha)]

/-- C27: scalar products, hence energy, are preserved (Parseval): `Σ_k X_k conj(Y_k) = Σ_j x_j conj(y_j)`. -/
theorem C27_parseval (x y X Y : List ℂ) (hx : 0 < x.length) (hx2 : x.length ≤ 2 ^ 29) (hl : y.length = x.length)
    (hX : fft trigoC x = some X) (hY : fft trigoC y = some Y) :
    ∑ k ∈ range x.length, X.getD k 0 * star (Y.getD k 0) = ∑ j ∈ range x.length, x.getD j 0 * star (y.getD j 0) := by
  obtain ⟨X', e, _, t⟩ := C27_fft x hx hx2
  obtain ⟨Y', e2, _, t2⟩ := C27_fft y (by omega) (by omega)
  rw [hX] at e; rw [hY] at e2
  cases e; cases e2
  have hs : ∀ k ∈ range x.length, X.getD k 0 * star (Y.getD k 0) =
      dft (ratio trigoC x.length true) x.length (fun j => x.getD j 0) k *
        dft (ratio trigoC x.length true)⁻¹ x.length (fun j => (y.map star).getD j 0) k / x.length := by
    intro k hk
    have hk := mem_range.1 hk
    have h1 := dft_TFD true x k
    have h2 := dft_TFD false (y.map star) k
    rw [List.length_map, hl, ratio_not] at h2
    simp only [if_true, Bool.false_eq_true, if_false] at h1 h2
    rw [t k hk, t2 k (by omega), star_TFD, ← h1, ← h2, div_mul_div_comm, loisC.racine_carre]
  rw [sum_congr rfl hs, ← sum_div, dft_parseval _ _ hx (ratio_prim loisC _ hx true)]
  have hne : (x.length : ℂ) ≠ 0 := by exact_mod_cast hx.ne'
  rw [mul_div_cancel_left₀ _ hne]
  refine sum_congr rfl fun j hj => ?_
  have hj := mem_range.1 hj
  congr 1
  rw [List.getD_eq_getElem _ _ (by simp; omega), List.getElem_map, List.getD_eq_getElem _ _ (by omega)]

/-- C27: linearity. -/
theorem C27_lineaire (a b : ℂ) (x y X Y : List ℂ) (hx : 0 < x.length) (hx2 : x.length ≤ 2 ^ 29) (hl : y.length = x.length)
    (hX : fft trigoC x = some X) (hY : fft trigoC y = some Y) :
    fft trigoC (List.zipWith (fun u v => a * u + b * v) x y) = some (List.zipWith (fun u v => a * u + b * v) X Y) := by
  obtain ⟨X', e, l, t⟩ := C27_fft x hx hx2
  obtain ⟨Y', e2, l2, t2⟩ := C27_fft y (by omega) (by omega)
  rw [hX] at e; rw [hY] at e2
  cases e; cases e2
  have hz : (List.zipWith (fun u v => a * u + b * v) x y).length = x.length := by simp [hl]
  have hzd : ∀ (x y : List ℂ) j, j < x.length → y.length = x.length →
      (List.zipWith (fun u v => a * u + b * v) x y).getD j 0 = a * x.getD j 0 + b * y.getD j 0 := by
    intro x y j hj hxy
    rw [List.getD_eq_getElem _ _ (by simp; omega), List.getElem_zipWith, List.getD_eq_getElem _ _ hj, List.getD_eq_getElem _ _ (by omega)]
  obtain ⟨Z, e3, l3, t3⟩ := C27_fft (List.zipWith (fun u v => a * u + b * v) x y) (by omega) (by omega)
  rw [e3]
  congr 1
  refine list_ext_getD _ _ (by rw [l3, hz]; simp; omega) fun k hk => ?_
  have hk : k < x.length := by omega
  rw [t3 k (by omega), hzd X Y k (by omega) (by omega), t k hk, t2 k (by omega)]
  unfold TFD
  rw [hz, hl, mul_div_assoc', mul_div_assoc', ← add_div, mul_sum, mul_sum, ← sum_add_distrib]
  congr 1
  refine sum_congr rfl fun j hj => ?_
  rw [hzd x y j (mem_range.1 hj) hl]
  ring

/-! ## Non-vacuity -/

/-- A plan used for a size-4 direct transform, configured for size 6 (even, not a power of two), then used with 3 samples. -/
example : ∃ p, (Plan.neuf : Plan ℂ).histoire [.step [1, 2, 3, 4] true, .configure 6 false, .step [1, 2, 3] false] = some p := by
  obtain ⟨p1, y1, e1, h1, _⟩ := step_tfd loisC true 4 [1, 2, 3, 4] Plan.neuf rfl (by omega) (by omega) (.inl rfl)
  obtain ⟨p2, y2, e2, h2, _⟩ := step_tfd loisC false 3 [1, 2, 3] (p1.configure trigoC 6 false) rfl (by omega) (by omega)
    (.inr ⟨_, configure_pret _ _ _ _⟩)
  refine ⟨p2, ?_⟩
  simp only [Plan.histoire, Plan.appel, e1, Option.map_some, e2]

example : ∃ X Y, fft trigoC [1, 2, 3] = some X ∧ fft trigoC [4, I, 6] = some Y := by
  obtain ⟨X, h, _⟩ := C27_fft [1, 2, 3] (by simp) (by norm_num)
  obtain ⟨Y, h2, _⟩ := C27_fft [4, I, 6] (by simp) (by norm_num)
  exact ⟨X, Y, h, h2⟩

/-- The specification on a known signal: the DFT of a unit impulse is constant. -/
example (k : Nat) : TFD (-1) [1, 0, 0, 0] k = 1 / (Real.sqrt 4 : ℂ) := by
  simp [TFD, sum_range_succ]

end Verif.Fourier
