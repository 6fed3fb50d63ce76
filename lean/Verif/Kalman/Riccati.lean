import Verif.Kalman.Moindres
import Verif.Kalman.Ekf
import Mathlib.Topology.Algebra.Order.Field
import Mathlib.Analysis.SpecificLimits.Basic
import Mathlib.Analysis.SpecialFunctions.Pow.Real

/-!
# C117, C118: scalar models, limit of the gain, Riccati equation, steady-state gain
-/

namespace Verif.Kalman

open Matrix Filter Topology

/-! ### Specification -/

/-- Riccati map of a scalar model: a priori variance of the next step as a function of the present one. -/
noncomputable def riccati (a c q r P : ℝ) : ℝ := a ^ 2 * P * r / (r + c ^ 2 * P) + q

/-- Estimates of a scalar observer with the gains `K 0, K 1, …`: prediction `a x`, then correction with the gain times the difference between the observation and its prediction. -/
def observateur (a c : ℝ) (K : ℕ → ℝ) : ℕ → ℝ → List ℝ → List ℝ
  | _, _, [] => []
  | i, x, y :: l => (a * x + K i * (y - c * (a * x))) :: observateur a c K (i + 1) (a * x + K i * (y - c * (a * x))) l

/-- The 1 × 1 matrix of coefficient `x`. -/
def sc (x : ℝ) : Matrix (Fin 1) (Fin 1) ℝ := fun _ _ => x

/-- The scalar model `xₙ = a xₙ₋₁ + vₙ`, `yₙ = c xₙ + wₙ` with variances `q` and `r`. -/
def scalaire (a c q r : ℝ) : Ssm (Fin 1) (Fin 1) (Fin 0) := ⟨sc a, none, sc c, none, some (sc q), some (sc r)⟩

/-- Observations of a scalar model as arguments of the filter. -/
def obs1 (y : ℝ) : (Fin 1 → ℝ) × (Fin 0 → ℝ) := (fun _ => y, fun _ => 0)

/-! ### 1 × 1 matrices -/

theorem sc_mul (x y : ℝ) : sc x * sc y = sc (x * y) := by ext i j; simp [sc, Matrix.mul_apply]
theorem sc_add (x y : ℝ) : sc x + sc y = sc (x + y) := by ext i j; simp [sc]
theorem sc_sub (x y : ℝ) : sc x - sc y = sc (x - y) := by ext i j; simp [sc]
theorem sc_tr (x : ℝ) : (sc x)ᵀ = sc x := by ext i j; simp [sc]
theorem sc_had (x y : ℝ) : sc x ⊙ sc y = sc (x * y) := by ext i j; simp [sc]
theorem sc_one : (1 : Matrix (Fin 1) (Fin 1) ℝ) = sc 1 := by ext i j; simp [sc, Matrix.one_apply, Subsingleton.elim i j]
theorem sc_vec (x : ℝ) (v : Fin 1 → ℝ) : sc x *ᵥ v = fun _ => x * v 0 := by ext i; simp [sc, Matrix.mulVec, dotProduct]
theorem sc_zero (x : ℝ) : sc x = 0 ↔ x = 0 := by
  constructor
  · intro h; have := congrFun (congrFun h 0) 0; simpa [sc] using this
  · rintro rfl; ext i j; simp [sc]
theorem sc_inj {x y : ℝ} (h : sc x = sc y) : x = y := congrFun (congrFun h 0) 0
theorem sc_inverse (x : ℝ) (h : x ≠ 0) : inverse (sc x) = some (sc x⁻¹) := by
  refine inverse_some ?_ ?_ <;> rw [sc_mul, sc_one]
  · rw [mul_inv_cancel₀ h]
  · rw [inv_mul_cancel₀ h]

/-! ### Scalar step -/

/-- The step of the filter on a scalar model. -/
theorem scalaire_step (a c q r : ℝ) (hq : 0 ≤ q) (hr : 0 < r) (x P : ℝ) (hP : 0 ≤ P) (y : ℝ) :
    Filtre.step (scalaire a c q r) ⟨fun _ => x, sc P⟩ (obs1 y).1 (obs1 y).2 =
      some ⟨fun _ => a * x + (a ^ 2 * P + q) * c / (r + c ^ 2 * (a ^ 2 * P + q)) * (y - c * (a * x)), sc ((a ^ 2 * P + q) * r / (r + c ^ 2 * (a ^ 2 * P + q)))⟩ := by
  have hPm : 0 ≤ a ^ 2 * P + q := by positivity
  have hS : 0 < r + c ^ 2 * (a ^ 2 * P + q) := by positivity
  have e1 : covPredite (scalaire a c q r) (sc P) = some (sc (a ^ 2 * P + q)) := by
    simp only [covPredite, scalaire, Option.map_some, sc_tr, sc_mul, sc_add]
    congr 2; ring
  have e2 : gain (scalaire a c q r) (sc (a ^ 2 * P + q)) = some (sc ((a ^ 2 * P + q) * c / (r + c ^ 2 * (a ^ 2 * P + q)))) := by
    simp only [gain, scalaire, Option.bind_some, sc_tr, sc_mul, sc_add, sc_zero]
    rw [if_neg (fun h => hr.ne' h.2)]
    have e : c * ((a ^ 2 * P + q) * c) + r = r + c ^ 2 * (a ^ 2 * P + q) := by ring
    rw [e, sc_inverse _ hS.ne', Option.map_some, sc_mul]
    rfl
  unfold Filtre.step
  simp only [e1, Option.bind_some, e2, Option.map_some]
  congr 1
  congr 1
  · ext i
    simp only [predit, observe, ajoute, scalaire, obs1, sc_vec, Pi.add_apply, Pi.sub_apply]
  · simp only [scalaire, sc_one, sc_mul, sc_sub]
    congr 1
    field_simp
    ring

/-! ### Fixed point -/

/-- The positive solution of the Riccati equation attracts geometrically every non-negative start. -/
theorem riccati_point (a c q r : ℝ) (hc : c ≠ 0) (hq : 0 < q) (hr : 0 < r) :
    ∃ P, q ≤ P ∧ riccati a c q r P = P ∧ (∀ x, 0 ≤ x → |riccati a c q r x - P| ≤ (1 - q / P) * |x - P|) ∧ ∀ P', 0 ≤ P' → riccati a c q r P' = P' → P' = P := by
  have hc2 : 0 < c ^ 2 := by positivity
  set β := a ^ 2 * r + q * c ^ 2 - r with hβ
  set Δ := β ^ 2 + 4 * c ^ 2 * (q * r) with hΔ
  have hΔp : β ^ 2 < Δ := by rw [hΔ]; have : 0 < 4 * c ^ 2 * (q * r) := by positivity
                             linarith
  have hs : |β| < Real.sqrt Δ := by rw [← Real.sqrt_sq_eq_abs]; exact Real.sqrt_lt_sqrt (sq_nonneg _) hΔp
  have hsq : Real.sqrt Δ ^ 2 = Δ := Real.sq_sqrt (le_trans (sq_nonneg _) hΔp.le)
  set P := (β + Real.sqrt Δ) / (2 * c ^ 2) with hPd
  have hPp : 0 < P := by
    have := neg_abs_le β
    apply div_pos <;> [linarith; positivity]
  have heq : c ^ 2 * P ^ 2 - β * P - q * r = 0 := by
    have e : 2 * c ^ 2 * P = β + Real.sqrt Δ := by rw [hPd]; field_simp
    have e2 : (2 * c ^ 2 * P - β) ^ 2 = Δ := by
      rw [e]
      have h' : (β + Real.sqrt Δ - β) ^ 2 = Real.sqrt Δ ^ 2 := by ring
      rw [h', hsq]
    have e3 : 4 * c ^ 2 * (c ^ 2 * P ^ 2 - β * P - q * r) = 0 := by rw [hΔ] at e2; linear_combination e2
    exact (mul_eq_zero.1 e3).resolve_left (by positivity)
  clear_value P
  have hrP : 0 < r + c ^ 2 * P := by positivity
  have hfix : riccati a c q r P = P := by
    unfold riccati
    have : a ^ 2 * P * r = (P - q) * (r + c ^ 2 * P) := by rw [hβ] at heq; linear_combination -heq
    rw [this, mul_div_cancel_right₀ _ hrP.ne']; ring
  have hqP : q ≤ P := by
    rw [← hfix]; unfold riccati
    have : 0 ≤ a ^ 2 * P * r / (r + c ^ 2 * P) := by positivity
    linarith
  have hcontr : ∀ x, 0 ≤ x → |riccati a c q r x - P| ≤ (1 - q / P) * |x - P| := by
    intro x hx
    have hrx : 0 < r + c ^ 2 * x := by positivity
    have hθ : 1 - q / P = a ^ 2 * r / (r + c ^ 2 * P) := by
      have : a ^ 2 * P * r / (r + c ^ 2 * P) = P - q := by unfold riccati at hfix; linarith
      have h2 : P * (a ^ 2 * r / (r + c ^ 2 * P)) = P - q := by rw [← this]; ring
      field_simp at h2 ⊢
      linarith
    have e : riccati a c q r x - P = (1 - q / P) * (r / (r + c ^ 2 * x)) * (x - P) := by
      have : riccati a c q r x - P = riccati a c q r x - riccati a c q r P := by rw [hfix]
      rw [this, hθ]
      unfold riccati
      field_simp
      ring
    have h0 : 0 ≤ 1 - q / P := by rw [hθ]; positivity
    have h1 : 0 ≤ r / (r + c ^ 2 * x) := by positivity
    have h2 : r / (r + c ^ 2 * x) ≤ 1 := by rw [div_le_one hrx]; have : 0 ≤ c ^ 2 * x := by positivity
                                            linarith
    rw [e, abs_mul, abs_mul, abs_of_nonneg h0, abs_of_nonneg h1]
    have := mul_le_mul_of_nonneg_left h2 h0
    have := mul_le_mul_of_nonneg_right this (abs_nonneg (x - P))
    linarith
  refine ⟨P, hqP, hfix, hcontr, ?_⟩
  intro P' hP' hf
  have := hcontr P' hP'
  rw [hf] at this
  by_contra hne
  have h3 : 0 < |P' - P| := abs_pos.2 (sub_ne_zero.2 hne)
  have h4 : 0 < q / P := by positivity
  nlinarith

/-- Sequence of the a priori variances. -/
noncomputable def variances (a c q r : ℝ) : ℕ → ℝ → ℝ
  | 0, P => P
  | n + 1, P => riccati a c q r (variances a c q r n P)

theorem riccati_pos (a c q r : ℝ) (hq : 0 ≤ q) (hr : 0 < r) (P : ℝ) (hP : 0 ≤ P) : q ≤ riccati a c q r P := by
  unfold riccati
  have : 0 ≤ a ^ 2 * P * r / (r + c ^ 2 * P) := by positivity
  linarith

theorem variances_pos (a c q r : ℝ) (hq : 0 ≤ q) (hr : 0 < r) (P : ℝ) (hP : 0 ≤ P) (n : ℕ) : 0 ≤ variances a c q r n P := by
  induction n with
  | zero => exact hP
  | succ n ih => exact hq.trans (riccati_pos a c q r hq hr _ ih)

theorem variances_geo (a c q r : ℝ) (hq : 0 < q) (hr : 0 < r) (Ps : ℝ) (hPs : q ≤ Ps) (hcontr : ∀ x, 0 ≤ x → |riccati a c q r x - Ps| ≤ (1 - q / Ps) * |x - Ps|) (P : ℝ) (hP : 0 ≤ P) (n : ℕ) :
    |variances a c q r n P - Ps| ≤ (1 - q / Ps) ^ n * |P - Ps| := by
  have h0 : 0 ≤ 1 - q / Ps := by
    have : q / Ps ≤ 1 := (div_le_one (by linarith)).2 hPs
    linarith
  induction n with
  | zero => simp [variances]
  | succ n ih =>
    refine (hcontr _ (variances_pos a c q r hq.le hr P hP n)).trans ?_
    rw [pow_succ']
    have := mul_le_mul_of_nonneg_left ih h0
    linarith

theorem variances_tend (a c q r : ℝ) (hq : 0 < q) (hr : 0 < r) (Ps : ℝ) (hPs : q ≤ Ps) (hcontr : ∀ x, 0 ≤ x → |riccati a c q r x - Ps| ≤ (1 - q / Ps) * |x - Ps|) (P : ℝ) (hP : 0 ≤ P) :
    Tendsto (fun n => variances a c q r n P) atTop (𝓝 Ps) := by
  have hPp : 0 < Ps := by linarith
  have h0 : 0 ≤ 1 - q / Ps := by
    have : q / Ps ≤ 1 := (div_le_one (by linarith)).2 hPs
    linarith
  have h1 : 1 - q / Ps < 1 := by have : 0 < q / Ps := by positivity
                                 linarith
  have ht : Tendsto (fun n : ℕ => (1 - q / Ps) ^ n * |P - Ps|) atTop (𝓝 0) := by
    have := (tendsto_pow_atTop_nhds_zero_of_lt_one h0 h1).mul_const |P - Ps|
    simpa using this
  rw [tendsto_iff_dist_tendsto_zero]
  refine squeeze_zero (fun _ => dist_nonneg) (fun n => ?_) ht
  rw [Real.dist_eq]
  exact variances_geo a c q r hq hr Ps hPs hcontr P hP n

/-- The filter on a scalar model is the observer with the gains of the variances. -/
theorem scalaire_suite (a c q r : ℝ) (hq : 0 ≤ q) (hr : 0 < r) (p0 : ℝ) (hp0 : 0 ≤ p0) (K : ℕ → ℝ)
    (hK : ∀ i, K i = c * variances a c q r i (a ^ 2 * p0 + q) / (r + c ^ 2 * variances a c q r i (a ^ 2 * p0 + q))) (ys : List ℝ) (i : ℕ) (x P : ℝ) (hP : 0 ≤ P) (hi : a ^ 2 * P + q = variances a c q r i (a ^ 2 * p0 + q)) :
    ∃ k', Filtre.suite (scalaire a c q r) ⟨fun _ => x, sc P⟩ (ys.map obs1) = some (k', (observateur a c K i x ys).map fun v : ℝ => fun _ => v) ∧
      ∃ P', 0 ≤ P' ∧ k'.P = sc P' ∧ a ^ 2 * P' + q = variances a c q r (i + ys.length) (a ^ 2 * p0 + q) := by
  induction ys generalizing i x P with
  | nil => exact ⟨⟨fun _ => x, sc P⟩, rfl, P, hP, rfl, by simpa using hi⟩
  | cons y ys ih =>
    have hst := scalaire_step a c q r hq hr x P hP y
    rw [hi] at hst
    have hv := variances_pos a c q r hq hr (a ^ 2 * p0 + q) (by positivity) i
    set v := variances a c q r i (a ^ 2 * p0 + q) with hvd
    have hKi : v * c / (r + c ^ 2 * v) = K i := by rw [hK, ← hvd]; ring
    rw [hKi] at hst
    have hP' : 0 ≤ v * r / (r + c ^ 2 * v) := by positivity
    obtain ⟨k', h1, P', h2, h3, h4⟩ := ih (i + 1) (a * x + K i * (y - c * (a * x))) (v * r / (r + c ^ 2 * v)) hP' (by
      show _ = riccati a c q r (variances a c q r i (a ^ 2 * p0 + q))
      rw [← hvd]; unfold riccati; ring)
    refine ⟨k', ?_, P', h2, h3, ?_⟩
    · simp only [List.map_cons, Filtre.suite, hst, Option.bind_some, h1, Option.map_some, observateur]
    · rw [h4, List.length_cons]; congr 1; omega

/-- **C118 (limit of the gain).**  On every scalar model with `c ≠ 0`, `q > 0`, `r > 0`: the Riccati equation has exactly one non-negative solution `P`, and from every initial state and variance the
filter is the observer whose gains converge (geometrically) to `c P / (r + c² P)`. -/
theorem C118_limite (a c q r : ℝ) (hc : c ≠ 0) (hq : 0 < q) (hr : 0 < r) :
    ∃ P, 0 < P ∧ riccati a c q r P = P ∧ (∀ P', 0 ≤ P' → riccati a c q r P' = P' → P' = P) ∧
      ∀ p0, 0 ≤ p0 → ∃ K : ℕ → ℝ, Tendsto K atTop (𝓝 (c * P / (r + c ^ 2 * P))) ∧ (∀ i, |K i - c * P / (r + c ^ 2 * P)| ≤ |c| / r * ((1 - q / P) ^ i * |a ^ 2 * p0 + q - P|)) ∧
        ∀ x0 ys, ∃ k', Filtre.suite (scalaire a c q r) ⟨fun _ => x0, sc p0⟩ (ys.map obs1) = some (k', (observateur a c K 0 x0 ys).map fun v : ℝ => fun _ => v) := by
  obtain ⟨P, h1, h2, h3, h4⟩ := riccati_point a c q r hc hq hr
  have hPp : 0 < P := by linarith
  refine ⟨P, hPp, h2, h4, fun p0 hp0 => ?_⟩
  have hv := fun i => variances_pos a c q r hq.le hr (a ^ 2 * p0 + q) (by positivity) i
  refine ⟨fun i => c * variances a c q r i (a ^ 2 * p0 + q) / (r + c ^ 2 * variances a c q r i (a ^ 2 * p0 + q)), ?_, ?_, ?_⟩
  · have ht := variances_tend a c q r hq hr P h1 h3 (a ^ 2 * p0 + q) (by positivity)
    exact (ht.const_mul c).div ((ht.const_mul (c ^ 2)).const_add r) (by positivity)
  · intro i
    have hg := variances_geo a c q r hq hr P h1 h3 (a ^ 2 * p0 + q) (by positivity) i
    have hvi := hv i
    simp only
    generalize variances a c q r i (a ^ 2 * p0 + q) = v at *
    have hrv : 0 < r + c ^ 2 * v := by positivity
    have hrP : 0 < r + c ^ 2 * P := by positivity
    have e : c * v / (r + c ^ 2 * v) - c * P / (r + c ^ 2 * P) = c * r / ((r + c ^ 2 * v) * (r + c ^ 2 * P)) * (v - P) := by field_simp; ring
    rw [e, abs_mul, abs_div, abs_mul, abs_of_pos hr, abs_of_pos (mul_pos hrv hrP)]
    have h5 : |c| * r / ((r + c ^ 2 * v) * (r + c ^ 2 * P)) ≤ |c| / r := by
      rw [div_le_div_iff₀ (mul_pos hrv hrP) hr, mul_assoc]
      refine mul_le_mul_of_nonneg_left ?_ (abs_nonneg c)
      have : 0 ≤ c ^ 2 * v := by positivity
      have : 0 ≤ c ^ 2 * P := by positivity
      nlinarith
    exact mul_le_mul h5 hg (abs_nonneg _) (by positivity)
  · intro x0 ys
    obtain ⟨k', h5, -⟩ := scalaire_suite a c q r hq.le hr p0 hp0 _ (fun _ => rfl) ys 0 x0 p0 hp0 rfl
    exact ⟨k', h5⟩

/-! ### `dare` on scalars -/

theorem maxAbs_sc (x : ℝ) : maxAbs (sc x) = |x| := by
  simp [maxAbs, sc, List.finRange_succ]

theorem iterDare_sc (a c q r P : ℝ) (hr : 0 < r) (hP : 0 ≤ P) : iterDare (sc a) (sc c) (sc q) (sc r) (sc P) = some (sc (riccati a c q r P)) := by
  have hS : 0 < r + c * P * c := by have : 0 ≤ c * P * c := by nlinarith [mul_nonneg hP (sq_nonneg c)]
                                    linarith
  unfold iterDare
  simp only [sc_tr, sc_had, sc_add]
  rw [sc_inverse _ hS.ne', Option.map_some]
  simp only [sc_had, sc_sub, sc_add]
  congr 2
  unfold riccati
  have : r + c ^ 2 * P = r + c * P * c := by ring
  rw [this]
  field_simp
  ring

theorem boucleDare_sc (a c q r tol : ℝ) (hq : 0 < q) (hr : 0 < r) (Ps : ℝ) (hPs : q ≤ Ps) (hcontr : ∀ x, 0 ≤ x → |riccati a c q r x - Ps| ≤ (1 - q / Ps) * |x - Ps|) (it : ℕ) (P d : ℝ) (hP : 0 ≤ P) (hit : 0 < it) :
    ∃ P' d' i, boucleDare (sc a) (sc c) (sc q) (sc r) tol it (sc P) d = some (sc P', d') ∧ i < it ∧ P' = riccati a c q r (variances a c q r i P) ∧ d' = |P' - variances a c q r i P| ∧ (d' < tol ∨ i + 1 = it) := by
  induction it generalizing P d with
  | zero => omega
  | succ it ih =>
    simp only [boucleDare, iterDare_sc a c q r P hr hP, Option.bind_some, sc_sub, maxAbs_sc]
    by_cases ht : |riccati a c q r P - P| < tol
    · rw [if_pos ht]
      exact ⟨_, _, 0, rfl, by omega, rfl, rfl, Or.inl ht⟩
    · rw [if_neg ht]
      by_cases h0 : it = 0
      · subst h0
        exact ⟨_, _, 0, rfl, by omega, rfl, rfl, Or.inr rfl⟩
      · obtain ⟨P', d', i, h1, h2, h3, h4, h5⟩ := ih (riccati a c q r P) |riccati a c q r P - P| (hq.le.trans (riccati_pos a c q r hq.le hr P hP)) (by omega)
        have hsh : ∀ i, variances a c q r i (riccati a c q r P) = variances a c q r (i + 1) P := by
          intro i
          induction i with
          | zero => rfl
          | succ i ih2 => simp only [variances] at ih2 ⊢; rw [ih2]
        rw [hsh] at h3 h4
        exact ⟨P', d', i + 1, h1, by omega, h3, h4, by rcases h5 with h | h <;> [exact Or.inl h; exact Or.inr (by omega)]⟩

/-- **C118 (Riccati solver).**  On scalar coefficients (`c ≠ 0`, `q > 0`, `r > 0`) `dare` returns a value whose distance to the solution `P` is at most `(P - q)/q` times the reported error, and at
most `(1 - q/P)ⁿ (P - q)` when the `n` allowed iterations are exhausted; the reported error is below the tolerance as soon as the allowed number of iterations is large enough. -/
theorem C118_dare (a c q r : ℝ) (hc : c ≠ 0) (hq : 0 < q) (hr : 0 < r) :
    ∃ P, 0 < P ∧ riccati a c q r P = P ∧ (∀ tol it, 0 < it → ∃ P' d, dare (sc a) (sc c) (sc q) (sc r) tol it = some (sc P', d) ∧ |P' - P| ≤ (P - q) / q * d ∧ (d < tol ∨ |P' - P| ≤ (1 - q / P) ^ it * (P - q))) ∧
      ∀ tol, 0 < tol → ∃ N, ∀ it, N ≤ it → ∃ P' d, dare (sc a) (sc c) (sc q) (sc r) tol it = some (sc P', d) ∧ d < tol := by
  obtain ⟨P, h1, h2, h3, h4⟩ := riccati_point a c q r hc hq hr
  have hPp : 0 < P := by linarith
  have hθ0 : 0 ≤ 1 - q / P := by
    have : q / P ≤ 1 := (div_le_one (by linarith)).2 h1
    linarith
  have hd : ∀ tol it, dare (sc a) (sc c) (sc q) (sc r) tol it = boucleDare (sc a) (sc c) (sc q) (sc r) tol it (sc q) 0 := by
    intro tol it
    unfold dare
    rw [dif_pos rfl]
    rfl
  have hrun := fun tol it (hit : 0 < it) => boucleDare_sc a c q r tol hq hr P h1 h3 it q 0 hq.le hit
  have hres : ∀ i P', P' = riccati a c q r (variances a c q r i q) → |P' - P| ≤ (P - q) / q * |P' - variances a c q r i q| := by
    intro i P' hP'
    have hc1 := h3 _ (variances_pos a c q r hq.le hr q hq.le i)
    rw [← hP'] at hc1
    have tri : |variances a c q r i q - P| ≤ |P' - variances a c q r i q| + |P' - P| := by
      have := abs_sub_le (variances a c q r i q) P' P
      rw [abs_sub_comm (variances a c q r i q) P'] at this
      exact this
    generalize |P' - variances a c q r i q| = d at *
    generalize |variances a c q r i q - P| = w at *
    generalize |P' - P| = z at *
    have h5 : z ≤ (1 - q / P) * (d + z) := hc1.trans (mul_le_mul_of_nonneg_left tri hθ0)
    have h6 : q * z ≤ (P - q) * d := by
      have h7 : P * z ≤ (P - q) * (d + z) := by
        have := mul_le_mul_of_nonneg_left h5 hPp.le
        have e : P * ((1 - q / P) * (d + z)) = (P - q) * (d + z) := by field_simp
        rwa [e] at this
      linarith
    rw [div_mul_eq_mul_div, le_div_iff₀ hq]
    linarith
  refine ⟨P, hPp, h2, ?_, ?_⟩
  · intro tol it hit
    obtain ⟨P', d, i, g1, g2, g3, g4, g5⟩ := hrun tol it hit
    refine ⟨P', d, by rw [hd, g1], by rw [g4]; exact hres i P' g3, ?_⟩
    rcases g5 with g | g
    · exact Or.inl g
    · right
      have := variances_geo a c q r hq hr P h1 h3 q hq.le (i + 1)
      rw [g, ← g] at this
      have e : variances a c q r (i + 1) q = P' := g3.symm
      rw [e, abs_sub_comm q P, abs_of_nonneg (by linarith : 0 ≤ P - q), g] at this
      exact this
  · intro tol htol
    have ht := variances_tend a c q r hq hr P h1 h3 q hq.le
    have ht2 : Tendsto (fun i => |variances a c q r (i + 1) q - variances a c q r i q|) atTop (𝓝 0) := by
      have := ((ht.comp (tendsto_add_atTop_nat 1)).sub ht).abs
      simpa using this
    obtain ⟨N, hN⟩ := (ht2.eventually (gt_mem_nhds htol)).exists_forall_of_atTop
    refine ⟨N + 1, fun it hit => ?_⟩
    obtain ⟨P', d, i, g1, g2, g3, g4, g5⟩ := hrun tol it (by omega)
    refine ⟨P', d, by rw [hd, g1], ?_⟩
    rcases g5 with g | g
    · exact g
    · rw [g4, g3]
      exact hN i (by omega)

/-! ### Steady-state gain -/

theorem ssg_scalaire (a c q r : ℝ) (hc : c ≠ 0) (hq : 0 < q) (hr : 0 < r) :
    ∃ P d, dare (sc a) (sc c) (sc q) (sc r) (1 / 10 ^ 6) 1000 = some (sc P, d) ∧ 0 < P ∧ ssg (scalaire a c q r) = some (sc (P / (c * (r + c ^ 2 * P)))) := by
  obtain ⟨Ps, h1, h2, h3, h4⟩ := riccati_point a c q r hc hq hr
  obtain ⟨P, d, i, g1, g2, g3, g4, g5⟩ := boucleDare_sc a c q r (1 / 10 ^ 6) hq hr Ps h1 h3 1000 q 0 hq.le (by norm_num)
  have hd : dare (sc a) (sc c) (sc q) (sc r) (1 / 10 ^ 6) 1000 = some (sc P, d) := by
    unfold dare
    rw [dif_pos rfl]
    exact g1
  have hP : 0 < P := by
    have := riccati_pos a c q r hq.le hr _ (variances_pos a c q r hq.le hr q hq.le i)
    rw [← g3] at this
    linarith
  refine ⟨P, d, hd, hP, ?_⟩
  unfold ssg
  simp only [scalaire, Option.bind_some, sc_tr, sc_zero, hq.ne', if_false, hd, sc_mul, sc_add]
  have hne : c * (r + c * (P * c)) ≠ 0 := by
    refine mul_ne_zero hc ?_
    have : 0 ≤ c * (P * c) := by nlinarith [mul_nonneg hP.le (sq_nonneg c)]
    linarith
  rw [sc_inverse _ hne, Option.bind_some]
  simp only [dite_true]
  have : (sc (c * (r + c * (P * c)))⁻¹).submatrix (Fin.cast rfl) (Fin.cast rfl) = sc (c * (r + c * (P * c)))⁻¹ := rfl
  rw [this, sc_mul]
  congr 2
  rw [div_eq_mul_inv]
  congr 3
  ring

/-- **C118 (steady-state gain, `c = 1` or `c = -1`).**  When the observation coefficient is 1 or -1, `kalman_ssg` is the limit of the gains of the filter up to the error of `dare`: it is
`c P' / (r + c² P')` with `P'` the value returned by `dare`, at distance at most `(P - q)/(q r)` times the reported error. -/
theorem C118_ssg (a c q r : ℝ) (hc : c ^ 2 = 1) (hq : 0 < q) (hr : 0 < r) :
    ∃ P P' d K, riccati a c q r P = P ∧ 0 < P ∧ dare (sc a) (sc c) (sc q) (sc r) (1 / 10 ^ 6) 1000 = some (sc P', d) ∧ ssg (scalaire a c q r) = some (sc K) ∧ K = c * P' / (r + c ^ 2 * P') ∧
      |K - c * P / (r + c ^ 2 * P)| ≤ (P - q) / (q * r) * d := by
  have hc0 : c ≠ 0 := by rintro rfl; norm_num at hc
  obtain ⟨P, h1, h2, h3, -⟩ := C118_dare a c q r hc0 hq hr
  obtain ⟨P', d, g1, g2, g3⟩ := ssg_scalaire a c q r hc0 hq hr
  obtain ⟨P'', d'', k1, k2, -⟩ := h3 (1 / 10 ^ 6) 1000 (by norm_num)
  rw [g1, Option.some.injEq, Prod.mk.injEq] at k1
  obtain ⟨e1, e2⟩ := k1
  have e1 := sc_inj e1
  subst e1 e2
  have hK : P' / (c * (r + c ^ 2 * P')) = c * P' / (r + c ^ 2 * P') := by
    have : 0 < r + c ^ 2 * P' := by positivity
    rw [div_eq_div_iff (mul_ne_zero hc0 this.ne') this.ne']
    have e : c * P' * (c * (r + c ^ 2 * P')) = c ^ 2 * (P' * (r + c ^ 2 * P')) := by ring
    rw [e, hc]; ring
  refine ⟨P, P', d, P' / (c * (r + c ^ 2 * P')), h2, h1, g1, g3, hK, ?_⟩
  have hd0 : 0 ≤ |P' - P| := abs_nonneg _
  rw [hK, hc]
  have hr1 : 0 < r + 1 * P' := by linarith
  have hr2 : 0 < r + 1 * P := by linarith
  have e : c * P' / (r + 1 * P') - c * P / (r + 1 * P) = c * r / ((r + 1 * P') * (r + 1 * P)) * (P' - P) := by field_simp; ring
  have habs : |c| = 1 := by
    rw [← Real.sqrt_sq_eq_abs, hc, Real.sqrt_one]
  rw [e, abs_mul, abs_div, abs_mul, habs, abs_of_pos hr, abs_of_pos (mul_pos hr1 hr2), one_mul]
  have h5 : r / ((r + 1 * P') * (r + 1 * P)) ≤ 1 / r := by
    rw [div_le_div_iff₀ (mul_pos hr1 hr2) hr]
    nlinarith
  calc r / ((r + 1 * P') * (r + 1 * P)) * |P' - P| ≤ 1 / r * ((P - q) / q * d) := mul_le_mul h5 k2 hd0 (by positivity)
    _ = (P - q) / (q * r) * d := by field_simp

/-- **C118 (refuted: the steady-state gain of every scalar model).**  For `yₙ = 2 xₙ + wₙ` (unit variances) the gains of the filter tend to more than 2/5 and `kalman_ssg` returns less than 1/8. -/
theorem C118_ssg_refute : ∃ K L, ssg (scalaire 1 2 1 1) = some (sc K) ∧ K ≤ 1 / 8 ∧ 2 / 5 ≤ L ∧
    ∀ p0, 0 ≤ p0 → ∃ g : ℕ → ℝ, Tendsto g atTop (𝓝 L) ∧ ∀ x0 ys, ∃ k', Filtre.suite (scalaire 1 2 1 1) ⟨fun _ => x0, sc p0⟩ (ys.map obs1) = some (k', (observateur 1 2 g 0 x0 ys).map fun v : ℝ => fun _ => v) := by
  obtain ⟨P, h1, h2, h3, h4⟩ := C118_limite 1 2 1 1 (by norm_num) one_pos one_pos
  obtain ⟨P', d, g1, g2, g3⟩ := ssg_scalaire 1 2 1 1 (by norm_num) one_pos one_pos
  have hP1 : 1 ≤ P := by rw [← h2]; exact riccati_pos 1 2 1 1 zero_le_one one_pos P h1.le
  refine ⟨P' / (2 * (1 + 2 ^ 2 * P')), 2 * P / (1 + 2 ^ 2 * P), g3, ?_, ?_, fun p0 hp0 => ?_⟩
  · rw [div_le_div_iff₀ (by positivity) (by norm_num)]; nlinarith
  · exact (show 2 / 5 ≤ 2 * P / (1 + 2 ^ 2 * P) by rw [div_le_div_iff₀ (by norm_num) (by positivity)]; nlinarith)
  · obtain ⟨K, k1, -, k3⟩ := h4 p0 hp0
    exact ⟨K, k1, k3⟩

/-- **C118 (refuted: null process noise gives a null steady-state gain).**  For the unstable model `xₙ = 2 xₙ₋₁`, `yₙ = xₙ + wₙ`, `kalman_ssg` returns 0 although the gains of the filter (default
initial covariance) never go below 3/4. -/
theorem C118_instable_refute : ssg (scalaire 2 1 0 1) = some (sc 0) ∧ ∃ g : ℕ → ℝ, (∀ i, 3 / 4 ≤ g i) ∧
    ∀ x0 ys, ∃ k', Filtre.suite (scalaire 2 1 0 1) ⟨fun _ => x0, sc 1⟩ (ys.map obs1) = some (k', (observateur 2 1 g 0 x0 ys).map fun v : ℝ => fun _ => v) := by
  constructor
  · unfold ssg
    simp only [scalaire, Option.bind_some, (sc_zero 0).2 rfl, if_true]
  · have hv : ∀ i, 3 ≤ variances 2 1 0 1 i (2 ^ 2 * 1 + 0) := by
      intro i
      induction i with
      | zero => simp only [variances]; norm_num
      | succ i ih =>
        simp only [variances, riccati]
        rw [add_zero, le_div_iff₀ (by positivity)]
        linarith
    refine ⟨fun i => 1 * variances 2 1 0 1 i (2 ^ 2 * 1 + 0) / (1 + 1 ^ 2 * variances 2 1 0 1 i (2 ^ 2 * 1 + 0)), fun i => ?_, fun x0 ys => ?_⟩
    · have := hv i
      show 3 / 4 ≤ 1 * variances 2 1 0 1 i (2 ^ 2 * 1 + 0) / (1 + 1 ^ 2 * variances 2 1 0 1 i (2 ^ 2 * 1 + 0))
      generalize variances 2 1 0 1 i (2 ^ 2 * 1 + 0) = v at *
      rw [le_div_iff₀ (by linarith)]
      linarith
    · obtain ⟨k', h5, -⟩ := scalaire_suite 2 1 0 1 le_rfl one_pos 1 zero_le_one _ (fun _ => rfl) ys 0 x0 1 zero_le_one rfl
      exact ⟨k', h5⟩

/-- **C118 (refuted: models with fewer observations than states).**  Whatever the model, when the numbers of states and of observations differ and the process noise is not null, `kalman_ssg` fails (incompatible
dimensions). -/
theorem C118_dimension_refute {a b e : ℕ} (hab : a ≠ b) (s : Ssm (Fin a) (Fin b) (Fin e)) (Q : Matrix (Fin a) (Fin a) ℝ) (hQ : s.Q = some Q) (h0 : Q ≠ 0) : ssg s = none := by
  unfold ssg
  rw [hQ, Option.bind_some, if_neg h0]
  cases s.R with
  | none => rfl
  | some R =>
    rw [Option.bind_some]
    unfold dare
    rw [dif_neg hab, if_neg (by norm_num)]
    rfl

/-! ### Coupled states -/

/-- The documented Riccati map on matrices. -/
noncomputable def riccatiMat (A C Q R P : Matrix (Fin 2) (Fin 2) ℝ) : Matrix (Fin 2) (Fin 2) ℝ := Aᵀ * P * A - Aᵀ * P * C * (R + Cᵀ * P * C)⁻¹ * (Cᵀ * P * A) + Q

/-- The matrix of a constant-speed model. -/
def vitesse : Matrix (Fin 2) (Fin 2) ℝ := !![1, 1; 0, 1]

/-- **C118 (refuted: `dare` solves the Riccati equation).**  For `A = [1 1; 0 1]` and `C`, `Q`, `R` equal to the identity, whatever the tolerance and the number of iterations, the returned matrix does
not solve the documented equation: the residual is at least 1/2. -/
theorem C118_dare_refute (tol : ℝ) (it : ℕ) : ∃ P d, dare vitesse (1 : Matrix (Fin 2) (Fin 2) ℝ) 1 1 tol it = some (P, d) ∧ 1 / 2 ≤ |(riccatiMat vitesse 1 1 1 P - P) 0 1| := by
  have hI : ∀ p : ℝ, 1 ≤ p → iterDare vitesse 1 1 1 (p • (1 : Matrix (Fin 2) (Fin 2) ℝ)) = some ((p - p * p / (1 + p) + 1) • 1) := by
    intro p hp
    have hp1 : (1 + p) ≠ 0 := by positivity
    have hS : (1 : Matrix (Fin 2) (Fin 2) ℝ) + 1ᵀ ⊙ (p • (1 : Matrix (Fin 2) (Fin 2) ℝ)) ⊙ 1 = (1 + p) • 1 := by
      ext i j; fin_cases i <;> fin_cases j <;> simp [Matrix.hadamard]
    have hinv : inverse ((1 + p) • (1 : Matrix (Fin 2) (Fin 2) ℝ)) = some ((1 + p)⁻¹ • 1) := by
      refine inverse_some ?_ ?_ <;> simp [hp1]
    unfold iterDare
    rw [hS, hinv, Option.map_some]
    congr 1
    ext i j
    fin_cases i <;> fin_cases j <;> simp [Matrix.hadamard, vitesse] <;> field_simp
  have hstep : ∀ p : ℝ, 1 ≤ p → 1 ≤ p - p * p / (1 + p) + 1 := by
    intro p hp
    have : p - p * p / (1 + p) = p / (1 + p) := by field_simp; ring
    rw [this]
    have : 0 ≤ p / (1 + p) := by positivity
    linarith
  have hres : ∀ p : ℝ, 1 ≤ p → 1 / 2 ≤ |(riccatiMat vitesse 1 1 1 (p • 1) - p • 1) 0 1| := by
    intro p hp
    have hp1 : (1 + p) ≠ 0 := by positivity
    have hS : (1 : Matrix (Fin 2) (Fin 2) ℝ) + 1ᵀ * (p • (1 : Matrix (Fin 2) (Fin 2) ℝ)) * 1 = (1 + p) • 1 := by
      simp [add_smul]
    have hinv : ((1 + p) • (1 : Matrix (Fin 2) (Fin 2) ℝ))⁻¹ = (1 + p)⁻¹ • 1 := by
      refine Matrix.inv_eq_right_inv ?_
      simp [hp1]
    have e : (riccatiMat vitesse 1 1 1 (p • 1) - p • 1) 0 1 = p / (1 + p) := by
      unfold riccatiMat
      rw [hS, hinv]
      simp [vitesse, Matrix.mul_apply, Fin.sum_univ_two]
      field_simp
      ring
    rw [e, abs_of_nonneg (by positivity), div_le_div_iff₀ (by norm_num) (by positivity)]
    linarith
  have main : ∀ (it : ℕ) (p d : ℝ), 1 ≤ p → ∃ p' d' : ℝ, 1 ≤ p' ∧ boucleDare vitesse 1 1 1 tol it (p • 1) d = some (p' • 1, d') := by
    intro it
    induction it with
    | zero => intro p d hp; exact ⟨p, d, hp, rfl⟩
    | succ it ih =>
      intro p d hp
      simp only [boucleDare, hI p hp, Option.bind_some]
      split
      · exact ⟨p - p * p / (1 + p) + 1, maxAbs ((p - p * p / (1 + p) + 1) • (1 : Matrix (Fin 2) (Fin 2) ℝ) - p • 1), hstep p hp, rfl⟩
      · exact ih _ _ (hstep p hp)
  obtain ⟨p', d', h1, h2⟩ := main it 1 0 le_rfl
  refine ⟨p' • 1, d', ?_, hres p' h1⟩
  unfold dare
  rw [dif_pos rfl]
  rw [one_smul] at h2
  exact h2

/-! ### Constant -/

/-- **C117.**  On the model `modele_constante(R)` (`R > 0`), from the state `x₀` and the variance `p₀`, the estimate after the observations `y₁, …, yₙ` is `(R x₀ + p₀ Σ y)/(R + n p₀)` and the
variance is `R p₀/(R + n p₀)`. -/
theorem C117_constante (R : ℝ) (hR : 0 < R) (x0 p0 : ℝ) (hp : 0 ≤ p0) (ys : List ℝ) :
    ∃ est, Filtre.suite (Ssm.constante R) ⟨fun _ => x0, sc p0⟩ (ys.map obs1) = some (⟨fun _ => (R * x0 + p0 * ys.sum) / (R + ys.length * p0), sc (R * p0 / (R + ys.length * p0))⟩, est) := by
  have hs : Ssm.constante R = scalaire 1 1 0 R := by
    unfold Ssm.constante Ssm.marche scalaire
    congr 1
    · exact sc_one
    · exact sc_one
    · simp only [Option.getD_some]; congr 1; ext i j; exact mul_one R
  rw [hs]
  induction ys using List.reverseRecOn with
  | nil =>
    refine ⟨[], ?_⟩
    simp only [List.map_nil, Filtre.suite, List.sum_nil, List.length_nil, Nat.cast_zero, zero_mul, add_zero, mul_zero]
    rw [mul_div_cancel_left₀ _ hR.ne', mul_div_cancel_left₀ _ hR.ne']
  | append_singleton ys y ih =>
    obtain ⟨est, h⟩ := ih
    rw [List.map_append, List.map_cons, List.map_nil, suite_concat, h, Option.bind_some]
    have hn : (0 : ℝ) < R + ys.length * p0 := by positivity
    have hst := scalaire_step 1 1 0 R le_rfl hR ((R * x0 + p0 * ys.sum) / (R + ys.length * p0)) (R * p0 / (R + ys.length * p0)) (by positivity) y
    simp only [hst, Option.map_some]
    have hd : R + 1 ^ 2 * (1 ^ 2 * (R * p0 / (R + ys.length * p0)) + 0) = R * (R + ys.length * p0 + p0) / (R + ys.length * p0) := by
      generalize R + ys.length * p0 = D at *
      field_simp
      ring
    have hl : R + ((ys ++ [y]).length : ℝ) * p0 = R + ys.length * p0 + p0 := by
      rw [List.length_append, List.length_cons, List.length_nil]; push_cast; ring
    have hsum : (ys ++ [y]).sum = ys.sum + y := by simp
    have e1 : (1 : ℝ) * ((R * x0 + p0 * ys.sum) / (R + ys.length * p0)) + (1 ^ 2 * (R * p0 / (R + ys.length * p0)) + 0) * 1 / (R + 1 ^ 2 * (1 ^ 2 * (R * p0 / (R + ys.length * p0)) + 0)) * (y - 1 * (1 * ((R * x0 + p0 * ys.sum) / (R + ys.length * p0)))) =
        (R * x0 + p0 * (ys ++ [y]).sum) / (R + (ys ++ [y]).length * p0) := by
      rw [hd, hl, hsum]
      have hD : 0 < R + ys.length * p0 + p0 := by positivity
      clear hl hd hst h
      generalize R + ys.length * p0 = D at *
      field_simp
      ring
    have e2 : (1 ^ 2 * (R * p0 / (R + ys.length * p0)) + 0) * R / (R + 1 ^ 2 * (1 ^ 2 * (R * p0 / (R + ys.length * p0)) + 0)) = R * p0 / (R + (ys ++ [y]).length * p0) := by
      rw [hd, hl]
      have hD : 0 < R + ys.length * p0 + p0 := by positivity
      clear hl hd hst h
      generalize R + ys.length * p0 = D at *
      field_simp
      try ring
    rw [e1, e2]
    exact ⟨_, rfl⟩

/-- Non-vacuity: default observation variance, default initial state and covariance. -/
example : (0 : ℝ) < 1 / 10 ∧ (Filtre.cree none none : Filtre (Fin 1)) = ⟨fun _ => 0, sc 1⟩ := ⟨by norm_num, by unfold Filtre.cree; simp only [Option.getD_none, sc_one]; rfl⟩

end Verif.Kalman
