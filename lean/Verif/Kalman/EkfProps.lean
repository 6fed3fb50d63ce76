import Verif.Kalman.Riccati
import Mathlib.Analysis.Calculus.Deriv.MeanValue
import Mathlib.Analysis.Calculus.Deriv.Comp

/-!
# C119: the extended Kalman filter
-/

namespace Verif.Kalman

open Matrix

variable {a b e : ℕ}

/-- **C119 (linear models).**  On a linear model without input whose observation is the state itself, a step of the extended filter is the step of the Kalman filter (errors included). -/
theorem C119_kalman (s : Ssm (Fin a) (Fin a) (Fin e)) (hB : s.B = none) (hD : s.D = none) (hC : s.C = 1) (k : Filtre (Fin a)) (y : Fin a → ℝ) (u : Fin e → ℝ) :
    ekfStep s.modele k y = Filtre.step s k y u := by
  obtain ⟨A, B, C, D, Q, R⟩ := s
  simp only at hB hD hC
  subst hB hD hC
  unfold ekfStep Filtre.step covPredite gain predit observe ajoute Ssm.modele
  cases Q with
  | none => rfl
  | some Q =>
    cases R with
    | none => rfl
    | some R =>
      simp only [Option.bind_some, Option.map_some]
      have e1 : (R.submatrix (Fin.cast rfl) id : Matrix (Fin a) (Fin a) ℝ) = R := rfl
      unfold gainEkf
      rw [dif_pos rfl, e1]
      split
      · rw [Matrix.transpose_one]
        have e2 : ((inverse (1 : Matrix (Fin a) (Fin a) ℝ)).map fun I : Matrix (Fin a) (Fin a) ℝ => I.submatrix (Fin.cast rfl) (Fin.cast rfl)) = inverse 1 := by
          cases inverse (1 : Matrix (Fin a) (Fin a) ℝ) <;> rfl
        rw [e2]
      · rw [Matrix.transpose_one, Matrix.mul_one, Matrix.one_mul, Matrix.one_mul]

/-- **C119 (linearisation).**  On every model whose observation has the identity as Jacobian at the predicted state `f x`, a step of the extended filter is the step of the Kalman filter on the model linearised at the estimate `x`
(transition) and at the predicted state (observation), applied to the deviations from the predicted state and observation (errors included). -/
theorem C119_linearisation (s : Modele a a) (k : Filtre (Fin a)) (hC : s.Jg (s.f k.etat) = 1) (y : Fin a → ℝ) (u : Fin e → ℝ) :
    ekfStep s k y = (Filtre.step (⟨s.Jf k.etat, none, 1, none, s.Q, s.R⟩ : Ssm (Fin a) (Fin a) (Fin e)) ⟨0, k.P⟩ (y - s.g (s.f k.etat)) u).map fun q : Filtre (Fin a) => ⟨s.f k.etat + q.etat, q.P⟩ := by
  have h := C119_kalman (⟨s.Jf k.etat, none, 1, none, s.Q, s.R⟩ : Ssm (Fin a) (Fin a) (Fin e)) rfl rfl rfl ⟨0, k.P⟩ (y - s.g (s.f k.etat)) u
  rw [← h]
  unfold ekfStep Ssm.modele
  simp only [hC, Matrix.mulVec_zero, sub_zero, zero_add]
  cases s.Q with
  | none => rfl
  | some Q =>
    cases s.R with
    | none => rfl
    | some R =>
      simp only [Option.bind_some]
      cases gainEkf (1 : Matrix (Fin a) (Fin a) ℝ) R (s.Jf k.etat * (k.P * (s.Jf k.etat)ᵀ) + Q) <;> rfl

/-- Non-vacuity: the observation `x²` at the predicted state `1/2` has the Jacobian 1, while it is not 1 at the estimate (transition `x ↦ x / 2`, estimate 1). -/
example : let s : Modele 1 1 := ⟨fun x _ => x 0 / 2, fun x _ => x 0 ^ 2, fun _ => sc (1 / 2), fun x => sc (2 * x 0), some (sc 0), some (sc 1)⟩
    s.Jg (s.f fun _ => 1) = 1 ∧ s.Jg (fun _ => 1) ≠ 1 := by
  constructor
  · show sc (2 * (1 / 2)) = 1
    rw [show (2 * (1 / 2) : ℝ) = 1 by norm_num]
    exact sc_one.symm
  · intro h
    have := congrFun (congrFun h 0) 0
    norm_num [sc] at this

/-- **C119 (exactness).**  When the estimate is the state of the system and the observation is the one without noise, every step that succeeds returns the next state of the system (for every model). -/
theorem C119_exact (s : Modele a b) (k k' : Filtre (Fin a)) (h : ekfStep s k (s.g (s.f k.etat)) = some k') : k'.etat = s.f k.etat := by
  unfold ekfStep at h
  rw [Option.bind_eq_some_iff] at h
  obtain ⟨Q, -, h⟩ := h
  rw [Option.bind_eq_some_iff] at h
  obtain ⟨R, -, h⟩ := h
  rw [Option.map_eq_some_iff] at h
  obtain ⟨K, -, h⟩ := h
  rw [← h]
  simp only [sub_self, Matrix.mulVec_zero, add_zero]

/-- **C119 (refuted: models with fewer observations than states).**  Whatever the model, when the numbers of states and of observations differ, no step of the extended filter succeeds. -/
theorem C119_dimension_refute (hab : a ≠ b) (s : Modele a b) (k : Filtre (Fin a)) (y : Fin b → ℝ) : ekfStep s k y = none := by
  unfold ekfStep gainEkf
  cases s.Q with
  | none => rfl
  | some Q =>
    cases s.R with
    | none => rfl
    | some R => simp only [Option.bind_some, dif_neg hab, Option.map_none]

/-- **C119 (refuted: process noise left to its default).**  Without covariance of the process noise (the case of the models of `ssm_lineaire` and `modele_imu`), no step succeeds. -/
theorem C119_defaut_refute (s : Modele a b) (hQ : s.Q = none) (k : Filtre (Fin a)) (y : Fin b → ℝ) : ekfStep s k y = none := by
  unfold ekfStep
  rw [hQ]
  rfl

theorem gainEkf_sc (c r P : ℝ) (hr : r ≠ 0) (h : c * (P * c + r) ≠ 0) : gainEkf (sc c) (sc r) (sc P) = some (sc (P * c / (c * (P * c + r)))) := by
  unfold gainEkf
  have e1 : ((sc r).submatrix (Fin.cast rfl) id : Matrix (Fin 1) (Fin 1) ℝ) = sc r := rfl
  rw [dif_pos rfl, e1, if_neg (fun h' => hr ((sc_zero r).1 h'.2))]
  simp only [sc_tr, sc_mul, sc_add]
  rw [sc_inverse _ h, Option.map_some, sc_mul]
  rfl

/-- The step on a scalar linear model, with the gain of the code. -/
theorem ekf_scalaire (α c q r : ℝ) (hr : r ≠ 0) (x P y : ℝ) (h : c * ((α ^ 2 * P + q) * c + r) ≠ 0) :
    ekfStep (scalaire α c q r).modele ⟨fun _ => x, sc P⟩ (fun _ => y) =
      some ⟨fun _ => α * x + 1 / ((α ^ 2 * P + q) * c + r) * (α ^ 2 * P + q) * (y - c * (α * x)), sc ((α ^ 2 * P + q) * (1 - c * (α ^ 2 * P + q) / ((α ^ 2 * P + q) * c + r)))⟩ := by
  have e : sc α * (sc P * (sc α)ᵀ) + sc q = sc (α ^ 2 * P + q) := by
    simp only [sc_tr, sc_mul, sc_add]; congr 1; ring
  have hc : c ≠ 0 := left_ne_zero_of_mul h
  have hd : (α ^ 2 * P + q) * c + r ≠ 0 := right_ne_zero_of_mul h
  unfold ekfStep
  simp only [Ssm.modele, scalaire, Option.bind_some, e]
  rw [gainEkf_sc c r _ hr h, Option.map_some]
  generalize α ^ 2 * P + q = m at *
  congr 2
  · ext i
    simp only [sc_vec, Pi.add_apply, Pi.sub_apply]
    field_simp
  · rw [sc_mul, sc_one, sc_sub, sc_mul]
    congr 1
    field_simp

/-- **C119 (refuted: the extended filter is the Kalman filter on linear models).**  On `xₙ = xₙ₋₁`, `yₙ = 2 xₙ + wₙ` (unit variance, initial state 0 and variance 1) and the observation 15, the Kalman filter
returns the state 6 and the variance 1/5, and the extended filter the state 5 and the variance 1/3. -/
theorem C119_gain_refute : Filtre.step (scalaire 1 2 0 1) ⟨fun _ => 0, sc 1⟩ (fun _ => 15) 0 = some ⟨fun _ => 6, sc (1 / 5)⟩ ∧
    ekfStep (scalaire 1 2 0 1).modele ⟨fun _ => 0, sc 1⟩ (fun _ => 15) = some ⟨fun _ => 5, sc (1 / 3)⟩ := by
  constructor
  · have := scalaire_step 1 2 0 1 le_rfl one_pos 0 1 zero_le_one 15
    simp only [obs1] at this
    have e0 : (fun _ => 0 : Fin 0 → ℝ) = 0 := rfl
    rw [e0] at this
    rw [this]
    congr 2
    · ext; norm_num
    · norm_num
  · rw [ekf_scalaire 1 2 0 1 one_ne_zero 0 1 15 (by norm_num)]
    congr 2
    · ext; norm_num
    · norm_num

/-- **C119 (refuted: the covariance stays non-negative).**  On `xₙ = xₙ₋₁`, `yₙ = -2 xₙ + wₙ` (unit variance, initial variance 1), whatever the state and the observation, the variance after one step is -1. -/
theorem C119_variance_refute (x y : ℝ) : ∃ z, ekfStep (scalaire 1 (-2) 0 1).modele ⟨fun _ => x, sc 1⟩ (fun _ => y) = some ⟨z, sc (-1)⟩ := by
  rw [ekf_scalaire 1 (-2) 0 1 one_ne_zero x 1 y (by norm_num)]
  have e : ((1 : ℝ) ^ 2 * 1 + 0) * (1 - -2 * (1 ^ 2 * 1 + 0) / ((1 ^ 2 * 1 + 0) * -2 + 1)) = -1 := by norm_num
  rw [e]
  exact ⟨_, rfl⟩

/-- **C119 (refuted: the inputs are taken into account).**  On `xₙ = xₙ₋₁ + uₙ`, `yₙ = xₙ + wₙ`, with the exact initial state `0` of variance 1, the input `1` and the exact observation `1`, the Kalman filter
returns the exact state 1; the extended filter, which does not receive the input, returns 1/2. -/
theorem C119_entree_refute : (Filtre.step (⟨sc 1, some (sc 1), sc 1, none, some (sc 0), some (sc 1)⟩ : Ssm (Fin 1) (Fin 1) (Fin 1)) ⟨fun _ => 0, sc 1⟩ (fun _ => 1) (fun _ => 1)).map Filtre.etat = some (fun _ => 1) ∧
    (ekfStep (⟨sc 1, some (sc 1), sc 1, none, some (sc 0), some (sc 1)⟩ : Ssm (Fin 1) (Fin 1) (Fin 1)).modele ⟨fun _ => 0, sc 1⟩ (fun _ => 1)).map Filtre.etat = some (fun _ => 1 / 2) := by
  constructor
  · have hg : gain (⟨sc 1, some (sc 1), sc 1, none, some (sc 0), some (sc 1)⟩ : Ssm (Fin 1) (Fin 1) (Fin 1)) (sc 1) = some (sc (1 / 2)) := by
      simp only [gain, Option.bind_some, sc_tr, sc_mul, sc_add, sc_zero]
      rw [if_neg (by norm_num), sc_inverse _ (by norm_num), Option.map_some, sc_mul]
      congr 2; norm_num
    have hc : covPredite (⟨sc 1, some (sc 1), sc 1, none, some (sc 0), some (sc 1)⟩ : Ssm (Fin 1) (Fin 1) (Fin 1)) (sc 1) = some (sc 1) := by
      simp only [covPredite, Option.map_some, sc_tr, sc_mul, sc_add]
      congr 2; norm_num
    unfold Filtre.step
    simp only [hc, Option.bind_some, hg, Option.map_some]
    congr 1
    ext i
    simp only [predit, observe, ajoute, sc_vec, Pi.add_apply, Pi.sub_apply]
    norm_num
  · have h := ekf_scalaire 1 1 0 1 one_ne_zero 0 1 1 (by norm_num)
    have e : (⟨sc 1, some (sc 1), sc 1, none, some (sc 0), some (sc 1)⟩ : Ssm (Fin 1) (Fin 1) (Fin 1)).modele = (scalaire 1 1 0 1).modele := rfl
    rw [e, h, Option.map_some]
    congr 1
    ext i
    norm_num

/-! ### Numerical Jacobian -/

/-- **C119 (Jacobian of affine functions).**  The numerical Jacobian of an affine function is its matrix, at every point. -/
theorem C119_affine (M : Matrix (Fin b) (Fin a) ℝ) (w : Fin b → ℝ) (x : Fin a → ℝ) : jacobienne (fun z => M *ᵥ z + w) x = M := by
  ext j i
  unfold jacobienne
  have e : Function.update x i (x i + 1 / 10 ^ 5) = x + Pi.single i (1 / 10 ^ 5) := by
    ext l
    by_cases h : l = i
    · subst h; simp
    · simp [h]
  rw [e]
  show ((M *ᵥ (x + Pi.single i (1 / 10 ^ 5))) j + w j - ((M *ᵥ x) j + w j)) / (1 / 10 ^ 5) = M j i
  have h : (M *ᵥ (x + Pi.single i (1 / 10 ^ 5))) j = (M *ᵥ x) j + M j i * (1 / 10 ^ 5) := by
    rw [Matrix.mulVec_add, Pi.add_apply]
    congr 1
    simp [Matrix.mulVec, dotProduct_single]
  rw [h]
  field_simp
  ring

/-- **C119 (Jacobian, error bound).**  If along the coordinate `i` the component `j` of the function has a derivative that moves by at most `M t` at the distance `t` (`t ≤ 10⁻⁵`), then the coefficient
`(j, i)` of the numerical Jacobian is at most `10⁻⁵ M` away from the partial derivative. -/
theorem C119_jacobienne (f : (Fin a → ℝ) → Fin b → ℝ) (x : Fin a → ℝ) (i : Fin a) (j : Fin b) (d : ℝ → ℝ) (M : ℝ) (hM : 0 ≤ M)
    (hd : ∀ t ∈ Set.Icc (0 : ℝ) (1 / 10 ^ 5), HasDerivAt (fun t => f (Function.update x i (x i + t)) j) (d t) t) (hl : ∀ t ∈ Set.Icc (0 : ℝ) (1 / 10 ^ 5), |d t - d 0| ≤ M * t) :
    |jacobienne f x j i - d 0| ≤ M / 10 ^ 5 := by
  have hε : (0 : ℝ) < 1 / 10 ^ 5 := by norm_num
  obtain ⟨t, ht, hs⟩ := exists_hasDerivAt_eq_slope (fun t => f (Function.update x i (x i + t)) j) d hε (fun t ht => (hd t ht).continuousAt.continuousWithinAt) (fun t ht => hd t ⟨ht.1.le, ht.2.le⟩)
  have e0 : Function.update x i (x i + 0) = x := by rw [add_zero, Function.update_eq_self]
  have : jacobienne f x j i = d t := by
    rw [hs, e0, sub_zero]
    rfl
  rw [this]
  refine (hl t ⟨ht.1.le, ht.2.le⟩).trans ?_
  have := mul_le_mul_of_nonneg_left ht.2.le hM
  rw [mul_one_div] at this
  exact this

/-- Non-vacuity of the bound: the square, with `M = 2`. -/
example (x : ℝ) : |jacobienne (fun z : Fin 1 → ℝ => (fun _ => z 0 ^ 2 : Fin 1 → ℝ)) (fun _ => x) 0 0 - 2 * x| ≤ 2 / 10 ^ 5 := by
  have h := C119_jacobienne (fun z : Fin 1 → ℝ => (fun _ => z 0 ^ 2 : Fin 1 → ℝ)) (fun _ => x) 0 0 (fun t => 2 * (x + t)) 2 (by norm_num) (fun t _ => by
      have h1 : HasDerivAt (fun t : ℝ => x + t) 1 t := (hasDerivAt_id t).const_add x
      have h2 := h1.pow 2
      have e : (fun t : ℝ => Function.update (fun _ : Fin 1 => x) 0 (x + t) 0 ^ 2) = (fun t : ℝ => x + t) ^ 2 := by ext t; simp
      rw [e]
      have e2 : ((2 : ℕ) : ℝ) * (x + t) ^ (2 - 1) * 1 = 2 * (x + t) := by norm_num
      rw [← e2]
      exact h2) (fun t ht => by
      have : 2 * (x + t) - 2 * (x + 0) = 2 * t := by ring
      rw [this, abs_of_nonneg (by have := ht.1; linarith)])
  simpa using h

/-- Non-vacuity of C119_exact: a step that succeeds. -/
example : ∃ k', ekfStep (scalaire 1 2 0 1).modele ⟨fun _ => 3, sc 1⟩ (fun _ => 6) = some k' := ⟨_, ekf_scalaire 1 2 0 1 one_ne_zero 3 1 6 (by norm_num)⟩

end Verif.Kalman
