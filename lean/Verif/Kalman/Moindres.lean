import Verif.Kalman.Props

/-!
# C116: the Kalman estimate is the weighted least-squares solution over all the trajectories
-/

namespace Verif.Kalman

open Matrix

set_option linter.unusedSectionVars false

variable {n m p : Type} [Fintype n] [DecidableEq n] [Fintype m] [DecidableEq m] [Fintype p] [DecidableEq p]

/-! ### Specification -/

/-- Square of `v` weighted with the inverse of the covariance `S`. -/
noncomputable def carre (S : Matrix n n ℝ) (v : n → ℝ) : ℝ := v ⬝ᵥ (S⁻¹ *ᵥ v)

/-- Evolution without noise. -/
def evolue (s : Ssm n m p) (x : n → ℝ) (u : p → ℝ) : n → ℝ := s.A *ᵥ x + (match s.B with | none => 0 | some B => B *ᵥ u)

/-- Observation without noise. -/
def mesure (s : Ssm n m p) (x : n → ℝ) (u : p → ℝ) : m → ℝ := s.C *ᵥ x + (match s.D with | none => 0 | some D => D *ᵥ u)

/-- Cost of the states `x₀, x₁, …, xₖ` given the observations and inputs: sum of the weighted squares of the process noises and of the observation noises they suppose (from the state `x₀`). -/
noncomputable def coutBruits (s : Ssm n m p) (Q : Matrix n n ℝ) (R : Matrix m m ℝ) : (n → ℝ) → List (n → ℝ) → List ((m → ℝ) × (p → ℝ)) → ℝ
  | x, x' :: xs, o :: os => carre Q (x' - evolue s x o.2) + carre R (o.1 - mesure s x' o.2) + coutBruits s Q R x' xs os
  | _, _, _ => 0

/-- Cost of a trajectory: with the weighted square of the error on the initial state. -/
noncomputable def cout (s : Ssm n m p) (Q : Matrix n n ℝ) (R : Matrix m m ℝ) (x0 : n → ℝ) (P0 : Matrix n n ℝ) (x : n → ℝ) (xs : List (n → ℝ)) (os : List ((m → ℝ) × (p → ℝ))) : ℝ :=
  carre P0 (x - x0) + coutBruits s Q R x xs os

/-! ### Completing the square -/

theorem sym_pd {P : Matrix n n ℝ} (h : P.PosDef) : Pᵀ = P := sym_psd h.posSemidef

/-- Symmetric matrices move across the scalar product. -/
theorem dot_sym {S : Matrix n n ℝ} (h : Sᵀ = S) (a b : n → ℝ) : a ⬝ᵥ (S *ᵥ b) = b ⬝ᵥ (S *ᵥ a) := by
  rw [Matrix.dotProduct_mulVec, ← Matrix.mulVec_transpose, h, dotProduct_comm]

theorem carre_nonneg {S : Matrix n n ℝ} (h : S.PosDef) (v : n → ℝ) : 0 ≤ carre S v := by
  have := h.inv.posSemidef.dotProduct_mulVec_nonneg v
  simpa [carre] using this

theorem carre_zero {S : Matrix n n ℝ} (h : S.PosDef) (v : n → ℝ) (h0 : carre S v = 0) : v = 0 := by
  by_contra hv
  have := h.inv.dotProduct_mulVec_pos hv
  simp only [star_trivial] at this
  unfold carre at h0
  linarith

/-- `(S w)ᵀ S⁻¹ (S w) = wᵀ S w`, and mixed forms. -/
theorem carre_image {S : Matrix n n ℝ} (h : S.PosDef) (w d : n → ℝ) : carre S (S *ᵥ w + d) = w ⬝ᵥ (S *ᵥ w) + 2 * (w ⬝ᵥ d) + carre S d := by
  unfold carre
  have e : S⁻¹ *ᵥ (S *ᵥ w + d) = w + S⁻¹ *ᵥ d := by
    rw [Matrix.mulVec_add, Matrix.mulVec_mulVec, Matrix.nonsing_inv_mul _ (definie_det h), Matrix.one_mulVec]
  have e2 : (S *ᵥ w) ⬝ᵥ (S⁻¹ *ᵥ d) = w ⬝ᵥ d := by
    rw [dot_sym (sym_pd h.inv), Matrix.mulVec_mulVec, Matrix.nonsing_inv_mul _ (definie_det h), Matrix.one_mulVec, dotProduct_comm]
  rw [e, add_dotProduct, dotProduct_add, dotProduct_add, e2, dotProduct_comm (S *ᵥ w) w, dotProduct_comm d w]
  ring

/-- **Completion of the square.** -/
theorem completion {P : Matrix n n ℝ} (hP : P.PosDef) {Q : Matrix m m ℝ} (hQ : Q.PosDef) (H : Matrix m n ℝ) (v : m → ℝ) (δ : n → ℝ) :
    carre P δ + carre Q (v - H *ᵥ δ) = carre (innovation H Q P) v + (carre P (δ - (P * Hᵀ * (innovation H Q P)⁻¹) *ᵥ v) + carre Q (H *ᵥ (δ - (P * Hᵀ * (innovation H Q P)⁻¹) *ᵥ v))) := by
  have hS := innovation_def H Q P hQ hP.posSemidef
  set S := innovation H Q P with hSd
  set w := S⁻¹ *ᵥ v with hw
  have hv : v = S *ᵥ w := by rw [hw, Matrix.mulVec_mulVec, Matrix.mul_nonsing_inv _ (definie_det hS), Matrix.one_mulVec]
  have hK : (P * Hᵀ * S⁻¹) *ᵥ v = P *ᵥ (Hᵀ *ᵥ w) := by rw [hw, Matrix.mulVec_mulVec, Matrix.mulVec_mulVec, Matrix.mul_assoc]
  rw [hK]
  set d := δ - P *ᵥ (Hᵀ *ᵥ w) with hd
  have hδ : δ = P *ᵥ (Hᵀ *ᵥ w) + d := by rw [hd]; abel
  have hSw : S *ᵥ w = H *ᵥ (P *ᵥ (Hᵀ *ᵥ w)) + Q *ᵥ w := by
    have hg : ∀ w', innovation H Q P *ᵥ w' = H *ᵥ (P *ᵥ (Hᵀ *ᵥ w')) + Q *ᵥ w' := by
      intro w'
      unfold innovation
      rw [Matrix.add_mulVec, Matrix.mulVec_mulVec, Matrix.mulVec_mulVec, Matrix.mul_assoc]
    exact hg w
  have h1 : v - H *ᵥ δ = Q *ᵥ w + -(H *ᵥ d) := by
    rw [hv, hSw, hδ, Matrix.mulVec_add]; abel
  have h2 : carre S v = w ⬝ᵥ (S *ᵥ w) := by
    unfold carre; rw [← hw, hv, dotProduct_comm]
  have h3 : carre Q (-(H *ᵥ d)) = carre Q (H *ᵥ d) := by
    unfold carre; rw [Matrix.mulVec_neg, neg_dotProduct, dotProduct_neg, neg_neg]
  have h4 : (Hᵀ *ᵥ w) ⬝ᵥ d = w ⬝ᵥ (H *ᵥ d) := by
    rw [Matrix.mulVec_transpose, Matrix.dotProduct_mulVec]
  have h5 : w ⬝ᵥ (H *ᵥ (P *ᵥ (Hᵀ *ᵥ w))) = (Hᵀ *ᵥ w) ⬝ᵥ (P *ᵥ (Hᵀ *ᵥ w)) := by
    rw [Matrix.mulVec_transpose, Matrix.dotProduct_mulVec]
  rw [h1, carre_image hQ, h3, dotProduct_neg, h2, hSw, dotProduct_add]
  rw [hδ, carre_image hP, h4, h5]
  ring

/-- Information form of the new covariance. -/
theorem information {P : Matrix n n ℝ} (hP : P.PosDef) {R : Matrix m m ℝ} (hR : R.PosDef) (C : Matrix m n ℝ) :
    ((1 - P * Cᵀ * (innovation C R P)⁻¹ * C) * P).PosDef ∧ ∀ d, carre ((1 - P * Cᵀ * (innovation C R P)⁻¹ * C) * P) d = carre P d + carre R (C *ᵥ d) := by
  have hS := innovation_def C R P hR hP.posSemidef
  obtain ⟨g1, -⟩ := gain_rel C R P hR hP.posSemidef
  set K := P * Cᵀ * (innovation C R P)⁻¹ with hK
  change K * innovation C R P = P * Cᵀ at g1
  clear_value K
  -- inverse
  have hinv : ((1 - K * C) * P) * (P⁻¹ + Cᵀ * R⁻¹ * C) = 1 := by
    have e1 : P * P⁻¹ = 1 := Matrix.mul_nonsing_inv _ (definie_det hP)
    have e2 : R * R⁻¹ = 1 := Matrix.mul_nonsing_inv _ (definie_det hR)
    have e3 : (1 - K * C) * P * Cᵀ = K * R := by
      rw [Matrix.sub_mul, Matrix.sub_mul, Matrix.one_mul, ← g1]
      unfold innovation
      rw [Matrix.mul_add]
      simp only [Matrix.mul_assoc]
      abel
    rw [Matrix.mul_add, Matrix.mul_assoc (1 - K * C) P P⁻¹, e1, Matrix.mul_one]
    have : (1 - K * C) * P * (Cᵀ * R⁻¹ * C) = (1 - K * C) * P * Cᵀ * (R⁻¹ * C) := by simp only [Matrix.mul_assoc]
    rw [this, e3, Matrix.mul_assoc K R, ← Matrix.mul_assoc R, e2, Matrix.one_mul]
    abel
  have hM : (P⁻¹ + Cᵀ * R⁻¹ * C).PosDef := by
    refine hP.inv.add_posSemidef ?_
    have := psd_sandwich hR.inv.posSemidef Cᵀ
    rwa [Matrix.transpose_transpose] at this
  have hI : ((1 - K * C) * P)⁻¹ = P⁻¹ + Cᵀ * R⁻¹ * C := Matrix.inv_eq_right_inv hinv
  constructor
  · have : (1 - K * C) * P = (P⁻¹ + Cᵀ * R⁻¹ * C)⁻¹ := (Matrix.inv_eq_left_inv hinv).symm
    rw [this]
    exact hM.inv
  · intro d
    unfold carre
    rw [hI, Matrix.add_mulVec, dotProduct_add]
    congr 1
    rw [← Matrix.mulVec_mulVec, ← Matrix.mulVec_mulVec, Matrix.dotProduct_mulVec, ← Matrix.mulVec_transpose, Matrix.transpose_transpose]

/-! ### One step -/

/-- Dynamic programming: the best previous state, then the new observation. -/
theorem etape [Nonempty m] (s : Ssm n m p) (Q : Matrix n n ℝ) (hsQ : s.Q = some Q) (hQ : Q.PosDef) (R : Matrix m m ℝ) (hsR : s.R = some R) (hR : R.PosDef) (k : Filtre n) (hP : k.P.PosDef) (y : m → ℝ) (u : p → ℝ) :
    ∃ k' c, Filtre.step s k y u = some k' ∧ k'.P.PosDef ∧ (∀ x x', carre k'.P (x' - k'.etat) + c ≤ carre k.P (x - k.etat) + (carre Q (x' - evolue s x u) + carre R (y - mesure s x' u))) ∧
      ∀ x', ∃ x, carre k.P (x - k.etat) + (carre Q (x' - evolue s x u) + carre R (y - mesure s x' u)) = carre k'.P (x' - k'.etat) + c := by
  have hPm : (s.A * k.P * s.Aᵀ + Q).PosDef := Matrix.PosDef.posSemidef_add (psd_sandwich hP.posSemidef s.A) hQ
  set Pm := s.A * k.P * s.Aᵀ + Q with hPmd
  have hin : innovation s.A Q k.P = Pm := by unfold innovation; rw [← Matrix.mul_assoc]
  set xm := predit s k.etat u with hxm
  have hxm' : xm = evolue s k.etat u := by
    rw [hxm]; unfold predit evolue ajoute
    cases s.B <;> simp
  set K := Pm * s.Cᵀ * (innovation s.C R Pm)⁻¹ with hK
  set v := y - observe s xm u with hv
  have hobs : ∀ x, observe s x u = mesure s x u := by
    intro x; unfold observe mesure ajoute
    cases s.D <;> simp
  obtain ⟨hP', hinf⟩ := information hPm hR s.C
  rw [← hK] at hP' hinf
  have hev : ∀ x x', x' - evolue s x u = (x' - xm) - s.A *ᵥ (x - k.etat) := by
    intro x x'
    rw [hxm']; unfold evolue
    rw [Matrix.mulVec_sub]; abel
  have hme : ∀ x', y - mesure s x' u = v - s.C *ᵥ (x' - xm) := by
    intro x'
    rw [hv, hobs]; unfold mesure
    rw [Matrix.mulVec_sub]; abel
  have key : ∀ x x', carre k.P (x - k.etat) + (carre Q (x' - evolue s x u) + carre R (y - mesure s x' u)) =
      (carre ((1 - K * s.C) * Pm) (x' - (xm + K *ᵥ v)) + carre (innovation s.C R Pm) v) +
      (carre k.P ((x - k.etat) - (k.P * s.Aᵀ * Pm⁻¹) *ᵥ (x' - xm)) + carre Q (s.A *ᵥ ((x - k.etat) - (k.P * s.Aᵀ * Pm⁻¹) *ᵥ (x' - xm)))) := by
    intro x x'
    have c1 := completion hP hQ s.A (x' - xm) (x - k.etat)
    rw [hin] at c1
    have c2 := completion hPm hR s.C v (x' - xm)
    rw [← hK] at c2
    have c3 : x' - xm - K *ᵥ v = x' - (xm + K *ᵥ v) := by abel
    rw [c3, ← hinf] at c2
    rw [hev, hme, ← add_assoc, c1]
    linarith
  refine ⟨⟨xm + K *ᵥ v, (1 - K * s.C) * Pm⟩, carre (innovation s.C R Pm) v, ?_, hP', ?_, ?_⟩
  · unfold Filtre.step covPredite
    rw [hsQ, Option.map_some, Option.bind_some]
    have : s.A * (k.P * s.Aᵀ) + Q = Pm := by rw [← Matrix.mul_assoc]
    rw [this, gain_some s R hsR hR Pm hPm.posSemidef, Option.map_some]
  · intro x x'
    rw [key]
    have h1 := carre_nonneg hP ((x - k.etat) - (k.P * s.Aᵀ * Pm⁻¹) *ᵥ (x' - xm))
    have h2 := carre_nonneg hQ (s.A *ᵥ ((x - k.etat) - (k.P * s.Aᵀ * Pm⁻¹) *ᵥ (x' - xm)))
    simp only
    linarith
  · intro x'
    refine ⟨k.etat + (k.P * s.Aᵀ * Pm⁻¹) *ᵥ (x' - xm), ?_⟩
    rw [key]
    have : (k.etat + (k.P * s.Aᵀ * Pm⁻¹) *ᵥ (x' - xm) - k.etat) - (k.P * s.Aᵀ * Pm⁻¹) *ᵥ (x' - xm) = 0 := by abel
    rw [this]
    simp [carre]

/-- Last state of a trajectory. -/
def dernier (x : n → ℝ) (xs : List (n → ℝ)) : n → ℝ := (x :: xs).getLast (by simp)

theorem cout_concat (s : Ssm n m p) (Q : Matrix n n ℝ) (R : Matrix m m ℝ) (xs : List (n → ℝ)) (os : List ((m → ℝ) × (p → ℝ))) (h : xs.length = os.length) (x x' : n → ℝ) (o : (m → ℝ) × (p → ℝ)) :
    coutBruits s Q R x (xs ++ [x']) (os ++ [o]) = coutBruits s Q R x xs os + (carre Q (x' - evolue s (dernier x xs) o.2) + carre R (o.1 - mesure s x' o.2)) := by
  induction xs generalizing x os with
  | nil =>
    rw [List.length_nil, eq_comm, List.length_eq_zero_iff] at h
    subst h
    simp [coutBruits, dernier]
  | cons a xs ih =>
    cases os with
    | nil => simp at h
    | cons b os =>
      simp only [List.cons_append, coutBruits]
      rw [ih os (by simpa using h) a]
      have : dernier x (a :: xs) = dernier a xs := by simp [dernier]
      rw [this]
      ring

theorem suite_concat (s : Ssm n m p) (os : List ((m → ℝ) × (p → ℝ))) (o : (m → ℝ) × (p → ℝ)) (k : Filtre n) :
    Filtre.suite s k (os ++ [o]) = (Filtre.suite s k os).bind fun r : Filtre n × List (n → ℝ) => (Filtre.step s r.1 o.1 o.2).map fun k' : Filtre n => (k', r.2 ++ [k'.etat]) := by
  induction os generalizing k with
  | nil =>
    simp only [List.nil_append, Filtre.suite, Option.bind_some, Option.map_some]
    cases Filtre.step s k o.1 o.2 <;> simp
  | cons a os ih =>
    simp only [List.cons_append, Filtre.suite]
    cases Filtre.step s k a.1 a.2 with
    | none => rfl
    | some k' =>
      simp only [Option.bind_some]
      rw [ih]
      cases Filtre.suite s k' os with
      | none => rfl
      | some r =>
        simp only [Option.bind_some, Option.map_some, Option.map_map]
        cases Filtre.step s r.1 o.1 o.2 <;> simp

/-- The value function. -/
theorem valeur_filtre [Nonempty m] (s : Ssm n m p) (Q : Matrix n n ℝ) (hsQ : s.Q = some Q) (hQ : Q.PosDef) (R : Matrix m m ℝ) (hsR : s.R = some R) (hR : R.PosDef) (k : Filtre n) (hP : k.P.PosDef) (os : List ((m → ℝ) × (p → ℝ))) :
    ∃ k' est c, Filtre.suite s k os = some (k', est) ∧ k'.P.PosDef ∧
      (∀ x xs, xs.length = os.length → carre k'.P (dernier x xs - k'.etat) + c ≤ cout s Q R k.etat k.P x xs os) ∧
      ∀ z, ∃ x xs, xs.length = os.length ∧ dernier x xs = z ∧ cout s Q R k.etat k.P x xs os = carre k'.P (z - k'.etat) + c := by
  induction os using List.reverseRecOn with
  | nil =>
    refine ⟨k, [], 0, rfl, hP, ?_, ?_⟩
    · intro x xs h
      rw [List.length_eq_zero_iff.1 h]
      simp [cout, coutBruits, dernier]
    · intro z
      exact ⟨z, [], rfl, rfl, by simp [cout, coutBruits]⟩
  | append_singleton os o ih =>
    obtain ⟨k', est, c, h1, h2, h3, h4⟩ := ih
    obtain ⟨k'', c', g1, g2, g3, g4⟩ := etape s Q hsQ hQ R hsR hR k' h2 o.1 o.2
    refine ⟨k'', est ++ [k''.etat], c + c', ?_, g2, ?_, ?_⟩
    · rw [suite_concat, h1, Option.bind_some]
      simp only [g1, Option.map_some]
    · intro x xs hl
      have hne : xs ≠ [] := by rintro rfl; simp at hl
      obtain ⟨ys, z, rfl⟩ : ∃ ys z, xs = ys ++ [z] := ⟨xs.dropLast, xs.getLast hne, (List.dropLast_append_getLast hne).symm⟩
      have hl' : ys.length = os.length := by simpa using hl
      have hdz : dernier x (ys ++ [z]) = z := by simp [dernier]
      have := h3 x ys hl'
      have := g3 (dernier x ys) z
      unfold cout at *
      rw [cout_concat s Q R ys os hl', hdz]
      linarith
    · intro z
      obtain ⟨x1, hx1⟩ := g4 z
      obtain ⟨x, xs, e1, e2, e3⟩ := h4 x1
      refine ⟨x, xs ++ [z], by simp [e1], by simp [dernier], ?_⟩
      unfold cout at *
      rw [cout_concat s Q R xs os e1, e2]
      linarith

/-- **C116.**  For every linear model with positive definite covariances `Q`, `R` and `P₀`, every initial state and every sequence of observations and inputs: the filter never fails, and its last estimate is the last
state of the trajectory which minimises the sum of the squares (weighted with the inverses of the covariances) of the initial error, of the process noises and of the observation
noises; every minimising trajectory ends there. The inverse of the covariance of the filter is the curvature of the minimum: ending at `z` instead costs `(z - x̂)ᵀ P⁻¹ (z - x̂)` more. -/
theorem C116_moindres_carres [Nonempty m] (s : Ssm n m p) (Q : Matrix n n ℝ) (hsQ : s.Q = some Q) (hQ : Q.PosDef) (R : Matrix m m ℝ) (hsR : s.R = some R) (hR : R.PosDef) (k : Filtre n) (hP : k.P.PosDef) (os : List ((m → ℝ) × (p → ℝ))) :
    ∃ k' est x xs, Filtre.suite s k os = some (k', est) ∧ xs.length = os.length ∧ dernier x xs = k'.etat ∧
      (∀ z zs, zs.length = os.length → cout s Q R k.etat k.P x xs os + carre k'.P (dernier z zs - k'.etat) ≤ cout s Q R k.etat k.P z zs os) ∧
      (∀ z zs, zs.length = os.length → cout s Q R k.etat k.P z zs os = cout s Q R k.etat k.P x xs os → dernier z zs = k'.etat) ∧
      ∀ z, ∃ y ys, ys.length = os.length ∧ dernier y ys = z ∧ cout s Q R k.etat k.P y ys os = cout s Q R k.etat k.P x xs os + carre k'.P (z - k'.etat) := by
  obtain ⟨k', est, c, h1, h2, h3, h4⟩ := valeur_filtre s Q hsQ hQ R hsR hR k hP os
  obtain ⟨x, xs, e1, e2, e3⟩ := h4 k'.etat
  have e3' : cout s Q R k.etat k.P x xs os = c := by rw [e3]; simp [carre]
  refine ⟨k', est, x, xs, h1, e1, e2, ?_, ?_, ?_⟩
  · intro z zs hz
    have := h3 z zs hz
    linarith
  · intro z zs hz he
    have h5 := h3 z zs hz
    have h6 := carre_nonneg h2 (dernier z zs - k'.etat)
    have := carre_zero h2 _ (le_antisymm (by linarith) h6)
    exact sub_eq_zero.1 this
  · intro z
    obtain ⟨y, ys, f1, f2, f3⟩ := h4 z
    exact ⟨y, ys, f1, f2, by rw [f3, e3']; ring⟩

/-- Non-vacuity: the random walk with its default covariances, and the default initial covariance. -/
example : (Ssm.marche none none : Ssm (Fin 2) (Fin 2) (Fin 0)).Q = some 1 ∧ (1 : Matrix (Fin 2) (Fin 2) ℝ).PosDef ∧ (Filtre.cree none none : Filtre (Fin 2)).P.PosDef := ⟨rfl, Matrix.PosDef.one, Matrix.PosDef.one⟩

end Verif.Kalman
