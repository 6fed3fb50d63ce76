import Verif.Kalman.Model

/-!
# C115: the Kalman filter never fails, its covariance is a covariance, and it is the best among all gains

Hypotheses: `Q` positive semi-definite, `R` positive definite, at least one observation per step.
-/

namespace Verif.Kalman

open Matrix

set_option linter.unusedSectionVars false

variable {n m p : Type} [Fintype n] [DecidableEq n] [Fintype m] [DecidableEq m] [Fintype p] [DecidableEq p]

/-! ### Specification -/

/-- Covariance of the error after one step with the gain `G` when it was `P` before: prediction (`A P Aᵀ + Q`), then correction with an observation noise of covariance `R`. -/
def covErreur (A : Matrix n n ℝ) (C : Matrix m n ℝ) (Q : Matrix n n ℝ) (R : Matrix m m ℝ) (P : Matrix n n ℝ) (G : Matrix n m ℝ) : Matrix n n ℝ :=
  (1 - G * C) * (A * P * Aᵀ + Q) * (1 - G * C)ᵀ + G * R * Gᵀ

/-- Covariance of the error after the gains of a list (first gain first). -/
def covGains (A : Matrix n n ℝ) (C : Matrix m n ℝ) (Q : Matrix n n ℝ) (R : Matrix m m ℝ) : Matrix n n ℝ → List (Matrix n m ℝ) → Matrix n n ℝ
  | P, [] => P
  | P, G :: l => covGains A C Q R (covErreur A C Q R P G) l

/-! ### Inverse -/

theorem inverse_some {M : Matrix m n ℝ} {K : Matrix n m ℝ} (h1 : M * K = 1) (h2 : K * M = 1) : inverse M = some K := by
  have h : ∃ K : Matrix n m ℝ, M * K = 1 ∧ K * M = 1 := ⟨K, h1, h2⟩
  unfold inverse
  rw [dif_pos h]
  congr 1
  have hc := h.choose_spec
  calc h.choose = h.choose * (M * K) := by rw [h1, Matrix.mul_one]
    _ = (h.choose * M) * K := by rw [Matrix.mul_assoc]
    _ = K := by rw [hc.2, Matrix.one_mul]

theorem inverse_eq {M : Matrix m n ℝ} {K : Matrix n m ℝ} (h : inverse M = some K) : M * K = 1 ∧ K * M = 1 := by
  unfold inverse at h
  split at h
  · rename_i he
    simp only [Option.some.injEq] at h
    rw [← h]
    exact he.choose_spec
  · simp at h

theorem definie_det {S : Matrix m m ℝ} (h : S.PosDef) : IsUnit S.det := (Matrix.isUnit_iff_isUnit_det S).1 h.isUnit

theorem inverse_definie {S : Matrix m m ℝ} (h : S.PosDef) : inverse S = some S⁻¹ :=
  inverse_some (Matrix.mul_nonsing_inv S (definie_det h)) (Matrix.nonsing_inv_mul S (definie_det h))

theorem sym_psd {P : Matrix n n ℝ} (h : P.PosSemidef) : Pᵀ = P := by
  have := h.isHermitian
  rwa [Matrix.IsHermitian, Matrix.conjTranspose_eq_transpose_of_trivial] at this

theorem psd_sandwich {P : Matrix n n ℝ} (h : P.PosSemidef) (B : Matrix m n ℝ) : (B * P * Bᵀ).PosSemidef := by
  have := h.mul_mul_conjTranspose_same B
  rwa [Matrix.conjTranspose_eq_transpose_of_trivial] at this

/-! ### One step -/

/-- Innovation covariance. -/
def innovation (C : Matrix m n ℝ) (R : Matrix m m ℝ) (Pm : Matrix n n ℝ) : Matrix m m ℝ := C * (Pm * Cᵀ) + R

theorem innovation_def (C : Matrix m n ℝ) (R : Matrix m m ℝ) (Pm : Matrix n n ℝ) (hR : R.PosDef) (hP : Pm.PosSemidef) : (innovation C R Pm).PosDef := by
  unfold innovation
  rw [← Matrix.mul_assoc]
  exact Matrix.PosDef.posSemidef_add (psd_sandwich hP C) hR

/-- The gain, and the two relations it satisfies. -/
theorem gain_some [Nonempty m] (s : Ssm n m p) (R : Matrix m m ℝ) (hsR : s.R = some R) (hR : R.PosDef) (Pm : Matrix n n ℝ) (hP : Pm.PosSemidef) :
    gain s Pm = some (Pm * s.Cᵀ * (innovation s.C R Pm)⁻¹) := by
  have hne : ¬ (Pm = 0 ∧ R = 0) := by
    rintro ⟨-, h⟩
    have := hR.diag_pos (i := Classical.arbitrary m)
    rw [h] at this
    simp at this
  unfold gain
  rw [hsR, Option.bind_some, if_neg hne]
  have : s.C * (Pm * s.Cᵀ) + R = innovation s.C R Pm := rfl
  rw [this, inverse_definie (innovation_def s.C R Pm hR hP), Option.map_some]

/-- `K S = Pm Cᵀ` and its transpose. -/
theorem gain_rel (C : Matrix m n ℝ) (R : Matrix m m ℝ) (Pm : Matrix n n ℝ) (hR : R.PosDef) (hP : Pm.PosSemidef) :
    let K := Pm * Cᵀ * (innovation C R Pm)⁻¹
    K * innovation C R Pm = Pm * Cᵀ ∧ innovation C R Pm * Kᵀ = C * Pm := by
  intro K
  have hS := innovation_def C R Pm hR hP
  have h1 : K * innovation C R Pm = Pm * Cᵀ := by
    show Pm * Cᵀ * (innovation C R Pm)⁻¹ * innovation C R Pm = _
    rw [Matrix.mul_assoc, Matrix.nonsing_inv_mul _ (definie_det hS), Matrix.mul_one]
  refine ⟨h1, ?_⟩
  clear_value K
  have := congrArg Matrix.transpose h1
  rwa [Matrix.transpose_mul, Matrix.transpose_mul, Matrix.transpose_transpose, sym_psd hS.posSemidef, sym_psd hP] at this

/-- Error covariance of an arbitrary gain, relative to the covariance of the filter. -/
theorem ecart_gain (C : Matrix m n ℝ) (R : Matrix m m ℝ) (Pm : Matrix n n ℝ) (hR : R.PosDef) (hP : Pm.PosSemidef) (G : Matrix n m ℝ) :
    let K := Pm * Cᵀ * (innovation C R Pm)⁻¹
    (1 - G * C) * Pm * (1 - G * C)ᵀ + G * R * Gᵀ = (1 - K * C) * Pm + (G - K) * innovation C R Pm * (G - K)ᵀ := by
  intro K
  obtain ⟨h1, h2⟩ := gain_rel C R Pm hR hP
  change K * innovation C R Pm = Pm * Cᵀ at h1
  change innovation C R Pm * Kᵀ = C * Pm at h2
  have e1 : (1 - G * C) * Pm * (1 - G * C)ᵀ + G * R * Gᵀ = Pm - G * (C * Pm) - Pm * Cᵀ * Gᵀ + G * innovation C R Pm * Gᵀ := by
    unfold innovation
    simp only [Matrix.transpose_sub, Matrix.transpose_one, Matrix.transpose_mul, Matrix.sub_mul, Matrix.mul_sub, Matrix.mul_add, Matrix.add_mul, Matrix.one_mul, Matrix.mul_one, Matrix.mul_assoc]
    abel
  have e2 : (G - K) * innovation C R Pm * (G - K)ᵀ = G * innovation C R Pm * Gᵀ - G * (innovation C R Pm * Kᵀ) - K * innovation C R Pm * Gᵀ + K * (innovation C R Pm * Kᵀ) := by
    simp only [Matrix.transpose_sub, Matrix.sub_mul, Matrix.mul_sub, Matrix.mul_assoc]
    abel
  rw [e1, e2, h1, h2]
  simp only [Matrix.sub_mul, Matrix.one_mul, Matrix.mul_assoc]
  abel

/-- The step of the filter. -/
theorem step_some [Nonempty m] (s : Ssm n m p) (Q : Matrix n n ℝ) (hsQ : s.Q = some Q) (hQ : Q.PosSemidef) (R : Matrix m m ℝ) (hsR : s.R = some R) (hR : R.PosDef) (k : Filtre n) (hP : k.P.PosSemidef) (y : m → ℝ) (u : p → ℝ) :
    ∃ K : Matrix n m ℝ, Filtre.step s k y u = some ⟨predit s k.etat u + K *ᵥ (y - observe s (predit s k.etat u) u), covErreur s.A s.C Q R k.P K⟩ ∧
      (covErreur s.A s.C Q R k.P K).PosSemidef ∧ (s.A * k.P * s.Aᵀ + Q - covErreur s.A s.C Q R k.P K).PosSemidef ∧
      ∀ (P' : Matrix n n ℝ) (G : Matrix n m ℝ), (P' - k.P).PosSemidef → P'.PosSemidef → (covErreur s.A s.C Q R P' G - covErreur s.A s.C Q R k.P K).PosSemidef := by
  have hPm : (s.A * k.P * s.Aᵀ + Q).PosSemidef := (psd_sandwich hP s.A).add hQ
  have hS := innovation_def s.C R _ hR hPm
  have e := ecart_gain s.C R _ hR hPm
  set Pm := s.A * k.P * s.Aᵀ + Q with hPmd
  set K := Pm * s.Cᵀ * (innovation s.C R Pm)⁻¹ with hK
  have ek : covErreur s.A s.C Q R k.P K = (1 - K * s.C) * Pm := by
    have := e K
    simp only [sub_self, Matrix.zero_mul, add_zero] at this
    exact this
  have hpsd : (covErreur s.A s.C Q R k.P K).PosSemidef := (psd_sandwich hPm _).add (psd_sandwich hR.posSemidef _)
  refine ⟨K, ?_, hpsd, ?_, ?_⟩
  · unfold Filtre.step covPredite
    rw [hsQ, Option.map_some, Option.bind_some]
    have : s.A * (k.P * s.Aᵀ) + Q = Pm := by rw [← Matrix.mul_assoc]
    rw [this, gain_some s R hsR hR Pm hPm, Option.map_some, ek]
  · rw [ek]
    have h2 := (gain_rel s.C R Pm hR hPm).2
    rw [← hK] at h2
    clear_value K
    have : Pm - (1 - K * s.C) * Pm = K * innovation s.C R Pm * Kᵀ := by
      rw [Matrix.mul_assoc, h2, Matrix.sub_mul, Matrix.one_mul, Matrix.mul_assoc]
      abel
    rw [this]
    exact psd_sandwich hS.posSemidef K
  · intro P' G hd hP'
    have e3 : covErreur s.A s.C Q R P' G - covErreur s.A s.C Q R k.P K = (1 - G * s.C) * (s.A * (P' - k.P) * s.Aᵀ) * (1 - G * s.C)ᵀ + (G - K) * innovation s.C R Pm * (G - K)ᵀ := by
      have h := e G
      rw [ek]
      have h4 : covErreur s.A s.C Q R P' G = (1 - G * s.C) * (s.A * (P' - k.P) * s.Aᵀ) * (1 - G * s.C)ᵀ + ((1 - G * s.C) * Pm * (1 - G * s.C)ᵀ + G * R * Gᵀ) := by
        have h5 : s.A * P' * s.Aᵀ + Q = s.A * (P' - k.P) * s.Aᵀ + Pm := by
          rw [hPmd, Matrix.mul_sub, Matrix.sub_mul]
          abel
        unfold covErreur
        rw [h5, Matrix.mul_add (1 - G * s.C), Matrix.add_mul, add_assoc]
      rw [h4, h]
      abel
    rw [e3]
    exact (psd_sandwich (psd_sandwich hd s.A) _).add (psd_sandwich hS.posSemidef _)

/-! ### Theorems -/

/-- **C115 (the filter always runs and its covariance is one).**  For every model with a covariance `Q` and a positive definite `R`, every initial state and covariance and every
sequence of observations and inputs, no step fails, one estimate is produced per observation, and the covariance is symmetric positive semi-definite. -/
theorem C115_covariance [Nonempty m] (s : Ssm n m p) (Q : Matrix n n ℝ) (hsQ : s.Q = some Q) (hQ : Q.PosSemidef) (R : Matrix m m ℝ) (hsR : s.R = some R) (hR : R.PosDef) (k : Filtre n) (hP : k.P.PosSemidef)
    (l : List ((m → ℝ) × (p → ℝ))) : ∃ k' xs, Filtre.suite s k l = some (k', xs) ∧ xs.length = l.length ∧ k'.P.PosSemidef ∧ xs.getLast? = (if l = [] then none else some k'.etat) := by
  induction l generalizing k with
  | nil => exact ⟨k, [], rfl, rfl, hP, rfl⟩
  | cons o l ih =>
    obtain ⟨K, h1, h2, -, -⟩ := step_some s Q hsQ hQ R hsR hR k hP o.1 o.2
    obtain ⟨k', xs, h3, h4, h5, h6⟩ := ih ⟨predit s k.etat o.2 + K *ᵥ (o.1 - observe s (predit s k.etat o.2) o.2), covErreur s.A s.C Q R k.P K⟩ h2
    refine ⟨k', (predit s k.etat o.2 + K *ᵥ (o.1 - observe s (predit s k.etat o.2) o.2)) :: xs, ?_, by simp [h4], h5, ?_⟩
    · simp only [Filtre.suite, h1, Option.bind_some, h3, Option.map_some]
    · cases l with
      | nil =>
        simp only [Filtre.suite, Option.some.injEq, Prod.mk.injEq] at h3
        obtain ⟨rfl, rfl⟩ := h3
        simp
      | cons a l =>
        cases xs with
        | nil => simp at h4
        | cons b xs =>
          rw [List.getLast?_cons_cons, h6]
          simp

/-- An observation never increases the covariance: the a priori covariance `A P Aᵀ + Q` minus the new one is positive semi-definite. -/
theorem C115_information [Nonempty m] (s : Ssm n m p) (Q : Matrix n n ℝ) (hsQ : s.Q = some Q) (hQ : Q.PosSemidef) (R : Matrix m m ℝ) (hsR : s.R = some R) (hR : R.PosDef) (k : Filtre n) (hP : k.P.PosSemidef)
    (y : m → ℝ) (u : p → ℝ) : ∃ k', Filtre.step s k y u = some k' ∧ (s.A * k.P * s.Aᵀ + Q - k'.P).PosSemidef := by
  obtain ⟨K, h1, -, h3, -⟩ := step_some s Q hsQ hQ R hsR hR k hP y u
  exact ⟨_, h1, h3⟩

/-- **C115 (optimality).**  Whatever the gains `G₁, …, Gₖ` used instead of those of the filter, the covariance of the error after `k` observations is at least the covariance of the filter
(the difference is positive semi-definite; in particular the mean square error is at least as large). -/
theorem C115_optimal [Nonempty m] (s : Ssm n m p) (Q : Matrix n n ℝ) (hsQ : s.Q = some Q) (hQ : Q.PosSemidef) (R : Matrix m m ℝ) (hsR : s.R = some R) (hR : R.PosDef) (k : Filtre n) (hP : k.P.PosSemidef)
    (l : List ((m → ℝ) × (p → ℝ))) (G : List (Matrix n m ℝ)) (hG : G.length = l.length) :
    ∃ k' xs, Filtre.suite s k l = some (k', xs) ∧ (covGains s.A s.C Q R k.P G - k'.P).PosSemidef ∧ k'.P.trace ≤ (covGains s.A s.C Q R k.P G).trace ∧
      ∃ G' : List (Matrix n m ℝ), G'.length = l.length ∧ k'.P = covGains s.A s.C Q R k.P G' := by
  have main : ∀ (l : List ((m → ℝ) × (p → ℝ))) (G : List (Matrix n m ℝ)) (hG : G.length = l.length) (k : Filtre n) (hP : k.P.PosSemidef) (P' : Matrix n n ℝ) (hP' : P'.PosSemidef) (hd : (P' - k.P).PosSemidef),
      ∃ k' xs, Filtre.suite s k l = some (k', xs) ∧ (covGains s.A s.C Q R P' G - k'.P).PosSemidef ∧ ∃ G' : List (Matrix n m ℝ), G'.length = l.length ∧ k'.P = covGains s.A s.C Q R k.P G' := by
    intro l
    induction l with
    | nil =>
      intro G hG k hP P' hP' hd
      rw [List.length_eq_zero_iff.1 hG]
      exact ⟨k, [], rfl, hd, [], rfl, rfl⟩
    | cons o l ih =>
      intro G hG k hP P' hP' hd
      cases G with
      | nil => simp at hG
      | cons g G =>
        obtain ⟨K, h1, h2, -, h4⟩ := step_some s Q hsQ hQ R hsR hR k hP o.1 o.2
        obtain ⟨k', xs, h5, h6, G', h7, h8⟩ := ih G (by simpa using hG) ⟨predit s k.etat o.2 + K *ᵥ (o.1 - observe s (predit s k.etat o.2) o.2), covErreur s.A s.C Q R k.P K⟩ h2
          (covErreur s.A s.C Q R P' g) ((psd_sandwich ((psd_sandwich hP' s.A).add hQ) _).add (psd_sandwich hR.posSemidef _)) (h4 P' g hd hP')
        refine ⟨k', (predit s k.etat o.2 + K *ᵥ (o.1 - observe s (predit s k.etat o.2) o.2)) :: xs, ?_, h6, K :: G', by simp [h7], h8⟩
        simp only [Filtre.suite, h1, Option.bind_some, h5, Option.map_some]
  obtain ⟨k', xs, h1, h2, h3⟩ := main l G hG k hP k.P hP (by simp [Matrix.PosSemidef.zero])
  refine ⟨k', xs, h1, h2, ?_, h3⟩
  have := h2.trace_nonneg
  rw [Matrix.trace_sub] at this
  linarith

/-- Trajectory of the model from a state: inputs, process noises and observation noises are given; list of the states with their observation. -/
def trajectoire (s : Ssm n m p) : (n → ℝ) → List ((p → ℝ) × (n → ℝ) × (m → ℝ)) → List ((n → ℝ) × (m → ℝ))
  | _, [] => []
  | x, e :: l =>
    let x' := s.A *ᵥ x + (match s.B with | none => 0 | some B => B *ᵥ e.1) + e.2.1
    (x', s.C *ᵥ x' + (match s.D with | none => 0 | some D => D *ᵥ e.1) + e.2.2) :: trajectoire s x' l

/-- **C115 (error).**  When the observation is that of the model (state `x`, input `u`, noises `v` and `w`), the error of the estimate is a linear function of the previous error and of the noises,
which does not depend on the state nor on the input: `e' = (1 - K C)(A e + v) - K w`, and `covErreur` with this `K` is the new covariance. -/
theorem C115_erreur [Nonempty m] (s : Ssm n m p) (Q : Matrix n n ℝ) (hsQ : s.Q = some Q) (hQ : Q.PosSemidef) (R : Matrix m m ℝ) (hsR : s.R = some R) (hR : R.PosDef) (P : Matrix n n ℝ) (hP : P.PosSemidef) :
    ∃ K : Matrix n m ℝ, ∀ (x e : n → ℝ) (u : p → ℝ) (v : n → ℝ) (w : m → ℝ) (x' : n → ℝ) (y : m → ℝ), trajectoire s x [(u, v, w)] = [(x', y)] →
      ∃ k', Filtre.step s ⟨x - e, P⟩ y u = some k' ∧ k'.P = covErreur s.A s.C Q R P K ∧ x' - k'.etat = (1 - K * s.C) *ᵥ (s.A *ᵥ e + v) - K *ᵥ w := by
  have hPm : (s.A * P * s.Aᵀ + Q).PosSemidef := (psd_sandwich hP s.A).add hQ
  refine ⟨(s.A * P * s.Aᵀ + Q) * s.Cᵀ * (innovation s.C R (s.A * P * s.Aᵀ + Q))⁻¹, fun x e u v w x' y ht => ?_⟩
  set K := (s.A * P * s.Aᵀ + Q) * s.Cᵀ * (innovation s.C R (s.A * P * s.Aᵀ + Q))⁻¹ with hK
  have ek : covErreur s.A s.C Q R P K = (1 - K * s.C) * (s.A * P * s.Aᵀ + Q) := by
    have := ecart_gain s.C R _ hR hPm K
    simp only [sub_self, Matrix.zero_mul, add_zero, ← hK] at this
    exact this
  refine ⟨⟨predit s (x - e) u + K *ᵥ (y - observe s (predit s (x - e) u) u), covErreur s.A s.C Q R P K⟩, ?_, rfl, ?_⟩
  · unfold Filtre.step covPredite
    rw [hsQ, Option.map_some, Option.bind_some]
    have : s.A * (P * s.Aᵀ) + Q = s.A * P * s.Aᵀ + Q := by rw [← Matrix.mul_assoc]
    simp only
    rw [this, gain_some s R hsR hR _ hPm, Option.map_some, ek]
  · simp only [trajectoire, List.cons.injEq, Prod.mk.injEq, and_true] at ht
    obtain ⟨h1, h2⟩ := ht
    have hp : predit s (x - e) u = x' - (s.A *ᵥ e + v) := by
      rw [← h1]; unfold predit ajoute
      cases s.B <;> simp only [Matrix.mulVec_sub] <;> abel
    have ho : y - observe s (predit s (x - e) u) u = s.C *ᵥ (s.A *ᵥ e + v) + w := by
      rw [← h2, h1, hp]; unfold observe ajoute
      cases s.D <;> simp only [Matrix.mulVec_sub] <;> abel
    rw [ho, hp]
    clear_value K
    rw [Matrix.sub_mulVec, Matrix.one_mulVec, Matrix.mulVec_add K, Matrix.mulVec_mulVec (s.A *ᵥ e + v) K s.C]
    ext i
    simp only [Pi.sub_apply, Pi.add_apply]
    ring

/-- **C115 (exactness).**  Without noise and with the exact initial state, the estimates are the states, for ever and for every input. -/
theorem C115_exact [Nonempty m] (s : Ssm n m p) (Q : Matrix n n ℝ) (hsQ : s.Q = some Q) (hQ : Q.PosSemidef) (R : Matrix m m ℝ) (hsR : s.R = some R) (hR : R.PosDef) (k : Filtre n) (hP : k.P.PosSemidef) (us : List (p → ℝ)) :
    ∃ k', Filtre.suite s k (List.zipWith (fun (t : (n → ℝ) × (m → ℝ)) (u : p → ℝ) => (t.2, u)) (trajectoire s k.etat (us.map fun u : p → ℝ => (u, 0, 0))) us) = some (k', (trajectoire s k.etat (us.map fun u : p → ℝ => (u, 0, 0))).map Prod.fst) := by
  induction us generalizing k with
  | nil => exact ⟨k, rfl⟩
  | cons u us ih =>
    obtain ⟨K, hK⟩ := C115_erreur s Q hsQ hQ R hsR hR k.P hP
    simp only [List.map_cons, trajectoire, List.zipWith_cons_cons]
    set x' := s.A *ᵥ k.etat + (match s.B with | none => 0 | some B => B *ᵥ u) + (0 : n → ℝ) with hx'
    obtain ⟨k', h1, h2, h3⟩ := hK k.etat 0 u 0 0 x' _ rfl
    rw [sub_zero] at h1
    have he : k'.etat = x' := by
      simp only [Matrix.mulVec_zero, add_zero, sub_zero, sub_eq_zero] at h3
      exact h3.symm
    obtain ⟨k'', hk⟩ := ih k' (by rw [h2]; exact (psd_sandwich ((psd_sandwich hP s.A).add hQ) _).add (psd_sandwich hR.posSemidef _))
    rw [he] at hk
    refine ⟨k'', ?_⟩
    have hkk : (⟨k.etat, k.P⟩ : Filtre n) = k := rfl
    rw [hkk] at h1
    simp only [Filtre.suite]
    rw [h1, Option.bind_some, hk, Option.map_some, he]

/-- **C115 (refuted: the covariances default to zero).**  The documentation says that the default value of `Q` is 0; a filter on a model built by `ssm_lineaire` without setting `Q` fails at its first step. -/
theorem C115_defaut_refute (A : Matrix n n ℝ) (C : Matrix m n ℝ) (B : Option (Matrix n p ℝ)) (D : Option (Matrix m p ℝ)) (k : Filtre n) (y : m → ℝ) (u : p → ℝ) : Filtre.step (Ssm.lineaire A C B D) k y u = none := rfl

/-- **C115 (refuted: `steps` uses every observation).**  The first observation of each call of `steps` is ignored and the first output is the state before the call: two models of observations that differ only there give
the same estimates, and cutting a sequence of observations in two calls loses one more observation. -/
theorem C115_premiere_refute (s : Ssm n m p) (k : Filtre n) (a b : (m → ℝ) × (p → ℝ)) (l l' : List ((m → ℝ) × (p → ℝ))) :
    Filtre.steps s k (a :: l) = Filtre.steps s k (b :: l) ∧
      (Filtre.steps s k (a :: l)).bind (fun r : Filtre n × List (n → ℝ) => (Filtre.steps s r.1 (b :: l')).map Prod.fst) = (Filtre.steps s k (a :: (l ++ l'))).map Prod.fst := by
  refine ⟨rfl, ?_⟩
  simp only [Filtre.steps]
  have : ∀ (l : List ((m → ℝ) × (p → ℝ))) (k : Filtre n), (Filtre.suite s k l).bind (fun r : Filtre n × List (n → ℝ) => (Filtre.suite s r.1 l').map Prod.fst) = (Filtre.suite s k (l ++ l')).map Prod.fst := by
    intro l
    induction l with
    | nil => intro k; simp [Filtre.suite]
    | cons o l ih =>
      intro k
      simp only [List.cons_append, Filtre.suite]
      cases Filtre.step s k o.1 o.2 with
      | none => rfl
      | some k' =>
        simp only [Option.bind_some]
        have := ih k'
        cases h : Filtre.suite s k' l with
        | none =>
          rw [h] at this
          simp only [Option.bind_none] at this
          simp only [Option.map_none, Option.bind_none, Option.map_map]
          rw [eq_comm, Option.map_eq_none_iff] at this
          rw [this]; rfl
        | some r =>
          rw [h] at this
          simp only [Option.bind_some] at this
          simp only [Option.map_some, Option.bind_some, Option.map_map]
          rw [this]
          rfl
  have h := this l k
  cases hs : Filtre.suite s k l with
  | none =>
    rw [hs] at h
    rw [Option.bind_none, eq_comm, Option.map_eq_none_iff] at h
    simp [h]
  | some r =>
    rw [hs] at h
    simp only [Option.bind_some] at h
    simp only [Option.map_some, Option.bind_some, Option.map_map]
    exact h

/-- Non-vacuity: the two-dimensional random walk with its default covariances. -/
example : (Ssm.marche none none : Ssm (Fin 2) (Fin 2) (Fin 0)).Q = some 1 ∧ (Ssm.marche none none : Ssm (Fin 2) (Fin 2) (Fin 0)).R = some 1 ∧ (1 : Matrix (Fin 2) (Fin 2) ℝ).PosSemidef ∧ (1 : Matrix (Fin 2) (Fin 2) ℝ).PosDef ∧
    (Filtre.cree none none : Filtre (Fin 2)).P.PosSemidef := ⟨rfl, rfl, Matrix.PosSemidef.one, Matrix.PosDef.one, Matrix.PosSemidef.one⟩

end Verif.Kalman
