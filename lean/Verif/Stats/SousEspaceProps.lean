/-
C161: subspace spectrum (MUSIC).

Specification: covariance matrix of `Ns` sources and white noise (`covSources`), squared distance to the signal space, frequencies modulo 1.
-/
import Verif.Stats.SousEspace
import Verif.Signaux.Props
import Mathlib.LinearAlgebra.Matrix.PosDef
import Mathlib.LinearAlgebra.Matrix.Rank
import Mathlib.LinearAlgebra.Lagrange
import Mathlib.Data.List.GetD

namespace Verif.Stats
open Matrix
open scoped ComplexOrder

variable {m n : ℕ}

/-! ## Specification -/

/-- Covariance matrix of `n` uncorrelated sources of powers `p`, received by the vectors that are the columns of `A`, in a white noise of power `σ2`. -/
def covSources (A : Matrix (Fin m) (Fin n) ℂ) (p : Fin n → ℝ) (σ2 : ℝ) : Matrix (Fin m) (Fin m) ℂ :=
  A * Matrix.diagonal (fun s => (p s : ℂ)) * Aᴴ + (σ2 : ℂ) • (1 : Matrix (Fin m) (Fin m) ℂ)

/-- Squared norm. -/
noncomputable def norme2 (v : Fin m → ℂ) : ℝ := ∑ i, ‖v i‖ ^ 2

/-! ## Orthonormal basis -/

theorem norme2_dot (v : Fin m → ℂ) : ((norme2 v : ℝ) : ℂ) = star v ⬝ᵥ v := by
  unfold norme2 dotProduct
  push_cast
  apply Finset.sum_congr rfl
  intro i _
  rw [Pi.star_apply, Complex.star_def, mul_comm, Complex.mul_conj, Complex.normSq_eq_norm_sq]
  push_cast
  rfl

/-- The matrix of the eigenvectors. -/
def matV (e : Propres m) : Matrix (Fin m) (Fin m) ℂ := Matrix.of fun i j => e.vec j i

theorem matV_unitaire {R : Matrix (Fin m) (Fin m) ℂ} {e : Propres m} (he : EstPropres R e) : (matV e)ᴴ * matV e = 1 ∧ matV e * (matV e)ᴴ = 1 := by
  have h : (matV e)ᴴ * matV e = 1 := by
    ext j k
    rw [Matrix.mul_apply, Matrix.one_apply, ← he.ortho j k]
    rfl
  exact ⟨h, mul_eq_one_comm.1 h⟩

/-- Expansion on the eigenvectors. -/
theorem developpe {R : Matrix (Fin m) (Fin m) ℂ} {e : Propres m} (he : EstPropres R e) (v : Fin m → ℂ) : v = ∑ j, (star (e.vec j) ⬝ᵥ v) • e.vec j := by
  have h := (matV_unitaire he).2
  have h2 : matV e *ᵥ ((matV e)ᴴ *ᵥ v) = v := by rw [Matrix.mulVec_mulVec, h, Matrix.one_mulVec]
  conv_lhs => rw [← h2]
  ext i
  rw [Matrix.mulVec, dotProduct, Finset.sum_apply]
  apply Finset.sum_congr rfl
  intro j _
  rw [Pi.smul_apply, smul_eq_mul, mul_comm]
  rfl

theorem dot_conj (u v : Fin m → ℂ) : star u ⬝ᵥ v = star (star v ⬝ᵥ u) := by
  rw [Matrix.star_dotProduct]

theorem norme_dot (u v : Fin m → ℂ) : ‖star u ⬝ᵥ v‖ = ‖star v ⬝ᵥ u‖ := by
  rw [dot_conj, norm_star]

/-- Parseval. -/
theorem parseval {R : Matrix (Fin m) (Fin m) ℂ} {e : Propres m} (he : EstPropres R e) (v : Fin m → ℂ) : norme2 v = ∑ j, ‖star v ⬝ᵥ e.vec j‖ ^ 2 := by
  have h : ((norme2 v : ℝ) : ℂ) = ((∑ j, ‖star v ⬝ᵥ e.vec j‖ ^ 2 : ℝ) : ℂ) := by
    rw [norme2_dot]
    conv_lhs => rw [developpe he v, ← developpe he v]
    conv_lhs => arg 2; rw [developpe he v]
    rw [dotProduct_sum]
    push_cast
    apply Finset.sum_congr rfl
    intro j _
    rw [dotProduct_smul, smul_eq_mul, dot_conj (e.vec j) v, mul_comm, Complex.star_def, Complex.mul_conj, Complex.normSq_eq_norm_sq]
    push_cast
    rfl
  exact_mod_cast h

/-! ## Noise space and signal space -/

theorem mulVec_diag (A : Matrix (Fin m) (Fin n) ℂ) (p : Fin n → ℝ) (σ2 : ℝ) (v : Fin m → ℂ) :
    covSources A p σ2 *ᵥ v = A *ᵥ (fun s => (p s : ℂ) * (Aᴴ *ᵥ v) s) + (σ2 : ℂ) • v := by
  unfold covSources
  rw [Matrix.add_mulVec, Matrix.smul_mulVec, Matrix.one_mulVec, ← Matrix.mulVec_mulVec, ← Matrix.mulVec_mulVec]
  congr 2
  ext s
  rw [Matrix.mulVec_diagonal]

/-- The excess of an eigenvalue over the noise is the power received from the sources. -/
theorem exces {A : Matrix (Fin m) (Fin n) ℂ} {p : Fin n → ℝ} {σ2 : ℝ} {e : Propres m} (he : EstPropres (covSources A p σ2) e) (j : Fin m) :
    e.val j - σ2 = ∑ s, p s * ‖(Aᴴ *ᵥ e.vec j) s‖ ^ 2 := by
  have h := he.propre j
  rw [mulVec_diag] at h
  have h2 := congrArg (fun w => star (e.vec j) ⬝ᵥ w) h
  simp only [dotProduct_add, dotProduct_smul, he.ortho, if_true, smul_eq_mul, mul_one] at h2
  have h3 : star (e.vec j) ⬝ᵥ A *ᵥ (fun s => (p s : ℂ) * (Aᴴ *ᵥ e.vec j) s) = ((∑ s, p s * ‖(Aᴴ *ᵥ e.vec j) s‖ ^ 2 : ℝ) : ℂ) := by
    rw [Matrix.dotProduct_mulVec]
    have : star (e.vec j) ᵥ* A = star (Aᴴ *ᵥ e.vec j) := by rw [Matrix.star_mulVec, Matrix.conjTranspose_conjTranspose]
    rw [this, dotProduct]
    push_cast
    apply Finset.sum_congr rfl
    intro s _
    rw [Pi.star_apply, Complex.star_def, mul_left_comm, mul_comm ((starRingEnd ℂ) _), Complex.mul_conj, Complex.normSq_eq_norm_sq]
    push_cast
    rfl
  rw [h3] at h2
  have h4 : (((∑ s, p s * ‖(Aᴴ *ᵥ e.vec j) s‖ ^ 2) + σ2 : ℝ) : ℂ) = ((e.val j : ℝ) : ℂ) := by
    rw [← h2]
    push_cast
    rfl
  have h5 : (∑ s, p s * ‖(Aᴴ *ᵥ e.vec j) s‖ ^ 2) + σ2 = e.val j := by exact_mod_cast h4
  linarith

/-- Upper sets of `Fin m`. -/
theorem haut_cardinal (T : Finset (Fin m)) (hT : ∀ j ∈ T, ∀ k, j ≤ k → k ∈ T) (j : Fin m) : j ∈ T ↔ m - T.card ≤ j.val := by
  have hsub : T ⊆ Finset.univ.filter fun k : Fin m => m - T.card ≤ k.val := by
    intro j hj
    rw [Finset.mem_filter]
    refine ⟨Finset.mem_univ _, ?_⟩
    have h1 : Finset.Ici j ⊆ T := fun k hk => hT j hj k (Finset.mem_Ici.1 hk)
    have h2 := Finset.card_le_card h1
    rw [Fin.card_Ici] at h2
    omega
  have hle : T.card ≤ m := by simpa using Finset.card_le_univ T
  have hc : (Finset.univ.filter fun k : Fin m => m - T.card ≤ k.val).card ≤ T.card := by
    have h1 : (Finset.univ.filter fun k : Fin m => m - T.card ≤ k.val).card = (Finset.univ.filter fun k : Fin m => ¬ k.val < m - T.card).card := by
      congr 1
      ext k
      simp
    have h2 := Finset.card_filter_add_card_filter_not (s := (Finset.univ : Finset (Fin m))) (fun k : Fin m => k.val < m - T.card)
    have h3 : (Finset.univ.filter fun k : Fin m => k.val < m - T.card).card = m - T.card := by
      rw [Fin.card_filter_val_lt]
      omega
    rw [Finset.card_univ, Fintype.card_fin] at h2
    omega
  have := Finset.eq_of_subset_of_card_le hsub hc
  constructor
  · intro h
    rw [this] at h
    exact (Finset.mem_filter.1 h).2
  · intro h
    rw [this]
    exact Finset.mem_filter.2 ⟨Finset.mem_univ _, h⟩

/-- The number of eigenvalues above the noise is the number of sources. -/
theorem nombre_signal {A : Matrix (Fin m) (Fin n) ℂ} (hA : ∀ w, A *ᵥ w = 0 → w = 0) {p : Fin n → ℝ} (hp : ∀ s, 0 < p s) {σ2 : ℝ} {e : Propres m}
    (he : EstPropres (covSources A p σ2) e) : (Finset.univ.filter fun j => e.val j ≠ σ2).card = n := by
  obtain ⟨hV1, hV2⟩ := matV_unitaire he
  -- diagonalisation
  have hd : A * Matrix.diagonal (fun s => (p s : ℂ)) * Aᴴ = matV e * Matrix.diagonal (fun j => ((e.val j - σ2 : ℝ) : ℂ)) * (matV e)ᴴ := by
    have h1 : (A * Matrix.diagonal (fun s => (p s : ℂ)) * Aᴴ) * matV e = matV e * Matrix.diagonal (fun j => ((e.val j - σ2 : ℝ) : ℂ)) := by
      ext i j
      have h2 := congrFun (he.propre j) i
      unfold covSources at h2
      rw [Matrix.add_mulVec, Matrix.smul_mulVec, Matrix.one_mulVec, Pi.add_apply, Pi.smul_apply, Pi.smul_apply, smul_eq_mul, smul_eq_mul] at h2
      rw [Matrix.mul_diagonal]
      show ((A * Matrix.diagonal (fun s => (p s : ℂ)) * Aᴴ) *ᵥ e.vec j) i = e.vec j i * _
      push_cast
      linear_combination h2
    rw [← h1, Matrix.mul_assoc _ (matV e), hV2, Matrix.mul_one]
  have hu : IsUnit (matV e) := ⟨⟨matV e, (matV e)ᴴ, hV2, hV1⟩, rfl⟩
  have hu' : IsUnit (matV e)ᴴ := ⟨⟨(matV e)ᴴ, matV e, hV1, hV2⟩, rfl⟩
  have hr : (A * Matrix.diagonal (fun s => (p s : ℂ)) * Aᴴ).rank = (Finset.univ.filter fun j => e.val j ≠ σ2).card := by
    rw [hd, Matrix.rank_mul_eq_left_of_isUnit_det _ _ ((Matrix.isUnit_iff_isUnit_det _).1 hu'), Matrix.rank_mul_eq_right_of_isUnit_det _ _ ((Matrix.isUnit_iff_isUnit_det _).1 hu), Matrix.rank_diagonal]
    rw [Fintype.card_subtype]
    congr 1
    ext j
    simp only [Finset.mem_filter, Finset.mem_univ, true_and, ne_eq, Complex.ofReal_eq_zero, sub_eq_zero]
  rw [← hr]
  -- square root of the powers
  have hB : A * Matrix.diagonal (fun s => (p s : ℂ)) * Aᴴ = (A * Matrix.diagonal (fun s => (Real.sqrt (p s) : ℂ))) * (A * Matrix.diagonal (fun s => (Real.sqrt (p s) : ℂ)))ᴴ := by
    rw [Matrix.conjTranspose_mul, Matrix.diagonal_conjTranspose, ← Matrix.mul_assoc, Matrix.mul_assoc A (Matrix.diagonal fun s => (Real.sqrt (p s) : ℂ)), Matrix.diagonal_mul_diagonal]
    congr 3
    ext s
    rw [Pi.star_apply, Complex.star_def, Complex.conj_ofReal, ← Complex.ofReal_mul, Real.mul_self_sqrt (hp s).le]
  rw [hB, Matrix.rank_self_mul_conjTranspose, Matrix.rank_mul_eq_left_of_isUnit_det]
  · have hinj : Function.Injective A.mulVecLin := by
      rw [← LinearMap.ker_eq_bot, LinearMap.ker_eq_bot']
      exact hA
    unfold Matrix.rank
    rw [LinearMap.finrank_range_of_inj hinj, Module.finrank_fin_fun]
  · rw [Matrix.det_diagonal, isUnit_iff_ne_zero, Finset.prod_ne_zero_iff]
    intro s _
    exact_mod_cast (Real.sqrt_pos.2 (hp s)).ne'

/-- The first `m - n` eigenvectors are those of the noise. -/
theorem bruit_ou_signal {A : Matrix (Fin m) (Fin n) ℂ} (hA : ∀ w, A *ᵥ w = 0 → w = 0) {p : Fin n → ℝ} (hp : ∀ s, 0 < p s) {σ2 : ℝ} {e : Propres m}
    (he : EstPropres (covSources A p σ2) e) (j : Fin m) : (j.val < m - n → Aᴴ *ᵥ e.vec j = 0) ∧ (¬ j.val < m - n → ∃ w, e.vec j = A *ᵥ w) := by
  have hge : ∀ j, σ2 ≤ e.val j := by
    intro j
    have := exces he j
    have h2 : 0 ≤ ∑ s, p s * ‖(Aᴴ *ᵥ e.vec j) s‖ ^ 2 := Finset.sum_nonneg fun s _ => mul_nonneg (hp s).le (sq_nonneg _)
    linarith
  have hc := haut_cardinal (Finset.univ.filter fun j => e.val j ≠ σ2) (fun j hj k hjk => by
    rw [Finset.mem_filter] at hj ⊢
    refine ⟨Finset.mem_univ _, ?_⟩
    have h1 := he.mono hjk
    have h2 := lt_of_le_of_ne (hge j) (Ne.symm hj.2)
    exact (lt_of_lt_of_le h2 h1).ne') j
  rw [nombre_signal hA hp he, Finset.mem_filter] at hc
  simp only [Finset.mem_univ, true_and] at hc
  refine ⟨fun hj => ?_, fun hj => ?_⟩
  · have h0 : e.val j = σ2 := by
      by_contra h
      have := hc.1 h
      omega
    have h1 := exces he j
    rw [h0, sub_self] at h1
    have h2 := (Finset.sum_eq_zero_iff_of_nonneg (fun s _ => mul_nonneg (hp s).le (sq_nonneg ‖(Aᴴ *ᵥ e.vec j) s‖))).1 h1.symm
    ext s
    have h3 := h2 s (Finset.mem_univ _)
    have h4 : ‖(Aᴴ *ᵥ e.vec j) s‖ ^ 2 = 0 := by
      rcases mul_eq_zero.1 h3 with h | h
      · exact absurd h (hp s).ne'
      · exact h
    simpa using h4
  · have h0 : e.val j ≠ σ2 := hc.2 (by omega)
    have h1 := he.propre j
    rw [mulVec_diag] at h1
    have hne : ((e.val j : ℂ) - σ2) ≠ 0 := by
      rw [sub_ne_zero]
      exact_mod_cast h0
    refine ⟨(((e.val j : ℂ) - σ2)⁻¹) • fun s => (p s : ℂ) * (Aᴴ *ᵥ e.vec j) s, ?_⟩
    rw [Matrix.mulVec_smul, eq_sub_of_add_eq h1, ← sub_smul, smul_smul, inv_mul_cancel₀ hne, one_smul]

theorem dot_image (A : Matrix (Fin m) (Fin n) ℂ) (w : Fin n → ℂ) (u : Fin m → ℂ) (h : Aᴴ *ᵥ u = 0) : star (A *ᵥ w) ⬝ᵥ u = 0 := by
  rw [Matrix.star_mulVec, ← Matrix.dotProduct_mulVec, h, dotProduct_zero]

/-- **C161 (distance).** If the covariance matrix is that of `n` sources (independent received vectors, positive powers) in a white noise, the denominator of the spectrum for a test vector `v` is, whatever the choice
of the eigenvectors, the squared distance of `v` to the space of the vectors received from the sources. -/
theorem C161_distance {A : Matrix (Fin m) (Fin n) ℂ} (hA : ∀ w, A *ᵥ w = 0 → w = 0) {p : Fin n → ℝ} (hp : ∀ s, 0 < p s) {σ2 : ℝ} {e : Propres m}
    (he : EstPropres (covSources A p σ2) e) (v : Fin m → ℂ) : (∀ w, partBruit e n v ≤ norme2 (v - A *ᵥ w)) ∧ ∃ w, partBruit e n v = norme2 (v - A *ᵥ w) := by
  have hb := fun j => bruit_ou_signal hA hp he j
  have key : ∀ w (j : Fin m), j.val < m - n → star (v - A *ᵥ w) ⬝ᵥ e.vec j = star v ⬝ᵥ e.vec j := by
    intro w j hj
    rw [star_sub, sub_dotProduct, dot_image A w _ ((hb j).1 hj), sub_zero]
  refine ⟨fun w => ?_, ?_⟩
  · rw [parseval he]
    unfold partBruit
    apply Finset.sum_le_sum
    intro j _
    split
    · rename_i hj
      rw [key w j hj]
    · positivity
  · have hw : ∀ j : Fin m, ∃ w, ¬ j.val < m - n → e.vec j = A *ᵥ w := by
      intro j
      by_cases hj : j.val < m - n
      · exact ⟨0, fun h => absurd hj h⟩
      · obtain ⟨w, h⟩ := (hb j).2 hj
        exact ⟨w, fun _ => h⟩
    choose w hw using hw
    refine ⟨∑ j, (if j.val < m - n then (0 : ℂ) else star (e.vec j) ⬝ᵥ v) • w j, ?_⟩
    have hAw : A *ᵥ (∑ j, (if j.val < m - n then (0 : ℂ) else star (e.vec j) ⬝ᵥ v) • w j) = ∑ j, (if j.val < m - n then (0 : ℂ) else star (e.vec j) ⬝ᵥ v) • e.vec j := by
      rw [Matrix.mulVec_sum]
      apply Finset.sum_congr rfl
      intro j _
      rw [Matrix.mulVec_smul]
      split
      · rw [zero_smul, zero_smul]
      · rename_i hj
        rw [← hw j hj]
    rw [parseval he]
    unfold partBruit
    apply Finset.sum_congr rfl
    intro j _
    split
    · rename_i hj
      rw [key _ j hj]
    · rename_i hj
      rw [hAw]
      have h1 : star (e.vec j) ⬝ᵥ (v - ∑ k, (if k.val < m - n then (0 : ℂ) else star (e.vec k) ⬝ᵥ v) • e.vec k) = 0 := by
        rw [dotProduct_sub, dotProduct_sum, Finset.sum_eq_single j]
        · rw [if_neg hj, dotProduct_smul, he.ortho, if_pos rfl, smul_eq_mul, mul_one, sub_self]
        · intro k _ hk
          rw [dotProduct_smul, he.ortho, if_neg (Ne.symm hk), smul_zero]
        · intro h
          exact absurd (Finset.mem_univ _) h
      rw [norme_dot, h1]
      simp

theorem norme2_zero (v : Fin m → ℂ) : norme2 v = 0 ↔ v = 0 := by
  unfold norme2
  rw [Finset.sum_eq_zero_iff_of_nonneg (fun i _ => sq_nonneg ‖v i‖)]
  constructor
  · intro h
    ext i
    simpa using h i (Finset.mem_univ _)
  · rintro rfl i _
    simp

theorem partBruit_nul {A : Matrix (Fin m) (Fin n) ℂ} (hA : ∀ w, A *ᵥ w = 0 → w = 0) {p : Fin n → ℝ} (hp : ∀ s, 0 < p s) {σ2 : ℝ} {e : Propres m}
    (he : EstPropres (covSources A p σ2) e) (v : Fin m → ℂ) : partBruit e n v = 0 ↔ ∃ w, v = A *ᵥ w := by
  obtain ⟨h1, w, h2⟩ := C161_distance hA hp he v
  constructor
  · intro h
    rw [h] at h2
    exact ⟨w, sub_eq_zero.1 ((norme2_zero _).1 h2.symm)⟩
  · rintro ⟨w', rfl⟩
    have := h1 w'
    rw [sub_self, (norme2_zero 0).2 rfl] at this
    exact le_antisymm this (Finset.sum_nonneg fun j _ => by split <;> positivity)

/-! ## Complex exponentials -/

/-- The test vector of frequency `f`. -/
noncomputable def expo (f : ℝ) (m : ℕ) : Fin m → ℂ := fun k => Complex.exp ((f * 2 * Real.pi : ℝ) * Complex.I) ^ k.val

theorem exponentielle_eq (f : ℝ) (m : ℕ) : exponentielle f m = some (expo f m) := by
  unfold exponentielle Signaux.sigexp
  rw [Signaux.sigexpExterne_eq _ (Complex.norm_exp_ofReal_mul_I _) m m 1 (by simp) le_rfl, Option.map_some]
  congr 1
  ext k
  unfold expo
  rw [List.getD_eq_getElem?_getD, List.getElem?_map, List.getElem?_range k.isLt]
  simp

theorem egal_mod (f g : ℝ) : Complex.exp ((f * 2 * Real.pi : ℝ) * Complex.I) = Complex.exp ((g * 2 * Real.pi : ℝ) * Complex.I) ↔ ∃ z : ℤ, f = g + z := by
  rw [Complex.exp_eq_exp_iff_exists_int]
  constructor
  · rintro ⟨z, h⟩
    refine ⟨z, ?_⟩
    have h2 : (((f * 2 * Real.pi : ℝ) : ℂ)) = ((g * 2 * Real.pi + z * (2 * Real.pi) : ℝ) : ℂ) := by
      apply mul_right_cancel₀ Complex.I_ne_zero
      rw [h]
      push_cast
      ring
    have h3 : f * 2 * Real.pi = g * 2 * Real.pi + z * (2 * Real.pi) := by exact_mod_cast h2
    have hpi := Real.pi_pos
    have : (2 * Real.pi) * (f - (g + z)) = 0 := by linear_combination h3
    rcases mul_eq_zero.1 this with h | h
    · linarith
    · linarith
  · rintro ⟨z, rfl⟩
    exact ⟨z, by push_cast; ring⟩

/-- A relation between exponentials extends to polynomials. -/
theorem relation_poly (z : Fin n → ℂ) (w : Fin n → ℂ) (c z0 : ℂ) (h : ∀ k : Fin m, c * z0 ^ k.val = ∑ s, w s * z s ^ k.val) (q : Polynomial ℂ) (hq : q.natDegree < m) :
    c * q.eval z0 = ∑ s, w s * q.eval (z s) := by
  have h1 : ∀ x, q.eval x = ∑ k : Fin m, q.coeff k * x ^ k.val := by
    intro x
    rw [Polynomial.eval_eq_sum_range' hq, Finset.sum_range]
  simp only [h1, Finset.mul_sum]
  rw [Finset.sum_comm]
  apply Finset.sum_congr rfl
  intro k _
  have := h k
  rw [show c * (q.coeff k * z0 ^ k.val) = q.coeff k * (c * z0 ^ k.val) by ring, this, Finset.mul_sum]
  apply Finset.sum_congr rfl
  intro s _
  ring

/-- The matrix of the exponentials. -/
noncomputable def matExpo (f : Fin n → ℝ) (m : ℕ) : Matrix (Fin m) (Fin n) ℂ := Matrix.of fun k s => expo (f s) m k

theorem expo_independantes (f : Fin n → ℝ) (hf : ∀ s t, s ≠ t → ∀ z : ℤ, f s ≠ f t + z) (hn : n ≤ m) : ∀ w, matExpo f m *ᵥ w = 0 → w = 0 := by
  intro w hw
  ext s
  set z : Fin n → ℂ := fun s => Complex.exp ((f s * 2 * Real.pi : ℝ) * Complex.I) with hz
  have h : ∀ k : Fin m, (0 : ℂ) * 0 ^ k.val = ∑ t, w t * z t ^ k.val := by
    intro k
    have := congrFun hw k
    rw [zero_mul, ← (show (matExpo f m *ᵥ w) k = 0 from this), Matrix.mulVec, dotProduct]
    apply Finset.sum_congr rfl
    intro t _
    rw [mul_comm]
    rfl
  have hdeg : (∏ t ∈ Finset.univ.erase s, (Polynomial.X - Polynomial.C (z t))).natDegree < m := by
    rw [Polynomial.natDegree_finsetProd_X_sub_C_eq_card, Finset.card_erase_of_mem (Finset.mem_univ s), Finset.card_univ, Fintype.card_fin]
    have := s.pos
    omega
  have h2 := relation_poly z w 0 0 h _ hdeg
  rw [zero_mul, Finset.sum_eq_single s] at h2
  · rcases mul_eq_zero.1 h2.symm with h3 | h3
    · exact h3
    · exfalso
      rw [Polynomial.eval_prod, Finset.prod_eq_zero_iff] at h3
      obtain ⟨t, ht, h3⟩ := h3
      rw [Polynomial.eval_sub, Polynomial.eval_X, Polynomial.eval_C, sub_eq_zero] at h3
      obtain ⟨q, hq⟩ := (egal_mod _ _).1 h3
      exact hf s t (Ne.symm (Finset.ne_of_mem_erase ht)) q hq
  · intro t _ ht
    rw [Polynomial.eval_prod, Finset.prod_eq_zero (Finset.mem_erase.2 ⟨ht, Finset.mem_univ _⟩), mul_zero]
    simp
  · intro h
    exact absurd (Finset.mem_univ _) h

theorem expo_image (f : Fin n → ℝ) (hn : n < m) (g : ℝ) : (∃ w, expo g m = matExpo f m *ᵥ w) ↔ ∃ s, ∃ z : ℤ, g = f s + z := by
  constructor
  · rintro ⟨w, hw⟩
    by_contra hc
    set z : Fin n → ℂ := fun s => Complex.exp ((f s * 2 * Real.pi : ℝ) * Complex.I) with hz
    have h : ∀ k : Fin m, (1 : ℂ) * Complex.exp ((g * 2 * Real.pi : ℝ) * Complex.I) ^ k.val = ∑ t, w t * z t ^ k.val := by
      intro k
      have := congrFun hw k
      rw [one_mul]
      refine Eq.trans this ?_
      rw [Matrix.mulVec, dotProduct]
      apply Finset.sum_congr rfl
      intro t _
      rw [mul_comm]
      rfl
    have hdeg : (∏ t : Fin n, (Polynomial.X - Polynomial.C (z t))).natDegree < m := by
      rw [Polynomial.natDegree_finsetProd_X_sub_C_eq_card, Finset.card_univ, Fintype.card_fin]
      exact hn
    have h2 := relation_poly z w 1 _ h _ hdeg
    rw [one_mul, Finset.sum_eq_zero] at h2
    · rw [Polynomial.eval_prod, Finset.prod_eq_zero_iff] at h2
      obtain ⟨s, -, h3⟩ := h2
      rw [Polynomial.eval_sub, Polynomial.eval_X, Polynomial.eval_C, sub_eq_zero] at h3
      obtain ⟨q, hq⟩ := (egal_mod _ _).1 h3
      exact hc ⟨s, q, hq⟩
    · intro t _
      rw [Polynomial.eval_prod, Finset.prod_eq_zero (Finset.mem_univ t), mul_zero]
      simp
  · rintro ⟨s, z, rfl⟩
    refine ⟨Pi.single s 1, ?_⟩
    rw [Matrix.mulVec_single_one]
    ext k
    show Complex.exp _ ^ k.val = Complex.exp _ ^ k.val
    rw [(egal_mod (f s + z) (f s)).2 ⟨z, rfl⟩]

end Verif.Stats
