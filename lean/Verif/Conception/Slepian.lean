import Verif.Divers.Model
import Mathlib.Analysis.Real.Pi.Bounds
import Mathlib.Analysis.SpecialFunctions.Integrals.Basic
import Mathlib.Analysis.Matrix.Spectrum
import Mathlib.LinearAlgebra.Matrix.DotProduct
import Mathlib.LinearAlgebra.Matrix.NonsingularInverse
import Mathlib.Data.Fin.Tuple.Sort

/-!
# C204: the Slepian window has the greatest share of energy in the requested band (core/src/fenetres.cc)

Exact real arithmetic. The eigenvalue solver of Eigen is a parameter, with its documented guarantees.
-/

namespace Verif.Conception
open Matrix

/-! ## Model -/

/-- `slepian_matrice(N, B)`, core/src/fenetres.cc:314-328. -/
noncomputable def slepianMatrice (N : ℕ) (B : ℝ) : Matrix (Fin N) (Fin N) ℝ := Matrix.of fun i j => Real.pi * B * Divers.sinc1 (((i : ℝ) - j) * B)

/-- What `Eigen::SelfAdjointEigenSolver` returns for a real matrix of dimension `N`, core/src/fenetres.cc:330-336: the eigenvalues and the columns of the matrix of eigenvectors. -/
structure PropresReels (N : ℕ) where
  val : Fin N → ℝ
  vec : Fin N → Fin N → ℝ

/-- The documented guarantees of the solver: eigenvalues sorted in increasing order, orthonormal eigenvectors. -/
structure EstPropresReels {N : ℕ} (X : Matrix (Fin N) (Fin N) ℝ) (e : PropresReels N) : Prop where
  mono : Monotone e.val
  ortho : ∀ j k, e.vec j ⬝ᵥ e.vec k = (if j = k then 1 else 0)
  propre : ∀ j, X *ᵥ e.vec j = e.val j • e.vec j

/-- `fenêtre_slepian(N, B)`, core/src/fenetres.cc:338-341, from the result `e` of the solver for `slepian_matrice(N, B)`: `slepian_evec(N,B).col(N-1)`. -/
def fenetreSlepian {N : ℕ} (e : PropresReels N) : Option (Fin N → ℝ) := if h : 0 < N then some (e.vec ⟨N - 1, by omega⟩) else none

/-! ## Specification -/

/-- Spectrum of the window `w` at the normalised frequency `f`. -/
noncomputable def spectreFenetre {N : ℕ} (w : Fin N → ℝ) (f : ℝ) : ℂ := ∑ k, (w k : ℂ) * Complex.exp (((-(2 * Real.pi * f * (k : ℕ)) : ℝ) : ℂ) * Complex.I)

/-- Energy of the window in the band of width `B` around 0. -/
noncomputable def energieBande {N : ℕ} (B : ℝ) (w : Fin N → ℝ) : ℝ := ∫ f in (-(B / 2))..(B / 2), ‖spectreFenetre w f‖ ^ 2

/-- Total energy. -/
def energieFenetre {N : ℕ} (w : Fin N → ℝ) : ℝ := ∑ k, w k ^ 2

/-! ## Proofs -/

theorem spectre_carre {N : ℕ} (w : Fin N → ℝ) (f : ℝ) : ‖spectreFenetre w f‖ ^ 2 = ∑ i, ∑ j, w i * w j * Real.cos (2 * Real.pi * ((i : ℝ) - j) * f) := by
  have hre : (spectreFenetre w f).re = ∑ k, w k * Real.cos (2 * Real.pi * f * (k : ℕ)) := by
    unfold spectreFenetre
    rw [Complex.re_sum]
    exact Finset.sum_congr rfl fun k _ => by rw [Complex.re_ofReal_mul, Complex.exp_ofReal_mul_I_re, Real.cos_neg]
  have him : (spectreFenetre w f).im = -∑ k, w k * Real.sin (2 * Real.pi * f * (k : ℕ)) := by
    unfold spectreFenetre
    rw [Complex.im_sum, ← Finset.sum_neg_distrib]
    exact Finset.sum_congr rfl fun k _ => by rw [Complex.im_ofReal_mul, Complex.exp_ofReal_mul_I_im, Real.sin_neg, mul_neg]
  rw [← Complex.normSq_eq_norm_sq, Complex.normSq_apply, hre, him, neg_mul_neg, Finset.sum_mul_sum, Finset.sum_mul_sum, ← Finset.sum_add_distrib]
  refine Finset.sum_congr rfl fun i _ => ?_
  rw [← Finset.sum_add_distrib]
  refine Finset.sum_congr rfl fun j _ => ?_
  rw [show 2 * Real.pi * ((i : ℝ) - j) * f = 2 * Real.pi * f * (i : ℕ) - 2 * Real.pi * f * (j : ℕ) by ring, Real.cos_sub]
  ring

theorem integrale_cos (c B : ℝ) (hc : c ≠ 0) : ∫ f in (-(B / 2))..(B / 2), Real.cos (c * f) = 2 * Real.sin (c * (B / 2)) / c := by
  rw [intervalIntegral.integral_comp_mul_left (fun x => Real.cos x) hc, integral_cos, mul_neg, Real.sin_neg, smul_eq_mul, sub_neg_eq_add, ← two_mul, inv_mul_eq_div]

theorem noyau (i j : ℕ) (B : ℝ) (hB : 1e-7 ≤ B) : ∫ f in (-(B / 2))..(B / 2), Real.cos (2 * Real.pi * ((i : ℝ) - j) * f) = B * Divers.sinc1 (((i : ℝ) - j) * B) := by
  have hpi := Real.pi_gt_three
  have hB0 : 0 < B := lt_of_lt_of_le (by norm_num) hB
  by_cases h : i = j
  · subst h
    simp [Divers.sinc1, Divers.sinc]
  · have hd : (i : ℝ) - j ≠ 0 := by
      rw [sub_ne_zero]
      exact_mod_cast h
    have hd1 : 1 ≤ |(i : ℝ) - j| := by
      have : (1 : ℤ) ≤ |(i : ℤ) - j| := Int.one_le_abs (by omega)
      exact_mod_cast this
    rw [integrale_cos _ _ (by positivity)]
    simp only [Divers.sinc1, Divers.sinc]
    have hge : ¬ |Real.pi * 1 * (((i : ℝ) - j) * B)| < 1 / 10 ^ 7 := by
      rw [mul_one, abs_mul, abs_mul, abs_of_pos Real.pi_pos, abs_of_pos hB0, not_lt]
      have : B ≤ |(i : ℝ) - j| * B := by nlinarith
      norm_num at hB ⊢
      nlinarith
    rw [if_neg hge, show 2 * Real.pi * ((i : ℝ) - j) * (B / 2) = Real.pi * 1 * (((i : ℝ) - j) * B) by ring]
    field_simp

theorem sinc1_neg (t : ℝ) : Divers.sinc1 (-t) = Divers.sinc1 t := by
  simp only [Divers.sinc1, Divers.sinc, mul_neg, abs_neg, Real.sin_neg, neg_div_neg_eq]

/-- The quadratic form of the matrix is the energy in the band, up to the factor `π`. -/
theorem forme_quadratique {N : ℕ} (w : Fin N → ℝ) (B : ℝ) (hB : 1e-7 ≤ B) : w ⬝ᵥ (slepianMatrice N B *ᵥ w) = Real.pi * energieBande B w := by
  unfold energieBande
  simp only [spectre_carre]
  rw [intervalIntegral.integral_finsetSum (fun i _ => (Continuous.intervalIntegrable (by fun_prop) _ _)), Finset.mul_sum]
  unfold dotProduct mulVec
  refine Finset.sum_congr rfl fun i _ => ?_
  rw [intervalIntegral.integral_finsetSum (fun i _ => (Continuous.intervalIntegrable (by fun_prop) _ _)), Finset.mul_sum]
  unfold dotProduct
  rw [Finset.mul_sum]
  refine Finset.sum_congr rfl fun j _ => ?_
  rw [intervalIntegral.integral_const_mul, noyau i j B hB]
  simp only [slepianMatrice, Matrix.of_apply]
  ring

theorem decomposition {N : ℕ} {X : Matrix (Fin N) (Fin N) ℝ} {e : PropresReels N} (he : EstPropresReels X e) (v : Fin N → ℝ) :
    v ⬝ᵥ (X *ᵥ v) = ∑ j, e.val j * (e.vec j ⬝ᵥ v) ^ 2 ∧ energieFenetre v = ∑ j, (e.vec j ⬝ᵥ v) ^ 2 := by
  set U : Matrix (Fin N) (Fin N) ℝ := Matrix.of fun i j => e.vec j i with hU
  have h1 : Uᵀ * U = 1 := by
    ext j k
    rw [Matrix.one_apply, ← he.ortho j k, Matrix.mul_apply]
    rfl
  have h2 : U * Uᵀ = 1 := mul_eq_one_comm.1 h1
  have hc : ∀ j, (Uᵀ *ᵥ v) j = e.vec j ⬝ᵥ v := fun j => rfl
  have hv : v = ∑ j, (e.vec j ⬝ᵥ v) • e.vec j := by
    have : v = U *ᵥ (Uᵀ *ᵥ v) := by rw [Matrix.mulVec_mulVec, h2, Matrix.one_mulVec]
    conv_lhs => rw [this]
    ext i
    rw [Finset.sum_apply]
    show ∑ j, U i j * (Uᵀ *ᵥ v) j = _
    refine Finset.sum_congr rfl fun j _ => ?_
    rw [hc j]
    simp [hU, mul_comm]
  constructor
  · have hX : X *ᵥ v = ∑ j, (e.vec j ⬝ᵥ v) • (e.val j • e.vec j) := by
      conv_lhs => rw [hv]
      rw [Matrix.mulVec_sum]
      refine Finset.sum_congr rfl fun j _ => ?_
      rw [Matrix.mulVec_smul, he.propre]
    rw [hX, dotProduct_sum]
    refine Finset.sum_congr rfl fun j _ => ?_
    rw [dotProduct_smul, dotProduct_smul, dotProduct_comm v, smul_eq_mul, smul_eq_mul]
    ring
  · have : energieFenetre v = v ⬝ᵥ v := by
      unfold energieFenetre dotProduct
      exact Finset.sum_congr rfl fun k _ => by ring
    rw [this]
    nth_rewrite 2 [hv]
    rw [dotProduct_sum]
    refine Finset.sum_congr rfl fun j _ => ?_
    rw [dotProduct_smul, dotProduct_comm v, smul_eq_mul]
    ring

/-- **C204.** The Slepian window of length `N` for the band of width `B` (at least 1e-7) has a unit energy, and no vector of the same energy has more energy in the band. Its share of energy in the band is the greatest
eigenvalue divided by `π`. -/
theorem C204_slepian {N : ℕ} (hN : 0 < N) (B : ℝ) (hB : 1e-7 ≤ B) (e : PropresReels N) (he : EstPropresReels (slepianMatrice N B) e) :
    ∃ w, fenetreSlepian e = some w ∧ energieFenetre w = 1 ∧ energieBande B w = e.val ⟨N - 1, by omega⟩ / Real.pi ∧ ∀ v : Fin N → ℝ, energieBande B v ≤ energieBande B w * energieFenetre v := by
  have hpi := Real.pi_pos
  set l : Fin N := ⟨N - 1, by omega⟩
  have h1 : energieFenetre (e.vec l) = 1 := by
    have := he.ortho l l
    rw [if_pos rfl] at this
    rw [← this]
    unfold energieFenetre dotProduct
    exact Finset.sum_congr rfl fun k _ => by ring
  have h2 : Real.pi * energieBande B (e.vec l) = e.val l := by
    rw [← forme_quadratique _ B hB, he.propre, dotProduct_smul, he.ortho, if_pos rfl, smul_eq_mul, mul_one]
  refine ⟨e.vec l, by simp [fenetreSlepian, hN, l], h1, by rw [← h2]; field_simp, fun v => ?_⟩
  obtain ⟨d1, d2⟩ := decomposition he v
  rw [forme_quadratique v B hB] at d1
  have : Real.pi * energieBande B v ≤ Real.pi * (energieBande B (e.vec l) * energieFenetre v) := by
    rw [d1, ← mul_assoc, h2, d2, Finset.mul_sum]
    refine Finset.sum_le_sum fun j _ => mul_le_mul_of_nonneg_right (he.mono ?_) (sq_nonneg _)
    show j.val ≤ N - 1
    omega
  exact le_of_mul_le_mul_left this hpi

/-- The solver has a result to return. -/
theorem slepian_existe (N : ℕ) (B : ℝ) : ∃ e : PropresReels N, EstPropresReels (slepianMatrice N B) e := by
  have hS : (slepianMatrice N B).IsHermitian := by
    ext i j
    simp only [Matrix.conjTranspose_apply, slepianMatrice, Matrix.of_apply, star_trivial]
    congr 1
    rw [show ((j : ℝ) - i) * B = -(((i : ℝ) - j) * B) by ring, sinc1_neg]
  have hmono := Tuple.monotone_sort hS.eigenvalues
  generalize Tuple.sort hS.eigenvalues = σ at hmono
  refine ⟨⟨hS.eigenvalues ∘ σ, fun j => (hS.eigenvectorBasis (σ j)).ofLp⟩, hmono, fun j k => ?_, fun j => ?_⟩
  · have h := (orthonormal_iff_ite.1 hS.eigenvectorBasis.orthonormal) (σ j) (σ k)
    rw [EuclideanSpace.inner_eq_star_dotProduct, dotProduct_comm] at h
    simp only [star_trivial] at h
    rw [h]
    by_cases hjk : j = k
    · rw [if_pos hjk, if_pos (by rw [hjk])]
    · rw [if_neg hjk, if_neg (fun h => hjk (σ.injective h))]
  · exact hS.mulVec_eigenvectorBasis (σ j)

/-- **C204 (sign).** The sign of the window is not determined: the opposite eigenvectors satisfy the same guarantees, so a caller cannot suppose that the window is positive. -/
theorem C204_signe {N : ℕ} (X : Matrix (Fin N) (Fin N) ℝ) (e : PropresReels N) (he : EstPropresReels X e) : EstPropresReels X ⟨e.val, fun j => -e.vec j⟩ :=
  ⟨he.mono, fun j k => by simpa using he.ortho j k, fun j => by rw [Matrix.mulVec_neg, he.propre, smul_neg]⟩

theorem slepian_retourne {N : ℕ} (B : ℝ) (i j : Fin N) : slepianMatrice N B i.rev j.rev = slepianMatrice N B i j := by
  simp only [slepianMatrice, Matrix.of_apply]
  congr 1
  have h : ((i.rev : ℕ) : ℝ) - (j.rev : ℕ) = -((i : ℝ) - j) := by
    rw [Fin.val_rev, Fin.val_rev, Nat.cast_sub (by omega), Nat.cast_sub (by omega)]
    push_cast
    ring
  rw [h, neg_mul, sinc1_neg]

/-- **C204 (symmetry).** When the greatest eigenvalue is simple, the window is symmetric or antisymmetric. -/
theorem C204_symetrie {N : ℕ} (hN : 0 < N) (B : ℝ) (e : PropresReels N) (he : EstPropresReels (slepianMatrice N B) e) (hs : ∀ j, e.val j = e.val ⟨N - 1, by omega⟩ → j = ⟨N - 1, by omega⟩) (w : Fin N → ℝ)
    (hw : fenetreSlepian e = some w) : (∀ k, w k.rev = w k) ∨ ∀ k, w k.rev = -w k := by
  set l : Fin N := ⟨N - 1, by omega⟩ with hl
  obtain rfl : e.vec l = w := by simpa [fenetreSlepian, hN] using hw
  set r : Fin N → ℝ := fun k => e.vec l k.rev with hr
  have hXr : slepianMatrice N B *ᵥ r = e.val l • r := by
    ext i
    have h := congrFun (he.propre l) i.rev
    show ∑ j, slepianMatrice N B i j * e.vec l j.rev = e.val l * e.vec l i.rev
    have h' : ∑ j, slepianMatrice N B i.rev j * e.vec l j = e.val l * e.vec l i.rev := h
    rw [← h', ← Equiv.sum_comp Fin.revPerm]
    exact Finset.sum_congr rfl fun j _ => by
      rw [Fin.revPerm_apply, Fin.rev_rev, ← slepian_retourne B i j.rev, Fin.rev_rev]
  -- orthogonal to the other eigenvectors
  have ho : ∀ j, j ≠ l → e.vec j ⬝ᵥ r = 0 := by
    intro j hj
    have hsym : ∀ a b : Fin N → ℝ, a ⬝ᵥ (slepianMatrice N B *ᵥ b) = (slepianMatrice N B *ᵥ a) ⬝ᵥ b := by
      intro a b
      rw [Matrix.dotProduct_mulVec, ← Matrix.mulVec_transpose]
      congr 2
      ext p q
      simp only [Matrix.transpose_apply, slepianMatrice, Matrix.of_apply]
      congr 1
      rw [show ((q : ℝ) - p) * B = -(((p : ℝ) - q) * B) by ring, sinc1_neg]
    have h := hsym (e.vec j) r
    rw [hXr, he.propre, dotProduct_smul, smul_dotProduct, smul_eq_mul, smul_eq_mul] at h
    have hne : e.val l - e.val j ≠ 0 := fun h0 => hj (hs j (by linarith))
    have : (e.val l - e.val j) * (e.vec j ⬝ᵥ r) = 0 := by linarith
    exact (mul_eq_zero.1 this).resolve_left hne
  obtain ⟨-, d⟩ := decomposition he r
  have hE : energieFenetre r = 1 := by
    have h1 := he.ortho l l
    rw [if_pos rfl] at h1
    rw [← h1]
    unfold energieFenetre dotProduct
    rw [← Equiv.sum_comp Fin.revPerm]
    exact Finset.sum_congr rfl fun k _ => by simp [hr, sq]
  rw [hE, Finset.sum_eq_single l (fun j _ hj => by rw [ho j hj]; ring) (by simp)] at d
  set c := e.vec l ⬝ᵥ r with hc
  have hrc : energieFenetre (r - c • e.vec l) = 0 := by
    have hx : energieFenetre (r - c • e.vec l) = energieFenetre r - 2 * c * (e.vec l ⬝ᵥ r) + c ^ 2 * (e.vec l ⬝ᵥ e.vec l) := by
      unfold energieFenetre dotProduct
      rw [Finset.mul_sum, Finset.mul_sum, ← Finset.sum_sub_distrib, ← Finset.sum_add_distrib]
      exact Finset.sum_congr rfl fun k _ => by simp; ring
    rw [hx, hE, he.ortho, if_pos rfl, ← hc]
    nlinarith
  have hz : ∀ k, r k = c * e.vec l k := by
    intro k
    have := (Finset.sum_eq_zero_iff_of_nonneg (fun k _ => sq_nonneg _)).1 hrc k (Finset.mem_univ k)
    have := pow_eq_zero_iff (two_ne_zero) |>.1 this
    simp at this
    linarith
  have hc2 : c = 1 ∨ c = -1 := by
    have : (c - 1) * (c + 1) = 0 := by nlinarith
    rcases mul_eq_zero.1 this with h | h
    · exact Or.inl (by linarith)
    · exact Or.inr (by linarith)
  rcases hc2 with h | h
  · exact Or.inl fun k => by have := hz k; rw [h, one_mul] at this; exact this
  · exact Or.inr fun k => by have := hz k; rw [h, neg_one_mul] at this; exact this

example : ∃ e : PropresReels 16, EstPropresReels (slepianMatrice 16 0.1) e ∧ ∃ w, fenetreSlepian e = some w ∧ energieFenetre w = 1 := by
  obtain ⟨e, he⟩ := slepian_existe 16 0.1
  obtain ⟨w, h1, h2, -⟩ := C204_slepian (by norm_num) 0.1 (by norm_num) e he
  exact ⟨e, he, w, h1, h2⟩

end Verif.Conception
