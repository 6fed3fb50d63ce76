import Verif.Geometrie.Model
import Mathlib.LinearAlgebra.Matrix.Adjugate
import Mathlib.Tactic.LinearCombination
import Mathlib.Analysis.Real.Pi.Bounds

/-!
# Rotations: quaternions and Cardan angles (C29, C53)
-/

namespace Verif.Geometrie

open Real Matrix

/-! ## Specification -/

/-- Rotation matrices: orthogonal, determinant 1. -/
def EstRotation (R : Matrix (Fin 3) (Fin 3) ℝ) : Prop := R * Rᵀ = 1 ∧ R.det = 1

/-- Unit quaternions. -/
def Quat.Unitaire (q : Quat) : Prop := q.w ^ 2 + q.x ^ 2 + q.y ^ 2 + q.z ^ 2 = 1

/-- The opposite quaternion (same rotation). -/
def Quat.oppose (q : Quat) : Quat := ⟨-q.w, -q.x, -q.y, -q.z⟩

/-! ## Entries of a rotation matrix -/

theorem rot_lignes {R : Matrix (Fin 3) (Fin 3) ℝ} (h : EstRotation R) (i j : Fin 3) :
    R i 0 * R j 0 + R i 1 * R j 1 + R i 2 * R j 2 = if i = j then 1 else 0 := by
  have := congrFun (congrFun h.1 i) j
  rw [Matrix.mul_apply, Fin.sum_univ_three, Matrix.one_apply] at this
  simpa using this

theorem rot_colonnes {R : Matrix (Fin 3) (Fin 3) ℝ} (h : EstRotation R) (i j : Fin 3) :
    R 0 i * R 0 j + R 1 i * R 1 j + R 2 i * R 2 j = if i = j then 1 else 0 := by
  have h1 : Rᵀ * R = 1 := mul_eq_one_comm.1 h.1
  have := congrFun (congrFun h1 i) j
  rw [Matrix.mul_apply, Fin.sum_univ_three, Matrix.one_apply] at this
  simpa using this

theorem rot_adj {R : Matrix (Fin 3) (Fin 3) ℝ} (h : EstRotation R) : R.adjugate = Rᵀ := by
  have h1 : R * R.adjugate = 1 := by rw [Matrix.mul_adjugate, h.2, one_smul]
  calc R.adjugate = (Rᵀ * R) * R.adjugate := by rw [mul_eq_one_comm.1 h.1, one_mul]
    _ = Rᵀ := by rw [Matrix.mul_assoc, h1, mul_one]

/-- The cofactors. -/
theorem rot_cof {R : Matrix (Fin 3) (Fin 3) ℝ} (h : EstRotation R) :
    R 0 0 = R 1 1 * R 2 2 - R 1 2 * R 2 1 ∧ R 1 1 = R 0 0 * R 2 2 - R 0 2 * R 2 0 ∧ R 2 2 = R 0 0 * R 1 1 - R 0 1 * R 1 0 ∧
    R 0 1 = R 1 2 * R 2 0 - R 1 0 * R 2 2 ∧ R 1 0 = R 0 2 * R 2 1 - R 0 1 * R 2 2 ∧
    R 0 2 = R 1 0 * R 2 1 - R 1 1 * R 2 0 ∧ R 2 0 = R 0 1 * R 1 2 - R 0 2 * R 1 1 ∧
    R 1 2 = R 0 1 * R 2 0 - R 0 0 * R 2 1 ∧ R 2 1 = R 0 2 * R 1 0 - R 0 0 * R 1 2 := by
  have e := fun i j => congrFun (congrFun (rot_adj h) i) j
  rw [Matrix.adjugate_fin_three] at e
  have e00 := e 0 0
  have e11 := e 1 1
  have e22 := e 2 2
  have e01 := e 1 0
  have e10 := e 0 1
  have e02 := e 2 0
  have e20 := e 0 2
  have e12 := e 2 1
  have e21 := e 1 2
  simp [Matrix.transpose_apply] at e00 e11 e22 e01 e10 e02 e20 e12 e21
  refine ⟨?_, ?_, ?_, ?_, ?_, ?_, ?_, ?_, ?_⟩ <;> linarith

/-! ## C29 -/

/-- C29: `rotate(x)` is the product by the rotation matrix, for every quaternion and vector. -/
theorem C29_rotation (q : Quat) (x : Fin 3 → ℝ) : q.rotate x = q.rotMat *ᵥ x := by
  funext i
  fin_cases i <;> simp [Quat.rotate, Quat.rotMat, croix, Matrix.mulVec, dotProduct, Fin.sum_univ_three] <;> ring

theorem rotMat_transpose (q : Quat) : q.inv.rotMat = q.rotMatᵀ := by
  ext i j
  fin_cases i <;> fin_cases j <;> simp [Quat.rotMat, Quat.inv] <;> ring

/-- C29: the matrix of a unit quaternion is a rotation matrix. -/
theorem C29_orthogonale (q : Quat) (h : q.Unitaire) : EstRotation q.rotMat := by
  unfold Quat.Unitaire at h
  have hw : q.w ^ 2 = 1 - q.x ^ 2 - q.y ^ 2 - q.z ^ 2 := by linarith
  refine ⟨?_, ?_⟩
  · ext i j
    rw [Matrix.mul_apply, Fin.sum_univ_three]
    fin_cases i <;> fin_cases j <;> simp [Quat.rotMat]
    · linear_combination 4 * (q.y ^ 2 + q.z ^ 2) * h
    · linear_combination (-4) * (q.x * q.y) * h
    · linear_combination (-4) * (q.x * q.z) * h
    · linear_combination (-4) * (q.x * q.y) * h
    · linear_combination 4 * (q.x ^ 2 + q.z ^ 2) * h
    · linear_combination (-4) * (q.y * q.z) * h
    · linear_combination (-4) * (q.x * q.z) * h
    · linear_combination (-4) * (q.y * q.z) * h
    · linear_combination 4 * (q.x ^ 2 + q.y ^ 2) * h
  · rw [Matrix.det_fin_three]
    simp [Quat.rotMat]
    linear_combination 4 * (q.x ^ 2 + q.y ^ 2 + q.z ^ 2) * h

/-- C29: `inv` undoes the rotation of a unit quaternion, on both sides. -/
theorem C29_inverse (q : Quat) (h : q.Unitaire) (x : Fin 3 → ℝ) : q.inv.rotate (q.rotate x) = x ∧ q.rotate (q.inv.rotate x) = x := by
  have h1 := (C29_orthogonale q h).1
  simp only [C29_rotation, rotMat_transpose, Matrix.mulVec_mulVec, h1, mul_eq_one_comm.1 h1, Matrix.one_mulVec, and_self]

/-- C29: a rotation keeps lengths. -/
theorem C29_norme (q : Quat) (h : q.Unitaire) (x : Fin 3 → ℝ) :
    (q.rotate x 0) ^ 2 + (q.rotate x 1) ^ 2 + (q.rotate x 2) ^ 2 = x 0 ^ 2 + x 1 ^ 2 + x 2 ^ 2 := by
  have e : ∀ y : Fin 3 → ℝ, y 0 ^ 2 + y 1 ^ 2 + y 2 ^ 2 = y ⬝ᵥ y := by
    intro y; simp [dotProduct, Fin.sum_univ_three]; ring
  rw [e, e, C29_rotation, Matrix.dotProduct_mulVec, Matrix.vecMul_mulVec, mul_eq_one_comm.1 (C29_orthogonale q h).1, Matrix.vecMul_one]

/-- C29: the constructor normalises every non-zero quadruplet, keeping its direction. -/
theorem C29_creation (w x y z : ℝ) (h : 0 < w ^ 2 + x ^ 2 + y ^ 2 + z ^ 2) :
    (Quat.creation w x y z).Unitaire ∧ ∃ k : ℝ, 0 < k ∧ Quat.creation w x y z = ⟨k * w, k * x, k * y, k * z⟩ := by
  have hp : 0 < w * w + x * x + y * y + z * z := by nlinarith
  have hs := Real.sq_sqrt hp.le
  have hn : 0 < √(w * w + x * x + y * y + z * z) := Real.sqrt_pos.2 hp
  refine ⟨?_, (√(w * w + x * x + y * y + z * z))⁻¹, inv_pos.2 hn, ?_⟩
  · unfold Quat.Unitaire Quat.creation
    simp only [div_pow, hs]
    field_simp
  · unfold Quat.creation
    simp only [Quat.mk.injEq]
    refine ⟨?_, ?_, ?_, ?_⟩ <;> rw [div_eq_inv_mul]

/-- C29: the quaternion `(cos θ, sin θ e)` with a unit axis `e` is the rotation of angle `2θ` around `e` (Rodrigues' formula). -/
theorem C29_axe (θ a b c : ℝ) (he : a ^ 2 + b ^ 2 + c ^ 2 = 1) (x : Fin 3 → ℝ) (i : Fin 3) :
    (Quat.mk (cos θ) (sin θ * a) (sin θ * b) (sin θ * c)).rotate x i =
      cos (2 * θ) * x i + sin (2 * θ) * croix ![a, b, c] x i +
        (1 - cos (2 * θ)) * (a * x 0 + b * x 1 + c * x 2) * ![a, b, c] i := by
  have hs := Real.sin_sq_add_cos_sq θ
  have hc : cos θ ^ 2 = 1 - sin θ ^ 2 := by linarith
  have hc2 : cos (2 * θ) = 1 - 2 * sin θ ^ 2 := by rw [Real.cos_two_mul, hc]; ring
  rw [hc2, Real.sin_two_mul]
  fin_cases i <;> simp [Quat.rotate, croix]
  · linear_combination (-2) * x 0 * sin θ ^ 2 * he
  · linear_combination (-2) * x 1 * sin θ ^ 2 * he
  · linear_combination (-2) * x 2 * sin θ ^ 2 * he

theorem num_pos (R : Matrix (Fin 3) (Fin 3) ℝ) : 1 ≤ (numerateurs R).2 := by
  unfold numerateurs
  split
  · split <;> simp only [] <;> linarith
  · split <;> simp only [] <;> linarith

/-- C29: the quaternion built from any rotation matrix (all four branches) is unitary and has this matrix. -/
theorem C29_matrice (R : Matrix (Fin 3) (Fin 3) ℝ) (h : EstRotation R) : (Quat.deMatrice R).Unitaire ∧ (Quat.deMatrice R).rotMat = R := by
  have hpos := num_pos R
  obtain ⟨c00, c11, c22, c01, c10, c02, c20, c12, c21⟩ := rot_cof h
  have l00 := rot_lignes h 0 0
  have l11 := rot_lignes h 1 1
  have l22 := rot_lignes h 2 2
  have l01 := rot_lignes h 0 1
  have l02 := rot_lignes h 0 2
  have l12 := rot_lignes h 1 2
  have k00 := rot_colonnes h 0 0
  have k11 := rot_colonnes h 1 1
  have k22 := rot_colonnes h 2 2
  have k01 := rot_colonnes h 0 1
  have k02 := rot_colonnes h 0 2
  have k12 := rot_colonnes h 1 2
  simp at l00 l11 l22 l01 l02 l12 k00 k11 k22 k01 k02 k12
  -- every product of two coordinates is a product of numerators over 4t
  have key : ∀ (n : Quat) (t : ℝ), 1 ≤ t → n.w ^ 2 + n.x ^ 2 + n.y ^ 2 + n.z ^ 2 = 4 * t →
      n.y * n.y + n.z * n.z = 2 * t * (1 - R 0 0) → n.z * n.z + n.x * n.x = 2 * t * (1 - R 1 1) →
      n.y * n.y + n.x * n.x = 2 * t * (1 - R 2 2) →
      n.x * n.y - n.z * n.w = 2 * t * R 0 1 → n.x * n.y + n.z * n.w = 2 * t * R 1 0 →
      n.x * n.z + n.y * n.w = 2 * t * R 0 2 → n.x * n.z - n.y * n.w = 2 * t * R 2 0 →
      n.y * n.z - n.x * n.w = 2 * t * R 1 2 → n.y * n.z + n.x * n.w = 2 * t * R 2 1 →
      (Quat.mk (n.w * (1 / 2 / √t)) (n.x * (1 / 2 / √t)) (n.y * (1 / 2 / √t)) (n.z * (1 / 2 / √t))).Unitaire ∧
      (Quat.mk (n.w * (1 / 2 / √t)) (n.x * (1 / 2 / √t)) (n.y * (1 / 2 / √t)) (n.z * (1 / 2 / √t))).rotMat = R := by
    intro n t ht hu d0 d1 d2 a01 a10 a02 a20 a12 a21
    have ht0 : 0 < t := by linarith
    have hk : (1 / 2 / √t) * (1 / 2 / √t) = 1 / (4 * t) := by
      have := Real.mul_self_sqrt ht0.le
      have hs : √t ≠ 0 := (Real.sqrt_pos.2 ht0).ne'
      field_simp
      linarith
    generalize 1 / 2 / √t = k at hk
    have hk2 : k ^ 2 * (4 * t) = 1 := by rw [pow_two, hk]; field_simp
    refine ⟨?_, ?_⟩
    · unfold Quat.Unitaire
      simp only []
      linear_combination k ^ 2 * hu + hk2
    · ext i j
      fin_cases i <;> fin_cases j <;> simp [Quat.rotMat]
      · linear_combination (-2) * k ^ 2 * d0 + (R 0 0 - 1) * hk2
      · linear_combination 2 * k ^ 2 * a01 + R 0 1 * hk2
      · linear_combination 2 * k ^ 2 * a02 + R 0 2 * hk2
      · linear_combination 2 * k ^ 2 * a10 + R 1 0 * hk2
      · linear_combination (-2) * k ^ 2 * d1 + (R 1 1 - 1) * hk2
      · linear_combination 2 * k ^ 2 * a12 + R 1 2 * hk2
      · linear_combination 2 * k ^ 2 * a20 + R 2 0 * hk2
      · linear_combination 2 * k ^ 2 * a21 + R 2 1 * hk2
      · linear_combination (-2) * k ^ 2 * d2 + (R 2 2 - 1) * hk2
  clear h
  unfold Quat.deMatrice numerateurs at *
  generalize R 0 0 = r00 at *
  generalize R 0 1 = r01 at *
  generalize R 0 2 = r02 at *
  generalize R 1 0 = r10 at *
  generalize R 1 1 = r11 at *
  generalize R 1 2 = r12 at *
  generalize R 2 0 = r20 at *
  generalize R 2 1 = r21 at *
  generalize R 2 2 = r22 at *
  split_ifs at hpos ⊢
  · simp only [] at hpos ⊢
    refine key ⟨_, _, _, _⟩ _ hpos ?_ ?_ ?_ ?_ ?_ ?_ ?_ ?_ ?_ ?_ <;> simp only [] <;> clear key hpos <;> linarith
  · simp only [] at hpos ⊢
    refine key ⟨_, _, _, _⟩ _ hpos ?_ ?_ ?_ ?_ ?_ ?_ ?_ ?_ ?_ ?_ <;> simp only [] <;> clear key hpos <;> linarith
  · simp only [] at hpos ⊢
    refine key ⟨_, _, _, _⟩ _ hpos ?_ ?_ ?_ ?_ ?_ ?_ ?_ ?_ ?_ ?_ <;> simp only [] <;> clear key hpos <;> linarith
  · simp only [] at hpos ⊢
    refine key ⟨_, _, _, _⟩ _ hpos ?_ ?_ ?_ ?_ ?_ ?_ ?_ ?_ ?_ ?_ <;> simp only [] <;> clear key hpos <;> linarith

theorem rotMat_num (q : Quat) (h : q.Unitaire) : ∃ c : ℝ, c ≠ 0 ∧
    numerateurs q.rotMat = (⟨4 * c * q.w, 4 * c * q.x, 4 * c * q.y, 4 * c * q.z⟩, 4 * c ^ 2) := by
  have hpos := num_pos q.rotMat
  unfold Quat.Unitaire at h
  have key : ∀ c : ℝ, numerateurs q.rotMat = (⟨4 * c * q.w, 4 * c * q.x, 4 * c * q.y, 4 * c * q.z⟩, 4 * c ^ 2) → ∃ c : ℝ, c ≠ 0 ∧
      numerateurs q.rotMat = (⟨4 * c * q.w, 4 * c * q.x, 4 * c * q.y, 4 * c * q.z⟩, 4 * c ^ 2) := by
    intro c hc
    refine ⟨c, ?_, hc⟩
    rintro rfl
    rw [hc] at hpos
    norm_num at hpos
  clear hpos
  by_cases h1 : q.rotMat 2 2 < 0
  · by_cases h2 : q.rotMat 0 0 > q.rotMat 1 1
    · refine key q.x ?_
      rw [numerateurs, if_pos h1, if_pos h2]
      simp only [Quat.rotMat, Prod.mk.injEq, Quat.mk.injEq]
      simp
      refine ⟨⟨?_, ?_, ?_, ?_⟩, ?_⟩ <;> ring
    · refine key q.y ?_
      rw [numerateurs, if_pos h1, if_neg h2]
      simp only [Quat.rotMat, Prod.mk.injEq, Quat.mk.injEq]
      simp
      refine ⟨⟨?_, ?_, ?_, ?_⟩, ?_⟩ <;> ring
  · by_cases h2 : q.rotMat 0 0 < - q.rotMat 1 1
    · refine key q.z ?_
      rw [numerateurs, if_neg h1, if_pos h2]
      simp only [Quat.rotMat, Prod.mk.injEq, Quat.mk.injEq]
      simp
      refine ⟨⟨?_, ?_, ?_, ?_⟩, ?_⟩ <;> ring
    · refine key q.w ?_
      rw [numerateurs, if_neg h1, if_neg h2]
      simp only [Quat.rotMat, Prod.mk.injEq, Quat.mk.injEq]
      simp
      refine ⟨⟨?_, ?_, ?_, ?_⟩, ?_⟩ <;> first | ring1 | linear_combination (-4) * h

/-- C29: the quaternion rebuilt from the matrix of a unit quaternion is this quaternion or its opposite. -/
theorem C29_retour (q : Quat) (h : q.Unitaire) : Quat.deMatrice q.rotMat = q ∨ Quat.deMatrice q.rotMat = q.oppose := by
  obtain ⟨c, hc, e⟩ := rotMat_num q h
  unfold Quat.deMatrice
  rw [e]
  simp only []
  have hs : √(4 * c ^ 2) = 2 * |c| := by
    rw [show 4 * c ^ 2 = (2 * c) ^ 2 by ring, Real.sqrt_sq_eq_abs, abs_mul, abs_two]
  rw [hs]
  rcases lt_or_gt_of_ne hc with h0 | h0
  · right
    rw [abs_of_neg h0]
    ext <;> simp [Quat.oppose] <;> field_simp <;> norm_num <;> ring
  · left
    rw [abs_of_pos h0]
    ext <;> simp <;> field_simp <;> norm_num <;> ring

/-- C29, refuted for `mat()` ("rotation matrix in homogeneous coordinates"): the identity quaternion does not give the identity matrix (its
lower right block is null). -/
theorem C29_mat_refute : Quat.identite.mat ≠ 1 ∧ Quat.identite.rotMat = 1 := by
  have h : Quat.identite = ⟨1, 0, 0, 0⟩ := by simp [Quat.identite, Quat.creation]
  rw [h]
  refine ⟨fun h1 => ?_, ?_⟩
  · have := congrFun (congrFun h1 1) 1
    simp [Quat.mat] at this
  · ext i j
    fin_cases i <;> fin_cases j <;> simp [Quat.rotMat]

/-- Opposite quaternions are the same rotation. -/
theorem C29_oppose (q : Quat) : q.oppose.rotMat = q.rotMat := by
  ext i j
  fin_cases i <;> fin_cases j <;> simp [Quat.rotMat, Quat.oppose]

example : (Quat.mk (1 / 2) (1 / 2) (-1 / 2) (1 / 2)).Unitaire ∧ (Quat.mk (4 / 5) 0 (3 / 5) 0).Unitaire := by
  constructor <;> norm_num [Quat.Unitaire]

/-! ## C53: Cardan angles -/

theorem atan2_polaire (r φ : ℝ) (hr : 0 < r) (h : φ ∈ Set.Ioc (-π) π) : atan2 (r * sin φ) (r * cos φ) = φ := by
  unfold atan2
  refine Eq.trans (congrArg Complex.arg ?_) (Complex.arg_mul_cos_add_sin_mul_I hr h)
  apply Complex.ext <;> simp [Complex.cos_ofReal_re, Complex.sin_ofReal_re]

theorem atan2_cos_sin (y x : ℝ) (ρ : ℝ) (hρ : 0 < ρ) (h : x ^ 2 + y ^ 2 = ρ ^ 2) :
    ρ * cos (atan2 y x) = x ∧ ρ * sin (atan2 y x) = y := by
  have hn : ‖(⟨x, y⟩ : ℂ)‖ = ρ := by
    rw [Complex.norm_def, Complex.normSq_mk, show x * x + y * y = ρ ^ 2 by rw [← h]; ring, Real.sqrt_sq hρ.le]
  have hne : (⟨x, y⟩ : ℂ) ≠ 0 := by
    intro h0
    rw [h0, norm_zero] at hn
    exact hρ.ne hn
  unfold atan2
  rw [Complex.cos_arg hne, Complex.sin_arg, hn]
  constructor <;> field_simp

/-- Entries of the rotation matrix of Cardan angles. -/
theorem mat_entrees (c : Cardan) : c.matRotation =
    !![cos c.θ * cos c.ψ, cos c.θ * sin c.ψ, -sin c.θ;
       -cos c.φ * sin c.ψ + sin c.φ * sin c.θ * cos c.ψ, cos c.φ * cos c.ψ + sin c.φ * sin c.θ * sin c.ψ, sin c.φ * cos c.θ;
       sin c.φ * sin c.ψ + cos c.φ * sin c.θ * cos c.ψ, -sin c.φ * cos c.ψ + cos c.φ * sin c.θ * sin c.ψ, cos c.φ * cos c.θ] := by
  unfold Cardan.matRotation rotR1 rotR2 rotR3
  ext i j
  fin_cases i <;> fin_cases j <;> simp [Matrix.mul_apply, Fin.sum_univ_three] <;> ring

theorem rot_mul {A B : Matrix (Fin 3) (Fin 3) ℝ} (ha : EstRotation A) (hb : EstRotation B) : EstRotation (A * B) := by
  refine ⟨?_, by rw [Matrix.det_mul, ha.2, hb.2, mul_one]⟩
  rw [Matrix.transpose_mul, Matrix.mul_assoc, ← Matrix.mul_assoc B, hb.1, one_mul, ha.1]

/-- C53: the matrix of any Cardan angles is a rotation matrix. -/
theorem C53_rotation (c : Cardan) : EstRotation c.matRotation := by
  have k : ∀ α : ℝ, sin α ^ 2 + cos α ^ 2 = 1 := Real.sin_sq_add_cos_sq
  refine rot_mul (rot_mul ?_ ?_) ?_
  · have h := k c.φ
    refine ⟨?_, ?_⟩
    · ext i j
      fin_cases i <;> fin_cases j <;> simp [rotR1, Matrix.mul_apply, Fin.sum_univ_three] <;> first | linear_combination h | ring
    · rw [Matrix.det_fin_three]; simp [rotR1]; linear_combination h
  · have h := k c.θ
    refine ⟨?_, ?_⟩
    · ext i j
      fin_cases i <;> fin_cases j <;> simp [rotR2, Matrix.mul_apply, Fin.sum_univ_three] <;> first | linear_combination h | ring
    · rw [Matrix.det_fin_three]; simp [rotR2]; linear_combination h
  · have h := k c.ψ
    refine ⟨?_, ?_⟩
    · ext i j
      fin_cases i <;> fin_cases j <;> simp [rotR3, Matrix.mul_apply, Fin.sum_univ_three] <;> first | linear_combination h | ring
    · rw [Matrix.det_fin_three]; simp [rotR3]; linear_combination h

/-- C53: the angles are recovered from the matrix, for every roll and yaw in `(-π, π]` and pitch in `(-π/2, π/2)`. -/
theorem C53_angles (c : Cardan) (hφ : c.φ ∈ Set.Ioc (-π) π) (hθ : c.θ ∈ Set.Ioo (-(π / 2)) (π / 2)) (hψ : c.ψ ∈ Set.Ioc (-π) π) :
    Cardan.deMatrice c.matRotation = c := by
  have hc : 0 < cos c.θ := Real.cos_pos_of_mem_Ioo hθ
  rw [mat_entrees]
  unfold Cardan.deMatrice
  ext
  · simp only [Matrix.of_apply, Matrix.cons_val]
    rw [mul_comm (sin c.φ), mul_comm (cos c.φ)]
    exact atan2_polaire _ _ hc hφ
  · simp only [Matrix.of_apply, Matrix.cons_val]
    rw [Real.arcsin_neg, neg_neg, Real.arcsin_sin hθ.1.le hθ.2.le]
  · simp only [Matrix.of_apply, Matrix.cons_val]
    exact atan2_polaire _ _ hc hψ

/-- C53: the matrix is recovered from its angles, for every rotation matrix outside of the gimbal lock (`|R(0,2)| < 1`). -/
theorem C53_matrice (R : Matrix (Fin 3) (Fin 3) ℝ) (h : EstRotation R) (hg : |R 0 2| < 1) : (Cardan.deMatrice R).matRotation = R := by
  obtain ⟨c00, c11, c22, c01, c10, c02, c20, c12, c21⟩ := rot_cof h
  have l00 := rot_lignes h 0 0
  have k22 := rot_colonnes h 2 2
  simp at l00 k22
  obtain ⟨g1, g2⟩ := abs_lt.1 hg
  have hρ0 : 0 < 1 - R 0 2 ^ 2 := by nlinarith
  obtain ⟨ρ, hρ⟩ : ∃ ρ, ρ = √(1 - R 0 2 ^ 2) := ⟨_, rfl⟩
  have hρp : 0 < ρ := by rw [hρ]; exact Real.sqrt_pos.2 hρ0
  have hρ2 : ρ ^ 2 = 1 - R 0 2 ^ 2 := by rw [hρ, Real.sq_sqrt hρ0.le]
  obtain ⟨a1, a2⟩ := atan2_cos_sin (R 1 2) (R 2 2) ρ hρp (by rw [hρ2]; linarith)
  obtain ⟨b1, b2⟩ := atan2_cos_sin (R 0 1) (R 0 0) ρ hρp (by rw [hρ2]; linarith)
  have s1 : sin (-arcsin (R 0 2)) = - R 0 2 := by rw [Real.sin_neg, Real.sin_arcsin g1.le g2.le]
  have s2 : cos (-arcsin (R 0 2)) = ρ := by rw [Real.cos_neg, Real.cos_arcsin, hρ]
  rw [mat_entrees]
  unfold Cardan.deMatrice
  simp only [s1, s2, neg_neg]
  have hne : ρ ^ 2 ≠ 0 := pow_ne_zero _ hρp.ne'
  generalize cos (atan2 (R 1 2) (R 2 2)) = cp at *
  generalize sin (atan2 (R 1 2) (R 2 2)) = sp at *
  generalize cos (atan2 (R 0 1) (R 0 0)) = cq at *
  generalize sin (atan2 (R 0 1) (R 0 0)) = sq at *
  ext i j
  fin_cases i <;> fin_cases j <;> simp
  · exact b1
  · exact b2
  · refine mul_left_cancel₀ hne ?_
    linear_combination (-ρ * sq) * a1 - R 2 2 * b2 - (ρ * R 0 2 * cq) * a2 - (R 1 2 * R 0 2) * b1 - R 1 0 * hρ2 - c10 - R 0 2 * c21
  · refine mul_left_cancel₀ hne ?_
    linear_combination (ρ * cq) * a1 + R 2 2 * b1 - (ρ * R 0 2 * sq) * a2 - (R 1 2 * R 0 2) * b2 - R 1 1 * hρ2 - c11 + R 0 2 * c20
  · linear_combination a2
  · refine mul_left_cancel₀ hne ?_
    linear_combination (ρ * sq) * a2 + R 1 2 * b2 - (ρ * R 0 2 * cq) * a1 - (R 2 2 * R 0 2) * b1 - R 2 0 * hρ2 - c20 + R 0 2 * c11
  · refine mul_left_cancel₀ hne ?_
    linear_combination (-ρ * cq) * a2 - R 1 2 * b1 - (ρ * R 0 2 * sq) * a1 - (R 2 2 * R 0 2) * b2 - R 2 1 * hρ2 - c21 - R 0 2 * c10
  · linear_combination a1

/-- C53: the angles computed from a unit quaternion are those of the matrix of its *inverse*. -/
theorem C53_quaternion (q : Quat) (h : q.Unitaire) : Cardan.deQuat q = Cardan.deMatrice q.inv.rotMat := by
  unfold Quat.Unitaire at h
  unfold Cardan.deQuat Cardan.deMatrice
  ext
  · simp only [Quat.rotMat, Quat.inv, Matrix.of_apply, Matrix.cons_val]
    congr 1
    · ring
    · linear_combination h
  · simp only [Quat.rotMat, Quat.inv, Matrix.of_apply, Matrix.cons_val]
    congr 2
    ring
  · simp only [Quat.rotMat, Quat.inv, Matrix.of_apply, Matrix.cons_val]
    congr 1
    · ring
    · linear_combination h

/-- C53, refuted for the path through quaternions: angles → matrix → quaternion → angles changes the sign of every pure roll. -/
theorem C53_roulis_refute (φ : ℝ) (h : φ ∈ Set.Ioo (-π) π) :
    Cardan.deQuat (Quat.deMatrice (Cardan.matRotation ⟨φ, 0, 0⟩)) = ⟨-φ, 0, 0⟩ := by
  obtain ⟨u, e⟩ := C29_matrice _ (C53_rotation ⟨φ, 0, 0⟩)
  rw [C53_quaternion _ u, rotMat_transpose, e]
  have : (Cardan.matRotation ⟨φ, 0, 0⟩)ᵀ = Cardan.matRotation ⟨-φ, 0, 0⟩ := by
    rw [mat_entrees, mat_entrees]
    ext i j
    fin_cases i <;> fin_cases j <;> simp
  rw [this]
  have hp := Real.pi_pos
  exact C53_angles _ ⟨by simpa using h.2, by simpa using (neg_le_neg h.1.le)⟩ ⟨by simpa using by linarith, by simpa using by linarith⟩
    ⟨by simpa using hp, by simpa using hp.le⟩

example : Cardan.deMatrice (Cardan.matRotation ⟨1, -1, 2⟩) = ⟨1, -1, 2⟩ := by
  have h3 := Real.pi_gt_three
  exact C53_angles _ ⟨by simpa using by linarith, by simpa using by linarith⟩ ⟨by simpa using by linarith, by simpa using by linarith⟩
    ⟨by simpa using by linarith, by simpa using by linarith⟩

end Verif.Geometrie
