import Verif.Geometrie.Props

/-!
# C206: rotations around the axes, and recovery of an attitude from its matrix at the vertical (core/include/tsd/geometrie.hpp)
-/

namespace Verif.Geometrie
open Matrix Real

/-! ## Model -/

/-- `rotmat_3d(α, axe)`, core/include/tsd/geometrie.hpp:144-154. -/
noncomputable def rotmat3d (α : ℝ) (axe : ℤ) : Matrix (Fin 3) (Fin 3) ℝ := if axe = 0 then rotR1 α else if axe = 1 then rotR2 α else rotR3 α

/-! ## Theorems -/

theorem rotmat_entrees (α : ℝ) (axe : ℤ) : (axe = 0 ∧ rotmat3d α axe = rotR1 α) ∨ (axe = 1 ∧ rotmat3d α axe = rotR2 α) ∨ (axe ≠ 0 ∧ axe ≠ 1 ∧ rotmat3d α axe = rotR3 α) := by
  unfold rotmat3d
  split_ifs with h h'
  · exact Or.inl ⟨h, rfl⟩
  · exact Or.inr (Or.inl ⟨h', rfl⟩)
  · exact Or.inr (Or.inr ⟨h, h', rfl⟩)

/-- **C206 (group).** For each axis, the rotations compose by adding the angles; the null angle is the identity; the opposite angle is the transposed, and the inverse, matrix. -/
theorem C206_groupe (axe : ℤ) : rotmat3d 0 axe = 1 ∧ (∀ α β, rotmat3d α axe * rotmat3d β axe = rotmat3d (α + β) axe) ∧ (∀ α, rotmat3d (-α) axe = (rotmat3d α axe)ᵀ) ∧ ∀ α, rotmat3d (-α) axe * rotmat3d α axe = 1 := by
  have h0 : rotmat3d 0 axe = 1 := by
    rcases rotmat_entrees 0 axe with ⟨-, h⟩ | ⟨-, h⟩ | ⟨-, -, h⟩ <;> rw [h] <;> ext i j <;> fin_cases i <;> fin_cases j <;> simp [rotR1, rotR2, rotR3]
  have ha : ∀ α β, rotmat3d α axe * rotmat3d β axe = rotmat3d (α + β) axe := by
    intro α β
    unfold rotmat3d
    split_ifs <;> ext i j <;> fin_cases i <;> fin_cases j <;> simp [rotR1, rotR2, rotR3, Matrix.mul_apply, Fin.sum_univ_three, cos_add, sin_add] <;> ring
  refine ⟨h0, ha, fun α => ?_, fun α => by rw [ha, neg_add_cancel, h0]⟩
  unfold rotmat3d
  split_ifs <;> ext i j <;> fin_cases i <;> fin_cases j <;> simp [rotR1, rotR2, rotR3]

/-- **C206 (rotation).** Each matrix is a rotation, and leaves its axis fixed. -/
theorem C206_axe (α : ℝ) (axe : Fin 3) : EstRotation (rotmat3d α (axe : ℕ)) ∧ rotmat3d α (axe : ℕ) *ᵥ Pi.single axe 1 = Pi.single axe 1 := by
  constructor
  · have h := C53_rotation ⟨if axe = 0 then α else 0, if axe = 1 then α else 0, if axe = 2 then α else 0⟩
    have e1 : rotR1 0 = 1 := (C206_groupe 0).1
    have e2 : rotR2 0 = 1 := by simpa [rotmat3d] using (C206_groupe 1).1
    have e3 : rotR3 0 = 1 := by simpa [rotmat3d] using (C206_groupe 2).1
    fin_cases axe <;> simpa [Cardan.matRotation, rotmat3d, e1, e2, e3] using h
  · fin_cases axe <;> ext i <;> fin_cases i <;> simp [rotmat3d, rotR1, rotR2, rotR3]

/-- **C206 (direction).** The matrices change the coordinates, they do not move the vectors: around the axis `z`, for an angle of π/2, the vector `x` gets the coordinates of `-y` (the quaternion functions, C29, follow the
other convention). -/
theorem C206_sens : rotmat3d (π / 2) 2 *ᵥ Pi.single 0 1 = -Pi.single 1 1 := by
  ext i
  fin_cases i <;> simp [rotmat3d, rotR3]

/-- An axis number other than 0, 1, 2 is accepted: it is taken as 2. -/
theorem C206_numero_refute (α : ℝ) (axe : ℤ) (h : axe < 0 ∨ 2 < axe) : rotmat3d α axe = rotmat3d α 2 := by
  unfold rotmat3d
  rw [if_neg (by omega), if_neg (by omega), if_neg (by omega), if_neg (by omega)]

theorem vertical_haut (φ ψ : ℝ) : Cardan.matRotation ⟨φ, π / 2, ψ⟩ = !![0, 0, -1; sin (φ - ψ), cos (φ - ψ), 0; cos (φ - ψ), -sin (φ - ψ), 0] := by
  ext i j
  fin_cases i <;> fin_cases j <;> simp [Cardan.matRotation, rotR1, rotR2, rotR3, Matrix.mul_apply, Fin.sum_univ_three, cos_sub, sin_sub] <;> ring

theorem vertical_bas (φ ψ : ℝ) : Cardan.matRotation ⟨φ, -(π / 2), ψ⟩ = !![0, 0, 1; -sin (φ + ψ), cos (φ + ψ), 0; -cos (φ + ψ), -sin (φ + ψ), 0] := by
  ext i j
  fin_cases i <;> fin_cases j <;> simp [Cardan.matRotation, rotR1, rotR2, rotR3, Matrix.mul_apply, Fin.sum_univ_three, cos_add, sin_add] <;> ring

theorem atan2_nul : atan2 0 0 = 0 := by
  unfold atan2
  rw [show (⟨0, 0⟩ : ℂ) = 0 from rfl, Complex.arg_zero]

/-- **C206, violated at the vertical** (the case excluded from C53): from the matrix of the attitude `(φ, ±π/2, ψ)` the constructor recovers `(0, ±π/2, 0)` whatever `φ` and `ψ`. So the attitude is lost, except when
`φ ∓ ψ` is a multiple of `2π`; although another choice of the angles, `(φ ∓ ψ, ±π/2, 0)`, represents it. -/
theorem C206_vertical_refute (φ ψ : ℝ) :
    (Cardan.deMatrice (Cardan.matRotation ⟨φ, π / 2, ψ⟩) = ⟨0, π / 2, 0⟩ ∧
      ((Cardan.deMatrice (Cardan.matRotation ⟨φ, π / 2, ψ⟩)).matRotation = Cardan.matRotation ⟨φ, π / 2, ψ⟩ ↔ cos (φ - ψ) = 1) ∧ Cardan.matRotation ⟨φ - ψ, π / 2, 0⟩ = Cardan.matRotation ⟨φ, π / 2, ψ⟩) ∧
    (Cardan.deMatrice (Cardan.matRotation ⟨φ, -(π / 2), ψ⟩) = ⟨0, -(π / 2), 0⟩ ∧
      ((Cardan.deMatrice (Cardan.matRotation ⟨φ, -(π / 2), ψ⟩)).matRotation = Cardan.matRotation ⟨φ, -(π / 2), ψ⟩ ↔ cos (φ + ψ) = 1) ∧ Cardan.matRotation ⟨φ + ψ, -(π / 2), 0⟩ = Cardan.matRotation ⟨φ, -(π / 2), ψ⟩) := by
  have hsin : ∀ x : ℝ, cos x = 1 → sin x = 0 := fun x h => by
    have := sin_sq_add_cos_sq x
    rw [h] at this
    exact pow_eq_zero_iff (two_ne_zero) |>.1 (by linarith)
  have d1 : Cardan.deMatrice (Cardan.matRotation ⟨φ, π / 2, ψ⟩) = ⟨0, π / 2, 0⟩ := by
    rw [vertical_haut]
    ext <;> simp [Cardan.deMatrice, atan2_nul, arcsin_one]
  have d2 : Cardan.deMatrice (Cardan.matRotation ⟨φ, -(π / 2), ψ⟩) = ⟨0, -(π / 2), 0⟩ := by
    rw [vertical_bas]
    ext <;> simp [Cardan.deMatrice, atan2_nul, arcsin_one]
  refine ⟨⟨d1, ?_, by rw [vertical_haut, vertical_haut, sub_zero]⟩, d2, ?_, by rw [vertical_bas, vertical_bas, add_zero]⟩
  · rw [d1, vertical_haut, vertical_haut, sub_zero]
    constructor
    · intro h
      have := congrFun (congrFun h 1) 1
      simpa using this.symm
    · intro h
      rw [h, hsin _ h, cos_zero, sin_zero]
  · rw [d2, vertical_bas, vertical_bas, add_zero]
    constructor
    · intro h
      have := congrFun (congrFun h 1) 1
      simpa using this.symm
    · intro h
      rw [h, hsin _ h, cos_zero, sin_zero]

example : (Cardan.deMatrice (Cardan.matRotation ⟨π / 3, π / 2, 0⟩)).matRotation ≠ Cardan.matRotation ⟨π / 3, π / 2, 0⟩ := by
  rw [Ne, (C206_vertical_refute (π / 3) 0).1.2.1, sub_zero, cos_pi_div_three]
  norm_num

end Verif.Geometrie
