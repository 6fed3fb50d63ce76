import Verif.Kalman.Model
import Mathlib.LinearAlgebra.Matrix.Hadamard
import Mathlib.Algebra.Order.Group.Abs

/-!
# Model of the Riccati equation solver, of the steady-state gain, of the extended Kalman filter and of the simulation (core/src/kalman/kalman.cc)

Exact arithmetic; errors are `none`; numbers of states and of observations `a` and `b`.
-/

namespace Verif.Kalman

open Matrix

variable {a b e : ℕ}

/-- Largest absolute value of the coefficients, core/src/kalman/kalman.cc:26. -/
def maxAbs (M : Matrix (Fin a) (Fin a) ℝ) : ℝ := ((List.finRange a).flatMap fun i : Fin a => (List.finRange a).map fun j : Fin a => |M i j|).foldr max 0

/-- One iteration of `dare` on square tables, core/src/kalman/kalman.cc:25: the operator `*` between tables is the product coefficient by coefficient
(core/src/tableau.cc:1429-1447, 1468-1471), and `inverse_matricielle` is the inverse of the matrix. -/
noncomputable def iterDare (A C Q R P : Matrix (Fin a) (Fin a) ℝ) : Option (Matrix (Fin a) (Fin a) ℝ) :=
  (inverse (R + Cᵀ ⊙ P ⊙ C)).map fun I : Matrix (Fin a) (Fin a) ℝ => Aᵀ ⊙ P ⊙ A - Aᵀ ⊙ P ⊙ C ⊙ I ⊙ Cᵀ ⊙ P ⊙ A + Q

/-- The loop of `dare`, core/src/kalman/kalman.cc:23-31: solution and last difference. -/
noncomputable def boucleDare (A C Q R : Matrix (Fin a) (Fin a) ℝ) (tol : ℝ) : ℕ → Matrix (Fin a) (Fin a) ℝ → ℝ → Option (Matrix (Fin a) (Fin a) ℝ × ℝ)
  | 0, P, d => some (P, d)
  | it + 1, P, _ => (iterDare A C Q R P).bind fun P2 : Matrix (Fin a) (Fin a) ℝ =>
    if maxAbs (P2 - P) < tol then some (P2, maxAbs (P2 - P)) else boucleDare A C Q R tol it P2 (maxAbs (P2 - P))

/-- `dare`, core/src/kalman/kalman.cc:12-33: the products of tables of different dimensions are errors. -/
noncomputable def dare (A : Matrix (Fin a) (Fin a) ℝ) (C : Matrix (Fin a) (Fin b) ℝ) (Q : Matrix (Fin a) (Fin a) ℝ) (R : Matrix (Fin b) (Fin b) ℝ) (tol : ℝ) (itMax : ℕ) : Option (Matrix (Fin a) (Fin a) ℝ × ℝ) :=
  if h : a = b then boucleDare A (C.submatrix id (Fin.cast h)) Q (R.submatrix (Fin.cast h) (Fin.cast h)) tol itMax Q 0
  else if itMax = 0 then some (Q, 0) else none

open Classical in
/-- `kalman_ssg`, core/src/kalman/kalman.cc:637-651. The parentheses are those of the code: `P (Cᵀ (R + C P Cᵀ))⁻¹`. -/
noncomputable def ssg (s : Ssm (Fin a) (Fin b) (Fin e)) : Option (Matrix (Fin a) (Fin b) ℝ) :=
  s.Q.bind fun Q : Matrix (Fin a) (Fin a) ℝ =>
    if Q = 0 then some 0
    else s.R.bind fun R : Matrix (Fin b) (Fin b) ℝ =>
      (dare s.Aᵀ s.Cᵀ Q R (1 / 10 ^ 6) 1000).bind fun r : Matrix (Fin a) (Fin a) ℝ × ℝ =>
        (inverse (s.Cᵀ * (R + s.C * (r.1 * s.Cᵀ)))).bind fun I : Matrix (Fin b) (Fin a) ℝ =>
          if h : a = b then some (r.1 * I.submatrix (Fin.cast h) (Fin.cast h.symm)) else none

/-- `SSM`: a model given by its functions, their Jacobians and its covariances (`none`: empty), core/include/tsd/apps/kalman.hpp:26-62. -/
structure Modele (a b : ℕ) where
  f : (Fin a → ℝ) → Fin a → ℝ
  g : (Fin a → ℝ) → Fin b → ℝ
  Jf : (Fin a → ℝ) → Matrix (Fin a) (Fin a) ℝ
  Jg : (Fin a → ℝ) → Matrix (Fin b) (Fin a) ℝ
  Q : Option (Matrix (Fin a) (Fin a) ℝ)
  R : Option (Matrix (Fin b) (Fin b) ℝ)

/-- The functions of a linear model (the inputs are not among the arguments of `f` and `g`), core/src/kalman/kalman.cc:104-122. -/
def Ssm.modele (s : Ssm (Fin a) (Fin b) (Fin e)) : Modele a b := ⟨fun x => s.A *ᵥ x, fun x => s.C *ᵥ x, fun _ => s.A, fun _ => s.C, s.Q, s.R⟩

/-- `jacobienne_num`, core/src/kalman/kalman.cc:57-76. -/
noncomputable def jacobienne (f : (Fin a → ℝ) → Fin b → ℝ) (x : Fin a → ℝ) : Matrix (Fin b) (Fin a) ℝ :=
  fun j i => (f (Function.update x i (x i + 1 / 10 ^ 5)) j - f x j) / (1 / 10 ^ 5)

open Classical in
/-- Gain of `FiltreEKF`, core/src/kalman/kalman.cc:423-426. The parentheses are those of the code: `(Pm Cᵀ) (C (Pm Cᵀ + R))⁻¹`; the addition of tables of different dimensions is an
error, and so is the inverse of a table that is not square. -/
noncomputable def gainEkf (C : Matrix (Fin b) (Fin a) ℝ) (R : Matrix (Fin b) (Fin b) ℝ) (Pm : Matrix (Fin a) (Fin a) ℝ) : Option (Matrix (Fin a) (Fin b) ℝ) :=
  if h : a = b then
    if Pm = 0 ∧ R = 0 then (inverse Cᵀ).map fun I : Matrix (Fin b) (Fin a) ℝ => I.submatrix (Fin.cast h) (Fin.cast h.symm)
    else (inverse (C * (Pm * Cᵀ + R.submatrix (Fin.cast h) id))).map fun I : Matrix (Fin b) (Fin b) ℝ => (Pm * Cᵀ) * I
  else none

/-- `FiltreEKF::step` (the input is not used), core/src/kalman/kalman.cc:343-451. -/
noncomputable def ekfStep (s : Modele a b) (k : Filtre (Fin a)) (y : Fin b → ℝ) : Option (Filtre (Fin a)) :=
  s.Q.bind fun Q : Matrix (Fin a) (Fin a) ℝ => s.R.bind fun R : Matrix (Fin b) (Fin b) ℝ =>
    let A := s.Jf k.etat
    let xm := s.f k.etat
    let C := s.Jg xm
    let Pm := A * (k.P * Aᵀ) + Q
    (gainEkf C R Pm).map fun K : Matrix (Fin a) (Fin b) ℝ => ⟨xm + K *ᵥ (y - s.g xm), (1 - K * C) * Pm⟩

/-- Successive steps of the extended filter. -/
noncomputable def ekfSuite (s : Modele a b) : Filtre (Fin a) → List (Fin b → ℝ) → Option (Filtre (Fin a))
  | k, [] => some k
  | k, y :: l => (ekfStep s k y).bind fun k' : Filtre (Fin a) => ekfSuite s k' l

end Verif.Kalman
