import Verif.Kalman.EkfProps

/-!
# Model of `SSM::steps` (simulation of a state-space model, core/src/kalman/kalman.cc:124-216)

The draws of `randn` are arguments; the Cholesky factor (`llt().matrixL()`) is a function given as argument, about which only what the code does with it is used.
-/

namespace Verif.Kalman

open Matrix

variable {n m p : Type} [Fintype n] [DecidableEq n] [Fintype m] [DecidableEq m] [Fintype p] [DecidableEq p]

/-- Part of the object `SSM` written by the simulation: square roots of the covariances, current state (`none`: empty) and index, core/include/tsd/apps/kalman.hpp:45, 96-99. -/
structure Simu (n m : Type) where
  L : Option (Matrix n n ℝ × Matrix m m ℝ)
  etat : Option (n → ℝ)
  k : ℕ

/-- The object before the first simulation. -/
def Simu.cree : Simu n m := ⟨none, none, 0⟩

open Classical in
/-- Square root of a covariance: a null one is kept, core/src/kalman/kalman.cc:128-133. -/
noncomputable def racine {q : Type} (chol : Matrix q q ℝ → Matrix q q ℝ) (M : Matrix q q ℝ) : Matrix q q ℝ := if M = 0 then M else chol M

/-- The square roots are computed at the first call only, core/src/kalman/kalman.cc:126-134 (simplification: an empty covariance, with which the products that follow fail, is an error). -/
noncomputable def racines (cn : Matrix n n ℝ → Matrix n n ℝ) (cm : Matrix m m ℝ → Matrix m m ℝ) (Q : Option (Matrix n n ℝ)) (R : Option (Matrix m m ℝ)) (o : Simu n m) : Option (Matrix n n ℝ × Matrix m m ℝ) :=
  match o.L with
  | some L => some L
  | none => Q.bind fun Q : Matrix n n ℝ => R.map fun R : Matrix m m ℝ => (racine cn Q, racine cm R)

/-- Initial state: the argument if any, else the current state, else zero, core/src/kalman/kalman.cc:140-147. -/
def depart (o : Simu n m) (x0 : Option (n → ℝ)) : n → ℝ :=
  match x0 with
  | some x => x
  | none => o.etat.getD 0

/-- Next columns of the linear simulation: input and draws of each column, core/src/kalman/kalman.cc:169-182, 189-195. -/
def colonnes (s : Ssm n m p) (L : Matrix n n ℝ × Matrix m m ℝ) : (n → ℝ) → List ((p → ℝ) × (n → ℝ) × (m → ℝ)) → List ((n → ℝ) × (m → ℝ))
  | _, [] => []
  | x, t :: l =>
    let x' := ajoute s.B (s.A *ᵥ x + L.1 *ᵥ t.2.1) t.1
    (x', ajoute s.D (s.C *ᵥ x' + L.2 *ᵥ t.2.2) t.1) :: colonnes s L x' l

/-- `SSM::steps` on a linear model, core/src/kalman/kalman.cc:124-198: the input of the first column, then inputs and draws of the other ones. The state of the object is the initial one. -/
noncomputable def simuLineaire (cn : Matrix n n ℝ → Matrix n n ℝ) (cm : Matrix m m ℝ → Matrix m m ℝ) (s : Ssm n m p) (o : Simu n m) (x0 : Option (n → ℝ)) (u0 : p → ℝ) (l : List ((p → ℝ) × (n → ℝ) × (m → ℝ))) :
    Option (Simu n m × List ((n → ℝ) × (m → ℝ))) :=
  (racines cn cm s.Q s.R o).map fun L : Matrix n n ℝ × Matrix m m ℝ =>
    ({ o with L := some L, etat := some (depart o x0) }, (depart o x0, ajoute s.D (s.C *ᵥ depart o x0) u0) :: colonnes s L (depart o x0) l)

/-- Loop of the simulation of a model given by its functions (with the index `k`), core/src/kalman/kalman.cc:205-216: draws of each column. -/
def boucleSimu (f : ℕ → (n → ℝ) → n → ℝ) (g : (n → ℝ) → m → ℝ) (L : Matrix n n ℝ × Matrix m m ℝ) : ℕ → (n → ℝ) → List ((n → ℝ) × (m → ℝ)) → (ℕ × (n → ℝ)) × List ((n → ℝ) × (m → ℝ))
  | k, x, [] => ((k, x), [])
  | k, x, t :: l =>
    let r := boucleSimu f g L (k + 1) (f k x + L.1 *ᵥ t.1) l
    (r.1, (x, g x + L.2 *ᵥ t.2) :: r.2)

/-- `SSM::steps` on a model that is not linear, core/src/kalman/kalman.cc:124-147, 199-218. -/
noncomputable def simuFonctions (cn : Matrix n n ℝ → Matrix n n ℝ) (cm : Matrix m m ℝ → Matrix m m ℝ) (f : ℕ → (n → ℝ) → n → ℝ) (g : (n → ℝ) → m → ℝ) (Q : Option (Matrix n n ℝ)) (R : Option (Matrix m m ℝ))
    (o : Simu n m) (x0 : Option (n → ℝ)) (l : List ((n → ℝ) × (m → ℝ))) : Option (Simu n m × List ((n → ℝ) × (m → ℝ))) :=
  (racines cn cm Q R o).map fun L : Matrix n n ℝ × Matrix m m ℝ =>
    let r := boucleSimu f g L o.k (depart o x0) l
    (⟨some L, some r.1.2, r.1.1⟩, r.2)

/-- `ModeleKitagawa::f`, core/src/kalman/kalman.cc:607-610. -/
noncomputable def kitagawa (cosinus : ℝ → ℝ) (k : ℕ) (x : Fin 1 → ℝ) : Fin 1 → ℝ := fun i => x i / 2 + 25 * x i / (1 + x i * x i) + 8 * cosinus (1.2 * k)

end Verif.Kalman
