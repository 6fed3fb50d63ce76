import Mathlib.LinearAlgebra.Matrix.PosDef
import Mathlib.LinearAlgebra.Matrix.NonsingularInverse
import Mathlib.Analysis.Matrix.Order
import Mathlib.Data.Real.Basic

/-!
# Model of the state-space models and of the Kalman filters (core/src/kalman/kalman.cc)

Exact arithmetic. The numbers of states, of observations and of inputs are the index types `n`, `m` and `p`. An error (exception, failed assertion, inverse of a
singular matrix) is `none`. The draws of the noises are arguments. Messages and figures are not modelled.
-/

namespace Verif.Kalman

open Matrix

variable {n m p : Type} [Fintype n] [DecidableEq n] [Fintype m] [DecidableEq m] [Fintype p] [DecidableEq p]

open Classical in
/-- `inverse_matricielle`, core/src/tableau.cc:1535-1547: the two-sided inverse; `none` for a singular (or not square) matrix, for which the code returns
infinities or stops. -/
noncomputable def inverse (M : Matrix m n ℝ) : Option (Matrix n m ℝ) :=
  if h : ∃ K : Matrix n m ℝ, M * K = 1 ∧ K * M = 1 then some h.choose else none

/-- `SSMLineaire`: matrices of a linear model, core/include/tsd/apps/kalman.hpp:26-138. `none` is an empty table (the default value of each field). -/
structure Ssm (n m p : Type) where
  A : Matrix n n ℝ
  B : Option (Matrix n p ℝ)
  C : Matrix m n ℝ
  D : Option (Matrix m p ℝ)
  Q : Option (Matrix n n ℝ)
  R : Option (Matrix m m ℝ)

/-- `ssm_lineaire`: the covariances are not set, core/src/kalman/kalman.cc:35-55. -/
def Ssm.lineaire (A : Matrix n n ℝ) (C : Matrix m n ℝ) (B : Option (Matrix n p ℝ)) (D : Option (Matrix m p ℝ)) : Ssm n m p := ⟨A, B, C, D, none, none⟩

/-- `modele_marche_aleatoire` with `n` dimensions, core/src/kalman/kalman.cc:571-594 (an empty covariance is replaced with the identity; `no`
input: `p` is empty). -/
def Ssm.marche (Q R : Option (Matrix n n ℝ)) : Ssm n n (Fin 0) := ⟨1, none, 1, none, some (Q.getD 1), some (R.getD 1)⟩

/-- `modele_constante`, core/src/kalman/kalman.cc:597-602. -/
def Ssm.constante (R : ℝ) : Ssm (Fin 1) (Fin 1) (Fin 0) := Ssm.marche (some 0) (some (R • fun _ _ => 1))

/-- Addition of the contribution of the input when the matrix is present, core/src/kalman/kalman.cc:493-494, 499-500. -/
def ajoute {q : Type} (B : Option (Matrix q p ℝ)) (x : q → ℝ) (u : p → ℝ) : q → ℝ :=
  match B with
  | none => x
  | some B => x + B *ᵥ u

/-- State of the filter `FiltreKalman`: estimate and covariance, core/src/kalman/kalman.cc:456-459. -/
structure Filtre (n : Type) where
  etat : n → ℝ
  P : Matrix n n ℝ

/-- Constructor of `FiltreKalman` (defaults: null state, identity covariance), core/src/kalman/kalman.cc:462-479. -/
def Filtre.cree (x0 : Option (n → ℝ)) (p0 : Option (Matrix n n ℝ)) : Filtre n := ⟨x0.getD 0, p0.getD 1⟩

/-- A priori state, core/src/kalman/kalman.cc:491-494. -/
def predit (s : Ssm n m p) (x : n → ℝ) (u : p → ℝ) : n → ℝ := ajoute s.B (s.A *ᵥ x) u

/-- A priori observation, core/src/kalman/kalman.cc:497-500. -/
def observe (s : Ssm n m p) (x : n → ℝ) (u : p → ℝ) : m → ℝ := ajoute s.D (s.C *ᵥ x) u

/-- A priori covariance, core/src/kalman/kalman.cc:503: the addition of an empty table is an error (core/src/tableau.cc:1429-1447). -/
def covPredite (s : Ssm n m p) (P : Matrix n n ℝ) : Option (Matrix n n ℝ) := s.Q.map fun Q : Matrix n n ℝ => s.A * (P * s.Aᵀ) + Q

open Classical in
/-- Gain of the filter, core/src/kalman/kalman.cc:505-511. Simplification: an empty `R` is always an error. -/
noncomputable def gain (s : Ssm n m p) (Pm : Matrix n n ℝ) : Option (Matrix n m ℝ) :=
  s.R.bind fun R : Matrix m m ℝ =>
    if Pm = 0 ∧ R = 0 then inverse s.C
    else (inverse (s.C * (Pm * s.Cᵀ) + R)).map fun S : Matrix m m ℝ => (Pm * s.Cᵀ) * S

/-- `FiltreKalman::step`, core/src/kalman/kalman.cc:486-522. -/
noncomputable def Filtre.step (s : Ssm n m p) (k : Filtre n) (y : m → ℝ) (u : p → ℝ) : Option (Filtre n) :=
  (covPredite s k.P).bind fun Pm : Matrix n n ℝ =>
    (gain s Pm).map fun K : Matrix n m ℝ =>
      ⟨predit s k.etat u + K *ᵥ (y - observe s (predit s k.etat u) u), (1 - K * s.C) * Pm⟩

/-- Successive calls of `step`: final state and estimates. -/
noncomputable def Filtre.suite (s : Ssm n m p) : Filtre n → List ((m → ℝ) × (p → ℝ)) → Option (Filtre n × List (n → ℝ))
  | k, [] => some (k, [])
  | k, o :: l => (Filtre.step s k o.1 o.2).bind fun k' : Filtre n => (Filtre.suite s k' l).map fun r : Filtre n × List (n → ℝ) => (r.1, k'.etat :: r.2)

/-- `FiltreSSM::steps` with the Kalman filter, on the columns of the observations and of the inputs, core/src/kalman/kalman.cc:526-557: the first output is the current state
and the first observation is not used; without observation, the first column does not exist. -/
noncomputable def Filtre.steps (s : Ssm n m p) (k : Filtre n) : List ((m → ℝ) × (p → ℝ)) → Option (Filtre n × List (n → ℝ))
  | [] => none
  | _ :: l => (Filtre.suite s k l).map fun r : Filtre n × List (n → ℝ) => (r.1, k.etat :: r.2)

end Verif.Kalman
