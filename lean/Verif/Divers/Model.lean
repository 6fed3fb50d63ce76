/-
Model of core/src/divers.cc: cardinal sine, Dirichlet kernel, Chebyshev polynomials.

Exact real arithmetic (the constants `π_f`, `π` are the real number π).
-/
import Verif.Poly.Model
import Verif.Util.Model
import Mathlib.Analysis.SpecialFunctions.Trigonometric.Basic

namespace Verif.Divers

open Verif.FracRat

/-- `sinc(T, f)`.  core/src/divers.cc:6-12 -/
noncomputable def sinc (T f : ℝ) : ℝ :=
  let a := Real.pi * T * f
  if |a| < 1 / 10 ^ 7 then T else Real.sin a / (Real.pi * f)

/-- `sinc(t)`.  core/src/divers.cc:14-18 -/
noncomputable def sinc1 (t : ℝ) : ℝ := sinc 1 t

/-- `Dirichlet(N, Ω)`; the warning message is not modelled.  core/src/divers.cc:21-34 -/
noncomputable def dirichlet (N : ℕ) (Ω : ℝ) : ℝ :=
  let ε : ℝ := 1 / 10 ^ 5
  let Ω := Util.modulo2π id Real.pi Ω
  if Ω < ε ∨ 2 * Real.pi - Ω < ε then 2 * N + 1 else Real.sin ((N + 1 / 2) * Ω) / Real.sin (Ω / 2)

/-- The loop `k = 2 … n` (`nb` iterations left).  core/src/divers.cc:48-53 -/
def boucleCheb {K : Type} [Field K] : ℕ → Poly K → Poly K → Poly K
  | 0, _, T1 => T1
  | nb + 1, T0, T1 => boucleCheb nb T1 (((Poly.z.mulScal 2).mul T1).sub T0)

/-- `Chebychev_TU(n, espèce)`: the second parameter is a boolean.  core/src/divers.cc:36-56 -/
def chebychevTU {K : Type} [Field K] (n : ℕ) (espece : Bool) : Poly K :=
  let T0 := Poly.one
  let T1 := if espece.toNat = 1 then Poly.z else Poly.z.mulScal 2
  if n = 0 then T0 else if n = 1 then T1 else boucleCheb (n - 1) T0 T1

/-- Conversion of an `entier` argument to `bouléen`: true for every non null value (C++ conversion at the calls
core/src/divers.cc:60, 65). -/
def versBool (v : ℤ) : Bool := decide (v ≠ 0)

/-- `Chebychev_T(n)`.  core/src/divers.cc:58-61 -/
def chebychevT {K : Type} [Field K] (n : ℕ) : Poly K := chebychevTU n (versBool 1)

/-- `Chebychev_U(n)`.  core/src/divers.cc:63-66 -/
def chebychevU {K : Type} [Field K] (n : ℕ) : Poly K := chebychevTU n (versBool 2)

end Verif.Divers
