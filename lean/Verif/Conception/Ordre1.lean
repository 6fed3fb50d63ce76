import Verif.Poly.Model
import Mathlib.Analysis.SpecialFunctions.Trigonometric.Basic
import Mathlib.Analysis.SpecialFunctions.Log.Basic

/-!
# Model of the first and second order designs (core/src/filtrage/filtrage.cc:110-216)

Exact real arithmetic instead of `float`.
-/

namespace Verif.Conception

open Verif.FracRat

/-- `verifie_frequence_normalisee`, core/src/filtrage/filtrage.cc:110-117: `false` when the exception is thrown. -/
noncomputable def frequenceNormalisee (f : ℝ) : Bool := by
  classical exact !(decide (f < 0) || decide (f > 0.5))

/-- `lexp_coef`, core/src/filtrage/filtrage.cc:121-124. -/
noncomputable def lexpCoef (fc : ℝ) : ℝ := 1 - Real.exp (-fc * 2 * Real.pi)

/-- `lexp_tc_vers_coef`, core/src/filtrage/filtrage.cc:126-129. -/
noncomputable def lexpTcVersCoef (τ : ℝ) : ℝ := lexpCoef (1 / (2 * Real.pi * τ))

/-- `lexp_fcoupure`, core/src/filtrage/filtrage.cc:131-134 (`γ = 1` gives an infinite value in the code, 0 here: the theorems exclude it). -/
noncomputable def lexpFcoupure (γ : ℝ) : ℝ := -Real.log (1 - γ) / (2 * Real.pi)

/-- `lexp_coef_vers_tc`, core/src/filtrage/filtrage.cc:136-139. -/
noncomputable def lexpCoefVersTc (γ : ℝ) : ℝ := 1 / (2 * Real.pi * lexpFcoupure γ)

section
variable {K : Type} [Field K] [DecidableEq K]

/-- The rational function returned by `design_notch`, core/src/filtrage/filtrage.cc:149, for a radius `r` and `c = cos(Ω0)`. -/
def notchFRat (r c : K) : FRat K :=
  (((((FRat.z.mul FRat.z).sub (FRat.z.mulScal (2 * c))).addScal 1)).div
    (((FRat.z.mul FRat.z).sub (FRat.z.mulScal (2 * r * c))).addScal (r * r))).mulScal r

/-- The rational function returned by `design_bloqueur_dc`, core/src/filtrage/filtrage.cc:157. -/
def bloqueurFRat (r : K) : FRat K := ((FRat.z.addScal (-1)).div (FRat.z.addScal (-r))).mulScal r

/-- The rational function returned by `design_lexp`, core/src/filtrage/filtrage.cc:165. -/
def lexpFRat (γ : K) : FRat K := (FRat.z.mulScal γ).div (FRat.z.addScal (-(1 - γ)))

/-- Loop of `Poly::horner` when the point is itself a rational function, core/include/tsd/filtrage/frat.hpp:184-185 with
`Trep(c) = FRat(c)`, core/include/tsd/filtrage/frat.hpp:514-518. -/
def hornerFRat (x : FRat K) : List K → FRat K → FRat K
  | [], res => res
  | c :: l, res => hornerFRat x l ((res.mul x).add (FRat.cst c))

/-- `Poly::horner` at a rational function, coefficient mode, core/include/tsd/filtrage/frat.hpp:155-189. -/
def Poly.hornerF (p : Poly K) (x : FRat K) : FRat K :=
  match p.coefs.reverse with
  | [] => FRat.cst 0
  | c :: l => hornerFRat x l (FRat.cst c)

/-- `FRat::horner` at a rational function (composition), core/include/tsd/filtrage/frat.hpp:744-748. -/
def FRat.hornerF (f : FRat K) (x : FRat K) : FRat K := (Poly.hornerF f.numer x).div (Poly.hornerF f.denom x)

/-- `design_mg`, core/src/filtrage/filtrage.cc:205-210: the default `FRat` is `1/1` and its numerator receives `ones(n)/n`. -/
def designMg (n : ℕ) : FRat K := FRat.hornerF ⟨{ Poly.one with coefs := List.replicate n (1 / (n : K)) }, Poly.one⟩ FRat.zinv

end

/-- `design_notch`, core/src/filtrage/filtrage.cc:141-150. -/
noncomputable def designNotch (f0 fc : ℝ) : FRat ℝ := by
  classical exact notchFRat (1 - lexpCoef fc) (Real.cos (2 * Real.pi * f0))

/-- `design_bloqueur_dc`, core/src/filtrage/filtrage.cc:152-158. -/
noncomputable def designBloqueurDc (fc : ℝ) : FRat ℝ := by
  classical exact bloqueurFRat (1 - lexpCoef fc)

/-- `design_lexp(Fréquence)`, core/src/filtrage/filtrage.cc:160-166. -/
noncomputable def designLexp (fc : ℝ) : FRat ℝ := by
  classical exact lexpFRat (lexpCoef fc)

/-- `design_lexp(float γ)`, core/src/filtrage/filtrage.cc:168-171. -/
noncomputable def designLexpCoef (γ : ℝ) : FRat ℝ := designLexp (lexpFcoupure γ)

end Verif.Conception
