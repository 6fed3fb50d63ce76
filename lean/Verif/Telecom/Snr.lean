import Mathlib.Analysis.SpecialFunctions.Pow.Real
import Mathlib.Analysis.Complex.Basic

/-!
# Model of the SNR estimator (core/src/telecom/snr.cc), `Matzner`

Exact real arithmetic; a square root of a negative number (not a number) is `none`.
-/

namespace Verif.Telecom

/-- State of `Matzner`, core/src/telecom/snr.cc:9-23. -/
structure Matzner where
  e2 : ℝ
  e4 : ℝ

/-- `reset`, core/src/telecom/snr.cc:18-22. -/
def Matzner.initial : Matzner := ⟨0, 0⟩

/-- Smoothing of one sample, core/src/telecom/snr.cc:30-34. -/
noncomputable def Matzner.pas (γ : ℝ) (s : Matzner) (x : ℂ) : Matzner :=
  let e2i := Complex.normSq x
  let e4i := e2i * e2i
  ⟨γ * e2i + (1 - γ) * s.e2, γ * e4i + (1 - γ) * s.e4⟩

/-- Estimates `(S, N)`, core/src/telecom/snr.cc:37-38. -/
noncomputable def Matzner.estime (s : Matzner) : Option (ℝ × ℝ) :=
  if 2 * s.e2 * s.e2 - s.e4 < 0 then none
  else
    let S := Real.sqrt (2 * s.e2 * s.e2 - s.e4)
    some (S, s.e2 - S)

/-- `step`, core/src/telecom/snr.cc:23-42. -/
noncomputable def Matzner.step (γ : ℝ) (s : Matzner) : List ℂ → Matzner × List (Option (ℝ × ℝ))
  | [] => (s, [])
  | x :: l =>
    let s1 := s.pas γ x
    let r := Matzner.step γ s1 l
    (r.1, s1.estime :: r.2)

end Verif.Telecom
