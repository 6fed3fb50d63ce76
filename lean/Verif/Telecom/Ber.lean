import Verif.Telecom.Formes
import Mathlib.Probability.Distributions.Gaussian.Real
import Mathlib.Analysis.SpecialFunctions.Log.Base

/-!
# Model of the theoretical bit error rates (core/src/telecom/modulations.cc) and of a channel with white Gaussian noise

The first part models the `ber` methods (exact real arithmetic instead of `float`); the second part is the specification: what a bit error rate *is*.
-/

namespace Verif.Telecom
open MeasureTheory ProbabilityTheory
open scoped NNReal

/-- The complementary error function of `<cmath>`, as defined by the C standard: `2/√π ∫_x^∞ exp(-t²) dt`. -/
noncomputable def erfc (x : ℝ) : ℝ := 2 / Real.sqrt Real.pi * ∫ t in Set.Ioi x, Real.exp (-t ^ 2)

/-- `db2pow`, core/include/tsd/tsd.hpp:448-455. -/
noncomputable def db2pow (x : ℝ) : ℝ := (10 : ℝ) ^ (x / 10)

/-- `FormeOndePSK::ber`, core/src/telecom/modulations.cc:375-398. -/
noncomputable def berPsk (M : ℕ) (dB : ℝ) : ℝ :=
  let ber := erfc (Real.sqrt ((nbBits M : ℝ) * db2pow dB) * Real.sin (Real.pi / M)) / nbBits M
  if M = 2 then ber / 2 else ber

/-- `FormeOnde_π4QPSK::ber`, core/src/telecom/modulations.cc:475-480 (`infos.k = 2`, `infos.M = 4`). -/
noncomputable def berPi4 (dB : ℝ) : ℝ := erfc (Real.sqrt (2 * db2pow dB) * Real.sin (Real.pi / 4)) / 2

/-- `FormeOndeASK::ber`, core/src/telecom/modulations.cc:317-323. -/
noncomputable def berAsk (M : ℕ) (dB : ℝ) : ℝ :=
  (((M : ℝ) - 1) / M) * erfc (Real.sqrt (3 * Real.logb 2 M * db2pow dB / ((M : ℝ) * M - 1))) / nbBits M

/-- `FormeOndeQAM::ber`, core/src/telecom/modulations.cc:561-566. -/
noncomputable def berQam (M : ℕ) (dB : ℝ) : ℝ :=
  (2 / (nbBits M : ℝ)) * (1 - (1 / Real.sqrt M)) * erfc (Real.sqrt (3 * nbBits M * db2pow dB / (2 * ((M : ℝ) - 1))))

/-- `FormeOndeFSK::ber`, core/src/telecom/modulations.cc:719-736 (`Rho = 0`). -/
noncomputable def berFsk (dB : ℝ) : ℝ := 0.5 * erfc (Real.sqrt (db2pow dB * (1 - 0) / 2))

/-- `FormeOnde::ber(Vecf)`, core/src/telecom/modulations.cc:893-897: one value per normalised SNR. -/
def berVec (ber : ℝ → ℝ) (dB : List ℝ) : List ℝ := dB.map ber

/-! ## Specification: error rates on a channel with white Gaussian noise -/

/-- White Gaussian noise: the two components are independent, centred, of variance `v = N0 / 2` each. -/
noncomputable def bruit (v : ℝ≥0) : Measure (ℝ × ℝ) := (gaussianReal 0 v).prod (gaussianReal 0 v)

/-- Mean energy per bit of equiprobable symbols carrying `k` bits each. -/
noncomputable def energieBit (symbs : List (ℝ × ℝ)) (k : ℕ) : ℝ := (symbs.map fun s => s.1 ^ 2 + s.2 ^ 2).sum / symbs.length / k

/-- Variance per component, `N0 / 2`, for a normalised SNR `Eb / N0` of `dB` decibels. -/
noncomputable def variance (symbs : List (ℝ × ℝ)) (k : ℕ) (dB : ℝ) : ℝ≥0 := (energieBit symbs k / db2pow dB / 2).toNNReal

/-- Probability that the decision `dec` on the symbol of index `i` plus noise does not give back `i`. -/
noncomputable def probaSymbole (symbs : List (ℝ × ℝ)) (dec : ℝ × ℝ → Option ℕ) (v : ℝ≥0) (i : ℕ) : ℝ :=
  (bruit v).real {n | dec (symbs.getD i (0, 0) + n) ≠ some i}

/-- Symbol error rate: mean over the equiprobable symbols. -/
noncomputable def tauxSymbole (symbs : List (ℝ × ℝ)) (dec : ℝ × ℝ → Option ℕ) (v : ℝ≥0) : ℝ :=
  (∑ i ∈ Finset.range symbs.length, probaSymbole symbs dec v i) / symbs.length

/-- Probability that bit `j` of the decision on the symbol of index `i` plus noise is not bit `j` of `i` (or that there is no decision). -/
noncomputable def probaBit (symbs : List (ℝ × ℝ)) (dec : ℝ × ℝ → Option ℕ) (v : ℝ≥0) (i j : ℕ) : ℝ :=
  (bruit v).real {n | ∀ r, dec (symbs.getD i (0, 0) + n) = some r → r.testBit j ≠ i.testBit j}

/-- Bit error rate: mean over the equiprobable symbols and over the `k` bits that they carry. -/
noncomputable def tauxBit (symbs : List (ℝ × ℝ)) (dec : ℝ × ℝ → Option ℕ) (k : ℕ) (v : ℝ≥0) : ℝ :=
  (∑ i ∈ Finset.range symbs.length, ∑ j ∈ Finset.range k, probaBit symbs dec v i j) / (symbs.length * k)

end Verif.Telecom
