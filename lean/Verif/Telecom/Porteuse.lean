import Verif.Telecom.Formes
import Verif.Conception.Ordre1
import Verif.Fourier.Estim
import Mathlib.Analysis.SpecialFunctions.Complex.Arg

/-!
# Model of the carrier recovery (core/src/telecom/carrier-rec.cc)

Exact real arithmetic; the look-up-table oscillator (`OLUT`, see C66) is replaced by the exact complex exponential.
-/

namespace Verif.Telecom

/-- `signe(v)`, core/include/tsd/tsd.hpp:82-84. -/
noncomputable def signe (v : ℝ) : ℝ := if 0 < v then 1 else if v < 0 then -1 else 0

/-- `ped_costa(M)`, core/src/telecom/carrier-rec.cc:70-95 (`msg_erreur` for the other orders). -/
noncomputable def pedCosta (M : ℤ) : Option (ℂ → ℝ) :=
  if M = 2 then some fun x => x.re * x.im
  else if M = 4 then some fun x =>
    let z := x * Complex.exp ((Real.pi / 4 : ℝ) * Complex.I)
    z.im * signe z.re - z.re * signe z.im
  else none

/-- `ped_ploop(M)`, core/src/telecom/carrier-rec.cc:96-103. -/
noncomputable def pedPloop (M : ℕ) (x : ℂ) : ℝ := (x ^ M).im / M

/-- `ped_tloop(M)`, core/src/telecom/carrier-rec.cc:104-112. -/
noncomputable def pedTloop (M : ℕ) (x : ℂ) : ℝ := if x = 0 then 0 else Complex.arg (x ^ M) / M

/-- `ped_decision(wf)`, core/src/telecom/carrier-rec.cc:113-122, for a decision function `d` and symbols `symbs` (`none`: symbol index out of range). -/
noncomputable def pedDecision (symbs : List (ℝ × ℝ)) (d : ℝ × ℝ → Option ℕ) (x : ℂ) : Option ℝ :=
  (d (x.re, x.im)).bind fun i => (symbs[i]?).map fun s =>
    let c := x * (starRingEnd ℂ) (cplx s)
    if c = 0 then 0 else Complex.arg c

/-- State of a loop filter: phase, frequency, last error. -/
structure Boucle where
  θ : ℝ
  μ : ℝ
  dernier : ℝ

/-- `LF1::step`, core/src/telecom/carrier-rec.cc:48-52. -/
def lf1 (α : ℝ) (s : Boucle) (x : ℝ) : Boucle := { s with θ := s.θ + α * x }

/-- `γ` of `LF2`, core/src/telecom/carrier-rec.cc:22 (`A = 1`). -/
noncomputable def gammaLf2 (BL η : ℝ) : ℝ := (16 * η * η * BL) / (1 * (1 + 4 * η * η))

/-- `ρ` of `LF2`, core/src/telecom/carrier-rec.cc:23. -/
noncomputable def rhoLf2 (BL η : ℝ) : ℝ := (4 * BL) / (1 + 4 * η * η)

/-- `LF2::step`, core/src/telecom/carrier-rec.cc:30-36; the returned phase is `θ`. -/
noncomputable def lf2 (BL η : ℝ) (s : Boucle) (x : ℝ) : Boucle :=
  { θ := s.θ + s.μ, μ := s.μ + gammaLf2 BL η * ((1 + rhoLf2 BL η) * x - s.dernier), dernier := x }

/-- `CPLL`: phase detector, order of the loop filter, time constant, bandwidth. core/src/telecom/carrier-rec.cc:311-334. -/
structure ConfigPll where
  ped : Option (ℂ → ℝ)
  ordre : ℤ
  tc : ℝ
  bp : ℝ

/-- The phase detector of the loop, core/src/telecom/carrier-rec.cc:321-327: the argument by default. -/
noncomputable def ConfigPll.detecteur (c : ConfigPll) : ℂ → ℝ := c.ped.getD Complex.arg

/-- The loop filter, core/src/telecom/carrier-rec.cc:329-332. -/
noncomputable def ConfigPll.filtre (c : ConfigPll) : Boucle → ℝ → Boucle := if c.ordre = 1 then lf1 (Conception.lexpTcVersCoef c.tc) else lf2 c.bp 1

/-- One sample of `CPLL::step`, core/src/telecom/carrier-rec.cc:350-364; the member `θ` is the phase of the loop filter (both are 0 at the beginning). -/
noncomputable def pllPas (c : ConfigPll) (s : Boucle) (x : ℂ) : Boucle × ℂ :=
  let y := x * Complex.exp (((-s.θ : ℝ) : ℂ) * Complex.I)
  (c.filtre s (c.detecteur y), y)

/-- `CPLL::step`, core/src/telecom/carrier-rec.cc:336-390. -/
noncomputable def pllStep (c : ConfigPll) (s : Boucle) : List ℂ → Boucle × List ℂ
  | [] => (s, [])
  | x :: l =>
    let r := pllPas c s x
    let q := pllStep c r.1 l
    (q.1, r.2 :: q.2)

/-! ## Frequency peak -/

/-- `SuiviPicFrequence::step` after the transform, core/src/telecom/carrier-rec.cc:170-203, from the squared moduli `a2` of the bins:
frequency and signal to noise ratio; a false assertion is `none`, a ratio that is not a number is `none` in the second component. The empty spectrum is `none`. -/
noncomputable def suiviPic (a2 : List ℝ) : Option (ℝ × Option ℝ) :=
  let N := a2.length
  if N = 0 then none
  else
    let i2 := Fourier.indexMax a2
    let y2 := a2.getD i2 0
    let y1 := a2.getD ((i2 + N - 1) % N) 0
    let y3 := a2.getD ((i2 + 1) % N) 0
    let i2' : ℤ := if N / 2 ≤ i2 then (i2 : ℤ) - N else i2
    let f : ℝ := (i2' : ℝ) / N
    let d := (y3 - y1) / (y1 + y2 + y3 + 1 / 10 ^ 30)
    if |f| ≤ 1 / 2 ∧ |d| ≤ 1 then some (f + d / N, Fourier.divise y2 (a2.sum / N)) else none

/-- `localise_pic_frequence(x)`, core/src/telecom/carrier-rec.cc:155-162, 170-173. -/
noncomputable def localisePic (x : List ℂ) : Option (ℝ × Option ℝ) :=
  (Fourier.fft Fourier.trigoC x).bind fun X => suiviPic (X.map Complex.normSq)

end Verif.Telecom
