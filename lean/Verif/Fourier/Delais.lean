/-
Model of core/src/fourier/estimation-delais.cc: estimation of the delay between two signals, alignment.

Exact arithmetic; an error (failed assertion, segment of negative size, result that is not a number) is `none`.
-/
import Verif.Fourier.Corr
import Verif.Fourier.Estim

namespace Verif.Fourier

/-- `pad_zeros(x, y, p2)`; the rounding to a power of two is the least power of two not below (the float logarithms that compute
it are not modelled; it is undefined for two empty vectors).  core/include/tsd/tsd.hpp:514-534, core/src/tsd.cc:287-291 -/
def padZeros {K : Type} [Zero K] (x y : List K) (p2 : Bool) : Option (List K × List K) :=
  let n3 := max x.length y.length
  if p2 ∧ n3 = 0 then none
  else
    let n3 := if p2 then 2 ^ Nat.clog 2 n3 else n3
    some (x ++ List.replicate (n3 - x.length) 0, y ++ List.replicate (n3 - y.length) 0)

/-- `qint_loc`: not a number when the three values are aligned.  core/src/fourier/estimation-delais.cc:10-13 -/
noncomputable def qintLoc (ym1 y0 yp1 : ℝ) : Option ℝ :=
  if 2 * (2 * y0 - yp1 - ym1) = 0 then none else some ((yp1 - ym1) / (2 * (2 * y0 - yp1 - ym1)))

/-- Root mean square, `sqrt(abs2(x).moyenne())`.  core/src/fourier/estimation-delais.cc:42-43 -/
noncomputable def rms (x : List ℂ) : ℝ := Real.sqrt ((x.map fun v => ‖v‖ ^ 2).sum / x.length)

/-- `estimation_délais(x, y)`: delay and score.  core/src/fourier/estimation-delais.cc:21-101 -/
noncomputable def estimationDelais (x y : List ℂ) : Option (ℝ × ℝ) := do
  let (xp, yp) ← padZeros x y false
  let (lags, corr) ← xcorrb trigoC xp yp (-1)
  let e1 := rms xp
  let e2 := rms yp
  let cn := corr.map fun c => ‖c‖ / (e1 * e2 + 1 / 10 ^ 50)
  let index := indexMax cn
  let score ← cn[index]?
  let lag ← lags[index]?
  if 0 < index ∧ index + 1 < cn.length then
    let cn0 ← cn[index - 1]?
    let cn1 ← cn[index + 1]?
    let δ ← qintLoc cn0 score cn1
    let δ := if δ < -1 / 2 ∨ 1 / 2 < δ then max (-1 / 2) (min (1 / 2) δ) else δ
    some (lag.re + δ, score)
  else some (lag.re, score)

/-- `round`: to nearest, halves away from zero. -/
noncomputable def arrondi (d : ℝ) : ℤ := if 0 ≤ d then ⌊d + 1 / 2⌋ else -⌊-d + 1 / 2⌋

/-- `x.tail(n)`: an error unless `0 ≤ n ≤ dim`.  core/include/tsd/tableau.hpp:894-897, core/src/tableau.cc:515-531 -/
def queueZ {T : Type} (x : List T) (n : ℤ) : Option (List T) :=
  if 0 ≤ n ∧ n ≤ x.length then some (x.drop (x.length - n.toNat)) else none

/-- Removal of the first `|d|` samples of the late signal.  core/src/fourier/estimation-delais.cc:127-142 -/
def decale {T : Type} (x y : List T) (d : ℤ) : Option (List T × List T) :=
  if d = 0 then some (x, y)
  else if d < 0 then (queueZ x (x.length + d)).map fun t => (t, y)
  else (queueZ y (y.length - d)).map fun t => (x, t)

/-- Truncation to the common length.  core/src/fourier/estimation-delais.cc:144-155 -/
def tronque {T : Type} (p : List T × List T) : List T × List T :=
  if p.2.length < p.1.length then (p.1.take p.2.length, p.2)
  else if p.1.length < p.2.length then (p.1, p.2.take p.1.length)
  else p

/-- `aligne_entier(x, y)`: the two aligned signals, the delay and the score.
core/src/fourier/estimation-delais.cc:103-109, 112-163 -/
noncomputable def aligneEntier (x y : List ℂ) : Option (List ℂ × List ℂ × ℤ × ℝ) :=
  (padZeros x y true).bind fun p =>
  (estimationDelais p.1 p.2).bind fun e =>
  (decale x y (arrondi e.1)).map fun q => ((tronque q).1, (tronque q).2, arrondi e.1, e.2)

end Verif.Fourier
