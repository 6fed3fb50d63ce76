/-
Model of `rééchan_freq` (resampling through the DFT) and of `czt` (chirp transform), core/src/fourier/fourier.cc.

Exact arithmetic.  A failed assertion or an access outside a vector is `none`.
-/
import Verif.Fourier.Delais
import Verif.Fourier.RfftProps
import Mathlib.Analysis.SpecialFunctions.Pow.Complex

namespace Verif.Fourier

/-- The two ends of `X` (`h` bins each) in a vector of `n2` zeros, back in the time domain.
core/src/fourier/fourier.cc:1402-1407, 1411-1415 -/
noncomputable def changeTaille (X : List ℂ) (n2 h : ℕ) (lom : ℝ) : Option (List ℂ) := do
  let a ← segment X 0 h
  let X2 ← ecrit (List.replicate n2 0) 0 a
  let b ← queue X h
  let X2 ← ecritQueue X2 b
  let y ← ifft trigoC X2
  some (y.map fun v => v * (Real.sqrt lom : ℂ))

/-- `rééchan_freq` on the spectrum `X` of a signal of `n` samples.  core/src/fourier/fourier.cc:1392-1416 -/
noncomputable def reechSpectre (X : List ℂ) (n : ℕ) (lom : ℝ) : Option (List ℂ) :=
  let n2 := arrondi (n * lom)
  if n2 < 0 then none
  else if 1 < lom then changeTaille X n2.toNat (n / 2) lom
  else changeTaille X n2.toNat (n2.toNat / 2) lom

/-- `rééchan_freq<float>(x, lom)`.  core/src/fourier/fourier.cc:1389-1417 -/
noncomputable def reechanFreqR (x : List ℝ) (lom : ℝ) : Option (List ℝ) :=
  if lom = 1 then some x
  else (rfft trigoC reC Complex.I (enC x)).bind fun X => (reechSpectre X x.length lom).map fun y => y.map Complex.re

/-- `rééchan_freq<cfloat>(x, lom)`: the same code, hence the same `real`.  core/src/fourier/fourier.cc:1389-1417, 1424 -/
noncomputable def reechanFreqC (x : List ℂ) (lom : ℝ) : Option (List ℂ) :=
  if lom = 1 then some x
  else (fft trigoC x).bind fun X => (reechSpectre X x.length lom).map fun y => y.map reC

/-! ### Chirp transform -/

/-- The sequence `h` of `2 nm - 1` points.  core/src/fourier/fourier.cc:1351-1357 -/
noncomputable def cztH (W : ℂ) (nm : ℕ) : List ℂ :=
  (List.range (2 * nm - 1)).map fun i : ℕ =>
    if i < nm then W ^ (-(1 / 2) * (i : ℂ) * i : ℂ) else W ^ (-(1 / 2) * ((2 * nm - 1 - i : ℕ) : ℂ) * ((2 * nm - 1 - i : ℕ) : ℂ) : ℂ)

/-- `g(i) = x(i) * pow(z0, -i) / h(nm + i - 1)`.  core/src/fourier/fourier.cc:1361-1366 -/
noncomputable def cztG (z0 : ℂ) (nm : ℕ) (h x : List ℂ) : Option (List ℂ) :=
  (List.range x.length).mapM fun i =>
    match h[nm + i - 1]? with
    | none => none
    | some v => if v = 0 then none else some (x.getD i 0 * z0 ^ (-(i : ℤ)) / v)

/-- `czt(x, m, W, z0)` (the tests for NaN are not modelled).  core/src/fourier/fourier.cc:1346-1387 -/
noncomputable def czt (x : List ℂ) (m : ℕ) (W z0 : ℂ) : Option (List ℂ) := do
  let n := x.length
  let nm := max n m
  let h := cztH W nm
  let g ← cztG z0 nm h x
  let hm ← segment h (nm - 1) m
  let hc ← ecrit (List.replicate (m + n - 1) 0) 0 hm
  let hq ← segment h (nm - n) (n - 1)
  let hc ← ecritQueue hc hq
  let gc ← ecrit (List.replicate (m + m - 1) 0) 0 g
  let Hc ← fft trigoC hc
  let Gc ← fft trigoC gc
  let P ← produit Hc Gc
  let hcg ← ifft trigoC P
  let r ← segment hcg 0 m
  if r.length = hm.length then some (List.zipWith (· / ·) r hm) else none

end Verif.Fourier
