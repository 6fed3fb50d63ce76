/-
Model of core/src/fourier/goertzel.cc and core/src/fourier/freqestim.cc: Goertzel filter, frequency
grids, frequency estimation.

Arithmetic is exact (real and complex numbers). A result that is not a number (division by zero) is
`none`, as is a failed assertion or an integer division by zero.
-/
import Verif.Fourier.Props
import Verif.Filtre.Props
import Verif.Tampon.Props
import Verif.Util.Props
import Mathlib.Analysis.SpecialFunctions.Trigonometric.Arctan

namespace Verif.Fourier

open Verif.Filtre

/-! ### Goertzel -/

/-- One step of the recursive filter.  core/src/fourier/goertzel.cc:15-16, 56 -/
def goertzelPas (c : ℝ) (w : ℝ × ℝ) (x : ℝ) : ℝ × ℝ := (2 * c * w.1 - w.2 + x, w.1)

/-- Last step (null sample) and energy.  core/src/fourier/goertzel.cc:25-28, 62-66 -/
def goertzelFin (c : ℝ) (w : ℝ × ℝ) : ℝ :=
  let w0 := 2 * c * w.1 - w.2
  let w1 := w.1
  2 * (w0 * w0 - 2 * c * w0 * w1 + w1 * w1)

/-- Division, `none` when the divisor is zero (not a number, or infinite). -/
noncomputable def divise (a b : ℝ) : Option ℝ := if b = 0 then none else some (a / b)

/-- `goertzel(x, f)`.  core/src/fourier/goertzel.cc:7-29 -/
noncomputable def goertzel (x : List ℝ) (f : ℝ) : Option ℝ :=
  let c := Real.cos (2 * Real.pi * f)
  let en := (x.map fun v => v * v).sum
  divise (goertzelFin c (x.foldl (goertzelPas c) (0, 0))) (en * x.length)

/-- `struct Goertzel`.  core/src/fourier/goertzel.cc:32-46 -/
structure Goertzel where
  w : ℝ × ℝ
  c : ℝ
  cnt : ℕ
  R : ℕ
  mg : Mg ℝ

/-- Constructor.  core/src/fourier/goertzel.cc:41-46 -/
noncomputable def Goertzel.init (f : ℝ) (R : ℕ) : Goertzel :=
  { w := (0, 0), c := Real.cos (2 * Real.pi * f), cnt := 0, R := R, mg := Mg.init 0 R }

/-- The loop on the samples, with the energies `en` already computed.
core/src/fourier/goertzel.cc:54-72 -/
noncomputable def Goertzel.boucle (c : ℝ) (R : ℕ) :
    List ℝ → List ℝ → ℝ × ℝ → ℕ → Option ((ℝ × ℝ) × ℕ × List (Option ℝ))
  | [], _, w, cnt => some (w, cnt, [])
  | _ :: _, [], _, _ => none
  | x :: xs, e :: es, w, cnt =>
    let w' := goertzelPas c w x
    if R ≤ cnt + 1 then
      match Goertzel.boucle c R xs es (0, 0) 0 with
      | some (w'', cnt'', y) => some (w'', cnt'', divise (goertzelFin c w') (R * e * R) :: y)
      | none => none
    else Goertzel.boucle c R xs es w' (cnt + 1)

/-- `step(x)`, with the assertion on the number of outputs.  core/src/fourier/goertzel.cc:49-74 -/
noncomputable def Goertzel.step : Bloc Goertzel ℝ (Option ℝ) := fun s x =>
  if s.R = 0 then none
  else
    match Mg.step (· + ·) (· - ·) (fun a => a * (1 / (s.R : ℝ))) s.mg (x.map fun v => v * v) with
    | none => none
    | some (mg, en) =>
      match Goertzel.boucle s.c s.R x en s.w s.cnt with
      | none => none
      | some (w, cnt, y) =>
        if y.length = (x.length + s.cnt) / s.R then some ({ s with w := w, cnt := cnt, mg := mg }, y)
        else none

/-! ### Frequency grids -/

/-- `tfd_freqs(n, avec_shift)`.  core/src/fourier/freqestim.cc:22-43 -/
def tfdFreqs (n : ℕ) (avecShift : Bool) : List ℚ :=
  if avecShift then
    if n % 2 = 0 then Util.linspace (K := ℚ) (-1 / 2) (1 / 2 - 1 / n) n
    else Util.linspace (K := ℚ) (-1 / 2 + 1 / n) (1 / 2) n
  else if n % 2 = 0 then
    Util.linspace (K := ℚ) 0 (1 / 2 - 1 / n) (n / 2) ++ Util.linspace (K := ℚ) (-1 / 2) (-1 / n) (n / 2)
  else
    Util.linspace (K := ℚ) 0 (1 / 2 - (1 / 2) / n) (n / 2 + 1) ++ Util.linspace (K := ℚ) (-1 / 2) (-1 / n) (n / 2)

/-- `psd_freqs(n, complexe)`.  core/src/fourier/freqestim.cc:45-91 -/
def psdFreqs (n : ℕ) (complexe : Bool) : List ℚ :=
  if complexe then
    if n % 2 = 0 then Util.linspace (K := ℚ) (-1 / 2) (1 / 2 - 1 / n) n
    else Util.linspace (K := ℚ) (-1 / 2 + 1 / n) (1 / 2) n
  else Util.linspace (K := ℚ) 0 (if n % 2 = 1 then 1 / 2 - 1 / n else 1 / 2) (n / 2)

/-! ### Frequency estimation -/

/-- Index of the maximum: `i` is the next index, `b` the best one and `vb` its value.
core/src/tableau.cc:629-653 -/
noncomputable def indexMaxDe : List ℝ → ℕ → ℕ → ℝ → ℕ
  | [], _, b, _ => b
  | v :: l, i, b, vb => if vb < v then indexMaxDe l (i + 1) i v else indexMaxDe l (i + 1) b vb

/-- `index_max()`; 0 for an empty vector.  core/include/tsd/tableau.hpp:413-418 -/
noncomputable def indexMax : List ℝ → ℕ
  | [] => 0
  | v :: l => indexMaxDe l 1 0 v

/-- The three bins around the maximum.  core/src/fourier/freqestim.cc:99-103, 117-121 -/
noncomputable def voisins (X : List ℂ) (k : ℕ) : Option (ℂ × ℂ × ℂ) :=
  match X[(k + X.length - 1) % X.length]?, X[k]?, X[(k + 1) % X.length]? with
  | some a, some b, some c => some (a, b, c)
  | _, _, _ => none

/-- `fréq_estim_candan2`, from the spectrum.  core/src/fourier/freqestim.cc:94-110 -/
noncomputable def candan2 (X : List ℂ) : Option ℝ :=
  let n : ℝ := X.length
  let k := indexMax (X.map (‖·‖))
  match voisins X k with
  | none => none
  | some (X1, X2, X3) =>
    if 2 * X2 - X3 - X1 = 0 then none
    else
      let p := ((X1 - X3) / (2 * X2 - X3 - X1)).re
      let p := p * (Real.tan (Real.pi / n) / (Real.pi / n))
      let p := Real.arctan (p * Real.pi / n) / (Real.pi / n)
      some ((k + p) / n)

/-- `fréq_estim_quadratique`, from the spectrum.  core/src/fourier/freqestim.cc:112-126 -/
noncomputable def quadratique (X : List ℂ) : Option ℝ :=
  let n : ℝ := X.length
  let k := indexMax (X.map (‖·‖))
  match voisins X k with
  | none => none
  | some (X1, X2, X3) =>
    if 2 * ‖X2‖ - ‖X3‖ - ‖X1‖ = 0 then none
    else
      let p := (1 / 2) * (‖X3‖ - ‖X1‖) / (2 * ‖X2‖ - ‖X3‖ - ‖X1‖)
      some ((k + p) / n)

/-- `FreqEstimMethode`.  core/include/tsd/fourier.hpp:822-831 -/
inductive Methode where
  | fft
  | candan2
  | quadratique

/-- `freqestim(x, m)`.  core/src/fourier/freqestim.cc:126-156 -/
noncomputable def freqestim (x : List ℂ) (m : Methode) : Option ℝ :=
  match fft trigoC x with
  | none => none
  | some X =>
    let res := match m with
      | .fft => some ((indexMax (X.map (‖·‖)) : ℝ) / x.length)
      | .candan2 => candan2 X
      | .quadratique => quadratique X
    res.map fun r => if 1 / 2 < r ∧ r ≤ 1 then r - 1 else r

end Verif.Fourier
