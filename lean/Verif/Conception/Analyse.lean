/-
Model of core/src/filtrage/filtre-analyse.cc: frequency, phase, group delay, impulse and step responses of a design, and automatic analysis of a filter.

Exact real arithmetic; the magnitudes in dB are extended reals (the logarithm of 0 is `-∞`).  The evaluation of a fraction at a pole (infinite or not-a-number in C++) follows the
convention `x / 0 = 0`.  Descriptions, messages and figures are not modelled.
-/
import Verif.Conception.Cs
import Verif.Conception.Rif
import Verif.Fourier.Delais
import Verif.Poly.Model
import Mathlib.Data.EReal.Basic
import Mathlib.Data.EReal.Operations
import Mathlib.Analysis.SpecialFunctions.Complex.Arg
import Mathlib.Analysis.SpecialFunctions.Log.Base

namespace Verif.Conception

open Verif.Fourier Verif.FracRat

/-! ### Designs -/

/-- `struct Design`: the three families of filters.  core/include/tsd/filtrage.hpp:24-85 -/
inductive Design where
  | rif (coefs : List ℝ)
  | reel (frat : FRat ℝ)
  | complexe (frat : FRat ℂ)

/-- `as_complex()` on the coefficients of a polynomial, same mode and factor.  core/include/tsd/filtrage.hpp:70-72 -/
noncomputable def polyComplexe (p : Poly ℝ) : Poly ℂ := { coefs := p.coefs.map fun v : ℝ => (v : ℂ), racines := p.racines, mlt := (p.mlt : ℂ) }

/-- `complex_frat()`.  core/include/tsd/filtrage.hpp:56-77 -/
noncomputable def Design.fratComplexe : Design → FRat ℂ
  | .rif h => ⟨polyComplexe (FRat.rif h).numer, polyComplexe (FRat.rif h).denom⟩
  | .reel f => ⟨polyComplexe f.numer, polyComplexe f.denom⟩
  | .complexe f => f

/-- Point of the unit circle of normalised frequency `f`: `std::polar(1, 2πf)`.  core/src/filtrage/filtre-analyse.cc:238, 276 -/
noncomputable def cercle (f : ℝ) : ℂ := Complex.exp (2 * Real.pi * f * Complex.I)

/-! ### Responses -/

/-- `repfreq(d, fr)`.  core/src/filtrage/filtre-analyse.cc:273-277 -/
noncomputable def repfreq (d : Design) (fr : List ℝ) : List ℂ := fr.map fun f : ℝ => d.fratComplexe.horner (id : ℂ → ℂ) (cercle f)

/-- The grid `linspace(0, 0.5 - 0.5/n, n)`.  core/src/filtrage/filtre-analyse.cc:237, 287, 296 -/
noncomputable def grilleFreq (n : ℕ) : List ℝ := Util.linspace 0 (0.5 - 0.5 / (n : ℝ)) n

/-- `frmag_rif(h, npts)`: the assignment to `head` fails when `h` is longer than the zero vector.  core/src/filtrage/filtre-analyse.cc:280-289 -/
noncomputable def frmagRif (h : List ℝ) (npts : ℕ) : Option (List ℝ × List ℝ) := do
  let n := max npts (h.length / 2)
  let h2 ← ecrit (List.replicate (2 * n) (0 : ℝ)) 0 h
  let H ← rfft trigoC reC Complex.I (enC h2)
  if n ≤ H.length then some (grilleFreq n, ((H.map fun z : ℂ => ‖z‖).take n).map fun v : ℝ => v * Real.sqrt (2 * n)) else none

/-- `frmag(d, npts)`.  core/src/filtrage/filtre-analyse.cc:291-298 -/
noncomputable def frmag (d : Design) (npts : ℕ) : Option (List ℝ × List ℝ) :=
  match d with
  | .rif h => frmagRif h npts
  | d => some (grilleFreq npts, (repfreq d (grilleFreq npts)).map fun z : ℂ => ‖z‖)

/-- `frphase(d, n)`.  core/src/filtrage/filtre-analyse.cc:235-244 -/
noncomputable def frphase (d : Design) (n : ℕ) : Option (List ℝ × List ℝ) :=
  (Util.deplie Real.pi (2 * Real.pi) ((repfreq d (grilleFreq n)).map Complex.arg)).map fun φ : List ℝ => (grilleFreq n, φ)

/-- `frgroup(d, npts)`; not-a-number is `none` (inside the list); the magnitudes are computed too, and not used (their computation may fail); less than
two points: access outside of the vectors.  core/src/filtrage/filtre-analyse.cc:247-271 -/
noncomputable def frgroup (d : Design) (npts : ℕ) : Option (List ℝ × List (Option ℝ)) :=
  (frphase d npts).bind fun p : List ℝ × List ℝ => (frmag d npts).bind fun _ =>
    if 2 ≤ npts then
      let pas := 2 * Real.pi * (p.1.getD 1 0 - p.1.getD 0 0)
      let dφ := fun k : ℕ => p.2.getD (k + 1) 0 - p.2.getD k 0
      let retard := fun k : ℕ => if |dφ k| > Real.pi / 2 then none else some (-dφ k / pas)
      some (p.1, (List.range npts).map fun k : ℕ => retard (if k = npts - 1 then npts - 2 else k))
    else none

/-- `filtrer(d, x)` on real signals; `sois` stands for `filtre_sois(frat)->step` (designs which are not FIR), `FRat::est_rif` fails on an empty denominator.
core/include/tsd/filtrage.hpp:1684-1711 -/
noncomputable def filtrer (sois : List ℝ → Option (List ℝ)) (d : Design) (x : List ℝ) : Option (List ℝ) :=
  match d with
  | .rif h => convolRif h x
  | .complexe _ => sois x
  | .reel f => f.estRif.bind fun b : Bool => if b then convolRif f.numer.coefs.reverse x else sois x

/-- `repech(d, npts)`, `none` standing for the default value -1.  core/src/filtrage/filtre-analyse.cc:300-311 -/
noncomputable def repech (sois : List ℝ → Option (List ℝ)) (d : Design) (npts : Option ℕ) : Option (List ℝ) :=
  let n := npts.getD (match d with | .rif h => 2 * h.length | _ => 200)
  filtrer sois d (List.replicate n 1)

/-- The loop which removes the small last samples, at most `k` iterations (`r.length` iterations suffice).  core/src/filtrage/filtre-analyse.cc:325-326 -/
noncomputable def tronque : ℕ → List ℝ → List ℝ
  | 0, r => r
  | k + 1, r =>
    if 1 < r.length ∧ |r.getD (r.length - 1) 0| < (r.map fun v : ℝ => |v|).sum / r.length * 0.01 then tronque k (r.take (r.length - 1)) else r

/-- Number of coefficients of the numerator (roots in the root mode).  core/src/filtrage/filtre-analyse.cc:320 -/
def Design.nbCoefs : Design → ℕ
  | .rif h => h.length
  | .reel f => f.numer.coefs.length
  | .complexe f => f.numer.coefs.length

/-- `repimp(d, npts)`; `sigimp(npts)` is an impulse at 0 (and fails on an empty vector).  core/src/filtrage/filtre-analyse.cc:313-329 -/
noncomputable def repimp (sois : List ℝ → Option (List ℝ)) (d : Design) (npts : Option ℕ) : Option (List ℝ) :=
  match d with
  | .rif h => some h
  | d =>
    let n := npts.getD (d.nbCoefs * 20)
    if n = 0 then none
    else (filtrer sois d (1 :: List.replicate (n - 1) 0)).map fun r : List ℝ => tronque r.length r

/-! ### Analysis -/

/-- `TypeFiltre`, the five values.  core/include/tsd/filtrage.hpp:462-472 -/
inductive TypeAnalyse | passeBas | passeHaut | passeBande | coupeBande | autre
  deriving DecidableEq

/-- Classification from the first and last magnitudes (the third and fourth tests use the last magnitude twice).  core/src/filtrage/filtre-analyse.cc:55-71 -/
noncomputable def classe (m0 m1 : ℝ) : TypeAnalyse :=
  if m0 > 1 - 0.2 ∧ m1 < 0.2 then .passeBas
  else if m1 > 1 - 0.2 ∧ m0 < 0.2 then .passeHaut
  else if m1 > 1 - 0.2 ∧ m1 > 1 - 0.2 then .coupeBande
  else if m1 < 0.2 ∧ m1 < 0.2 then .passeBande
  else if m0 > 1 - 0.2 ∧ m1 < m0 then .passeBas
  else if m1 > 1 - 0.2 ∧ m0 < m1 then .passeHaut
  else .autre

/-- `mag2db`: `20 log10(m)`, `-∞` at 0 (`m ≥ 0`).  core/include/tsd/tsd.hpp:414-436 -/
noncomputable def enDb (m : ℝ) : EReal := if m = 0 then ⊥ else ((2 * (10 * Real.logb 10 m) : ℝ) : EReal)

/-- Largest element and its first index (`maxCoeff(&i)`), extended reals; `i` is the next index.  core/src/tableau.cc:629-653 -/
noncomputable def maxDe : List EReal → ℕ → ℕ × EReal → ℕ × EReal
  | [], _, b => b
  | v :: l, i, b => maxDe l (i + 1) (if b.2 < v then (i, v) else b)

/-- `maxCoeff(&i)` of a vector; value 0 and index 0 for an empty one.  core/src/tableau.cc:629-653 -/
noncomputable def maxIndice : List EReal → ℕ × EReal
  | [] => (0, 0)
  | v :: l => maxDe l 1 (0, v)

/-- Indices found by the analysis (-1: not found) and attenuations of the side lobes. -/
structure Lobes where
  i3 : ℤ
  i6 : ℤ
  premier : ℤ
  pire : ℤ
  attenPremier : EReal
  attenPire : EReal
  debut : ℤ

/-- Search of the widths and of the side lobes; `npts` is 4096 in `analyse_filtre`, even when `db` is longer.
core/src/filtrage/filtre-analyse.cc:100-131, 177-193 -/
noncomputable def lobes (npts : ℕ) (t : TypeAnalyse) (db : List EReal) : Option Lobes :=
  let i3 : ℤ := if t = .passeBas then Util.trouvePremier (db.map fun v : EReal => decide (v < (-3 : ℝ)))
    else if t = .passeHaut then Util.trouveDernier (db.map fun v : EReal => decide (((-3 : ℝ) : EReal) ≤ v)) else -1
  let i6 : ℤ := if t = .passeBas then Util.trouvePremier (db.map fun v : EReal => decide (v < (-6 : ℝ)))
    else if t = .passeHaut then Util.trouveDernier (db.map fun v : EReal => decide (((-6 : ℝ) : EReal) ≤ v)) else -1
  if 0 ≤ i3 then
    (queueZ db ((npts : ℤ) - i3)).bind fun q : List EReal =>
      let j := Util.maxLocal q
      let p : ℤ := if 0 ≤ j then j + i3 else (npts : ℤ) - 1
      (queueZ db ((npts : ℤ) - p)).bind fun q2 : List EReal =>
        (db[p.toNat]?).map fun vp : EReal =>
          let m := maxIndice q2
          ⟨i3, i6, p, (m.1 : ℤ) + p, -vp, -m.2, Util.trouvePremier (db.map fun v : EReal => decide (v < -(-m.2)))⟩
  else some ⟨i3, i6, -1, -1, 0, 0, Util.trouvePremier (db.map fun v : EReal => decide (v < -(0 : EReal)))⟩

/-- `idx2freq`.  core/src/filtrage/filtre-analyse.cc:165-170 -/
noncomputable def indiceFreq (i : ℤ) : ℝ := if i < 0 then -1 else (i : ℝ) / (2 * 4096)

/-- `AnalyseFiltre`.  core/include/tsd/filtrage.hpp:475-530 -/
structure Analyse where
  type : TypeAnalyse
  typeRif : ℤ
  gainDc : ℝ
  gainNyquist : ℝ
  largeur : ℝ
  largeur6 : ℝ
  attenPremier : EReal
  freqPremier : ℝ
  attenPire : EReal
  freqPire : ℝ
  debut : ℝ

/-- `analyse_filtre(d)`; an unknown type returns the default values.  core/src/filtrage/filtre-analyse.cc:45-228 -/
noncomputable def analyseFiltre (sois : List ℝ → Option (List ℝ)) (d : Design) : Option Analyse := do
  let (_, mag) ← frmag d 4096
  let hr ← repimp sois d none
  let m0 ← mag[0]?
  let m1 ← mag[4096 - 1]?
  let t := classe m0 m1
  if t = .autre then some ⟨.autre, -1, 0, 0, 0, 0, 0, 0, 0, 0, 0⟩
  else
    let tr : ℤ := match d with | .rif _ => typeRif hr | _ => -1
    let H := d.fratComplexe
    let l ← lobes 4096 t (mag.map enDb)
    some ⟨t, tr, ‖H.horner (id : ℂ → ℂ) 1‖, ‖H.horner (id : ℂ → ℂ) (-1)‖, indiceFreq l.i3, indiceFreq l.i6, l.attenPremier, indiceFreq l.premier, l.attenPire, indiceFreq l.pire, indiceFreq l.debut⟩

end Verif.Conception
