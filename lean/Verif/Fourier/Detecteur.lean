import Verif.Fourier.Delais
import Verif.Filtre.Model

/-!
# Model of the pattern detector (core/src/fourier/detection.cc)

Exact arithmetic. An error (or an access outside of a vector) is `none`; a field that is not a number is `none`. The figures, the CPU monitors and the
estimation of the noise (`σ_noise`, `SNR_dB` and the delay line `lar` that is only used there) are not modelled.
-/

namespace Verif.Fourier

/-- `Detection`, core/include/tsd/fourier.hpp:546-573 (without the noise). -/
structure Detection where
  position : ℤ
  positionPrec : Option ℝ
  score : ℝ
  gain : Option ℝ
  theta : Option ℝ

/-- State of the search of the peaks: parameters (`M`, `N`, the delay of the correlation, the threshold, the norm of the pattern), last two values of the
correlation and of the score, pending final peak, size of the last block.  core/src/fourier/detection.cc:68-108, 205-207 -/
structure Chercheur where
  M : ℕ
  N : ℕ
  delais : ℕ
  seuil : ℝ
  norme : ℝ
  lc : ℂ
  lc0 : ℂ
  alc : ℝ
  alc0 : ℝ
  picFinal : Option Detection
  dernierN : ℕ

/-- Suppression of the small values, core/src/fourier/detection.cc:244-249 (`sqrt(1e-12)`). -/
noncomputable def seuille (corr : List ℂ) : List ℂ := corr.map fun c : ℂ => if ‖c‖ ≤ 1 / 10 ^ 6 then 0 else c

/-- Normalised correlation, core/src/fourier/detection.cc:234, 251. -/
noncomputable def normaliseCorr (N M : ℕ) (corr : List ℂ) (en : List ℝ) : List ℝ :=
  List.zipWith (fun (c : ℂ) (e : ℝ) => Real.sqrt N / Real.sqrt M * Real.sqrt (‖c‖ ^ 2 / (e + 1 / 10 ^ 20))) corr en

/-- Erosion: in each segment of `M` values, only the (first) largest one is kept.  core/src/fourier/detection.cc:268-275
(each segment is written once; value `j` belongs to the segment that starts at `j / M * M`). -/
noncomputable def erosion (M : ℕ) (y : List ℝ) : List ℝ :=
  (List.range y.length).map fun j : ℕ => if j = j / M * M + indexMax ((y.drop (j / M * M)).take M) then y.getD j 0 else 0

/-- Values above the threshold, core/src/fourier/detection.cc:277, core/src/tsd.cc:519-526. -/
noncomputable def candidats (M : ℕ) (seuil : ℝ) (y : List ℝ) : List ℕ := (List.range y.length).filter fun j : ℕ => seuil < (erosion M y).getD j 0

open Classical in
/-- Candidates without a larger one at less than `M` samples, core/src/fourier/detection.cc:288-303. -/
noncomputable def pics (M : ℕ) (seuil : ℝ) (y : List ℝ) : List ℕ :=
  (candidats M seuil y).filter fun i : ℕ => ¬ ∃ j ∈ candidats M seuil y, y.getD i 0 < y.getD j 0 ∧ |(i : ℤ) - (j : ℤ)| < M

/-- Quadratic interpolation followed by the clamp to ±1/2, core/src/fourier/detection.cc:406-413, 10-14: `0 / 0` is not a number (which passes through the
comparisons), and a division of a non-null number by zero gives an infinity, that is clamped. -/
noncomputable def qintDet (a0 a1 a2 : ℝ) : Option ℝ :=
  if 2 * a1 - a2 - a0 = 0 then (if a2 = a0 then none else if a0 < a2 then some (1 / 2) else some (-1 / 2))
  else
    let δ := (a2 - a0) / (2 * (2 * a1 - a2 - a0))
    if δ < -1 / 2 ∨ 1 / 2 < δ then some (max (-1 / 2) (min (1 / 2) δ)) else some δ

/-- Quadratic interpolation, gain and phase, core/src/fourier/detection.cc:406-423, 17-21. -/
noncomputable def affine (s : Chercheur) (d : Detection) (a0 a1 a2 : ℝ) (c0 c1 c2 : ℂ) : Detection :=
  match qintDet a0 a1 a2 with
  | none => { d with positionPrec := none, gain := none, theta := none }
  | some δ =>
    let g : ℂ := (c1 - (c0 - c2) * (δ : ℂ) * (1 / 4)) * ((Real.sqrt s.N / s.norme : ℝ) : ℂ)
    { d with positionPrec := d.positionPrec.map (· + δ), gain := some ‖g‖, theta := some (Complex.arg g) }

/-- A detection at index `idx` before the interpolation, core/src/fourier/detection.cc:340-356. -/
noncomputable def brute (s : Chercheur) (y : List ℝ) (corr : List ℂ) (idx : ℕ) : Detection :=
  { position := (idx : ℤ) - s.delais, positionPrec := some (((idx : ℤ) - s.delais : ℤ) : ℝ), score := y.getD idx 0, gain := some (‖corr.getD idx 0‖ / (s.norme / Real.sqrt s.N)), theta := some (Complex.arg (corr.getD idx 0)) }

/-- Processing of one index (`none`: the pending final peak of the last block), core/src/fourier/detection.cc:318-471. The result is the detection
to report, `inl none` when the whole loop is left without anything, `inl (some d)` when it is left with `d` as the new pending peak; the
access to the second value of a block of one sample is an error. -/
noncomputable def traite (s : Chercheur) (y : List ℝ) (corr : List ℂ) : Option ℕ → Option (Option Detection ⊕ Detection)
  | none =>
    match s.picFinal with
    | none => none
    | some d =>
      let d := { d with position := d.position - s.dernierN, positionPrec := d.positionPrec.map (· - s.dernierN) }
      if s.alc < y.getD 0 0 then some (.inl none) else some (.inr (affine s d s.alc0 s.alc (y.getD 0 0) s.lc0 s.lc (corr.getD 0 0)))
  | some 0 =>
    if y.length < 2 then none
    else if y.getD 0 0 < s.alc then some (.inl none)
    else some (.inr (affine s (brute s y corr 0) s.alc (y.getD 0 0) (y.getD 1 0) s.lc (corr.getD 0 0) (corr.getD 1 0)))
  | some (i + 1) =>
    if i + 1 = y.length - 1 then some (.inl (some (brute s y corr (i + 1))))
    else some (.inr (affine s (brute s y corr (i + 1)) (y.getD i 0) (y.getD (i + 1) 0) (y.getD (i + 2) 0) (corr.getD i 0) (corr.getD (i + 1) 0) (corr.getD (i + 2) 0)))

/-- The loop on the indexes: reported detections and new pending peak. The noise is estimated on `M - 2` samples (line 456), which
is an error when `M = 1`.  core/src/fourier/detection.cc:318-474 -/
noncomputable def boucleDet (s : Chercheur) (y : List ℝ) (corr : List ℂ) : List (Option ℕ) → Option (List Detection × Option Detection)
  | [] => some ([], none)
  | i :: l =>
    match traite s y corr i with
    | none => none
    | some (.inl p) => some ([], p)
    | some (.inr d) => if s.M < 2 then none else (boucleDet s y corr l).map fun r : List Detection × Option Detection => (d :: r.1, r.2)

/-- `step` after the computation of the correlation and of the energy, core/src/fourier/detection.cc:222-489. The last two values of the block are read (lines
480-484): a block of less than two samples is an error. -/
noncomputable def Chercheur.step (s : Chercheur) (corr : List ℂ) (en : List ℝ) : Option (Chercheur × List ℝ × List Detection) :=
  if corr.length ≠ en.length ∨ corr.length < 2 then none
  else
    let corr := seuille corr
    let y := normaliseCorr s.N s.M corr en
    let n := y.length
    (boucleDet s y corr ((if s.picFinal.isSome then [none] else []) ++ (pics s.M s.seuil y).map some)).map fun r : List Detection × Option Detection =>
      ({ s with picFinal := r.2, alc0 := y.getD (n - 2) 0, lc0 := corr.getD (n - 2) 0, alc := y.getD (n - 1) 0, lc := corr.getD (n - 1) 0, dernierN := n }, y, r.1)

/-- Norm of the pattern, core/include/tsd/tableau.hpp:685-693. -/
noncomputable def normeMotif (h : List ℂ) : ℝ := Real.sqrt ((h.map fun v : ℂ => ‖v‖ ^ 2).sum)

/-- Coefficients of the correlation filter in the mode `MODE_RIF`, core/src/fourier/detection.cc:177-192: the imaginary part of the pattern is dropped when it is
relatively small. -/
noncomputable def coefsMotif (m : List ℂ) : List ℂ :=
  if (m.map fun v : ℂ => |v.im|).sum / (m.map fun v : ℂ => ‖v‖).sum < 1 / 10 ^ 7 then m.reverse.map fun v : ℂ => (v.re : ℂ)
  else m.reverse.map fun v : ℂ => (starRingEnd ℂ) v

/-- The detector in the mode `MODE_RIF`: correlation filter, energy filter and search of the peaks.  core/src/fourier/detection.cc:68-108 -/
structure DetRif where
  rif : Filtre.Rif ℂ ℂ
  mg : Filtre.Mg ℝ
  ch : Chercheur

/-- `configure_impl` in the mode `MODE_RIF`, core/src/fourier/detection.cc:120-199; a null pattern gives a division by zero. -/
noncomputable def DetRif.cree (h : List ℂ) (seuil : ℝ) : Option DetRif :=
  let r := normeMotif h
  if r = 0 then none
  else some ⟨Filtre.Rif.init 0 (coefsMotif (h.map fun v : ℂ => v / (r : ℂ))), Filtre.Mg.init 0 h.length, ⟨h.length, 1, h.length - 1, seuil, r, 0, 0, 0, 0, none, 0⟩⟩

/-- `step` in the mode `MODE_RIF`: normalised correlation and detections, core/src/fourier/detection.cc:209-490. -/
noncomputable def DetRif.step (s : DetRif) (x : List ℂ) : Option (DetRif × List ℝ × List Detection) :=
  (Filtre.Mg.step (· + ·) (· - ·) (fun a : ℝ => a * (1 / (s.ch.M : ℝ))) s.mg (x.map fun v : ℂ => ‖v‖ ^ 2)).bind fun e : Filtre.Mg ℝ × List ℝ =>
    (Filtre.Rif.step (0 : ℂ) (· + ·) (· * ·) s.rif x).bind fun c : Filtre.Rif ℂ ℂ × List ℂ =>
      (s.ch.step c.2 e.2).map fun r : Chercheur × List ℝ × List Detection => (⟨c.1, e.1, r.1⟩, r.2)

/-- Successive blocks: final state, concatenated scores, and the detections of each block. -/
noncomputable def DetRif.flux : DetRif → List (List ℂ) → Option (DetRif × List ℝ × List (List Detection))
  | s, [] => some (s, [], [])
  | s, x :: xs => (s.step x).bind fun r : DetRif × List ℝ × List Detection => (DetRif.flux r.1 xs).map fun q : DetRif × List ℝ × List (List Detection) => (q.1, r.2.1 ++ q.2.1, r.2.2 :: q.2.2)

end Verif.Fourier
