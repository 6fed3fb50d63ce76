import Verif.Fourier.Detecteur
import Verif.Fourier.Ola
import Verif.Fourier.Props

/-!
# Model of the pattern detector with overlap-add correlation (core/src/fourier/detection.cc, mode `MODE_OLA`, the default)

Exact arithmetic. An error (failed assertion, access outside of a vector) is `none`. The noise estimation is not modelled.
-/

namespace Verif.Fourier

/-- `ola_complexité`: cost per input sample and FFT size, core/src/fourier/fourier.cc:708-713. -/
noncomputable def olaComplexite (M Ne : ℕ) : ℝ × ℕ :=
  (1 / (Ne : ℝ) * 2 * 5 * (trigoC.pp2 (Ne + M - 1) : ℝ) * (Real.log (trigoC.pp2 (Ne + M - 1) : ℝ) / Real.log 2), trigoC.pp2 (Ne + M - 1))

/-- The loop of `ola_complexité_optimise` from `k` (`n` iterations left): best cost and block size so far.  core/src/fourier/fourier.cc:720-734 -/
noncomputable def boucleOla (M : ℕ) : ℕ → ℕ → Option (ℝ × ℕ) → Option (ℝ × ℕ)
  | 0, _, b => b
  | n + 1, k, b =>
    let Ne := 2 ^ k - (M - 1)
    let C := (olaComplexite M Ne).1
    boucleOla M n (k + 1) (match b with
      | none => some (C, Ne)
      | some (Cb, Neb) => if C < Cb then some (C, Ne) else some (Cb, Neb))

/-- `ola_complexité_optimise`: the block size, core/src/fourier/fourier.cc:715-735; `kmin = ceil(log2 M)`, `k < kmin + 20`, `k < 31`; `none`: not initialised. -/
noncomputable def olaOptimise (M : ℕ) : Option ℕ := (boucleOla M (min 20 (31 - Nat.clog 2 M)) (Nat.clog 2 M) none).map Prod.snd

/-- The detector in the mode `MODE_OLA`: overlap-add filter, conjugate spectrum of the pattern, energy filter, delay line of the energy, search of the
peaks.  core/src/fourier/detection.cc:68-108 -/
structure DetOla where
  ola : Ola ℂ
  T : List ℂ
  mg : Filtre.Mg ℝ
  lar : Filtre.Retard ℝ
  ch : Chercheur

/-- `configure_impl` in the mode `MODE_OLA` with the block size `Ne0` (0: automatic), core/src/fourier/detection.cc:120-171: a null pattern gives a division by
zero, `2 M ≤ N` is asserted, and a negative delay is an error. -/
noncomputable def DetOla.cree (h : List ℂ) (seuil : ℝ) (Ne0 : ℕ) : Option DetOla :=
  let r := normeMotif h
  if r = 0 then none
  else
    (if Ne0 = 0 then olaOptimise h.length else some Ne0).bind fun Ne : ℕ =>
      let c := OlaCoeur.configure trigoC (Ne : ℤ) (h.length - 1)
      if 2 * h.length ≤ c.N ∧ h.length ≤ c.Ne + 1 then
        (fft trigoC ((h.map fun v : ℂ => v / (r : ℂ)) ++ List.replicate (c.N - h.length) 0)).map fun T : List ℂ =>
          ⟨Ola.creation c, T.map star, Filtre.Mg.init 0 h.length, Filtre.Retard.init 0 (c.Ne + 1 - h.length), ⟨h.length, c.N, c.Ne, seuil, r, 0, 0, 0, 0, none, 0⟩⟩
      else none

/-- `step` in the mode `MODE_OLA`, core/src/fourier/detection.cc:209-490 (the sizes are compared in `Chercheur.step`). -/
noncomputable def DetOla.step (s : DetOla) (x : List ℂ) : Option (DetOla × List ℝ × List Detection) :=
  (Filtre.Mg.step (· + ·) (· - ·) (fun a : ℝ => a * (1 / (s.ch.M : ℝ))) s.mg (x.map fun v : ℂ => ‖v‖ ^ 2)).bind fun e : Filtre.Mg ℝ × List ℝ =>
    (Filtre.Retard.step s.lar e.2).bind fun l : Filtre.Retard ℝ × List ℝ =>
      (s.ola.step trigoC (fun X => produit X s.T) x).bind fun c : Ola ℂ × List ℂ =>
        (s.ch.step c.2 l.2).map fun r : Chercheur × List ℝ × List Detection => (⟨c.1, s.T, e.1, l.1, r.1⟩, r.2)

/-- Successive blocks: final state, concatenated scores, and the detections of each block. -/
noncomputable def DetOla.flux : DetOla → List (List ℂ) → Option (DetOla × List ℝ × List (List Detection))
  | s, [] => some (s, [], [])
  | s, x :: xs => (s.step x).bind fun r : DetOla × List ℝ × List Detection => (DetOla.flux r.1 xs).map fun q : DetOla × List ℝ × List (List Detection) => (q.1, r.2.1 ++ q.2.1, r.2.2 :: q.2.2)

end Verif.Fourier
