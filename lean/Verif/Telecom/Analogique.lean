import Verif.Signaux.Model
import Verif.Conception.Rif

/-!
# Model of the analogue modulations (core/src/telecom/analogique.cc)

Exact arithmetic; the resampler `ra` and the audio filters are parameters. A division by zero (not a number) is `none`. The debug figures are not modelled.
-/

namespace Verif.Telecom

/-! ## FM discriminator -/

/-- State of `FMDiscri`, core/src/telecom/analogique.cc:19-23: the output of the first loop (lines 43-55) is overwritten by the second one, so that only `last` matters. -/
structure Discri where
  last : ℂ

/-- Initial state, core/src/telecom/analogique.cc:23. -/
def Discri.initial : Discri := ⟨0⟩

/-- `step`: polar discrimination, core/src/telecom/analogique.cc:59-66; `arg(0) = 0`. -/
noncomputable def Discri.step (s : Discri) : List ℂ → Discri × List ℝ
  | [] => (s, [])
  | x :: l =>
    let r := Discri.step ⟨x⟩ l
    (r.1, Complex.arg (x * (starRingEnd ℂ) s.last) :: r.2)

/-! ## AM modulator -/

/-- `AMConfig::Mode`, core/include/tsd/telecom.hpp:1897-1907. -/
inductive ModeAM where
  | DSB
  | DSBSansPorteuse
  | LSB
  | USB
deriving DecidableEq

/-- `est_BLU`, core/include/tsd/telecom.hpp:1910. -/
def ModeAM.estBLU : ModeAM → Bool
  | .LSB => true
  | .USB => true
  | _ => false

/-- State of `ModulateurAM`, core/src/telecom/analogique.cc:78-82 (without `ra`). -/
structure ModAM where
  mode : ModeAM
  indice : ℝ
  ol : Signaux.OHC
  hilbert : Option Conception.Hilbert

/-- `configure_impl`, core/src/telecom/analogique.cc:88-98; `f` is `f_rf / fe_rf`. -/
noncomputable def ModAM.cree (mode : ModeAM) (indice f : ℝ) : Option ModAM :=
  let ol := Signaux.OHC.init.configure f
  if mode.estBLU then (Conception.Hilbert.init 255 "hn").map fun h => ⟨mode, indice, ol, some h⟩
  else some ⟨mode, indice, ol, none⟩

/-- `step` after the resampling, core/src/telecom/analogique.cc:107-131: `u` is the resampled signal. -/
noncomputable def ModAM.step : Filtre.Bloc ModAM ℝ ℝ := fun s u =>
  match s.mode with
  | .DSB =>
    let mx := Conception.valeurMax (u.map fun v : ℝ => |v|)
    if mx = 0 ∧ u ≠ [] then none
    else
      let r := s.ol.step u.length
      some ({ s with ol := r.1 }, List.zipWith (fun (v : ℝ) (o : ℂ) => (1 + s.indice * v / mx) * o.re) u r.2)
  | .DSBSansPorteuse =>
    let r := s.ol.step u.length
    some ({ s with ol := r.1 }, List.zipWith (fun (v : ℝ) (o : ℂ) => v * o.re) u r.2)
  | m =>
    s.hilbert.bind fun h => (Conception.Hilbert.step h u).map fun q : Conception.Hilbert × List ℂ =>
      let r := s.ol.step q.2.length
      let signe : ℝ := if m = .LSB then -1 else 1
      ({ s with ol := r.1, hilbert := some q.1 }, List.zipWith (fun (z o : ℂ) => z.re * o.re + signe * z.im * o.im) q.2 r.2)

/-! ## AM demodulator -/

/-- The two audio filters, core/src/telecom/analogique.cc:170-187 (parameters of the model), and the resampler. -/
structure FiltresAM (F R : Type) where
  lp : Filtre.Bloc F ℝ ℝ
  hp : Filtre.Bloc F ℝ ℝ
  ra : Filtre.Bloc R ℝ ℝ

/-- State of `DemodulateurAM`, core/src/telecom/analogique.cc:155-159. -/
structure DemAM (F R : Type) where
  mode : ModeAM
  ol : Signaux.OHC
  blu : Option (Filtre.Rif ℝ ℝ × Filtre.Retard ℝ)
  slp : F
  shp : F
  sra : R

/-- `configure_impl`, core/src/telecom/analogique.cc:165-195; `f` is `f_rf / fe_rf`. -/
noncomputable def DemAM.cree {F R : Type} (mode : ModeAM) (f : ℝ) (slp shp : F) (sra : R) : Option (DemAM F R) :=
  let ol := Signaux.OHC.init.configure (-f)
  if mode.estBLU then (Conception.designRifHilbert 127 "hn").map fun h => ⟨mode, ol, some (Filtre.Rif.init 0 h, Filtre.Retard.init 0 (127 / 2)), slp, shp, sra⟩
  else some ⟨mode, ol, none, slp, shp, sra⟩

/-- Band-pass filtering, core/src/telecom/analogique.cc:318-327 (the two filters are applied to the same signal). -/
noncomputable def DemAM.audio {F R : Type} (c : FiltresAM F R) (s : DemAM F R) (y1 : List ℝ) : Option (DemAM F R × List ℝ) :=
  (c.lp s.slp y1).bind fun a : F × List ℝ => (c.hp s.shp y1).bind fun b : F × List ℝ =>
    if a.2.length = b.2.length then some ({ s with slp := a.1, shp := b.1 }, List.zipWith (· - ·) a.2 b.2) else none

/-- The branch of the double side-band modes, core/src/telecom/analogique.cc:209-217: `y` is computed, then overwritten (line 340). -/
noncomputable def DemAM.dsb {F R : Type} (c : FiltresAM F R) (s : DemAM F R) (rft : List ℝ) : Option (DemAM F R × List ℝ) :=
  (c.lp s.slp rft).bind fun a : F × List ℝ => (c.hp s.shp a.2).bind fun b : F × List ℝ =>
    if a.2.length = b.2.length then
      (c.ra s.sra (List.zipWith (· - ·) a.2 b.2)).map fun q : R × List ℝ => ({ s with slp := a.1, shp := b.1, sra := q.1 }, q.2)
    else none

/-- The branch of the single side-band modes, core/src/telecom/analogique.cc:286-288. -/
noncomputable def DemAM.blu1 {F R : Type} (s : DemAM F R) (rftc : List ℂ) : Option (DemAM F R × List ℝ) :=
  s.blu.bind fun p => (Filtre.Rif.step (0 : ℝ) (· + ·) (· * ·) p.1 (rftc.map Complex.im)).bind fun a : Filtre.Rif ℝ ℝ × List ℝ =>
    (Filtre.Retard.step p.2 (rftc.map Complex.re)).bind fun b : Filtre.Retard ℝ × List ℝ =>
      if a.2.length = b.2.length then some ({ s with blu := some (a.1, b.1) }, List.zipWith (· - ·) b.2 a.2) else none

/-- `step`, core/src/telecom/analogique.cc:199-340: in the double side-band modes `y1` keeps its initial (empty) value, and the final `y` is computed from it. -/
noncomputable def DemAM.step {F R : Type} (c : FiltresAM F R) (s : DemAM F R) (x : List ℂ) : Option (DemAM F R × List ℝ) :=
  let r := s.ol.step x.length
  let s := { s with ol := r.1 }
  let rftc := List.zipWith (· * ·) x r.2
  if s.mode.estBLU then (s.blu1 rftc).bind fun q : DemAM F R × List ℝ => q.1.audio c q.2
  else (s.dsb c (rftc.map Complex.re)).bind fun q : DemAM F R × List ℝ => q.1.audio c []

end Verif.Telecom
