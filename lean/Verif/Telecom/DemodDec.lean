import Verif.Telecom.Canal
import Verif.Telecom.Formes
import Verif.Telecom.Porteuse
import Verif.Itrp.Model
import Verif.Signaux.Model

/-!
# Model of the decision-directed demodulator (core/src/telecom/demod-dec.cc), the default architecture of `démodulateur_création`

Exact real arithmetic instead of `float`. The oversampling factor is an integer (the code warns otherwise). Debug figures and the (unused) table of LLR are not modelled.
An error message of level `msg_erreur` throws: `none`.
-/

namespace Verif.Telecom

/-! ### Interpolators on complex samples -/

/-- `InterpolateurRIF::step(x, 0, τ)` on complex samples with real coefficients, core/include/tsd/filtrage.hpp:1873-1881. -/
noncomputable def itrpRif (taille : ℕ) (coefs : ℝ → Option (List ℝ)) (w : List ℂ) (τ : ℝ) : Option ℂ :=
  (coefs τ).bind fun h : List ℝ => (Itrp.step taille h (w.map Complex.re) 0).bind fun a : ℝ => (Itrp.step taille h (w.map Complex.im) 0).map fun b : ℝ => (⟨a, b⟩ : ℂ)

/-! ### Configuration -/

/-- `ModConfig` and `DemodConfig::dec` (`C`: state of the decision context), core/include/tsd/telecom.hpp:1041-1077: oversampling factor, intermediate frequency (relative to `fe`), shaping,
clock recovery (active, time constant, interpolator), carrier recovery (active, bandwidth, damping), AGC (active, time constant), matched filter, bits per symbol, decision context. -/
structure ConfigDec (C : Type) where
  osf : ℕ
  fi : ℝ
  forme : MiseEnForme
  horloge : Bool
  tcHorloge : ℝ
  K : ℕ
  itrp : List ℂ → ℝ → Option ℂ
  porteuse : Bool
  BL : ℝ
  η : ℝ
  cag : Bool
  tcCag : ℝ
  fa : Bool
  k : ℕ
  ctx0 : C
  ctx : C → ℂ → Option (C × ℤ × ℂ)

/-- `CtxSansMemoire::step`, core/src/telecom/modulations.cc:220-224. -/
noncomputable def ctxSansMemoire (symbs : List (ℝ × ℝ)) (d : ℝ × ℝ → Option ℕ) (_ : Unit) (x : ℂ) : Option (Unit × ℤ × ℂ) :=
  (d (x.re, x.im)).bind fun i : ℕ => (symbs[i]?).map fun s : ℝ × ℝ => ((), (i : ℤ), cplx s)

/-! ### Clock recovery -/

/-- State of `RecHorloge`, core/src/telecom/demod-dec.cc:43-63: window, phase, counter, last intermediate value. -/
structure RecHorloge where
  fen : List ℂ
  phase : ℝ
  cnt : ℕ
  lyi : ℂ

/-- `gain`, core/src/telecom/demod-dec.cc:90. -/
noncomputable def ConfigDec.gainHorloge {C : Type} (c : ConfigDec C) : ℝ := c.osf * Conception.lexpTcVersCoef c.tcHorloge

/-- `RecHorloge::reset` (the flush of the matched filter is in `Avant.reset`), core/src/telecom/demod-dec.cc:67-75: `phase = (osf / 2) + 1`, integer division. -/
noncomputable def RecHorloge.reset {C : Type} (c : ConfigDec C) (s : RecHorloge) : RecHorloge :=
  { s with cnt := 0, phase := ((c.osf / 2 + 1 : ℕ) : ℝ), fen := List.replicate c.K 0 }

/-- `RecHorloge::step1_interpolation`, core/src/telecom/demod-dec.cc:115-120, 130-163. -/
noncomputable def RecHorloge.interpole {C : Type} (c : ConfigDec C) (s : RecHorloge) (x : ℂ) : Option (RecHorloge × Option ℂ) :=
  if c.K = 0 then none
  else
    let fen := s.fen.tail ++ [x]
    let phase := s.phase - 1
    if 1 < phase then some ({ s with fen := fen, phase := phase }, none)
    else if phase < 0 then none
    else (c.itrp fen phase).map fun yi : ℂ =>
      if s.cnt = 1 then (⟨fen, phase + (c.osf : ℝ) / 2, 0, s.lyi⟩, some yi)
      else (⟨fen, phase + (c.osf : ℝ) / 2, s.cnt + 1, yi⟩, none)

/-- `cdot`, core/src/telecom/demod-dec.cc:165-168. -/
def cdot (a b : ℂ) : ℝ := a.re * b.re + a.im * b.im

/-- Timing error, core/src/telecom/demod-dec.cc:174. -/
noncomputable def erreurDec (lyi yd0 yd1 : ℂ) : ℝ := cdot (yd1 - yd0) (lyi - (yd0 + yd1) / 2) / ‖yd1 - yd0‖

/-- `clamp(gain * erreur, -osf/4, osf/4)`, core/src/telecom/demod-dec.cc:179-182. -/
noncomputable def correctionDec {C : Type} (c : ConfigDec C) (e : ℝ) : ℝ := max (-(c.osf : ℝ) / 4) (min (c.gainHorloge * e) ((c.osf : ℝ) / 4))

/-- `RecHorloge::step2_maj_retard`, core/src/telecom/demod-dec.cc:170-187. -/
noncomputable def RecHorloge.maj {C : Type} (c : ConfigDec C) (s : RecHorloge) (yd0 yd1 : ℂ) : RecHorloge :=
  if yd0 = yd1 then s else { s with phase := s.phase - correctionDec c (erreurDec s.lyi yd0 yd1) }

/-! ### Front end: transposition and matched filter -/

/-- Transposition (only if `fi ≠ 0`) and matched filter (only if used), core/src/telecom/demod-dec.cc:199, 50. -/
structure Avant where
  transpo : Option TranspoBB
  filtre : Option (Filtre.Rif ℂ ℂ)

/-- `(1) Transposition en bande de base`, core/src/telecom/demod-dec.cc:324-328. -/
noncomputable def Avant.stepTranspo : Filtre.Bloc (Option TranspoBB) ℂ ℂ := fun s x =>
  match s with
  | none => some (none, x)
  | some t => (t.step x).map fun r : TranspoBB × List ℂ => (some r.1, r.2)

/-- `Filtrage adapté`, core/src/telecom/demod-dec.cc:338-342. -/
noncomputable def Avant.stepFiltre : Filtre.Bloc (Option (Filtre.Rif ℂ ℂ)) ℂ ℂ := fun s x =>
  match s with
  | none => some (none, x)
  | some f => (Filtre.Rif.step (0 : ℂ) (· + ·) (· * ·) f x).map fun r : Filtre.Rif ℂ ℂ × List ℂ => (some r.1, r.2)

/-- The two stages, core/src/telecom/demod-dec.cc:324-342. -/
noncomputable def Avant.step : Filtre.Bloc Avant ℂ ℂ := fun s x =>
  (Avant.stepTranspo s.transpo x).bind fun r : Option TranspoBB × List ℂ => (Avant.stepFiltre s.filtre r.2).map fun q : Option (Filtre.Rif ℂ ℂ) × List ℂ => (⟨r.1, q.1⟩, q.2)

/-- Flush of the matched filter by `5 * osf` zeros, core/src/telecom/demod-dec.cc:77-80. The oscillator of the transposition is not reset. -/
noncomputable def Avant.reset {C : Type} (c : ConfigDec C) (s : Avant) : Option Avant :=
  (Avant.stepFiltre s.filtre (List.replicate (5 * c.osf) 0)).map fun q : Option (Filtre.Rif ℂ ℂ) × List ℂ => { s with filtre := q.1 }

/-! ### Demodulator -/

/-- State of the loops of `DemodGen2`, core/src/telecom/demod-dec.cc:205-227: `θ` is the phase of the loop filter (both are 0 after a reset). -/
structure EtatDec (C : Type) where
  cnt : ℕ
  cnt1 : ℕ
  boucle : Boucle
  lye : ℂ
  gain : ℝ
  hor : RecHorloge
  ctx : C

/-- `alpha_cag`, core/src/telecom/demod-dec.cc:287. -/
noncomputable def ConfigDec.alpha {C : Type} (c : ConfigDec C) : ℝ := Conception.lexpTcVersCoef c.tcCag

/-- Phase correction, core/src/telecom/demod-dec.cc:381-382: table oscillator of 1024 points. -/
noncomputable def ConfigDec.tourne {C : Type} (c : ConfigDec C) (θ : ℝ) (x : ℂ) : Option ℂ :=
  if c.porteuse then (Signaux.olut 1024 (-θ)).map fun r : ℂ => x * r else some x

/-- Symbol-rate sampling, core/src/telecom/demod-dec.cc:398-430: clock recovery, or one sample out of `osf`. -/
noncomputable def EtatDec.echantillonne {C : Type} (c : ConfigDec C) (s : EtatDec C) (y : ℂ) : Option (EtatDec C × Option ℂ) :=
  if c.horloge then (s.hor.interpole c y).map fun r : RecHorloge × Option ℂ => ({ s with hor := r.1 }, r.2)
  else if c.osf = 0 then none
  else
    let n := (s.cnt1 + 1) % c.osf
    some ({ s with cnt1 := n }, if n = 0 then some y else none)

/-- Update of the gain, core/src/telecom/demod-dec.cc:447-453: not a number (`none`) if the sample or the symbol is zero. -/
noncomputable def ConfigDec.majGain {C : Type} (c : ConfigDec C) (g : ℝ) (yi ye : ℂ) : Option ℝ :=
  if c.cag then (if yi = 0 ∨ ye = 0 then none else some ((1 - c.alpha) * g + c.alpha * (1 / (‖yi‖ / ‖ye‖)))) else some g

/-- Decision and update of the loops, core/src/telecom/demod-dec.cc:435-470. -/
noncomputable def EtatDec.decide {C : Type} (c : ConfigDec C) (s : EtatDec C) (yi : ℂ) : Option (EtatDec C × Option ℤ) :=
  (c.ctx s.ctx yi).bind fun d : C × ℤ × ℂ =>
    if d.2.1 = -1 then some ({ s with ctx := d.1 }, none)
    else (c.majGain s.gain yi d.2.2).map fun g : ℝ =>
      ({ s with ctx := d.1, gain := g, lye := d.2.2, hor := if c.horloge ∧ 2 ≤ s.cnt then s.hor.maj c s.lye d.2.2 else s.hor, boucle := if 2 ≤ s.cnt ∧ c.porteuse then lf2 c.BL c.η s.boucle (Complex.arg (yi * (starRingEnd ℂ) d.2.2)) else s.boucle }, some d.2.1)

/-- One sample of the main loop, core/src/telecom/demod-dec.cc:374-492: the index of the decided symbol, if any. -/
noncomputable def EtatDec.pas {C : Type} (c : ConfigDec C) (s : EtatDec C) (x : ℂ) : Option (EtatDec C × Option ℤ) :=
  (c.tourne s.boucle.θ x).bind fun y : ℂ =>
    (EtatDec.echantillonne c { s with cnt := s.cnt + 1 } (if c.cag then y * (s.gain : ℂ) else y)).bind fun r : EtatDec C × Option ℂ =>
      match r.2 with
      | none => some (r.1, none)
      | some yi => r.1.decide c yi

/-- State of `DemodGen2`. -/
structure DemodDec (C : Type) where
  avant : Avant
  etat : EtatDec C

/-- `DemodGen2::step`, core/src/telecom/demod-dec.cc:314-499: the bits appended to the stream (`symdemap_binaire` of the decided symbols). -/
noncomputable def DemodDec.step {C : Type} (c : ConfigDec C) : Filtre.Bloc (DemodDec C) ℂ Bool := fun s x =>
  if x = [] then some (s, [])
  else (s.avant.step x).bind fun r : Avant × List ℂ => (Filtre.boucle (EtatDec.pas c) s.etat r.2).map fun q : EtatDec C × List (Option ℤ) =>
    (⟨r.1, q.1⟩, symdemap (q.2.reduceOption.map Int.toNat) c.k)

/-- `DemodGen2::reset(cnt)`, core/src/telecom/demod-dec.cc:240-251: the window and the matched filter are reset only if the clock recovery is active. -/
noncomputable def DemodDec.reset {C : Type} (c : ConfigDec C) (cnt : ℕ) (s : DemodDec C) : Option (DemodDec C) :=
  (if c.horloge then s.avant.reset c else some s.avant).map fun a : Avant =>
    ⟨a, { cnt := cnt, cnt1 := c.osf - 1, boucle := ⟨0, 0, 0⟩, lye := 0, gain := 1, hor := if c.horloge then s.etat.hor.reset c else s.etat.hor, ctx := c.ctx0 }⟩

/-- The matched filter, if it is used, core/src/telecom/demod-dec.cc:107, 339, core/src/telecom/modulations.cc:858-864. -/
noncomputable def ConfigDec.filtreAdapte {C : Type} (c : ConfigDec C) : Option (Option (Filtre.Rif ℂ ℂ)) :=
  if 1 < c.osf ∧ c.horloge ∧ c.fa then (c.forme.coefs c.osf).map fun h : List ℝ => some (Filtre.Rif.init 0 (h.map fun v : ℝ => (v : ℂ))) else some none

/-- `DemodGen2::configure`, core/src/telecom/demod-dec.cc:256-311, with the clock recovery configured (and reset) at lines 273-285; a null oversampling factor violates an assertion. -/
noncomputable def DemodDec.cree {C : Type} (c : ConfigDec C) : Option (DemodDec C) :=
  if c.osf = 0 then none
  else c.filtreAdapte.bind fun f : Option (Filtre.Rif ℂ ℂ) =>
    (if c.fi = 0 then some none else (TranspoBB.cree false c.fi 0).map some).bind fun t : Option TranspoBB =>
      (if c.horloge then Avant.reset c ⟨t, f⟩ else some ⟨t, f⟩).bind fun a : Avant =>
        DemodDec.reset c 0 ⟨a, ⟨0, c.osf - 1, ⟨0, 0, 0⟩, 0, 1, RecHorloge.reset c ⟨[], 0, 0, 0⟩, c.ctx0⟩⟩

end Verif.Telecom
