import Verif.Telecom.Model
import Verif.Util.Model
import Verif.Reechan.Model
import Mathlib.Analysis.SpecialFunctions.Trigonometric.Basic
import Mathlib.Analysis.SpecialFunctions.Complex.Circle

/-!
# Model of the waveforms and of the modulator (core/src/telecom/modulations.cc, core/src/telecom/modulateur.cc)

Exact real arithmetic instead of `float`; a complex number is a pair for the decisions, a `ℂ` after the shaping filter.
-/

namespace Verif.Telecom

/-- `psk_constellation(M)`, core/src/telecom/modulations.cc:44-53. -/
noncomputable def pskConstellation (M : ℕ) : List (ℝ × ℝ) :=
  if M = 2 then [(-1, 0), (1, 0)]
  else
    let dec := if M = 4 then Real.pi / 4 else 0
    (List.range M).map fun i : ℕ => (Real.cos (dec + 2 * Real.pi * i / M), Real.sin (dec + 2 * Real.pi * i / M))

/-- `ask_constellation(M, K1, K2)`, core/src/telecom/modulations.cc:55-58; `M = 1` divides by zero. -/
noncomputable def askConstellation (M : ℕ) (K1 K2 : ℝ) : Option (List (ℝ × ℝ)) :=
  if M = 1 then none else some ((Util.linspace (0 : ℝ) ((M : ℝ) - 1) M).map fun v : ℝ => (K1 + v * (K2 / ((M : ℝ) - 1)), 0))

/-- The constellation of `FormeOndeQAM(M)`, core/src/telecom/modulations.cc:504-545: `map(x, y)` reshaped in column-major order (index `x + y M2`). A non-square `M` is
rejected (`msg_erreur`); `M = 1` divides by zero. -/
noncomputable def qamConstellation (M : ℕ) : Option (List (ℝ × ℝ)) :=
  let M2 := Nat.sqrt M
  if M2 * M2 ≠ M ∨ M2 = 1 then none
  else some ((List.range (M2 * M2)).map fun i : ℕ => (((i % M2 : ℕ) : ℝ) / ((M2 : ℝ) - 1) * 2 - 1, ((i / M2 : ℕ) : ℝ) / ((M2 : ℝ) - 1) * 2 - 1))

/-- The symbols of `FormeOndeFSK(M)`, core/src/telecom/modulations.cc:691-706; `M = 1` divides by zero. -/
noncomputable def fskConstellation (M : ℕ) : Option (List (ℝ × ℝ)) :=
  if M = 1 then none else some ((List.range M).map fun x : ℕ => ((x : ℝ) / ((M : ℝ) - 1) * 2 - 1, 0))

/-- `infos.k = log2(M)`, converted to an integer, core/src/telecom/modulations.cc:305, 369, 518, 683. -/
def nbBits (M : ℕ) : ℕ := Nat.log 2 M

/-- `FormeOndePSK::symbole_plus_proche`, core/src/telecom/modulations.cc:337-342. -/
noncomputable def pskPlusProche (M : ℕ) (x : ℝ × ℝ) : Option ℕ :=
  if M = 2 then some (bpskDecision x) else symbolePlusProche (pskConstellation M) x

/-- `decode_QPSK`, core/src/telecom/modulations.cc:23-36. -/
noncomputable def decodeQPSK (x : ℝ × ℝ) : ℕ :=
  if 0 ≤ x.1 then (if 0 ≤ x.2 then 0 else 3) else (if 0 ≤ x.2 then 1 else 2)

/-! ## π/4-QPSK -/

/-- Multiplication of complex numbers. -/
def mulC (a b : ℝ × ℝ) : ℝ × ℝ := (a.1 * b.1 - a.2 * b.2, a.1 * b.2 + a.2 * b.1)

/-- `symbs[0]` and `symbs[1]` of `FormeOnde_π4QPSK`, core/src/telecom/modulations.cc:467-468; `odd` is `cnt & 1`. -/
noncomputable def pi4Symbs (odd : Bool) : List (ℝ × ℝ) :=
  if odd then (pskConstellation 4).map fun s => mulC s (Real.cos (Real.pi / 4), Real.sin (Real.pi / 4)) else pskConstellation 4

/-- `génère_symboles` for the π/4-QPSK, core/src/telecom/modulations.cc:110-121, 486-490: `cnt = i`, then `symbs[cnt & 1](x(i))`. -/
noncomputable def pi4Genere (bs : List Bool) : Option (List (ℝ × ℝ)) :=
  (symmap bs 2).bind fun x => (x.zipIdx).mapM fun p : ℕ × ℕ => (pi4Symbs (p.2 % 2 = 1))[p.1]?

/-- `decode_symboles` for the π/4-QPSK, core/src/telecom/modulations.cc:243-253, 486-490. -/
noncomputable def pi4Decode (x : List (ℝ × ℝ)) : Option (List Bool) :=
  ((x.zipIdx).mapM fun p : (ℝ × ℝ) × ℕ => symbolePlusProche (pi4Symbs (p.2 % 2 = 1)) p.1).map fun x2 => symdemap x2 2

/-- `Ctxπ4QPSK::step`, core/src/telecom/modulations.cc:444-450: new counter, index and symbol. -/
noncomputable def pi4Ctx (cnt : ℕ) (x : ℝ × ℝ) : Option (ℕ × ℕ × (ℝ × ℝ)) :=
  let x' := if cnt % 2 = 1 then mulC x (Real.cos (-Real.pi / 4), Real.sin (-Real.pi / 4)) else x
  let r := decodeQPSK x'
  ((pi4Symbs ((cnt + 1 + 1) % 2 = 1))[r]?).map fun s => (cnt + 1, r, s)

/-- A stream through the context. -/
noncomputable def pi4CtxFlux (cnt : ℕ) : List (ℝ × ℝ) → Option (List (ℕ × (ℝ × ℝ)))
  | [] => some []
  | x :: l => (pi4Ctx cnt x).bind fun r => (pi4CtxFlux r.1 l).map fun t => r.2 :: t

/-! ## Shaping filter -/

/-- `SpecFiltreMiseEnForme::Type`, core/include/tsd/telecom.hpp:42-53. The coefficients of the last two types (designs `design_rif_gaussien_telecom` and
`design_rif_rcs1`) are a parameter here. -/
inductive MiseEnForme | nrz | aucun | autre (coefs : List ℝ)

/-- `get_coefs`, core/src/telecom/modulations.cc:797-856 (`osf = 0` is rejected). -/
noncomputable def MiseEnForme.coefs (t : MiseEnForme) (osf : ℕ) : Option (List ℝ) :=
  if osf = 0 then none
  else if osf = 1 then some [1]
  else match t with
    | .nrz => some (List.replicate osf (1 / (osf : ℝ)))
    | .aucun => some [1]
    | .autre c => if c = [] then none else some c

/-- The energy of the coefficients, core/src/telecom/modulations.cc:881. -/
def energie (h : List ℝ) : ℝ := (h.map fun v => v * v).sum

/-- The coefficients after normalisation, core/src/telecom/modulations.cc:886: `h *= (sqrt(R) / sqrt(en)) / R`. -/
noncomputable def normalise (h : List ℝ) (R : ℕ) : List ℝ := h.map fun v => v * ((Real.sqrt R / Real.sqrt (energie h)) / R)

/-- State of the shaping filter: `filtre_id` if `R = 1`, otherwise an interpolating FIR filter. -/
inductive EtatForme | ident | ups (s : Reechan.RifUps ℂ ℂ)

/-- `filtre_mise_en_forme`, core/src/telecom/modulations.cc:874-889. -/
noncomputable def filtreForme (t : MiseEnForme) (R : ℕ) : Option EtatForme :=
  if R = 1 then some .ident
  else (t.coefs R).bind fun h =>
    (Reechan.RifUps.init (0 : ℂ) (0 : ℂ) (fun a => (R : ℂ) * a) ((normalise h R).map fun v : ℝ => (v : ℂ)) R).map .ups

/-- One call of the shaping filter. -/
def EtatForme.step : EtatForme → List ℂ → Option (EtatForme × List ℂ)
  | .ident, x => some (.ident, x)
  | .ups s, x => (Reechan.RifUps.step (0 : ℂ) (· + ·) (· * ·) s x).map fun r => (.ups r.1, r.2)

/-! ## Modulator -/

/-- A pair as a complex number. -/
def cplx (p : ℝ × ℝ) : ℂ := ⟨p.1, p.2⟩

/-- `cumsum`, as used in core/src/telecom/modulateur.cc:184-187. -/
def cumul (a : ℝ) : List ℝ → List ℝ
  | [] => []
  | v :: l => (a + v) :: cumul (a + v) l

/-- `abs(xr).valeur_max()`, then `si(denom == 0) denom = 1`, core/src/telecom/modulateur.cc:176-181. -/
noncomputable def denomFsk (xr : List ℝ) : ℝ :=
  let d := (xr.map abs).foldl max 0
  if d = 0 then 1 else d

/-- The frequency modulation stage, core/src/telecom/modulateur.cc:160-189. -/
noncomputable def etageFsk (index : ℝ) (osf : ℕ) (x : List ℂ) : List ℂ :=
  let Ω := Real.pi * index / osf
  let xr := x.map Complex.re
  (cumul 0 (xr.map fun v => v * (Ω / denomFsk xr))).map fun φ : ℝ => Complex.exp ((φ : ℂ) * Complex.I)

/-- State of a modulator without intermediate frequency: shaping filter and oversampling factor. -/
structure Modulateur where
  filtre : EtatForme
  osf : ℕ

/-- `ModGen::configure`, core/src/telecom/modulateur.cc:58-135; `osf = fe / fsymb` truncated to an unsigned integer (a parameter here). -/
noncomputable def Modulateur.cree (t : MiseEnForme) (osf : ℕ) : Option Modulateur := (filtreForme t osf).map fun f => ⟨f, osf⟩

/-- `ModGen::step(symbols)`, core/src/telecom/modulateur.cc:153-240, for `fi = 0` (the default): `fsk` is the modulation index of a frequency modulation. -/
noncomputable def Modulateur.step (fsk : Option ℝ) (m : Modulateur) (x : List ℂ) : Option (Modulateur × List ℂ) :=
  (m.filtre.step x).map fun r => ({ m with filtre := r.1 }, match fsk with
    | none => r.2
    | some index => etageFsk index m.osf r.2)

/-- `ModGen::step(bits)`, core/src/telecom/modulateur.cc:147-150, for a memoryless waveform of symbols `symbs`. -/
noncomputable def Modulateur.stepBits (symbs : List (ℝ × ℝ)) (k : ℕ) (fsk : Option ℝ) (m : Modulateur) (bs : List Bool) : Option (Modulateur × List ℂ) :=
  (genereSymboles symbs k bs).bind fun s => m.step fsk (s.map cplx)

/-- `ModGen::flush(nech)`, core/src/telecom/modulateur.cc:132-144. -/
noncomputable def Modulateur.flush (fsk : Option ℝ) (m : Modulateur) (nech : ℤ) : Option (Modulateur × List ℂ) :=
  if nech ≤ 0 then some (m, []) else if m.osf = 0 then none
  else m.step fsk (List.replicate ((nech.toNat + m.osf - 1) / m.osf) 0)

end Verif.Telecom
