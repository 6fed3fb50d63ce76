import Verif.Telecom.AmDemProps
import Verif.Conception.RifProps
import Verif.Conception.TransfProps
import Mathlib.Analysis.SpecialFunctions.Log.Base

/-!
# Model of the base-band transposition, of the channel simulators and of the spread-spectrum modulators (core/src/telecom)

Exact arithmetic; the draws of the random generators and the filters built elsewhere (resampler, Doppler filter) are arguments. Messages and figures are not modelled. Errors are `none`.
-/

namespace Verif.Telecom

open Complex

/-! ### Base-band transposition -/

/-- Cut-off frequency of the image filter, core/src/telecom/canalisation/transpo-bb.cc:28-31. -/
noncomputable def fcImage (fi : ℝ) : ℝ := if fi < 1 / 4 then fi else 1 / 2 - fi

/-- `TranspoBB`: oscillator and image filter (real input only), core/src/telecom/canalisation/transpo-bb.cc:15-20. The real coefficients are seen as complex numbers. -/
structure TranspoBB where
  ol : Signaux.OHC
  image : Option (Filtre.Rif ℂ ℂ)

/-- `transpo_bb(config)`, core/src/telecom/canalisation/transpo-bb.cc:22-45, 55-62: `reel` is the type of the input; `ratio` (`ratio_ar`) is not used. -/
noncomputable def TranspoBB.cree (reel : Bool) (fi _ratio : ℝ) : Option TranspoBB :=
  if reel then (Conception.designRifFen 63 "lp" (fcImage fi) "hn" 0).map fun h : List ℝ =>
    ⟨Signaux.OHC.init.configure (-fi), some (Filtre.Rif.init 0 (h.map fun v : ℝ => (v : ℂ)))⟩
  else some ⟨Signaux.OHC.init.configure (-fi), none⟩

/-- `TranspoBB::step` (a real block is seen as a block of complex numbers), core/src/telecom/canalisation/transpo-bb.cc:47-53. -/
noncomputable def TranspoBB.step : Filtre.Bloc TranspoBB ℂ ℂ := fun s x =>
  match s.image with
  | none => some ({ s with ol := (s.ol.step x.length).1 }, List.zipWith (· * ·) x (s.ol.step x.length).2)
  | some r => (Filtre.Rif.step (0 : ℂ) (· + ·) (· * ·) r (List.zipWith (· * ·) x (s.ol.step x.length).2)).map fun q : Filtre.Rif ℂ ℂ × List ℂ => (⟨(s.ol.step x.length).1, some q.1⟩, q.2)

/-! ### Channel simulator -/

/-- `ECPConfig`, core/include/tsd/telecom.hpp:1455-1483 (the delay truncated to an integer; phase noise is not used by the code). -/
structure EcpConfig where
  ebN0 : ℝ
  phase : ℝ
  freq : ℝ
  delai : ℤ
  fe : ℝ
  fsymb : ℝ
  fbit : ℝ

/-- Level of a block: square root of the mean power, core/src/telecom/ecp.cc:35. -/
noncomputable def niveau (x : List ℂ) : ℝ := Real.sqrt ((x.map fun z : ℂ => ‖z‖ ^ 2).sum / x.length)

/-- Standard deviation of the noise (per component), core/src/telecom/ecp.cc:50-63. -/
noncomputable def sigmaEcp (c : EcpConfig) (niv : ℝ) : ℝ := niv * Real.sqrt (0.5 * (c.fe / c.fbit) / (10 : ℝ) ^ (c.ebN0 / 10))

/-- `bruit_awgn` with the draws of the two components, core/src/telecom/telecom.cc:176-183. -/
noncomputable def bruitAwgn (σ : ℝ) (x : List ℂ) (g : List (ℝ × ℝ)) : List ℂ := List.zipWith (fun (z : ℂ) (d : ℝ × ℝ) => (⟨z.re + σ * d.1, z.im + σ * d.2⟩ : ℂ)) x g

/-- `ECP::step`, core/src/telecom/ecp.cc:28-81: the state is the oscillator; arguments of the call: the block with the draws of its noise, and the delay drawn when the one of the configuration is
negative (`tail` of more samples than the block has is an error). -/
noncomputable def ecpStep (c : EcpConfig) (tire : ℕ) (ol : Signaux.OHC) (x : List (ℂ × ℝ × ℝ)) : Option (Signaux.OHC × List ℂ) :=
  let e := x.map fun t : ℂ × ℝ × ℝ => t.1
  let r := ol.step x.length
  let y := (List.zipWith (· * ·) e r.2).map fun z : ℂ => z * exp (c.phase * I)
  let b := bruitAwgn (sigmaEcp c (niveau e)) y (x.map fun t : ℂ × ℝ × ℝ => t.2)
  let d := if c.delai < 0 then tire else c.delai.toNat
  if x.length < d then none else some (r.1, b.drop d)

/-- Constructor of `ECP`, core/src/telecom/ecp.cc:19-27. -/
noncomputable def ecpCree (c : EcpConfig) : Signaux.OHC := Signaux.OHC.init.configure (c.freq / c.fe)

/-! ### Spread spectrum -/

/-- `FHSSConfig`, core/include/tsd/telecom.hpp:609-621. -/
structure FhssConfig where
  seq : List ℤ
  df : ℝ
  duree : ℕ

/-- Object `FHSSModulation`: state of the resampler and oscillators, core/src/telecom/canalisation/etalement-spectre.cc:13-17. -/
structure Fhss (F : Type) where
  ra : F
  ol : List Signaux.OHC

/-- `fhss_modulation(config)`, core/src/telecom/canalisation/etalement-spectre.cc:19-46: oscillator `i` has the frequency `i / n`. -/
noncomputable def Fhss.cree {F : Type} (c : FhssConfig) (ra : F) : Fhss F := ⟨ra, (List.range c.seq.length).map fun i : ℕ => Signaux.OHC.init.configure ((i : ℝ) / c.seq.length)⟩

/-- Loop on the slots of a block, core/src/telecom/canalisation/etalement-spectre.cc:54-60: `i` is the position of the slot and the index of its oscillator, `y` the samples from that position; `none`: access out of
the table of oscillators, or a slot duration of 0 (endless loop). -/
noncomputable def fhssBoucle (duree : ℕ) : ℕ → ℕ → List Signaux.OHC → List ℂ → Option (List Signaux.OHC × List ℂ)
  | 0, _, ol, y => some (ol, y)
  | f + 1, i, ol, y =>
    if duree = 0 then none
    else if y.length < duree then some (ol, y)
    else (ol[i]?).bind fun o : Signaux.OHC =>
      (fhssBoucle duree f (i + duree) (ol.set i (o.step duree).1) (y.drop duree)).map fun q : List Signaux.OHC × List ℂ => (q.1, List.zipWith (· * ·) (y.take duree) (o.step duree).2 ++ q.2)

/-- `FHSSModulation::step`, core/src/telecom/canalisation/etalement-spectre.cc:47-62 (one more iteration allowed than the block has samples). -/
noncomputable def Fhss.step {F : Type} (c : FhssConfig) (ra : Filtre.Bloc F ℂ ℂ) : Filtre.Bloc (Fhss F) ℂ ℂ := fun s x =>
  (ra s.ra x).bind fun q : F × List ℂ => (fhssBoucle c.duree (q.2.length + 1) 0 s.ol q.2).map fun r : List Signaux.OHC × List ℂ => (⟨q.1, r.1⟩, r.2)

/-- Object `DSSSModulation`: state of the resampler, index in the sequence, core/src/telecom/canalisation/etalement-spectre.cc:94-100. -/
structure Dsss (F : Type) where
  ra : F
  index : ℕ

/-- `dsss_modulation(config)`: number of chips and oversampling of the input, core/src/telecom/canalisation/etalement-spectre.cc:102-117. -/
def Dsss.cree {F : Type} (chips : List ℝ) (osf : ℕ) (ra : F) : Option (Dsss F) := if osf = 0 ∨ chips.length % osf ≠ 0 then none else some ⟨ra, 0⟩

/-- Product with the sequence, core/src/telecom/canalisation/etalement-spectre.cc:130-131 (`none`: empty sequence). -/
noncomputable def dsssBoucle (chips : List ℝ) : ℕ → List ℂ → Option (ℕ × List ℂ)
  | i, [] => some (i, [])
  | i, z :: l => (chips[i % chips.length]?).bind fun c : ℝ => (dsssBoucle chips (i + 1) l).map fun q : ℕ × List ℂ => (q.1, z * c :: q.2)

/-- `DSSSModulation::step`, core/src/telecom/canalisation/etalement-spectre.cc:119-140. -/
noncomputable def Dsss.step {F : Type} (chips : List ℝ) (osf : ℕ) (ra : Filtre.Bloc F ℂ ℂ) : Filtre.Bloc (Dsss F) ℂ ℂ := fun s x =>
  if x.length % osf ≠ 0 then none
  else (ra s.ra x).bind fun q : F × List ℂ => (dsssBoucle chips s.index q.2).map fun r : ℕ × List ℂ => (⟨q.1, r.1⟩, r.2)

/-! ### Dispersive channel -/

/-- `gen_bruit` of the dispersive channel, from the draws of `randnc`, core/src/telecom/simulation.cc:71-88 (`square` is the complex square; the complex square root is an argument). -/
noncomputable def genBruit (racine : ℂ → ℂ) (rice : Bool) (K : ℝ) (b : List ℂ) : List ℂ :=
  if rice then
    let b' := b.map fun z : ℂ => z + Real.sqrt K
    b'.map fun z : ℂ => z / racine ((b'.map fun z : ℂ => z ^ 2).sum / b'.length)
  else b

/-- `CanalDispersif::step`, core/src/telecom/simulation.cc:90-118: the state is what remains of the gains generated by the previous calls; `g` is the list of the gains generated by this call (filtered and
resampled noise). `head` and `tail` of more samples than available, and the assertion of line 113, are errors. -/
noncomputable def canalStep (reste : List ℂ) (x g : List ℂ) : Option (List ℂ × List ℂ) :=
  if x.length < reste.length then none
  else if g.length < x.length - reste.length then none
  else some (g.drop (x.length - reste.length), List.zipWith (· * ·) (x.take reste.length) reste ++ List.zipWith (· * ·) (x.drop reste.length) (g.take (x.length - reste.length)))

/-- `doppler_distri` at one frequency, core/src/telecom/simulation.cc:22-27. -/
noncomputable def dopplerDistri (fd fc f : ℝ) : ℝ := if fd ≤ |f - fc| then 0 else 1 / (Real.pi * fd * Real.sqrt (1 - ((f - fc) / fd) ^ 2))

/-- `bruit_thermique`, core/src/telecom/simulation.cc:141-146. -/
noncomputable def bruitThermique (bp T : ℝ) : ℝ := (1380650 / 10 ^ 29) * (T + 273.15) * bp

/-- `capacite_canal_awgn`, core/src/telecom/limits.cc:7-10. -/
noncomputable def capaciteCanal (snr B : ℝ) : ℝ := B * Real.logb 2 (1 + snr)

end Verif.Telecom
