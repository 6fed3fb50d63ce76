import Verif.Telecom.DemodDec
import Verif.Telecom.Emetteur
import Verif.Fourier.DetecteurOla
import Verif.Tampon.Model

/-!
# Model of the frame receiver (core/src/telecom/recepteur.cc), linear waveforms (no FSK)

Exact real arithmetic instead of `float`; the oversampling factor is an integer (checked by the code). A violated assertion, an access outside of a vector or a division by zero is `none`. The detector is a parameter: a block of
samples gives the detections whose SNR is sufficient (line 361). Debug figures, CPU monitors, the estimated `Eb/N0` and the callback on the correlation are not modelled.
-/

namespace Verif.Telecom

/-- What `RécepteurImpl::configure` computes (`D`: state of the detector, `C`: state of the decision context), core/src/telecom/recepteur.cc:30-95: block size `Ne`, length of the pattern `M` (`dim_motif`), bits per frame, oversampling factor, bits per symbol of the data,
symbols of the header, number of coefficients and coefficients of the interpolator, shaping filter, fractional delay of the modulator, demodulator (one sample per symbol) and detector. -/
structure ConfigRec (D C : Type) where
  Ne : ℕ
  M : ℕ
  nbits : ℕ
  osf : ℕ
  k : ℕ
  nbEntete : ℕ
  nc : ℕ
  itrp : ℝ → Option (List ℝ)
  h : List ℝ
  dtMod : ℝ
  demod : ConfigDec C
  det : D → List ℂ → Option (D × List Fourier.Detection)

/-- `calc_retard`: integer part of `(nc - 1) / 2 + (ncoefs - 1) / 2 + 1 + osf / 2`, core/src/telecom/recepteur.cc:112-130, core/src/reechan/polyphase.cc:373-376. -/
def ConfigRec.retard {D C : Type} (c : ConfigRec D C) : ℕ := (c.nc + c.h.length + c.osf) / 2

/-- `calc_retard`: fractional part, core/src/telecom/recepteur.cc:126-127. -/
noncomputable def ConfigRec.dtItrp {D C : Type} (c : ConfigRec D C) : ℝ := (((c.nc + c.h.length + c.osf) % 2 : ℕ) : ℝ) / 2

/-! ### Receive chain of a frame -/

/-- Filters of the receive chain: interpolator, matched filter, samples still to be removed, decimator.  core/src/telecom/recepteur.cc:36-38, 59, 86. -/
structure Front where
  itrp : Filtre.Rif ℂ ℂ
  fa : Filtre.Rif ℂ ℂ
  delais : ℕ
  decim : Filtre.Decim

/-- Removal of the delay, core/src/telecom/recepteur.cc:681-695. -/
def retire : Filtre.Bloc ℕ ℂ ℂ := fun d y => some (d - y.length, y.drop d)

/-- `step_demod` up to the decimation, on the samples corrected by the factor `g`, core/src/telecom/recepteur.cc:669-704. -/
noncomputable def Front.step (g : ℂ) : Filtre.Bloc Front ℂ ℂ := fun s x =>
  (Filtre.Rif.step (0 : ℂ) (· + ·) (· * ·) s.itrp (x.map fun v : ℂ => v * g)).bind fun a : Filtre.Rif ℂ ℂ × List ℂ =>
    (Filtre.Rif.step (0 : ℂ) (· + ·) (· * ·) s.fa a.2).bind fun b : Filtre.Rif ℂ ℂ × List ℂ =>
      (retire s.delais b.2).bind fun r : ℕ × List ℂ =>
        (Filtre.Decim.step s.decim r.2).map fun e : Filtre.Decim × List ℂ => (⟨a.1, b.1, r.1, e.1⟩, e.2)

/-- `RécepteurTrame`, core/include/tsd/telecom.hpp:1256-1272 (without `EbN0`). -/
structure TrameRec where
  det : Fourier.Detection
  bs : List Bool
  x : List ℂ
  x1 : List ℂ

/-- Reception of a frame in progress: filters, demodulator, frame. -/
structure Reception (C : Type) where
  front : Front
  demod : DemodDec C
  trame : TrameRec

/-- `std::polar(1 / gain, -θ)`, core/src/telecom/recepteur.cc:667-669: `none` if the gain is null or one of them is not a number. -/
noncomputable def correctionRec (d : Fourier.Detection) : Option ℂ :=
  d.gain.bind fun g : ℝ => d.theta.bind fun θ : ℝ => if g = 0 then none else some (((1 / g : ℝ) : ℂ) * Complex.exp ((-θ : ℝ) * Complex.I))

/-- `nb_echans_theo`, core/src/telecom/recepteur.cc:664. -/
def ConfigRec.nbTheo {D C : Type} (c : ConfigRec D C) : ℕ := c.osf * (c.nbits + c.k - 1) / c.k

/-- `step_demod`, core/src/telecom/recepteur.cc:653-776: at most `nbits` bits are kept. -/
noncomputable def Reception.step {D C : Type} (c : ConfigRec D C) (s : Reception C) (x : List ℂ) : Option (Reception C) :=
  if c.k = 0 then none
  else (correctionRec s.trame.det).bind fun g : ℂ => (s.front.step g x).bind fun y : Front × List ℂ => (DemodDec.step c.demod s.demod y.2).map fun b : DemodDec C × List Bool =>
    ⟨y.1, b.1, ⟨s.trame.det, s.trame.bs ++ b.2.take (c.nbits - s.trame.bs.length), (s.trame.x ++ x).take c.nbTheo, (s.trame.x1 ++ y.2).take (c.nbTheo / c.osf)⟩⟩

/-! ### Blocks of `Ne` samples -/

/-- State of `RécepteurImpl`, core/src/telecom/recepteur.cc:30-95; `cours` is the frame in progress (`demod_en_cours`), `demod` the demodulator between two frames, `det` the detector, `trames` the frames received. -/
structure EtatRec (D C : Type) where
  det : D
  last : List ℂ
  cours : Option (Reception C)
  demod : DemodDec C
  cnt : ℕ
  trames : List TrameRec

/-- Samples to demodulate among the previous and the current block, core/src/telecom/recepteur.cc:559-600. -/
def extraitRec (Ne : ℕ) (idx : ℤ) (nspl : ℕ) (last x : List ℂ) : Option (List ℂ) :=
  if (Ne : ℤ) ≤ idx then
    let j := idx.toNat - Ne
    if Ne < j then none else some ((x.drop j).take (if Ne - j < nspl then Ne - j else nspl))
  else if idx < 0 then none
  else
    let n1 := min nspl (Ne - idx.toNat)
    if n1 = nspl then some ((last.drop idx.toNat).take nspl)
    else
      let n := if Ne < nspl - n1 then Ne + n1 else nspl
      some (last.drop (last.length - n1) ++ x.take (n - n1))

/-- Number of samples to extract: those of the data, four symbols and the delay, core/src/telecom/recepteur.cc:533-535. -/
def ConfigRec.nspl {D C : Type} (c : ConfigRec D C) : ℕ := (c.nbits * c.osf + c.k - 1) / c.k + 4 * c.osf + c.retard

/-- Corrected precise position of a detection: `none` if the assertion of line 502 is violated, core/src/telecom/recepteur.cc:502-508. -/
noncomputable def ConfigRec.precise {D C : Type} (c : ConfigRec D C) (d : Fourier.Detection) : Option ℝ :=
  d.positionPrec.bind fun p : ℝ => if |p - d.position| < 1 then some (p + c.dtMod + c.dtItrp) else none

/-- `regle_delais(δ)`: the interpolator of the delay `1 - δ` and the matched filter, core/src/telecom/recepteur.cc:132-164; the decimator, line 490. (The flush of the previous filters, lines 493-498, has no effect: they are replaced.) -/
noncomputable def ConfigRec.front {D C : Type} (c : ConfigRec D C) (δ : ℝ) : Option Front :=
  (c.itrp (max 0 (min 1 (1 - δ)))).map fun h1 : List ℝ =>
    ⟨Filtre.Rif.init 0 (h1.map fun v : ℝ => (v : ℂ)), Filtre.Rif.init 0 (c.h.map fun v : ℝ => (v : ℂ)), c.retard, ⟨c.osf, 0⟩⟩

/-- The detection reported in the frame, relative to the buffer of the caller, core/src/telecom/recepteur.cc:458-470. -/
noncomputable def ConfigRec.reporte {D C : Type} (c : ConfigRec D C) (cnt : ℕ) (d : Fourier.Detection) : Fourier.Detection :=
  { d with position := d.position + cnt, positionPrec := d.positionPrec.map fun p : ℝ => p + cnt + c.dtMod }

/-- End of a frame: it is delivered when it has all its bits, core/src/telecom/recepteur.cc:444-451, 626-631, 772-775. -/
def EtatRec.conclut {D C : Type} (c : ConfigRec D C) (s : EtatRec D C) (r : Reception C) : EtatRec D C :=
  if r.trame.bs.length = c.nbits then { s with cours := none, demod := r.demod, trames := s.trames ++ [r.trame] } else { s with cours := some r, demod := r.demod }

/-- Processing of a detection, core/src/telecom/recepteur.cc:456-640: a frame in progress is abandoned. The two loops of lines 509-512 compute the integer part of the precise position. -/
noncomputable def EtatRec.detecte {D C : Type} (c : ConfigRec D C) (x : List ℂ) (s : EtatRec D C) (d : Fourier.Detection) : Option (EtatRec D C) :=
  (DemodDec.reset c.demod c.nbEntete s.demod).bind fun m : DemodDec C => (c.precise d).bind fun p : ℝ => (c.front (p - ⌊p⌋)).bind fun f : Front =>
    (extraitRec c.Ne (⌊p⌋ + c.Ne + c.M) c.nspl s.last x).bind fun y : List ℂ =>
      (Reception.step c ⟨f, m, ⟨c.reporte s.cnt d, [], [], []⟩⟩ y).map fun r : Reception C => s.conclut c r

/-- The loop on the detections, core/src/telecom/recepteur.cc:456-641. -/
noncomputable def EtatRec.detections {D C : Type} (c : ConfigRec D C) (x : List ℂ) : EtatRec D C → List Fourier.Detection → Option (EtatRec D C)
  | s, [] => some s
  | s, d :: l => (s.detecte c x d).bind fun s' : EtatRec D C => EtatRec.detections c x s' l

/-- Rest of the frame in progress, core/src/telecom/recepteur.cc:442-451. -/
noncomputable def EtatRec.reprend {D C : Type} (c : ConfigRec D C) (x : List ℂ) (s : EtatRec D C) : Option (EtatRec D C) :=
  match s.cours with
  | none => some s
  | some r => (r.step c x).map fun r' : Reception C => s.conclut c r'

/-- `step_Ne`, core/src/telecom/recepteur.cc:404-647: detector, rest of the frame in progress, new detections. -/
noncomputable def EtatRec.stepNe {D C : Type} (c : ConfigRec D C) (s : EtatRec D C) (x : List ℂ) : Option (EtatRec D C) :=
  if x.length ≠ c.Ne then none
  else (c.det s.det x).bind fun d : D × List Fourier.Detection =>
    (EtatRec.reprend c x { s with det := d.1 }).bind fun s1 : EtatRec D C => (EtatRec.detections c x s1 d.2).map fun s2 : EtatRec D C => { s2 with last := x, cnt := s2.cnt + c.Ne }

/-- Several blocks. -/
noncomputable def EtatRec.blocs {D C : Type} (c : ConfigRec D C) : EtatRec D C → List (List ℂ) → Option (EtatRec D C)
  | s, [] => some s
  | s, x :: l => (s.stepNe c x).bind fun s' : EtatRec D C => EtatRec.blocs c s' l

/-! ### Receiver -/

/-- The receiver with its input buffer, core/src/telecom/recepteur.cc:45, 82. -/
structure RecepteurTrames (D C : Type) where
  tampon : Tampon.Tampon ℂ
  vide : Bool
  etat : EtatRec D C

/-- End of `configure`, core/src/telecom/recepteur.cc:186-196, 213-215, 378-386. -/
noncomputable def RecepteurTrames.cree {D C : Type} (c : ConfigRec D C) (d0 : D) : Option (RecepteurTrames D C) :=
  (DemodDec.cree c.demod).map fun m : DemodDec C => ⟨Tampon.Tampon.init c.Ne, true, ⟨d0, List.replicate c.Ne 0, none, m, 0, []⟩⟩

/-- `step`, core/src/telecom/recepteur.cc:388-406: the frames completed during the call. -/
noncomputable def RecepteurTrames.step {D C : Type} (c : ConfigRec D C) (s : RecepteurTrames D C) (x : List ℂ) : Option (RecepteurTrames D C × List TrameRec) :=
  if s.vide = true ∧ x.length = c.Ne then
    (EtatRec.stepNe c { s.etat with cnt := 0 } x).map fun e : EtatRec D C => (⟨s.tampon, true, { e with trames := [] }⟩, e.trames)
  else
    (Tampon.Tampon.step 0 s.tampon x).bind fun t : Tampon.Tampon ℂ × List (List ℂ) =>
      (EtatRec.blocs c { s.etat with cnt := 0 } t.2).map fun e : EtatRec D C => (⟨t.1, false, { e with trames := [] }⟩, e.trames)

/-- Successive calls: the frames delivered by each call. -/
noncomputable def RecepteurTrames.flux {D C : Type} (c : ConfigRec D C) : RecepteurTrames D C → List (List ℂ) → Option (RecepteurTrames D C × List (List TrameRec))
  | s, [] => some (s, [])
  | s, x :: xs => (s.step c x).bind fun r : RecepteurTrames D C × List TrameRec => (RecepteurTrames.flux c r.1 xs).map fun q : RecepteurTrames D C × List (List TrameRec) => (q.1, r.2 :: q.2)

/-! ### Configuration of the pattern -/

/-- Twice the delay of the modulator to the beginning of the first symbol (`df`), core/src/telecom/recepteur.cc:223-232, core/src/telecom/modulateur.cc:108-118. -/
def df2 (ncoefs osf : ℕ) : ℤ := (Reechan.delaisUps2 ncoefs osf : ℤ) - osf

/-- The pattern of the detector: the modulated header (and zeros to flush the modulator) from the sample `di`, core/src/telecom/recepteur.cc:197-199, 232-263, 291-293, 329-332. `none`: error or violated assertion. -/
noncomputable def motifRec (symbs : List (ℝ × ℝ)) (k : ℕ) (t : MiseEnForme) (osf : ℕ) (entete : List Bool) : Option (List ℂ) :=
  (Modulateur.cree t osf).bind fun m : Modulateur => (t.coefs osf).bind fun h : List ℝ =>
    let di := df2 h.length osf / 2
    let et := padMultiple entete k
    let M := (et.length + k - 1) / k * osf
    (m.stepBits symbs k none (et ++ List.replicate ((di + 8) * k).toNat false)).bind fun r : Modulateur × List ℂ =>
      let motif := if di < 0 then 0 :: r.2 else r.2
      let di := if di < 0 then di + 1 else di
      if 0 ≤ di ∧ di.toNat + M ≤ motif.length then some ((motif.drop di.toNat).take M) else none

end Verif.Telecom
