import Verif.Telecom.Formes

/-!
# Model of the transmitter (core/src/telecom/emetteur.cc), linear waveforms, `fi = 0`
-/

namespace Verif.Telecom

/-- `BitStream::pad_mult(k)` on the list of bits, core/src/telecom/bitstream.cc:193-204 (see C01 for the bit-level model). -/
def padMultiple (x : List Bool) (k : ℕ) : List Bool := if x.length % k ≠ 0 then x ++ List.replicate (k - x.length % k) false else x

/-- Transmitter: waveform of the data (`symbs`, `k`), header, optional waveform of the header, modulator and twice its delay. core/src/telecom/emetteur.cc:14-42. -/
structure Emetteur where
  symbs : List (ℝ × ℝ)
  k : ℕ
  entete : List Bool
  foEntete : Option (List (ℝ × ℝ) × ℕ)
  mod : Modulateur
  d2 : ℕ

/-- `ÉmetteurImpl::configure`, core/src/telecom/emetteur.cc:32-42, and the latency of the modulator, core/src/telecom/modulateur.cc:108-118. -/
noncomputable def Emetteur.cree (symbs : List (ℝ × ℝ)) (k : ℕ) (entete : List Bool) (fo : Option (List (ℝ × ℝ) × ℕ)) (t : MiseEnForme) (osf : ℕ) : Option Emetteur :=
  (Modulateur.cree t osf).bind fun m => (t.coefs osf).map fun h => ⟨symbs, k, entete, fo, m, Reechan.delaisUps2 h.length osf⟩

/-- `ÉmetteurImpl::step`, core/src/telecom/emetteur.cc:44-105; `ceil(mod->delais())` samples of flush. -/
noncomputable def Emetteur.step (e : Emetteur) (bs : List Bool) : Option (Emetteur × List ℂ) :=
  let dEch : ℤ := ((e.d2 + 1) / 2 : ℕ)
  (match e.foEntete with
    | some fo => (e.mod.stepBits fo.1 fo.2 none (padMultiple e.entete fo.2)).bind fun r1 : Modulateur × List ℂ =>
        (r1.1.stepBits e.symbs e.k none (padMultiple bs e.k)).map fun r2 : Modulateur × List ℂ => (r2.1, r1.2 ++ r2.2)
    | none => e.mod.stepBits e.symbs e.k none (padMultiple (padMultiple e.entete e.k ++ bs) e.k)).bind fun r : Modulateur × List ℂ =>
  (r.1.flush none dEch).map fun q : Modulateur × List ℂ => ({ e with mod := q.1 }, r.2 ++ q.2)

/-- `ÉmetteurImpl::retard`, core/src/telecom/emetteur.cc:19-26: computed from the *configured* number of coefficients (twice the delay; core/src/reechan/polyphase.cc:363-369). -/
def retardEmetteur2 (ncoefs osf : ℤ) : ℤ := (ncoefs - 1) + 2 * (if ncoefs % osf ≠ 0 then osf - ncoefs % osf else 0)

end Verif.Telecom
