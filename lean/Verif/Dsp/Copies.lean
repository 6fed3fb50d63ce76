import Verif.Dsp.DemodConfig

/-!
# C201: the structures of the English API that are copied byte by byte without loss
-/

namespace Verif.Dsp

/-! ## Model -/

/-- The values of the members of an object. -/
def lus (ms : List Membre) (mem : Octets) : List ℕ := List.zipWith (fun (p : ℕ) (m : Membre) => lit mem p m.taille) (positions 0 ms) ms

/-- The values read, with the layout `dst`, in an object over which `n` bytes of an object of layout `src` have been copied. `b` : padding of the source, `cible` : previous bytes of the target. -/
def transfert (src dst : List Membre) (n : ℕ) (vs : List ℕ) (b cible : Octets) : List ℕ := lus dst (memcpy n (objet 0 src vs b) cible)

/-- `tsd::telecom::SpecFiltreMiseEnForme` (type, BT, β), core/include/tsd/telecom.hpp:39-61. -/
def miseEnFormeFr : List Membre := [m32, m32, m32]

/-- `dsp::telecom::ShapingFilterSpec`, core/include/dsp/telecom.hpp:65-90. -/
def miseEnFormeEn : List Membre := [m32, m32, m32]

/-- `tsd::telecom::FormeOnde::Infos` (est_lineaire, est_psk, est_ask, est_fsk, est_qam, index, M, k), core/include/tsd/telecom.hpp:205-230. -/
def infosFr : List Membre := [mBool, mBool, mBool, mBool, mBool, m32, m32, m32]

/-- `dsp::telecom::WaveForm::Infos` (is_linear, is_psk, is_ask, is_fsk, is_qam, index, M, k), core/include/dsp/telecom.hpp:289-314. -/
def infosEn : List Membre := [mBool, mBool, mBool, mBool, mBool, m32, m32, m32]

/-- `tsd::fourier::Detection` (position, position_prec, score, gain, θ, SNR_dB, σ_noise), core/include/tsd/fourier.hpp:546-573. -/
def detectionFr : List Membre := [m32, m32, m32, m32, m32, m32, m32]

/-- `dsp::fourier::Detection` (position, position_frac, score, gain, θ, SNR_dB, σ_noise), core/include/dsp/fourier.hpp:509-541. -/
def detectionEn : List Membre := [m32, m32, m32, m32, m32, m32, m32]

/-- `tsd::telecom::ECPConfig` (Eb_N0, décalage_phase, décalage_fréquence, phase_noise, délais_horloge, fe, fsymb, fbit, debug_actif), core/include/tsd/telecom.hpp:1455-1483. -/
def ecpFr : List Membre := [m32, m32, m32, m32, m32, m32, m32, m32, mBool]

/-- `dsp::telecom::CPEConfig` (Eb_N0, phase_offset, frequnecy_offset, phase_noise, clock_delay, fs, fsymb, fbit, debug_active), core/include/dsp/telecom.hpp:1706-1742. -/
def ecpEn : List Membre := [m32, m32, m32, m32, m32, m32, m32, m32, mBool]

/-- `tsd::temps::HeureComposite` (heure, minutes, secondes, ms, µs), core/include/tsd/temps.hpp:21-32. -/
def heureFr : List Membre := [m32, m32, m32, m32, m32]

/-- `dsp::time::HourComposite` (hour, minutes, seconds, ms, µs), core/include/dsp/time.hpp:18-29. -/
def heureEn : List Membre := [m32, m32, m32, m32, m32]

/-- `tsd::temps::Calendrier` (année, mois, jour), core/include/tsd/temps.hpp:133-140. -/
def calendrierFr : List Membre := [m32, m32, m32]

/-- `dsp::time::Calendar` (year, month, day), core/include/dsp/time.hpp:217-224. -/
def calendrierEn : List Membre := [m32, m32, m32]

/-- `tsd::temps::DateHeure` (ntics), core/include/tsd/temps.hpp:180-183. -/
def dateFr : List Membre := [m64]

/-- `dsp::time::DateTime` (ntics), core/include/dsp/time.hpp:310-313. -/
def dateEn : List Membre := [m64]

/-! ## Proofs -/

/-- The values fit in their members. -/
def Tient (ms : List Membre) (vs : List ℕ) : Prop := vs.length = ms.length ∧ ∀ (k : ℕ) (m : Membre) (v : ℕ), ms[k]? = some m → vs[k]? = some v → v < 256 ^ m.taille

theorem positions_longueur : ∀ (ms : List Membre) (o : ℕ), (positions o ms).length = ms.length
  | [], _ => rfl
  | _ :: ms, _ => by simp [positions, positions_longueur ms]

theorem fin_ge : ∀ (ms : List Membre), (∀ m ∈ ms, 0 < m.align) → ∀ (o : ℕ), o ≤ fin o ms
  | [], _, _ => le_rfl
  | m :: ms, h, o => by
    have h1 := le_aligne o m.align (h m (by simp))
    have h2 := fin_ge ms (fun x hx => h x (by simp [hx])) (aligne o m.align + m.taille)
    unfold fin
    omega

/-- Every member lies before the end of the structure. -/
theorem position_fin : ∀ (ms : List Membre), (∀ m ∈ ms, 0 < m.align) → ∀ (o k p : ℕ) (m : Membre), ms[k]? = some m → (positions o ms)[k]? = some p → p + m.taille ≤ fin o ms
  | [], _, _, _, _, _, h, _ => by simp at h
  | m0 :: ms, hms, o, k, p, m, hm, hp => by
    have h' : ∀ x ∈ ms, 0 < x.align := fun x hx => hms x (by simp [hx])
    unfold fin
    cases k with
    | zero =>
      simp only [List.getElem?_cons_zero, Option.some.injEq, positions] at hm hp
      subst hm hp
      exact fin_ge ms h' _
    | succ k =>
      simp only [List.getElem?_cons_succ, positions] at hm hp
      exact position_fin ms h' _ k p m hm hp

theorem fin_sizeOf (ms : List Membre) (hms : ∀ m ∈ ms, 0 < m.align) : fin 0 ms ≤ sizeOf ms := by
  apply le_aligne
  clear hms
  induction ms with
  | nil => simp
  | cons m ms ih => simp only [List.map_cons, List.foldr_cons]; exact lt_of_lt_of_le ih (le_max_right _ _)

/-- **C201 (copies without loss).** For every layout, values that fit, padding and previous content of the target: after the copy of `sizeof` bytes every member is found unchanged. -/
theorem C201_copie (ms : List Membre) (hms : ∀ m ∈ ms, 0 < m.align) (vs : List ℕ) (hv : Tient ms vs) (b cible : Octets) : transfert ms ms (sizeOf ms) vs b cible = vs := by
  unfold transfert lus
  apply List.ext_getElem?
  intro k
  rw [List.getElem?_zipWith]
  by_cases hk : k < ms.length
  · have hkp : k < (positions 0 ms).length := by rw [positions_longueur]; exact hk
    have hkv : k < vs.length := by rw [hv.1]; exact hk
    rw [List.getElem?_eq_getElem hk, List.getElem?_eq_getElem hkp, List.getElem?_eq_getElem hkv]
    simp only [Option.some.injEq]
    have hm := List.getElem?_eq_getElem hk
    have hp := List.getElem?_eq_getElem hkp
    have hvk := List.getElem?_eq_getElem hkv
    have h1 := position_fin ms hms 0 k _ _ hm hp
    have h2 := fin_sizeOf ms hms
    rw [lit_octets _ _ _ vs[k] (fun j hj => by
      unfold memcpy
      rw [if_pos (by omega)]
      exact octet_objet ms hms 0 vs b k _ _ _ hm hp hvk j hj)]
    exact Nat.mod_eq_of_lt (hv.2 k _ _ hm hvk)
  · rw [List.getElem?_eq_none (l := positions 0 ms) (by rw [positions_longueur]; omega), List.getElem?_eq_none (l := vs) (by rw [hv.1]; omega)]

/-- **C201 (the seven pairs of structures).** The shaping filters, time, calendar and date structures in both directions; the waveform information and the detections from the French structure; the channel settings from the English one. The
number of bytes is the one of the call of `memcpy`. -/
theorem C201_structures (vs : List ℕ) (b cible : Octets) :
    (Tient miseEnFormeFr vs → transfert miseEnFormeFr miseEnFormeEn (sizeOf miseEnFormeEn) vs b cible = vs ∧ transfert miseEnFormeEn miseEnFormeFr (sizeOf miseEnFormeEn) vs b cible = vs) ∧
    (Tient infosFr vs → transfert infosFr infosEn (sizeOf infosEn) vs b cible = vs) ∧
    (Tient detectionFr vs → transfert detectionFr detectionEn (sizeOf detectionFr) vs b cible = vs) ∧
    (Tient ecpEn vs → transfert ecpEn ecpFr (sizeOf ecpEn) vs b cible = vs) ∧
    (Tient heureFr vs → transfert heureFr heureEn (sizeOf heureEn) vs b cible = vs ∧ transfert heureEn heureFr (sizeOf heureEn) vs b cible = vs) ∧
    (Tient calendrierFr vs → transfert calendrierFr calendrierEn (sizeOf calendrierEn) vs b cible = vs ∧ transfert calendrierEn calendrierFr (sizeOf calendrierEn) vs b cible = vs) ∧
    (Tient dateFr vs → transfert dateFr dateEn (sizeOf dateEn) vs b cible = vs ∧ transfert dateEn dateFr (sizeOf dateEn) vs b cible = vs) :=
  ⟨fun h => ⟨C201_copie miseEnFormeFr (by decide) vs h b cible, C201_copie miseEnFormeFr (by decide) vs h b cible⟩, fun h => C201_copie infosFr (by decide) vs h b cible,
    fun h => C201_copie detectionFr (by decide) vs h b cible, fun h => C201_copie ecpFr (by decide) vs h b cible,
    fun h => ⟨C201_copie heureFr (by decide) vs h b cible, C201_copie heureFr (by decide) vs h b cible⟩,
    fun h => ⟨C201_copie calendrierFr (by decide) vs h b cible, C201_copie calendrierFr (by decide) vs h b cible⟩, fun h => ⟨C201_copie dateFr (by decide) vs h b cible, C201_copie dateFr (by decide) vs h b cible⟩⟩

/-- **C201 (sizes).** No copy exceeds the target: the two structures of each pair have the same size. -/
theorem C201_tailles : sizeOf miseEnFormeFr = 12 ∧ sizeOf miseEnFormeEn = 12 ∧ sizeOf infosFr = 20 ∧ sizeOf infosEn = 20 ∧ sizeOf detectionFr = 28 ∧ sizeOf detectionEn = 28 ∧ sizeOf ecpFr = 36 ∧ sizeOf ecpEn = 36 ∧ sizeOf heureFr = 20 ∧ sizeOf heureEn = 20 ∧
    sizeOf calendrierFr = 12 ∧ sizeOf calendrierEn = 12 ∧ sizeOf dateFr = 8 ∧ sizeOf dateEn = 8 ∧ sizeOf membresEn ≤ sizeOf membresFr := by decide

/-- Non-vacuity: 16-QAM (linear, index 1, M = 16, k = 4). -/
example (b cible : Octets) : transfert infosFr infosEn (sizeOf infosEn) [1, 0, 0, 0, 1, 0x3F800000, 16, 4] b cible = [1, 0, 0, 0, 1, 0x3F800000, 16, 4] :=
  (C201_structures _ b cible).2.1 ⟨rfl, fun k m v hm hv => by
    have hk : k < 8 := by
      by_contra h
      rw [List.getElem?_eq_none (by simp; omega)] at hv
      cases hv
    interval_cases k <;> simp [infosFr, mBool, m32] at hm hv <;> subst hm hv <;> norm_num⟩

end Verif.Dsp
