/-
C99: transmitter.

Specification: the symbols of a frame (`trame`): header, data, then zeros for the delay of the modulator.
-/
import Verif.Telecom.Emetteur
import Verif.Telecom.ModProps

namespace Verif.Telecom

open Verif.Filtre Verif.Reechan

/-- Specification: the symbols of a stream of bits for a memoryless waveform. -/
def symbolesDe (fo : List (ℝ × ℝ) × ℕ) (b : List Bool) : List (ℝ × ℝ) := (genereSymboles fo.1 fo.2 b).getD []

/-- Specification: the symbols of a frame: header (with its own waveform if there is one), data, and zeros covering `d2 / 2` samples. -/
noncomputable def trame (fo : List (ℝ × ℝ) × ℕ) (foEntete : Option (List (ℝ × ℝ) × ℕ)) (entete : List Bool) (d2 R : ℕ) (b : List Bool) : List ℂ :=
  (symbolesDe (foEntete.getD fo) entete).map cplx ++ (symbolesDe fo b).map cplx ++ List.replicate (((d2 + 1) / 2 + R - 1) / R) 0

theorem pad_manque (x : List Bool) (k : ℕ) (hk : 0 < k) : padMultiple x k = x ++ List.replicate (manque x.length k) false ∧ (padMultiple x k).length % k = 0 := by
  have hl := Nat.mod_lt x.length hk
  have hd := Nat.div_add_mod x.length k
  unfold padMultiple manque
  by_cases h : x.length % k = 0
  · simp [h]
  · rw [if_pos h]
    refine ⟨by rw [Nat.mod_eq_of_lt (a := k - x.length % k) (by omega)], ?_⟩
    rw [List.length_append, List.length_replicate]
    have : x.length + (k - x.length % k) = k * (x.length / k + 1) := by
      rw [Nat.mul_add, Nat.mul_one]
      omega
    rw [this, Nat.mul_mod_right]

theorem enchaine_concat {S X Y : Type} (f : Bloc S X Y) (s : S) (a b : List (List X)) :
    enchaine f s (a ++ b) = (enchaine f s a).bind fun r => (enchaine f r.1 b).map fun q => (q.1, r.2 ++ q.2) := by
  induction a generalizing s with
  | nil =>
    simp only [List.nil_append, enchaine, Option.bind_some]
    cases enchaine f s b with
    | none => rfl
    | some q => rfl
  | cons x a ih =>
    simp only [List.cons_append, enchaine, ih]
    cases f s x with
    | none => rfl
    | some r =>
      simp only []
      cases enchaine f r.1 a with
      | none => rfl
      | some q =>
        simp only [Option.bind_some]
        cases enchaine f q.1 b with
        | none => rfl
        | some t => simp

/-- The modulator on the symbols. -/
theorem stepBits_symboles (fo : List (ℝ × ℝ) × ℕ) (hk : 0 < fo.2) (hM : 2 ^ fo.2 ≤ fo.1.length) (m : Modulateur) (x : List Bool) :
    m.stepBits fo.1 fo.2 none (padMultiple x fo.2) = m.step none ((symbolesDe fo x).map cplx) := by
  obtain ⟨s, e, e2, _⟩ := genere_some fo.1 fo.2 hk hM x
  obtain ⟨s', e', e2', _⟩ := genere_some fo.1 fo.2 hk hM (padMultiple x fo.2)
  rw [(pad_manque x fo.2 hk).1, symmap_complete x fo.2 hk, e] at e'
  obtain rfl := Option.some.inj e'
  simp only [Modulateur.stepBits, e2', symbolesDe, e2, Option.bind_some, Option.getD_some]

theorem symboles_concat (fo : List (ℝ × ℝ) × ℕ) (hk : 0 < fo.2) (hM : 2 ^ fo.2 ≤ fo.1.length) (a b : List Bool) :
    symbolesDe fo (padMultiple a fo.2 ++ b) = symbolesDe fo a ++ symbolesDe fo b := by
  obtain ⟨s1, e1, f1, _⟩ := genere_some fo.1 fo.2 hk hM a
  obtain ⟨s2, e2, f2, _⟩ := genere_some fo.1 fo.2 hk hM b
  obtain ⟨s3, e3, f3, _⟩ := genere_some fo.1 fo.2 hk hM (padMultiple a fo.2 ++ b)
  have ha : symmap (padMultiple a fo.2) fo.2 = some s1 := by rw [(pad_manque a fo.2 hk).1, symmap_complete a fo.2 hk, e1]
  rw [symmap_append _ b fo.2 hk (pad_manque a fo.2 hk).2 s1 s2 ha e2] at e3
  rw [symbolesDe, symbolesDe, symbolesDe, f1, f2, f3, ← Option.some.inj e3]
  simp

theorem step_osf (m m' : Modulateur) (x y : List ℂ) (h : m.step none x = some (m', y)) : m'.osf = m.osf := by
  unfold Modulateur.step at h
  cases hf : m.filtre.step x with
  | none => rw [hf] at h; simp at h
  | some r =>
    rw [hf] at h
    simp at h
    rw [← h.1]

/-- The blocks of symbols given to the modulator for a frame. -/
noncomputable def blocsTrame (fo : List (ℝ × ℝ) × ℕ) (foEntete : Option (List (ℝ × ℝ) × ℕ)) (entete : List Bool) (d2 R : ℕ) (b : List Bool) : List (List ℂ) :=
  (match foEntete with
    | some f => [(symbolesDe f entete).map cplx, (symbolesDe fo b).map cplx]
    | none => [(symbolesDe fo entete ++ symbolesDe fo b).map cplx]) ++ (if (d2 + 1) / 2 = 0 then [] else [List.replicate (((d2 + 1) / 2 + R - 1) / R) 0])

theorem blocs_trame (fo : List (ℝ × ℝ) × ℕ) (foEntete : Option (List (ℝ × ℝ) × ℕ)) (entete : List Bool) (d2 R : ℕ) (hR : 0 < R) (b : List Bool) :
    (blocsTrame fo foEntete entete d2 R b).flatten = trame fo foEntete entete d2 R b := by
  have hz : (if (d2 + 1) / 2 = 0 then [] else [List.replicate (((d2 + 1) / 2 + R - 1) / R) (0 : ℂ)]).flatten = List.replicate (((d2 + 1) / 2 + R - 1) / R) 0 := by
    split
    · rename_i h
      rw [h, Nat.zero_add, Nat.div_eq_of_lt (by omega)]
      rfl
    · simp
  unfold blocsTrame trame
  cases foEntete with
  | none => simp only [List.flatten_append, hz]; simp
  | some f => simp only [List.flatten_append, hz]; simp

/-- One frame. -/
theorem emet_step (fo : List (ℝ × ℝ) × ℕ) (hk : 0 < fo.2) (hM : 2 ^ fo.2 ≤ fo.1.length) (foEntete : Option (List (ℝ × ℝ) × ℕ))
    (hE : ∀ f ∈ foEntete, 0 < f.2 ∧ 2 ^ f.2 ≤ f.1.length) (entete : List Bool) (m : Modulateur) (d2 : ℕ) (hR : 0 < m.osf) (b : List Bool) :
    (⟨fo.1, fo.2, entete, foEntete, m, d2⟩ : Emetteur).step b =
      (enchaine (Modulateur.step none) m (blocsTrame fo foEntete entete d2 m.osf b)).map fun r => (⟨fo.1, fo.2, entete, foEntete, r.1, d2⟩, r.2) := by
  have hfl : ∀ m' : Modulateur, m'.osf = m.osf → m'.flush none (((d2 + 1) / 2 : ℕ) : ℤ) =
      enchaine (Modulateur.step none) m' (if (d2 + 1) / 2 = 0 then [] else [List.replicate (((d2 + 1) / 2 + m.osf - 1) / m.osf) 0]) := by
    intro m' ho
    unfold Modulateur.flush
    by_cases h : (d2 + 1) / 2 = 0
    · rw [if_pos h, if_pos (by omega)]
      rfl
    · rw [if_neg h, if_neg (by omega), ho, if_neg hR.ne', Int.toNat_natCast]
      simp only [enchaine]
      cases Modulateur.step none m' (List.replicate (((d2 + 1) / 2 + m.osf - 1) / m.osf) 0) with
      | none => rfl
      | some r => simp
  unfold Emetteur.step blocsTrame
  rw [enchaine_concat]
  cases foEntete with
  | none =>
    simp only [stepBits_symboles fo hk hM, symboles_concat fo hk hM, enchaine]
    cases h1 : Modulateur.step none m ((symbolesDe fo entete ++ symbolesDe fo b).map cplx) with
    | none => rfl
    | some r =>
      have ho := step_osf m r.1 _ r.2 h1
      simp only [Option.bind_some, List.append_nil]
      rw [hfl r.1 ho]
      cases enchaine (Modulateur.step none) r.1 (if (d2 + 1) / 2 = 0 then [] else [List.replicate (((d2 + 1) / 2 + m.osf - 1) / m.osf) 0]) with
      | none => rfl
      | some q => rfl
  | some f =>
    obtain ⟨hf1, hf2⟩ := hE f rfl
    simp only [stepBits_symboles fo hk hM, stepBits_symboles f hf1 hf2, enchaine]
    cases h1 : Modulateur.step none m ((symbolesDe f entete).map cplx) with
    | none => rfl
    | some r =>
      have ho := step_osf m r.1 _ r.2 h1
      simp only [Option.bind_some]
      cases h2 : Modulateur.step none r.1 ((symbolesDe fo b).map cplx) with
      | none => rfl
      | some r2 =>
        have ho2 := step_osf r.1 r2.1 _ r2.2 h2
        simp only [Option.map_some, Option.bind_some, List.append_nil]
        rw [hfl r2.1 (by rw [ho2, ho])]
        cases enchaine (Modulateur.step none) r2.1 (if (d2 + 1) / 2 = 0 then [] else [List.replicate (((d2 + 1) / 2 + m.osf - 1) / m.osf) 0]) with
        | none => rfl
        | some q => rfl

theorem enchaine_osf (m m' : Modulateur) (b : List (List ℂ)) (y : List ℂ) (h : enchaine (Modulateur.step none) m b = some (m', y)) : m'.osf = m.osf := by
  rw [enchaine_mod] at h
  cases hf : enchaine EtatForme.step m.filtre b with
  | none => rw [hf] at h; simp at h
  | some r =>
    rw [hf] at h
    simp at h
    rw [← h.1]

theorem emet_flux (fo : List (ℝ × ℝ) × ℕ) (hk : 0 < fo.2) (hM : 2 ^ fo.2 ≤ fo.1.length) (foEntete : Option (List (ℝ × ℝ) × ℕ))
    (hE : ∀ f ∈ foEntete, 0 < f.2 ∧ 2 ^ f.2 ≤ f.1.length) (entete : List Bool) (d2 R : ℕ) (hR : 0 < R) (trames : List (List Bool)) (m : Modulateur) (hm : m.osf = R) :
    enchaine Emetteur.step (⟨fo.1, fo.2, entete, foEntete, m, d2⟩ : Emetteur) trames =
      (enchaine (Modulateur.step none) m (trames.flatMap fun b => blocsTrame fo foEntete entete d2 R b)).map fun r => (⟨fo.1, fo.2, entete, foEntete, r.1, d2⟩, r.2) := by
  induction trames generalizing m with
  | nil => rfl
  | cons b trames ih =>
    rw [List.flatMap_cons, enchaine_concat]
    simp only [enchaine]
    rw [emet_step fo hk hM foEntete hE entete m d2 (by omega) b, hm]
    cases h1 : enchaine (Modulateur.step none) m (blocsTrame fo foEntete entete d2 R b) with
    | none => rfl
    | some r =>
      have ho := enchaine_osf m r.1 _ r.2 h1
      simp only [Option.map_some, Option.bind_some, ih r.1 (by rw [ho, hm])]
      cases enchaine (Modulateur.step none) r.1 (trames.flatMap fun b => blocsTrame fo foEntete entete d2 R b) with
      | none => rfl
      | some q => rfl

/-- **C99 (frames).** For every linear waveform, header (with its own waveform or not), shaping filter and oversampling factor `R`, and for every sequence of frames, the transmitter returns
`R` samples per symbol: for each frame the symbols of the header completed to whole symbols, those of the data, then at least the delay of the modulator in null symbols; the signal is
the superposition of the pulses weighted by these symbols. -/
theorem C99_trames (fo : List (ℝ × ℝ) × ℕ) (hk : 0 < fo.2) (hM : 2 ^ fo.2 ≤ fo.1.length) (foEntete : Option (List (ℝ × ℝ) × ℕ))
    (hF : ∀ f ∈ foEntete, 0 < f.2 ∧ 2 ^ f.2 ≤ f.1.length) (entete : List Bool) (t : MiseEnForme) (R : ℕ) (hR : 0 < R) (h : List ℝ)
    (ht : t.coefs R = some h) (hE : energie h ≠ 0) (trames : List (List Bool)) :
    ∃ e0 e y, Emetteur.cree fo.1 fo.2 entete foEntete t R = some e0 ∧ enchaine Emetteur.step e0 trames = some (e, y) ∧
      y.length = (trames.flatMap (trame fo foEntete entete (delaisUps2 h.length R) R)).length * R ∧ ∀ p, p < y.length → y[p]? =
        some (convolution ((impulsion h R).map fun v : ℝ => (v : ℂ)) (insereZeros R (trames.flatMap (trame fo foEntete entete (delaisUps2 h.length R) R))) p) := by
  obtain ⟨m0, m, y, e0, e1, hl, hv⟩ := forme_flux t R hR h ht hE (trames.flatMap fun b => blocsTrame fo foEntete entete (delaisUps2 h.length R) R b)
  have hosf : m0.osf = R := by
    unfold Modulateur.cree at e0
    cases hf : filtreForme t R with
    | none => rw [hf] at e0; simp at e0
    | some f => rw [hf] at e0; simp at e0; rw [← e0]
  have hfl : (trames.flatMap fun b => blocsTrame fo foEntete entete (delaisUps2 h.length R) R b).flatten = trames.flatMap (trame fo foEntete entete (delaisUps2 h.length R) R) := by
    clear e1 hl hv
    induction trames with
    | nil => rfl
    | cons b trames ih => rw [List.flatMap_cons, List.flatten_append, ih, blocs_trame _ _ _ _ _ hR, List.flatMap_cons]
  rw [hfl] at hl hv
  refine ⟨⟨fo.1, fo.2, entete, foEntete, m0, delaisUps2 h.length R⟩, ⟨fo.1, fo.2, entete, foEntete, m, delaisUps2 h.length R⟩, y, ?_, ?_, hl, hv⟩
  · simp [Emetteur.cree, e0, ht]
  · rw [emet_flux fo hk hM foEntete hF entete _ R hR trames m0 hosf, e1]
    rfl

/-- **C99 (flush).** The null symbols cover the delay of the modulator: the centre of the pulse of the last symbol is inside the frame. -/
theorem C99_vidage (nc R : ℕ) (hR : 0 < R) : delaisUps2 nc R ≤ 2 * ((((delaisUps2 nc R + 1) / 2 + R - 1) / R) * R) := by
  generalize delaisUps2 nc R = d
  have h1 := Nat.div_add_mod ((d + 1) / 2 + R - 1) R
  have h2 := Nat.mod_lt ((d + 1) / 2 + R - 1) hR
  rw [Nat.mul_comm R] at h1
  omega

/-- The output of a sequence of frames that follows enough null symbols does not depend on what precedes them. -/
theorem convolution_apres (R : ℕ) (hR : 0 < R) (d a b : List ℂ) (L Z : ℕ) (hd : d.length = L * R) (hZ : L ≤ Z + 1) (q : ℕ) :
    convolution d (insereZeros R (a ++ List.replicate Z 0 ++ b)) ((a.length + Z) * R + q) = convolution d (insereZeros R b) q := by
  have hq : q = q / R * R + q % R := by rw [Nat.mul_comm]; exact (Nat.div_add_mod q R).symm
  have hi := Nat.mod_lt q hR
  generalize q / R = m at *
  generalize q % R = i at *
  subst hq
  rw [show (a.length + Z) * R + (m * R + i) = (a.length + Z + m) * R + i by ring, convolution_insere R hR d _ L hd _ i hi, convolution_insere R hR d _ L hd m i hi]
  apply Finset.sum_congr rfl
  intro u hu
  rw [Finset.mem_range] at hu
  congr 1
  unfold passe
  rw [if_pos (by omega)]
  split
  · rename_i h
    rw [List.getD_eq_getElem?_getD, List.getD_eq_getElem?_getD, List.getElem?_append_right (by simp; omega)]
    congr 2
    simp
    omega
  · rename_i h
    rw [List.getD_eq_getElem?_getD, List.getElem?_append_left (by simp; omega), List.getElem?_append_right (by omega), List.getElem?_replicate]
    rw [if_pos (by omega)]
    rfl

/-- **C99 (independence of the frames).** If the pulse (of `L` symbols) is not longer than one symbol and the flush, the frames do not interfere: the signal of a sequence of frames is the
concatenation of the signals that a new transmitter gives for each part. (NRZ filter: `L = 1`.) -/
theorem C99_independance_partial (fo : List (ℝ × ℝ) × ℕ) (hk : 0 < fo.2) (hM : 2 ^ fo.2 ≤ fo.1.length) (foEntete : Option (List (ℝ × ℝ) × ℕ))
    (hF : ∀ f ∈ foEntete, 0 < f.2 ∧ 2 ^ f.2 ≤ f.1.length) (entete : List Bool) (t : MiseEnForme) (R : ℕ) (hR : 0 < R) (h : List ℝ)
    (ht : t.coefs R = some h) (hE : energie h ≠ 0) (L : ℕ) (hL : (impulsion h R).length = L * R)
    (hcourt : L ≤ ((delaisUps2 h.length R + 1) / 2 + R - 1) / R + 1) (ta tb : List (List Bool)) :
    ∃ e0 e ea eb ya yb, Emetteur.cree fo.1 fo.2 entete foEntete t R = some e0 ∧ enchaine Emetteur.step e0 ta = some (ea, ya) ∧
      enchaine Emetteur.step e0 tb = some (eb, yb) ∧ enchaine Emetteur.step e0 (ta ++ tb) = some (e, ya ++ yb) := by
  obtain ⟨e0, ea, ya, a1, a2, a3, a4⟩ := C99_trames fo hk hM foEntete hF entete t R hR h ht hE ta
  obtain ⟨e0', eb, yb, b1, b2, b3, b4⟩ := C99_trames fo hk hM foEntete hF entete t R hR h ht hE tb
  obtain ⟨e0'', e, y, c1, c2, c3, c4⟩ := C99_trames fo hk hM foEntete hF entete t R hR h ht hE (ta ++ tb)
  rw [a1] at b1 c1
  obtain rfl := Option.some.inj b1
  obtain rfl := Option.some.inj c1
  refine ⟨e0, e, ea, eb, ya, yb, a1, a2, b2, ?_⟩
  rw [c2]
  congr 2
  rw [enchaine_concat, a2, Option.bind_some] at c2
  cases h2 : enchaine Emetteur.step ea tb with
  | none => rw [h2] at c2; simp at c2
  | some r =>
    rw [h2] at c2
    simp only [Option.map_some, Option.some.injEq, Prod.mk.injEq] at c2
    rcases List.eq_nil_or_concat ta with h0 | ⟨ti, tl, rfl⟩
    · subst h0
      simp only [enchaine, Option.some.injEq, Prod.mk.injEq] at a2
      rw [← a2.1, b2] at h2
      rw [← c2.2, ← Option.some.inj h2]
    · rw [← c2.2]
      congr 1
      rw [← c2.2] at c3 c4
      rw [List.length_append] at c3
      rw [List.concat_eq_append] at *
      have hX : ∃ a, ((ti ++ [tl]).flatMap (trame fo foEntete entete (delaisUps2 h.length R) R)) = a ++ List.replicate (((delaisUps2 h.length R + 1) / 2 + R - 1) / R) 0 := by
        refine ⟨ti.flatMap (trame fo foEntete entete (delaisUps2 h.length R) R) ++
          ((symbolesDe (foEntete.getD fo) entete).map cplx ++ (symbolesDe fo tl).map cplx), ?_⟩
        rw [List.flatMap_append, List.flatMap_cons, List.flatMap_nil, List.append_nil, trame]
        simp only [List.append_assoc]
      obtain ⟨a, ha⟩ := hX
      rw [List.flatMap_append, ha] at c3 c4
      rw [ha] at a3
      have hlen : r.2.length = yb.length := by
        rw [b3]
        rw [a3, List.length_append (as := a ++ _), Nat.add_mul] at c3
        omega
      apply List.ext_getElem?
      intro q
      by_cases hq : q < yb.length
      · have e1 := c4 (ya.length + q) (by rw [List.length_append]; omega)
        rw [List.getElem?_append_right (by omega), Nat.add_sub_cancel_left] at e1
        rw [e1, b4 q hq, a3, List.length_append, List.length_replicate, convolution_apres R hR _ a _ L _ (by rw [List.length_map, hL]) hcourt q]
      · rw [List.getElem?_eq_none (by omega), List.getElem?_eq_none (by omega)]

/-- **C99 (interference between frames, refuted).** The flush covers the delay (half of the pulse) and not the whole pulse: the last symbol of a frame is still present in the next frame. With a
filter of 4 symbols (`R = 2`, 8 coefficients) and the BPSK, a pulse lasts 8 samples while a frame only leaves 2 + 4. -/
theorem C99_interference_refute : ∃ (h : List ℝ), h.length = 8 ∧ (((delaisUps2 h.length 2 + 1) / 2 + 2 - 1) / 2) * 2 = 4 ∧ ∃ e0 e1 e2 ya yb y1 y2,
    Emetteur.cree (pskConstellation 2) 1 [] none (.autre h) 2 = some e0 ∧ e0.step [true] = some (e1, ya) ∧ e0.step [false] = some (e2, yb) ∧
    (∃ e', e1.step [true] = some (e', y1)) ∧ (∃ e', e2.step [true] = some (e', y2)) ∧ y1 ≠ y2 := by
  have hD : delaisUps2 8 2 = 7 := by decide
  have hen : energie (List.replicate 8 1) = 8 := by simp [energie]; norm_num
  have hk : (0 : ℕ) < (pskConstellation 2, 1).2 := one_pos
  have hM : 2 ^ (pskConstellation 2, 1).2 ≤ (pskConstellation 2, 1).1.length := by simp [psk_longueur]
  have hcle : ∀ b : Bool, ∃ e0 e1 e' ya y1, Emetteur.cree (pskConstellation 2) 1 [] none (.autre (List.replicate 8 1)) 2 = some e0 ∧ e0.step [b] = some (e1, ya) ∧
      e1.step [true] = some (e', y1) ∧ y1[0]? = some (1 / 2 + (if b then (1 : ℂ) else -1) * (1 / 2)) := by
    intro b
    obtain ⟨e0, e, y, h1, h2, h3, h4⟩ := C99_trames (pskConstellation 2, 1) hk hM none (by simp) [] (.autre (List.replicate 8 1)) 2 (by norm_num) (List.replicate 8 1)
      (by simp [MiseEnForme.coefs]) (by rw [hen]; norm_num) [[b], [true]]
    obtain ⟨e0', ea, ya, h1', h2', h3', _⟩ := C99_trames (pskConstellation 2, 1) hk hM none (by simp) [] (.autre (List.replicate 8 1)) 2 (by norm_num) (List.replicate 8 1)
      (by simp [MiseEnForme.coefs]) (by rw [hen]; norm_num) [[b]]
    rw [h1] at h1'
    obtain rfl := Option.some.inj h1'
    have hs0 : symbolesDe (pskConstellation 2, 1) [] = [] := by simp [symbolesDe, genereSymboles, symmap]
    have hs1 : ∀ c : Bool, symbolesDe (pskConstellation 2, 1) [c] = [(if c then 1 else -1, 0)] := by
      intro c
      cases c <;> simp [symbolesDe, genereSymboles, symmap, symbBoucle, pskConstellation]
    have ht : ∀ c : Bool, trame (pskConstellation 2, 1) none [] 7 2 [c] = [if c then 1 else -1, 0, 0] := by
      intro c
      simp only [trame, Option.getD_none, hs0, hs1]
      cases c <;> simp [cplx, List.replicate_succ] <;> apply Complex.ext <;> simp
    simp only [List.length_replicate, hD, List.flatMap_cons, List.flatMap_nil, ht] at h3 h4 h3'
    simp only [enchaine] at h2 h2'
    cases hb : Emetteur.step e0 [b] with
    | none => rw [hb] at h2; simp at h2
    | some r =>
      rw [hb] at h2 h2'
      simp only [List.append_nil, Option.some.injEq] at h2 h2'
      cases hc : Emetteur.step r.1 [true] with
      | none => rw [hc] at h2; simp at h2
      | some q =>
        rw [hc] at h2
        simp only [Option.some.injEq, Prod.mk.injEq] at h2
        refine ⟨e0, r.1, q.1, r.2, q.2, h1, hb, hc, ?_⟩
        have hr : r.2.length = 6 := by
          rw [show r.2 = ya from congrArg Prod.snd h2', h3']
          simp
        have h6 := h4 6 (by rw [h3]; simp)
        rw [← h2.2, List.getElem?_append_right (by omega), hr] at h6
        rw [h6]
        have hi : ((impulsion (List.replicate 8 1) 2).map fun v : ℝ => (v : ℂ)) = List.replicate 8 (1 / 2 : ℂ) := by
          have h48 : Real.sqrt 2 / Real.sqrt 8 = 1 / 2 := by
            rw [show (8 : ℝ) = 2 ^ 2 * 2 by norm_num, Real.sqrt_mul (by norm_num), Real.sqrt_sq (by norm_num)]
            have : Real.sqrt 2 ≠ 0 := by positivity
            field_simp
          unfold impulsion
          rw [hen]
          simp [complement, h48]
        rw [hi]
        have h2 := convolution_insere 2 (by norm_num) (List.replicate 8 (1 / 2 : ℂ)) ([if b then (1 : ℂ) else -1, 0, 0] ++ [1, 0, 0]) 4 (by simp) 3 0 (by norm_num)
        simp only [Finset.sum_range_succ, Finset.sum_range_zero] at h2
        simp [passe] at h2
        simp
        try rw [h2]
  obtain ⟨e0, e1, e1', ya, y1, h1, h2, h3, h4⟩ := hcle true
  obtain ⟨e0', e2, e2', yb, y2, g1, g2, g3, g4⟩ := hcle false
  rw [h1] at g1
  obtain rfl := Option.some.inj g1
  refine ⟨List.replicate 8 1, by simp, by decide, e0, e1, e2, ya, yb, y1, y2, h1, h2, g2, ⟨_, h3⟩, ⟨_, g3⟩, fun he => ?_⟩
  rw [he, g4] at h4
  have := congrArg Complex.re (Option.some.inj h4)
  norm_num at this

/-- **C99 (announced delay, refuted).** `retard()` uses the configured number of coefficients (0 by default) and not that of the filter: with the default configuration it announces a negative
delay, `-1/2`, whatever the filter, instead of that of the modulator. -/
theorem C99_retard_refute (R : ℕ) : retardEmetteur2 0 R = -1 ∧ ∀ nc, retardEmetteur2 0 R ≠ (delaisUps2 nc R : ℤ) := by
  have : retardEmetteur2 0 R = -1 := by simp [retardEmetteur2]
  refine ⟨this, fun nc => ?_⟩
  rw [this]
  omega

/-- Non-vacuity: BPSK with a header of three bits, NRZ filter, `R = 4`: the hypotheses hold, with `L = 1`. -/
example : MiseEnForme.nrz.coefs 4 = some (List.replicate 4 (1 / ((4 : ℕ) : ℝ))) ∧ energie (List.replicate 4 (1 / ((4 : ℕ) : ℝ))) ≠ 0 ∧
    (impulsion (List.replicate 4 (1 / ((4 : ℕ) : ℝ))) 4).length = 1 * 4 ∧ 1 ≤ ((delaisUps2 (List.replicate 4 (1 / ((4 : ℕ) : ℝ))).length 4 + 1) / 2 + 4 - 1) / 4 + 1 := by
  refine ⟨by simp [MiseEnForme.coefs], by norm_num [energie], by simp [impulsion, complement], by omega⟩

end Verif.Telecom
