import Verif.Temps.Spec
import Mathlib.Tactic.IntervalCases

namespace Verif.Temps
open Verif

theorem bissextile_iff (a : Int) (h1 : 1 ≤ a) (h2 : a ≤ 9999) : estBissextile a = decide (Bissextile a) := by
  have hv : anneeValide a = true := by simp [anneeValide]; omega
  unfold estBissextile Bissextile
  rw [hv]
  simp only [Bool.not_true, Bool.false_eq_true, if_false]
  rw [Int.tmod_eq_emod_of_nonneg (by omega), Int.tmod_eq_emod_of_nonneg (by omega), Int.tmod_eq_emod_of_nonneg (by omega)]
  rw [Bool.eq_iff_iff]
  simp only [Int.dvd_iff_emod_eq_zero, Bool.or_eq_true, Bool.and_eq_true, beq_iff_eq, bne_iff_ne, decide_eq_true_eq, ne_eq]
  omega

/-- Days before month `m` of a year. -/
def cumul (b : Bool) (m : Int) : Int := ((cumulJoursParMois b)[(m - 1).toNat]?).getD 0

theorem longueur_eq (a m : Int) (h1 : 1 ≤ a) (h2 : a ≤ 9999) (h3 : 1 ≤ m) (h4 : m ≤ 12) :
    moisNbJours a m = some (longueurMois a m) := by
  have hv : anneeMoisValide a m = true := by simp [anneeMoisValide, anneeValide]; omega
  unfold moisNbJours
  rw [hv, bissextile_iff a h1 h2]
  simp only [Bool.not_true, Bool.false_eq_true, if_false]
  unfold longueurMois nbJoursParMois
  by_cases hb : Bissextile a <;> simp only [hb, decide_true, decide_false, if_true, if_false] <;>
    interval_cases m <;> rfl

theorem estValide_iff (c : Cal) : c.estValide = true ↔ DateValide c := by
  unfold Cal.estValide DateValide
  by_cases h : 1 ≤ c.annee ∧ c.annee ≤ 9999 ∧ 1 ≤ c.mois ∧ c.mois ≤ 12
  · obtain ⟨h1, h2, h3, h4⟩ := h
    rw [longueur_eq _ _ h1 h2 h3 h4]
    simp [anneeMoisValide, anneeValide, h1, h2, h3, h4]
  · have : anneeMoisValide c.annee c.mois = false := by
      simp [anneeMoisValide, anneeValide]; omega
    rw [this]
    simp
    intro h1 h2 h3 h4
    exact absurd ⟨h1, h2, h3, h4⟩ h

/-- Days before 1 January of year `a`. -/
def debutAnnee (a : Int) : Int := 365 * (a - 1) + (a - 1) / 4 - (a - 1) / 100 + (a - 1) / 400

theorem nbJours_eq (c : Cal) (h : DateValide c) :
    c.nbJoursDebutEre = debutAnnee c.annee + cumul (decide (Bissextile c.annee)) c.mois + c.jour - 1 := by
  have hv := (estValide_iff c).2 h
  obtain ⟨h1, h2, h3, h4, h5, h6⟩ := h
  unfold Cal.nbJoursDebutEre gregorienVersJours Cal.nbJoursDebutAnnee
  rw [hv, bissextile_iff _ h1 h2]
  simp only [Bool.not_true, Bool.false_eq_true, if_false]
  rw [Int.tdiv_eq_ediv_of_nonneg (by omega), Int.tdiv_eq_ediv_of_nonneg (by omega),
    Int.tdiv_eq_ediv_of_nonneg (by omega)]
  unfold debutAnnee cumul
  omega

theorem debutAnnee_succ (a : Int) :
    debutAnnee (a + 1) = debutAnnee a + 365 + (if Bissextile a then 1 else 0) := by
  unfold debutAnnee
  by_cases h : Bissextile a
  · rw [if_pos h]
    simp only [Bissextile, Int.dvd_iff_emod_eq_zero] at h
    omega
  · rw [if_neg h]
    simp only [Bissextile, Int.dvd_iff_emod_eq_zero] at h
    omega

theorem debutAnnee_mono {a b : Int} (h : a ≤ b) : debutAnnee a + 365 * (b - a) ≤ debutAnnee b := by
  unfold debutAnnee
  omega

theorem cumul_succ (a m : Int) (h1 : 1 ≤ m) (h2 : m ≤ 11) :
    cumul (decide (Bissextile a)) (m + 1) = cumul (decide (Bissextile a)) m + longueurMois a m := by
  unfold longueurMois
  by_cases hb : Bissextile a <;> simp only [hb, decide_true, decide_false, if_true, if_false] <;>
    interval_cases m <;> rfl

theorem cumul_12 (a : Int) :
    cumul (decide (Bissextile a)) 12 + 31 = 365 + (if Bissextile a then 1 else 0) := by
  by_cases hb : Bissextile a <;> simp only [hb, decide_true, decide_false, if_true, if_false] <;> rfl

theorem cumul_1 (b : Bool) : cumul b 1 = 0 := by cases b <;> rfl

theorem cumul_le {a m m' : Int} (h1 : 1 ≤ m) (h2 : m < m') (h3 : m' ≤ 12) :
    cumul (decide (Bissextile a)) m + longueurMois a m ≤ cumul (decide (Bissextile a)) m' := by
  rw [← cumul_succ a m h1 (by omega)]
  generalize decide (Bissextile a) = b
  have : 1 ≤ m' := by omega
  have : m ≤ 11 := by omega
  cases b <;> interval_cases m <;> interval_cases m' <;> simp_all [cumul, cumulJoursParMois]

theorem jour_annee_lt (c : Cal) (h : DateValide c) :
    0 ≤ cumul (decide (Bissextile c.annee)) c.mois + c.jour - 1 ∧
    cumul (decide (Bissextile c.annee)) c.mois + c.jour - 1 < 365 + (if Bissextile c.annee then 1 else 0) := by
  obtain ⟨h1, h2, h3, h4, h5, h6⟩ := h
  have h12 := cumul_12 c.annee
  constructor
  · have : 0 ≤ cumul (decide (Bissextile c.annee)) c.mois := by
      generalize decide (Bissextile c.annee) = b
      generalize c.mois = m at *
      cases b <;> interval_cases m <;> simp [cumul, cumulJoursParMois]
    omega
  · rcases lt_or_eq_of_le h4 with h | h
    · have := cumul_le (a := c.annee) h3 h (le_refl 12)
      omega
    · rw [h] at h6 ⊢
      have : longueurMois c.annee 12 = 31 := by simp [longueurMois]
      omega

theorem nbJours_lt {c d : Cal} (hc : DateValide c) (hd : DateValide d) (h : Avant c d) :
    c.nbJoursDebutEre < d.nbJoursDebutEre := by
  rw [nbJours_eq c hc, nbJours_eq d hd]
  have bc := jour_annee_lt c hc
  have bd := jour_annee_lt d hd
  rcases h with h | ⟨h, h' | ⟨h', h''⟩⟩
  · have e := debutAnnee_succ c.annee
    have := debutAnnee_mono (show c.annee + 1 ≤ d.annee by omega)
    omega
  · have := cumul_le (a := c.annee) hc.2.2.1 h' hd.2.2.2.1
    have h6 := hc.2.2.2.2.2
    have h5 := hd.2.2.2.2.1
    rw [← h]
    omega
  · rw [← h, ← h']; omega

theorem avant_total (c d : Cal) : Avant c d ∨ c = d ∨ Avant d c := by
  unfold Avant
  by_cases e : c = d
  · right; left; exact e
  · have : ¬ (c.annee = d.annee ∧ c.mois = d.mois ∧ c.jour = d.jour) := by
      rintro ⟨a, b, h⟩; apply e; cases c; cases d; simp_all
    omega

theorem nbJours_inj {c d : Cal} (hc : DateValide c) (hd : DateValide d)
    (h : c.nbJoursDebutEre = d.nbJoursDebutEre) : c = d := by
  rcases avant_total c d with h' | h' | h'
  · have := nbJours_lt hc hd h'; omega
  · exact h'
  · have := nbJours_lt hd hc h'; omega

/-! ### `calendrier` -/

/-- The month loop over the whole year, both year lengths. -/
theorem boucleMois_spec (b : Bool) (j : Int) (h0 : 0 ≤ j) (h1 : j < 365 + (if b then 1 else 0)) :
    ∃ m r, boucleMois (nbJoursParMois b) 0 j = some (m, r) ∧ 0 ≤ m ∧ m ≤ 11 ∧ 0 ≤ r ∧
      cumul b (m + 1) + r = j ∧ r < ((nbJoursParMois b)[m.toNat]?).getD 0 := by
  have all : ∀ b : Bool, ∀ j : Fin 366, (j.val : Int) < 365 + (if b then 1 else 0) →
      (match boucleMois (nbJoursParMois b) 0 j.val with
        | some (m, r) => decide (0 ≤ m ∧ m ≤ 11 ∧ 0 ≤ r ∧ cumul b (m + 1) + r = j.val ∧
            r < ((nbJoursParMois b)[m.toNat]?).getD 0)
        | none => false) = true := by decide +kernel
  have hj : j.toNat < 366 := by cases b <;> simp at h1 <;> omega
  have := all b ⟨j.toNat, hj⟩ (by simpa [Int.toNat_of_nonneg h0] using h1)
  simp only [Int.toNat_of_nonneg h0] at this
  cases e : boucleMois (nbJoursParMois b) 0 j with
  | none => rw [e] at this; simp at this
  | some p =>
    obtain ⟨m, r⟩ := p
    rw [e] at this
    simp only [decide_eq_true_eq] at this
    exact ⟨m, r, rfl, this⟩

theorem longueur_table (a m : Int) (h3 : 0 ≤ m) (h4 : m ≤ 11) :
    ((nbJoursParMois (decide (Bissextile a)))[m.toNat]?).getD 0 = longueurMois a (m + 1) := by
  unfold longueurMois
  by_cases hb : Bissextile a <;> simp only [hb, decide_true, decide_false, if_true, if_false] <;>
    interval_cases m <;> rfl

theorem calendrier_spec (n : Int) (h0 : 0 ≤ n) (h1 : n < joursEre) :
    ∃ c, calendrierJours n = some c ∧ DateValide c ∧ c.nbJoursDebutEre = n := by
  unfold joursEre at h1
  unfold calendrierJours cycle400 cycle100 cycle4
  simp only [Int.reduceMul, Int.reduceAdd, Int.reduceSub]
  rw [Int.tdiv_eq_ediv_of_nonneg h0, Int.tmod_eq_emod_of_nonneg h0]
  generalize hn4 : n / 146097 = n400
  generalize hj1 : n % 146097 = j1
  have hj1' : 0 ≤ j1 ∧ j1 < 146097 := by omega
  rw [Int.tdiv_eq_ediv_of_nonneg hj1'.1]
  generalize hn1 : (if j1 / 36524 = 4 then (3 : Int) else j1 / 36524) = n100
  have hn1' : 0 ≤ n100 ∧ n100 ≤ 3 := by split at hn1 <;> omega
  generalize hj2 : j1 - n100 * 36524 = j2
  have hj2' : 0 ≤ j2 ∧ (j2 < 36524 ∨ (j2 = 36524 ∧ n100 = 3)) := by split at hn1 <;> omega
  rw [Int.tdiv_eq_ediv_of_nonneg hj2'.1, Int.tmod_eq_emod_of_nonneg hj2'.1]
  generalize hn : j2 / 1461 = n4
  generalize hj3 : j2 % 1461 = j3
  have hn4' : 0 ≤ n4 ∧ n4 ≤ 24 := by omega
  have hac : ∃ na j4, anneeDansCycle4 j3 = (na, j4) ∧ 0 ≤ na ∧ na ≤ 3 ∧ j3 = 365 * na + j4 ∧ 0 ≤ j4 ∧
      (j4 < 365 ∨ (j4 = 365 ∧ na = 3)) := by
    unfold anneeDansCycle4
    split
    · exact ⟨0, j3, rfl, by omega, by omega, by omega, by omega, by omega⟩
    · split
      · exact ⟨1, j3 - 365, rfl, by omega, by omega, by omega, by omega, by omega⟩
      · split
        · exact ⟨2, _, rfl, by omega, by omega, by omega, by omega, by omega⟩
        · exact ⟨3, _, rfl, by omega, by omega, by omega, by omega, by omega⟩
  obtain ⟨na, j4, e, ha0, ha3, hj4, hj40, hj41⟩ := hac
  rw [e]
  simp only
  generalize hy : n400 * 400 + n100 * 100 + n4 * 4 + na + 1 = y
  have hd : debutAnnee y + j4 = n := by
    have e0 : y - 1 = n400 * 400 + n100 * 100 + n4 * 4 + na := by omega
    have e1 : (y - 1) / 4 = n400 * 100 + n100 * 25 + n4 := by
      rw [e0]; clear * - ha0 ha3; omega
    have e2 : (y - 1) / 100 = n400 * 4 + n100 := by
      rw [e0]; clear * - ha0 ha3 hn4'; omega
    have e3 : (y - 1) / 400 = n400 := by
      rw [e0]; clear * - ha0 ha3 hn4' hn1'; omega
    unfold debutAnnee
    rw [e1, e2, e3, e0]
    have k1 : n = 146097 * n400 + j1 := by clear * - hn4 hj1; omega
    have k2 : j2 = 1461 * n4 + j3 := by clear * - hn hj3; omega
    clear * - k1 k2 hj4 hj2
    omega
  have hn400 : 0 ≤ n400 ∧ n400 ≤ 24 := by clear * - hn4 h0 h1; omega
  have hy1 : 1 ≤ y := by clear * - hn400 hn1' hn4' ha0 hy; omega
  have hy2 : y ≤ 9999 := by
    by_contra hc
    have := debutAnnee_mono (show 10000 ≤ y by omega)
    have e4 : debutAnnee 10000 = 3652059 := by decide
    clear * - this e4 hd h1 hj40 hc
    omega
  have hleap : j4 < 365 + (if Bissextile y then 1 else 0) := by
    rcases hj41 with h | ⟨h, hna⟩
    · split <;> omega
    · have hb : Bissextile y := by
        have k1 : y = n400 * 400 + n100 * 100 + n4 * 4 + 4 := by clear * - hy hna; omega
        have k2 : n4 = 24 → n100 = 3 := by
          have k3 : j2 = 1461 * n4 + j3 := by clear * - hn hj3; omega
          clear * - k3 h hna hj4 hj2'
          omega
        clear * - k1 k2 hn4'
        simp only [Bissextile, Int.dvd_iff_emod_eq_zero]
        constructor
        · omega
        · by_cases h24 : n4 = 24
          · right
            have := k2 h24
            omega
          · left; omega
      rw [if_pos hb]; omega
  rw [bissextile_iff y hy1 hy2]
  obtain ⟨m, r, em, hm0, hm1, hr0, hsum, hr1⟩ := boucleMois_spec (decide (Bissextile y)) j4 hj40
    (by simpa using hleap)
  rw [em]
  rw [longueur_table y m hm0 hm1] at hr1
  have hv : DateValide ⟨y, m + 1, r + 1⟩ := ⟨hy1, hy2, by show 1 ≤ m + 1; omega, by show m + 1 ≤ 12; omega,
    by show 1 ≤ r + 1; omega, by show r + 1 ≤ longueurMois y (m + 1); omega⟩
  refine ⟨_, rfl, hv, ?_⟩
  rw [nbJours_eq _ hv]
  simp only
  omega

theorem nbJours_range (c : Cal) (h : DateValide c) : 0 ≤ c.nbJoursDebutEre ∧ c.nbJoursDebutEre < joursEre := by
  rw [nbJours_eq c h]
  have b := jour_annee_lt c h
  obtain ⟨h1, h2, h3, h4, h5, h6⟩ := h
  have e1 := debutAnnee_mono h1
  have e2 := debutAnnee_mono (show c.annee + 1 ≤ 10000 by omega)
  have e3 := debutAnnee_succ c.annee
  have e4 : debutAnnee 10000 = 3652059 := by decide
  have e5 : debutAnnee 1 = 0 := by decide
  unfold joursEre
  omega

theorem calendrier_inverse (c : Cal) (h : DateValide c) : calendrierJours c.nbJoursDebutEre = some c := by
  have r := nbJours_range c h
  obtain ⟨d, e, hd, hn⟩ := calendrier_spec c.nbJoursDebutEre r.1 r.2
  rw [e, nbJours_inj hd h hn]

theorem lendemain_valide (c : Cal) (h : DateValide c) (hlast : c ≠ ⟨9999, 12, 31⟩) :
    DateValide (lendemain c) ∧ (lendemain c).nbJoursDebutEre = c.nbJoursDebutEre + 1 := by
  have h' := h
  obtain ⟨h1, h2, h3, h4, h5, h6⟩ := h
  have l1 : ∀ a m : Int, 1 ≤ longueurMois a m := by
    intro a m; unfold longueurMois; split
    · split <;> omega
    · split <;> omega
  have l12 : longueurMois c.annee 12 = 31 := by simp [longueurMois]
  unfold lendemain
  split
  · rename_i hj
    have hv : DateValide ⟨c.annee, c.mois, c.jour + 1⟩ := ⟨h1, h2, h3, h4, by show 1 ≤ c.jour + 1; omega,
      by show c.jour + 1 ≤ longueurMois c.annee c.mois; omega⟩
    refine ⟨hv, ?_⟩
    rw [nbJours_eq c h', nbJours_eq _ hv]
    simp only
    omega
  · split
    · rename_i hj hm
      have hv : DateValide ⟨c.annee, c.mois + 1, 1⟩ := ⟨h1, h2, by show 1 ≤ c.mois + 1; omega,
        by show c.mois + 1 ≤ 12; omega, by show (1 : Int) ≤ 1; omega, l1 _ _⟩
      refine ⟨hv, ?_⟩
      rw [nbJours_eq c h', nbJours_eq _ hv]
      simp only
      rw [cumul_succ c.annee c.mois h3 (by omega)]
      omega
    · rename_i hj hm
      have hm12 : c.mois = 12 := by omega
      rw [hm12, l12] at h6 hj
      have hj31 : c.jour = 31 := by omega
      have hy : c.annee < 9999 := by
        rcases lt_or_eq_of_le h2 with h | h
        · exact h
        · exfalso; apply hlast; cases c; simp_all
      have hv : DateValide ⟨c.annee + 1, 1, 1⟩ := ⟨by show 1 ≤ c.annee + 1; omega,
        by show c.annee + 1 ≤ 9999; omega, by show (1 : Int) ≤ 1; omega, by show (1 : Int) ≤ 12; omega,
        by show (1 : Int) ≤ 1; omega, l1 _ _⟩
      refine ⟨hv, ?_⟩
      rw [nbJours_eq c h', nbJours_eq _ hv]
      simp only
      rw [debutAnnee_succ, cumul_1, hm12, hj31]
      have := cumul_12 c.annee
      omega

/-! ### Times of day -/

theorem dureeJours_exact (n : Int) (h : |n| ≤ 4000000) : dureeJours n = n * usParJour := by
  unfold dureeJours
  have e : (n : ℚ) * (TICS_JOUR : ℚ) = ((n * 10546875 : ℤ) : ℚ) * (2 : ℚ) ^ (13 : ℤ) := by
    simp only [TICS_JOUR, TICS_HEURE, TICS_MINUTE, TICS_SECONDE, TICS_MS]
    push_cast
    ring
  have hb : |n * 10546875| ≤ 2 ^ 53 := by
    rw [abs_mul]
    have : |(10546875 : ℤ)| = 10546875 := by decide
    rw [this]
    omega
  rw [e, rnd64_exact _ _ hb]
  have e2 : ((n * 10546875 : ℤ) : ℚ) * (2 : ℚ) ^ (13 : ℤ) = ((n * usParJour : ℤ) : ℚ) := by
    unfold usParJour; push_cast; ring
  rw [e2, tronque_int]

theorem decomp_dateHeure (j : Int) (h : Heure) (hj : 0 ≤ j) (hh : HeureValide h) :
    (dureeHeure h + j * usParJour).tdiv TICS_JOUR = j ∧ decompHeure (dureeHeure h + j * usParJour) = h := by
  obtain ⟨a1, a2, b1, b2, c1, c2, d1, d2, e1, e2⟩ := hh
  obtain ⟨hh, hm, hs, hms, hus⟩ := h
  simp only at *
  have hpos : 0 ≤ dureeHeure ⟨hh, hm, hs, hms, hus⟩ + j * usParJour := by
    simp only [dureeHeure, TICS_SECONDE, TICS_MS, usParJour]; omega
  constructor
  · rw [Int.tdiv_eq_ediv_of_nonneg hpos]
    simp only [dureeHeure, TICS_JOUR, TICS_HEURE, TICS_MINUTE, TICS_SECONDE, TICS_MS, usParJour]
    omega
  · unfold decompHeure
    simp only [Int.tmod_eq_emod_of_nonneg hpos]
    rw [Int.tdiv_eq_ediv_of_nonneg (Int.emod_nonneg _ (by decide)), Int.tdiv_eq_ediv_of_nonneg (Int.emod_nonneg _ (by decide)),
      Int.tdiv_eq_ediv_of_nonneg (Int.emod_nonneg _ (by decide)), Int.tdiv_eq_ediv_of_nonneg (Int.emod_nonneg _ (by decide))]
    simp only [dureeHeure, TICS_JOUR, TICS_HEURE, TICS_MINUTE, TICS_SECONDE, TICS_MS, usParJour]
    congr 1 <;> omega

theorem decompHeure_valide (t : Int) (h : 0 ≤ t) :
    HeureValide (decompHeure t) ∧ dureeHeure (decompHeure t) + t.tdiv TICS_JOUR * usParJour = t := by
  unfold decompHeure
  simp only [Int.tmod_eq_emod_of_nonneg h, Int.tdiv_eq_ediv_of_nonneg h]
  rw [Int.tdiv_eq_ediv_of_nonneg (Int.emod_nonneg _ (by decide)), Int.tdiv_eq_ediv_of_nonneg (Int.emod_nonneg _ (by decide)),
      Int.tdiv_eq_ediv_of_nonneg (Int.emod_nonneg _ (by decide)), Int.tdiv_eq_ediv_of_nonneg (Int.emod_nonneg _ (by decide))]
  unfold HeureValide
  simp only [dureeHeure, TICS_JOUR, TICS_HEURE, TICS_MINUTE, TICS_SECONDE, TICS_MS, usParJour]
  omega

end Verif.Temps
