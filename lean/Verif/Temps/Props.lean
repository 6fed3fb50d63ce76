import Verif.Temps.Lemmas
import Mathlib.Logic.Function.Iterate

/-! # Properties C13, C14, C15: calendar and time of day -/

namespace Verif.Temps
open Verif

/-- `est_valide()` is exactly Gregorian validity over years 1..9999. -/
theorem C13_validite (c : Cal) : c.estValide = true ↔ DateValide c := estValide_iff c

/-- `vérifie_validité` accepts exactly the times of day 00:00:00.000000 … 23:59:59.999999. -/
theorem C15_validite_heure (h : Heure) : h.estValide = true ↔ HeureValide h := by
  simp only [Heure.estValide, HeureValide, Bool.and_eq_true, decide_eq_true_eq, ge_iff_le]
  tauto

/-- **C13 (date → instant → date).** -/
theorem C13_aller_retour (c : Cal) (h : Heure) (hc : DateValide c) (hh : HeureValide h) :
    calendrier (dateHeure c h) = some c := by
  have r := nbJours_range c hc
  unfold joursEre at r
  unfold calendrier dateHeure
  rw [dureeJours_exact _ (by rw [abs_le]; omega), (decomp_dateHeure _ h r.1 hh).1]
  exact calendrier_inverse c hc

/-- **C13 (instant → date → instant).** Every instant of the era decomposes to a valid date that rebuilds it. -/
theorem C13_retour_aller (t : Int) (h0 : 0 ≤ t) (h1 : t < joursEre * usParJour) :
    ∃ c, calendrier t = some c ∧ DateValide c ∧ dateHeure c (decompHeure t) = t := by
  have hd : 0 ≤ t.tdiv TICS_JOUR ∧ t.tdiv TICS_JOUR < joursEre := by
    rw [Int.tdiv_eq_ediv_of_nonneg h0]
    simp only [TICS_JOUR, TICS_HEURE, TICS_MINUTE, TICS_SECONDE, TICS_MS, joursEre, usParJour] at *
    omega
  obtain ⟨c, e, hv, hn⟩ := calendrier_spec _ hd.1 hd.2
  refine ⟨c, e, hv, ?_⟩
  unfold dateHeure
  rw [hn, dureeJours_exact _ (by unfold joursEre at hd; rw [abs_le]; omega)]
  exact (decompHeure_valide t h0).2

/-- **C13 (which date).** The date of an instant is the one reached from 1 January 1 by as many "next day" steps as whole
days have elapsed. -/
theorem C13_date_par_iteration (t : Int) (h0 : 0 ≤ t) (h1 : t < joursEre * usParJour) :
    calendrier t = some (lendemain^[(t / usParJour).toNat] ⟨1, 1, 1⟩) := by
  have key : ∀ n : Nat, (n : Int) < joursEre → calendrierJours n = some (lendemain^[n] ⟨1, 1, 1⟩) := by
    intro n
    induction n with
    | zero => intro _; decide +kernel
    | succ n ih =>
      intro hn
      unfold joursEre at *
      obtain ⟨c, e, hv, hc⟩ := calendrier_spec n (by omega) (by unfold joursEre; omega)
      rw [ih (by omega)] at e
      have e' : lendemain^[n] ⟨1, 1, 1⟩ = c := by simpa using e
      rw [Function.iterate_succ_apply', e']
      have hl : c ≠ ⟨9999, 12, 31⟩ := by
        intro h; subst h
        have : (⟨9999, 12, 31⟩ : Cal).nbJoursDebutEre = 3652058 := by decide +kernel
        omega
      have := lendemain_valide c hv hl
      rw [show ((n + 1 : Nat) : Int) = (lendemain c).nbJoursDebutEre by rw [this.2, hc]; push_cast; rfl]
      exact calendrier_inverse _ this.1
  unfold calendrier
  have hd : t.tdiv TICS_JOUR = t / usParJour := by
    rw [Int.tdiv_eq_ediv_of_nonneg h0]; rfl
  have hr : 0 ≤ t / usParJour ∧ t / usParJour < joursEre := by unfold usParJour joursEre at *; omega
  rw [hd, show t / usParJour = (((t / usParJour).toNat : Nat) : Int) by omega]
  exact key _ (by omega)

/-- The hypotheses are met, at a leap day and at the last microsecond of the era. -/
example : DateValide ⟨2024, 2, 29⟩ ∧ HeureValide ⟨23, 59, 59, 999, 999⟩ ∧ ¬ DateValide ⟨1900, 2, 29⟩ ∧
    DateValide ⟨9999, 12, 31⟩ ∧ (0 : Int) ≤ joursEre * usParJour - 1 := by decide

/-- Beyond year 9999 the leap rule is switched off (`est_bissextile` is false there) and the calendar is wrong: for the
366-day year 10000 the last day makes the month loop read past the twelve-entry table. -/
theorem C13_hors_ere : calendrier ((joursEre + 365) * usParJour) = none ∧
    (calendrier ((joursEre + 364) * usParJour)) = some ⟨10000, 12, 31⟩ := by decide +kernel

/-- Before the era (negative instants) the decomposition is not a date. -/
theorem C13_avant_ere : ∃ c, calendrier (-usParJour) = some c ∧ ¬ DateValide c :=
  ⟨⟨1, 1, 0⟩, by decide +kernel, by decide⟩

/-- **C14 (order).** -/
theorem C14_ordre (c d : Cal) (hc : DateValide c) (hd : DateValide d) :
    Avant c d ↔ c.nbJoursDebutEre < d.nbJoursDebutEre := by
  constructor
  · exact nbJours_lt hc hd
  · intro h
    rcases avant_total c d with h' | h' | h'
    · exact h'
    · subst h'; omega
    · have := nbJours_lt hd hc h'; omega

/-- **C14 (instants).** The instants of two date-times are ordered as the date-times are, and a later day is later
whatever the times of day. -/
theorem C14_instants (c d : Cal) (h h' : Heure) (hc : DateValide c) (hd : DateValide d) (hh : HeureValide h)
    (hh' : HeureValide h') (hcd : Avant c d) : dateHeure c h < dateHeure d h' := by
  have r := nbJours_range c hc
  have r' := nbJours_range d hd
  have := nbJours_lt hc hd hcd
  unfold joursEre at r r'
  unfold dateHeure
  rw [dureeJours_exact _ (by rw [abs_le]; omega), dureeJours_exact _ (by rw [abs_le]; omega)]
  unfold HeureValide at hh hh'
  simp only [dureeHeure, TICS_SECONDE, TICS_MS, usParJour]
  omega

/-- **C14 (successor).** -/
theorem C14_lendemain (c : Cal) (hc : DateValide c) (hl : c ≠ ⟨9999, 12, 31⟩) :
    DateValide (lendemain c) ∧ (lendemain c).nbJoursDebutEre = c.nbJoursDebutEre + 1 := lendemain_valide c hc hl

/-- **C14 (origin).** Day 0 is 1 January 1, and the day count is never negative. -/
theorem C14_origine (c : Cal) (hc : DateValide c) :
    0 ≤ c.nbJoursDebutEre ∧ (c.nbJoursDebutEre = 0 ↔ c = ⟨1, 1, 1⟩) := by
  refine ⟨(nbJours_range c hc).1, ?_, ?_⟩
  · intro h
    exact nbJours_inj hc (by decide) (by rw [h]; decide +kernel)
  · intro h; subst h; decide +kernel

example : Avant ⟨2023, 12, 31⟩ ⟨2024, 1, 1⟩ ∧ lendemain ⟨2023, 12, 31⟩ = ⟨2024, 1, 1⟩ ∧
    lendemain ⟨1900, 2, 28⟩ = ⟨1900, 3, 1⟩ ∧ lendemain ⟨2000, 2, 28⟩ = ⟨2000, 2, 29⟩ := by
  refine ⟨by unfold Avant; decide, by decide, by decide, by decide⟩

/-- **C15 (composite → instant → composite).** -/
theorem C15_aller_retour (c : Cal) (h : Heure) (hc : DateValide c) (hh : HeureValide h) :
    decomposition (dateHeure c h) = some (c, h) := by
  unfold decomposition
  rw [C13_aller_retour c h hc hh]
  have r := nbJours_range c hc
  unfold joursEre at r
  simp only [Option.map_some]
  unfold dateHeure
  rw [dureeJours_exact _ (by rw [abs_le]; omega), (decomp_dateHeure _ h r.1 hh).2]

/-- **C15 (instant → composite → instant).** The composite is valid and is the only one of its instant. -/
theorem C15_retour_aller (t : Int) (h0 : 0 ≤ t) (h1 : t < joursEre * usParJour) :
    ∃ c h, decomposition t = some (c, h) ∧ DateValide c ∧ HeureValide h ∧ dateHeure c h = t ∧
      ∀ c' h', DateValide c' → HeureValide h' → dateHeure c' h' = t → c' = c ∧ h' = h := by
  obtain ⟨c, e, hv, hd⟩ := C13_retour_aller t h0 h1
  have e' : decomposition t = some (c, decompHeure t) := by simp [decomposition, e]
  refine ⟨c, decompHeure t, e', hv, (decompHeure_valide t h0).1, hd, ?_⟩
  intro c' h' hc' hh' ht
  have := C15_aller_retour c' h' hc' hh'
  rw [ht, e'] at this
  simp only [Option.some.injEq, Prod.mk.injEq] at this
  exact ⟨this.1.symm, this.2.symm⟩

/-- **C15 (sub-second part).** `microsecondes()` is the part of the instant below the second. -/
theorem C15_microsecondes (c : Cal) (h : Heure) (hc : DateValide c) (hh : HeureValide h) :
    microsecondes (dateHeure c h) = 1000 * h.ms + h.us := by
  have r := nbJours_range c hc
  unfold joursEre at r
  unfold dateHeure
  rw [dureeJours_exact _ (by rw [abs_le]; omega)]
  unfold HeureValide at hh
  unfold microsecondes
  rw [Int.tmod_eq_emod_of_nonneg (by simp only [dureeHeure, TICS_SECONDE, TICS_MS, usParJour]; omega)]
  simp only [dureeHeure, TICS_SECONDE, TICS_MS, usParJour]
  omega

/-- **C15 (whole hour).** Rounding down to the hour gives the last whole hour not after the instant. -/
theorem C15_heure_pleine (t : Int) (h0 : 0 ≤ t) (h1 : t < joursEre * usParJour) :
    ∃ r, arrondiHeurePleine t = some r ∧ r ≤ t ∧ t < r + 3600000000 ∧ r % 3600000000 = 0 := by
  obtain ⟨c, e, hv, hd⟩ := C13_retour_aller t h0 h1
  have r := nbJours_range c hv
  unfold joursEre at r
  have hh := (decompHeure_valide t h0).1
  unfold HeureValide at hh
  refine ⟨_, by simp [arrondiHeurePleine, decomposition, e]; rfl, ?_⟩
  unfold dateHeure at hd ⊢
  rw [dureeJours_exact _ (by rw [abs_le]; omega)] at hd ⊢
  simp only [dureeHeure, TICS_SECONDE, TICS_MS, usParJour] at *
  omega

/-- The epochs used by the library. -/
theorem C15_epoques : epoqueUnix = 719162 * usParJour ∧ epoqueGPS = 722819 * usParJour := by decide +kernel

end Verif.Temps
