import Verif.Temps.Model

/-!
# The Gregorian calendar, independently of the code

A date is valid when its month is 1..12 and its day is between 1 and the length of the month; the calendar is generated
from 1 January 1 by repeatedly taking the next day.
-/

namespace Verif.Temps

/-- Gregorian leap rule. -/
def Bissextile (a : Int) : Prop := 4 ∣ a ∧ (¬ 100 ∣ a ∨ 400 ∣ a)

instance (a : Int) : Decidable (Bissextile a) := by unfold Bissextile; infer_instance

/-- Length of a month ("thirty days hath September…"). -/
def longueurMois (a m : Int) : Int :=
  if m = 2 then (if Bissextile a then 29 else 28)
  else if m = 4 ∨ m = 6 ∨ m = 9 ∨ m = 11 then 30 else 31

/-- Valid dates of years 1 to 9999. -/
def DateValide (c : Cal) : Prop :=
  1 ≤ c.annee ∧ c.annee ≤ 9999 ∧ 1 ≤ c.mois ∧ c.mois ≤ 12 ∧ 1 ≤ c.jour ∧ c.jour ≤ longueurMois c.annee c.mois

instance (c : Cal) : Decidable (DateValide c) := by unfold DateValide; infer_instance

/-- The next calendar day. -/
def lendemain (c : Cal) : Cal :=
  if c.jour < longueurMois c.annee c.mois then ⟨c.annee, c.mois, c.jour + 1⟩
  else if c.mois < 12 then ⟨c.annee, c.mois + 1, 1⟩
  else ⟨c.annee + 1, 1, 1⟩

/-- Chronological (lexicographic) order of dates. -/
def Avant (c d : Cal) : Prop :=
  c.annee < d.annee ∨ (c.annee = d.annee ∧ (c.mois < d.mois ∨ (c.mois = d.mois ∧ c.jour < d.jour)))

/-- Valid times of day, to the microsecond. -/
def HeureValide (h : Heure) : Prop :=
  0 ≤ h.heure ∧ h.heure < 24 ∧ 0 ≤ h.minutes ∧ h.minutes < 60 ∧ 0 ≤ h.secondes ∧ h.secondes < 60 ∧
  0 ≤ h.ms ∧ h.ms < 1000 ∧ 0 ≤ h.us ∧ h.us < 1000

instance (h : Heure) : Decidable (HeureValide h) := by unfold HeureValide; infer_instance

/-- Number of days of years 1 to 9999. -/
def joursEre : Int := 3652059

/-- Microseconds in a day. -/
def usParJour : Int := 86400000000

end Verif.Temps
