import Verif.Binary64

/-!
# Model of `core/src/temps.cc`

Integers are unbounded `Int` with C++ truncating division (`Int.tdiv`, `Int.tmod`); the 32-bit products that can overflow
(`vers_GPS`) are checked explicitly.  `double` results go through `rnd64`.
-/

namespace Verif.Temps
open Verif

/-- core/src/temps.cc:13-19 (ticks are microseconds). -/
def TICS_MS : Int := 1000
/-- core/src/temps.cc:13-19. -/
def TICS_SECONDE : Int := 1000 * TICS_MS
/-- core/src/temps.cc:13-19. -/
def TICS_MINUTE : Int := 60 * TICS_SECONDE
/-- core/src/temps.cc:13-19. -/
def TICS_HEURE : Int := 60 * TICS_MINUTE
/-- core/src/temps.cc:13-19. -/
def TICS_JOUR : Int := 24 * TICS_HEURE

/-- core/src/temps.cc:22. -/
def nbsecsParJour : Int := 24 * 3600
/-- core/src/temps.cc:27. -/
def cycle400 : Int := 365 * 400 + 100 - 3
/-- core/src/temps.cc:32. -/
def cycle100 : Int := 365 * 100 + 24
/-- core/src/temps.cc:37. -/
def cycle4 : Int := 365 * 4 + 1

/-- core/src/temps.cc:39-43, `nb_jours_par_mois[bissextile]`. -/
def nbJoursParMois (b : Bool) : List Int :=
  if b then [31, 29, 31, 30, 31, 30, 31, 31, 30, 31, 30, 31]
  else [31, 28, 31, 30, 31, 30, 31, 31, 30, 31, 30, 31]

/-- core/src/temps.cc:45-49, `cumul_jours_par_mois[bissextile]`. -/
def cumulJoursParMois (b : Bool) : List Int :=
  if b then [0, 31, 60, 91, 121, 152, 182, 213, 244, 274, 305, 335]
  else [0, 31, 59, 90, 120, 151, 181, 212, 243, 273, 304, 334]

/-- `Calendrier`, core/include/tsd/temps.hpp (année, mois, jour). -/
structure Cal where
  annee : Int
  mois : Int
  jour : Int
deriving DecidableEq, Repr

/-- `HeureComposite`, core/include/tsd/temps.hpp. -/
structure Heure where
  heure : Int
  minutes : Int
  secondes : Int
  ms : Int
  us : Int
deriving DecidableEq, Repr

/-- `année_est_valide`, core/src/temps.cc:394-397. -/
def anneeValide (a : Int) : Bool := decide (a ≥ 1) && decide (a ≤ 9999)

/-- `est_bissextile`, core/src/temps.cc:387-392. -/
def estBissextile (a : Int) : Bool :=
  if !anneeValide a then false
  else ((a.tmod 4 == 0) && (a.tmod 100 != 0)) || (a.tmod 400 == 0)

/-- `année_mois_valide`, core/src/temps.cc:190-195. -/
def anneeMoisValide (a m : Int) : Bool :=
  if !anneeValide a then false else decide (m ≥ 1) && decide (m ≤ 12)

/-- `mois_nb_jours`, core/src/temps.cc:197-204; `none` models the exception. -/
def moisNbJours (a m : Int) : Option Int :=
  if !anneeMoisValide a m then none
  else (nbJoursParMois (estBissextile a))[(m - 1).toNat]?

/-- `Calendrier::est_valide`, core/src/temps.cc:206-210 (short-circuit `&&`: the exception of `mois_nb_jours` is
unreachable). -/
def Cal.estValide (c : Cal) : Bool :=
  anneeMoisValide c.annee c.mois && decide (c.jour ≥ 1) &&
    (match moisNbJours c.annee c.mois with
     | some n => decide (c.jour ≤ n)
     | none => false)

/-- `HeureComposite::vérifie_validité`, core/src/temps.cc:279-286. -/
def Heure.estValide (h : Heure) : Bool :=
  decide (h.heure ≥ 0) && decide (h.heure < 24) && decide (h.minutes ≥ 0) && decide (h.minutes < 60) &&
  decide (h.secondes ≥ 0) && decide (h.secondes < 60) && decide (h.ms ≥ 0) && decide (h.ms < 1000) &&
  decide (h.us ≥ 0) && decide (h.us < 1000)

/-- `Calendrier::nb_jours_debut_année`, core/src/temps.cc:289-298. -/
def Cal.nbJoursDebutAnnee (c : Cal) : Int :=
  if !c.estValide then c.jour
  else (c.jour - 1) + ((cumulJoursParMois (estBissextile c.annee))[(c.mois - 1).toNat]?).getD 0

/-- `grégorien_vers_jours` for an integral day number, core/src/temps.cc:300-315 (the `double` sum is exact: all the
partial sums are integers below 2^53). -/
def gregorienVersJours (annee jour : Int) : Int :=
  let a1 := annee - 1
  365 * a1 + a1.tdiv 4 - a1.tdiv 100 + a1.tdiv 400 + jour - 1

/-- `Calendrier::nb_jours_debut_ère`, core/src/temps.cc:317-320. -/
def Cal.nbJoursDebutEre (c : Cal) : Int := gregorienVersJours c.annee (1 + c.nbJoursDebutAnnee)

/-- `Durée(const HeureComposite&)`, core/src/temps.cc:146-150. -/
def dureeHeure (h : Heure) : Int :=
  (h.heure * 3600 + h.minutes * 60 + h.secondes) * TICS_SECONDE + h.ms * TICS_MS + h.us

/-- `Durée::jours(double)`, core/src/temps.cc:141-144: a `double` product truncated to `int64_t`. -/
def dureeJours (cnt : Int) : Int := tronque (rnd64 ((cnt : ℚ) * (TICS_JOUR : ℚ)))

/-- `Durée::secondes(double)`, core/src/temps.cc:127-130. -/
def dureeSecondes (cnt : Int) : Int := tronque (rnd64 ((cnt : ℚ) * (TICS_SECONDE : ℚ)))

/-- `DateHeure(const DateComposite&)`, core/src/temps.cc:173-176. -/
def dateHeure (c : Cal) (h : Heure) : Int := dureeHeure h + dureeJours c.nbJoursDebutEre

/-- The month loop of `calendrier()`, core/src/temps.cc:554-556:
`tantque((nb_jours >= ptr[mois]) && (mois <= 11)) nb_jours -= ptr[mois++]`.
The test reads `ptr[mois]` *before* checking `mois <= 11`: `none` models the read of `ptr[12]` (out of bounds). -/
def boucleMois : List Int → Int → Int → Option (Int × Int)
  | [], _, _ => none
  | n :: ptr, mois, j => if j ≥ n then boucleMois ptr (mois + 1) (j - n) else some (mois, j)

/-- The year inside a four-year cycle, core/src/temps.cc:529-549. -/
def anneeDansCycle4 (j : Int) : Int × Int :=
  if j < 365 then (0, j)
  else if j < 2 * 365 then (1, j - 365)
  else if j < 3 * 365 then (2, j - 2 * 365)
  else (3, j - 3 * 365)

/-- `DateHeure::calendrier`, core/src/temps.cc:501-559, from the day number `ntics / TICS_JOUR`. -/
def calendrierJours (n : Int) : Option Cal :=
  let n400 := n.tdiv cycle400
  let j1 := n.tmod cycle400
  let n100' := j1.tdiv cycle100
  let n100 := if n100' = 4 then 3 else n100'
  let j2 := j1 - n100 * cycle100
  let n4 := j2.tdiv cycle4
  let j3 := j2.tmod cycle4
  let (na, j4) := anneeDansCycle4 j3
  let annee := n400 * 400 + n100 * 100 + n4 * 4 + na + 1
  match boucleMois (nbJoursParMois (estBissextile annee)) 0 j4 with
  | none => none
  | some (m, j) => some ⟨annee, m + 1, j + 1⟩

/-- `DateHeure::calendrier`, core/src/temps.cc:501-559. -/
def calendrier (ntics : Int) : Option Cal := calendrierJours (ntics.tdiv TICS_JOUR)

/-- `DateHeure::decomp_heure`, core/src/temps.cc:400-408. -/
def decompHeure (t : Int) : Heure :=
  ⟨(t.tmod TICS_JOUR).tdiv TICS_HEURE, (t.tmod TICS_HEURE).tdiv TICS_MINUTE,
   (t.tmod TICS_MINUTE).tdiv TICS_SECONDE, (t.tmod TICS_SECONDE).tdiv TICS_MS, t.tmod TICS_MS⟩

/-- `DateHeure::decomposition`, core/src/temps.cc:410-413. -/
def decomposition (t : Int) : Option (Cal × Heure) := (calendrier t).map (fun c => (c, decompHeure t))

/-- `DateHeure::microsecondes`, core/src/temps.cc:185-188. -/
def microsecondes (t : Int) : Int := t.tmod TICS_SECONDE

/-- `DateHeure::arrondi_heure_pleine`, core/src/temps.cc:178-183. -/
def arrondiHeurePleine (t : Int) : Option Int :=
  (decomposition t).map (fun d => dateHeure d.1 ⟨d.2.heure, 0, 0, 0, 0⟩)

/-- `DateHeure::epoque_GPS`, core/src/temps.cc:365-369. -/
def epoqueGPS : Int := dateHeure ⟨1980, 1, 6⟩ ⟨0, 0, 0, 0, 0⟩

/-- `DateHeure::epoque_unix`, core/src/temps.cc:324. -/
def epoqueUnix : Int := dateHeure ⟨1970, 1, 1⟩ ⟨0, 0, 0, 0, 0⟩

/-- `DateHeure::de_GPS`, core/src/temps.cc:422-430. -/
def deGPS (semaine secs : Int) : Int :=
  epoqueGPS + dureeSecondes secs + dureeJours (7 * semaine) + dureeSecondes (-18)

/-- `Durée::nb_secondes`, core/src/temps.cc:81-84: conversion of the 64-bit tick count to `double`, then division. -/
def nbSecondes (tics : Int) : ℚ := rnd64 (rnd64 (tics : ℚ) / (TICS_SECONDE : ℚ))

/-- `nb_secondes() + 18`, core/src/temps.cc:435-440. -/
def secsGPS (t : Int) : ℚ := rnd64 (nbSecondes (t - epoqueGPS) + 18)

/-- Seconds per week, core/src/temps.cc:442. -/
def sps : Int := nbsecsParJour * 7

/-- The week number of `vers_GPS`, core/src/temps.cc:443. -/
def semaineGPS (t : Int) : Int := tronque (rnd64 (secsGPS t / (sps : ℚ)))

/-- `nb_semaines * sps`: a product of two 32-bit `int`, core/src/temps.cc:444; `none` models signed overflow
(undefined behaviour). -/
def produitInt32 (a b : Int) : Option Int := if -2 ^ 31 ≤ a * b ∧ a * b < 2 ^ 31 then some (a * b) else none

/-- `DateHeure::vers_GPS`, core/src/temps.cc:432-447. -/
def versGPS (t : Int) : Option (Int × Int) :=
  (produitInt32 (semaineGPS t) sps).map (fun (p : Int) => (semaineGPS t, tronque (rnd64 (secsGPS t - (p : ℚ)))))

/-- `DateHeure::vers_GPS_us`, core/src/temps.cc:449-465. -/
def versGPSus (t : Int) : Option (Int × Int) :=
  (produitInt32 (semaineGPS t) sps).map
    (fun (p : Int) => (semaineGPS t, tronque (rnd64 (1000000 * rnd64 (secsGPS t - (p : ℚ))))))

end Verif.Temps
