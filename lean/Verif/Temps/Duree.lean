import Verif.Temps.Texte
import Verif.Util.Props
import Mathlib.Analysis.SpecialFunctions.Trigonometric.Basic

/-!
# Durations, Julian days, sidereal time (C175)

`double` results go through `rnd64`; a conversion to `int64_t` or an integer operation out of range is undefined (`none`). The sidereal time is in exact arithmetic.
-/

namespace Verif.Temps

/-! ## Model -/

/-- Conversion of a `double` to `int64_t`, core/src/temps.cc:125-145. -/
def versInt64 (x : ℚ) : Option ℤ := if -2 ^ 63 ≤ tronque x ∧ tronque x < 2 ^ 63 then some (tronque x) else none

/-- An `int64_t` result, core/src/temps.cc:51-59. -/
def int64 (n : ℤ) : Option ℤ := if -2 ^ 63 ≤ n ∧ n < 2 ^ 63 then some n else none

/-- An `int` result, core/src/temps.cc:152-159. -/
def int32 (n : ℤ) : Option ℤ := if -2 ^ 31 ≤ n ∧ n < 2 ^ 31 then some n else none

/-- `Durée::secondes`, `minutes`, `heures`, `jours`, `u` being the number of microseconds of the unit, core/src/temps.cc:127-144. -/
def dureeReelle (u : ℤ) (x : ℚ) : Option ℤ := versInt64 (rnd64 (x * u))

/-- `Durée::microsecondes` and `millisecondes`, core/src/temps.cc:117-125. -/
def dureeEntiere (u : ℤ) (n : ℤ) : Option ℤ := int64 (n * u)

/-- `nb_jours`, `nb_heures`, `nb_minutes`, `nb_secondes`, `nb_millisecondes`, core/src/temps.cc:66-89. -/
def nbUnites (u : ℤ) (d : ℤ) : ℚ := rnd64 (rnd64 d / u)

/-- `operator+` and `operator-` of durations and instants, core/src/temps.cc:51-59; core/include/tsd/temps.hpp:341-385. -/
def plus (a b : ℤ) : Option ℤ := int64 (a + b)

/-- See `plus`, core/src/temps.cc:56-59; core/include/tsd/temps.hpp:334-340, 366-370. -/
def moins (a b : ℤ) : Option ℤ := int64 (a - b)

/-- `operator*` with a `double`, core/src/temps.cc:61-64; core/include/tsd/temps.hpp:360-363. -/
def fois (d : ℤ) (r : ℚ) : Option ℤ := versInt64 (rnd64 (rnd64 d * r))

/-- `operator/` with a `double`; the division by zero has no representable result. core/include/tsd/temps.hpp:355-358. -/
def divise (d : ℤ) (r : ℚ) : Option ℤ := if r = 0 then none else versInt64 (rnd64 (rnd64 d / r))

/-- `Durée(jours, heures, minutes, secondes, microsecondes)`: hours, minutes and seconds are combined in `int`, the rest in `int64_t`. core/src/temps.cc:152-159. -/
def dureeComposee (j h m s us : ℤ) : Option ℤ :=
  (int32 (h * 3600)).bind fun a : ℤ => (int32 (m * 60)).bind fun b : ℤ => (int32 (a + b)).bind fun c : ℤ => (int32 (c + s)).map fun e : ℤ =>
    j * TICS_JOUR + e * TICS_SECONDE + us

/-- Units of the printing of a duration. -/
inductive Unite | jours | heures | minutes | secondes | ms | us
deriving DecidableEq

/-- The unit chosen when a duration is printed, core/src/temps.cc:97-115. -/
def unite (d : ℤ) : Unite :=
  if 2 * TICS_JOUR < d then .jours else if TICS_HEURE ≤ d then .heures else if TICS_MINUTE ≤ d then .minutes else if TICS_SECONDE ≤ d then .secondes else if TICS_MS ≤ d then .ms else .us

/-- Microseconds of a unit, core/src/temps.cc:13-19. -/
def Unite.tics : Unite → ℤ
  | .jours => TICS_JOUR | .heures => TICS_HEURE | .minutes => TICS_MINUTE | .secondes => TICS_SECONDE | .ms => TICS_MS | .us => 1

/-- `grégorien_vers_jours` for a fractional day number: an integer, plus a `double`, minus 1. core/src/temps.cc:300-315. -/
def gregorienReel (annee : ℤ) (jour : ℚ) : ℚ :=
  let a1 := annee - 1;
  rnd64 (rnd64 (((365 * a1 + a1.tdiv 4 - a1.tdiv 100 + a1.tdiv 400 : ℤ) : ℚ) + jour) - 1)

/-- `DateHeure(année, jour)`, core/src/temps.cc:163-166. -/
def dateAnneeJour (annee : ℤ) (jour : ℚ) : Option ℤ := dureeReelle TICS_JOUR (gregorienReel annee jour)

/-- `nb_jours_Julien`, core/src/temps.cc:337-347. -/
def joursJulien (t : ℤ) : ℚ := rnd64 (nbUnites TICS_JOUR t + 17214255 / 10)

/-- `J2000`, core/src/temps.cc:348-352. -/
def j2000 (t : ℤ) : ℚ := rnd64 (joursJulien t - 2415020)

/-- `epoque_J2000`, core/src/temps.cc:359-364. -/
def epoqueJ2000 : ℤ := dateHeure ⟨2000, 1, 1⟩ ⟨12, 0, 0, 0, 0⟩

/-- The angle of `temps_sidéral_Greenwich` before the reduction modulo 2π, for a number of Julian days `nj`. Exact arithmetic. core/src/temps.cc:374-383. -/
noncomputable def angleSideral (nj : ℝ) : ℝ :=
  let jd0 : ℝ := ⌊nj + 1 / 2⌋ - 1 / 2;
  let t := (jd0 - 2451545) / 36525;
  let gt := 24110.54841 + t * (8640184.812866 + t * (0.093104 - t * 6.2e-6)) + (nj - jd0) * 1.00273790935 * 86400;
  gt * 360 / 86400 * Real.pi / 180

/-- `temps_sidéral_Greenwich`, core/src/temps.cc:371-384. -/
noncomputable def sideralGreenwich (nj : ℝ) : ℝ := Util.modulo2π id Real.pi (angleSideral nj)

/-- `temps_sidéral_local`, core/src/temps.cc:168-171. -/
noncomputable def sideralLocal (nj longitude : ℝ) : ℝ := Util.modulo2π id Real.pi (sideralGreenwich nj + longitude)

/-! ## Proofs -/

theorem tronque_err (x : ℚ) : |(tronque x : ℚ) - x| < 1 ∧ |(tronque x : ℚ)| ≤ |x| := by
  unfold tronque
  split
  · rename_i h
    have h1 := Int.floor_le x
    have h2 := Int.lt_floor_add_one x
    have h3 : (0 : ℚ) ≤ (⌊x⌋ : ℚ) := by exact_mod_cast Int.floor_nonneg.2 h
    rw [abs_of_nonneg h3, abs_of_nonneg h, abs_lt]
    exact ⟨⟨by linarith, by linarith⟩, h1⟩
  · rename_i h
    have h0 : x < 0 := not_le.1 h
    have h1 := Int.le_ceil x
    have h2 := Int.ceil_lt_add_one x
    have h3 : (⌈x⌉ : ℚ) ≤ 0 := by exact_mod_cast Int.ceil_le.2 (by simpa using h0.le)
    rw [abs_of_nonpos h3, abs_of_neg h0, abs_lt]
    exact ⟨⟨by linarith, by linarith⟩, by linarith⟩

theorem versInt64_err (x : ℚ) (d : ℤ) (h : versInt64 x = some d) : |(d : ℚ) - x| < 1 := by
  unfold versInt64 at h
  split at h
  · rw [← Option.some.inj h]; exact (tronque_err x).1
  · cases h

/-- **C175 (precision of the constructors).** A duration built from a real number of units differs from it by less than one microsecond, plus one unit of the 53rd bit. -/
theorem C175_precision (u : ℤ) (x : ℚ) (d : ℤ) (h : dureeReelle u x = some d) : |(d : ℚ) - x * u| < 1 + |x * u| / 2 ^ 53 := by
  have h1 := versInt64_err _ d h
  have h2 := rnd64_rel (x * u)
  calc |(d : ℚ) - x * u| = |((d : ℚ) - rnd64 (x * u)) + (rnd64 (x * u) - x * u)| := by ring_nf
    _ ≤ |(d : ℚ) - rnd64 (x * u)| + |rnd64 (x * u) - x * u| := abs_add_le _ _
    _ < _ := by linarith

/-- **C175 (whole numbers).** A whole number of seconds, minutes, hours or days below 2^53 µs (285 years) gives exactly this duration, and is given back exactly. -/
theorem C175_entier (u n : ℤ) (hu : 0 < u) (h : |n * u| ≤ 2 ^ 53) : dureeReelle u n = some (n * u) ∧ nbUnites u (n * u) = n := by
  have e : (n : ℚ) * (u : ℚ) = ((n * u : ℤ) : ℚ) := by push_cast; rfl
  have hb := abs_le.1 h
  have hn : |n| ≤ 2 ^ 53 := by
    rw [abs_mul, abs_of_pos hu] at h
    nlinarith [abs_nonneg n]
  constructor
  · unfold dureeReelle versInt64
    rw [e, rnd64_int _ h, tronque_int, if_pos (by constructor <;> omega)]
  · unfold nbUnites
    rw [rnd64_int _ h, ← e, mul_div_assoc, div_self (by exact_mod_cast hu.ne'), mul_one, rnd64_int _ hn]

/-- **C175 (round trip).** The number of units given back by a duration below 2^52 µs (142 years) built from `x` units differs from `x` by less than 3 µs. -/
theorem C175_aller_retour (u : ℤ) (hu : 0 < u) (x : ℚ) (hx : |x * u| ≤ 2 ^ 52) (d : ℤ) (h : dureeReelle u x = some d) : |nbUnites u d - x| < 3 / u := by
  have h1 := C175_precision u x d h
  have hq : (0 : ℚ) < u := by exact_mod_cast hu
  have h2 : |(d : ℚ) - x * u| < 3 / 2 := by
    have : |x * u| / 2 ^ 53 ≤ 1 / 2 := by rw [div_le_iff₀ (by positivity)]; linarith
    linarith
  have h3 : |(d : ℚ)| ≤ 2 ^ 53 := by
    have := abs_sub_abs_le_abs_sub (d : ℚ) (x * u)
    have e : (2 : ℚ) ^ 53 = 2 * 2 ^ 52 := by norm_num
    rw [e]
    linarith [show (2 : ℚ) ≤ 2 ^ 52 by norm_num]
  unfold nbUnites
  rw [rnd64_int d (by exact_mod_cast h3)]
  have h4 := rnd64_rel ((d : ℚ) / u)
  have h5 : |(d : ℚ) / u| / 2 ^ 53 ≤ 1 / u := by
    rw [abs_div, abs_of_pos hq, div_div, div_le_div_iff₀ (by positivity) hq]
    nlinarith
  have h6 : |(d : ℚ) / u - x| < 3 / 2 / u := by
    rw [show (d : ℚ) / u - x = ((d : ℚ) - x * u) / u by field_simp, abs_div, abs_of_pos hq]
    exact div_lt_div_of_pos_right h2 hq
  calc _ = |(rnd64 ((d : ℚ) / u) - (d : ℚ) / u) + ((d : ℚ) / u - x)| := by ring_nf
    _ ≤ |rnd64 ((d : ℚ) / u) - (d : ℚ) / u| + |(d : ℚ) / u - x| := abs_add_le _ _
    _ < 1 / u + 3 / 2 / u := by linarith
    _ ≤ 3 / u := by rw [show (1 : ℚ) / u + 3 / 2 / u = (5 / 2) / u by ring]; exact div_le_div_of_nonneg_right (by norm_num) hq.le

/-- **C175 (milliseconds lost, refuted).** The conversion truncates instead of rounding: `Durée::secondes(1.001)` has 1000999 µs, and not 1001000. -/
theorem C175_troncature_refute : dureeReelle TICS_SECONDE (rnd64 (1001 / 1000)) = some 1000999 := by decide +kernel

/-- **C175 (sums).** Durations and instants: subtracting what was added gives the instant back, and the difference of two instants, added to the second, gives the first, as long as nothing overflows. -/
theorem C175_somme (t d : ℤ) : (∀ s, plus t d = some s → -2 ^ 63 ≤ t → t < 2 ^ 63 → moins s d = some t ∧ (-2 ^ 63 ≤ d → d < 2 ^ 63 → moins s t = some d)) ∧ (∀ e, moins t d = some e → -2 ^ 63 ≤ t → t < 2 ^ 63 → plus d e = some t) := by
  unfold plus moins int64
  constructor
  · intro s h h1 h2
    split at h
    · rw [← Option.some.inj h]
      refine ⟨?_, fun h3 h4 => ?_⟩
      · rw [add_sub_cancel_right, if_pos ⟨h1, h2⟩]
      · rw [add_sub_cancel_left, if_pos ⟨h3, h4⟩]
    · cases h
  · intro e h h1 h2
    split at h
    · rw [← Option.some.inj h, add_sub_cancel, if_pos ⟨h1, h2⟩]
    · cases h

/-- **C175 (product and quotient).** Below 2^53 µs (285 years), the product and the quotient of a duration by a number differ from the exact value by less than one microsecond plus one unit of the 53rd bit;
milliseconds are exact. -/
theorem C175_produit (d : ℤ) (hd : |d| ≤ 2 ^ 53) (r : ℚ) : (∀ e, fois d r = some e → |(e : ℚ) - d * r| < 1 + |d * r| / 2 ^ 53) ∧ (∀ e, divise d r = some e → r ≠ 0 ∧ |(e : ℚ) - d / r| < 1 + |d / r| / 2 ^ 53) ∧
    dureeEntiere TICS_MS d = some (1000 * d) := by
  have key : ∀ (x : ℚ) (e : ℤ), versInt64 (rnd64 x) = some e → |(e : ℚ) - x| < 1 + |x| / 2 ^ 53 := by
    intro x e h
    have h1 := versInt64_err _ e h
    have h2 := rnd64_rel x
    calc |(e : ℚ) - x| = |((e : ℚ) - rnd64 x) + (rnd64 x - x)| := by ring_nf
      _ ≤ |(e : ℚ) - rnd64 x| + |rnd64 x - x| := abs_add_le _ _
      _ < _ := by linarith
  refine ⟨fun e h => ?_, fun e h => ?_, ?_⟩
  · unfold fois at h
    rw [rnd64_int d hd] at h
    exact key _ e h
  · unfold divise at h
    split at h
    · cases h
    · rename_i h0
      rw [rnd64_int d hd] at h
      exact ⟨h0, key _ e h⟩
  · have hb := abs_le.1 hd
    have v : TICS_MS = 1000 := rfl
    unfold dureeEntiere int64
    rw [v, if_pos (by constructor <;> omega), mul_comm]

/-- **C175 (composed duration).** With fewer than 68 years in each field of hours, minutes and seconds, the duration is the sum of its fields. -/
theorem C175_composee (j h m s us : ℤ) (hh : |h| ≤ 178956) (hm : |m| ≤ 10737418) (hs : |s| ≤ 644245094) :
    dureeComposee j h m s us = some (j * 86400000000 + h * 3600000000 + m * 60000000 + s * 1000000 + us) := by
  rw [abs_le] at hh hm hs
  unfold dureeComposee int32
  rw [if_pos (by constructor <;> omega), Option.bind_some, if_pos (by constructor <;> omega), Option.bind_some, if_pos (by constructor <;> omega), Option.bind_some, if_pos (by constructor <;> omega)]
  simp only [Option.map_some, TICS_JOUR, TICS_HEURE, TICS_MINUTE, TICS_SECONDE, TICS_MS]
  congr 1
  ring

/-- **C175 (composed duration, refuted).** 600000 hours (68 years) overflow an `int`, whereas the same duration in days (25000) is accepted. -/
theorem C175_composee_refute : dureeComposee 0 600000 0 0 0 = none ∧ dureeComposee 25000 0 0 0 0 = some (600000 * 3600000000) := by
  constructor <;> decide

/-- **C175 (printed unit).** From one millisecond on, the printed number of units is at least 1, and less than 1000 for milliseconds, 60 for seconds and minutes; at most 48 hours; more than 2 days. -/
theorem C175_unite (d : ℤ) (h : 1000 ≤ d) : (unite d).tics ≤ d ∧ (unite d = .ms → d < 1000 * 1000) ∧ (unite d = .secondes → d < 60 * 1000000) ∧ (unite d = .minutes → d < 60 * 60000000) ∧
    (unite d = .heures → d ≤ 48 * 3600000000) ∧ (unite d = .jours → 2 * 86400000000 < d) ∧ unite d ≠ .us := by
  have j : TICS_JOUR = 86400000000 := rfl
  have k : TICS_HEURE = 3600000000 := rfl
  have m : TICS_MINUTE = 60000000 := rfl
  have s : TICS_SECONDE = 1000000 := rfl
  have v : TICS_MS = 1000 := rfl
  unfold unite
  by_cases h1 : 2 * TICS_JOUR < d
  · rw [if_pos h1]; simp only [Unite.tics]; refine ⟨by omega, by simp, by simp, by simp, by simp, fun _ => by omega, by simp⟩
  rw [if_neg h1]
  by_cases h2 : TICS_HEURE ≤ d
  · rw [if_pos h2]; simp only [Unite.tics]; refine ⟨by omega, by simp, by simp, by simp, fun _ => by omega, by simp, by simp⟩
  rw [if_neg h2]
  by_cases h3 : TICS_MINUTE ≤ d
  · rw [if_pos h3]; simp only [Unite.tics]; refine ⟨by omega, by simp, by simp, fun _ => by omega, by simp, by simp, by simp⟩
  rw [if_neg h3]
  by_cases h4 : TICS_SECONDE ≤ d
  · rw [if_pos h4]; simp only [Unite.tics]; refine ⟨by omega, by simp, fun _ => by omega, by simp, by simp, by simp, by simp⟩
  rw [if_neg h4, if_pos (show TICS_MS ≤ d by omega)]
  simp only [Unite.tics]
  refine ⟨by omega, fun _ => by omega, by simp, by simp, by simp, by simp, by simp⟩

/-- **C175 (printed unit, refuted).** Every negative duration is printed in microseconds, however long. -/
theorem C175_unite_refute (d : ℤ) (h : d < 0) : unite d = .us := by
  have j : TICS_JOUR = 86400000000 := rfl
  have k : TICS_HEURE = 3600000000 := rfl
  have m : TICS_MINUTE = 60000000 := rfl
  have s : TICS_SECONDE = 1000000 := rfl
  have v : TICS_MS = 1000 := rfl
  unfold unite
  rw [if_neg (by omega), if_neg (by omega), if_neg (by omega), if_neg (by omega), if_neg (by omega)]

/-- **C175 (instant from a year and a day).** For every valid date, the year and the number of its day in the year give the instant of this date, at midnight. -/
theorem C175_annee_jour (c : Cal) (hc : DateValide c) : dateAnneeJour c.annee ((1 + c.nbJoursDebutAnnee : ℤ) : ℚ) = some (dateHeure c ⟨0, 0, 0, 0, 0⟩) := by
  have r := nbJours_range c hc
  have ha : 1 ≤ c.annee ∧ c.annee ≤ 9999 := ⟨hc.1, hc.2.1⟩
  set B : ℤ := 365 * (c.annee - 1) + (c.annee - 1).tdiv 4 - (c.annee - 1).tdiv 100 + (c.annee - 1).tdiv 400 with hB
  have eN : c.nbJoursDebutEre = B + (1 + c.nbJoursDebutAnnee) - 1 := rfl
  set N := c.nbJoursDebutEre with hN
  unfold joursEre at r
  have e1 : gregorienReel c.annee ((1 + c.nbJoursDebutAnnee : ℤ) : ℚ) = (N : ℚ) := by
    unfold gregorienReel
    simp only [← hB]
    rw [show ((B : ℤ) : ℚ) + ((1 + c.nbJoursDebutAnnee : ℤ) : ℚ) = ((N + 1 : ℤ) : ℚ) by rw [eN]; push_cast; ring, rnd64_int _ (by rw [abs_le]; constructor <;> omega),
      show (((N + 1 : ℤ) : ℚ)) - 1 = ((N : ℤ) : ℚ) by push_cast; ring, rnd64_int _ (by rw [abs_le]; constructor <;> omega)]
  have e2 : dureeJours N = N * usParJour := dureeJours_exact _ (by rw [abs_le]; omega)
  unfold dateAnneeJour dureeReelle versInt64
  rw [e1]
  have e3 : tronque (rnd64 ((N : ℚ) * ((TICS_JOUR : ℤ) : ℚ))) = N * usParJour := e2
  rw [e3, if_pos (by unfold usParJour; constructor <;> omega)]
  have e4 : dateHeure c ⟨0, 0, 0, 0, 0⟩ = N * usParJour := by
    unfold dateHeure
    rw [← hN, e2]
    simp [dureeHeure]
  rw [e4]

theorem abs_tri3 {a b c d : ℚ} {x y z : ℚ} (h1 : |a - b| ≤ x) (h2 : |b - c| ≤ y) (h3 : |c - d| ≤ z) : |a - d| ≤ x + y + z := by
  calc |a - d| = |(a - b) + (b - c) + (c - d)| := by ring_nf
    _ ≤ |(a - b) + (b - c)| + |c - d| := abs_add_le _ _
    _ ≤ |a - b| + |b - c| + |c - d| := by linarith [abs_add_le (a - b) (b - c)]
    _ ≤ _ := by linarith

/-- **C175 (Julian days).** On the whole era, the Julian day is 1721425.5 plus the elapsed days, to within `2 · 10⁻⁹` day (0.2 ms); it is exactly 2451545 at the epoch J2000. -/
theorem C175_julien : (∀ t : ℤ, 0 ≤ t → t < joursEre * usParJour → |joursJulien t - ((t : ℚ) / 86400000000 + 17214255 / 10)| ≤ 2 / 10 ^ 9) ∧ joursJulien epoqueJ2000 = 2451545 := by
  refine ⟨?_, by decide +kernel⟩
  intro t h0 h1
  have hT : ((TICS_JOUR : ℤ) : ℚ) = 86400000000 := by norm_num [TICS_JOUR, TICS_HEURE, TICS_MINUTE, TICS_SECONDE, TICS_MS]
  have b0 : (0 : ℚ) ≤ t := by exact_mod_cast h0
  have b1 : (t : ℚ) ≤ 3652059 * 86400000000 := by
    have : t ≤ 3652059 * 86400000000 := by unfold joursEre usParJour at h1; omega
    exact_mod_cast this
  have r1 := rnd64_rel (t : ℚ)
  rw [abs_of_nonneg b0] at r1
  set a := rnd64 (t : ℚ) with ha
  have a1 := abs_le.1 r1
  have r2 := rnd64_rel (a / ((TICS_JOUR : ℤ) : ℚ))
  rw [hT] at r2
  set q := a / 86400000000 with hq
  have q0 : |q - t / 86400000000| ≤ 3652059 / 2 ^ 53 := by
    rw [hq, ← sub_div, abs_div, abs_of_pos (by norm_num : (0 : ℚ) < 86400000000), div_le_iff₀ (by norm_num)]
    refine le_trans r1 ?_
    rw [div_le_iff₀ (by norm_num)]
    linarith
  have t1 : (t : ℚ) / 86400000000 ≤ 3652059 := by rw [div_le_iff₀ (by norm_num)]; exact b1
  have t0 : 0 ≤ (t : ℚ) / 86400000000 := by positivity
  have q1 : |q| ≤ 3652060 := by
    have := abs_sub_abs_le_abs_sub q (t / 86400000000)
    rw [abs_of_nonneg t0] at this
    have : (3652059 : ℚ) / 2 ^ 53 ≤ 1 := by norm_num
    linarith
  have r2' : |rnd64 q - q| ≤ 3652060 / 2 ^ 53 := le_trans r2 (by gcongr)
  have n1 : |rnd64 q| ≤ 3652061 := by
    have := abs_sub_abs_le_abs_sub (rnd64 q) q
    have : (3652060 : ℚ) / 2 ^ 53 ≤ 1 := by norm_num
    linarith
  have r3 := rnd64_rel (rnd64 q + 17214255 / 10)
  have n2 : |rnd64 q + 17214255 / 10| ≤ 5400000 := by
    refine le_trans (abs_add_le _ _) ?_
    rw [abs_of_pos (by norm_num : (0 : ℚ) < 17214255 / 10)]
    linarith
  have r3' : |rnd64 (rnd64 q + 17214255 / 10) - (rnd64 q + 17214255 / 10)| ≤ 5400000 / 2 ^ 53 := le_trans r3 (by gcongr)
  unfold joursJulien nbUnites
  rw [hT, ← ha, ← hq]
  have s2 : |(rnd64 q + 17214255 / 10) - (q + 17214255 / 10)| ≤ 3652060 / 2 ^ 53 := by
    rw [show rnd64 q + 17214255 / 10 - (q + 17214255 / 10) = rnd64 q - q by ring]; exact r2'
  have s3 : |(q + 17214255 / 10) - ((t : ℚ) / 86400000000 + 17214255 / 10)| ≤ 3652059 / 2 ^ 53 := by
    rw [show q + 17214255 / 10 - ((t : ℚ) / 86400000000 + 17214255 / 10) = q - t / 86400000000 by ring]; exact q0
  refine le_trans (abs_tri3 r3' s2 s3) ?_
  norm_num

/-- **C175 (`J2000`, refuted).** The documentation says: number of days since the epoch J2000; at this epoch, `J2000()` is 36525 days. -/
theorem C175_j2000_refute : j2000 epoqueJ2000 = 36525 := by decide +kernel

/-- **C175 (sidereal time).** The sidereal times are between 0 and 2π; they are the published angle, and the sum of the Greenwich time and of the longitude, up to a whole number of turns. -/
theorem C175_sideral (nj l : ℝ) : (0 ≤ sideralGreenwich nj ∧ sideralGreenwich nj < 2 * Real.pi ∧ ∃ k : ℤ, angleSideral nj = sideralGreenwich nj + k * (2 * Real.pi)) ∧
    (0 ≤ sideralLocal nj l ∧ sideralLocal nj l < 2 * Real.pi ∧ ∃ k : ℤ, angleSideral nj + l = sideralLocal nj l + k * (2 * Real.pi)) := by
  have h1 := (Util.C34_modulo_pi Real.pi (angleSideral nj) Real.pi_pos).1
  have h2 := (Util.C34_modulo_pi Real.pi (sideralGreenwich nj + l) Real.pi_pos).1
  refine ⟨h1, h2.1, h2.2.1, ?_⟩
  obtain ⟨k, hk⟩ := h1.2.2
  obtain ⟨m, hm⟩ := h2.2.2
  refine ⟨k + m, ?_⟩
  have e1 : angleSideral nj = sideralGreenwich nj + k * (2 * Real.pi) := hk
  have e2 : sideralGreenwich nj + l = sideralLocal nj l + m * (2 * Real.pi) := hm
  rw [e1]
  push_cast
  linear_combination e2

/-- One turn of the sidereal angle in a sidereal day: within a civil day (the Julian date of its beginning being `k - 1/2`), the angle grows by `2π · 1.00273790935` per day. -/
theorem C175_vitesse (k : ℤ) (a b : ℝ) (ha : 0 ≤ a) (ha1 : a < 1) (hb : 0 ≤ b) (hb1 : b < 1) :
    angleSideral (k - 1 / 2 + b) - angleSideral (k - 1 / 2 + a) = 2 * Real.pi * 1.00273790935 * (b - a) := by
  have f : ∀ x : ℝ, 0 ≤ x → x < 1 → ⌊(k : ℝ) - 1 / 2 + x + 1 / 2⌋ = k := by
    intro x h0 h1
    rw [show (k : ℝ) - 1 / 2 + x + 1 / 2 = k + x by ring]
    rw [Int.floor_eq_iff]
    exact ⟨by linarith, by linarith⟩
  unfold angleSideral
  simp only [f a ha ha1, f b hb hb1]
  ring

/-- Concrete durations. -/
example : dureeReelle TICS_HEURE (3 / 2) = some 5400000000 ∧ unite 5400000000 = .heures ∧ nbUnites TICS_HEURE 5400000000 = 3 / 2 := by
  refine ⟨by decide +kernel, by decide +kernel, by decide +kernel⟩

end Verif.Temps
