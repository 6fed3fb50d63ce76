import Verif.Temps.Props

/-! # Property C16: GPS time -/

namespace Verif.Temps
open Verif

/-- GPS time of an instant, in microseconds since the GPS epoch (18 leap seconds ahead of UTC). -/
def usGPS (t : Int) : Int := t - 722819 * 86400000000 + 18000000

/-- Microseconds in a week. -/
def usParSemaine : Int := 604800000000

/-- Number of whole weeks after which `nb_semaines * sps` overflows a 32-bit `int` (January 2048). -/
def semaineLimite : Int := 3551

private theorem epoque : epoqueGPS = 722819 * 86400000000 := by decide +kernel

private theorem dureeSecondes_exact (n : Int) (h : |n| ≤ 2 ^ 33) : dureeSecondes n = n * 1000000 := by
  unfold dureeSecondes
  have e : (n : ℚ) * (TICS_SECONDE : ℚ) = ((n * 15625 : ℤ) : ℚ) * (2 : ℚ) ^ (6 : ℤ) := by
    simp only [TICS_SECONDE, TICS_MS]
    push_cast
    ring
  have hb : |n * 15625| ≤ 2 ^ 53 := by
    rw [abs_mul, show |(15625 : ℤ)| = 15625 by decide]
    omega
  rw [e, rnd64_exact _ _ hb]
  have e2 : ((n * 15625 : ℤ) : ℚ) * (2 : ℚ) ^ (6 : ℤ) = ((n * 1000000 : ℤ) : ℚ) := by
    push_cast; ring
  rw [e2, tronque_int]

private theorem deGPS_eq (w s : Int) (hw : |w| ≤ 500000) (hs : |s| ≤ 2 ^ 33) :
    deGPS w s = 722819 * 86400000000 + s * 1000000 + w * 604800000000 - 18000000 := by
  unfold deGPS
  rw [abs_le] at hw
  rw [epoque, dureeSecondes_exact s hs, dureeSecondes_exact (-18) (by decide),
    dureeJours_exact (7 * w) (by rw [abs_le]; omega)]
  unfold usParJour
  omega

/-- The `double` number of GPS seconds is off by less than half a microsecond, and exact for whole seconds. -/
private theorem secs_err (t : Int) (h0 : 0 ≤ usGPS t) (h1 : usGPS t < 4000 * usParSemaine) :
    |secsGPS t - (usGPS t : ℚ) / 1000000| ≤ 549 / 1000000000 ∧ 0 ≤ secsGPS t ∧
    (usGPS t % 1000000 = 0 → secsGPS t = ((usGPS t / 1000000 : ℤ) : ℚ)) := by
  have hU : t - epoqueGPS = usGPS t - 18000000 := by rw [epoque]; unfold usGPS; omega
  unfold secsGPS nbSecondes
  rw [hU]
  generalize usGPS t = U at *
  unfold usParSemaine at h1
  rw [rnd64_int _ (by rw [abs_le]; omega)]
  have hT : (TICS_SECONDE : ℚ) = 1000000 := by simp [TICS_SECONDE, TICS_MS]
  rw [hT]
  have exactCase : U % 1000000 = 0 →
      rnd64 (rnd64 (((U - 18000000 : ℤ) : ℚ) / 1000000) + 18) = ((U / 1000000 : ℤ) : ℚ) := by
    intro hm
    have e : ((U - 18000000 : ℤ) : ℚ) / 1000000 = ((U / 1000000 - 18 : ℤ) : ℚ) := by
      have hU' : U = 1000000 * (U / 1000000) := by omega
      rw [div_eq_iff (by norm_num)]
      have : (U - 18000000 : ℤ) = (U / 1000000 - 18) * 1000000 := by omega
      rw [this]; push_cast; ring
    rw [e, rnd64_int _ (by rw [abs_le]; omega)]
    have e2 : ((U / 1000000 - 18 : ℤ) : ℚ) + 18 = ((U / 1000000 : ℤ) : ℚ) := by push_cast; ring
    rw [e2, rnd64_int _ (by rw [abs_le]; omega)]
  have hUq0 : (0 : ℚ) ≤ U := by exact_mod_cast h0
  have hUq1 : (U : ℚ) ≤ 4000 * 604800000000 := by exact_mod_cast h1.le
  set a : ℚ := ((U - 18000000 : ℤ) : ℚ) / 1000000 with ha
  have ha' : a = (U : ℚ) / 1000000 - 18 := by rw [ha]; push_cast; ring
  have e1 := rnd64_rel a
  have e2 := rnd64_rel (rnd64 a + 18)
  have ba : |a| ≤ 2419200018 := by rw [abs_le, ha']; constructor <;> linarith
  have bb : |a| / 2 ^ 53 ≤ 27 / 100000000 := by
    rw [div_le_iff₀ (by norm_num)]; norm_num; linarith
  rw [abs_le] at e1
  have br : |rnd64 a + 18| ≤ 2419200037 := by
    rw [abs_le] at ba ⊢; constructor <;> linarith [e1.1, e1.2]
  have bc : |rnd64 a + 18| / 2 ^ 53 ≤ 27 / 100000000 := by
    rw [div_le_iff₀ (by norm_num)]; norm_num; linarith
  rw [abs_le] at e2
  refine ⟨?_, ?_, exactCase⟩
  · rw [abs_le]
    constructor <;> linarith [e1.1, e1.2, e2.1, e2.2]
  · by_cases hz : U = 0
    · rw [exactCase (by rw [hz]; rfl), hz]; simp
    · have : (1 : ℚ) ≤ U := by exact_mod_cast (show (1 : ℤ) ≤ U by omega)
      linarith [e1.1, e1.2, e2.1, e2.2]

private theorem semaine_eq (t : Int) (h0 : 0 ≤ usGPS t) (h1 : usGPS t < 4000 * usParSemaine) :
    semaineGPS t = usGPS t / usParSemaine := by
  obtain ⟨he, hnn, hex⟩ := secs_err t h0 h1
  unfold semaineGPS
  have hsps : (sps : ℚ) = 604800 := by simp [sps, nbsecsParJour]
  rw [hsps]
  generalize usGPS t = U at *
  generalize secsGPS t = S at *
  unfold usParSemaine at *
  generalize hq : U / 604800000000 = q
  generalize hu : U % 604800000000 = u
  have hU : U = 604800000000 * q + u := by omega
  have hq0 : 0 ≤ q := by omega
  have hq1 : q < 4000 := by omega
  have hu1 : 0 ≤ u ∧ u < 604800000000 := by omega
  have hUq : (U : ℚ) = 604800000000 * q + u := by rw [hU]; push_cast; ring
  by_cases hu0 : u = 0
  · have : S = ((q * 604800 : ℤ) : ℚ) := by
      rw [hex (by omega)]; congr 1; omega
    rw [this]
    have e : ((q * 604800 : ℤ) : ℚ) / 604800 = (q : ℚ) := by push_cast; field_simp
    rw [e, rnd64_int _ (by rw [abs_le]; omega), tronque_int]
  · have hu2 : (1 : ℚ) ≤ u := by exact_mod_cast (show (1 : ℤ) ≤ u by omega)
    have hu3 : (u : ℚ) ≤ 604800000000 - 1 := by exact_mod_cast (show u ≤ 604800000000 - 1 by omega)
    have hqq : (q : ℚ) ≤ 3999 := by exact_mod_cast (show q ≤ 3999 by omega)
    have hqq0 : (0 : ℚ) ≤ q := by exact_mod_cast hq0
    rw [abs_le, hUq] at he
    have r := rnd64_rel (S / 604800)
    have hx0 : 0 ≤ S / 604800 := by positivity
    rw [abs_of_nonneg hx0, abs_le] at r
    have lo : (q : ℚ) + 745 / 1000000000000000 ≤ S / 604800 := by
      rw [le_div_iff₀ (by norm_num)]; linarith [he.1]
    have hi : S / 604800 ≤ (q : ℚ) + 1 - 745 / 1000000000000000 := by
      rw [div_le_iff₀ (by norm_num)]; linarith [he.2]
    have hs : S / 604800 / 2 ^ 53 ≤ 445 / 1000000000000000 := by
      rw [div_le_iff₀ (by norm_num)]; norm_num; linarith
    apply tronque_of
    · linarith [r.1]
    · linarith [r.1]
    · linarith [r.2]

private theorem versGPS_general (t : Int) (h0 : 0 ≤ usGPS t) (h1 : usGPS t < semaineLimite * usParSemaine) :
    ∃ p, produitInt32 (semaineGPS t) sps = some p ∧ p = usGPS t / usParSemaine * 604800 ∧
      semaineGPS t = usGPS t / usParSemaine := by
  have hw := semaine_eq t h0 (by unfold semaineLimite usParSemaine at *; omega)
  refine ⟨usGPS t / usParSemaine * 604800, ?_, rfl, hw⟩
  unfold produitInt32
  rw [hw]
  unfold semaineLimite usParSemaine sps nbsecsParJour at *
  rw [if_pos (by omega)]
  rfl

/-- **C16.** For every instant from the GPS epoch on (and before January 2048), `vers_GPS` returns the whole number of
weeks and of seconds of GPS time: 0 ≤ seconds < 604800. -/
theorem C16_vers_GPS (t : Int) (h0 : 0 ≤ usGPS t) (h1 : usGPS t < semaineLimite * usParSemaine) :
    versGPS t = some (usGPS t / usParSemaine, usGPS t % usParSemaine / 1000000) ∧
    0 ≤ usGPS t % usParSemaine / 1000000 ∧ usGPS t % usParSemaine / 1000000 < 604800 := by
  obtain ⟨p, hp, hpe, hw⟩ := versGPS_general t h0 h1
  refine ⟨?_, by unfold usParSemaine; omega, by unfold usParSemaine; omega⟩
  unfold versGPS
  rw [hp, hw, Option.map_some, hpe]
  congr 2
  obtain ⟨he, hnn, hex⟩ := secs_err t h0 (by unfold semaineLimite usParSemaine at *; omega)
  clear hp hpe hw p
  generalize usGPS t = U at *
  generalize secsGPS t = S at *
  unfold usParSemaine semaineLimite at *
  generalize hq : U / 604800000000 = q
  generalize hu : U % 604800000000 = u
  generalize hk : u / 1000000 = k
  generalize hr : u % 1000000 = r
  have hU : U = 604800000000 * q + 1000000 * k + r := by omega
  have hkb : 0 ≤ k ∧ k < 604800 := by omega
  by_cases hr0 : r = 0
  · have : S = ((q * 604800 + k : ℤ) : ℚ) := by
      rw [hex (by omega)]; congr 1; omega
    rw [this]
    have e : ((q * 604800 + k : ℤ) : ℚ) - ((q * 604800 : ℤ) : ℚ) = (k : ℚ) := by push_cast; ring
    rw [e, rnd64_int _ (by rw [abs_le]; omega), tronque_int]
  · have hr2 : (1 : ℚ) ≤ r := by exact_mod_cast (show (1 : ℤ) ≤ r by omega)
    have hr3 : (r : ℚ) ≤ 1000000 - 1 := by exact_mod_cast (show r ≤ 1000000 - 1 by omega)
    have hk0 : (0 : ℚ) ≤ k := by exact_mod_cast hkb.1
    have hk1 : (k : ℚ) ≤ 604800 := by exact_mod_cast hkb.2.le
    have hUq : (U : ℚ) = 604800000000 * q + 1000000 * k + r := by rw [hU]; push_cast; ring
    rw [abs_le, hUq] at he
    set x : ℚ := S - ((q * 604800 : ℤ) : ℚ) with hx
    have hx' : x = S - q * 604800 := by rw [hx]; push_cast; ring
    have rr := rnd64_rel x
    have lo : (k : ℚ) + 45 / 100000000 ≤ x := by linarith [he.1]
    have hi : x ≤ (k : ℚ) + 1 - 45 / 100000000 := by linarith [he.2]
    have hx0 : 0 ≤ x := by linarith
    have hs : x / 2 ^ 53 ≤ 1 / 1000000000 := by
      rw [div_le_iff₀ (by norm_num)]; norm_num; linarith
    rw [abs_of_nonneg hx0, abs_le] at rr
    apply tronque_of <;> linarith [rr.1, rr.2]

/-- **C16 (round trip from an instant).** A whole-second instant is recovered exactly. -/
theorem C16_aller_retour (t : Int) (h0 : 0 ≤ usGPS t) (h1 : usGPS t < semaineLimite * usParSemaine)
    (hs : t % 1000000 = 0) : ∃ w s, versGPS t = some (w, s) ∧ deGPS w s = t := by
  obtain ⟨e, _, _⟩ := C16_vers_GPS t h0 h1
  refine ⟨_, _, e, ?_⟩
  unfold usParSemaine semaineLimite at *
  rw [deGPS_eq _ _ (by rw [abs_le]; omega) (by rw [abs_le]; omega)]
  unfold usGPS at *
  omega

/-- **C16 (round trip from week and seconds).** -/
theorem C16_retour_aller (w s : Int) (hw : 0 ≤ w) (hw1 : w < semaineLimite) (hs : 0 ≤ s) (hs1 : s < 604800) :
    versGPS (deGPS w s) = some (w, s) := by
  unfold semaineLimite at hw1
  have e := deGPS_eq w s (by rw [abs_le]; omega) (by rw [abs_le]; omega)
  have hu : usGPS (deGPS w s) = w * 604800000000 + s * 1000000 := by rw [e]; unfold usGPS; omega
  have := (C16_vers_GPS (deGPS w s) (by omega) (by unfold semaineLimite usParSemaine; omega)).1
  rw [this, hu]
  unfold usParSemaine
  have h1 : (w * 604800000000 + s * 1000000) / 604800000000 = w := by omega
  have h2 : (w * 604800000000 + s * 1000000) % 604800000000 / 1000000 = s := by omega
  rw [h1, h2]

/-- **C16 (microseconds).** `vers_GPS_us` returns the right week and a microsecond count that is exact or one too small
(the `double` is truncated). -/
theorem C16_vers_GPS_us_partial (t : Int) (h0 : 0 ≤ usGPS t) (h1 : usGPS t < semaineLimite * usParSemaine) :
    ∃ u, versGPSus t = some (usGPS t / usParSemaine, u) ∧ 0 ≤ u ∧ u ≤ usGPS t % usParSemaine ∧
      usGPS t % usParSemaine ≤ u + 1 := by
  obtain ⟨p, hp, hpe, hw⟩ := versGPS_general t h0 h1
  unfold versGPSus
  rw [hp, hw, Option.map_some, hpe]
  refine ⟨_, rfl, ?_⟩
  obtain ⟨he, hnn, hex⟩ := secs_err t h0 (by unfold semaineLimite usParSemaine at *; omega)
  clear hp hpe hw p
  generalize usGPS t = U at *
  generalize secsGPS t = S at *
  unfold usParSemaine semaineLimite at *
  generalize hq : U / 604800000000 = q
  generalize hu : U % 604800000000 = u
  have hU : U = 604800000000 * q + u := by omega
  have hub : 0 ≤ u ∧ u < 604800000000 := by omega
  by_cases hu0 : u = 0
  · have : S = ((q * 604800 : ℤ) : ℚ) := by
      rw [hex (by omega)]; congr 1; omega
    rw [this, sub_self, rnd64_zero, mul_zero, rnd64_zero]
    have : tronque 0 = 0 := by decide +kernel
    omega
  · have hu2 : (1 : ℚ) ≤ u := by exact_mod_cast (show (1 : ℤ) ≤ u by omega)
    have hu3 : (u : ℚ) ≤ 604800000000 := by exact_mod_cast hub.2.le
    have hUq : (U : ℚ) = 604800000000 * q + u := by rw [hU]; push_cast; ring
    rw [abs_le, hUq] at he
    set x : ℚ := S - ((q * 604800 : ℤ) : ℚ) with hx
    have hx' : x = S - q * 604800 := by rw [hx]; push_cast; ring
    have hx0 : 0 ≤ x := by linarith [he.1]
    have hx1 : x ≤ 604801 := by linarith [he.2]
    have r1 := rnd64_rel x
    have hs : x / 2 ^ 53 ≤ 1 / 10000000000 := by
      rw [div_le_iff₀ (by norm_num)]; norm_num; linarith
    rw [abs_of_nonneg hx0, abs_le] at r1
    have hy0 : 0 ≤ 1000000 * rnd64 x := by have := rnd64_nonneg hx0; positivity
    have r2 := rnd64_rel (1000000 * rnd64 x)
    have hs2 : 1000000 * rnd64 x / 2 ^ 53 ≤ 1 / 10000 := by
      rw [div_le_iff₀ (by norm_num)]; norm_num; linarith [r1.2]
    rw [abs_of_nonneg hy0, abs_le] at r2
    have hz0 : 0 ≤ rnd64 (1000000 * rnd64 x) := rnd64_nonneg hy0
    have lo : (u : ℚ) - 6 / 10 ≤ rnd64 (1000000 * rnd64 x) := by linarith [r1.1, r2.1, he.1]
    have hi : rnd64 (1000000 * rnd64 x) ≤ (u : ℚ) + 6 / 10 := by linarith [r1.2, r2.2, he.2]
    generalize rnd64 (1000000 * rnd64 x) = z at *
    unfold tronque
    rw [if_pos hz0]
    refine ⟨Int.floor_nonneg.2 hz0, ?_, ?_⟩
    · have : ⌊z⌋ < u + 1 := Int.floor_lt.2 (by push_cast; linarith)
      omega
    · have : u - 1 ≤ ⌊z⌋ := Int.le_floor.2 (by push_cast; linarith)
      omega

/-- … and the loss of a microsecond does occur (with IEEE rounding). -/
theorem C16_vers_GPS_us_refute : ∃ t, 0 ≤ usGPS t ∧ usGPS t < semaineLimite * usParSemaine ∧
    versGPSus t ≠ some (usGPS t / usParSemaine, usGPS t % usParSemaine) := by
  refine ⟨722819 * 86400000000 + 2000 * 604800000000 + 1, by decide +kernel, by decide +kernel, by decide +kernel⟩

/-- Before the GPS epoch the "seconds of week" are negative. -/
theorem C16_avant_epoque_refute : versGPS (deGPS 0 0 - 1000000) = some (0, -1) := by decide +kernel

/-- From week 3551 (January 2048) on, `nb_semaines * sps` overflows a 32-bit `int`: undefined behaviour. -/
theorem C16_debordement_2048 (t : Int) (h0 : semaineLimite * usParSemaine ≤ usGPS t) (h1 : usGPS t < 4000 * usParSemaine) :
    versGPS t = none ∧ versGPSus t = none := by
  have hw := semaine_eq t (by unfold semaineLimite usParSemaine at *; omega) h1
  have : produitInt32 (semaineGPS t) sps = none := by
    unfold produitInt32
    rw [hw]
    unfold semaineLimite usParSemaine sps nbsecsParJour at *
    rw [if_neg (by omega)]
  simp [versGPS, versGPSus, this]

/-- The hypotheses are met by an instant of 2024, and the first overflowing week starts on 25 January 2048. -/
example : 0 ≤ usGPS (dateHeure ⟨2024, 2, 29⟩ ⟨12, 34, 56, 0, 0⟩) ∧
    usGPS (dateHeure ⟨2024, 2, 29⟩ ⟨12, 34, 56, 0, 0⟩) < semaineLimite * usParSemaine ∧
    calendrier (deGPS 3551 18) = some ⟨2048, 1, 26⟩ := by decide +kernel

end Verif.Temps
