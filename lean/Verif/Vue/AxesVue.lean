import Verif.Vue.AxesTics
import Verif.Temps.Model
import Mathlib.Analysis.Complex.ExponentialBounds

/-!
# C187, C188, C189: time axis, visible region, coordinates of the figures (core/src/vue/axes.cc:272-345, 354-466, 502-576, 1567-1625; core/src/vue/canva.cc:121-216, 1405-1470)

Exact arithmetic instead of `float` / `double`.
-/

namespace Verif.Axes

open Real

/-! ## Model: time axis -/

/-- `candidats`, core/src/vue/axes.cc:383-411: pairs (major step, minor step), in tics (microseconds). -/
def candidats : List (ℤ × ℤ) :=
  [(2 * Temps.TICS_MS, 400), (5 * Temps.TICS_MS, Temps.TICS_MS), (10 * Temps.TICS_MS, 2 * Temps.TICS_MS), (20 * Temps.TICS_MS, 4 * Temps.TICS_MS), (50 * Temps.TICS_MS, 10 * Temps.TICS_MS),
   (100 * Temps.TICS_MS, 20 * Temps.TICS_MS), (200 * Temps.TICS_MS, 50 * Temps.TICS_MS), (500 * Temps.TICS_MS, 100 * Temps.TICS_MS), (Temps.TICS_SECONDE, 200 * Temps.TICS_MS),
   (5 * Temps.TICS_SECONDE, Temps.TICS_SECONDE), (10 * Temps.TICS_SECONDE, Temps.TICS_SECONDE), (30 * Temps.TICS_SECONDE, 10 * Temps.TICS_SECONDE), (Temps.TICS_MINUTE, 20 * Temps.TICS_SECONDE),
   (2 * Temps.TICS_MINUTE, 40 * Temps.TICS_SECONDE), (5 * Temps.TICS_MINUTE, Temps.TICS_MINUTE), (10 * Temps.TICS_MINUTE, 2 * Temps.TICS_MINUTE), (20 * Temps.TICS_MINUTE, 4 * Temps.TICS_MINUTE),
   (30 * Temps.TICS_MINUTE, 10 * Temps.TICS_MINUTE), (Temps.TICS_HEURE, 10 * Temps.TICS_MINUTE), (6 * Temps.TICS_HEURE, Temps.TICS_HEURE), (Temps.TICS_JOUR, 6 * Temps.TICS_HEURE),
   (2 * Temps.TICS_JOUR, 12 * Temps.TICS_HEURE), (5 * Temps.TICS_JOUR, Temps.TICS_JOUR), (10 * Temps.TICS_JOUR, 2 * Temps.TICS_JOUR), (30 * Temps.TICS_JOUR, 10 * Temps.TICS_JOUR), (365 * Temps.TICS_JOUR, 30 * Temps.TICS_JOUR)]

/-- Choice of the steps for a span `d`, core/src/vue/axes.cc:413-426. -/
def choixPas (d : ℤ) : ℤ × ℤ := (candidats.find? fun c => decide (d ≤ 8 * c.1)).getD (365 * Temps.TICS_JOUR, 30 * Temps.TICS_JOUR)

/-- The loops over the dates, core/src/vue/axes.cc:436-456, 457-465 (a step that is not positive would loop for ever; it does not occur). -/
def gradue (p tmin tmax t : ℤ) : List ℤ := if 0 < p ∧ t ≤ tmax then (if tmin ≤ t then [t] else []) ++ gradue p tmin tmax (t + p) else []
termination_by (tmax - t + 1).toNat
decreasing_by omega

/-- `configure_axe_temporel`, core/src/vue/axes.cc:354-466: dates of the major and of the minor graduations. Simplification: the bounds are whole numbers of tics (their conversion from seconds is exact), so the span is `tmax - tmin`; the labels are not modelled. -/
def axeTemporel (tmin tmax : ℤ) : List ℤ × List ℤ :=
  let p := choixPas (tmax - tmin)
  let tp := tmin - tmin.tmod p.1
  (gradue p.1 tmin tmax tp, gradue p.2 tmin tmax tp)

/-! ## Model: visible region -/

/-- The adjustment of the isometric mode, core/src/vue/axes.cc:502-541, for a graphic of `sx` by `sy` pixels: bounds of the two axes. -/
noncomputable def isoview (ar : ℝ) (sx sy : ℤ) (xmin xmax ymin ymax : ℝ) : (ℝ × ℝ) × (ℝ × ℝ) :=
  if ((xmax - xmin) / sx + 1 / 10 ^ 200) / ((ymax - ymin) / sy + 1 / 10 ^ 200) < 1 / ar then
    (((xmax + xmin) / 2 - sx * ((ymax - ymin) / sy) / (2 * ar), (xmax + xmin) / 2 + sx * ((ymax - ymin) / sy) / (2 * ar)), (ymin, ymax))
  else
    ((xmin, xmax), ((ymax + ymin) / 2 - sy * ((xmax - xmin) / sx) / (2 * ar), (ymax + ymin) / 2 + sy * ((xmax - xmin) / sx) / (2 * ar)))

/-- `ConfigAxes::def_rdi_visible`, core/src/vue/axes.cc:1567-1622: bounds of the two axes (finite arguments). -/
noncomputable def rdiVisible (logX logY : Bool) (xmin xmax ymin ymax : ℝ) : (ℝ × ℝ) × (ℝ × ℝ) :=
  (if logX then (xmin / (xmax / xmin) ^ (1 / 10 : ℝ), xmax * (xmax / xmin) ^ (1 / 10 : ℝ))
    else (xmin - (if xmax - xmin ≤ 0 then 1 else xmax - xmin) * (1 / 10), xmax + (if xmax - xmin ≤ 0 then 1 else xmax - xmin) * (1 / 10)),
   if logY then (ymin / (ymax / ymin) ^ (1 / 10 : ℝ), ymax * (ymax / ymin) ^ (1 / 10 : ℝ)) else (ymin - (ymax - ymin) * (1 / 10), ymax + (ymax - ymin) * (1 / 4)))

/-! ## Model: coordinates -/

/-- One axis of `ClipGen`, core/src/vue/canva.cc:122-131: target interval (origin, length), virtual interval and scale. -/
structure Clip where
  cible : ℝ
  cibleL : ℝ
  rdi : ℝ
  rdiL : ℝ
  log : Bool

/-- `v2c_x` / `v2c_y`, core/src/vue/canva.cc:133-159. -/
noncomputable def Clip.v2c (c : Clip) (x : ℝ) : ℝ := if c.rdiL = 0 then c.cible else c.cible + c.cibleL * ((if c.log then logb 10 x else x) - c.rdi) / c.rdiL

/-- `c2v`, core/src/vue/canva.cc:161-172 (each coordinate; a null target gives the origin). -/
noncomputable def Clip.c2v (c : Clip) (p : ℝ) : ℝ := if c.cibleL = 0 then c.rdi else (p - c.cible) * c.rdiL / c.cibleL + c.rdi

/-- `clip_alt`, core/src/vue/canva.cc:1421-1443, one coordinate. -/
noncomputable def clipAlt (cible cibleL vmin vmax : ℝ) (log : Bool) : Clip :=
  if log then ⟨cible, cibleL, logb 10 vmin, logb 10 vmax - logb 10 vmin, true⟩ else ⟨cible, cibleL, vmin, vmax - vmin, false⟩

/-- Margins computed by `maj_dimensions`, core/src/vue/axes.cc:286-310 (screen mode): (left, right, bottom), the top one being null. -/
def marges (hAff hLabel vAff vLabel gauche : Bool) (hauteurMax decalage hauteurLabel : ℤ) : ℤ × ℤ × ℤ :=
  (if vAff && gauche then 60 + (if vLabel then 25 else 0) else 0, if vAff && !gauche then 60 + (if vLabel then 25 else 0) else 0,
   if hAff then hauteurMax + decalage + 2 + (if hLabel then hauteurLabel else 0) else 0)

/-- Size left for the curves, core/src/vue/axes.cc:312-315. -/
def tailleGraphique (s marge : ℤ) : ℤ := if marge < s then s - marge else s

/-- Horizontal pixel where a curve is drawn: the drawing region starts at 0, core/src/vue/axes.cc:566-568. -/
noncomputable def pixelCourbe (sxg : ℤ) (xmin xmax : ℝ) (log : Bool) (x : ℝ) : ℝ := (clipAlt 0 sxg xmin xmax log).v2c x

/-- Horizontal pixel where the line of a graduation is drawn, core/src/vue/axes.cc:1100-1107 (before the conversion to an integer). -/
noncomputable def pixelGrille (margeGauche sxg : ℤ) (xmin xmax : ℝ) (log : Bool) (x : ℝ) : ℝ := margeGauche + (clipAlt 0 sxg xmin xmax log).v2c x

/-! ## Proofs: time axis -/

theorem gradue_mem (p tmin tmax : ℤ) (hp : 0 < p) (t v : ℤ) : v ∈ gradue p tmin tmax t ↔ t ≤ v ∧ p ∣ v - t ∧ tmin ≤ v ∧ v ≤ tmax := by
  fun_induction gradue p tmin tmax t with
  | case1 t h ih =>
    rw [List.mem_append, ih]
    constructor
    · rintro (h1 | ⟨h1, h2, h3⟩)
      · split at h1
        · rw [List.mem_singleton] at h1
          subst h1
          exact ⟨le_rfl, by simp, by assumption, h.2⟩
        · exact absurd h1 (by simp)
      · refine ⟨by omega, ?_, h3⟩
        obtain ⟨q, hq⟩ := h2
        exact ⟨q + 1, by linear_combination hq⟩
    · rintro ⟨h1, ⟨q, hq⟩, h3, h4⟩
      by_cases he : v = t
      · left; subst he; rw [if_pos h3]; simp
      · right
        have hq1 : 1 ≤ q := by
          by_contra hc
          have : q ≤ 0 := by omega
          nlinarith [show t < v by omega]
        refine ⟨by nlinarith, ⟨q - 1, by linear_combination hq⟩, h3, h4⟩
  | case2 t h =>
    constructor
    · intro h1; exact absurd h1 (by simp)
    · rintro ⟨h1, _, _, h4⟩
      exact absurd ⟨hp, by omega⟩ h

theorem gradue_trie (p tmin tmax : ℤ) (hp : 0 < p) (t : ℤ) : (gradue p tmin tmax t).Pairwise (· < ·) := by
  fun_induction gradue p tmin tmax t with
  | case1 t h ih =>
    rw [List.pairwise_append]
    refine ⟨by split <;> simp, ih, fun x hx y hy => ?_⟩
    rw [gradue_mem p tmin tmax hp] at hy
    split at hx
    · rw [List.mem_singleton] at hx; omega
    · exact absurd hx (by simp)
  | case2 t h => exact List.Pairwise.nil

theorem gradue_longueur (p tmin tmax : ℤ) (hp : 0 < p) (t : ℤ) (ht : tmin ≤ t) : ((gradue p tmin tmax t).length : ℤ) = if t ≤ tmax then (tmax - t) / p + 1 else 0 := by
  fun_induction gradue p tmin tmax t with
  | case1 t h ih =>
    have ih := ih (by omega)
    rw [List.length_append, if_pos ht, List.length_singleton, if_pos h.2]
    push_cast
    rw [ih]
    split
    · have : (tmax - t) / p = (tmax - (t + p)) / p + 1 := by
        rw [show tmax - t = tmax - (t + p) + p * 1 by ring, Int.add_mul_ediv_left _ _ hp.ne']
      omega
    · have : (tmax - t) / p = 0 := Int.ediv_eq_zero_of_lt (by omega) (by omega)
      omega
  | case2 t h =>
    rw [if_neg (by intro h2; exact h ⟨hp, h2⟩)]; rfl

theorem candidats_tous : ∀ c ∈ candidats, 0 < c.1 ∧ 0 < c.2 ∧ c.2 ∣ c.1 ∧ c.2 < c.1 ∨ c = (365 * Temps.TICS_JOUR, 30 * Temps.TICS_JOUR) := by decide +kernel

theorem choix_mem (d : ℤ) : choixPas d ∈ candidats := by
  unfold choixPas
  cases h : candidats.find? fun c => decide (d ≤ 8 * c.1) with
  | none => rw [Option.getD_none]; decide +kernel
  | some c => exact List.mem_of_find?_eq_some h

theorem choix_pos (d : ℤ) : 0 < (choixPas d).1 ∧ 0 < (choixPas d).2 := by
  have h : ∀ c ∈ candidats, 0 < c.1 ∧ 0 < c.2 := by decide +kernel
  exact h _ (choix_mem d)

/-- **C187 (choice of the step).** The step is the least of the table that gives at most 8 intervals, if there is one. -/
theorem C187_choix (d : ℤ) (hd : d ≤ 8 * (365 * Temps.TICS_JOUR)) : d ≤ 8 * (choixPas d).1 ∧ ∀ c ∈ candidats, d ≤ 8 * c.1 → (choixPas d).1 ≤ c.1 := by
  unfold choixPas
  cases h : candidats.find? fun c => decide (d ≤ 8 * c.1) with
  | none =>
    rw [List.find?_eq_none] at h
    exact absurd (h (365 * Temps.TICS_JOUR, 30 * Temps.TICS_JOUR) (by decide +kernel)) (by simpa using hd)
  | some c =>
    rw [Option.getD_some]
    refine ⟨by simpa using List.find?_some h, fun c' hc' hd' => ?_⟩
    have hs : candidats.Pairwise (fun a b => a.1 ≤ b.1) := by decide +kernel
    obtain ⟨_, as, bs, hab, hnot⟩ := List.find?_eq_some_iff_append.1 h
    rw [hab] at hs hc'
    rw [List.mem_append] at hc'
    rcases hc' with hc' | hc'
    · have := hnot c' hc'
      simp only [Bool.not_eq_true', decide_eq_false_iff_not] at this
      exact absurd hd' this
    · rw [List.pairwise_append] at hs
      rcases List.mem_cons.1 hc' with rfl | hc'
      · exact le_rfl
      · exact (List.pairwise_cons.1 hs.2.1).1 c' hc'

theorem tp_prop (tmin p : ℤ) (hp : 0 < p) (h0 : 0 ≤ tmin) : p ∣ tmin - tmin.tmod p ∧ tmin - tmin.tmod p ≤ tmin ∧ tmin < tmin - tmin.tmod p + p := by
  rw [Int.tmod_eq_emod_of_nonneg h0]
  have h1 := Int.emod_nonneg tmin hp.ne'
  have h2 := Int.emod_lt_of_pos tmin hp
  refine ⟨⟨tmin / p, ?_⟩, by omega, by omega⟩
  have := Int.mul_ediv_add_emod tmin p
  linarith

/-- **C187 (major graduations).** They are, in increasing order, exactly the dates of the interval that are multiples of the step. -/
theorem C187_majeurs (tmin tmax : ℤ) (h0 : 0 ≤ tmin) :
    (axeTemporel tmin tmax).1.Pairwise (· < ·) ∧ ∀ v, v ∈ (axeTemporel tmin tmax).1 ↔ (choixPas (tmax - tmin)).1 ∣ v ∧ tmin ≤ v ∧ v ≤ tmax := by
  obtain ⟨hp, _⟩ := choix_pos (tmax - tmin)
  obtain ⟨h1, h2, h3⟩ := tp_prop tmin _ hp h0
  refine ⟨gradue_trie _ _ _ hp _, fun v => ?_⟩
  unfold axeTemporel
  dsimp only
  rw [gradue_mem _ _ _ hp]
  constructor
  · rintro ⟨_, a2, a3⟩
    exact ⟨(Int.dvd_iff_dvd_of_dvd_sub a2).2 h1, a3⟩
  · rintro ⟨a1, a2, a3⟩
    exact ⟨by omega, dvd_sub a1 h1, a2, a3⟩

/-- **C187 (minor graduations).** Whenever the minor step divides the major one, that is for every span but the longest (more than 240 days), they are exactly the dates of the interval that are multiples of the minor step. -/
theorem C187_mineurs (tmin tmax : ℤ) (h0 : 0 ≤ tmin) (hd : tmax - tmin ≤ 8 * (30 * Temps.TICS_JOUR)) :
    (axeTemporel tmin tmax).2.Pairwise (· < ·) ∧ ∀ v, v ∈ (axeTemporel tmin tmax).2 ↔ (choixPas (tmax - tmin)).2 ∣ v ∧ tmin ≤ v ∧ v ≤ tmax := by
  obtain ⟨hp, hp2⟩ := choix_pos (tmax - tmin)
  obtain ⟨h1, h2, h3⟩ := tp_prop tmin _ hp h0
  have hdvd : (choixPas (tmax - tmin)).2 ∣ (choixPas (tmax - tmin)).1 := by
    rcases candidats_tous _ (choix_mem (tmax - tmin)) with h | h
    · exact h.2.2.1
    · have h4 := (C187_choix (tmax - tmin) (hd.trans (by decide +kernel))).2 (30 * Temps.TICS_JOUR, 10 * Temps.TICS_JOUR) (by decide +kernel) hd
      rw [h] at h4
      exact absurd h4 (by decide +kernel)
  have h1' := dvd_trans hdvd h1
  refine ⟨gradue_trie _ _ _ hp2 _, fun v => ?_⟩
  unfold axeTemporel
  dsimp only
  rw [gradue_mem _ _ _ hp2]
  constructor
  · rintro ⟨_, a2, a3⟩
    exact ⟨(Int.dvd_iff_dvd_of_dvd_sub a2).2 h1', a3⟩
  · rintro ⟨a1, a2, a3⟩
    exact ⟨by omega, dvd_sub a1 h1', a2, a3⟩

/-- **C187 (number).** For a span of at most 2920 days there are at most 8 major graduations, except that there are 9 when the interval starts on a graduation and lasts exactly 8 steps. -/
theorem C187_nombre (tmin tmax : ℤ) (h0 : 0 ≤ tmin) (hle : tmin ≤ tmax) (hd : tmax - tmin ≤ 8 * (365 * Temps.TICS_JOUR)) :
    (axeTemporel tmin tmax).1.length ≤ 8 ∨ ((axeTemporel tmin tmax).1.length = 9 ∧ (choixPas (tmax - tmin)).1 ∣ tmin ∧ tmax - tmin = 8 * (choixPas (tmax - tmin)).1) := by
  obtain ⟨hp, _⟩ := choix_pos (tmax - tmin)
  obtain ⟨h1, h2, h3⟩ := tp_prop tmin _ hp h0
  have hc := (C187_choix _ hd).1
  have hex : (axeTemporel tmin tmax).1 = gradue (choixPas (tmax - tmin)).1 tmin tmax (tmin - tmin.tmod (choixPas (tmax - tmin)).1) := rfl
  rw [hex]
  set p := (choixPas (tmax - tmin)).1 with hpdef
  by_cases he : tmin.tmod p = 0
  · rw [he, sub_zero] at h1 ⊢
    have hl := gradue_longueur p tmin tmax hp tmin le_rfl
    rw [if_pos hle] at hl
    by_cases h8 : tmax - tmin = 8 * p
    · right
      rw [h8, Int.mul_ediv_cancel _ hp.ne'] at hl
      exact ⟨by omega, h1, h8⟩
    · left
      have : (tmax - tmin) / p < 8 := Int.ediv_lt_of_lt_mul hp (by omega)
      omega
  · left
    have hlt : 0 < tmin.tmod p := by
      rw [Int.tmod_eq_emod_of_nonneg h0] at he ⊢
      have := Int.emod_nonneg tmin hp.ne'
      omega
    rw [gradue]
    by_cases h4 : tmin - tmin.tmod p ≤ tmax
    · rw [if_pos ⟨hp, h4⟩, if_neg (by omega), List.nil_append]
      have hl := gradue_longueur p tmin tmax hp (tmin - tmin.tmod p + p) (by omega)
      split at hl
      · have : (tmax - (tmin - tmin.tmod p + p)) / p < 8 := Int.ediv_lt_of_lt_mul hp (by omega)
        omega
      · omega
    · rw [if_neg (fun h => h4 h.2)]; simp

/-- The number announced in the code (at most 8) is exceeded: 16 ms from a multiple of 2 ms. -/
theorem C187_neuf_refute : (axeTemporel 0 16000).1.length = 9 := by
  have h : (axeTemporel 0 16000).1 = gradue 2000 0 16000 0 := by
    have : choixPas (16000 - 0) = (2000, 400) := by decide +kernel
    unfold axeTemporel
    rw [this]
    rfl
  have := gradue_longueur 2000 0 16000 (by norm_num) 0 le_rfl
  rw [h]
  norm_num at this
  exact_mod_cast this

/-- **C187 (refuted: an axis without graduation).** A span of 250 days may have no major graduation at all. -/
theorem C187_sans_graduation_refute : ∃ tmin tmax : ℤ, 0 ≤ tmin ∧ tmax - tmin = 250 * Temps.TICS_JOUR ∧ (axeTemporel tmin tmax).1 = [] := by
  refine ⟨Temps.TICS_JOUR, 251 * Temps.TICS_JOUR, by decide +kernel, by ring, ?_⟩
  have hc : choixPas (251 * Temps.TICS_JOUR - Temps.TICS_JOUR) = (365 * Temps.TICS_JOUR, 30 * Temps.TICS_JOUR) := by decide +kernel
  rw [List.eq_nil_iff_forall_not_mem]
  intro v hv
  rw [(C187_majeurs _ _ (by decide +kernel)).2, hc] at hv
  obtain ⟨⟨q, hq⟩, h1, h2⟩ := hv
  have hJ : Temps.TICS_JOUR = 86400000000 := by decide +kernel
  dsimp only at hq
  rw [hJ] at hq h1 h2
  omega

/-! ## Proofs: visible region -/

/-- **C188 (isometric mode).** With an aspect ratio of 1, one pixel stands for the same length on the two axes, the centre is kept and the visible region contains the requested one. -/
theorem C188_iso (sx sy : ℤ) (hsx : 0 < sx) (hsy : 0 < sy) (xmin xmax ymin ymax : ℝ) (hx : xmin ≤ xmax) (hy : ymin ≤ ymax) :
    (((isoview 1 sx sy xmin xmax ymin ymax).1.2 - (isoview 1 sx sy xmin xmax ymin ymax).1.1) / sx = ((isoview 1 sx sy xmin xmax ymin ymax).2.2 - (isoview 1 sx sy xmin xmax ymin ymax).2.1) / sy) ∧
    ((isoview 1 sx sy xmin xmax ymin ymax).1.1 ≤ xmin ∧ xmax ≤ (isoview 1 sx sy xmin xmax ymin ymax).1.2 ∧ (isoview 1 sx sy xmin xmax ymin ymax).2.1 ≤ ymin ∧ ymax ≤ (isoview 1 sx sy xmin xmax ymin ymax).2.2) ∧
    ((isoview 1 sx sy xmin xmax ymin ymax).1.1 + (isoview 1 sx sy xmin xmax ymin ymax).1.2 = xmin + xmax ∧ (isoview 1 sx sy xmin xmax ymin ymax).2.1 + (isoview 1 sx sy xmin xmax ymin ymax).2.2 = ymin + ymax) := by
  have hsx' : (0 : ℝ) < sx := by exact_mod_cast hsx
  have hsy' : (0 : ℝ) < sy := by exact_mod_cast hsy
  have hε : (0 : ℝ) < 1 / 10 ^ 200 := by positivity
  have hrx : 0 ≤ (xmax - xmin) / sx := div_nonneg (by linarith) hsx'.le
  have hry : 0 ≤ (ymax - ymin) / sy := div_nonneg (by linarith) hsy'.le
  have ex : xmax - xmin = (xmax - xmin) / sx * sx := by field_simp
  have ey : ymax - ymin = (ymax - ymin) / sy * sy := by field_simp
  unfold isoview
  split
  · rename_i h
    rw [div_one, div_lt_one (by linarith)] at h
    have h2 : (xmax - xmin) / sx < (ymax - ymin) / sy := by linarith
    have h3 : (xmax - xmin) / sx * sx < (ymax - ymin) / sy * sx := mul_lt_mul_of_pos_right h2 hsx'
    dsimp only
    refine ⟨?_, ⟨by nlinarith, by nlinarith, le_rfl, le_rfl⟩, by ring, by ring⟩
    field_simp; ring
  · rename_i h
    rw [div_one, not_lt, one_le_div (by linarith)] at h
    have h2 : (ymax - ymin) / sy ≤ (xmax - xmin) / sx := by linarith
    have h3 : (ymax - ymin) / sy * sy ≤ (xmax - xmin) / sx * sy := mul_le_mul_of_nonneg_right h2 hsy'.le
    dsimp only
    refine ⟨?_, ⟨le_rfl, le_rfl, by nlinarith, by nlinarith⟩, by ring, by ring⟩
    field_simp; ring

/-- **C188 (other aspect ratios: refuted).** The ratio of the two resolutions is the inverse of the requested number if the horizontal axis is enlarged, and the requested number itself if the vertical axis is modified: it depends on the data. -/
theorem C188_rapport_refute (ar : ℝ) (har : 0 < ar) (sx sy : ℤ) (hsx : 0 < sx) (hsy : 0 < sy) (xmin xmax ymin ymax : ℝ) (hx : xmin < xmax) (hy : ymin < ymax) :
    (((isoview ar sx sy xmin xmax ymin ymax).1.2 - (isoview ar sx sy xmin xmax ymin ymax).1.1) / sx) / (((isoview ar sx sy xmin xmax ymin ymax).2.2 - (isoview ar sx sy xmin xmax ymin ymax).2.1) / sy) =
      if ((xmax - xmin) / sx + 1 / 10 ^ 200) / ((ymax - ymin) / sy + 1 / 10 ^ 200) < 1 / ar then 1 / ar else ar := by
  have hsx' : (0 : ℝ) < sx := by exact_mod_cast hsx
  have hsy' : (0 : ℝ) < sy := by exact_mod_cast hsy
  have h1 : 0 < xmax - xmin := by linarith
  have h2 : 0 < ymax - ymin := by linarith
  unfold isoview
  split
  · dsimp only
    rw [show (xmax + xmin) / 2 + sx * ((ymax - ymin) / sy) / (2 * ar) - ((xmax + xmin) / 2 - sx * ((ymax - ymin) / sy) / (2 * ar)) = sx * ((ymax - ymin) / sy) / ar by field_simp; ring]
    field_simp
  · dsimp only
    rw [show (ymax + ymin) / 2 + sy * ((xmax - xmin) / sx) / (2 * ar) - ((ymax + ymin) / 2 - sy * ((xmax - xmin) / sx) / (2 * ar)) = sy * ((xmax - xmin) / sx) / ar by field_simp; ring]
    field_simp

/-- **C188 (other aspect ratios: data cut).** With an aspect ratio above 1 and equal scales on the two axes, the visible vertical interval is strictly inside the requested one. -/
theorem C188_coupe_refute (ar : ℝ) (har : 1 < ar) (s : ℤ) (hs : 0 < s) (xmin xmax ymin ymax : ℝ) (hx : xmin < xmax) (heq : ymax - ymin = xmax - xmin) :
    ymin < (isoview ar s s xmin xmax ymin ymax).2.1 ∧ (isoview ar s s xmin xmax ymin ymax).2.2 < ymax := by
  have hs' : (0 : ℝ) < s := by exact_mod_cast hs
  have h1 : 0 < xmax - xmin := by linarith
  have hε : (0 : ℝ) < (xmax - xmin) / s + 1 / 10 ^ 200 := by positivity
  have h2 : 1 / ar < 1 := by rw [div_lt_one (by linarith)]; exact har
  unfold isoview
  rw [heq, div_self hε.ne', if_neg (by linarith)]
  dsimp only
  have h3 : s * ((xmax - xmin) / s) / (2 * ar) = (xmax - xmin) / 2 * (1 / ar) := by field_simp
  rw [h3]
  constructor <;> nlinarith

/-- **C188 (margins).** The visible region contains the requested one, on linear and logarithmic axes. -/
theorem C188_rdi (logX logY : Bool) (xmin xmax ymin ymax : ℝ) (hx : xmin ≤ xmax) (hy : ymin ≤ ymax) (hX : logX = true → 0 < xmin) (hY : logY = true → 0 < ymin) :
    (rdiVisible logX logY xmin xmax ymin ymax).1.1 ≤ xmin ∧ xmax ≤ (rdiVisible logX logY xmin xmax ymin ymax).1.2 ∧
    (rdiVisible logX logY xmin xmax ymin ymax).2.1 ≤ ymin ∧ ymax ≤ (rdiVisible logX logY xmin xmax ymin ymax).2.2 := by
  have key : ∀ a b : ℝ, 0 < a → a ≤ b → a / (b / a) ^ (1 / 10 : ℝ) ≤ a ∧ b ≤ b * (b / a) ^ (1 / 10 : ℝ) := by
    intro a b ha hab
    have h1 : 1 ≤ (b / a) ^ (1 / 10 : ℝ) := Real.one_le_rpow (by rw [one_le_div ha]; exact hab) (by norm_num)
    exact ⟨div_le_self ha.le h1, le_mul_of_one_le_right (by linarith) h1⟩
  unfold rdiVisible
  dsimp only
  refine ⟨?_, ?_, ?_, ?_⟩
  · cases logX
    · simp only [Bool.false_eq_true, if_false]; split <;> linarith
    · exact (key _ _ (hX rfl) hx).1
  · cases logX
    · simp only [Bool.false_eq_true, if_false]; split <;> linarith
    · exact (key _ _ (hX rfl) hx).2
  · cases logY
    · simp only [Bool.false_eq_true, if_false]; linarith
    · exact (key _ _ (hY rfl) hy).1
  · cases logY
    · simp only [Bool.false_eq_true, if_false]; linarith
    · exact (key _ _ (hY rfl) hy).2

/-! ## Proofs: coordinates -/

/-- **C189 (drawing and scale agree).** The drawing region set up by the axes puts a value at the pixel of the scale: from left to right horizontally, from top to bottom vertically (where the region is given as `vmax`, `vmin`). -/
theorem C189_echelle (vertical log : Bool) (vmin vmax : ℝ) (dim : ℤ) (h : vmin < vmax) (hl : log = true → 0 < vmin) (a : Axe) (ha : configure vertical log vmin vmax dim = some a) (v : ℝ) (hv : log = true → 0 < v) :
    valeurVersPixelf a v = some (if vertical then (clipAlt 0 dim vmax vmin log).v2c v else (clipAlt 0 dim vmin vmax log).v2c v) := by
  rw [C184_echelle vertical log vmin vmax dim h hl a ha v hv]
  congr 1
  cases log with
  | true =>
    have hlt : logb 10 vmin < logb 10 vmax := Real.logb_lt_logb (by norm_num) (hl rfl) h
    have h1 : logb 10 vmax - logb 10 vmin ≠ 0 := by linarith
    have h2 : logb 10 vmin - logb 10 vmax ≠ 0 := by linarith
    cases vertical <;> simp only [clipAlt, Clip.v2c, position, Bool.false_eq_true, if_true, if_false, if_neg h1, if_neg h2]
    · ring
    · field_simp
      ring
  | false =>
    have h1 : vmax - vmin ≠ 0 := by linarith
    have h2 : vmin - vmax ≠ 0 := by linarith
    cases vertical <;> simp only [clipAlt, Clip.v2c, position, Bool.false_eq_true, if_true, if_false, if_neg h1, if_neg h2]
    · ring
    · field_simp
      ring

/-- **C189 (inverse, linear).** On a linear scale, converting to the coordinates of the parent and back gives the value, and conversely. -/
theorem C189_inverse (c : Clip) (hlin : c.log = false) (h1 : c.rdiL ≠ 0) (h2 : c.cibleL ≠ 0) (x : ℝ) : c.c2v (c.v2c x) = x ∧ c.v2c (c.c2v x) = x := by
  simp only [Clip.c2v, Clip.v2c, hlin, Bool.false_eq_true, if_false, if_neg h1, if_neg h2]
  constructor
  · field_simp; ring
  · field_simp; ring

/-- **C189 (inverse, logarithmic: refuted).** On a logarithmic scale the inverse conversion forgets the scale: it returns the decimal logarithm of the value, which is never the value. -/
theorem C189_inverse_log_refute (c : Clip) (hlog : c.log = true) (h1 : c.rdiL ≠ 0) (h2 : c.cibleL ≠ 0) (x : ℝ) (hx : 0 < x) : c.c2v (c.v2c x) = logb 10 x ∧ c.c2v (c.v2c x) ≠ x := by
  have e : c.c2v (c.v2c x) = logb 10 x := by
    simp only [Clip.c2v, Clip.v2c, hlog, if_true, if_neg h1, if_neg h2]
    field_simp; ring
  refine ⟨e, ?_⟩
  rw [e]
  have h3 : logb 10 x < x := by
    rw [Real.logb_lt_iff_lt_rpow (by norm_num) hx]
    have h5 : x + 1 ≤ Real.exp x := Real.add_one_le_exp x
    have h6 : Real.exp x ≤ (10 : ℝ) ^ x := by
      rw [Real.rpow_def_of_pos (by norm_num)]
      apply Real.exp_le_exp.2
      have : 1 ≤ Real.log 10 := by
        rw [Real.le_log_iff_exp_le (by norm_num)]
        have := Real.exp_one_lt_d9
        linarith
      nlinarith
    linarith
  exact h3.ne

/-- **C189 (layout).** If there is room, the margins and the graphic share the width exactly; otherwise the graphic takes everything. In both cases its size is positive. -/
theorem C189_taille (s marge : ℤ) (hs : 0 < s) (hm : 0 ≤ marge) : 0 < tailleGraphique s marge ∧ tailleGraphique s marge ≤ s ∧ (marge < s → tailleGraphique s marge + marge = s) := by
  unfold tailleGraphique
  split <;> omega

/-- **C189 (margins).** A displayed vertical axis takes 60 pixels (25 more for its label) on its own side and nothing on the other one; a hidden axis takes nothing. The horizontal axis takes the height of its texts at the bottom, and nothing when hidden. -/
theorem C189_marges (hAff hLabel vAff vLabel : Bool) (hm dec hl : ℤ) :
    (marges hAff hLabel vAff vLabel true hm dec hl).1 = (if vAff then (if vLabel then 85 else 60) else 0) ∧ (marges hAff hLabel vAff vLabel true hm dec hl).2.1 = 0 ∧
    (marges hAff hLabel vAff vLabel false hm dec hl).1 = 0 ∧ (marges hAff hLabel vAff vLabel false hm dec hl).2.1 = (if vAff then (if vLabel then 85 else 60) else 0) ∧
    ∀ gauche, (marges hAff hLabel vAff vLabel gauche hm dec hl).2.2 = if hAff then (if hLabel then hm + dec + 2 + hl else hm + dec + 2) else 0 := by
  cases hAff <;> cases hLabel <;> cases vAff <;> cases vLabel <;> simp [marges]

/-- **C189 (grid and curves).** With the vertical axis on the right (the default) a graduation and the point of a curve at the same abscissa are on the same column; with the vertical axis on the left they are 60 (or 85) pixels apart: the curve is drawn over the margin. -/
theorem C189_grille_refute (hAff hLabel vLabel : Bool) (hm dec hl : ℤ) (sxg : ℤ) (xmin xmax : ℝ) (log : Bool) (x : ℝ) :
    pixelGrille (marges hAff hLabel true vLabel false hm dec hl).1 sxg xmin xmax log x = pixelCourbe sxg xmin xmax log x ∧
    pixelGrille (marges hAff hLabel true vLabel true hm dec hl).1 sxg xmin xmax log x = pixelCourbe sxg xmin xmax log x + (if vLabel then 85 else 60) := by
  unfold pixelGrille pixelCourbe marges
  constructor
  · simp
  · cases vLabel <;> norm_num <;> ring

/-- Non-vacuity: a clip of 600 pixels over the decades from 1 to 100. -/
example : (clipAlt 0 600 1 100 true).log = true ∧ (clipAlt 0 600 1 100 true).rdiL ≠ 0 ∧ (clipAlt 0 600 1 100 true).cibleL ≠ 0 := by
  have : logb 10 1 < logb 10 100 := Real.logb_lt_logb (by norm_num) (by norm_num) (by norm_num)
  refine ⟨rfl, ?_, by norm_num [clipAlt]⟩
  simp only [clipAlt, if_true]
  linarith

end Verif.Axes
