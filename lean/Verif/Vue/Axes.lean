import Mathlib.Analysis.SpecialFunctions.Log.Base
import Mathlib.Analysis.SpecialFunctions.Pow.Real
import Mathlib.Order.Bounds.Basic
import Mathlib.Tactic.LinearCombination
import Mathlib.Tactic.FieldSimp

/-!
# C184, C185: scale of an axis and choice of the graduations (core/src/vue/axes.cc:105-209)

Exact arithmetic instead of `float` / `double`.
-/

namespace Verif.Axes

open Real

/-! ## Model -/

/-- `Axe`, core/include/tsd/vue.hpp:202-235 (the fields of the scale). -/
structure Axe where
  vertical : Bool
  log : Bool
  vmin : ℝ
  vmax : ℝ
  dim : ℤ
  zero : ℝ
  ppl : ℝ

/-- `Axe::configure`, core/src/vue/axes.cc:105-127. `none`: exception (`vmin > vmax`), or a scale that is not a finite number (logarithm of a non-positive bound, or `vmin = vmax` in logarithmic mode). -/
noncomputable def configure (vertical log : Bool) (vmin vmax : ℝ) (dim : ℤ) : Option Axe :=
  if vmax < vmin then none else
  if log then
    if vmin ≤ 0 ∨ vmin = vmax then none else
      some ⟨vertical, log, vmin, vmax, dim, (logb 10 vmax + logb 10 vmin) / 2, dim / (logb 10 vmax - logb 10 vmin)⟩
  else some ⟨vertical, log, vmin, vmax, dim, (vmax + vmin) / 2, dim / (if vmax - vmin = 0 then 1 else vmax - vmin)⟩

/-- Conversion to `entier` (towards zero). -/
noncomputable def tronque (x : ℝ) : ℤ := if 0 ≤ x then ⌊x⌋ else ⌈x⌉

/-- `valeur_vers_pixel`, core/src/vue/axes.cc:142-153 (`none`: logarithm of a negative number). -/
noncomputable def valeurVersPixel (a : Axe) (v : ℝ) : Option ℤ :=
  if a.log then
    if v = 0 then some (-1) else if v < 0 then none else
      some (a.dim / 2 + if a.vertical then -tronque ((logb 10 v - a.zero) * a.ppl) else tronque ((logb 10 v - a.zero) * a.ppl))
  else some (a.dim / 2 + if a.vertical then -tronque ((v - a.zero) * a.ppl) else tronque ((v - a.zero) * a.ppl))

/-- `valeur_vers_pixelf`, core/src/vue/axes.cc:155-166. -/
noncomputable def valeurVersPixelf (a : Axe) (v : ℝ) : Option ℝ :=
  if a.log then
    if v = 0 then some (-1) else if v < 0 then none else
      some (a.dim / 2 + if a.vertical then -((logb 10 v - a.zero) * a.ppl) else (logb 10 v - a.zero) * a.ppl)
  else some (a.dim / 2 + if a.vertical then -((v - a.zero) * a.ppl) else (v - a.zero) * a.ppl)

/-- `pixel_vers_valeur`, core/src/vue/axes.cc:168-177: `dim/2` is an integer division. -/
noncomputable def pixelVersValeur (a : Axe) (p : ℝ) : ℝ :=
  if a.log then (10 : ℝ) ^ ((if a.vertical then (a.dim / 2 : ℤ) - p else p - (a.dim / 2 : ℤ)) / a.ppl + a.zero)
  else (if a.vertical then (a.dim / 2 : ℤ) - p else p - (a.dim / 2 : ℤ)) / a.ppl + a.zero

/-- `calcule_tic`, core/src/vue/axes.cc:185-209. -/
noncomputable def calculeTic (t : ℝ) : ℝ :=
  (if t / (10 : ℝ) ^ ⌊logb 10 t⌋ = 1 then 1 else if t / (10 : ℝ) ^ ⌊logb 10 t⌋ ≤ 2 then 2 else if t / (10 : ℝ) ^ ⌊logb 10 t⌋ ≤ 5 / 2 then 5 / 2
    else if t / (10 : ℝ) ^ ⌊logb 10 t⌋ ≤ 5 then 5 else 10) * (10 : ℝ) ^ ⌊logb 10 t⌋

/-! ## Specification -/

/-- The numbers whose decimal writing is simple: 1, 2, 2.5 or 5 times a power of ten. -/
def Simple (r : ℝ) : Prop := ∃ (c : ℝ) (k : ℤ), (c = 1 ∨ c = 2 ∨ c = 5 / 2 ∨ c = 5) ∧ r = c * (10 : ℝ) ^ k

/-- Position of a value between the bounds of an axis, from 0 (`vmin`) to 1 (`vmax`). -/
noncomputable def position (log : Bool) (vmin vmax v : ℝ) : ℝ :=
  if log then (logb 10 v - logb 10 vmin) / (logb 10 vmax - logb 10 vmin) else (v - vmin) / (vmax - vmin)

/-! ## Proofs -/

theorem configure_some (vertical log : Bool) (vmin vmax : ℝ) (dim : ℤ) (h : vmin < vmax) (hl : log = true → 0 < vmin) :
    ∃ a, configure vertical log vmin vmax dim = some a ∧ a.vertical = vertical ∧ a.log = log ∧ a.dim = dim := by
  unfold configure
  rw [if_neg (not_lt.2 h.le)]
  cases log with
  | true =>
    rw [if_pos rfl, if_neg]
    · exact ⟨_, rfl, rfl, rfl, rfl⟩
    · rintro (h1 | h1)
      · exact absurd (hl rfl) (not_lt.2 h1)
      · exact absurd h1 h.ne
  | false => exact ⟨_, rfl, rfl, rfl, rfl⟩

/-- **C184 (scale).** The pixel of a value is the proportion of its position between the bounds: `vmin` at 0 and `vmax` at `dim` (from bottom to top on a vertical axis). -/
theorem C184_echelle (vertical log : Bool) (vmin vmax : ℝ) (dim : ℤ) (h : vmin < vmax) (hl : log = true → 0 < vmin) (a : Axe) (ha : configure vertical log vmin vmax dim = some a)
    (v : ℝ) (hv : log = true → 0 < v) : valeurVersPixelf a v = some (if vertical then dim * (1 - position log vmin vmax v) else dim * position log vmin vmax v) := by
  have hne : vmax - vmin ≠ 0 := by linarith [h]
  unfold configure at ha
  rw [if_neg (not_lt.2 h.le)] at ha
  cases log with
  | true =>
    have h0 := hl rfl
    have hv0 := hv rfl
    rw [if_pos rfl, if_neg (by rintro (h1 | h1) <;> [exact absurd h0 (not_lt.2 h1); exact absurd h1 h.ne])] at ha
    cases ha
    have hlt : logb 10 vmin < logb 10 vmax := Real.logb_lt_logb (by norm_num) h0 h
    have hne' : logb 10 vmax - logb 10 vmin ≠ 0 := by linarith
    simp only [valeurVersPixelf, if_true, if_neg hv0.ne', if_neg (not_lt.2 hv0.le), position]
    congr 1
    split
    · field_simp; ring
    · field_simp; ring
  | false =>
    simp only [Bool.false_eq_true, if_false, if_neg hne] at ha
    cases ha
    simp only [valeurVersPixelf, Bool.false_eq_true, if_false, position]
    congr 1
    split
    · field_simp; ring
    · field_simp; ring

theorem tronque_err (x : ℝ) : |(tronque x : ℝ) - x| < 1 := by
  unfold tronque
  split
  · rw [abs_lt]; constructor <;> linarith [Int.floor_le x, Int.lt_floor_add_one x]
  · rw [abs_lt]; constructor <;> linarith [Int.le_ceil x, Int.ceil_lt_add_one x]

theorem demi (d : ℤ) : ((d / 2 : ℤ) : ℝ) = d / 2 ∧ d % 2 = 0 ∨ ((d / 2 : ℤ) : ℝ) = d / 2 - 1 / 2 ∧ d % 2 = 1 := by
  have h : (2 : ℝ) * (d / 2 : ℤ) + (d % 2 : ℤ) = d := by exact_mod_cast Int.mul_ediv_add_emod d 2
  rcases Int.emod_two_eq_zero_or_one d with h1 | h1
  · left
    rw [h1, Int.cast_zero] at h
    exact ⟨by linarith, h1⟩
  · right
    rw [h1, Int.cast_one] at h
    exact ⟨by linarith, h1⟩

/-- **C184 (integer pixel).** The integer pixel and the exact one differ by less than one pixel if the dimension is even, by less than 1.5 pixel otherwise. -/
theorem C184_entier (a : Axe) (v : ℝ) (hv : a.log = true → 0 < v) : ∃ p q, valeurVersPixel a v = some p ∧ valeurVersPixelf a v = some q ∧ |(p : ℝ) - q| < 3 / 2 ∧ (a.dim % 2 = 0 → |(p : ℝ) - q| < 1) := by
  have key : ∀ x : ℝ, ∀ s : Bool, |((a.dim / 2 + (if s then -tronque x else tronque x) : ℤ) : ℝ) - (a.dim / 2 + if s then -x else x)| < 3 / 2 ∧
      (a.dim % 2 = 0 → |((a.dim / 2 + (if s then -tronque x else tronque x) : ℤ) : ℝ) - (a.dim / 2 + if s then -x else x)| < 1) := by
    intro x s
    have h1 := abs_lt.1 (tronque_err x)
    have e : ((a.dim / 2 + (if s then -tronque x else tronque x) : ℤ) : ℝ) = ((a.dim / 2 : ℤ) : ℝ) + if s then -(tronque x : ℝ) else tronque x := by
      rw [Int.cast_add]
      congr 1
      split <;> simp
    rw [e]
    rcases demi a.dim with ⟨h2, h3⟩ | ⟨h2, h3⟩
    · rw [h2]
      refine ⟨?_, fun _ => ?_⟩
      · cases s <;> simp only [Bool.false_eq_true, if_true, if_false] <;> rw [abs_lt] <;> constructor <;> linarith [h1.1, h1.2]
      · cases s <;> simp only [Bool.false_eq_true, if_true, if_false] <;> rw [abs_lt] <;> constructor <;> linarith [h1.1, h1.2]
    · rw [h2]
      refine ⟨?_, fun h4 => by omega⟩
      cases s <;> simp only [Bool.false_eq_true, if_true, if_false] <;> rw [abs_lt] <;> constructor <;> linarith [h1.1, h1.2]
  unfold valeurVersPixel valeurVersPixelf
  by_cases hl : a.log = true
  · rw [if_pos hl, if_pos hl, if_neg (hv hl).ne', if_neg (not_lt.2 (hv hl).le), if_neg (hv hl).ne', if_neg (not_lt.2 (hv hl).le)]
    exact ⟨_, _, rfl, rfl, key _ _⟩
  · rw [if_neg hl, if_neg hl]
    exact ⟨_, _, rfl, rfl, key _ _⟩

theorem configure_ppl (vertical log : Bool) (vmin vmax : ℝ) (dim : ℤ) (h : vmin < vmax) (hd : 0 < dim) (hl : log = true → 0 < vmin) (a : Axe) (ha : configure vertical log vmin vmax dim = some a) :
    0 < a.ppl ∧ a.log = log ∧ a.vertical = vertical ∧ a.dim = dim := by
  have hd' : (0 : ℝ) < dim := by exact_mod_cast hd
  unfold configure at ha
  rw [if_neg (not_lt.2 h.le)] at ha
  cases log with
  | true =>
    have h0 := hl rfl
    rw [if_pos rfl, if_neg (by rintro (h1 | h1) <;> [exact absurd h0 (not_lt.2 h1); exact absurd h1 h.ne])] at ha
    cases ha
    have hlt : logb 10 vmin < logb 10 vmax := Real.logb_lt_logb (by norm_num) h0 h
    exact ⟨div_pos hd' (by linarith), rfl, rfl, rfl⟩
  | false =>
    simp only [Bool.false_eq_true, if_false, if_neg (show vmax - vmin ≠ 0 by linarith)] at ha
    cases ha
    exact ⟨div_pos hd' (by linarith), rfl, rfl, rfl⟩

/-- **C184 (inverse, even dimension).** Converting a value to its pixel and back gives the value. -/
theorem C184_inverse (vertical log : Bool) (vmin vmax : ℝ) (dim : ℤ) (h : vmin < vmax) (hd : 0 < dim) (hp : dim % 2 = 0) (hl : log = true → 0 < vmin) (a : Axe)
    (ha : configure vertical log vmin vmax dim = some a) (v : ℝ) (hv : log = true → 0 < v) : ∃ p, valeurVersPixelf a v = some p ∧ pixelVersValeur a p = v := by
  obtain ⟨h1, h2, h3, h4⟩ := configure_ppl vertical log vmin vmax dim h hd hl a ha
  have hd2 : ((a.dim / 2 : ℤ) : ℝ) = a.dim / 2 := by
    rcases demi a.dim with h | ⟨_, h⟩
    · exact h.1
    · omega
  unfold valeurVersPixelf pixelVersValeur
  rw [hd2, h2]
  cases log with
  | true =>
    have hv0 := hv rfl
    rw [if_pos rfl, if_neg hv0.ne', if_neg (not_lt.2 hv0.le)]
    refine ⟨_, rfl, ?_⟩
    rw [if_pos rfl]
    have : ((if a.vertical = true then (a.dim : ℝ) / 2 - (a.dim / 2 + if a.vertical = true then -((logb 10 v - a.zero) * a.ppl) else (logb 10 v - a.zero) * a.ppl)
        else (a.dim / 2 + if a.vertical = true then -((logb 10 v - a.zero) * a.ppl) else (logb 10 v - a.zero) * a.ppl) - (a.dim : ℝ) / 2) / a.ppl + a.zero) = logb 10 v := by
      split
      · field_simp; ring
      · field_simp; ring
    rw [this]
    exact Real.rpow_logb (by norm_num) (by norm_num) hv0
  | false =>
    simp only [Bool.false_eq_true, if_false]
    refine ⟨_, rfl, ?_⟩
    split
    · field_simp; ring
    · field_simp; ring

/-- **C184 (inverse, odd dimension: refuted).** On a linear axis of odd dimension the conversion and its inverse disagree by exactly half a pixel, for every value. -/
theorem C184_inverse_impair_refute (vertical : Bool) (vmin vmax : ℝ) (dim : ℤ) (h : vmin < vmax) (hd : 0 < dim) (hp : dim % 2 = 1) (a : Axe)
    (ha : configure vertical false vmin vmax dim = some a) (v : ℝ) :
    ∃ p, valeurVersPixelf a v = some p ∧ pixelVersValeur a p = v + (if vertical then -1 else 1) * ((vmax - vmin) / dim) / 2 ∧ pixelVersValeur a p ≠ v := by
  have hd' : (0 : ℝ) < dim := by exact_mod_cast hd
  have hne : vmax - vmin ≠ 0 := by linarith
  have hpos : 0 < vmax - vmin := by linarith
  have hd2 : ((dim / 2 : ℤ) : ℝ) = dim / 2 - 1 / 2 := by
    rcases demi dim with ⟨_, h⟩ | h
    · omega
    · exact h.1
  unfold configure at ha
  rw [if_neg (not_lt.2 h.le)] at ha
  simp only [Bool.false_eq_true, if_false, if_neg hne] at ha
  cases ha
  simp only [valeurVersPixelf, pixelVersValeur, Bool.false_eq_true, if_false]
  have e : (if vertical = true then ((dim / 2 : ℤ) : ℝ) - (dim / 2 + if vertical = true then -((v - (vmax + vmin) / 2) * (dim / (vmax - vmin))) else (v - (vmax + vmin) / 2) * (dim / (vmax - vmin)))
      else (dim / 2 + if vertical = true then -((v - (vmax + vmin) / 2) * (dim / (vmax - vmin))) else (v - (vmax + vmin) / 2) * (dim / (vmax - vmin))) - ((dim / 2 : ℤ) : ℝ)) / (dim / (vmax - vmin)) + (vmax + vmin) / 2
      = v + (if vertical then -1 else 1) * ((vmax - vmin) / dim) / 2 := by
    rw [hd2]
    cases vertical <;> simp only [Bool.false_eq_true, if_true, if_false] <;> field_simp <;> ring
  refine ⟨_, rfl, e, ?_⟩
  rw [e]
  have : 0 < (vmax - vmin) / dim := div_pos hpos hd'
  intro h2
  cases vertical <;> simp only [Bool.false_eq_true, if_true, if_false] at h2 <;> linarith

theorem simple_pos (r : ℝ) (h : Simple r) : 0 < r := by
  obtain ⟨c, k, hc, rfl⟩ := h
  have : (0 : ℝ) < 10 ^ k := by positivity
  rcases hc with rfl | rfl | rfl | rfl <;> positivity

theorem norme_bornes (t : ℝ) (ht : 0 < t) : 1 ≤ t / (10 : ℝ) ^ ⌊logb 10 t⌋ ∧ t / (10 : ℝ) ^ ⌊logb 10 t⌋ < 10 := by
  have hp : (0 : ℝ) < 10 ^ ⌊logb 10 t⌋ := by positivity
  have h1 : (10 : ℝ) ^ (⌊logb 10 t⌋ : ℝ) ≤ t := by
    rw [← Real.le_logb_iff_rpow_le (by norm_num) ht]; exact Int.floor_le _
  have h2 : t < (10 : ℝ) ^ ((⌊logb 10 t⌋ : ℝ) + 1) := by
    rw [← Real.logb_lt_iff_lt_rpow (by norm_num) ht]; exact Int.lt_floor_add_one _
  rw [Real.rpow_add (by norm_num), Real.rpow_one, Real.rpow_intCast] at h2
  rw [Real.rpow_intCast] at h1
  exact ⟨(one_le_div hp).2 h1, (div_lt_iff₀ hp).2 (by linarith)⟩

/-- A simple number above `m 10^k` (`1 ≤ m ≤ 10`) is at least the first of 1, 2, 2.5, 5, 10 not below `m`, times `10^k`. -/
theorem simple_borne (m c : ℝ) (k j : ℤ) (hm1 : 1 ≤ m) (hc : c = 1 ∨ c = 2 ∨ c = 5 / 2 ∨ c = 5) (h : m * (10 : ℝ) ^ k ≤ c * (10 : ℝ) ^ j) :
    (if m = 1 then (1 : ℝ) else if m ≤ 2 then 2 else if m ≤ 5 / 2 then 5 / 2 else if m ≤ 5 then 5 else 10) * (10 : ℝ) ^ k ≤ c * (10 : ℝ) ^ j := by
  have hk : (0 : ℝ) < 10 ^ k := by positivity
  have hj : (0 : ℝ) < 10 ^ j := by positivity
  have hc1 : 1 ≤ c := by rcases hc with rfl | rfl | rfl | rfl <;> norm_num
  rcases lt_trichotomy j k with hjk | rfl | hjk
  · exfalso
    have : (10 : ℝ) ^ j * 10 ≤ 10 ^ k := by
      rw [show (10 : ℝ) ^ j * 10 = 10 ^ (j + 1) by rw [zpow_add_one₀ (by norm_num)]]
      exact zpow_le_zpow_right₀ (by norm_num) (by omega)
    have hc5 : c ≤ 5 := by rcases hc with rfl | rfl | rfl | rfl <;> norm_num
    nlinarith
  · have hmc : m ≤ c := le_of_mul_le_mul_right h hk
    refine mul_le_mul_of_nonneg_right ?_ hk.le
    split_ifs with h1 h2 h3 h4
    · linarith
    · rcases hc with rfl | rfl | rfl | rfl
      · exact absurd (le_antisymm hmc hm1) h1
      all_goals norm_num
    · rcases hc with rfl | rfl | rfl | rfl <;> first | linarith | norm_num
    · rcases hc with rfl | rfl | rfl | rfl <;> linarith
    · rcases hc with rfl | rfl | rfl | rfl <;> linarith
  · have : (10 : ℝ) ^ k * 10 ≤ 10 ^ j := by
      rw [show (10 : ℝ) ^ k * 10 = 10 ^ (k + 1) by rw [zpow_add_one₀ (by norm_num)]]
      exact zpow_le_zpow_right₀ (by norm_num) (by omega)
    have hle : (if m = 1 then (1 : ℝ) else if m ≤ 2 then 2 else if m ≤ 5 / 2 then 5 / 2 else if m ≤ 5 then 5 else 10) ≤ 10 := by split_ifs <;> norm_num
    nlinarith

/-- **C185.** The graduation step is the least simple number that is not below the requested minimum. -/
theorem C185_tic (t : ℝ) (ht : 0 < t) : IsLeast {r : ℝ | Simple r ∧ t ≤ r} (calculeTic t) := by
  have hp : (0 : ℝ) < 10 ^ ⌊logb 10 t⌋ := by positivity
  obtain ⟨h1, h2⟩ := norme_bornes t ht
  have ht' : t = t / (10 : ℝ) ^ ⌊logb 10 t⌋ * 10 ^ ⌊logb 10 t⌋ := by field_simp
  refine ⟨⟨?_, ?_⟩, ?_⟩
  · unfold calculeTic
    split_ifs
    · exact ⟨1, _, .inl rfl, rfl⟩
    · exact ⟨2, _, .inr (.inl rfl), rfl⟩
    · exact ⟨5 / 2, _, .inr (.inr (.inl rfl)), rfl⟩
    · exact ⟨5, _, .inr (.inr (.inr rfl)), rfl⟩
    · exact ⟨1, ⌊logb 10 t⌋ + 1, .inl rfl, by rw [zpow_add_one₀ (by norm_num)]; ring⟩
  · unfold calculeTic
    conv_lhs => rw [ht']
    refine mul_le_mul_of_nonneg_right ?_ hp.le
    split_ifs <;> linarith
  · rintro r ⟨⟨c, j, hc, rfl⟩, hr⟩
    rw [ht'] at hr
    exact simple_borne _ c _ j h1 hc hr

/-- **C185 (no more than twice the request).** -/
theorem C185_double (t : ℝ) (ht : 0 < t) : t ≤ calculeTic t ∧ calculeTic t < 2 * t := by
  refine ⟨(C185_tic t ht).1.2, ?_⟩
  have hp : (0 : ℝ) < 10 ^ ⌊logb 10 t⌋ := by positivity
  obtain ⟨h1, h2⟩ := norme_bornes t ht
  have ht' : 2 * t = 2 * (t / (10 : ℝ) ^ ⌊logb 10 t⌋) * 10 ^ ⌊logb 10 t⌋ := by field_simp
  rw [ht']
  unfold calculeTic
  refine mul_lt_mul_of_pos_right ?_ hp
  split_ifs with a b c d
  · linarith
  · have := lt_of_le_of_ne h1 (Ne.symm a); linarith
  · linarith [not_le.1 b]
  · linarith [not_le.1 c]
  · linarith [not_le.1 d]

/-- **C185 (spacing).** On a linear axis, with the step chosen for a minimal spacing of `p` pixels, two consecutive graduations are at least `p` and less than `2 p` pixels apart. -/
theorem C185_espacement (vertical : Bool) (vmin vmax : ℝ) (dim : ℤ) (h : vmin < vmax) (hd : 0 < dim) (a : Axe) (ha : configure vertical false vmin vmax dim = some a) (p : ℝ) (hp : 0 < p) (v : ℝ) :
    ∃ x y, valeurVersPixelf a v = some x ∧ valeurVersPixelf a (v + calculeTic ((vmax - vmin) / dim * p)) = some y ∧ p ≤ |y - x| ∧ |y - x| < 2 * p := by
  have hd' : (0 : ℝ) < dim := by exact_mod_cast hd
  have hpos : 0 < vmax - vmin := by linarith
  obtain ⟨h1, h2⟩ := C185_double ((vmax - vmin) / dim * p) (by positivity)
  have e1 := C184_echelle vertical false vmin vmax dim h (by simp) a ha v (by simp)
  have e2 := C184_echelle vertical false vmin vmax dim h (by simp) a ha (v + calculeTic ((vmax - vmin) / dim * p)) (by simp)
  set T := calculeTic ((vmax - vmin) / dim * p) with hT
  refine ⟨_, _, e1, e2, ?_⟩
  have hy : |(if vertical = true then (dim : ℝ) * (1 - position false vmin vmax (v + T)) else dim * position false vmin vmax (v + T)) -
      (if vertical = true then (dim : ℝ) * (1 - position false vmin vmax v) else dim * position false vmin vmax v)| = dim * T / (vmax - vmin) := by
    have hTpos : 0 < T := lt_of_lt_of_le (by positivity) h1
    have h3 : 0 < (dim : ℝ) * T / (vmax - vmin) := by positivity
    simp only [position, Bool.false_eq_true, if_false]
    cases vertical
    · simp only [Bool.false_eq_true, if_false]
      rw [show (dim : ℝ) * ((v + T - vmin) / (vmax - vmin)) - dim * ((v - vmin) / (vmax - vmin)) = dim * T / (vmax - vmin) by field_simp; ring, abs_of_pos h3]
    · simp only [if_true]
      rw [show (dim : ℝ) * (1 - (v + T - vmin) / (vmax - vmin)) - dim * (1 - (v - vmin) / (vmax - vmin)) = -(dim * T / (vmax - vmin)) by field_simp; ring, abs_neg, abs_of_pos h3]
  rw [hy]
  constructor
  · rw [le_div_iff₀ hpos]
    have : (vmax - vmin) / dim * p * dim = p * (vmax - vmin) := by field_simp
    nlinarith
  · rw [div_lt_iff₀ hpos]
    have : (vmax - vmin) / dim * p * dim = p * (vmax - vmin) := by field_simp
    nlinarith

/-- Non-vacuity: the axes from 1 to 100 over 600 pixels, linear and logarithmic, are configured. -/
example : (∃ a, configure true false 1 100 600 = some a) ∧ ∃ a, configure false true 1 100 601 = some a := by
  obtain ⟨a, h, -⟩ := configure_some true false 1 100 600 (by norm_num) (by simp)
  obtain ⟨b, h', -⟩ := configure_some false true 1 100 601 (by norm_num) (by simp)
  exact ⟨⟨a, h⟩, ⟨b, h'⟩⟩

end Verif.Axes
