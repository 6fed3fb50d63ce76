import Verif.Vue.CercleProps
import Mathlib.Analysis.SpecialFunctions.Trigonometric.Bounds
import Mathlib.Analysis.Real.Pi.Bounds

/-!
# C219: arcs of ellipses on an image (core/src/vue/image-bmp.cc:1190-1289)

Exact arithmetic instead of `float`; a division of zero by zero, the conversion of which to an integer is undefined, is `none`.
-/

namespace Verif.ArcEllipse

open Verif.Vue

open Real

/-! ## Model -/

/-- `Ellipse2`: centre and half axes, core/src/vue/image-bmp.cc:1202-1213. -/
structure Ellipse where
  xc : ℝ
  yc : ℝ
  rx : ℝ
  ry : ℝ

/-- `xy(t)`, core/src/vue/image-bmp.cc:1214-1217. -/
noncomputable def Ellipse.xy (e : Ellipse) (t : ℝ) : ℝ × ℝ := (e.xc + e.rx * cos (2 * π * t), e.yc + e.ry * sin (2 * π * t))

/-- `der(t)`, core/src/vue/image-bmp.cc:1218-1221. -/
noncomputable def Ellipse.der (e : Ellipse) (t : ℝ) : ℝ × ℝ := (-2 * π * e.rx * sin (2 * π * t), 2 * π * e.ry * cos (2 * π * t))

/-- One turn of the loop: the two weighted pixels and the increment of `t`, core/src/vue/image-bmp.cc:1235-1269. -/
noncomputable def tourArc (p d : ℝ × ℝ) : Option ((ℤ × ℤ × ℝ) × (ℤ × ℤ × ℝ) × ℝ) :=
  if |d.2| < |d.1| then
    let xi := ⌊p.1⌋
    let yf := p.2 + (xi - p.1) / d.1 * d.2
    let yi := ⌊yf⌋
    some ((xi, yi, 1 - (yf - yi)), (xi, yi + 1, yf - yi), |1 / 2 / d.1|)
  else if d.2 = 0 then none
  else
    let yi := ⌊p.2⌋
    let xf := p.1 + (yi - p.2) / d.2 * d.1
    let xi := ⌊xf⌋
    some ((xi, yi, 1 - (xf - xi)), (xi + 1, yi, xf - xi), |1 / 2 / d.2|)

/-- The loop from `t` to `t1`, at most `n` turns: the weighted pixels, core/src/vue/image-bmp.cc:1224-1271. -/
noncomputable def arc (e : Ellipse) (t1 : ℝ) : ℕ → ℝ → Option (List (ℤ × ℤ × ℝ))
  | 0, _ => some []
  | n + 1, t => if t < t1 then (tourArc (e.xy t) (e.der t)).bind (fun (r : (ℤ × ℤ × ℝ) × (ℤ × ℤ × ℝ) × ℝ) => (arc e t1 n (t + r.2.2)).map (fun (l : List (ℤ × ℤ × ℝ)) => r.1 :: r.2.1 :: l)) else some []

/-- The ellipse of `ellipse(p_0, p_1, ...)`, core/src/vue/image-bmp.cc:1273-1284: integer division (rounded towards zero) for the centre, real half axes. -/
noncomputable def ellipseBoite (p0 p1 : ℤ × ℤ) : Ellipse :=
  { xc := (((p0.1 + p1.1).tdiv 2 : ℤ) : ℝ), yc := (((p0.2 + p1.2).tdiv 2 : ℤ) : ℝ), rx := ((p1.1 : ℝ) - p0.1) / 2, ry := ((p1.2 : ℝ) - p0.2) / 2 }

/-- `ellipse(p0, p1, cd, avec_alpha, α0, α1)`, core/src/vue/image-bmp.cc:1273-1284: at most 100001 turns (`nbitr++ > 100000`). -/
noncomputable def dessineEllipse (im : Img Px) (p0 p1 : ℤ × ℤ) (c : Px) (a0 a1 : ℝ) : Option (Img Px) :=
  (arc (ellipseBoite p0 p1) (a1 / (2 * π)) 100001 (a0 / (2 * π))).bind (fun (l : List (ℤ × ℤ × ℝ)) => pointsAlpha im c l)

/-! ## Specification -/

/-- The point `(a, b)` is on the tangent at parameter `t`. -/
def Ellipse.Tangente (e : Ellipse) (t a b : ℝ) : Prop := (a - (e.xy t).1) * (e.der t).2 = (b - (e.xy t).2) * (e.der t).1

/-- The values of `t` used by the loop. -/
noncomputable def pas (e : Ellipse) (t : ℝ) : ℝ := 1 / 2 / max |(e.der t).1| |(e.der t).2|

/-- The parameter after `n` turns. -/
noncomputable def param (e : Ellipse) (t0 : ℝ) : ℕ → ℝ
  | 0 => t0
  | n + 1 => param e t0 n + pas e (param e t0 n)

/-! ## Derivative -/

theorem der_max (e : Ellipse) (t : ℝ) (hx : e.rx ≠ 0) (hy : e.ry ≠ 0) : 0 < max |(e.der t).1| |(e.der t).2| := by
  by_contra h
  have h1 : |(e.der t).1| ≤ 0 := le_trans (le_max_left _ _) (not_lt.mp h)
  have h2 : |(e.der t).2| ≤ 0 := le_trans (le_max_right _ _) (not_lt.mp h)
  have e1 := abs_eq_zero.mp (le_antisymm h1 (abs_nonneg _))
  have e2 := abs_eq_zero.mp (le_antisymm h2 (abs_nonneg _))
  simp only [Ellipse.der] at e1 e2
  have hp := pi_ne_zero
  have s0 : sin (2 * π * t) = 0 := by
    rcases mul_eq_zero.mp e1 with h | h
    · exfalso; rcases mul_eq_zero.mp h with h | h
      · rcases mul_eq_zero.mp h with h | h
        · norm_num at h
        · exact hp h
      · exact hx h
    · exact h
  have c0 : cos (2 * π * t) = 0 := by
    rcases mul_eq_zero.mp e2 with h | h
    · exfalso; rcases mul_eq_zero.mp h with h | h
      · rcases mul_eq_zero.mp h with h | h
        · norm_num at h
        · exact hp h
      · exact hy h
    · exact h
  have := sin_sq_add_cos_sq (2 * π * t)
  rw [s0, c0] at this
  norm_num at this

theorem der_le (e : Ellipse) (t : ℝ) : max |(e.der t).1| |(e.der t).2| ≤ 2 * π * max |e.rx| |e.ry| := by
  have hp := pi_pos
  apply max_le
  · simp only [Ellipse.der]
    rw [abs_mul, abs_mul, abs_mul, abs_neg, abs_two, abs_of_pos hp]
    have h1 := abs_sin_le_one (2 * π * t)
    have h2 := le_max_left |e.rx| |e.ry|
    have h3 : 0 ≤ 2 * π * |e.rx| := by positivity
    calc 2 * π * |e.rx| * |sin (2 * π * t)| ≤ 2 * π * |e.rx| * 1 := by gcongr
      _ ≤ _ := by rw [mul_one]; gcongr
  · simp only [Ellipse.der]
    rw [abs_mul, abs_mul, abs_mul, abs_two, abs_of_pos hp]
    have h1 := abs_cos_le_one (2 * π * t)
    have h2 := le_max_right |e.rx| |e.ry|
    have h3 : 0 ≤ 2 * π * |e.ry| := by positivity
    calc 2 * π * |e.ry| * |cos (2 * π * t)| ≤ 2 * π * |e.ry| * 1 := by gcongr
      _ ≤ _ := by rw [mul_one]; gcongr

theorem pas_pos (e : Ellipse) (t : ℝ) (hx : e.rx ≠ 0) (hy : e.ry ≠ 0) : 0 < pas e t := by
  unfold pas
  have := der_max e t hx hy
  positivity

theorem pas_ge (e : Ellipse) (t : ℝ) (hx : e.rx ≠ 0) (hy : e.ry ≠ 0) : 1 / (4 * π * max |e.rx| |e.ry|) ≤ pas e t := by
  unfold pas
  have h := der_max e t hx hy
  have := der_le e t
  rw [show (1 : ℝ) / (4 * π * max |e.rx| |e.ry|) = 1 / 2 / (2 * π * max |e.rx| |e.ry|) by rw [div_div]; congr 1; ring]
  gcongr

/-! ## One turn -/

/-- One turn: defined if the derivative is not zero; two neighbouring pixels, with non-negative weights of sum 1, whose barycentre is on the tangent and at a distance of less than one, in each direction, from the point of the curve. -/
theorem tour_spec (p d : ℝ × ℝ) (hd : 0 < max |d.1| |d.2|) : ∃ a b, tourArc p d = some (a, b, 1 / 2 / max |d.1| |d.2|) ∧
    0 < a.2.2 ∧ a.2.2 ≤ 1 ∧ 0 ≤ b.2.2 ∧ b.2.2 < 1 ∧ a.2.2 + b.2.2 = 1 ∧
    (b.1 = a.1 ∧ b.2.1 = a.2.1 + 1 ∨ b.1 = a.1 + 1 ∧ b.2.1 = a.2.1) ∧
    (a.2.2 * a.1 + b.2.2 * b.1 - p.1) * d.2 = (a.2.2 * a.2.1 + b.2.2 * b.2.1 - p.2) * d.1 ∧
    |a.2.2 * a.1 + b.2.2 * b.1 - p.1| < 1 ∧ |a.2.2 * a.2.1 + b.2.2 * b.2.1 - p.2| < 1 := by
  have key : ∀ x u v : ℝ, |v| ≤ |u| → u ≠ 0 → |(⌊x⌋ - x) / u * v| < 1 := by
    intro x u v h hu
    have hu' : 0 < |u| := abs_pos.mpr hu
    rw [div_mul_eq_mul_div, abs_div, abs_mul, div_lt_one hu']
    have h1 : |(⌊x⌋ : ℝ) - x| < 1 := by
      rw [abs_lt]
      have := Int.floor_le x
      have := Int.lt_floor_add_one x
      constructor <;> linarith
    rcases eq_or_lt_of_le (abs_nonneg v) with h0 | h0
    · rw [← h0, mul_zero]; exact hu'
    · calc |(⌊x⌋ : ℝ) - x| * |v| < 1 * |v| := by gcongr
        _ ≤ |u| := by rw [one_mul]; exact h
  have fl : ∀ x : ℝ, |(⌊x⌋ : ℝ) - x| < 1 := by
    intro x
    rw [abs_lt]
    have := Int.floor_le x
    have := Int.lt_floor_add_one x
    constructor <;> linarith
  unfold tourArc
  by_cases h : |d.2| < |d.1|
  · rw [if_pos h]
    simp only
    have hu : d.1 ≠ 0 := by
      intro h0; rw [h0, abs_zero] at h
      exact absurd h (not_lt.mpr (abs_nonneg _))
    have hk := key p.1 d.1 d.2 h.le hu
    generalize hyf : p.2 + (⌊p.1⌋ - p.1) / d.1 * d.2 = yf
    have f1 := Int.floor_le yf
    have f2 := Int.lt_floor_add_one yf
    refine ⟨(⌊p.1⌋, ⌊yf⌋, 1 - (yf - ⌊yf⌋)), (⌊p.1⌋, ⌊yf⌋ + 1, yf - ⌊yf⌋), by rw [max_eq_left h.le, abs_div, abs_of_pos (by norm_num : (0 : ℝ) < 1 / 2)], ?_, ?_, ?_, ?_, ?_, Or.inl ⟨rfl, rfl⟩, ?_, ?_, ?_⟩
    · simp only; linarith
    · simp only; linarith
    · simp only; linarith
    · simp only; linarith
    · simp only; ring
    · simp only
      push_cast
      rw [show (1 - (yf - ⌊yf⌋)) * (⌊p.1⌋ : ℝ) + (yf - ⌊yf⌋) * ⌊p.1⌋ - p.1 = ⌊p.1⌋ - p.1 by ring, show (1 - (yf - ⌊yf⌋)) * (⌊yf⌋ : ℝ) + (yf - ⌊yf⌋) * (⌊yf⌋ + 1) - p.2 = yf - p.2 by ring, ← hyf]
      field_simp
      ring
    · simp only
      rw [show (1 - (yf - ⌊yf⌋)) * (⌊p.1⌋ : ℝ) + (yf - ⌊yf⌋) * ⌊p.1⌋ - p.1 = ⌊p.1⌋ - p.1 by ring]
      exact fl p.1
    · simp only
      push_cast
      rw [show (1 - (yf - ⌊yf⌋)) * (⌊yf⌋ : ℝ) + (yf - ⌊yf⌋) * (⌊yf⌋ + 1) - p.2 = yf - p.2 by ring, ← hyf, add_sub_cancel_left]
      exact hk
  · rw [if_neg h]
    have hle := not_lt.mp h
    rw [max_eq_right hle] at hd
    have hu : d.2 ≠ 0 := abs_pos.mp hd
    rw [if_neg hu]
    simp only
    have hk := key p.2 d.2 d.1 hle hu
    generalize hxf : p.1 + (⌊p.2⌋ - p.2) / d.2 * d.1 = xf
    have f1 := Int.floor_le xf
    have f2 := Int.lt_floor_add_one xf
    refine ⟨(⌊xf⌋, ⌊p.2⌋, 1 - (xf - ⌊xf⌋)), (⌊xf⌋ + 1, ⌊p.2⌋, xf - ⌊xf⌋), by rw [max_eq_right hle, abs_div, abs_of_pos (by norm_num : (0 : ℝ) < 1 / 2)], ?_, ?_, ?_, ?_, ?_, Or.inr ⟨rfl, rfl⟩, ?_, ?_, ?_⟩
    · simp only; linarith
    · simp only; linarith
    · simp only; linarith
    · simp only; linarith
    · simp only; ring
    · simp only
      push_cast
      rw [show (1 - (xf - ⌊xf⌋)) * (⌊p.2⌋ : ℝ) + (xf - ⌊xf⌋) * ⌊p.2⌋ - p.2 = ⌊p.2⌋ - p.2 by ring, show (1 - (xf - ⌊xf⌋)) * (⌊xf⌋ : ℝ) + (xf - ⌊xf⌋) * (⌊xf⌋ + 1) - p.1 = xf - p.1 by ring, ← hxf]
      field_simp
      ring
    · simp only
      push_cast
      rw [show (1 - (xf - ⌊xf⌋)) * (⌊xf⌋ : ℝ) + (xf - ⌊xf⌋) * (⌊xf⌋ + 1) - p.1 = xf - p.1 by ring, ← hxf, add_sub_cancel_left]
      exact hk
    · simp only
      rw [show (1 - (xf - ⌊xf⌋)) * (⌊p.2⌋ : ℝ) + (xf - ⌊xf⌋) * ⌊p.2⌋ - p.2 = ⌊p.2⌋ - p.2 by ring]
      exact fl p.2

/-! ## The whole arc -/

theorem arc_zero (e : Ellipse) (t1 t : ℝ) : arc e t1 0 t = some [] := by simp only [arc]

theorem arc_succ (e : Ellipse) (t1 t : ℝ) (n : ℕ) (h : t < t1) :
    arc e t1 (n + 1) t = (tourArc (e.xy t) (e.der t)).bind (fun (r : (ℤ × ℤ × ℝ) × (ℤ × ℤ × ℝ) × ℝ) => (arc e t1 n (t + r.2.2)).map (fun (l : List (ℤ × ℤ × ℝ)) => r.1 :: r.2.1 :: l)) := by
  simp only [arc, if_pos h]

theorem arc_fin (e : Ellipse) (t1 t : ℝ) (n : ℕ) (h : t1 ≤ t) : arc e t1 n t = some [] := by
  cases n with
  | zero => simp only [arc]
  | succ n => simp only [arc, if_neg (not_lt.mpr h)]

theorem param_succ' (e : Ellipse) (t0 : ℝ) (n : ℕ) : param e (t0 + pas e t0) n = param e t0 (n + 1) := by
  induction n with
  | zero => rfl
  | succ n ih => rw [param, ih]; rfl

/-- **C219, pixels of an arc.** For an ellipse that is not flat the drawing is defined. The pixels come by neighbouring pairs, one pair for each value of the parameter; the weights are non-negative and of sum 1;
the barycentre of the pair is on the tangent at the point of the curve, at a distance of less than one of this point in each direction. -/
theorem C219_arc (e : Ellipse) (hx : e.rx ≠ 0) (hy : e.ry ≠ 0) (t1 : ℝ) (n : ℕ) : ∀ t0 : ℝ, ∃ l, arc e t1 n t0 = some l ∧
    (∃ m, m ≤ n ∧ l.length = 2 * m ∧ (∀ k, k < m → param e t0 k < t1) ∧ (m < n → t1 ≤ param e t0 m) ∧
      ∀ k, k < m → ∃ a b, l[2 * k]? = some a ∧ l[2 * k + 1]? = some b ∧ 0 < a.2.2 ∧ 0 ≤ b.2.2 ∧ a.2.2 + b.2.2 = 1 ∧ (b.1 = a.1 ∧ b.2.1 = a.2.1 + 1 ∨ b.1 = a.1 + 1 ∧ b.2.1 = a.2.1) ∧
        e.Tangente (param e t0 k) (a.2.2 * a.1 + b.2.2 * b.1) (a.2.2 * a.2.1 + b.2.2 * b.2.1) ∧
        |a.2.2 * a.1 + b.2.2 * b.1 - (e.xy (param e t0 k)).1| < 1 ∧ |a.2.2 * a.2.1 + b.2.2 * b.2.1 - (e.xy (param e t0 k)).2| < 1) := by
  induction n with
  | zero => intro t0; exact ⟨[], arc_zero _ _ _, 0, le_refl _, rfl, by omega, by omega, by omega⟩
  | succ n ih =>
    intro t0
    by_cases h : t0 < t1
    · obtain ⟨a, b, htour, g1, g1', g2, g2', g3, g4, g5, g6, g7⟩ := tour_spec (e.xy t0) (e.der t0) (der_max e t0 hx hy)
      obtain ⟨l, hl, m, m1, m2, m3, m4, m5⟩ := ih (t0 + pas e t0)
      refine ⟨a :: b :: l, ?_, m + 1, by omega, by simp only [List.length_cons]; omega, ?_, ?_, ?_⟩
      · rw [arc_succ _ _ _ _ h, htour]
        simp only [Option.bind_some]
        have : arc e t1 n (t0 + 1 / 2 / max |(e.der t0).1| |(e.der t0).2|) = some l := hl
        rw [this]
        rfl
      · intro k hk
        cases k with
        | zero => exact h
        | succ k => rw [← param_succ']; exact m3 k (by omega)
      · intro hm
        rw [← param_succ']; exact m4 (by omega)
      · intro k hk
        cases k with
        | zero => exact ⟨a, b, rfl, rfl, g1, g2, g3, g4, g5, g6, g7⟩
        | succ k =>
          rw [← param_succ']
          obtain ⟨a', b', r1, r2, r3⟩ := m5 k (by omega)
          refine ⟨a', b', ?_, ?_, r3⟩
          · rw [show 2 * (k + 1) = 2 * k + 1 + 1 by ring]; simpa using r1
          · rw [show 2 * (k + 1) + 1 = 2 * k + 1 + 1 + 1 by ring]; simpa using r2
    · exact ⟨[], arc_fin _ _ _ _ (not_lt.mp h), 0, by omega, rfl, by omega, fun _ => not_lt.mp h, by omega⟩

/-- Non-vacuity: the ellipse of a box whose width and height are not zero is not flat. -/
example : (ellipseBoite (0, 0) (20, 10)).rx ≠ 0 ∧ (ellipseBoite (0, 0) (20, 10)).ry ≠ 0 := by
  simp only [ellipseBoite]; norm_num

theorem param_ge (e : Ellipse) (hx : e.rx ≠ 0) (hy : e.ry ≠ 0) (t0 : ℝ) (n : ℕ) : t0 + n * (1 / (4 * π * max |e.rx| |e.ry|)) ≤ param e t0 n := by
  induction n with
  | zero => simp [param]
  | succ n ih =>
    rw [param]
    have := pas_ge e (param e t0 n) hx hy
    push_cast
    linarith

/-- **C219, the whole arc.** With half axes such that `4π max(rx, ry) (t1 - t0)` is at most 100000 (a whole ellipse with half axes up to 7957 pixels), the limit on the number of turns is not reached: the drawing is that without limit, it stops because the parameter has reached the end of the arc. -/
theorem C219_complet (e : Ellipse) (hx : e.rx ≠ 0) (hy : e.ry ≠ 0) (t0 t1 : ℝ) (h : 4 * π * max |e.rx| |e.ry| * (t1 - t0) ≤ 100000) :
    ∃ m, m ≤ 100000 ∧ t1 ≤ param e t0 m ∧ (∀ k, k < m → param e t0 k < t1) ∧ ∃ l, l.length = 2 * m ∧ ∀ n, 100001 ≤ n → arc e t1 n t0 = some l := by
  have hmax : 0 < max |e.rx| |e.ry| := lt_of_lt_of_le (abs_pos.mpr hx) (le_max_left _ _)
  have hK : 0 < 4 * π * max |e.rx| |e.ry| := by have := pi_pos; positivity
  have hfin : t1 ≤ param e t0 100000 := by
    have := param_ge e hx hy t0 100000
    have h2 : t1 - t0 ≤ 100000 * (1 / (4 * π * max |e.rx| |e.ry|)) := by
      rw [mul_one_div, le_div_iff₀ hK]; linarith
    push_cast at this
    linarith
  obtain ⟨l, hl, m, m1, m2, m3, m4, -⟩ := C219_arc e hx hy t1 100001 t0
  have hm : m ≤ 100000 := by
    by_contra hn
    exact absurd hfin (not_le.mpr (m3 100000 (by omega)))
  refine ⟨m, hm, m4 (by omega), m3, l, m2, ?_⟩
  have stab : ∀ (n k : ℕ) (t : ℝ), (∃ j, j ≤ n ∧ t1 ≤ param e t j) → arc e t1 (n + k) t = arc e t1 n t := by
    intro n
    induction n with
    | zero =>
      rintro k t ⟨j, hj, hp⟩
      have : j = 0 := by omega
      subst this
      have hp' : t1 ≤ t := hp
      rw [arc_fin _ _ _ _ hp', arc_fin _ _ _ _ hp']
    | succ n ih =>
      rintro k t ⟨j, hj, hp⟩
      by_cases ht : t < t1
      · rw [show n + 1 + k = n + k + 1 by ring, arc_succ _ _ _ _ ht, arc_succ _ _ _ _ ht]
        obtain ⟨a, b, htour, -⟩ := tour_spec (e.xy t) (e.der t) (der_max e t hx hy)
        rw [htour]
        simp only [Option.bind_some]
        have := ih k (t + pas e t) (by
          cases j with
          | zero => exact absurd ht (not_lt.mpr hp)
          | succ j => exact ⟨j, by omega, by rw [param_succ']; exact hp⟩)
        unfold pas at this
        rw [this]
      · rw [arc_fin _ _ _ _ (not_lt.mp ht), arc_fin _ _ _ _ (not_lt.mp ht)]
  intro n hn
  have := stab 100001 (n - 100001) t0 ⟨100000, by omega, hfin⟩
  rw [show 100001 + (n - 100001) = n by omega] at this
  rw [this, hl]

/-- **C219, refuted: any arc is complete.** The circle of radius 17000 (and every larger one) is cut: after the 100001 turns allowed the parameter has not reached the end. -/
theorem C219_limite_refute (e : Ellipse) (r : ℝ) (hr : 17000 ≤ r) (hx : e.rx = r) (hy : e.ry = r) : param e 0 100001 < 1 := by
  have hp := pi_gt_three
  have hr0 : 0 < r := by linarith
  have hstep : ∀ t, pas e t ≤ 1 / (3 * 2 * r) := by
    intro t
    unfold pas
    have hmax : 3 * r ≤ max |(e.der t).1| |(e.der t).2| := by
      by_contra hn
      have hlt := not_le.mp hn
      have h1 := lt_of_le_of_lt (le_max_left _ _) hlt
      have h2 := lt_of_le_of_lt (le_max_right _ _) hlt
      have q1 : (e.der t).1 ^ 2 < (3 * r) ^ 2 := by rw [← sq_abs]; gcongr
      have q2 : (e.der t).2 ^ 2 < (3 * r) ^ 2 := by rw [← sq_abs]; gcongr
      have hs : (e.der t).1 ^ 2 + (e.der t).2 ^ 2 = (2 * π * r) ^ 2 := by
        simp only [Ellipse.der, hx, hy]
        have := sin_sq_add_cos_sq (2 * π * t)
        linear_combination (2 * π * r) ^ 2 * this
      have h6 : (6 * r) ^ 2 ≤ (2 * π * r) ^ 2 := by gcongr; linarith
      nlinarith
    rw [show (1 : ℝ) / (3 * 2 * r) = 1 / 2 / (3 * r) by rw [div_div]; congr 1; ring]
    gcongr
  have hle : ∀ n : ℕ, param e 0 n ≤ n * (1 / (3 * 2 * r)) := by
    intro n
    induction n with
    | zero => simp [param]
    | succ n ih => rw [param]; have := hstep (param e 0 n); push_cast; linarith
  have h := hle 100001
  refine lt_of_le_of_lt h ?_
  push_cast
  rw [mul_one_div, div_lt_one (by positivity)]
  linarith

/-- **C219, refuted: any box has an ellipse.** Flat boxes: division of zero by zero at the first turn, for a horizontal segment; for a single point, at any turn. -/
theorem C219_plate_refute (im : Img Px) (c : Px) (x0 x1 y : ℤ) : dessineEllipse im (x0, y) (x1, y) c 0 (2 * π) = none := by
  have hp := pi_pos
  unfold dessineEllipse
  rw [zero_div, div_self (by positivity), arc_succ _ _ _ _ (by norm_num)]
  have hd : (ellipseBoite (x0, y) (x1, y)).der 0 = (0, 0) := by
    simp only [Ellipse.der, ellipseBoite]
    simp
  rw [hd]
  unfold tourArc
  simp

/-- **C219, refuted: the ellipse fills its box.** If the sum of the abscissas is odd the centre is half a pixel away from the middle: the ellipse of the box from 0 to 3 goes from -1/2 to 5/2. -/
theorem C219_centre_refute : (ellipseBoite (0, 0) (3, 3)).xc = 1 ∧ ((ellipseBoite (0, 0) (3, 3)).xy (1 / 2)).1 = -1 / 2 ∧ ((ellipseBoite (0, 0) (3, 3)).xy 0).1 = 5 / 2 := by
  have h : ((0 + 3 : ℤ)).tdiv 2 = 1 := by decide
  refine ⟨?_, ?_, ?_⟩
  · simp only [ellipseBoite, h]; norm_num
  · simp only [ellipseBoite, Ellipse.xy, h]
    rw [show 2 * π * (1 / 2) = π by ring, cos_pi]; norm_num
  · simp only [ellipseBoite, Ellipse.xy, h]
    rw [mul_zero, cos_zero]; norm_num

/-- **C219, box.** With even sums of coordinates the ellipse is the one of the box: centre in the middle, and every point inside. -/
theorem C219_boite (p0 p1 : ℤ × ℤ) (hx : 2 ∣ p0.1 + p1.1) (hy : 2 ∣ p0.2 + p1.2) (h1 : p0.1 ≤ p1.1) (h2 : p0.2 ≤ p1.2) (t : ℝ) :
    (ellipseBoite p0 p1).xc = ((p0.1 : ℝ) + p1.1) / 2 ∧ (ellipseBoite p0 p1).yc = ((p0.2 : ℝ) + p1.2) / 2 ∧
    (p0.1 : ℝ) ≤ ((ellipseBoite p0 p1).xy t).1 ∧ ((ellipseBoite p0 p1).xy t).1 ≤ p1.1 ∧ (p0.2 : ℝ) ≤ ((ellipseBoite p0 p1).xy t).2 ∧ ((ellipseBoite p0 p1).xy t).2 ≤ p1.2 := by
  have ex : (((p0.1 + p1.1).tdiv 2 : ℤ) : ℝ) = ((p0.1 : ℝ) + p1.1) / 2 := by
    obtain ⟨k, hk⟩ := hx
    rw [← Int.cast_add, hk, Int.mul_tdiv_cancel_left _ (by norm_num)]; push_cast; ring
  have ey : (((p0.2 + p1.2).tdiv 2 : ℤ) : ℝ) = ((p0.2 : ℝ) + p1.2) / 2 := by
    obtain ⟨k, hk⟩ := hy
    rw [← Int.cast_add, hk, Int.mul_tdiv_cancel_left _ (by norm_num)]; push_cast; ring
  have g1 : (p0.1 : ℝ) ≤ p1.1 := by exact_mod_cast h1
  have g2 : (p0.2 : ℝ) ≤ p1.2 := by exact_mod_cast h2
  have c1 := neg_one_le_cos (2 * π * t)
  have c2 := cos_le_one (2 * π * t)
  have s1 := neg_one_le_sin (2 * π * t)
  have s2 := sin_le_one (2 * π * t)
  simp only [ellipseBoite, Ellipse.xy, ex, ey]
  refine ⟨trivial, trivial, ?_, ?_, ?_, ?_⟩ <;> nlinarith

/-! ## Gaps -/

theorem xy_lipschitz (e : Ellipse) (t h : ℝ) (hh : 0 ≤ h) : |(e.xy (t + h)).1 - (e.xy t).1| ≤ 2 * π * |e.rx| * h ∧ |(e.xy (t + h)).2 - (e.xy t).2| ≤ 2 * π * |e.ry| * h := by
  have hp := pi_pos
  have e1 : |2 * π * (t + h) - 2 * π * t| = 2 * π * h := by
    rw [show 2 * π * (t + h) - 2 * π * t = 2 * π * h by ring, abs_of_nonneg (by positivity)]
  constructor
  · simp only [Ellipse.xy]
    rw [show e.xc + e.rx * cos (2 * π * (t + h)) - (e.xc + e.rx * cos (2 * π * t)) = e.rx * (cos (2 * π * (t + h)) - cos (2 * π * t)) by ring, abs_mul]
    have := abs_cos_sub_cos_le (2 * π * (t + h)) (2 * π * t)
    rw [e1] at this
    nlinarith [abs_nonneg e.rx]
  · simp only [Ellipse.xy]
    rw [show e.yc + e.ry * sin (2 * π * (t + h)) - (e.yc + e.ry * sin (2 * π * t)) = e.ry * (sin (2 * π * (t + h)) - sin (2 * π * t)) by ring, abs_mul]
    have := abs_sin_sub_sin_le (2 * π * (t + h)) (2 * π * t)
    rw [e1] at this
    nlinarith [abs_nonneg e.ry]

/-- **C219, no gap on a circle.** Two successive points of a circle are at a distance of less than one in each direction (at most √2/2). -/
theorem C219_continu (e : Ellipse) (r : ℝ) (hr : 0 < r) (hx : e.rx = r) (hy : e.ry = r) (t0 : ℝ) (n : ℕ) :
    |(e.xy (param e t0 (n + 1))).1 - (e.xy (param e t0 n)).1| ≤ √2 / 2 ∧ |(e.xy (param e t0 (n + 1))).2 - (e.xy (param e t0 n)).2| ≤ √2 / 2 := by
  have hp := pi_pos
  rw [param]
  generalize param e t0 n = t
  have hpas := pas_pos e t (by rw [hx]; exact hr.ne') (by rw [hy]; exact hr.ne')
  have hmax : √2 * π * r ≤ max |(e.der t).1| |(e.der t).2| := by
    by_contra hn
    have hlt := not_le.mp hn
    have h1 := lt_of_le_of_lt (le_max_left _ _) hlt
    have h2 := lt_of_le_of_lt (le_max_right _ _) hlt
    have q1 : (e.der t).1 ^ 2 < (√2 * π * r) ^ 2 := by rw [← sq_abs]; gcongr
    have q2 : (e.der t).2 ^ 2 < (√2 * π * r) ^ 2 := by rw [← sq_abs]; gcongr
    have hs : (e.der t).1 ^ 2 + (e.der t).2 ^ 2 = (2 * π * r) ^ 2 := by
      simp only [Ellipse.der, hx, hy]
      have := sin_sq_add_cos_sq (2 * π * t)
      linear_combination (2 * π * r) ^ 2 * this
    have h22 : (√2 * π * r) ^ 2 = 2 * (π * r) ^ 2 := by
      rw [mul_assoc, mul_pow, sq_sqrt (by norm_num)]
    nlinarith
  have hle : 2 * π * r * pas e t ≤ √2 / 2 := by
    unfold pas
    have hm := der_max e t (by rw [hx]; exact hr.ne') (by rw [hy]; exact hr.ne')
    rw [mul_div_assoc', div_le_iff₀ hm]
    have h2 : √2 * √2 = 2 := mul_self_sqrt (by norm_num)
    have : √2 / 2 * (√2 * π * r) ≤ √2 / 2 * max |(e.der t).1| |(e.der t).2| := by gcongr
    calc 2 * π * r * (1 / 2) = √2 * √2 / 2 * (π * r) := by rw [h2]; ring
      _ = √2 / 2 * (√2 * π * r) := by ring
      _ ≤ _ := this
  obtain ⟨g1, g2⟩ := xy_lipschitz e t (pas e t) hpas.le
  rw [hx, abs_of_pos hr] at g1
  rw [hy, abs_of_pos hr] at g2
  exact ⟨le_trans g1 hle, le_trans g2 hle⟩

/-- **C219, refuted: an ellipse has no gap.** For every length there is an ellipse whose two first points are farther from each other than that length (flat ellipse, near its tip). -/
theorem C219_trou_refute (d : ℝ) (hd : 0 < d) : ∃ e : Ellipse, 0 < e.rx ∧ 0 < e.ry ∧ d < |(e.xy (param e 0 1)).1 - (e.xy (param e 0 0)).1| := by
  have hp := pi_pos
  refine ⟨{ xc := 0, yc := 0, rx := d, ry := 1 / (2 * π) }, hd, by positivity, ?_⟩
  have hder : ({ xc := 0, yc := 0, rx := d, ry := 1 / (2 * π) } : Ellipse).der 0 = (0, 1) := by
    simp only [Ellipse.der, mul_zero, sin_zero, cos_zero, mul_one]
    ext <;> simp only
    field_simp
  have hpas : pas ({ xc := 0, yc := 0, rx := d, ry := 1 / (2 * π) } : Ellipse) 0 = 1 / 2 := by
    unfold pas
    rw [hder]
    simp
  simp only [param, hpas]
  simp only [Ellipse.xy]
  rw [show 2 * π * (0 + 1 / 2) = π by ring, cos_pi, mul_zero, cos_zero]
  rw [show (0 : ℝ) + d * -1 - (0 + d * 1) = -(2 * d) by ring, abs_neg, abs_of_pos (by linarith)]
  linarith

/-! ## Effect on the image -/

/-- **C219, image.** Drawing an arc of an ellipse that is not flat, wherever it is, is defined, keeps the dimensions of the image, and changes only pixels at a distance of less than two, in each direction, from a point of the arc. -/
theorem C219_image (im : Img Px) (hv : im.Valide) (p0 p1 : ℤ × ℤ) (hx : p0.1 ≠ p1.1) (hy : p0.2 ≠ p1.2) (c : Px) (a0 a1 : ℝ) : ∃ r, dessineEllipse im p0 p1 c a0 a1 = some r ∧ r.sx = im.sx ∧ r.sy = im.sy ∧ r.Valide ∧
    ∀ u v, r.val u v ≠ im.val u v → ∃ t, a0 / (2 * π) ≤ t ∧ t < a1 / (2 * π) ∧ |(u : ℝ) - ((ellipseBoite p0 p1).xy t).1| < 2 ∧ |(v : ℝ) - ((ellipseBoite p0 p1).xy t).2| < 2 := by
  have hx' : (ellipseBoite p0 p1).rx ≠ 0 := by
    simp only [ellipseBoite]
    have : (p1.1 : ℝ) - p0.1 ≠ 0 := by rw [sub_ne_zero]; exact_mod_cast hx.symm
    exact div_ne_zero this two_ne_zero
  have hy' : (ellipseBoite p0 p1).ry ≠ 0 := by
    simp only [ellipseBoite]
    have : (p1.2 : ℝ) - p0.2 ≠ 0 := by rw [sub_ne_zero]; exact_mod_cast hy.symm
    exact div_ne_zero this two_ne_zero
  generalize he : ellipseBoite p0 p1 = e at hx' hy' ⊢
  obtain ⟨l, hl, m, m1, m2, m3, m4, m5⟩ := C219_arc e hx' hy' (a1 / (2 * π)) 100001 (a0 / (2 * π))
  have hge : ∀ k, a0 / (2 * π) ≤ param e (a0 / (2 * π)) k := by
    intro k
    induction k with
    | zero => exact le_refl _
    | succ k ih => rw [param]; have := pas_pos e (param e (a0 / (2 * π)) k) hx' hy'; linarith
  have hp : ∀ p ∈ l, (0 ≤ p.2.2 ∧ p.2.2 ≤ 1) ∧ ∃ t, a0 / (2 * π) ≤ t ∧ t < a1 / (2 * π) ∧ |(p.1 : ℝ) - (e.xy t).1| < 2 ∧ |(p.2.1 : ℝ) - (e.xy t).2| < 2 := by
    intro p hp
    obtain ⟨i, hi, hie⟩ := List.mem_iff_getElem.mp hp
    have hi' : l[i]? = some p := by rw [List.getElem?_eq_getElem hi, hie]
    have hk : i / 2 < m := by omega
    obtain ⟨a, b, ra, rb, wa, wb, wab, hab, -, b1, b2⟩ := m5 (i / 2) hk
    rw [abs_lt] at b1 b2
    have hcas : p = a ∨ p = b := by
      rcases Nat.mod_two_eq_zero_or_one i with h | h
      · left
        rw [show 2 * (i / 2) = i by omega, hi'] at ra
        exact Option.some.inj ra
      · right
        rw [show 2 * (i / 2) + 1 = i by omega, hi'] at rb
        exact Option.some.inj rb
    refine ⟨?_, param e (a0 / (2 * π)) (i / 2), hge _, m3 _ hk, ?_⟩
    · rcases hcas with rfl | rfl <;> constructor <;> linarith
    · generalize param e (a0 / (2 * π)) (i / 2) = t at b1 b2 ⊢
      have wb' : b.2.2 = 1 - a.2.2 := by linarith
      rw [wb'] at b1 b2 wb
      rcases hab with ⟨k1, k2⟩ | ⟨k1, k2⟩
      · have k1' : (b.1 : ℝ) = a.1 := by rw [k1]
        have k2' : (b.2.1 : ℝ) = a.2.1 + 1 := by rw [k2]; push_cast; ring
        rw [k1'] at b1
        rw [k2'] at b2
        rw [show a.2.2 * (a.1 : ℝ) + (1 - a.2.2) * a.1 = a.1 by ring] at b1
        rw [show a.2.2 * (a.2.1 : ℝ) + (1 - a.2.2) * (a.2.1 + 1) = a.2.1 + 1 - a.2.2 by ring] at b2
        rcases hcas with rfl | rfl
        · rw [abs_lt, abs_lt]; refine ⟨⟨?_, ?_⟩, ?_, ?_⟩ <;> linarith
        · rw [abs_lt, abs_lt, k1', k2']; refine ⟨⟨?_, ?_⟩, ?_, ?_⟩ <;> linarith
      · have k1' : (b.1 : ℝ) = a.1 + 1 := by rw [k1]; push_cast; ring
        have k2' : (b.2.1 : ℝ) = a.2.1 := by rw [k2]
        rw [k1'] at b1
        rw [k2'] at b2
        rw [show a.2.2 * (a.1 : ℝ) + (1 - a.2.2) * (a.1 + 1) = a.1 + 1 - a.2.2 by ring] at b1
        rw [show a.2.2 * (a.2.1 : ℝ) + (1 - a.2.2) * a.2.1 = a.2.1 by ring] at b2
        rcases hcas with rfl | rfl
        · rw [abs_lt, abs_lt]; refine ⟨⟨?_, ?_⟩, ?_, ?_⟩ <;> linarith
        · rw [abs_lt, abs_lt, k1', k2']; refine ⟨⟨?_, ?_⟩, ?_, ?_⟩ <;> linarith
  obtain ⟨res, e1, r1, r2, r3, r4, -⟩ := pointsAlpha_val c l (fun p h => (hp p h).1) im hv
  refine ⟨res, by unfold dessineEllipse; rw [he, hl]; exact e1, r1, r2, r3, ?_⟩
  intro u v huv
  obtain ⟨p, hpl, rfl, rfl, -⟩ := r4 u v huv
  exact (hp p hpl).2

end Verif.ArcEllipse
