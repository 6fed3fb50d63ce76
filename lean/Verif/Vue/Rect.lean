import Mathlib.Data.Real.Sqrt
import Mathlib.Data.Int.Interval
import Mathlib.Order.Interval.Finset.Basic
import Mathlib.Algebra.Order.Group.MinMax
import Mathlib.Order.Interval.Set.UnorderedInterval
import Mathlib.Data.Int.Order.Basic
import Mathlib.Order.Interval.Finset.Nat
import Mathlib.Tactic.Linarith
import Mathlib.Tactic.NormNum

/-!
# C191: points and rectangles (core/include/tsd/vue/image.hpp:41-217)

Integers are unbounded and reals exact, except for the norm of a point, where the overflow of `int` is modelled.
-/

namespace Verif.Rect

/-! ## Model -/

/-- `Rect_<T>`, core/include/tsd/vue/image.hpp:134-137. -/
structure Rect (T : Type) where
  x : T
  y : T
  l : T
  h : T

/-- `tl`, core/include/tsd/vue/image.hpp:168-171. -/
def Rect.tl {T : Type} (r : Rect T) : T × T := (r.x, r.y)

/-- `br` for an integer type, core/include/tsd/vue/image.hpp:178-184. -/
def brZ (r : Rect ℤ) : ℤ × ℤ := (r.x + r.l - 1, r.y + r.h - 1)

/-- `br` for a floating point type, core/include/tsd/vue/image.hpp:178-184. -/
noncomputable def brR (r : Rect ℝ) : ℝ × ℝ := (r.x + r.l, r.y + r.h)

/-- `centre` for an integer type, core/include/tsd/vue/image.hpp:173-176 (division towards zero). -/
def centreZ (r : Rect ℤ) : ℤ × ℤ := (r.x + r.l.tdiv 2, r.y + r.h.tdiv 2)

/-- `centre` for a floating point type, core/include/tsd/vue/image.hpp:173-176. -/
noncomputable def centreR (r : Rect ℝ) : ℝ × ℝ := (r.x + r.l / 2, r.y + r.h / 2)

/-- `englobant` for an integer type, core/include/tsd/vue/image.hpp:187-193. -/
def englobantZ (p q : ℤ × ℤ) : Rect ℤ := ⟨min p.1 q.1, min p.2 q.2, |q.1 - p.1| + 1, |q.2 - p.2| + 1⟩

/-- `englobant` for a floating point type, core/include/tsd/vue/image.hpp:187-193. -/
noncomputable def englobantR (p q : ℝ × ℝ) : Rect ℝ := ⟨min p.1 q.1, min p.2 q.2, |q.1 - p.1|, |q.2 - p.2|⟩

/-- `contient`, core/include/tsd/vue/image.hpp:200-203. -/
def contient {T : Type} [LinearOrder T] [Add T] (r : Rect T) (p : T × T) : Prop :=
  min r.x (r.x + r.l) ≤ p.1 ∧ min r.y (r.y + r.h) ≤ p.2 ∧ p.1 ≤ max r.x (r.x + r.l) ∧ p.2 ≤ max r.y (r.y + r.h)

/-- `Point_<entier>::abs`, core/include/tsd/vue/image.hpp:82-85: the squares are computed on `int` (`none`: overflow). -/
noncomputable def absZ (p : ℤ × ℤ) : Option ℝ := if p.1 * p.1 < 2 ^ 31 ∧ p.2 * p.2 < 2 ^ 31 ∧ p.1 * p.1 + p.2 * p.2 < 2 ^ 31 then some (Real.sqrt ((p.1 * p.1 + p.2 * p.2 : ℤ) : ℝ)) else none

/-- `Point_<float>::abs`, core/include/tsd/vue/image.hpp:82-85. -/
noncomputable def absR (p : ℝ × ℝ) : ℝ := Real.sqrt (p.1 * p.1 + p.2 * p.2)

/-! ## Specification -/

/-- The pixels of an integer rectangle: `l` columns from `x` and `h` rows from `y`. -/
noncomputable def pixels (r : Rect ℤ) : Finset (ℤ × ℤ) := Finset.Ico r.x (r.x + r.l) ×ˢ Finset.Ico r.y (r.y + r.h)

/-! ## Proofs -/

/-- **C191 (corners).** A rectangle of at least one pixel covers exactly the pixels between its two corners, and there are `l h` of them. -/
theorem C191_coins (r : Rect ℤ) (hl : 0 ≤ r.l) (hh : 0 ≤ r.h) :
    (∀ p, p ∈ pixels r ↔ r.tl.1 ≤ p.1 ∧ p.1 ≤ (brZ r).1 ∧ r.tl.2 ≤ p.2 ∧ p.2 ≤ (brZ r).2) ∧ ((pixels r).card : ℤ) = r.l * r.h := by
  constructor
  · intro p
    simp only [pixels, Finset.mem_product, Finset.mem_Ico, Rect.tl, brZ]
    omega
  · rw [pixels, Finset.card_product, Int.card_Ico, Int.card_Ico]
    push_cast
    rw [Int.toNat_of_nonneg (by omega), Int.toNat_of_nonneg (by omega)]
    congr 1 <;> ring

/-- **C191 (bounding rectangle, integers).** The bounding rectangle of two points contains both, it is the smallest one, and the two points are among its corners. -/
theorem C191_englobant (p q : ℤ × ℤ) :
    p ∈ pixels (englobantZ p q) ∧ q ∈ pixels (englobantZ p q) ∧ (∀ r : Rect ℤ, p ∈ pixels r → q ∈ pixels r → pixels (englobantZ p q) ⊆ pixels r) ∧
    (englobantZ p q).tl = (min p.1 q.1, min p.2 q.2) ∧ brZ (englobantZ p q) = (max p.1 q.1, max p.2 q.2) := by
  have h1 : ∀ a b : ℤ, min a b + (|b - a| + 1) - 1 = max a b := by intro a b; rcases le_total a b with h | h <;> [rw [abs_of_nonneg (by omega)]; rw [abs_of_nonpos (by omega)]] <;> omega
  have e1 := h1 p.1 q.1
  have e2 := h1 p.2 q.2
  refine ⟨?_, ?_, fun r hp hq => ?_, rfl, ?_⟩
  · simp only [pixels, Finset.mem_product, Finset.mem_Ico, englobantZ]; omega
  · simp only [pixels, Finset.mem_product, Finset.mem_Ico, englobantZ]; omega
  · intro s hs
    simp only [pixels, Finset.mem_product, Finset.mem_Ico, englobantZ] at *
    omega
  · simp only [brZ, englobantZ, e1, e2]

/-- **C191 (bounding rectangle, reals).** -/
theorem C191_englobant_reel (p q : ℝ × ℝ) :
    contient (englobantR p q) p ∧ contient (englobantR p q) q ∧ (∀ r : Rect ℝ, contient r p → contient r q → ∀ s, contient (englobantR p q) s → contient r s) ∧
    (englobantR p q).tl = (min p.1 q.1, min p.2 q.2) ∧ brR (englobantR p q) = (max p.1 q.1, max p.2 q.2) := by
  have h1 : ∀ a b : ℝ, min a b + |b - a| = max a b := by
    intro a b
    rcases le_total a b with h | h
    · rw [abs_of_nonneg (by linarith), min_eq_left h, max_eq_right h]; ring
    · rw [abs_of_nonpos (by linarith), min_eq_right h, max_eq_left h]; ring
  have h2 : ∀ a b : ℝ, min (min a b) (max a b) = min a b := fun a b => min_eq_left (min_le_max)
  have h3 : ∀ a b : ℝ, max (min a b) (max a b) = max a b := fun a b => max_eq_right (min_le_max)
  simp only [contient, englobantR, Rect.tl, brR, h1, h2, h3, and_true]
  refine ⟨⟨min_le_left _ _, min_le_left _ _, le_max_left _ _, le_max_left _ _⟩, ⟨min_le_right _ _, min_le_right _ _, le_max_right _ _, le_max_right _ _⟩, ?_⟩
  rintro r ⟨a1, a2, a3, a4⟩ ⟨b1, b2, b3, b4⟩ s ⟨c1, c2, c3, c4⟩
  exact ⟨(le_min a1 b1).trans c1, (le_min a2 b2).trans c2, c3.trans (max_le a3 b3), c4.trans (max_le a4 b4)⟩

/-- **C191 (round trip).** The bounding rectangle of its two corners is the rectangle itself. -/
theorem C191_aller_retour (r : Rect ℤ) (hl : 1 ≤ r.l) (hh : 1 ≤ r.h) (s : Rect ℝ) (hl' : 0 ≤ s.l) (hh' : 0 ≤ s.h) : englobantZ r.tl (brZ r) = r ∧ englobantR s.tl (brR s) = s := by
  constructor
  · obtain ⟨x, y, l, h⟩ := r
    simp only [englobantZ, Rect.tl, brZ, Rect.mk.injEq] at *
    refine ⟨by omega, by omega, ?_, ?_⟩
    · rw [abs_of_nonneg (by omega)]; omega
    · rw [abs_of_nonneg (by omega)]; omega
  · obtain ⟨x, y, l, h⟩ := s
    simp only [englobantR, Rect.tl, brR, Rect.mk.injEq] at *
    refine ⟨min_eq_left (by linarith), min_eq_left (by linarith), ?_, ?_⟩
    · rw [add_sub_cancel_left, abs_of_nonneg hl']
    · rw [add_sub_cancel_left, abs_of_nonneg hh']

/-- **C191 (membership, reals).** A point belongs to a real rectangle when it is between its corners. -/
theorem C191_contient_reel (r : Rect ℝ) (p : ℝ × ℝ) (hl : 0 ≤ r.l) (hh : 0 ≤ r.h) : contient r p ↔ r.tl.1 ≤ p.1 ∧ p.1 ≤ (brR r).1 ∧ r.tl.2 ≤ p.2 ∧ p.2 ≤ (brR r).2 := by
  simp only [contient, Rect.tl, brR, min_eq_left (show r.x ≤ r.x + r.l by linarith), min_eq_left (show r.y ≤ r.y + r.h by linarith), max_eq_right (show r.x ≤ r.x + r.l by linarith), max_eq_right (show r.y ≤ r.y + r.h by linarith)]
  tauto

/-- **C191 (membership, any signs).** The dimensions may be negative: a point belongs to a rectangle when each of its coordinates is between the two ends, in either order; the test does not change when a rectangle is given from the opposite corner. -/
theorem C191_contient_signe (r : Rect ℝ) (p : ℝ × ℝ) :
    (contient r p ↔ p.1 ∈ Set.uIcc r.x (r.x + r.l) ∧ p.2 ∈ Set.uIcc r.y (r.y + r.h)) ∧
    (contient r p ↔ contient ⟨r.x + r.l, r.y + r.h, -r.l, -r.h⟩ p) := by
  refine ⟨?_, ?_⟩
  · simp only [contient, Set.mem_uIcc, min_le_iff, le_max_iff]
    constructor
    · rintro ⟨h1, h2, h3, h4⟩
      constructor <;> grind
    · rintro ⟨h1, h2⟩
      refine ⟨?_, ?_, ?_, ?_⟩ <;> grind
  · simp only [contient, add_neg_cancel_right, min_comm r.x, min_comm r.y, max_comm r.x, max_comm r.y]

/-- Non-vacuity: a rectangle of negative height contains the point one unit below its origin. -/
example : contient (⟨0, 0, 2, -2⟩ : Rect ℤ) (1, -1) := by simp [contient]

/-- **C191, violated for integer rectangles.** The membership test of an integer rectangle also accepts one more column and one more row: it is the one of the rectangle enlarged by one pixel. -/
theorem C191_contient_refute (r : Rect ℤ) (hl : 0 ≤ r.l) (hh : 0 ≤ r.h) :
    (∀ p, contient r p ↔ p ∈ pixels ⟨r.x, r.y, r.l + 1, r.h + 1⟩) ∧ contient r (r.x + r.l, r.y) ∧ (r.x + r.l, r.y) ∉ pixels r := by
  simp only [contient, pixels, Finset.mem_product, Finset.mem_Ico]
  refine ⟨fun p => ?_, ?_, ?_⟩ <;> omega

/-- **C191 (centre).** -/
theorem C191_centre (r : Rect ℤ) (hl : 1 ≤ r.l) (hh : 1 ≤ r.h) (s : Rect ℝ) :
    centreZ r ∈ pixels r ∧ centreR s = ((s.tl.1 + (brR s).1) / 2, (s.tl.2 + (brR s).2) / 2) := by
  constructor
  · have h1 : r.l.tdiv 2 = r.l / 2 := Int.tdiv_eq_ediv_of_nonneg (by omega)
    have h2 : r.h.tdiv 2 = r.h / 2 := Int.tdiv_eq_ediv_of_nonneg (by omega)
    simp only [centreZ, pixels, Finset.mem_product, Finset.mem_Ico, h1, h2]
    omega
  · simp only [centreR, Rect.tl, brR]
    congr 1 <;> ring

/-- **C191 (norm).** For coordinates below 32768 the norm of an integer point is the Euclidean one; for a real point it always is. -/
theorem C191_norme (p : ℤ × ℤ) (h1 : |p.1| < 2 ^ 15) (h2 : |p.2| < 2 ^ 15) : absZ p = some (absR (p.1, p.2)) := by
  have a1 : p.1 * p.1 < 2 ^ 30 := by rw [← abs_mul_abs_self]; nlinarith [abs_nonneg p.1]
  have a2 : p.2 * p.2 < 2 ^ 30 := by rw [← abs_mul_abs_self]; nlinarith [abs_nonneg p.2]
  rw [absZ, if_pos ⟨by omega, by omega, by omega⟩, absR]
  push_cast
  rfl

/-- **C191, violated for large coordinates.** From 46341 on, the norm of an integer point overflows. -/
theorem C191_norme_refute (p : ℤ × ℤ) (h : 46341 ≤ |p.1| ∨ 46341 ≤ |p.2|) : absZ p = none := by
  rw [absZ, if_neg]
  rintro ⟨h1, h2, -⟩
  rw [← abs_mul_abs_self] at h1 h2
  rcases h with h | h <;> nlinarith

example : absZ (3, -4) = some (absR (3, -4)) := by
  have := C191_norme (3, -4) (by norm_num) (by norm_num)
  simpa using this
example : englobantZ (5, 2) (1, 7) = ⟨1, 2, 5, 6⟩ := by simp [englobantZ]
example : (pixels (englobantZ (5, 2) (1, 7))).card = 30 := by
  have := (C191_coins (englobantZ (5, 2) (1, 7)) (by decide +kernel) (by decide +kernel)).2
  have e : (englobantZ (5, 2) (1, 7)) = ⟨1, 2, 5, 6⟩ := by simp [englobantZ]
  rw [e] at this ⊢
  norm_num at this
  exact_mod_cast this

end Verif.Rect
