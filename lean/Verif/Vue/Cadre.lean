import Verif.Vue.DessinAa
import Verif.Vue.ImageProps
import Verif.Vue.Rect

/-!
# C226: rectangle element of a canvas (core/src/vue/canva.cc:822-846)

The two corners are given by their pixels. The colours are opaque.
-/

namespace Verif.Cadre

open Verif.Vue Verif.Rect

/-! ## Model -/

/-- One ring of the outline, core/src/vue/canva.cc:834-836 (thickness 1: line 829). -/
noncomputable def anneau (cd : Px) (x0 y0 x1 y1 : ℤ) (im : Img Px) (k : ℕ) : Option (Img Px) := rectangle im cd 1 (x0 + k) (y0 + k) (x1 - k) (y1 - k)

/-- The outline: `ep` nested rings, core/src/vue/canva.cc:834-836. -/
noncomputable def contour (cd : Px) (ep x0 y0 x1 y1 : ℤ) (im : Img Px) : Option (Img Px) := (List.range ep.toNat).foldlM (anneau cd x0 y0 x1 y1) im

/-- The `RECT` element drawn between its upper left and lower right pixels, core/src/vue/canva.cc:834-842. -/
noncomputable def rectTrie (cd cf : Px) (ep : ℤ) (contours remplir : Bool) (x0 y0 x1 y1 : ℤ) (im : Img Px) : Option (Img Px) :=
  (if contours then contour cd ep x0 y0 x1 y1 im else some im).bind fun i : Img Px =>
    if remplir ∧ x0 ≠ x1 ∧ y0 ≠ y1 then
      rectanglePlein i (x0 + (if contours then ep else 0)) (y0 + (if contours then ep else 0)) (x1 - (if contours then ep else 0)) (y1 - (if contours then ep else 0)) cf
    else some i

/-- The `RECT` element for two corners in any order, core/src/vue/canva.cc:825-827. -/
noncomputable def rectElt (cd cf : Px) (ep : ℤ) (contours remplir : Bool) (p q : ℤ × ℤ) (im : Img Px) : Option (Img Px) :=
  rectTrie cd cf ep contours remplir (englobantZ p q).tl.1 (englobantZ p q).tl.2 (brZ (englobantZ p q)).1 (brZ (englobantZ p q)).2 im

/-! ## Specification -/

/-- The pixel is in the rectangle of these two corners. -/
def Dans (p q : ℤ × ℤ) (u v : ℤ) : Prop := min p.1 q.1 ≤ u ∧ u ≤ max p.1 q.1 ∧ min p.2 q.2 ≤ v ∧ v ≤ max p.2 q.2

/-- The pixel is in the rectangle, at `e` pixels at least from each of its sides. -/
def Interieur (p q : ℤ × ℤ) (e u v : ℤ) : Prop := min p.1 q.1 + e ≤ u ∧ u ≤ max p.1 q.1 - e ∧ min p.2 q.2 + e ≤ v ∧ v ≤ max p.2 q.2 - e

/-- The pixel is in the image. -/
def DansImage (im : Img Px) (u v : ℤ) : Prop := 0 ≤ u ∧ u < im.sx ∧ 0 ≤ v ∧ v < im.sy

/-! ## Proofs -/

/-- The outline of a rectangle, single column included. -/
theorem rectangle_tout (im : Img Px) (hv : im.Valide) (c : Px) (hc : c 3 = 255#8) (x0 y0 x1 y1 : ℤ) : ∃ r, rectangle im c 1 x0 y0 x1 y1 = some r ∧ r.sx = im.sx ∧ r.sy = im.sy ∧ r.Valide ∧
    ∀ u v, r.val u v = if (0 ≤ u ∧ u < im.sx ∧ 0 ≤ v ∧ v < im.sy) ∧ (((v = y0 ∨ v = y1) ∧ min x0 x1 ≤ u ∧ u ≤ max x0 x1) ∨ ((u = x0 ∨ u = x1) ∧ min y0 y1 ≤ v ∧ v ≤ max y0 y1)) then some c else im.val u v := by
  by_cases hx : x0 = x1
  · subst hx
    obtain ⟨i1, e1, a1, b1, v1, p1⟩ := (C167_ligne_droite im hv c hc 1 le_rfl 1 (by norm_num) x0 y0 y0).1
    obtain ⟨i2, e2, a2, b2, v2, p2⟩ := (C167_ligne_droite i1 v1 c hc 1 le_rfl 1 (by norm_num) x0 y0 y1).1
    obtain ⟨i3, e3, a3, b3, v3, p3⟩ := (C167_ligne_droite i2 v2 c hc 1 le_rfl 1 (by norm_num) x0 y1 y0).1
    obtain ⟨i4, e4, a4, b4, v4, p4⟩ := (C167_ligne_droite i3 v3 c hc 1 le_rfl 1 (by norm_num) x0 y1 y1).1
    refine ⟨i4, ?_, by omega, by omega, v4, fun u v => ?_⟩
    · unfold rectangle
      rw [e1, Option.bind_some, e2, Option.bind_some, e3, Option.bind_some, e4]
    · rw [p4, p3, p2, p1, a3, a2, a1, b3, b2, b1]
      have q1 : (1 : ℤ) / 2 = 0 := by norm_num
      split_ifs <;> first | rfl | (exfalso; simp only [Nat.cast_one, one_dvd, and_true] at *; omega)
  · exact C167_rectangle im hv c hc x0 y0 x1 y1 hx

/-- The pixel is on the ring `k`. -/
def Ring (x0 y0 x1 y1 k u v : ℤ) : Prop :=
  ((v = y0 + k ∨ v = y1 - k) ∧ min (x0 + k) (x1 - k) ≤ u ∧ u ≤ max (x0 + k) (x1 - k)) ∨ ((u = x0 + k ∨ u = x1 - k) ∧ min (y0 + k) (y1 - k) ≤ v ∧ v ≤ max (y0 + k) (y1 - k))

open Classical in
theorem contour_val (c : Px) (hc : c 3 = 255#8) (x0 y0 x1 y1 : ℤ) (im : Img Px) (hv : im.Valide) (n : ℕ) : ∃ r, (List.range n).foldlM (anneau c x0 y0 x1 y1) im = some r ∧ r.sx = im.sx ∧ r.sy = im.sy ∧ r.Valide ∧
    ∀ u v, r.val u v = if DansImage im u v ∧ ∃ k : ℕ, k < n ∧ Ring x0 y0 x1 y1 k u v then some c else im.val u v := by
  induction n with
  | zero => exact ⟨im, rfl, rfl, rfl, hv, fun u v => by rw [if_neg]; rintro ⟨-, k, hk, -⟩; omega⟩
  | succ n ih =>
    obtain ⟨r, e, a, b, w, p⟩ := ih
    obtain ⟨s, f, a', b', w', p'⟩ := rectangle_tout r w c hc (x0 + n) (y0 + n) (x1 - n) (y1 - n)
    refine ⟨s, ?_, by omega, by omega, w', fun u v => ?_⟩
    · rw [List.range_succ, List.foldlM_append, e]
      simp only [List.foldlM_cons, List.foldlM_nil, Option.bind_eq_bind, Option.bind_some, anneau, f]
      rfl
    · have p2 : s.val u v = if DansImage im u v ∧ Ring x0 y0 x1 y1 n u v then some c else r.val u v := by
        rw [p', a, b]
        exact if_congr Iff.rfl rfl rfl
      rw [p2, p]
      by_cases h1 : DansImage im u v ∧ Ring x0 y0 x1 y1 n u v
      · rw [if_pos h1, if_pos ⟨h1.1, n, by omega, h1.2⟩]
      · rw [if_neg h1]
        by_cases h2 : DansImage im u v ∧ ∃ k : ℕ, k < n ∧ Ring x0 y0 x1 y1 k u v
        · obtain ⟨g, k, hk, hr⟩ := h2
          rw [if_pos ⟨g, k, hk, hr⟩, if_pos ⟨g, k, by omega, hr⟩]
        · rw [if_neg h2, if_neg]
          rintro ⟨g, k, hk, hr⟩
          by_cases hkn : k = n
          · exact h1 ⟨g, hkn ▸ hr⟩
          · exact h2 ⟨g, k, by omega, hr⟩

/-- The rings fill the frame. -/
theorem rings (x0 y0 x1 y1 u v : ℤ) (n : ℕ) (h1 : 2 * (n : ℤ) ≤ x1 - x0 + 1) (h2 : 2 * (n : ℤ) ≤ y1 - y0 + 1) : (∃ k : ℕ, k < n ∧ Ring x0 y0 x1 y1 k u v) ↔
    (x0 ≤ u ∧ u ≤ x1 ∧ y0 ≤ v ∧ v ≤ y1) ∧ ¬ (x0 + n ≤ u ∧ u ≤ x1 - n ∧ y0 + n ≤ v ∧ v ≤ y1 - n) := by
  unfold Ring
  constructor
  · rintro ⟨k, hk, h⟩
    omega
  · rintro ⟨h3, h4⟩
    obtain ⟨m, hm⟩ : ∃ m, m = min (min (u - x0) (x1 - u)) (min (v - y0) (y1 - v)) := ⟨_, rfl⟩
    refine ⟨m.toNat, by omega, ?_⟩
    have h5 : (m.toNat : ℤ) = m := Int.toNat_of_nonneg (by omega)
    rw [h5]
    omega

theorem coins (p q : ℤ × ℤ) : (englobantZ p q).tl.1 = min p.1 q.1 ∧ (englobantZ p q).tl.2 = min p.2 q.2 ∧ (brZ (englobantZ p q)).1 = max p.1 q.1 ∧ (brZ (englobantZ p q)).2 = max p.2 q.2 := by
  obtain ⟨-, -, -, h1, h2⟩ := C191_englobant p q
  rw [h1, h2]
  exact ⟨rfl, rfl, rfl, rfl⟩

open Classical in
/-- **C226 (filled and outlined rectangle).** When the frame (of thickness `ep` if the outline is drawn) leaves at least one pixel inside, the pixels of the image in the rectangle, at less than `ep` pixels from a side, take the colour of the
line if the outline is asked; the other pixels inside take the colour of filling if it is asked and if the rectangle has at least two columns and two rows; all the other pixels are unchanged. -/
theorem C226_rectangle (cd cf : Px) (hd : cd 3 = 255#8) (ep : ℤ) (hep : 0 ≤ ep) (contours remplir : Bool) (p q : ℤ × ℤ) (im : Img Px) (hv : im.Valide)
    (hx : contours = true → 2 * ep ≤ |q.1 - p.1|) (hy : contours = true → 2 * ep ≤ |q.2 - p.2|) : ∃ r, rectElt cd cf ep contours remplir p q im = some r ∧ r.sx = im.sx ∧ r.sy = im.sy ∧ r.Valide ∧
      ∀ u v, r.val u v = if DansImage im u v ∧ contours = true ∧ Dans p q u v ∧ ¬ Interieur p q ep u v then some cd
        else if DansImage im u v ∧ (remplir = true ∧ p.1 ≠ q.1 ∧ p.2 ≠ q.2) ∧ (if contours = true then Interieur p q ep u v else Dans p q u v) then some cf else im.val u v := by
  obtain ⟨c1, c2, c3, c4⟩ := coins p q
  unfold rectElt
  rw [c1, c2, c3, c4]
  unfold rectTrie
  cases contours with
  | false =>
    simp only [Bool.false_eq_true, if_false, Option.bind_some, add_zero, sub_zero, false_and, and_false]
    by_cases h : remplir = true ∧ min p.1 q.1 ≠ max p.1 q.1 ∧ min p.2 q.2 ≠ max p.2 q.2
    · rw [if_pos h]
      obtain ⟨r, e, a, b, w, g⟩ := C165_rectangle im hv (min p.1 q.1) (min p.2 q.2) (max p.1 q.1) (max p.2 q.2) cf
      refine ⟨r, e, a, b, w, fun u v => ?_⟩
      rw [g]
      refine if_congr ?_ rfl rfl
      have hp : p.1 ≠ q.1 ∧ p.2 ≠ q.2 := by omega
      have hr := h.1
      unfold DansImage Dans
      simp only [hr, hp.1, hp.2, true_and, ne_eq, not_false_eq_true, and_self]
      omega
    · rw [if_neg h]
      refine ⟨im, rfl, rfl, rfl, hv, fun u v => ?_⟩
      rw [if_neg]
      rintro ⟨-, ⟨h1, h2, h3⟩, -⟩
      exact h ⟨h1, by omega, by omega⟩
  | true =>
    have hx' := hx rfl
    have hy' := hy rfl
    have ax : |q.1 - p.1| = max p.1 q.1 - min p.1 q.1 := by rcases le_total p.1 q.1 with g | g <;> [rw [abs_of_nonneg (by omega)]; rw [abs_of_nonpos (by omega)]] <;> omega
    have ay : |q.2 - p.2| = max p.2 q.2 - min p.2 q.2 := by rcases le_total p.2 q.2 with g | g <;> [rw [abs_of_nonneg (by omega)]; rw [abs_of_nonpos (by omega)]] <;> omega
    simp only [if_true, true_and]
    obtain ⟨i, e, a, b, w, g⟩ := contour_val cd hd (min p.1 q.1) (min p.2 q.2) (max p.1 q.1) (max p.2 q.2) im hv ep.toNat
    have hn : (ep.toNat : ℤ) = ep := Int.toNat_of_nonneg hep
    have g' : ∀ u v, i.val u v = if DansImage im u v ∧ Dans p q u v ∧ ¬ Interieur p q ep u v then some cd else im.val u v := by
      intro u v
      rw [g]
      refine if_congr (and_congr Iff.rfl ?_) rfl rfl
      rw [rings _ _ _ _ _ _ _ (by omega) (by omega), hn]
      rfl
    unfold contour
    rw [e, Option.bind_some]
    by_cases h : remplir = true ∧ min p.1 q.1 ≠ max p.1 q.1 ∧ min p.2 q.2 ≠ max p.2 q.2
    · rw [if_pos h]
      obtain ⟨r, e', a', b', w', k⟩ := C165_rectangle i w (min p.1 q.1 + ep) (min p.2 q.2 + ep) (max p.1 q.1 - ep) (max p.2 q.2 - ep) cf
      refine ⟨r, e', by omega, by omega, w', fun u v => ?_⟩
      rw [k, a, b, g']
      have hp : p.1 ≠ q.1 ∧ p.2 ≠ q.2 := by omega
      by_cases hI : Interieur p q ep u v
      · have n1 : ¬ (DansImage im u v ∧ Dans p q u v ∧ ¬ Interieur p q ep u v) := fun t => t.2.2 hI
        simp only [if_neg n1]
        refine if_congr ?_ rfl rfl
        have hI' := hI
        unfold Interieur at hI'
        constructor
        · exact fun t => ⟨t.1, ⟨h.1, hp.1, hp.2⟩, hI⟩
        · exact fun t => ⟨t.1, by omega⟩
      · have n2 : ¬ (DansImage im u v ∧ (remplir = true ∧ p.1 ≠ q.1 ∧ p.2 ≠ q.2) ∧ Interieur p q ep u v) := fun t => hI t.2.2
        rw [if_neg n2, if_neg]
        rintro ⟨-, t⟩
        exact hI ⟨by omega, by omega, by omega, by omega⟩
    · rw [if_neg h]
      refine ⟨i, rfl, a, b, w, fun u v => ?_⟩
      have n2 : ¬ (DansImage im u v ∧ (remplir = true ∧ p.1 ≠ q.1 ∧ p.2 ≠ q.2) ∧ Interieur p q ep u v) := fun t => h ⟨t.2.1.1, by omega, by omega⟩
      rw [g', if_neg n2]

/-- Non-vacuity of `C226_rectangle`: outline of two pixels, filled. -/
example (cd cf : Px) (hd : cd 3 = 255#8) (im : Img Px) (hv : im.Valide) : ∃ r, rectElt cd cf 2 true true (9, 3) (2, 12) im = some r := by
  obtain ⟨r, h, -⟩ := C226_rectangle cd cf hd 2 (by norm_num) true true (9, 3) (2, 12) im hv (fun _ => by norm_num) (fun _ => by norm_num)
  exact ⟨r, h⟩

/-- **C226 (order of the corners).** The drawing does not depend on the diagonal nor on the order of the corners. -/
theorem C226_ordre (cd cf : Px) (ep : ℤ) (contours remplir : Bool) (x0 y0 x1 y1 : ℤ) (im : Img Px) : rectElt cd cf ep contours remplir (x1, y1) (x0, y0) im = rectElt cd cf ep contours remplir (x0, y0) (x1, y1) im ∧
    rectElt cd cf ep contours remplir (x0, y1) (x1, y0) im = rectElt cd cf ep contours remplir (x0, y0) (x1, y1) im := by
  obtain ⟨a1, a2, a3, a4⟩ := coins (x0, y0) (x1, y1)
  obtain ⟨b1, b2, b3, b4⟩ := coins (x1, y1) (x0, y0)
  obtain ⟨c1, c2, c3, c4⟩ := coins (x0, y1) (x1, y0)
  unfold rectElt
  rw [a1, a2, a3, a4, b1, b2, b3, b4, c1, c2, c3, c4]
  simp only
  rw [min_comm x1 x0, min_comm y1 y0, max_comm x1 x0, max_comm y1 y0]
  exact ⟨rfl, rfl⟩

/-- **C226 (thin rectangle, refuted).** A rectangle of one pixel column or of one row, filled without an outline, is not drawn at all. -/
theorem C226_mince_refute (cd cf : Px) (ep : ℤ) (p q : ℤ × ℤ) (im : Img Px) (h : p.1 = q.1 ∨ p.2 = q.2) : rectElt cd cf ep false true p q im = some im := by
  obtain ⟨c1, c2, c3, c4⟩ := coins p q
  unfold rectElt
  rw [c1, c2, c3, c4]
  unfold rectTrie
  simp only [Bool.false_eq_true, if_false, Option.bind_some]
  rw [if_neg]
  rintro ⟨-, h1, h2⟩
  omega

/-- **C226 (frame of exactly half of the width, refuted).** When the two sides of the frame just meet, the filling, whose corners are crossed, covers the inner ring of the frame: that pixel takes the colour of filling. -/
theorem C226_moitie_refute (cd cf : Px) (hd : cd 3 = 255#8) (ep : ℤ) (hep : 1 ≤ ep) (p q : ℤ × ℤ) (im : Img Px) (hv : im.Valide) (hx : |q.1 - p.1| + 1 = 2 * ep) (hy : 2 * ep ≤ |q.2 - p.2|)
    (hi : DansImage im (min p.1 q.1 + ep - 1) (min p.2 q.2 + ep)) : (Dans p q (min p.1 q.1 + ep - 1) (min p.2 q.2 + ep) ∧ ¬ Interieur p q ep (min p.1 q.1 + ep - 1) (min p.2 q.2 + ep)) ∧
      ∃ r, rectElt cd cf ep true true p q im = some r ∧ r.val (min p.1 q.1 + ep - 1) (min p.2 q.2 + ep) = some cf := by
  obtain ⟨c1, c2, c3, c4⟩ := coins p q
  have ax : |q.1 - p.1| = max p.1 q.1 - min p.1 q.1 := by rcases le_total p.1 q.1 with g | g <;> [rw [abs_of_nonneg (by omega)]; rw [abs_of_nonpos (by omega)]] <;> omega
  have ay : |q.2 - p.2| = max p.2 q.2 - min p.2 q.2 := by rcases le_total p.2 q.2 with g | g <;> [rw [abs_of_nonneg (by omega)]; rw [abs_of_nonpos (by omega)]] <;> omega
  refine ⟨⟨by unfold Dans; omega, by unfold Interieur; omega⟩, ?_⟩
  unfold rectElt
  rw [c1, c2, c3, c4]
  unfold rectTrie
  simp only [if_true, true_and]
  obtain ⟨i, e, a, b, w, g⟩ := contour_val cd hd (min p.1 q.1) (min p.2 q.2) (max p.1 q.1) (max p.2 q.2) im hv ep.toNat
  unfold contour
  rw [e, Option.bind_some, if_pos (by omega)]
  obtain ⟨r, e', a', b', w', k⟩ := C165_rectangle i w (min p.1 q.1 + ep) (min p.2 q.2 + ep) (max p.1 q.1 - ep) (max p.2 q.2 - ep) cf
  refine ⟨r, e', ?_⟩
  unfold DansImage at hi
  rw [k, if_pos]
  omega

/-- Non-vacuity of `C226_moitie_refute`. -/
example (cd cf : Px) (hd : cd 3 = 255#8) (im : Img Px) (hv : im.Valide) (h1 : im.sx = 50) (h2 : im.sy = 50) : ∃ r, rectElt cd cf 2 true true (10, 10) (13, 20) im = some r ∧ r.val 11 12 = some cf :=
  (C226_moitie_refute cd cf hd 2 (by norm_num) (10, 10) (13, 20) im hv (by norm_num) (by norm_num) (by unfold DansImage; norm_num; omega)).2

/-- **C226 (frame thicker than the rectangle, refuted).** When the thickness of the outline is greater than the width of the rectangle, the last ring is outside of the rectangle: this pixel of the image, out of the rectangle, takes the colour
of the line. -/
theorem C226_epais_refute (cd cf : Px) (hd : cd 3 = 255#8) (ep : ℤ) (p q : ℤ × ℤ) (im : Img Px) (hv : im.Valide) (hx : |q.1 - p.1| + 1 < ep) (hi : DansImage im (max p.1 q.1 - ep + 1) (min p.2 q.2 + ep - 1)) :
    ¬ Dans p q (max p.1 q.1 - ep + 1) (min p.2 q.2 + ep - 1) ∧ ∃ r, rectElt cd cf ep true false p q im = some r ∧ r.val (max p.1 q.1 - ep + 1) (min p.2 q.2 + ep - 1) = some cd := by
  obtain ⟨c1, c2, c3, c4⟩ := coins p q
  have ax : |q.1 - p.1| = max p.1 q.1 - min p.1 q.1 := by rcases le_total p.1 q.1 with g | g <;> [rw [abs_of_nonneg (by omega)]; rw [abs_of_nonpos (by omega)]] <;> omega
  refine ⟨by unfold Dans; omega, ?_⟩
  unfold rectElt
  rw [c1, c2, c3, c4]
  unfold rectTrie
  simp only [if_true, Bool.false_eq_true, false_and, if_false]
  obtain ⟨i, e, a, b, w, g⟩ := contour_val cd hd (min p.1 q.1) (min p.2 q.2) (max p.1 q.1) (max p.2 q.2) im hv ep.toNat
  unfold contour
  rw [e, Option.bind_some]
  refine ⟨i, rfl, ?_⟩
  rw [g, if_pos]
  refine ⟨hi, (ep - 1).toNat, by omega, ?_⟩
  have h5 : ((ep - 1).toNat : ℤ) = ep - 1 := Int.toNat_of_nonneg (by omega)
  rw [h5]
  unfold Ring
  omega

/-- Non-vacuity of `C226_epais_refute`: a bar of two columns with an outline of four pixels is drawn from the column 8. -/
example (cd cf : Px) (hd : cd 3 = 255#8) (im : Img Px) (hv : im.Valide) (h1 : im.sx = 50) (h2 : im.sy = 50) : ∃ r, rectElt cd cf 4 true false (10, 10) (11, 20) im = some r ∧ r.val 8 13 = some cd :=
  (C226_epais_refute cd cf hd 4 (10, 10) (11, 20) im hv (by norm_num) (by unfold DansImage; norm_num; omega)).2

end Verif.Cadre
