import Verif.Vue.ImageProps
import Verif.Vue.Redim
import Verif.Vue.Rect

/-!
# C222: rendering of an image placed on a canvas (core/src/vue/canva.cc:756-821)

The integers are not bounded (in the code, the products of dimensions are computed on `int`).
-/

namespace Verif.ImageElt

open Verif.Vue (Img Px sousImage putiBorne redim)
open Verif.Rect (englobantZ)

/-! ## Model -/

/-- The variables `r` (rectangle of the canvas, in pixels) and `i` (image to draw), core/src/vue/canva.cc:759, 774. -/
structure Etat where
  x : ℤ
  y : ℤ
  l : ℤ
  h : ℤ
  i : Img Px

/-- The test of the rectangle, core/src/vue/canva.cc:779. -/
def Deborde (im : Img Px) (s : Etat) : Prop := s.x < 0 ∨ s.y < 0 ∨ s.x + s.l > im.sx ∨ s.y + s.h > im.sy

instance (im : Img Px) (s : Etat) : Decidable (Deborde im s) := by unfold Deborde; infer_instance

/-- Cut of the left part, core/src/vue/canva.cc:782-789. -/
def coupeGauche (neuf : Px) (s : Etat) : Option Etat :=
  if s.x < 0 then
    let cut := (-s.i.sx * s.x).tdiv s.l;
    (sousImage neuf s.i cut 0 (s.i.sx - cut) s.i.sy).map fun i : Img Px => { s with i := i, l := s.l + s.x, x := 0 }
  else some s

/-- Cut of the right part, core/src/vue/canva.cc:790-796. -/
def coupeDroite (neuf : Px) (sx : ℤ) (s : Etat) : Option Etat :=
  if s.x + s.l > sx then
    let cut := (s.i.sx * (s.x + s.l - sx)).tdiv s.l;
    (sousImage neuf s.i 0 0 (s.i.sx - cut) s.i.sy).map fun i : Img Px => { s with i := i, l := sx - 1 - s.x }
  else some s

/-- Cut of the upper part, core/src/vue/canva.cc:797-804. -/
def coupeHaute (neuf : Px) (s : Etat) : Option Etat :=
  if s.y < 0 then
    let cut := (-s.i.sy * s.y).tdiv s.h;
    (sousImage neuf s.i 0 cut s.i.sx (s.i.sy - cut)).map fun i : Img Px => { s with i := i, h := s.h + s.y, y := 0 }
  else some s

/-- Cut of the lower part, core/src/vue/canva.cc:805-811. -/
def coupeBasse (neuf : Px) (sy : ℤ) (s : Etat) : Option Etat :=
  if s.y + s.h > sy then
    let cut := (s.i.sy * (s.y + s.h - sy)).tdiv s.h;
    (sousImage neuf s.i 0 0 s.i.sx (s.i.sy - cut)).map fun i : Img Px => { s with i := i, h := sy - 1 - s.y }
  else some s

/-- The cuts, core/src/vue/canva.cc:779-815. -/
def coupe (neuf : Px) (im : Img Px) (s : Etat) : Option Etat :=
  if Deborde im s then
    (coupeGauche neuf s).bind fun s1 : Etat => (coupeDroite neuf im.sx s1).bind fun s2 : Etat => (coupeHaute neuf s2).bind fun s3 : Etat => coupeBasse neuf im.sy s3
  else some s

/-- `puti(rdi, src)`, core/src/vue/image-bmp.cc:811-831; the recursive call takes the first branch when `redim` gives the dimensions asked for (otherwise it would not end: `none`). -/
noncomputable def putiRect (neuf : Px) (im : Img Px) (s : Etat) : Option (Img Px) :=
  if s.l = s.i.sx ∧ s.h = s.i.sy then putiBorne neuf im 1 s.i s.x s.y
  else if s.l ≤ 0 ∨ s.h ≤ 0 then some im
  else if s.i.sx * s.i.sy = 0 then some im
  else (redim neuf s.i s.l s.h).bind fun i : Img Px => if s.l = i.sx ∧ s.h = i.sy then putiBorne neuf im 1 i s.x s.y else none

/-- Rendering of the image `img` between the pixels `p` and `q`, core/src/vue/canva.cc:756-821. -/
noncomputable def dessine (neuf : Px) (im img : Img Px) (p q : ℤ × ℤ) : Option (Img Px) :=
  let r := englobantZ p q;
  (coupe neuf im ⟨r.x, r.y, r.l, r.h, img⟩).bind (putiRect neuf im)

/-! ## Specification -/

/-- Along one axis of `sx` pixels, a rectangle of `l` pixels starting at `x` has a visible pixel. -/
def Visible (sx x l : ℤ) : Prop := 0 < x + l ∧ x < sx

/-- Number of pixels of the rectangle before the first pixel of the canvas. -/
def avant (x : ℤ) : ℤ := max (-x) 0

/-- Number of pixels of the rectangle after the last pixel of the canvas. -/
def apres (sx x l : ℤ) : ℤ := max (x + l - sx) 0

/-- Part of the axis kept: the rectangle starts at `x'`, with `l'` pixels, and shows the `n'` columns of the image starting at `d` (out of `n`). -/
structure Part where
  x' : ℤ
  l' : ℤ
  d : ℤ
  n' : ℤ

/-- `p` is a correct cut, up to one column of the image at both ends, of the `n` columns spread on the `l` pixels starting at `x`; the pixels drawn are visible. -/
def Cadre (sx x l n : ℤ) (p : Part) : Prop :=
  p.x' = max x 0 ∧ 0 ≤ p.l' ∧ p.x' + p.l' ≤ min (x + l) sx ∧ 0 ≤ p.d ∧ 0 < p.n' ∧ p.d + p.n' ≤ n ∧
  |(p.d : ℝ) - n * (avant x : ℝ) / l| < 1 ∧ |((p.d + p.n' : ℤ) : ℝ) - (n - n * (apres sx x l : ℝ) / l)| < 1

/-! ## Proofs -/

/-- The part kept by the code along one axis. -/
def partie (sx x l n : ℤ) : Part :=
  let d := n * avant x / l;
  let l1 := l - avant x;
  ⟨max x 0, if x + l > sx then sx - 1 - max x 0 else l1, d, n - d - (n - d) * apres sx x l / l1⟩

theorem partie_cadre (sx x l n : ℤ) (hl : 1 ≤ l) (hn : 0 < n) (hsx : 0 < sx) (hv : Visible sx x l) : Cadre sx x l n (partie sx x l n) := by
  obtain ⟨h1, h2⟩ := hv
  have hax : avant x = max (-x) 0 := rfl
  have hbx : apres sx x l = max (x + l - sx) 0 := rfl
  have ha0 : 0 ≤ avant x := le_max_right _ _
  have hal : avant x < l := by omega
  have hb0 : 0 ≤ apres sx x l := le_max_right _ _
  have hbl : apres sx x l < l - avant x := by omega
  set a := avant x with hadef
  set b := apres sx x l with hbdef
  have hd0 : 0 ≤ n * a / l := Int.ediv_nonneg (mul_nonneg hn.le ha0) (by omega)
  have hdn : n * a / l < n := by
    rw [Int.ediv_lt_iff_lt_mul (by omega)]
    nlinarith
  have hr1 := Int.emod_nonneg (n * a) (show l ≠ 0 by omega)
  have hr2 := Int.emod_lt_of_pos (n * a) (show 0 < l by omega)
  have hr3 := Int.mul_ediv_add_emod (n * a) l
  set d := n * a / l with hd
  have hc0 : 0 ≤ (n - d) * b / (l - a) := Int.ediv_nonneg (mul_nonneg (by omega) hb0) (by omega)
  have hcn : (n - d) * b / (l - a) < n - d := by
    rw [Int.ediv_lt_iff_lt_mul (by omega)]
    nlinarith
  have hs1 := Int.emod_nonneg ((n - d) * b) (show l - a ≠ 0 by omega)
  have hs2 := Int.emod_lt_of_pos ((n - d) * b) (show 0 < l - a by omega)
  have hs3 := Int.mul_ediv_add_emod ((n - d) * b) (l - a)
  set c := (n - d) * b / (l - a) with hc
  have hlr : (0 : ℝ) < l := by exact_mod_cast (show 0 < l by omega)
  unfold partie Cadre
  simp only [← hadef, ← hbdef, ← hd, ← hc]
  refine ⟨trivial, ?_, ?_, hd0, by omega, by omega, ?_, ?_⟩
  · split_ifs <;> omega
  · split_ifs <;> omega
  · rw [abs_lt, lt_sub_iff_add_lt, sub_lt_iff_lt_add]
    have e1 : (l : ℝ) * d ≤ n * a := by exact_mod_cast (by omega : l * d ≤ n * a)
    have e2 : (n : ℝ) * a < l * d + l := by exact_mod_cast (by omega : n * a < l * d + l)
    constructor
    · have : (n : ℝ) * a / l < d + 1 := by rw [div_lt_iff₀ hlr]; nlinarith
      linarith
    · have : (d : ℝ) ≤ n * a / l := by rw [le_div_iff₀ hlr]; nlinarith
      linarith
  · have key1 : l * c < n * b + l := by
      have k1 : (l - a) * c ≤ (n - d) * b := by omega
      have k2 : l * (n - d) < n * (l - a) + l := by nlinarith
      have hla : 0 < l - a := by omega
      by_contra hcon
      push Not at hcon
      have k3 : (l - a) * (n * b + l) ≤ (l - a) * (l * c) := mul_le_mul_of_nonneg_left hcon hla.le
      have k4 : l * ((l - a) * c) ≤ l * ((n - d) * b) := mul_le_mul_of_nonneg_left k1 (by omega)
      have k5 : l * (n - d) * b ≤ (n * (l - a) + l) * b := mul_le_mul_of_nonneg_right k2.le hb0
      have k6 : l * b < l * (l - a) := mul_lt_mul_of_pos_left hbl (by omega)
      nlinarith
    have key2 : n * b < l * c + l := by
      have k1 : (n - d) * b < (l - a) * c + (l - a) := by omega
      have k2 : n * (l - a) ≤ l * (n - d) := by nlinarith
      have hla : 0 < l - a := by omega
      by_contra hcon
      push Not at hcon
      have k3 : (l - a) * (l * c + l) ≤ (l - a) * (n * b) := mul_le_mul_of_nonneg_left hcon hla.le
      have k4 : l * ((n - d) * b) < l * ((l - a) * c + (l - a)) := mul_lt_mul_of_pos_left k1 (by omega)
      have k5 : n * (l - a) * b ≤ l * (n - d) * b := mul_le_mul_of_nonneg_right k2 hb0
      nlinarith
    have f1 : (l : ℝ) * c < n * b + l := by exact_mod_cast key1
    have f2 : (n : ℝ) * b < l * c + l := by exact_mod_cast key2
    have g1 : (c : ℝ) < n * b / l + 1 := by rw [← sub_lt_iff_lt_add, lt_div_iff₀ hlr]; nlinarith
    have g2 : (n : ℝ) * b / l < c + 1 := by rw [div_lt_iff₀ hlr]; nlinarith
    push_cast
    rw [abs_lt]
    constructor <;> linarith

/-- The part `u ↦ d + u`, `v ↦ e + v` of the image `a`, of `n` by `m` pixels. -/
def EstPartie (a b : Img Px) (d e n m : ℤ) : Prop := b.Valide ∧ b.sx = n ∧ b.sy = m ∧ ∀ u v, 0 ≤ u ∧ u < n ∧ 0 ≤ v ∧ v < m → b.val u v = a.val (d + u) (e + v)

theorem sous_partie (neuf : Px) (a b : Img Px) (d e n m : ℤ) (hb : EstPartie a b d e n m) (x y l h : ℤ) (hx : 0 ≤ x) (hy : 0 ≤ y) (hl : 0 ≤ l) (hh : 0 ≤ h) (h1 : x + l ≤ n) (h2 : y + h ≤ m) :
    ∃ r, sousImage neuf b x y l h = some r ∧ EstPartie a r (d + x) (e + y) l h := by
  obtain ⟨b1, b2, b3, b4⟩ := hb
  obtain ⟨r, er, r1, r2, -⟩ := Verif.Vue.C165_sous_image neuf b b1 x y l h
  obtain ⟨r3, r4, r5⟩ := r2 ⟨hx, hy, hl, hh, by omega, by omega⟩
  refine ⟨r, er, r1, r3, r4, fun u v huv => ?_⟩
  rw [r5, if_pos huv, b4 (x + u) (y + v) (by omega)]
  congr 1 <;> ring

theorem div_part (n a l : ℤ) (hn : 0 < n) (ha : 0 ≤ a) (hal : a < l) : 0 ≤ n * a / l ∧ n * a / l < n ∧ (n * a).tdiv l = n * a / l := by
  refine ⟨Int.ediv_nonneg (mul_nonneg hn.le ha) (by omega), ?_, Int.tdiv_eq_ediv_of_nonneg (mul_nonneg hn.le ha)⟩
  rw [Int.ediv_lt_iff_lt_mul (by omega)]
  nlinarith

/-- The state after the cuts, when the rectangle is visible. -/
theorem coupe_visible (neuf : Px) (im : Img Px) (s : Etat) (hi : s.i.Valide) (hn : 0 < s.i.sx) (hm : 0 < s.i.sy) (hl : 1 ≤ s.l) (hh : 1 ≤ s.h) (hsx : 0 < im.sx) (hsy : 0 < im.sy)
    (hvx : Visible im.sx s.x s.l) (hvy : Visible im.sy s.y s.h) : ∃ r, coupe neuf im s = some r ∧
    r.x = (partie im.sx s.x s.l s.i.sx).x' ∧ r.y = (partie im.sy s.y s.h s.i.sy).x' ∧ r.l = (partie im.sx s.x s.l s.i.sx).l' ∧ r.h = (partie im.sy s.y s.h s.i.sy).l' ∧
    EstPartie s.i r.i (partie im.sx s.x s.l s.i.sx).d (partie im.sy s.y s.h s.i.sy).d (partie im.sx s.x s.l s.i.sx).n' (partie im.sy s.y s.h s.i.sy).n' := by
  obtain ⟨x, y, l, h, i⟩ := s
  simp only at hi hn hm hl hh hvx hvy ⊢
  obtain ⟨v1, v2⟩ := hvx
  obtain ⟨w1, w2⟩ := hvy
  have hax : avant x = max (-x) 0 := rfl
  have hbx : apres im.sx x l = max (x + l - im.sx) 0 := rfl
  have hay : avant y = max (-y) 0 := rfl
  have hby : apres im.sy y h = max (y + h - im.sy) 0 := rfl
  have h0 : EstPartie i i 0 0 i.sx i.sy := ⟨hi, rfl, rfl, fun u v _ => by rw [zero_add, zero_add]⟩
  -- left
  have G : ∃ s1, coupeGauche neuf ⟨x, y, l, h, i⟩ = some s1 ∧ s1.x = max x 0 ∧ s1.y = y ∧ s1.l = l - avant x ∧ s1.h = h ∧ EstPartie i s1.i (i.sx * avant x / l) 0 (i.sx - i.sx * avant x / l) i.sy := by
    obtain ⟨d1, d2, d3⟩ := div_part i.sx (avant x) l hn (by omega) (by omega)
    unfold coupeGauche
    by_cases hx : x < 0
    · rw [if_pos hx]
      have e : -i.sx * x = i.sx * avant x := by rw [hax, max_eq_left (by omega)]; ring
      obtain ⟨r, er, hr⟩ := sous_partie neuf i i 0 0 i.sx i.sy h0 (i.sx * avant x / l) 0 (i.sx - i.sx * avant x / l) i.sy d1 le_rfl (by omega) hm.le (by omega) (by omega)
      simp only [e, d3, er, Option.map_some]
      refine ⟨_, rfl, by simp only; omega, rfl, by simp only; omega, rfl, ?_⟩
      simpa using hr
    · rw [if_neg hx]
      have e : avant x = 0 := by omega
      refine ⟨_, rfl, by simp only; omega, rfl, by simp only; omega, rfl, ?_⟩
      simp only [e, mul_zero, Int.zero_ediv, sub_zero]
      exact h0
  obtain ⟨s1, e1, g1, g2, g3, g4, g5⟩ := G
  have hnd : 0 < i.sx - i.sx * avant x / l := by have := (div_part i.sx (avant x) l hn (by omega) (by omega)).2.1; omega
  have D : ∃ s2, coupeDroite neuf im.sx s1 = some s2 ∧ s2.x = (partie im.sx x l i.sx).x' ∧ s2.y = y ∧ s2.l = (partie im.sx x l i.sx).l' ∧ s2.h = h ∧ EstPartie i s2.i (partie im.sx x l i.sx).d 0 (partie im.sx x l i.sx).n' i.sy := by
    obtain ⟨d1, d2, d3⟩ := div_part (i.sx - i.sx * avant x / l) (apres im.sx x l) (l - avant x) hnd (by omega) (by omega)
    unfold coupeDroite partie
    simp only
    rw [g1, g3, g5.2.1, g5.2.2.1]
    by_cases hx : x + l > im.sx
    · have e : max x 0 + (l - avant x) - im.sx = apres im.sx x l := by omega
      rw [if_pos (by omega), e, d3, if_pos hx]
      obtain ⟨r, er, hr⟩ := sous_partie neuf i s1.i _ _ _ _ g5 0 0 (i.sx - i.sx * avant x / l - (i.sx - i.sx * avant x / l) * apres im.sx x l / (l - avant x)) i.sy le_rfl le_rfl (by omega) hm.le (by omega) (by omega)
      rw [er, Option.map_some]
      refine ⟨_, rfl, rfl, g2, rfl, g4, ?_⟩
      simpa using hr
    · have e : apres im.sx x l = 0 := by omega
      rw [if_neg (by omega), if_neg hx]
      refine ⟨s1, rfl, g1, g2, g3, g4, ?_⟩
      rw [e, mul_zero, Int.zero_ediv, sub_zero]
      exact g5
  obtain ⟨s2, e2, f1, f2, f3, f4, f5⟩ := D
  have hcx := partie_cadre im.sx x l i.sx hl hn hsx ⟨v1, v2⟩
  obtain ⟨-, -, -, c1, c2, c3, -, -⟩ := hcx
  have H : ∃ s3, coupeHaute neuf s2 = some s3 ∧ s3.x = (partie im.sx x l i.sx).x' ∧ s3.y = max y 0 ∧ s3.l = (partie im.sx x l i.sx).l' ∧ s3.h = h - avant y ∧
      EstPartie i s3.i (partie im.sx x l i.sx).d (i.sy * avant y / h) (partie im.sx x l i.sx).n' (i.sy - i.sy * avant y / h) := by
    obtain ⟨d1, d2, d3⟩ := div_part i.sy (avant y) h hm (by omega) (by omega)
    unfold coupeHaute
    rw [f2, f4, f5.2.1, f5.2.2.1]
    by_cases hy : y < 0
    · rw [if_pos hy]
      have e : -i.sy * y = i.sy * avant y := by rw [hay, max_eq_left (by omega)]; ring
      obtain ⟨r, er, hr⟩ := sous_partie neuf i s2.i _ _ _ _ f5 0 (i.sy * avant y / h) (partie im.sx x l i.sx).n' (i.sy - i.sy * avant y / h) le_rfl d1 (by omega) (by omega) (by omega) (by omega)
      simp only [e, d3, er, Option.map_some]
      refine ⟨_, rfl, f1, by simp only; omega, f3, by simp only; omega, ?_⟩
      simpa using hr
    · rw [if_neg hy]
      have e : avant y = 0 := by omega
      refine ⟨_, rfl, f1, by omega, f3, by omega, ?_⟩
      simp only [e, mul_zero, Int.zero_ediv, sub_zero]
      exact f5
  obtain ⟨s3, e3, k1, k2, k3, k4, k5⟩ := H
  have hnd' : 0 < i.sy - i.sy * avant y / h := by have := (div_part i.sy (avant y) h hm (by omega) (by omega)).2.1; omega
  have B : ∃ s4, coupeBasse neuf im.sy s3 = some s4 ∧ s4.x = (partie im.sx x l i.sx).x' ∧ s4.y = (partie im.sy y h i.sy).x' ∧ s4.l = (partie im.sx x l i.sx).l' ∧ s4.h = (partie im.sy y h i.sy).l' ∧
      EstPartie i s4.i (partie im.sx x l i.sx).d (partie im.sy y h i.sy).d (partie im.sx x l i.sx).n' (partie im.sy y h i.sy).n' := by
    obtain ⟨d1, d2, d3⟩ := div_part (i.sy - i.sy * avant y / h) (apres im.sy y h) (h - avant y) hnd' (by omega) (by omega)
    unfold coupeBasse
    rw [k2, k4, k5.2.1, k5.2.2.1]
    have q1 : (partie im.sy y h i.sy).x' = max y 0 := rfl
    have q2 : (partie im.sy y h i.sy).l' = if y + h > im.sy then im.sy - 1 - max y 0 else h - avant y := rfl
    have q3 : (partie im.sy y h i.sy).d = i.sy * avant y / h := rfl
    have q4 : (partie im.sy y h i.sy).n' = i.sy - i.sy * avant y / h - (i.sy - i.sy * avant y / h) * apres im.sy y h / (h - avant y) := rfl
    rw [q1, q2, q3, q4]
    by_cases hy : y + h > im.sy
    · have e : max y 0 + (h - avant y) - im.sy = apres im.sy y h := by omega
      rw [if_pos (by omega), e, if_pos hy]
      obtain ⟨r, er, hr⟩ := sous_partie neuf i s3.i _ _ _ _ k5 0 0 (partie im.sx x l i.sx).n' (i.sy - i.sy * avant y / h - (i.sy - i.sy * avant y / h) * apres im.sy y h / (h - avant y)) le_rfl le_rfl (by omega) (by omega) (by omega) (by omega)
      simp only [d3, er, Option.map_some]
      refine ⟨_, rfl, k1, rfl, k3, rfl, ?_⟩
      simpa using hr
    · have e : apres im.sy y h = 0 := by omega
      rw [if_neg (by omega), if_neg hy]
      refine ⟨s3, rfl, k1, k2, k3, k4, ?_⟩
      rw [e, mul_zero, Int.zero_ediv, sub_zero]
      exact k5
  obtain ⟨s4, e4, m1, m2, m3, m4, m5⟩ := B
  by_cases hd : Deborde im ⟨x, y, l, h, i⟩
  · exact ⟨s4, by unfold coupe; rw [if_pos hd, e1, Option.bind_some, e2, Option.bind_some, e3, Option.bind_some, e4], m1, m2, m3, m4, m5⟩
  · refine ⟨_, by unfold coupe; rw [if_neg hd], ?_⟩
    unfold Deborde at hd
    simp only at hd
    have z1 : avant x = 0 := by omega
    have z2 : apres im.sx x l = 0 := by omega
    have z3 : avant y = 0 := by omega
    have z4 : apres im.sy y h = 0 := by omega
    unfold partie
    simp only [z1, z2, z3, z4, mul_zero, Int.zero_ediv, sub_zero]
    rw [if_neg (by omega), if_neg (by omega)]
    exact ⟨by omega, by omega, rfl, rfl, h0⟩

/-- **C222 (frame).** Whatever the outcome, only the pixels of the rectangle are written. -/
theorem putiRect_cadre (neuf : Px) (im : Img Px) (hv : im.Valide) (s : Etat) (hs : s.i.Valide) (hx : s.x ≤ im.sx) (hy : s.y ≤ im.sy) (r : Img Px) (h : putiRect neuf im s = some r) (u v : ℤ)
    (huv : ¬ (s.x ≤ u ∧ u < s.x + s.l ∧ s.y ≤ v ∧ v < s.y + s.h)) : r.val u v = im.val u v := by
  have put : ∀ i : Img Px, i.Valide → s.l = i.sx ∧ s.h = i.sy → putiBorne neuf im 1 i s.x s.y = some r → r.val u v = im.val u v := by
    intro i hi hd e
    obtain ⟨r', er, -, -, -, hval⟩ := Verif.Vue.C165_puti neuf im i hv hi 0 s.x s.y hx hy
    rw [e] at er
    rw [Option.some.inj er, hval, if_neg]
    rintro ⟨-, h1, h2, h3, h4⟩
    exact huv ⟨h1, by omega, h3, by omega⟩
  unfold putiRect at h
  split_ifs at h with h1 h2 h3
  · exact put s.i hs h1 h
  · rw [← Option.some.inj h]
  · rw [← Option.some.inj h]
  · push Not at h2
    by_cases hu : s.l = 1 ∨ s.h = 1
    · rw [Verif.Vue.C170_un_refute neuf s.i s.l s.h (by omega) (by omega) hu] at h
      simp at h
    · have hp : 0 < s.i.sx ∧ 0 < s.i.sy := by
        obtain ⟨p1, p2, -⟩ := hs
        constructor
        · rcases p1.lt_or_eq with q | q
          · exact q
          · exact absurd (by rw [← q, zero_mul]) h3
        · rcases p2.lt_or_eq with q | q
          · exact q
          · exact absurd (by rw [← q, mul_zero]) h3
      obtain ⟨i, ei, a, b, c, -⟩ := Verif.Vue.C170_redim neuf s.i hs hp.1 hp.2 s.l s.h (by omega) (by omega) (fun _ => 0) (fun _ => 255)
        (fun u v p _ k => ⟨Nat.zero_le _, by have := (p k).isLt; simp only; omega⟩)
      rw [ei, Option.bind_some, if_pos ⟨a.symm, b.symm⟩] at h
      exact put i c ⟨a.symm, b.symm⟩ h

/-- The rectangle of the pixels `p` and `q`. -/
def rect (img : Img Px) (p q : ℤ × ℤ) : Etat := ⟨(englobantZ p q).x, (englobantZ p q).y, (englobantZ p q).l, (englobantZ p q).h, img⟩

theorem rect_taille (p q : ℤ × ℤ) : 1 ≤ (englobantZ p q).l ∧ 1 ≤ (englobantZ p q).h := by
  unfold englobantZ
  exact ⟨by have := abs_nonneg (q.1 - p.1); simp only; omega, by have := abs_nonneg (q.2 - p.2); simp only; omega⟩

/-- **C222 (rectangle and part of the image).** When the rectangle has visible pixels, the zone drawn is inside of the canvas and of the rectangle, and shows the part of the image that falls there, up to one column (or row) at each end; if at least two columns and two rows remain, the drawing succeeds, writes nothing elsewhere and creates no new extreme value. -/
theorem C222_dessine (neuf : Px) (im img : Img Px) (hv : im.Valide) (hi : img.Valide) (hn : 0 < img.sx) (hm : 0 < img.sy) (hsx : 0 < im.sx) (hsy : 0 < im.sy) (p q : ℤ × ℤ)
    (hvx : Visible im.sx (min p.1 q.1) (|q.1 - p.1| + 1)) (hvy : Visible im.sy (min p.2 q.2) (|q.2 - p.2| + 1)) :
    ∃ a b : Part, Cadre im.sx (min p.1 q.1) (|q.1 - p.1| + 1) img.sx a ∧ Cadre im.sy (min p.2 q.2) (|q.2 - p.2| + 1) img.sy b ∧
      (∀ r, dessine neuf im img p q = some r → ∀ u v, ¬ (a.x' ≤ u ∧ u < a.x' + a.l' ∧ b.x' ≤ v ∧ v < b.x' + b.l') → r.val u v = im.val u v) ∧
      (2 ≤ a.l' → 2 ≤ b.l' → ∀ lo hi : Fin 4 → ℕ, img.Entre lo hi → ∃ r, dessine neuf im img p q = some r ∧ r.sx = im.sx ∧ r.sy = im.sy ∧ r.Valide ∧
        ∀ u v, a.x' ≤ u ∧ u < a.x' + a.l' ∧ b.x' ≤ v ∧ v < b.x' + b.l' → ∀ px, r.val u v = some px → ∀ k, lo k ≤ (px k).toNat ∧ (px k).toNat ≤ hi k) := by
  obtain ⟨t1, t2⟩ := rect_taille p q
  obtain ⟨s, es, s1, s2, s3, s4, s5, s6, s7, s8⟩ := coupe_visible neuf im (rect img p q) hi hn hm t1 t2 hsx hsy hvx hvy
  have ca := partie_cadre im.sx (min p.1 q.1) (|q.1 - p.1| + 1) img.sx t1 hn hsx hvx
  have cb := partie_cadre im.sy (min p.2 q.2) (|q.2 - p.2| + 1) img.sy t2 hm hsy hvy
  have ed : dessine neuf im img p q = putiRect neuf im s := by
    have : dessine neuf im img p q = (coupe neuf im (rect img p q)).bind (putiRect neuf im) := rfl
    rw [this, es, Option.bind_some]
  set a := partie im.sx (min p.1 q.1) (|q.1 - p.1| + 1) img.sx with ha
  set b := partie im.sy (min p.2 q.2) (|q.2 - p.2| + 1) img.sy with hb
  change s.x = a.x' at s1
  change s.y = b.x' at s2
  change s.l = a.l' at s3
  change s.h = b.l' at s4
  change s.i.sx = a.n' at s6
  change s.i.sy = b.n' at s7
  change ∀ u v, 0 ≤ u ∧ u < a.n' ∧ 0 ≤ v ∧ v < b.n' → s.i.val u v = img.val (a.d + u) (b.d + v) at s8
  have ca' := ca
  have cb' := cb
  obtain ⟨a1, a2, a3, a4, a5, a6, -, -⟩ := ca'
  obtain ⟨b1, b2, b3, b4, b5, b6, -, -⟩ := cb'
  refine ⟨a, b, ca, cb, fun r hr u v huv => ?_, fun h2 h3 lo hi' hent => ?_⟩
  · rw [ed] at hr
    refine putiRect_cadre neuf im hv s s5 (by omega) (by omega) r hr u v ?_
    rw [s1, s2, s3, s4]
    exact huv
  · have hent' : s.i.Entre lo hi' := by
      intro u v px hpx
      have hin : 0 ≤ u ∧ u < a.n' ∧ 0 ≤ v ∧ v < b.n' := by
        unfold Img.val at hpx
        by_contra hc
        rw [if_neg (by rw [s6, s7]; exact hc)] at hpx
        exact absurd hpx (by simp)
      rw [s8 u v hin] at hpx
      exact hent _ _ px hpx
    have put : ∀ i : Img Px, i.Valide → i.Entre lo hi' → s.l = i.sx ∧ s.h = i.sy → ∃ r, putiBorne neuf im 1 i s.x s.y = some r ∧ r.sx = im.sx ∧ r.sy = im.sy ∧ r.Valide ∧
        ∀ u v, a.x' ≤ u ∧ u < a.x' + a.l' ∧ b.x' ≤ v ∧ v < b.x' + b.l' → ∀ px, r.val u v = some px → ∀ k, lo k ≤ (px k).toNat ∧ (px k).toNat ≤ hi' k := by
      intro i hi he hd
      obtain ⟨r, er, r1, r2, r3, hval⟩ := Verif.Vue.C165_puti neuf im i hv hi 0 s.x s.y (by omega) (by omega)
      refine ⟨r, er, r1, r2, r3, fun u v huv px hpx => ?_⟩
      rw [hval, if_pos (by omega)] at hpx
      exact he _ _ px hpx
    rw [ed]
    unfold putiRect
    split_ifs with c1 c2 c3
    · exact put s.i s5 hent' c1
    · omega
    · exact absurd c3 (mul_pos (by omega) (by omega)).ne'
    · obtain ⟨i, ei, i1, i2, i3, i4⟩ := Verif.Vue.C170_redim neuf s.i s5 (by omega) (by omega) s.l s.h (by omega) (by omega) lo hi' hent'
      rw [ei, Option.bind_some, if_pos ⟨i1.symm, i2.symm⟩]
      exact put i i3 i4 ⟨i1.symm, i2.symm⟩

/-- **C222 (unscaled image).** An image drawn in a rectangle of its own dimensions, that exceeds the canvas neither on the right nor below, is copied pixel by pixel. -/
theorem C222_exact (neuf : Px) (im img : Img Px) (hv : im.Valide) (hi : img.Valide) (p q : ℤ × ℤ) (hl : img.sx = |q.1 - p.1| + 1) (hh : img.sy = |q.2 - p.2| + 1)
    (hsx : 0 < im.sx) (hsy : 0 < im.sy) (hvx : Visible im.sx (min p.1 q.1) img.sx) (hvy : Visible im.sy (min p.2 q.2) img.sy) (hd : min p.1 q.1 + img.sx ≤ im.sx) (hb : min p.2 q.2 + img.sy ≤ im.sy) :
    ∃ r, dessine neuf im img p q = some r ∧ r.sx = im.sx ∧ r.sy = im.sy ∧ r.Valide ∧
      ∀ u v, 0 ≤ u ∧ u < im.sx ∧ 0 ≤ v ∧ v < im.sy → r.val u v = if min p.1 q.1 ≤ u ∧ u < min p.1 q.1 + img.sx ∧ min p.2 q.2 ≤ v ∧ v < min p.2 q.2 + img.sy then img.val (u - min p.1 q.1) (v - min p.2 q.2) else im.val u v := by
  have hn : 0 < img.sx := by have := abs_nonneg (q.1 - p.1); omega
  have hm : 0 < img.sy := by have := abs_nonneg (q.2 - p.2); omega
  rw [hl] at hvx
  rw [hh] at hvy
  obtain ⟨t1, t2⟩ := rect_taille p q
  obtain ⟨s, es, s1, s2, s3, s4, s5, s6, s7, s8⟩ := coupe_visible neuf im (rect img p q) hi hn hm t1 t2 hsx hsy hvx hvy
  have ed : dessine neuf im img p q = putiRect neuf im s := by
    have : dessine neuf im img p q = (coupe neuf im (rect img p q)).bind (putiRect neuf im) := rfl
    rw [this, es, Option.bind_some]
  have ux : ∀ (sx x l : ℤ), 0 < l → x + l ≤ sx → partie sx x l l = ⟨max x 0, l - avant x, avant x, l - avant x⟩ := by
    intro sx x l h0 h1
    unfold partie
    have z : apres sx x l = 0 := by unfold apres; omega
    have hdiv : l * avant x / l = avant x := by rw [mul_comm]; exact Int.mul_ediv_cancel _ (by omega)
    simp only [z, hdiv, mul_zero, Int.zero_ediv, sub_zero]
    rw [if_neg (by omega)]
  have px : partie im.sx (min p.1 q.1) (|q.1 - p.1| + 1) img.sx = ⟨max (min p.1 q.1) 0, img.sx - avant (min p.1 q.1), avant (min p.1 q.1), img.sx - avant (min p.1 q.1)⟩ := by
    rw [← hl]; exact ux _ _ _ hn hd
  have py : partie im.sy (min p.2 q.2) (|q.2 - p.2| + 1) img.sy = ⟨max (min p.2 q.2) 0, img.sy - avant (min p.2 q.2), avant (min p.2 q.2), img.sy - avant (min p.2 q.2)⟩ := by
    rw [← hh]; exact ux _ _ _ hm hb
  change s.x = (partie im.sx (min p.1 q.1) (|q.1 - p.1| + 1) img.sx).x' at s1
  change s.y = (partie im.sy (min p.2 q.2) (|q.2 - p.2| + 1) img.sy).x' at s2
  change s.l = (partie im.sx (min p.1 q.1) (|q.1 - p.1| + 1) img.sx).l' at s3
  change s.h = (partie im.sy (min p.2 q.2) (|q.2 - p.2| + 1) img.sy).l' at s4
  change s.i.sx = (partie im.sx (min p.1 q.1) (|q.1 - p.1| + 1) img.sx).n' at s6
  change s.i.sy = (partie im.sy (min p.2 q.2) (|q.2 - p.2| + 1) img.sy).n' at s7
  change ∀ u v, 0 ≤ u ∧ u < (partie im.sx (min p.1 q.1) (|q.1 - p.1| + 1) img.sx).n' ∧ 0 ≤ v ∧ v < (partie im.sy (min p.2 q.2) (|q.2 - p.2| + 1) img.sy).n' → s.i.val u v = img.val ((partie im.sx (min p.1 q.1) (|q.1 - p.1| + 1) img.sx).d + u) ((partie im.sy (min p.2 q.2) (|q.2 - p.2| + 1) img.sy).d + v) at s8
  rw [px] at s1 s3 s6
  rw [py] at s2 s4 s7
  rw [px, py] at s8
  simp only at s1 s2 s3 s4 s6 s7 s8
  obtain ⟨w1, w2⟩ := hvx
  obtain ⟨w3, w4⟩ := hvy
  have ex : max (min p.1 q.1) 0 = min p.1 q.1 + avant (min p.1 q.1) := by unfold avant; omega
  have ey : max (min p.2 q.2) 0 = min p.2 q.2 + avant (min p.2 q.2) := by unfold avant; omega
  have ex0 : 0 ≤ avant (min p.1 q.1) := le_max_right _ _
  have ey0 : 0 ≤ avant (min p.2 q.2) := le_max_right _ _
  obtain ⟨r, er, r1, r2, r3, hval⟩ := Verif.Vue.C165_puti neuf im s.i hv s5 0 s.x s.y (by omega) (by omega)
  refine ⟨r, ?_, r1, r2, r3, fun u v huv => ?_⟩
  · rw [ed]
    unfold putiRect
    rw [if_pos ⟨by omega, by omega⟩]
    exact er
  · rw [hval]
    by_cases hin : min p.1 q.1 ≤ u ∧ u < min p.1 q.1 + img.sx ∧ min p.2 q.2 ≤ v ∧ v < min p.2 q.2 + img.sy
    · rw [if_pos (by omega), if_pos hin, s8 _ _ (by omega)]
      congr 1 <;> omega
    · rw [if_neg (by omega), if_neg hin]

/-- **C222 (last column, refuted).** As soon as the rectangle exceeds the canvas on the right, the last column of the canvas is never painted, although the image covers it. -/
theorem C222_colonne_refute (neuf : Px) (im img : Img Px) (hv : im.Valide) (hi : img.Valide) (hn : 0 < img.sx) (hm : 0 < img.sy) (hsx : 0 < im.sx) (hsy : 0 < im.sy) (p q : ℤ × ℤ)
    (hvx : Visible im.sx (min p.1 q.1) (|q.1 - p.1| + 1)) (hvy : Visible im.sy (min p.2 q.2) (|q.2 - p.2| + 1)) (hd : min p.1 q.1 + (|q.1 - p.1| + 1) > im.sx)
    (r : Img Px) (h : dessine neuf im img p q = some r) (v : ℤ) : r.val (im.sx - 1) v = im.val (im.sx - 1) v := by
  obtain ⟨t1, t2⟩ := rect_taille p q
  obtain ⟨s, es, s1, s2, s3, s4, s5, -⟩ := coupe_visible neuf im (rect img p q) hi hn hm t1 t2 hsx hsy hvx hvy
  have ed : dessine neuf im img p q = putiRect neuf im s := by
    have : dessine neuf im img p q = (coupe neuf im (rect img p q)).bind (putiRect neuf im) := rfl
    rw [this, es, Option.bind_some]
  rw [ed] at h
  change s.x = max (min p.1 q.1) 0 at s1
  change s.y = max (min p.2 q.2) 0 at s2
  change s.l = (if min p.1 q.1 + (|q.1 - p.1| + 1) > im.sx then im.sx - 1 - max (min p.1 q.1) 0 else |q.1 - p.1| + 1 - avant (min p.1 q.1)) at s3
  rw [if_pos hd] at s3
  obtain ⟨w1, w2⟩ := hvx
  obtain ⟨w3, w4⟩ := hvy
  refine putiRect_cadre neuf im hv s s5 (by omega) (by omega) r h _ v ?_
  rintro ⟨-, h2, -⟩
  omega

/-- **C222 (a single column, refuted).** If only one column of the rectangle is kept and it stands for several columns of the image, the drawing is not defined (the position in the column is 0 / 0). -/
theorem C222_etroit_refute (neuf : Px) (im img : Img Px) (hi : img.Valide) (hn : 1 < img.sx) (hm : 0 < img.sy) (hsx : 0 < im.sx) (p q : ℤ × ℤ)
    (hp : p.1 = q.1) (hx : 0 ≤ p.1 ∧ p.1 < im.sx) (hy : 0 ≤ min p.2 q.2 ∧ max p.2 q.2 < im.sy) : dessine neuf im img p q = none := by
  obtain ⟨t1, t2⟩ := rect_taille p q
  have e1 : (englobantZ p q).x = p.1 := by unfold englobantZ; simp only; omega
  have e2 : (englobantZ p q).l = 1 := by unfold englobantZ; simp only; rw [hp]; simp
  have e3 : (englobantZ p q).y = min p.2 q.2 := rfl
  have e4 : (englobantZ p q).y + (englobantZ p q).h = max p.2 q.2 + 1 := by
    unfold englobantZ
    simp only
    rcases le_total p.2 q.2 with h | h
    · rw [abs_of_nonneg (by omega)]; omega
    · rw [abs_of_nonpos (by omega)]; omega
  unfold dessine
  simp only
  unfold coupe
  rw [if_neg (by unfold Deborde; simp only; omega), Option.bind_some]
  unfold putiRect
  simp only
  rw [if_neg (by omega), if_neg (by omega), if_neg (mul_pos (by omega) hm).ne', Verif.Vue.C170_un_refute neuf img _ _ t1 t2 (Or.inl e2)]
  rfl

/-- An image of 4 by 3 pixels placed at `(-2, 1)` in a canvas of 5 by 6 pixels: the hypotheses of `C222_exact` are met. -/
example : Visible 5 (min (-2) 1) 4 ∧ Visible 6 (min 1 3) 3 ∧ (4 : ℤ) = |1 - (-2)| + 1 ∧ (3 : ℤ) = |3 - 1| + 1 ∧ min (-2) 1 + 4 ≤ (5 : ℤ) ∧ min 1 3 + 3 ≤ (6 : ℤ) := by
  unfold Visible
  decide

/-- An image of 8 columns shown on 16 pixels from -5: the first two columns are cut. -/
example : (partie 20 (-5) 16 8).d = 2 ∧ (partie 20 (-5) 16 8).n' = 6 ∧ (partie 20 (-5) 16 8).l' = 11 ∧ (partie 8 (-5) 16 8).l' = 7 := by decide +kernel

end Verif.ImageElt
