/-
C167: drawing of points, lines and rectangles on an image (core/src/vue/image-bmp.cc).
-/
import Verif.Vue.ImageProps
import Verif.Vue.Couleur
import Verif.Vue.Unites
import Mathlib.Analysis.SpecialFunctions.Pow.Real

namespace Verif.Vue
open Verif.Fourier (arrondi)

/-! ## Model (exact arithmetic; the conversion of a `float` outside of the range of the target type is undefined: `none`) -/

/-- `bgra`: four bytes, the last one is the opacity, core/src/vue/image-bmp.cc:20-23. -/
abbrev Px := Fin 4 → BitVec 8

open Classical in
/-- `ov.bgra[k] = α * c.bgra[k] + (1 - α) * ov.bgra[k]`, core/src/vue/image-bmp.cc:347-348, 995-996, 1028-1029, 1038-1039, 1140-1141. -/
noncomputable def mele (α : ℝ) (c ov : Px) : Option Px :=
  if ∀ k, -1 < α * (c k).toNat + (1 - α) * (ov k).toNat ∧ α * (c k).toNat + (1 - α) * (ov k).toNat < 256 then
    some fun k => BitVec.ofNat 8 ⌊max 0 (α * (c k).toNat + (1 - α) * (ov k).toNat)⌋₊ else none

/-- Writing one pixel, core/src/vue/image-bmp.cc:659-662. -/
def pose (im : Img Px) (x y : ℤ) (p : Px) : Option (Img Px) := (ecritSegment im.bitmap (y * im.sx + x) [p]).map fun b : List Px => ⟨im.sx, im.sy, b⟩

/-- Reading one pixel, core/src/vue/image-bmp.cc:664-669. -/
def lit (im : Img Px) (x y : ℤ) : Option Px := if 0 ≤ y * im.sx + x then im.bitmap[(y * im.sx + x).toNat]? else none

/-- `point(p, c, α)`, core/src/vue/image-bmp.cc:1021-1041. -/
noncomputable def pointAlpha (im : Img Px) (x y : ℤ) (c : Px) (α : ℝ) : Option (Img Px) :=
  if 0 ≤ x ∧ 0 ≤ y ∧ x < im.sx ∧ y < im.sy then (lit im x y).bind fun ov : Px => (mele α c ov).bind fun p : Px => pose im x y p else some im

/-- `point(p, c)`, core/src/vue/image-bmp.cc:985-999. -/
noncomputable def point (im : Img Px) (x y : ℤ) (c : Px) : Option (Img Px) :=
  if 0 ≤ x ∧ 0 ≤ y ∧ x < im.sx ∧ y < im.sy then (if c 3 = 255#8 then pose im x y c else pointAlpha im x y c ((c 3).toNat / 255)) else some im

/-- `pta(x, y, a)`, core/src/vue/image-bmp.cc:337-349: the square root of a negative number is not a number, its conversion is undefined. -/
noncomputable def pta (im : Img Px) (cd : Px) (x y : ℤ) (a : ℝ) : Option (Img Px) :=
  if x < 0 ∨ y < 0 ∨ x ≥ im.sx ∨ y ≥ im.sy then some im
  else if a < 0 then none else pointAlpha im x y cd (√a * (cd 3).toNat / 255)

/-- The positions of `x` for `x = a; x <= b; x += inc`. -/
def pas (a b : ℤ) (inc : ℕ) : List ℤ := (List.range ((b - a) / inc + 1).toNat).map fun k : ℕ => a + k * inc

/-- The offsets `k = -ep/2; k <= (ep-1)/2; k++` (divisions towards zero). -/
def decalages (ep : ℤ) : List ℤ := pas ((-ep).tdiv 2) ((ep - 1).tdiv 2) 1

/-- The points of a vertical line, core/src/vue/image-bmp.cc:952-963. -/
def ptsVerticale (im : Img Px) (ep x y0 y1 : ℤ) (inc : ℕ) : List (ℤ × ℤ) :=
  (pas (max 0 (min y0 y1)) (min (im.sy - 1) (max y0 y1)) inc).flatMap fun y : ℤ => (decalages ep).map fun k : ℤ => (x + k, y)

/-- The points of a horizontal line, core/src/vue/image-bmp.cc:964-974. -/
def ptsHorizontale (im : Img Px) (ep y x0 x1 : ℤ) (inc : ℕ) : List (ℤ × ℤ) :=
  (pas (max 0 (min x0 x1)) (min (im.sx - 1) (max x0 x1)) inc).flatMap fun x : ℤ => (decalages ep).map fun k : ℤ => (x, y + k)

/-- A list of points with the drawing colour. -/
noncomputable def points (im : Img Px) (cd : Px) (l : List (ℤ × ℤ)) : Option (Img Px) := l.foldlM (fun (i : Img Px) (p : ℤ × ℤ) => point i p.1 p.2 cd) im

/-- `fpart(x)`, core/src/vue/image-bmp.cc:68-74. -/
noncomputable def fpart (x : ℝ) : ℝ := if 0 < x then x - tronc x else x - (tronc x + 1)
  where
    /-- `(entier) x`: towards zero. -/
    tronc (x : ℝ) : ℤ := if 0 ≤ x then ⌊x⌋ else ⌈x⌉

/-- The main loop of `ligne_aa_int`, core/src/vue/image-bmp.cc:570-590 (before the exchange of the axes). -/
noncomputable def aaBoucle (p : ℝ) (inc : ℕ) (fin : ℤ) : ℕ → ℤ → ℝ → List (ℤ × ℤ × ℝ)
  | 0, _, _ => []
  | n + 1, x, y => if x ≤ fin then (x, fpart.tronc y, 1 - fpart y) :: (x, fpart.tronc y + 1, fpart y) :: aaBoucle p inc fin n (x + inc) (y + p * inc) else []

/-- The points and weights of `ligne_aa_int` for `x0 ≤ x1` and a slope of at most 1, core/src/vue/image-bmp.cc:506-590 (before the exchange of the axes). -/
noncomputable def aaPoints (x0 y0 x1 y1 : ℝ) (inc : ℕ) : List (ℤ × ℤ × ℝ) :=
  let p := if x1 - x0 = 0 then 1 else (y1 - y0) / (x1 - x0);
  let a := arrondi x0;
  let ya := y0 + p * (a - x0);
  let ga := 1 - fpart (x0 + 1 / 2);
  let b := arrondi x1;
  let yb := y1 + p * (b - x1);
  let gb := fpart (x1 + 1 / 2);
  [(a, fpart.tronc ya, (1 - fpart ya) * ga), (a, fpart.tronc ya + 1, fpart ya * ga), (b, fpart.tronc yb, (1 - fpart yb) * gb), (b, fpart.tronc yb + 1, fpart yb * gb)] ++
    aaBoucle p inc (b - 1) (b - a).toNat (a + 1) (ya + p)

/-- The exchanges of `ligne_aa_int`, core/src/vue/image-bmp.cc:494-504, 527-536: the points and weights, for any ends. -/
noncomputable def aaTous (x0 y0 x1 y1 : ℝ) (inc : ℕ) : List (ℤ × ℤ × ℝ) :=
  if |y1 - y0| > |x1 - x0| then ((if y0 > y1 then aaPoints y1 x1 y0 x0 inc else aaPoints y0 x0 y1 x1 inc).map fun c : ℤ × ℤ × ℝ => (c.2.1, c.1, c.2.2))
  else if x0 > x1 then aaPoints x1 y1 x0 y0 inc else aaPoints x0 y0 x1 y1 inc

/-- `ligne_aa_int(x0, y0, x1, y1, style)`, core/src/vue/image-bmp.cc:487-592. -/
noncomputable def ligneAaInt (im : Img Px) (cd : Px) (x0 y0 x1 y1 : ℝ) (inc : ℕ) : Option (Img Px) :=
  (aaTous x0 y0 x1 y1 inc).foldlM (fun (i : Img Px) (c : ℤ × ℤ × ℝ) => pta i cd c.1 c.2.1 c.2.2) im

/-- `ligne(p0, p1, style)`, core/src/vue/image-bmp.cc:950-978; `inc` is 3 for a dotted line, 1 otherwise. -/
noncomputable def ligne (im : Img Px) (cd : Px) (ep x0 y0 x1 y1 : ℤ) (inc : ℕ) : Option (Img Px) :=
  if x0 = x1 then points im cd (ptsVerticale im ep x0 y0 y1 inc)
  else if y0 = y1 then points im cd (ptsHorizontale im ep y0 x0 x1 inc)
  else (decalages ep).foldlM (fun (i : Img Px) (k : ℤ) => ligneAaInt i cd x0 (y0 + k) x1 (y1 + k) inc) im

/-- `rectangle(p0, p1)`, core/src/vue/image-bmp.cc:1152-1158. -/
noncomputable def rectangle (im : Img Px) (cd : Px) (ep x0 y0 x1 y1 : ℤ) : Option (Img Px) :=
  (ligne im cd ep x0 y0 x1 y0 1).bind fun i1 : Img Px => (ligne i1 cd ep x0 y0 x0 y1 1).bind fun i2 : Img Px => (ligne i2 cd ep x1 y1 x1 y0 1).bind fun i3 : Img Px => ligne i3 cd ep x1 y1 x0 y1 1

/-- `est_dans_rdi(p)`, core/src/vue/image-bmp.cc:980-983. -/
def dansRdi (im : Img Px) (x y : ℝ) : Prop := 0 ≤ x ∧ 0 ≤ y ∧ x < im.sx ∧ y < im.sy

open Classical in
/-- `restreint_segment_rdi`, core/src/vue/image-bmp.cc:423-459: whether the line is skipped and otherwise its ends; `inter` stands for `intersecte_ligne_rdi` (core/src/vue/image-bmp.cc:358-420), which always returns the side `-1`. -/
noncomputable def restreint (im : Img Px) (inter : ℝ × ℝ → ℝ × ℝ → ℝ × ℝ) (p0 p1 : ℝ × ℝ) : Option ((ℝ × ℝ) × (ℝ × ℝ)) :=
    let i0 := dansRdi im p0.1 p0.2;
    let i1 := dansRdi im p1.1 p1.2;
    if i0 ∧ i1 then some (p0, p1)
    else
      let q0 := if ¬ i0 then inter p0 p1 else p0;
      let q1 := if ¬ i1 then inter p1 q0 else p1;
      if q0.1 = -1 ∨ q1.1 = -1 then none
      else if ¬ i0 ∧ ¬ i1 then none
      else some (q0, q1)

/-! ## Points -/

theorem pose_val (im : Img Px) (hv : im.Valide) (x y : ℤ) (p : Px) (h : 0 ≤ x ∧ 0 ≤ y ∧ x < im.sx ∧ y < im.sy) : ∃ r, pose im x y p = some r ∧ r.sx = im.sx ∧ r.sy = im.sy ∧ r.Valide ∧
    ∀ u v, r.val u v = if u = x ∧ v = y then some p else im.val u v := by
  obtain ⟨b, e, hb, hval⟩ := ecrit_val im hv x y [p] h.1 (by simpa using h.2.2.1) h.2.1 h.2.2.2
  refine ⟨⟨im.sx, im.sy, b⟩, by unfold pose; rw [e]; rfl, rfl, rfl, hb, fun u v => ?_⟩
  rw [hval u v]
  by_cases hc : u = x ∧ v = y
  · obtain ⟨rfl, rfl⟩ := hc
    rw [if_pos ⟨rfl, le_rfl, by simp⟩, if_pos ⟨rfl, rfl⟩]
    simp
  · rw [if_neg hc, if_neg]
    rintro ⟨h1, h2, h3⟩
    simp at h3
    exact hc ⟨by omega, h1⟩

theorem lit_val (im : Img Px) (x y : ℤ) (hv : im.Valide) (h : 0 ≤ x ∧ 0 ≤ y ∧ x < im.sx ∧ y < im.sy) : lit im x y = im.val x y := by
  unfold lit Img.val
  have := mul_nonneg h.2.1 hv.1
  rw [if_pos (by omega : 0 ≤ y * im.sx + x), if_pos ⟨h.1, h.2.2.1, h.2.1, h.2.2.2⟩]

/-- With a weight between 0 and 1 the mix is defined, and each byte is between those of the two colours. -/
theorem mele_borne (α : ℝ) (c ov : Px) (h0 : 0 ≤ α) (h1 : α ≤ 1) : ∃ p, mele α c ov = some p ∧ ∀ k, min (c k).toNat (ov k).toNat ≤ (p k).toNat ∧ (p k).toNat ≤ max (c k).toNat (ov k).toNat := by
  have hv : ∀ k, ((min (c k).toNat (ov k).toNat : ℕ) : ℝ) ≤ α * (c k).toNat + (1 - α) * (ov k).toNat ∧ α * (c k).toNat + (1 - α) * (ov k).toNat ≤ ((max (c k).toNat (ov k).toNat : ℕ) : ℝ) := by
    intro k
    rcases le_total (c k).toNat (ov k).toNat with h | h
    · rw [min_eq_left h, max_eq_right h]
      have h' : ((c k).toNat : ℝ) ≤ (ov k).toNat := by exact_mod_cast h
      constructor <;> nlinarith
    · rw [min_eq_right h, max_eq_left h]
      have h' : ((ov k).toNat : ℝ) ≤ (c k).toNat := by exact_mod_cast h
      constructor <;> nlinarith
  have hM : ∀ k, max (c k).toNat (ov k).toNat < 256 := by
    intro k
    have := (c k).isLt
    have := (ov k).isLt
    omega
  unfold mele
  rw [if_pos]
  · refine ⟨_, rfl, fun k => ?_⟩
    obtain ⟨a1, a2⟩ := hv k
    have hm := hM k
    generalize α * (c k).toNat + (1 - α) * (ov k).toNat = v at *
    generalize min (c k).toNat (ov k).toNat = m at *
    generalize max (c k).toNat (ov k).toNat = M at *
    have hv0 : 0 ≤ v := (Nat.cast_nonneg m).trans a1
    have f1 : m ≤ ⌊v⌋₊ := Nat.le_floor a1
    have f2 : ⌊v⌋₊ ≤ M := by
      have := Nat.floor_mono a2
      rwa [Nat.floor_natCast] at this
    rw [max_eq_right hv0, BitVec.toNat_ofNat, Nat.mod_eq_of_lt (by omega)]
    exact ⟨f1, f2⟩
  · intro k
    obtain ⟨a1, a2⟩ := hv k
    have hm : ((max (c k).toNat (ov k).toNat : ℕ) : ℝ) < 256 := by exact_mod_cast hM k
    have h00 : (0 : ℝ) ≤ ((min (c k).toNat (ov k).toNat : ℕ) : ℝ) := Nat.cast_nonneg _
    constructor <;> linarith

/-- **C167 (blended point).** With a weight between 0 and 1, only the designated pixel changes (nothing outside of the image), and each of its bytes stays between the old one and that of the colour. -/
theorem C167_point_alpha (im : Img Px) (hv : im.Valide) (x y : ℤ) (c : Px) (α : ℝ) (h0 : 0 ≤ α) (h1 : α ≤ 1) : ∃ r, pointAlpha im x y c α = some r ∧ r.sx = im.sx ∧ r.sy = im.sy ∧ r.Valide ∧
    (∀ u v, ¬ (u = x ∧ v = y) → r.val u v = im.val u v) ∧ ∀ ov, im.val x y = some ov → ∃ p, r.val x y = some p ∧ ∀ k, min (c k).toNat (ov k).toNat ≤ (p k).toNat ∧ (p k).toNat ≤ max (c k).toNat (ov k).toNat := by
  unfold pointAlpha
  by_cases hin : 0 ≤ x ∧ 0 ≤ y ∧ x < im.sx ∧ y < im.sy
  · rw [if_pos hin, lit_val im x y hv hin]
    obtain ⟨ov, ho⟩ := val_dedans im hv x y ⟨hin.1, hin.2.2.1, hin.2.1, hin.2.2.2⟩
    obtain ⟨p, hp, hpb⟩ := mele_borne α c ov h0 h1
    obtain ⟨r, e, r1, r2, r3, r4⟩ := pose_val im hv x y p hin
    rw [ho, Option.bind_some, hp, Option.bind_some]
    refine ⟨r, e, r1, r2, r3, fun u v h => by rw [r4, if_neg h], fun ov' h' => ⟨p, by rw [r4, if_pos ⟨rfl, rfl⟩], ?_⟩⟩
    rw [← Option.some.inj h']
    exact hpb
  · rw [if_neg hin]
    refine ⟨im, rfl, rfl, rfl, hv, fun _ _ _ => rfl, fun ov h => ?_⟩
    unfold Img.val at h
    rw [if_neg (by tauto)] at h
    exact absurd h (by simp)

/-- **C167 (opaque point).** The designated pixel takes the colour if it is inside of the image; the others are unchanged. -/
theorem C167_point (im : Img Px) (hv : im.Valide) (x y : ℤ) (c : Px) (hc : c 3 = 255#8) : ∃ r, point im x y c = some r ∧ r.sx = im.sx ∧ r.sy = im.sy ∧ r.Valide ∧
    ∀ u v, r.val u v = if (0 ≤ u ∧ u < im.sx ∧ 0 ≤ v ∧ v < im.sy) ∧ u = x ∧ v = y then some c else im.val u v := by
  unfold point
  by_cases hin : 0 ≤ x ∧ 0 ≤ y ∧ x < im.sx ∧ y < im.sy
  · rw [if_pos hin, if_pos hc]
    obtain ⟨r, e, r1, r2, r3, r4⟩ := pose_val im hv x y c hin
    refine ⟨r, e, r1, r2, r3, fun u v => ?_⟩
    rw [r4]
    by_cases h : u = x ∧ v = y
    · rw [if_pos h, if_pos ⟨by omega, h⟩]
    · rw [if_neg h, if_neg (by tauto)]
  · rw [if_neg hin]
    refine ⟨im, rfl, rfl, rfl, hv, fun u v => ?_⟩
    rw [if_neg]
    rintro ⟨h1, rfl, rfl⟩
    exact hin ⟨h1.1, h1.2.2.1, h1.2.1, h1.2.2.2⟩

/-- Opaque points: exactly those of the list that are inside. -/
theorem points_val (im : Img Px) (hv : im.Valide) (c : Px) (hc : c 3 = 255#8) (l : List (ℤ × ℤ)) : ∃ r, points im c l = some r ∧ r.sx = im.sx ∧ r.sy = im.sy ∧ r.Valide ∧
    ∀ u v, r.val u v = if (0 ≤ u ∧ u < im.sx ∧ 0 ≤ v ∧ v < im.sy) ∧ (u, v) ∈ l then some c else im.val u v := by
  induction l generalizing im with
  | nil => exact ⟨im, rfl, rfl, rfl, hv, fun u v => by simp⟩
  | cons p l ih =>
    obtain ⟨r1, e1, a1, b1, v1, p1⟩ := C167_point im hv p.1 p.2 c hc
    obtain ⟨r2, e2, a2, b2, v2, p2⟩ := ih r1 v1
    refine ⟨r2, ?_, a2.trans a1, b2.trans b1, v2, fun u v => ?_⟩
    · unfold points at e2 ⊢
      rw [List.foldlM_cons, e1]
      exact e2
    · rw [p2, p1, a1, b1]
      by_cases hin : 0 ≤ u ∧ u < im.sx ∧ 0 ≤ v ∧ v < im.sy
      · by_cases hl : (u, v) ∈ l
        · rw [if_pos ⟨hin, hl⟩, if_pos ⟨hin, List.mem_cons_of_mem _ hl⟩]
        · rw [if_neg (by tauto)]
          by_cases hp : u = p.1 ∧ v = p.2
          · rw [if_pos ⟨hin, hp⟩, if_pos ⟨hin, List.mem_cons.2 (Or.inl (Prod.ext hp.1 hp.2))⟩]
          · rw [if_neg (by tauto), if_neg]
            rintro ⟨-, h⟩
            rcases List.mem_cons.1 h with h | h
            · exact hp ⟨congrArg Prod.fst h, congrArg Prod.snd h⟩
            · exact hl h
      · rw [if_neg (by tauto), if_neg (by tauto), if_neg (by tauto)]

theorem mem_pas (a b : ℤ) (inc : ℕ) (hinc : 0 < inc) (x : ℤ) : x ∈ pas a b inc ↔ a ≤ x ∧ x ≤ b ∧ (inc : ℤ) ∣ x - a := by
  have hi : (0 : ℤ) < inc := by exact_mod_cast hinc
  unfold pas
  rw [List.mem_map]
  constructor
  · rintro ⟨k, hk, rfl⟩
    have hk := List.mem_range.1 hk
    have h1 : (k : ℤ) ≤ (b - a) / inc := by omega
    have h2 : (k : ℤ) * inc ≤ b - a := (Int.le_ediv_iff_mul_le hi).1 h1
    have h3 : (0 : ℤ) ≤ k * inc := by positivity
    refine ⟨by omega, by omega, ⟨k, by ring⟩⟩
  · rintro ⟨h1, h2, ⟨q, hq⟩⟩
    have hq0 : 0 ≤ q := by
      by_contra h
      have : (inc : ℤ) * q < 0 := mul_neg_of_pos_of_neg hi (by omega)
      omega
    refine ⟨q.toNat, ?_, by rw [Int.toNat_of_nonneg hq0, mul_comm]; omega⟩
    have : q ≤ (b - a) / inc := (Int.le_ediv_iff_mul_le hi).2 (by rw [mul_comm]; omega)
    rw [List.mem_range]
    omega

/-- The thickness: `ep` consecutive offsets around 0. -/
theorem mem_decalages (ep : ℤ) (hep : 1 ≤ ep) (k : ℤ) : k ∈ decalages ep ↔ -(ep / 2) ≤ k ∧ k ≤ (ep - 1) / 2 := by
  have h1 : (-ep).tdiv 2 = -(ep / 2) := by rw [Int.neg_tdiv, Int.tdiv_eq_ediv_of_nonneg (by omega)]
  have h2 : (ep - 1).tdiv 2 = (ep - 1) / 2 := Int.tdiv_eq_ediv_of_nonneg (by omega)
  unfold decalages
  rw [mem_pas _ _ 1 (by norm_num), h1, h2]
  simp

/-- **C167 (horizontal and vertical lines).** In an opaque colour, with thickness `ep ≥ 1`, a vertical line colours the pixels of the image in the `ep` columns around it between the two ordinates, one row out of `inc`; and the same
for a horizontal line. The other pixels are unchanged. -/
theorem C167_ligne_droite (im : Img Px) (hv : im.Valide) (c : Px) (hc : c 3 = 255#8) (ep : ℤ) (hep : 1 ≤ ep) (inc : ℕ) (hinc : 0 < inc) (z a b : ℤ) :
    (∃ r, ligne im c ep z a z b inc = some r ∧ r.sx = im.sx ∧ r.sy = im.sy ∧ r.Valide ∧ ∀ u v, r.val u v = if (0 ≤ u ∧ u < im.sx ∧ 0 ≤ v ∧ v < im.sy) ∧ z - ep / 2 ≤ u ∧ u ≤ z + (ep - 1) / 2 ∧
      min a b ≤ v ∧ v ≤ max a b ∧ (inc : ℤ) ∣ v - max 0 (min a b) then some c else im.val u v) ∧
    (a ≠ b → ∃ r, ligne im c ep a z b z inc = some r ∧ r.sx = im.sx ∧ r.sy = im.sy ∧ r.Valide ∧ ∀ u v, r.val u v = if (0 ≤ u ∧ u < im.sx ∧ 0 ≤ v ∧ v < im.sy) ∧ z - ep / 2 ≤ v ∧ v ≤ z + (ep - 1) / 2 ∧
      min a b ≤ u ∧ u ≤ max a b ∧ (inc : ℤ) ∣ u - max 0 (min a b) then some c else im.val u v) := by
  constructor
  · unfold ligne
    rw [if_pos rfl]
    obtain ⟨r, e, r1, r2, r3, r4⟩ := points_val im hv c hc (ptsVerticale im ep z a b inc)
    refine ⟨r, e, r1, r2, r3, fun u v => ?_⟩
    rw [r4]
    congr 1
    apply propext
    apply and_congr_right
    intro hin
    unfold ptsVerticale
    simp only [List.mem_flatMap, List.mem_map, mem_pas _ _ inc hinc, mem_decalages ep hep, Prod.mk.injEq]
    constructor
    · rintro ⟨y, ⟨h1, h2, h3⟩, k, ⟨h4, h5⟩, h6, rfl⟩
      exact ⟨by omega, by omega, by omega, by omega, h3⟩
    · rintro ⟨h1, h2, h3, h4, h5⟩
      exact ⟨v, ⟨by omega, by omega, h5⟩, u - z, ⟨by omega, by omega⟩, by omega, rfl⟩
  · intro hab
    unfold ligne
    rw [if_neg hab, if_pos rfl]
    obtain ⟨r, e, r1, r2, r3, r4⟩ := points_val im hv c hc (ptsHorizontale im ep z a b inc)
    refine ⟨r, e, r1, r2, r3, fun u v => ?_⟩
    rw [r4]
    congr 1
    apply propext
    apply and_congr_right
    intro hin
    unfold ptsHorizontale
    simp only [List.mem_flatMap, List.mem_map, mem_pas _ _ inc hinc, mem_decalages ep hep, Prod.mk.injEq]
    constructor
    · rintro ⟨y, ⟨h1, h2, h3⟩, k, ⟨h4, h5⟩, rfl, h6⟩
      exact ⟨by omega, by omega, by omega, by omega, h3⟩
    · rintro ⟨h1, h2, h3, h4, h5⟩
      exact ⟨u, ⟨by omega, by omega, h5⟩, v - z, ⟨by omega, by omega⟩, rfl, by omega⟩

end Verif.Vue
