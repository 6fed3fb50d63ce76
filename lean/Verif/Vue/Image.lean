/-
Bitmap images (core/src/vue/image-bmp.cc): model of the memory, of the copies and of the opaque fillings.
-/
import Mathlib.Data.List.GetD
import Mathlib.Tactic.Linarith
import Mathlib.Tactic.Ring
import Mathlib.Algebra.Order.Ring.Int

namespace Verif.Vue

/-! ## Model (the `int` computations are exact; `P` is the type of the pixels) -/

/-- `Image::Impl`: `sx`, `sy` and the `sx * sy` pixels of the bitmap, core/src/vue/image-bmp.cc:59-66. -/
structure Img (P : Type) where
  sx : ℤ
  sy : ℤ
  bitmap : List P

variable {P : Type}

/-- Reading `n` pixels from index `j` (source of a `memcpy`); `none`: outside of the allocation. -/
def segment (src : List P) (j n : ℤ) : Option (List P) := if 0 ≤ n ∧ 0 ≤ j ∧ j + n ≤ src.length then some ((src.drop j.toNat).take n.toNat) else none

/-- Writing consecutive pixels from index `i` (`memcpy`, `fill`); `none`: outside of the allocation. -/
def ecritSegment (dst : List P) (i : ℤ) (seg : List P) : Option (List P) := if 0 ≤ i ∧ i + seg.length ≤ dst.length then some (dst.take i.toNat ++ seg ++ dst.drop (i.toNat + seg.length)) else none

/-- `memcpy` of `n` pixels. -/
def copie (dst : List P) (i : ℤ) (src : List P) (j n : ℤ) : Option (List P) := (segment src j n).bind fun seg : List P => ecritSegment dst i seg

/-- `ptr(x, y)`, `pixel(x, y)`: index of a pixel, core/src/vue/image-bmp.cc:659-667, 752-755. -/
def Img.index (im : Img P) (x y : ℤ) : ℤ := x + y * im.sx

/-- Copy of `h` rows of `l` pixels from `(x0, y0)` of the source to `(x, y)` of the destination: the loops of core/src/vue/image-bmp.cc:766-767, 773-774, 806-808. -/
def copieLignes (dst src : Img P) (x y x0 y0 l h : ℤ) : Option (Img P) :=
  ((List.range h.toNat).foldlM (fun (b : List P) (k : ℕ) => copie b (dst.index x (y + k)) src.bitmap (src.index x0 (y0 + k)) l) dst.bitmap).map fun b : List P => ⟨dst.sx, dst.sy, b⟩

/-- `sous_image(x0, y0, l, h)`, core/src/vue/image-bmp.cc:757-769; `c` is the (indeterminate) content of a new pixel. -/
def sousImage (c : P) (im : Img P) (x0 y0 l h : ℤ) : Option (Img P) :=
  if x0 < 0 ∨ y0 < 0 ∨ x0 + l > im.sx ∨ y0 + h > im.sy ∨ l < 0 ∨ h < 0 then some ⟨0, 0, []⟩
  else copieLignes ⟨l, h, List.replicate (l * h).toNat c⟩ im 0 0 x0 y0 l h

/-- `puti(pos, src, rdi_source)`, core/src/vue/image-bmp.cc:771-775: no test. -/
def putiRdi (im src : Img P) (x y rx ry rl rh : ℤ) : Option (Img P) := copieLignes im src x y rx ry rl rh

/-- The test of `puti(pos, src)`, core/src/vue/image-bmp.cc:779. -/
def deborde (im src : Img P) (x y : ℤ) : Prop := x < 0 ∨ y < 0 ∨ x + src.sx > im.sx ∨ y + src.sy > im.sy

instance (im src : Img P) (x y : ℤ) : Decidable (deborde im src x y) := by unfold deborde; infer_instance

/-- `puti(pos, src)`, core/src/vue/image-bmp.cc:777-809, with at most `n` recursive calls (`none` when they do not suffice). -/
def putiBorne (c : P) (im : Img P) : ℕ → Img P → ℤ → ℤ → Option (Img P)
  | n, src, x, y =>
    if deborde im src x y then
      match n with
      | 0 => none
      | n + 1 =>
        let x0 := max (-x) 0;
        let y0 := max (-y) 0;
        let x2 := if x < 0 then 0 else x;
        let y2 := if y < 0 then 0 else y;
        let l := src.sx - x0;
        let h := src.sy - y0;
        let l := if l + x2 > im.sx then im.sx - x2 else l;
        let h := if h + y2 > im.sy then im.sy - y2 else h;
        (sousImage c src x0 y0 l h).bind fun s : Img P => putiBorne c im n s x2 y2
    else
      let dimx := if src.sx + x > im.sx then im.sx - x else src.sx;
      if 0 < dimx then copieLignes im src x y 0 0 dimx (min src.sy (im.sy - y)) else some im

/-- `clone()`, core/src/vue/image-bmp.cc:625-630. -/
def clone (c : P) (im : Img P) : Option (Img P) :=
  (copie (List.replicate (im.sx * im.sy).toNat c) 0 im.bitmap 0 (im.sx * im.sy)).map fun b : List P => ⟨im.sx, im.sy, b⟩

/-- The double loop of `rotation_90`, core/src/vue/image-bmp.cc:649-651: the pixels in the order of the writings, the last position first. -/
def tourne (im : Img P) : Option (List P) :=
  ((List.range im.sx.toNat).flatMap fun x : ℕ => (List.range im.sy.toNat).map fun y : ℕ => (im.sx - 1 - x) + y * im.sx).mapM fun i : ℤ => if 0 ≤ i then im.bitmap[i.toNat]? else none

/-- `rotation_90()`, core/src/vue/image-bmp.cc:641-654. -/
def rotation90 (im : Img P) : Option (Img P) := (tourne im).map fun b : List P => ⟨im.sy, im.sx, b.reverse⟩

/-- `rectangle_plein(p0, p1)` with an opaque colour, core/src/vue/image-bmp.cc:1320-1337. -/
def rectanglePlein (im : Img P) (x0 y0 x1 y1 : ℤ) (c : P) : Option (Img P) :=
  let xmin := max 0 (min x0 x1);
  let ymin := max 0 (min y0 y1);
  let xmax := min (im.sx - 1) (max x0 x1);
  let ymax := min (im.sy - 1) (max y0 y1);
  if xmax ≥ xmin then
    ((List.range (ymax + 1 - ymin).toNat).foldlM (fun (b : List P) (k : ℕ) => ecritSegment b ((ymin + k) * im.sx + xmin) (List.replicate (xmax + 1 - xmin).toNat c)) im.bitmap).map fun b : List P => ⟨im.sx, im.sy, b⟩
  else some im

/-! ## Specification -/

/-- The image has `sx * sy` pixels. -/
def Img.Valide (im : Img P) : Prop := 0 ≤ im.sx ∧ 0 ≤ im.sy ∧ (im.bitmap.length : ℤ) = im.sx * im.sy

/-- The pixel at column `x` and row `y`, `none` outside of the image. -/
def Img.val (im : Img P) (x y : ℤ) : Option P := if 0 ≤ x ∧ x < im.sx ∧ 0 ≤ y ∧ y < im.sy then im.bitmap[(y * im.sx + x).toNat]? else none

/-! ## Proofs -/

theorem index_borne {x y sx sy : ℤ} (hx : 0 ≤ x) (hx' : x < sx) (hy : 0 ≤ y) (hy' : y < sy) : 0 ≤ y * sx + x ∧ y * sx + x < sx * sy := by
  constructor
  · have := mul_nonneg hy (by omega : 0 ≤ sx); omega
  · nlinarith

theorem index_inj {x y x' y' sx : ℤ} (hx : 0 ≤ x) (hx' : x < sx) (h0 : 0 ≤ x') (h1 : x' < sx) (h : y * sx + x = y' * sx + x') : x = x' ∧ y = y' := by
  have hy : y = y' := by
    rcases lt_trichotomy y y' with hlt | he | hlt
    · nlinarith
    · exact he
    · nlinarith
  subst hy
  exact ⟨by omega, rfl⟩

/-- Writing a segment in a row of an image. -/
theorem ecrit_val (im : Img P) (hv : im.Valide) (x y : ℤ) (seg : List P) (hx : 0 ≤ x) (hl : x + seg.length ≤ im.sx) (hy : 0 ≤ y) (hy' : y < im.sy) : ∃ b, ecritSegment im.bitmap (y * im.sx + x) seg = some b ∧
    (Img.mk im.sx im.sy b).Valide ∧ ∀ u v, (Img.mk im.sx im.sy b).val u v = if v = y ∧ x ≤ u ∧ u < x + seg.length then seg[(u - x).toNat]? else im.val u v := by
  obtain ⟨hsx, hsy, hlen⟩ := hv
  have h0 : 0 ≤ y * im.sx + x := by have := mul_nonneg hy hsx; omega
  have h1 : y * im.sx + x + seg.length ≤ im.bitmap.length := by rw [hlen]; nlinarith
  obtain ⟨i, hi⟩ := Int.eq_ofNat_of_zero_le h0
  have hi' : (y * im.sx + x).toNat = i := by omega
  have h2 : i + seg.length ≤ im.bitmap.length := by omega
  refine ⟨im.bitmap.take i ++ seg ++ im.bitmap.drop (i + seg.length), ?_, ⟨hsx, hsy, ?_⟩, fun u v => ?_⟩
  · unfold ecritSegment
    rw [if_pos ⟨h0, h1⟩, hi']
  · simp only [List.length_append, List.length_take, List.length_drop]
    rw [← hlen]
    omega
  · unfold Img.val
    simp only
    by_cases hin : 0 ≤ u ∧ u < im.sx ∧ 0 ≤ v ∧ v < im.sy
    · rw [if_pos hin, if_pos hin]
      obtain ⟨b1, b2⟩ := index_borne hin.1 hin.2.1 hin.2.2.1 hin.2.2.2
      obtain ⟨j, hj⟩ := Int.eq_ofNat_of_zero_le b1
      have hj' : (v * im.sx + u).toNat = j := by omega
      rw [hj']
      by_cases hs : v = y ∧ x ≤ u ∧ u < x + seg.length
      · rw [if_pos hs]
        obtain ⟨rfl, hs1, hs2⟩ := hs
        rw [List.append_assoc, List.getElem?_append_right (by rw [List.length_take]; omega), List.getElem?_append_left (by rw [List.length_take]; omega), List.length_take]
        congr 1
        omega
      · rw [if_neg hs]
        rcases Nat.lt_or_ge j i with hji | hji
        · rw [List.append_assoc, List.getElem?_append_left (by rw [List.length_take]; omega), List.getElem?_take_of_lt hji]
        · have hge : i + seg.length ≤ j := by
            by_contra hlt
            apply hs
            have hvy : v = y := by
              rcases lt_trichotomy v y with hh | hh | hh
              · exfalso
                have : (v + 1) * im.sx ≤ y * im.sx := mul_le_mul_of_nonneg_right (by omega) hsx
                have e : (v + 1) * im.sx = v * im.sx + im.sx := by ring
                omega
              · exact hh
              · exfalso
                have : (y + 1) * im.sx ≤ v * im.sx := mul_le_mul_of_nonneg_right (by omega) hsx
                have e : (y + 1) * im.sx = y * im.sx + im.sx := by ring
                omega
            subst hvy
            exact ⟨rfl, by omega, by omega⟩
          rw [List.getElem?_append_right (by simp only [List.length_append, List.length_take]; omega), List.getElem?_drop]
          congr 1
          simp only [List.length_append, List.length_take]
          omega
    · rw [if_neg hin, if_neg hin, if_neg]
      rintro ⟨rfl, hs1, hs2⟩
      exact hin ⟨by omega, by omega, hy, hy'⟩

/-- Reading a segment in a row of an image. -/
theorem segment_val (im : Img P) (hv : im.Valide) (x y l : ℤ) (hx : 0 ≤ x) (hl0 : 0 ≤ l) (hl : x + l ≤ im.sx) (hy : 0 ≤ y) (hy' : y < im.sy) : ∃ seg, segment im.bitmap (im.index x y) l = some seg ∧ (seg.length : ℤ) = l ∧
    ∀ u : ℤ, 0 ≤ u → u < l → seg[u.toNat]? = im.val (x + u) y := by
  obtain ⟨hsx, hsy, hlen⟩ := hv
  have h0 : 0 ≤ y * im.sx + x := by have := mul_nonneg hy hsx; omega
  have h1 : y * im.sx + x + l ≤ im.bitmap.length := by rw [hlen]; nlinarith
  unfold segment Img.index
  rw [add_comm x, if_pos ⟨hl0, h0, h1⟩]
  refine ⟨_, rfl, ?_, fun u hu hu' => ?_⟩
  · rw [List.length_take, List.length_drop]
    omega
  · unfold Img.val
    rw [if_pos ⟨by omega, by omega, hy, hy'⟩, List.getElem?_take_of_lt (by omega), List.getElem?_drop]
    congr 1
    omega

/-- Copy of a rectangle inside both images. -/
theorem copieLignes_val (dst src : Img P) (hd : dst.Valide) (hs : src.Valide) (x y x0 y0 l h : ℤ) (hl : 0 ≤ l) (hh : 0 ≤ h) (hx : 0 ≤ x) (hx' : x + l ≤ dst.sx) (hy : 0 ≤ y) (hy' : y + h ≤ dst.sy)
    (hx0 : 0 ≤ x0) (hx0' : x0 + l ≤ src.sx) (hy0 : 0 ≤ y0) (hy0' : y0 + h ≤ src.sy) : ∃ r, copieLignes dst src x y x0 y0 l h = some r ∧ r.sx = dst.sx ∧ r.sy = dst.sy ∧ r.Valide ∧
    ∀ u v, r.val u v = if x ≤ u ∧ u < x + l ∧ y ≤ v ∧ v < y + h then src.val (x0 + (u - x)) (y0 + (v - y)) else dst.val u v := by
  have key : ∀ n : ℕ, (n : ℤ) ≤ h → ∃ b, (List.range n).foldlM (fun (b : List P) (k : ℕ) => copie b (dst.index x (y + k)) src.bitmap (src.index x0 (y0 + k)) l) dst.bitmap = some b ∧ (Img.mk dst.sx dst.sy b).Valide ∧
      ∀ u v, (Img.mk dst.sx dst.sy b).val u v = if x ≤ u ∧ u < x + l ∧ y ≤ v ∧ v < y + n then src.val (x0 + (u - x)) (y0 + (v - y)) else dst.val u v := by
    intro n
    induction n with
    | zero =>
      intro _
      refine ⟨dst.bitmap, rfl, hd, fun u v => ?_⟩
      rw [if_neg (by rintro ⟨-, -, h1, h2⟩; simp at h2; omega)]
    | succ n ih =>
      intro hn
      obtain ⟨b, e, hb, hval⟩ := ih (by push_cast at hn; omega)
      push_cast at hn
      obtain ⟨seg, e1, hsl, hseg⟩ := segment_val src hs x0 (y0 + n) l hx0 hl hx0' (by omega) (by omega)
      obtain ⟨b', e2, hb', hval'⟩ := ecrit_val ⟨dst.sx, dst.sy, b⟩ hb x (y + n) seg hx (by simp only; omega) (by omega) (by simp only; omega)
      refine ⟨b', ?_, hb', fun u v => ?_⟩
      · rw [List.range_succ, List.foldlM_append, e]
        have e3 : copie b (dst.index x (y + n)) src.bitmap (src.index x0 (y0 + n)) l = some b' := by
          unfold copie
          rw [e1, Option.bind_some, show dst.index x (y + n) = (y + n) * dst.sx + x by unfold Img.index; ring, e2]
        simp only [Option.bind_eq_bind, Option.bind_some, List.foldlM_cons, List.foldlM_nil, e3]
        rfl
      · rw [hval' u v, hval u v]
        by_cases hin : v = y + n ∧ x ≤ u ∧ u < x + seg.length
        · rw [if_pos hin, if_pos ⟨hin.2.1, by omega, by omega, by push_cast; omega⟩, hseg _ (by omega) (by omega), hin.1]
          congr 1
          ring
        · rw [if_neg hin]
          by_cases hi : x ≤ u ∧ u < x + l ∧ y ≤ v ∧ v < y + n
          · rw [if_pos hi, if_pos ⟨hi.1, hi.2.1, hi.2.2.1, by push_cast; omega⟩]
          · rw [if_neg hi, if_neg]
            rintro ⟨h1, h2, h3, h4⟩
            push_cast at h4
            exact hi ⟨h1, h2, h3, by by_contra hc; exact hin ⟨by omega, h1, by omega⟩⟩
  obtain ⟨b, e, hb, hval⟩ := key h.toNat (by omega)
  refine ⟨⟨dst.sx, dst.sy, b⟩, by unfold copieLignes; rw [e]; rfl, rfl, rfl, hb, fun u v => ?_⟩
  rw [hval, Int.toNat_of_nonneg hh]

end Verif.Vue
