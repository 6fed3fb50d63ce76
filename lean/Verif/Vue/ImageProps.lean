/-
C165: copies between images, rotations and opaque rectangles.
-/
import Verif.Vue.Image

namespace Verif.Vue
variable {P : Type}

theorem val_dedans (im : Img P) (hv : im.Valide) (x y : ℤ) (h : 0 ≤ x ∧ x < im.sx ∧ 0 ≤ y ∧ y < im.sy) : ∃ c, im.val x y = some c := by
  obtain ⟨b1, b2⟩ := index_borne h.1 h.2.1 h.2.2.1 h.2.2.2
  unfold Img.val
  rw [if_pos h, ← hv.2.2] at *
  rw [List.getElem?_eq_getElem (by omega)]
  exact ⟨_, rfl⟩

/-- Two images of the same dimensions with the same pixels are equal. -/
theorem image_ext (a b : Img P) (ha : a.Valide) (hb : b.Valide) (h1 : a.sx = b.sx) (h2 : a.sy = b.sy) (h : ∀ x y, a.val x y = b.val x y) : a = b := by
  obtain ⟨sx, sy, la⟩ := a
  obtain ⟨sx', sy', lb⟩ := b
  simp only at h1 h2
  subst h1 h2
  congr 1
  obtain ⟨a1, a2, a3⟩ := ha
  obtain ⟨b1, b2, b3⟩ := hb
  simp only at *
  apply List.ext_getElem?
  intro i
  rcases Nat.lt_or_ge i la.length with hi | hi
  · have hs : 0 < sx := by
      rcases a1.lt_or_eq with h | h
      · exact h
      · rw [← h, zero_mul] at a3; omega
    have := h (i % sx) (i / sx)
    have m1 := Int.emod_nonneg i hs.ne'
    have m2 := Int.emod_lt_of_pos i hs
    have m3 : 0 ≤ (i : ℤ) / sx := Int.ediv_nonneg (by omega) a1
    have m4 : (i : ℤ) / sx < sy := by
      apply Int.ediv_lt_of_lt_mul hs
      rw [mul_comm, ← a3]
      exact_mod_cast hi
    unfold Img.val at this
    rw [if_pos ⟨m1, m2, m3, m4⟩, if_pos ⟨m1, m2, m3, m4⟩] at this
    simp only at this
    rwa [show ((i : ℤ) / sx * sx + i % sx).toNat = i by rw [mul_comm, Int.mul_ediv_add_emod]; simp] at this
  · rw [List.getElem?_eq_none (by omega), List.getElem?_eq_none (by omega)]

/-- **C165 (sub-image).** Inside of the image, the sub-image has the requested dimensions and pixels; otherwise an empty image is returned. -/
theorem C165_sous_image (c : P) (im : Img P) (hv : im.Valide) (x0 y0 l h : ℤ) : ∃ r, sousImage c im x0 y0 l h = some r ∧ r.Valide ∧
    (0 ≤ x0 ∧ 0 ≤ y0 ∧ 0 ≤ l ∧ 0 ≤ h ∧ x0 + l ≤ im.sx ∧ y0 + h ≤ im.sy → r.sx = l ∧ r.sy = h ∧ ∀ u v, r.val u v = if 0 ≤ u ∧ u < l ∧ 0 ≤ v ∧ v < h then im.val (x0 + u) (y0 + v) else none) ∧
    (¬ (0 ≤ x0 ∧ 0 ≤ y0 ∧ 0 ≤ l ∧ 0 ≤ h ∧ x0 + l ≤ im.sx ∧ y0 + h ≤ im.sy) → r = ⟨0, 0, []⟩) := by
  unfold sousImage
  by_cases hin : 0 ≤ x0 ∧ 0 ≤ y0 ∧ 0 ≤ l ∧ 0 ≤ h ∧ x0 + l ≤ im.sx ∧ y0 + h ≤ im.sy
  · obtain ⟨h1, h2, h3, h4, h5, h6⟩ := hin
    rw [if_neg (by omega)]
    have hd : (Img.mk l h (List.replicate (l * h).toNat c)).Valide := ⟨h3, h4, by rw [List.length_replicate]; exact Int.toNat_of_nonneg (mul_nonneg h3 h4)⟩
    obtain ⟨r, e, r1, r2, r3, r4⟩ := copieLignes_val ⟨l, h, List.replicate (l * h).toNat c⟩ im hd hv 0 0 x0 y0 l h h3 h4 le_rfl (by simp) le_rfl (by simp) h1 h5 h2 h6
    refine ⟨r, e, r3, fun _ => ⟨r1, r2, fun u v => ?_⟩, fun hn => absurd ⟨h1, h2, h3, h4, h5, h6⟩ hn⟩
    rw [r4, zero_add, zero_add, sub_zero, sub_zero]
    by_cases hc : 0 ≤ u ∧ u < l ∧ 0 ≤ v ∧ v < h
    · rw [if_pos hc, if_pos hc]
    · rw [if_neg hc, if_neg hc]
      unfold Img.val
      rw [if_neg hc]
  · rw [if_pos (by omega)]
    exact ⟨_, rfl, ⟨le_rfl, le_rfl, rfl⟩, fun h' => absurd h' hin, fun _ => rfl⟩

/-- The copy when the source fits. -/
theorem puti_direct (c : P) (im src : Img P) (hi : im.Valide) (hs : src.Valide) (n : ℕ) (x y : ℤ) (hd : ¬ deborde im src x y) : ∃ r, putiBorne c im n src x y = some r ∧ r.sx = im.sx ∧ r.sy = im.sy ∧ r.Valide ∧
    ∀ u v, r.val u v = if x ≤ u ∧ u < x + src.sx ∧ y ≤ v ∧ v < y + src.sy then src.val (u - x) (v - y) else im.val u v := by
  have hd' := hd
  unfold deborde at hd'
  simp only [not_or, not_lt, gt_iff_lt] at hd'
  obtain ⟨h1, h2, h3, h4⟩ := hd'
  have hs' := hs
  obtain ⟨s1, s2, -⟩ := hs'
  unfold putiBorne
  rw [if_neg hd]
  simp only
  rw [if_neg (by omega : ¬ src.sx + x > im.sx), min_eq_left (by omega)]
  by_cases h0 : 0 < src.sx
  · rw [if_pos h0]
    obtain ⟨r, e, r1, r2, r3, r4⟩ := copieLignes_val im src hi hs x y 0 0 src.sx src.sy s1 s2 h1 h3 h2 h4 le_rfl (by simp) le_rfl (by simp)
    refine ⟨r, e, r1, r2, r3, fun u v => ?_⟩
    rw [r4, zero_add, zero_add]
  · rw [if_neg h0]
    refine ⟨im, rfl, rfl, rfl, hi, fun u v => ?_⟩
    rw [if_neg (by omega)]

/-- **C165 (copy of an image at a position).** For a position at most at the lower right corner (negative coordinates included), every pixel of the image covered by the source takes its value, and the other ones are unchanged. -/
theorem C165_puti (c : P) (im src : Img P) (hi : im.Valide) (hs : src.Valide) (n : ℕ) (x y : ℤ) (hx : x ≤ im.sx) (hy : y ≤ im.sy) : ∃ r, putiBorne c im (n + 1) src x y = some r ∧ r.sx = im.sx ∧ r.sy = im.sy ∧ r.Valide ∧
    ∀ u v, r.val u v = if (0 ≤ u ∧ u < im.sx ∧ 0 ≤ v ∧ v < im.sy) ∧ x ≤ u ∧ u < x + src.sx ∧ y ≤ v ∧ v < y + src.sy then src.val (u - x) (v - y) else im.val u v := by
  by_cases hd : deborde im src x y
  · have hi' := hi
    obtain ⟨i1, i2, -⟩ := hi'
    have hs' := hs
    obtain ⟨s1, s2, -⟩ := hs'
    rw [putiBorne, if_pos hd]
    simp only
    obtain ⟨x0, hx0⟩ : ∃ x0, x0 = max (-x) 0 := ⟨_, rfl⟩
    obtain ⟨y0, hy0⟩ : ∃ y0, y0 = max (-y) 0 := ⟨_, rfl⟩
    obtain ⟨x2, hx2⟩ : ∃ x2, x2 = if x < 0 then 0 else x := ⟨_, rfl⟩
    obtain ⟨y2, hy2⟩ : ∃ y2, y2 = if y < 0 then 0 else y := ⟨_, rfl⟩
    rw [← hx0, ← hy0, ← hx2, ← hy2]
    obtain ⟨l, hl⟩ : ∃ l, l = if src.sx - x0 + x2 > im.sx then im.sx - x2 else src.sx - x0 := ⟨_, rfl⟩
    obtain ⟨h, hh⟩ : ∃ h, h = if src.sy - y0 + y2 > im.sy then im.sy - y2 else src.sy - y0 := ⟨_, rfl⟩
    rw [← hl, ← hh]
    have ex : x0 + x = x2 := by rw [hx0, hx2]; split_ifs <;> omega
    have ey : y0 + y = y2 := by rw [hy0, hy2]; split_ifs <;> omega
    have p1 : 0 ≤ x0 := by omega
    have p2 : 0 ≤ y0 := by omega
    have p3 : 0 ≤ x2 ∧ x2 ≤ im.sx := by rw [hx2]; split_ifs <;> omega
    have p4 : 0 ≤ y2 ∧ y2 ≤ im.sy := by rw [hy2]; split_ifs <;> omega
    have l1 : x0 + l ≤ src.sx := by rw [hl]; split_ifs <;> omega
    have l2 : l + x2 ≤ im.sx := by rw [hl]; split_ifs <;> omega
    have l3 : h + y2 ≤ im.sy := by rw [hh]; split_ifs <;> omega
    have l4 : y0 + h ≤ src.sy := by rw [hh]; split_ifs <;> omega
    obtain ⟨s, es, hsv, hsin, hsout⟩ := C165_sous_image c src hs x0 y0 l h
    rw [es, Option.bind_some]
    by_cases hpos : 0 ≤ l ∧ 0 ≤ h
    · obtain ⟨d1, d2, dv⟩ := hsin ⟨p1, p2, hpos.1, hpos.2, l1, l4⟩
      have hnd : ¬ deborde im s x2 y2 := by unfold deborde; rw [d1, d2]; omega
      obtain ⟨r, e, r1, r2, r3, r4⟩ := puti_direct c im s hi hsv n x2 y2 hnd
      refine ⟨r, e, r1, r2, r3, fun u v => ?_⟩
      rw [r4, d1, d2, dv]
      by_cases hc : (0 ≤ u ∧ u < im.sx ∧ 0 ≤ v ∧ v < im.sy) ∧ x ≤ u ∧ u < x + src.sx ∧ y ≤ v ∧ v < y + src.sy
      · have hul : u < x2 + l := by rw [hl]; split_ifs <;> omega
        have hvh : v < y2 + h := by rw [hh]; split_ifs <;> omega
        have hu0 : x2 ≤ u := by rw [hx2]; split_ifs <;> omega
        have hv0 : y2 ≤ v := by rw [hy2]; split_ifs <;> omega
        rw [if_pos hc, if_pos ⟨hu0, hul, hv0, hvh⟩, if_pos ⟨by omega, by omega, by omega, by omega⟩]
        congr 1 <;> omega
      · rw [if_neg hc, if_neg]
        rintro ⟨a1, a2, a3, a4⟩
        apply hc
        refine ⟨⟨by omega, by omega, by omega, by omega⟩, ?_, ?_, ?_, ?_⟩ <;> omega
    · have hse := hsout (by tauto)
      subst hse
      have hnd : ¬ deborde im (⟨0, 0, []⟩ : Img P) x2 y2 := by unfold deborde; simp only; omega
      obtain ⟨r, e, r1, r2, r3, r4⟩ := puti_direct c im ⟨0, 0, []⟩ hi hsv n x2 y2 hnd
      refine ⟨r, e, r1, r2, r3, fun u v => ?_⟩
      rw [r4, if_neg (by simp only; omega), if_neg]
      rintro ⟨⟨b1, b2, b3, b4⟩, a1, a2, a3, a4⟩
      apply hpos
      rw [hl, hh]
      constructor <;> split_ifs <;> omega
  · obtain ⟨r, e, r1, r2, r3, r4⟩ := puti_direct c im src hi hs (n + 1) x y hd
    refine ⟨r, e, r1, r2, r3, fun u v => ?_⟩
    rw [r4]
    unfold deborde at hd
    by_cases hc : x ≤ u ∧ u < x + src.sx ∧ y ≤ v ∧ v < y + src.sy
    · rw [if_pos hc, if_pos ⟨by omega, hc⟩]
    · rw [if_neg hc, if_neg (by tauto)]

/-- **C165 (copy beyond the image, refuted).** For a position beyond the right or the lower edge, the copy calls itself endlessly, whatever the source (even an empty one). -/
theorem C165_puti_refute (c : P) (im src : Img P) (hs : src.Valide) (x y : ℤ) (h : (0 ≤ x ∧ im.sx < x) ∨ (0 ≤ y ∧ im.sy < y)) (n : ℕ) : putiBorne c im n src x y = none := by
  have key : ∀ (n : ℕ) (src : Img P), src.Valide → ∀ x y : ℤ, ((0 ≤ x ∧ im.sx < x) ∨ (0 ≤ y ∧ im.sy < y)) → putiBorne c im n src x y = none := by
    intro n
    induction n with
    | zero =>
      intro src hs x y h
      rw [putiBorne, if_pos (by unfold deborde; have := hs.1; have := hs.2.1; omega)]
    | succ n ih =>
      intro src hs x y h
      rw [putiBorne, if_pos (by unfold deborde; have := hs.1; have := hs.2.1; omega)]
      simp only
      obtain ⟨s, es, hsv, -⟩ := C165_sous_image c src hs (max (-x) 0) (max (-y) 0) (if src.sx - max (-x) 0 + (if x < 0 then 0 else x) > im.sx then im.sx - (if x < 0 then 0 else x) else src.sx - max (-x) 0)
        (if src.sy - max (-y) 0 + (if y < 0 then 0 else y) > im.sy then im.sy - (if y < 0 then 0 else y) else src.sy - max (-y) 0)
      rw [es, Option.bind_some]
      apply ih s hsv
      rcases h with h | h
      · left; split_ifs <;> omega
      · right; split_ifs <;> omega
  exact key n src hs x y h

/-- **C165 (copy of a part).** When the part is inside of the source and its destination inside of the image, the pixels are copied. -/
theorem C165_puti_rdi (im src : Img P) (hi : im.Valide) (hs : src.Valide) (x y rx ry rl rh : ℤ) (h : 0 ≤ rl ∧ 0 ≤ rh ∧ 0 ≤ x ∧ x + rl ≤ im.sx ∧ 0 ≤ y ∧ y + rh ≤ im.sy ∧ 0 ≤ rx ∧ rx + rl ≤ src.sx ∧ 0 ≤ ry ∧ ry + rh ≤ src.sy) :
    ∃ r, putiRdi im src x y rx ry rl rh = some r ∧ r.sx = im.sx ∧ r.sy = im.sy ∧ r.Valide ∧ ∀ u v, r.val u v = if x ≤ u ∧ u < x + rl ∧ y ≤ v ∧ v < y + rh then src.val (rx + (u - x)) (ry + (v - y)) else im.val u v := by
  obtain ⟨h1, h2, h3, h4, h5, h6, h7, h8, h9, h10⟩ := h
  exact copieLignes_val im src hi hs x y rx ry rl rh h1 h2 h3 h4 h5 h6 h7 h8 h9 h10

/-- **C165 (copy of a part, refuted).** There is no clipping: one row too low writes after the end of the bitmap. -/
theorem C165_puti_rdi_refute (im src : Img P) (hi : im.Valide) (hl : 0 < src.sx) (hh : 0 < src.sy) : putiRdi im src 0 im.sy 0 0 src.sx src.sy = none := by
  obtain ⟨i1, i2, i3⟩ := hi
  obtain ⟨n, hn⟩ : ∃ n, src.sy.toNat = n + 1 := ⟨src.sy.toNat - 1, by omega⟩
  unfold putiRdi copieLignes
  rw [hn, List.range_succ_eq_map, List.foldlM_cons]
  have : copie im.bitmap (im.index 0 (im.sy + ((0 : ℕ) : ℤ))) src.bitmap (src.index 0 (0 + ((0 : ℕ) : ℤ))) src.sx = none := by
    unfold copie
    cases hseg : segment src.bitmap (src.index 0 (0 + ((0 : ℕ) : ℤ))) src.sx with
    | none => rfl
    | some seg =>
      unfold segment at hseg
      split_ifs at hseg with hc
      have hlen : seg.length = src.sx.toNat := by
        rw [← Option.some.inj hseg, List.length_take, List.length_drop]
        omega
      rw [Option.bind_some]
      unfold ecritSegment
      rw [if_neg]
      rintro ⟨-, hb⟩
      rw [hlen, i3] at hb
      unfold Img.index at hb
      have e : im.sy * im.sx = im.sx * im.sy := mul_comm _ _
      simp only [Nat.cast_zero, add_zero, zero_add] at hb
      omega
  rw [this]
  rfl

/-- **C165 (copy of the whole).** The clone is the image. -/
theorem C165_clone (c : P) (im : Img P) (hv : im.Valide) : clone c im = some im := by
  obtain ⟨h1, h2, h3⟩ := hv
  have h0 := mul_nonneg h1 h2
  have hn : (im.sx * im.sy).toNat = im.bitmap.length := by omega
  unfold clone copie segment ecritSegment
  rw [if_pos ⟨h0, le_rfl, by omega⟩, Option.bind_some, hn]
  simp

theorem flatMap_range (a b : ℕ) (f : ℕ → ℕ → ℤ) : ((List.range a).flatMap fun x : ℕ => (List.range b).map fun y : ℕ => f x y) = (List.range (a * b)).map fun k => f (k / b) (k % b) := by
  induction a with
  | zero => simp
  | succ a ih =>
    rw [List.range_succ, List.flatMap_append, ih, show (a + 1) * b = a * b + b by ring, List.range_add, List.map_append]
    congr 1
    rw [List.flatMap_singleton, List.map_map]
    apply List.map_congr_left
    intro y hy
    have hy := List.mem_range.1 hy
    have hb : 0 < b := by omega
    simp only [Function.comp]
    rw [mul_comm a b, Nat.mul_add_div hb, Nat.div_eq_of_lt hy, Nat.mul_add_mod, Nat.mod_eq_of_lt hy, Nat.add_zero]

theorem mapM_get {A B : Type} (g : A → Option B) (l : List A) (hg : ∀ a ∈ l, ∃ b, g a = some b) : ∃ r, l.mapM g = some r ∧ r.length = l.length ∧ ∀ (i : ℕ) (a : A), l[i]? = some a → r[i]? = g a := by
  induction l with
  | nil => exact ⟨[], rfl, rfl, by simp⟩
  | cons a l ih =>
    obtain ⟨r, h1, h2, h3⟩ := ih fun b hb => hg b (by simp [hb])
    obtain ⟨b, hb⟩ := hg a (by simp)
    refine ⟨b :: r, by rw [List.mapM_cons, hb, h1]; rfl, by simp [h2], fun i x hx => ?_⟩
    cases i with
    | zero =>
      simp only [List.getElem?_cons_zero, Option.some.injEq] at hx
      subst hx
      rw [hb]
      rfl
    | succ i => simpa using h3 i x (by simpa using hx)

/-- **C165 (rotation).** The rotation exchanges the dimensions; the pixel at column `u` and row `v` of the result is the one of the image at column `v`, row `sy - 1 - u` (clockwise quarter turn). -/
theorem C165_rotation (im : Img P) (hv : im.Valide) : ∃ r, rotation90 im = some r ∧ r.Valide ∧ r.sx = im.sy ∧ r.sy = im.sx ∧ ∀ u v, r.val u v = im.val v (im.sy - 1 - u) := by
  have hv' := hv
  obtain ⟨h1, h2, h3⟩ := hv'
  obtain ⟨a, ha⟩ := Int.eq_ofNat_of_zero_le h1
  obtain ⟨b, hb⟩ := Int.eq_ofNat_of_zero_le h2
  have ha' : im.sx.toNat = a := by omega
  have hb' : im.sy.toNat = b := by omega
  have hlen : im.bitmap.length = a * b := by
    have : (im.bitmap.length : ℤ) = ((a * b : ℕ) : ℤ) := by rw [h3, ha, hb]; push_cast; rfl
    exact_mod_cast this
  have hidx : ∀ k, k < a * b → 0 ≤ (im.sx - 1 - (k / b : ℕ)) + (k % b : ℕ) * im.sx ∧ (im.sx - 1 - (k / b : ℕ)) + (k % b : ℕ) * im.sx < im.bitmap.length := by
    intro k hk
    have hbp : 0 < b := by
      rcases Nat.eq_zero_or_pos b with h | h
      · rw [h, Nat.mul_zero] at hk; omega
      · exact h
    have q1 : k / b < a := Nat.div_lt_of_lt_mul (by rwa [mul_comm])
    have q2 : k % b < b := Nat.mod_lt _ hbp
    have q1' : ((k / b : ℕ) : ℤ) < a := by exact_mod_cast q1
    have q2' : ((k % b : ℕ) : ℤ) < b := by exact_mod_cast q2
    have q3 : (0 : ℤ) ≤ ((k / b : ℕ) : ℤ) := Int.natCast_nonneg _
    have q4 : (0 : ℤ) ≤ ((k % b : ℕ) : ℤ) := Int.natCast_nonneg _
    generalize ((k / b : ℕ) : ℤ) = q at *
    generalize ((k % b : ℕ) : ℤ) = t at *
    have := index_borne (x := im.sx - 1 - q) (y := t) (sx := im.sx) (sy := im.sy) (by omega) (by omega) q4 (by omega)
    rw [h3]
    constructor <;> omega
  obtain ⟨r, e, rl, rg⟩ := mapM_get (fun i : ℤ => if 0 ≤ i then im.bitmap[i.toNat]? else none) ((List.range (a * b)).map fun k : ℕ => (im.sx - 1 - (k / b : ℕ)) + (k % b : ℕ) * im.sx) (by
    intro i hi
    obtain ⟨k, hk, rfl⟩ := List.mem_map.1 hi
    obtain ⟨i1, i2⟩ := hidx k (List.mem_range.1 hk)
    rw [if_pos i1, List.getElem?_eq_getElem (by omega)]
    exact ⟨_, rfl⟩)
  rw [List.length_map, List.length_range] at rl
  refine ⟨⟨im.sy, im.sx, r.reverse⟩, ?_, ⟨h2, h1, ?_⟩, rfl, rfl, fun u v => ?_⟩
  · unfold rotation90 tourne
    rw [ha', hb', flatMap_range a b fun x y => (im.sx - 1 - (x : ℤ)) + (y : ℤ) * im.sx, e]
    rfl
  · simp only [List.length_reverse, rl, ha, hb]
    push_cast
    ring
  · unfold Img.val
    simp only
    by_cases hc : 0 ≤ u ∧ u < im.sy ∧ 0 ≤ v ∧ v < im.sx
    · rw [if_pos hc, if_pos ⟨hc.2.2.1, hc.2.2.2, by omega, by omega⟩]
      obtain ⟨c1, c2, c3, c4⟩ := hc
      obtain ⟨u', rfl⟩ := Int.eq_ofNat_of_zero_le c1
      obtain ⟨v', rfl⟩ := Int.eq_ofNat_of_zero_le c3
      have d1 : u' < b := by omega
      have d2 : v' < a := by omega
      have hk : ((v' : ℤ) * im.sy + u').toNat = v' * b + u' := by
        rw [hb]
        exact_mod_cast Int.toNat_natCast (v' * b + u')
      have hlt : v' * b + u' < a * b := by nlinarith
      rw [hk, List.getElem?_reverse (by omega), rl]
      obtain ⟨k, hkk⟩ : ∃ k, k = a * b - 1 - (v' * b + u') := ⟨_, rfl⟩
      rw [← hkk]
      have hkv : k = b * (a - 1 - v') + (b - 1 - u') := by
        obtain ⟨p, rfl⟩ : ∃ p, a = v' + 1 + p := ⟨a - 1 - v', by omega⟩
        obtain ⟨q, rfl⟩ : ∃ q, b = u' + 1 + q := ⟨b - 1 - u', by omega⟩
        rw [hkk, show v' + 1 + p - 1 - v' = p by omega, show u' + 1 + q - 1 - u' = q by omega]
        have e : (v' + 1 + p) * (u' + 1 + q) = v' * (u' + 1 + q) + u' + 1 + ((u' + 1 + q) * p + q) := by ring
        omega
      have hq1 : k / b = a - 1 - v' := by rw [hkv, Nat.mul_add_div (by omega), Nat.div_eq_of_lt (by omega), Nat.add_zero]
      have hq2 : k % b = b - 1 - u' := by rw [hkv, Nat.mul_add_mod, Nat.mod_eq_of_lt (by omega)]
      have hkl : k < a * b := by omega
      have := rg k _ (by rw [List.getElem?_map, List.getElem?_range hkl, Option.map_some])
      rw [this, if_pos (hidx k hkl).1, hq1, hq2]
      congr 2
      have e1 : ((b - 1 - u' : ℕ) : ℤ) = im.sy - 1 - u' := by omega
      have e2 : ((a - 1 - v' : ℕ) : ℤ) = im.sx - 1 - v' := by omega
      rw [e1, e2]
      ring
    · rw [if_neg hc, if_neg (by omega)]

/-- **C165 (four quarter turns).** Four rotations give back the image. -/
theorem C165_quatre_rotations (im : Img P) (hv : im.Valide) : (((rotation90 im).bind rotation90).bind rotation90).bind rotation90 = some im := by
  obtain ⟨r1, e1, v1, a1, b1, p1⟩ := C165_rotation im hv
  obtain ⟨r2, e2, v2, a2, b2, p2⟩ := C165_rotation r1 v1
  obtain ⟨r3, e3, v3, a3, b3, p3⟩ := C165_rotation r2 v2
  obtain ⟨r4, e4, v4, a4, b4, p4⟩ := C165_rotation r3 v3
  rw [e1, Option.bind_some, e2, Option.bind_some, e3, Option.bind_some, e4]
  congr 1
  refine image_ext r4 im v4 hv (by omega) (by omega) fun x y => ?_
  rw [p4, p3, p2, p1]
  congr 1 <;> omega

/-- **C165 (opaque rectangle).** The pixels of the image inside of the rectangle (corners included, in any order) take the colour, and the other ones are unchanged. -/
theorem C165_rectangle (im : Img P) (hv : im.Valide) (x0 y0 x1 y1 : ℤ) (c : P) : ∃ r, rectanglePlein im x0 y0 x1 y1 c = some r ∧ r.sx = im.sx ∧ r.sy = im.sy ∧ r.Valide ∧
    ∀ u v, r.val u v = if (0 ≤ u ∧ u < im.sx ∧ 0 ≤ v ∧ v < im.sy) ∧ min x0 x1 ≤ u ∧ u ≤ max x0 x1 ∧ min y0 y1 ≤ v ∧ v ≤ max y0 y1 then some c else im.val u v := by
  have hv' := hv
  obtain ⟨h1, h2, h3⟩ := hv'
  unfold rectanglePlein
  simp only
  by_cases hx : min (im.sx - 1) (max x0 x1) ≥ max 0 (min x0 x1)
  · rw [if_pos hx]
    obtain ⟨xm, hxm⟩ : ∃ xm, xm = max 0 (min x0 x1) := ⟨_, rfl⟩
    obtain ⟨ym, hym⟩ : ∃ ym, ym = max 0 (min y0 y1) := ⟨_, rfl⟩
    obtain ⟨xM, hxM⟩ : ∃ xM, xM = min (im.sx - 1) (max x0 x1) := ⟨_, rfl⟩
    obtain ⟨yM, hyM⟩ : ∃ yM, yM = min (im.sy - 1) (max y0 y1) := ⟨_, rfl⟩
    rw [← hxm, ← hym, ← hxM, ← hyM]
    rw [← hxm, ← hxM] at hx
    have key : ∀ n : ℕ, (n : ℤ) ≤ max 0 (yM + 1 - ym) → ∃ b, (List.range n).foldlM (fun (b : List P) (k : ℕ) => ecritSegment b ((ym + k) * im.sx + xm) (List.replicate (xM + 1 - xm).toNat c)) im.bitmap = some b ∧ (Img.mk im.sx im.sy b).Valide ∧
        ∀ u v, (Img.mk im.sx im.sy b).val u v = if xm ≤ u ∧ u ≤ xM ∧ ym ≤ v ∧ v < ym + n then some c else im.val u v := by
      intro n
      induction n with
      | zero =>
        intro _
        refine ⟨im.bitmap, rfl, hv, fun u v => ?_⟩
        rw [if_neg (by rintro ⟨-, -, g1, g2⟩; simp at g2; omega)]
      | succ n ih =>
        intro hn
        push_cast at hn
        obtain ⟨b, e, hb, hval⟩ := ih (by omega)
        have hlr : ((List.replicate (xM + 1 - xm).toNat c).length : ℤ) = xM + 1 - xm := by rw [List.length_replicate]; omega
        obtain ⟨b', e2, hb', hval'⟩ := ecrit_val ⟨im.sx, im.sy, b⟩ hb xm (ym + n) (List.replicate (xM + 1 - xm).toNat c) (by omega) (by rw [hlr]; simp only; omega) (by omega) (by simp only; omega)
        refine ⟨b', ?_, hb', fun u v => ?_⟩
        · rw [List.range_succ, List.foldlM_append, e]
          simp only [Option.bind_eq_bind, Option.bind_some, List.foldlM_cons, List.foldlM_nil, e2]
          rfl
        · rw [hval' u v, hval u v, hlr]
          by_cases hin : v = ym + n ∧ xm ≤ u ∧ u < xm + (xM + 1 - xm)
          · rw [if_pos hin, if_pos ⟨hin.2.1, by omega, by omega, by push_cast; omega⟩, List.getElem?_replicate, if_pos (by omega)]
          · rw [if_neg hin]
            by_cases hi : xm ≤ u ∧ u ≤ xM ∧ ym ≤ v ∧ v < ym + n
            · rw [if_pos hi, if_pos ⟨hi.1, hi.2.1, hi.2.2.1, by push_cast; omega⟩]
            · rw [if_neg hi, if_neg]
              rintro ⟨g1, g2, g3, g4⟩
              push_cast at g4
              exact hi ⟨g1, g2, g3, by by_contra hc; exact hin ⟨by omega, g1, by omega⟩⟩
    obtain ⟨b, e, hb, hval⟩ := key (yM + 1 - ym).toNat (by omega)
    rw [e]
    refine ⟨_, rfl, rfl, rfl, hb, fun u v => ?_⟩
    rw [hval]
    by_cases hc : (0 ≤ u ∧ u < im.sx ∧ 0 ≤ v ∧ v < im.sy) ∧ min x0 x1 ≤ u ∧ u ≤ max x0 x1 ∧ min y0 y1 ≤ v ∧ v ≤ max y0 y1
    · rw [if_pos hc, if_pos]
      refine ⟨?_, ?_, ?_, ?_⟩ <;> omega
    · rw [if_neg hc, if_neg]
      rintro ⟨g1, g2, g3, g4⟩
      apply hc
      refine ⟨⟨?_, ?_, ?_, ?_⟩, ?_, ?_, ?_, ?_⟩ <;> omega
  · rw [if_neg hx]
    refine ⟨im, rfl, rfl, rfl, hv, fun u v => ?_⟩
    rw [if_neg]
    rintro ⟨⟨g1, g2, g3, g4⟩, g5, g6, -⟩
    omega

/-- Non-vacuity: an image of 2 x 1 pixels and its rotation. -/
example : (Img.mk 2 1 [10, 20]).Valide ∧ rotation90 (Img.mk 2 1 [10, 20]) = some ⟨1, 2, [10, 20]⟩ ∧ putiBorne 0 (Img.mk 2 1 [10, 20]) 1 (Img.mk 2 1 [30, 40]) (-1) 0 = some ⟨2, 1, [40, 20]⟩ := by
  refine ⟨by unfold Img.Valide; decide, rfl, rfl⟩

end Verif.Vue
