/-
C169: images placed with their opacity.
-/
import Verif.Vue.Melange

namespace Verif.Vue

theorem val_vide' (u v : ℤ) : (Img.mk 0 0 [] : Img Px).val u v = none := val_vide _ u v (by dsimp only; omega)

/-- Cutting the columns to the left of the destination. -/
theorem coupe_gauche (c : Px) (src : Img Px) (hs : src.Valide) (x : ℤ) : ∃ r, (if x < 0 then sousImage c src (-x) 0 (src.sx + x) src.sy else some src) = some r ∧ r.Valide ∧
    (r.sx + max 0 x = src.sx + x ∨ r.sx = 0) ∧ r.sy ≤ src.sy ∧ ∀ u v, 0 ≤ u → r.val (u - max 0 x) v = src.val (u - x) v := by
  split_ifs with hx
  · obtain ⟨r, e, hr, h1, h2⟩ := C165_sous_image c src hs (-x) 0 (src.sx + x) src.sy
    refine ⟨r, e, hr, ?_⟩
    rw [max_eq_left hx.le]
    by_cases hin : 0 ≤ -x ∧ 0 ≤ (0 : ℤ) ∧ 0 ≤ src.sx + x ∧ 0 ≤ src.sy ∧ -x + (src.sx + x) ≤ src.sx ∧ 0 + src.sy ≤ src.sy
    · obtain ⟨a, b, hval⟩ := h1 hin
      refine ⟨Or.inl (by omega), by omega, fun u v hu => ?_⟩
      rw [hval]
      split_ifs with hc
      · congr 1 <;> ring
      · rw [val_vide src _ _ (by omega)]
    · rw [h2 hin]
      refine ⟨Or.inr rfl, hs.2.1, fun u v hu => ?_⟩
      rw [val_vide']
      have := hs.2.1
      rw [val_vide src _ _ (by omega)]
  · exact ⟨src, rfl, hs, Or.inl (by rw [max_eq_right (by omega)]), le_rfl, fun u v _ => by rw [max_eq_right (by omega)]⟩

/-- Cutting the rows above the destination. -/
theorem coupe_haut (c : Px) (src : Img Px) (hs : src.Valide) (y : ℤ) : ∃ r, (if y < 0 then sousImage c src 0 (-y) src.sx (src.sy + y) else some src) = some r ∧ r.Valide ∧
    (r.sy + max 0 y = src.sy + y ∨ r.sy = 0) ∧ r.sx ≤ src.sx ∧ ∀ u v, 0 ≤ v → r.val u (v - max 0 y) = src.val u (v - y) := by
  split_ifs with hx
  · obtain ⟨r, e, hr, h1, h2⟩ := C165_sous_image c src hs 0 (-y) src.sx (src.sy + y)
    refine ⟨r, e, hr, ?_⟩
    rw [max_eq_left hx.le]
    by_cases hin : 0 ≤ (0 : ℤ) ∧ 0 ≤ -y ∧ 0 ≤ src.sx ∧ 0 ≤ src.sy + y ∧ 0 + src.sx ≤ src.sx ∧ -y + (src.sy + y) ≤ src.sy
    · obtain ⟨a, b, hval⟩ := h1 hin
      refine ⟨Or.inl (by omega), by omega, fun u v hu => ?_⟩
      rw [hval]
      split_ifs with hc
      · congr 1 <;> ring
      · rw [val_vide src _ _ (by omega)]
    · rw [h2 hin]
      refine ⟨Or.inr rfl, hs.1, fun u v hu => ?_⟩
      rw [val_vide']
      have := hs.1
      rw [val_vide src _ _ (by omega)]
  · exact ⟨src, rfl, hs, Or.inl (by rw [max_eq_right (by omega)]), le_rfl, fun u v _ => by rw [max_eq_right (by omega)]⟩

/-- **C169 (image with its opacity).** If the source does not overflow to the right or to the bottom (it can overflow to the left and to the top), each pixel of the image under the source is mixed in proportion to the opacity of the source
and takes that opacity; the other ones are unchanged. -/
theorem C169_gamma (c : Px) (im src : Img Px) (hi : im.Valide) (hs : src.Valide) (x y : ℤ) (h1 : src.sx + x ≤ im.sx) (h2 : src.sy + y ≤ im.sy) (h3 : x ≤ im.sx) (h4 : y ≤ im.sy) : ∃ r, putiGamma c im src x y = some r ∧ r.sx = im.sx ∧ r.sy = im.sy ∧ r.Valide ∧
    ∀ u v, (src.val (u - x) (v - y) = none → r.val u v = im.val u v) ∧ ∀ iv ov, src.val (u - x) (v - y) = some iv → im.val u v = some ov → ∃ p, r.val u v = some p ∧ EstMelange ((iv 3).toNat / 255) iv ov p ∧ p 3 = iv 3 := by
  obtain ⟨s1, e1, v1, d1, d1', p1⟩ := coupe_gauche c src hs x
  obtain ⟨s2, e2, v2, d2, d2', p2⟩ := coupe_haut c s1 v1 y
  have hi1 := hi.1
  have hi2 := hi.2.1
  have hs2 := v2.1
  have hs2' := v2.2.1
  obtain ⟨r, e, r1, r2, r3, r4⟩ := gammaDirect_val im s2 hi v2 (max 0 x) (max 0 y) (le_max_left _ _) (le_max_left _ _) (by omega) (by omega)
  refine ⟨r, by unfold putiGamma; rw [e1, Option.bind_some, e2, Option.bind_some, e], r1, r2, r3, fun u v => ?_⟩
  by_cases hin : 0 ≤ u ∧ u < im.sx ∧ 0 ≤ v ∧ v < im.sy
  · have hsv : s2.val (u - max 0 x) (v - max 0 y) = src.val (u - x) (v - y) := by rw [p2 _ _ hin.2.2.1, p1 _ _ hin.1]
    rw [← hsv]
    exact r4 u v
  · have hn := val_vide im u v hin
    refine ⟨fun _ => ?_, fun iv ov _ ho => ?_⟩
    · rw [hn, val_vide r u v (by rw [r1, r2]; exact hin)]
    · rw [hn] at ho
      exact absurd ho (by simp)

/-- **C169 (overflow, refuted).** An image that overflows to the right or to the bottom is not clipped: nothing is drawn at all. -/
theorem C169_deborde_refute (c : Px) (im src : Img Px) (x y : ℤ) (hx : 0 ≤ x) (hy : 0 ≤ y) (h : im.sx < src.sx + x ∨ im.sy < src.sy + y) : putiGamma c im src x y = some im := by
  unfold putiGamma
  rw [if_neg (by omega), Option.bind_some, if_neg (by omega), Option.bind_some]
  unfold gammaDirect
  rw [if_pos (by rw [max_eq_right hx, max_eq_right hy]; omega)]

/-- **C169 (mask).** When the mask is inside of the image, the colours of each pixel under the mask are mixed with the drawing colour in proportion to the opacity of the mask; the opacity never decreases, and the other pixels are unchanged.
A mask that overflows draws nothing. -/
theorem C169_masque (cd : Px) (im src : Img Px) (hi : im.Valide) (hs : src.Valide) (x y : ℤ) : ∃ r, putGamma cd im src x y = some r ∧ r.sx = im.sx ∧ r.sy = im.sy ∧ r.Valide ∧
    (0 ≤ x ∧ 0 ≤ y ∧ src.sx + x ≤ im.sx ∧ src.sy + y ≤ im.sy → ∀ u v, (src.val (u - x) (v - y) = none → r.val u v = im.val u v) ∧ ∀ iv ov, src.val (u - x) (v - y) = some iv → im.val u v = some ov →
      ∃ p, r.val u v = some p ∧ EstMelange ((iv 3).toNat / 255) cd ov p ∧ (ov 3).toNat ≤ (p 3).toNat ∧ (iv 3).toNat ≤ (p 3).toNat) ∧
    (¬ (0 ≤ x ∧ 0 ≤ y ∧ src.sx + x ≤ im.sx ∧ src.sy + y ≤ im.sy) → r = im) := by
  unfold putGamma
  split_ifs with hd
  · exact ⟨im, rfl, rfl, rfl, hi, fun h => by omega, fun _ => rfl⟩
  · have hm : ∀ u v, (u, v) ∈ (grille src.sx src.sy).map (fun p : ℤ × ℤ => (p.1 + x, p.2 + y)) ↔ 0 ≤ u - x ∧ u - x < src.sx ∧ 0 ≤ v - y ∧ v - y < src.sy := by
      intro u v
      rw [List.mem_map]
      constructor
      · rintro ⟨⟨a, b⟩, hab, h⟩
        rw [mem_grille] at hab
        simp only [Prod.mk.injEq] at h
        omega
      · intro h
        exact ⟨(u - x, v - y), (mem_grille ..).2 h, by simp⟩
    have hop : ∀ a b : BitVec 8, b.toNat ≤ (opacite a b).toNat ∧ a.toNat ≤ (opacite a b).toNat := by
      intro a b
      have ha := a.isLt
      have hb := b.isLt
      unfold opacite
      split_ifs with h
      · rw [BitVec.toNat_ofNat, Nat.mod_eq_of_lt (by omega)]; omega
      · rw [BitVec.toNat_ofNat, Nat.mod_eq_of_lt (by omega)]; omega
    obtain ⟨r, e, r1, r2, r3, r4⟩ := maj_val (fun u v ov => (lit src (u - x) (v - y)).bind fun iv : Px => mele3 ((iv 3).toNat / 255) cd ov (opacite (iv 3) (ov 3))) _ ((grille_nodup _ _).map (f := fun p : ℤ × ℤ => (p.1 + x, p.2 + y)) (fun a b h => by
        simp only [Prod.mk.injEq] at h
        exact Prod.ext (by omega) (by omega))) im hi (fun p hp => by
        have := (hm p.1 p.2).1 hp
        omega) (fun p hp ov _ => by
        have hp' := (hm p.1 p.2).1 hp
        obtain ⟨iv, hiv⟩ := val_dedans src hs (p.1 - x) (p.2 - y) hp'
        obtain ⟨q, hq, -⟩ := mele3_exact _ cd ov (opacite (iv 3) (ov 3)) (octet_poids (iv 3)).1 (octet_poids (iv 3)).2
        exact ⟨q, by rw [lit_val src _ _ hs (by omega), hiv, Option.bind_some, hq]⟩)
    refine ⟨r, e, r1, r2, r3, fun _ u v => ⟨fun h => ?_, fun iv ov hiv ho => ?_⟩, fun h => by omega⟩
    · apply (r4 u v).2
      rw [hm]
      intro hc
      obtain ⟨c, hc'⟩ := val_dedans src hs _ _ hc
      rw [h] at hc'
      exact absurd hc' (by simp)
    · have hin : 0 ≤ u - x ∧ u - x < src.sx ∧ 0 ≤ v - y ∧ v - y < src.sy := by
        by_contra hc
        rw [val_vide src _ _ hc] at hiv
        exact absurd hiv (by simp)
      obtain ⟨q, hq, hq1, hq2⟩ := mele3_exact _ cd ov (opacite (iv 3) (ov 3)) (octet_poids (iv 3)).1 (octet_poids (iv 3)).2
      refine ⟨q, by rw [(r4 u v).1 ((hm u v).2 hin), ho, Option.bind_some, lit_val src _ _ hs (by omega), hiv, Option.bind_some, hq], hq1, ?_⟩
      rw [hq2]
      exact hop _ _

/-- **C169 (alignment).** The box of a text of size `dim` starts at the point, ends at it, or has it in its middle up to one half pixel. -/
theorem C169_alignement (p0 dim : ℤ) (hd : 0 ≤ dim) : calcAlign p0 dim (-1) = p0 ∧ calcAlign p0 dim 1 + dim = p0 ∧ 2 * calcAlign p0 dim 0 + dim ≤ 2 * p0 + 1 ∧ 2 * p0 ≤ 2 * calcAlign p0 dim 0 + dim := by
  unfold calcAlign
  norm_num
  rw [Int.tdiv_eq_ediv_of_nonneg hd]
  omega

/-- Non-vacuity: a 2 × 1 source placed in a 3 × 2 image, partly to the left of it. -/
example : ∃ r, putiGamma (fun _ => 0#8) ⟨3, 2, List.replicate 6 (fun _ => 10#8)⟩ ⟨2, 1, [fun _ => 255#8, fun _ => 255#8]⟩ (-1) 1 = some r ∧ ∃ p, r.val 0 1 = some p ∧ p 3 = 255#8 := by
  obtain ⟨r, e, -, -, -, h⟩ := C169_gamma (fun _ => 0#8) ⟨3, 2, List.replicate 6 (fun _ => 10#8)⟩ ⟨2, 1, [fun _ => 255#8, fun _ => 255#8]⟩ ⟨by norm_num, by norm_num, by simp⟩ ⟨by norm_num, by norm_num, by simp⟩ (-1) 1
    (by norm_num) (by norm_num) (by norm_num) (by norm_num)
  obtain ⟨p, hp, -, hp3⟩ := (h 0 1).2 (fun _ => 255#8) (fun _ => 10#8) (by simp [Img.val]) (by simp [Img.val])
  exact ⟨r, e, p, hp, hp3⟩

end Verif.Vue
