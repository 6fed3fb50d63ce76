/-
C169: blending and resizing of images (core/src/vue/image-bmp.cc).
-/
import Verif.Vue.Cercle

namespace Verif.Vue

/-! ## Model (exact arithmetic; the conversion of a `float` to a byte truncates) -/

/-- The positions of a double loop `y < h`, `x < l`. -/
def grille (l h : ℤ) : List (ℤ × ℤ) := (List.range h.toNat).flatMap fun y : ℕ => (List.range l.toNat).map fun x : ℕ => ((x : ℤ), (y : ℤ))

/-- Updating pixels one after the other. -/
def maj (im : Img Px) (l : List (ℤ × ℤ)) (f : ℤ → ℤ → Px → Option Px) : Option (Img Px) :=
  l.foldlM (fun (i : Img Px) (p : ℤ × ℤ) => (lit i p.1 p.2).bind fun ov : Px => (f p.1 p.2 ov).bind fun q : Px => pose i p.1 p.2 q) im

/-- The three colours are mixed, the opacity is given: core/src/vue/image-bmp.cc:689-690, 745-747, 860-866, 890-895. -/
noncomputable def mele3 (a : ℝ) (c ov : Px) (o : BitVec 8) : Option Px := (mele a c ov).map fun (p : Px) (k : Fin 4) => if k = 3 then o else p k

/-- `rectangle_plein_alpha(p0, p1, c)`, core/src/vue/image-bmp.cc:1124-1145. -/
noncomputable def rectangleAlpha (im : Img Px) (x0 y0 x1 y1 : ℤ) (c : Px) : Option (Img Px) :=
  let xmin := max 0 (min x0 x1);
  let ymin := max 0 (min y0 y1);
  let xmax := min (im.sx - 1) (max x0 x1);
  let ymax := min (im.sy - 1) (max y0 y1);
  if xmax ≥ xmin then maj im ((grille (xmax + 1 - xmin) (ymax + 1 - ymin)).map fun p : ℤ × ℤ => (p.1 + xmin, p.2 + ymin)) fun _ _ ov => mele ((c 3).toNat / 255) c ov else some im

/-- `blend(src)`, core/src/vue/image-bmp.cc:875-901: images of different sizes are an error. -/
noncomputable def blend (im src : Img Px) : Option (Img Px) :=
  if src.sx ≠ im.sx ∨ src.sy ≠ im.sy then none
  else maj im (grille im.sx im.sy) fun x y ov => (lit src x y).bind fun iv : Px => mele3 ((iv 3).toNat / 255) iv ov (ov 3)

/-- `blend_nv(src)`, core/src/vue/image-bmp.cc:840-872: the opacities of the new image, `neuf`, are never written. -/
noncomputable def blendNv (neuf : Px) (im src : Img Px) : Option (Img Px) :=
  if src.sx ≠ im.sx ∨ src.sy ≠ im.sy then none
  else maj ⟨im.sx, im.sy, List.replicate (im.sx * im.sy).toNat neuf⟩ (grille im.sx im.sy) fun x y ov =>
    (lit im x y).bind fun iv1 : Px => (lit src x y).bind fun iv2 : Px => mele3 ((iv2 3).toNat / 255) iv2 iv1 (ov 3)

/-- The loops of `puti_avec_gamma`, core/src/vue/image-bmp.cc:716-750; nothing is drawn if the image overflows to the right or to the bottom. -/
noncomputable def gammaDirect (im src : Img Px) (x y : ℤ) : Option (Img Px) :=
  if src.sx + x > im.sx ∨ src.sy + y > im.sy then some im
  else maj im ((grille src.sx src.sy).map fun p : ℤ × ℤ => (p.1 + x, p.2 + y)) fun u v ov => (lit src (u - x) (v - y)).bind fun iv : Px => mele3 ((iv 3).toNat / 255) iv ov (iv 3)

/-- `puti_avec_gamma(pos, src)`, core/src/vue/image-bmp.cc:701-750; `c` is the (indeterminate) content of a new pixel. -/
noncomputable def putiGamma (c : Px) (im src : Img Px) (x y : ℤ) : Option (Img Px) :=
  (if x < 0 then sousImage c src (-x) 0 (src.sx + x) src.sy else some src).bind fun s1 : Img Px =>
  (if y < 0 then sousImage c s1 0 (-y) s1.sx (s1.sy + y) else some s1).bind fun s2 : Img Px => gammaDirect im s2 (max 0 x) (max 0 y)

/-- The new opacity of `put_gamma`, core/src/vue/image-bmp.cc:692-695. -/
def opacite (iv ov : BitVec 8) : BitVec 8 := if 0 < iv.toNat ∧ ov.toNat = 0 then BitVec.ofNat 8 (255 - (255 - iv.toNat) / 2) else BitVec.ofNat 8 (max iv.toNat ov.toNat)

/-- `put_gamma(pos, src)`, core/src/vue/image-bmp.cc:671-699, with the drawing colour `cd`: nothing is drawn if the image overflows on any side. -/
noncomputable def putGamma (cd : Px) (im src : Img Px) (x y : ℤ) : Option (Img Px) :=
  if src.sx + x > im.sx ∨ src.sy + y > im.sy ∨ x < 0 ∨ y < 0 then some im
  else maj im ((grille src.sx src.sy).map fun p : ℤ × ℤ => (p.1 + x, p.2 + y)) fun u v ov => (lit src (u - x) (v - y)).bind fun iv : Px => mele3 ((iv 3).toNat / 255) cd ov (opacite (iv 3) (ov 3))

/-- `calc_align(p0, dim, align)`, core/src/vue/image-bmp.cc:1352-1360: -1 for the beginning, 1 for the end, 0 for the middle. -/
def calcAlign (p0 dim : ℤ) (align : ℤ) : ℤ := if align = -1 then p0 else if align = 1 then p0 - dim else p0 - dim.tdiv 2

/-! ## Specification -/

/-- `p` is the mixture of `c` and `ov` with the weight `a` of `c`, each byte rounded downwards; the opacity is not constrained. -/
def EstMelange (a : ℝ) (c ov p : Px) : Prop := ∀ k, k ≠ 3 → (p k).toNat ≤ a * (c k).toNat + (1 - a) * (ov k).toNat ∧ a * (c k).toNat + (1 - a) * (ov k).toNat < (p k).toNat + 1

/-! ## Proofs -/

theorem mem_grille (l h x y : ℤ) : (x, y) ∈ grille l h ↔ 0 ≤ x ∧ x < l ∧ 0 ≤ y ∧ y < h := by
  unfold grille
  simp only [List.mem_flatMap, List.mem_range, List.mem_map, Prod.mk.injEq]
  constructor
  · rintro ⟨b, hb, a, ha, rfl, rfl⟩
    omega
  · rintro ⟨h0, h1, h2, h3⟩
    exact ⟨y.toNat, by omega, x.toNat, by omega, by omega, by omega⟩

theorem grille_nodup (l h : ℤ) : (grille l h).Nodup := by
  unfold grille
  rw [List.nodup_flatMap]
  constructor
  · intro y _
    exact (List.nodup_range).map fun a b h => by simpa using h
  · apply List.nodup_range.imp
    intro a b hab p h1 h2
    obtain ⟨x1, -, rfl⟩ := List.mem_map.1 h1
    obtain ⟨x2, -, h⟩ := List.mem_map.1 h2
    simp only [Prod.mk.injEq, Nat.cast_inj] at h
    exact hab h.2.symm

/-- The result of the updates: each designated pixel is updated once. -/
theorem maj_val (f : ℤ → ℤ → Px → Option Px) (l : List (ℤ × ℤ)) (hnd : l.Nodup) (im : Img Px) (hv : im.Valide) (hin : ∀ p ∈ l, 0 ≤ p.1 ∧ 0 ≤ p.2 ∧ p.1 < im.sx ∧ p.2 < im.sy)
    (hf : ∀ p ∈ l, ∀ ov, im.val p.1 p.2 = some ov → ∃ q, f p.1 p.2 ov = some q) : ∃ r, maj im l f = some r ∧ r.sx = im.sx ∧ r.sy = im.sy ∧ r.Valide ∧
    ∀ u v, ((u, v) ∈ l → r.val u v = (im.val u v).bind (f u v)) ∧ ((u, v) ∉ l → r.val u v = im.val u v) := by
  unfold maj
  induction l generalizing im with
  | nil => exact ⟨im, rfl, rfl, rfl, hv, fun u v => ⟨fun h => absurd h (by simp), fun _ => rfl⟩⟩
  | cons p l ih =>
    obtain ⟨hp, hnd⟩ := List.nodup_cons.1 hnd
    have hin0 := hin p (by simp)
    obtain ⟨ov, ho⟩ := val_dedans im hv p.1 p.2 ⟨hin0.1, hin0.2.2.1, hin0.2.1, hin0.2.2.2⟩
    obtain ⟨q, hq⟩ := hf p (by simp) ov ho
    obtain ⟨i, e, i1, i2, i3, i4⟩ := pose_val im hv p.1 p.2 q hin0
    obtain ⟨r, er, r1, r2, r3, r4⟩ := ih hnd i i3 (fun p' hp' => by rw [i1, i2]; exact hin p' (List.mem_cons_of_mem _ hp')) (fun p' hp' ov' ho' => by
      rw [i4, if_neg] at ho'
      · exact hf p' (List.mem_cons_of_mem _ hp') ov' ho'
      · rintro ⟨h1, h2⟩
        exact hp (by rw [show p = p' from Prod.ext h1.symm h2.symm]; exact hp'))
    refine ⟨r, ?_, r1.trans i1, r2.trans i2, r3, fun u v => ⟨fun h => ?_, fun h => ?_⟩⟩
    · rw [List.foldlM_cons, lit_val im p.1 p.2 hv hin0, ho, Option.bind_some, hq, Option.bind_some, e]
      exact er
    · by_cases hm : (u, v) ∈ l
      · rw [(r4 u v).1 hm, i4, if_neg]
        rintro ⟨rfl, rfl⟩
        exact hp hm
      · rw [(r4 u v).2 hm, i4]
        rcases List.mem_cons.1 h with h | h
        · rw [← h] at ho hq ⊢
          rw [if_pos ⟨rfl, rfl⟩, ho, Option.bind_some, hq]
        · exact absurd h hm
    · rw [List.mem_cons, not_or] at h
      rw [(r4 u v).2 h.2, i4, if_neg]
      rintro ⟨rfl, rfl⟩
      exact h.1 rfl

/-- The exact content of a mixture. -/
theorem mele_exact (a : ℝ) (c ov : Px) (h0 : 0 ≤ a) (h1 : a ≤ 1) : ∃ p, mele a c ov = some p ∧ ∀ k, (p k).toNat ≤ a * (c k).toNat + (1 - a) * (ov k).toNat ∧ a * (c k).toNat + (1 - a) * (ov k).toNat < (p k).toNat + 1 := by
  have hb : ∀ k, 0 ≤ a * (c k).toNat + (1 - a) * (ov k).toNat ∧ a * (c k).toNat + (1 - a) * (ov k).toNat < 256 := by
    intro k
    have e1 : ((c k).toNat : ℝ) ≤ 255 := by exact_mod_cast (by have := (c k).isLt; omega : (c k).toNat ≤ 255)
    have e2 : ((ov k).toNat : ℝ) ≤ 255 := by exact_mod_cast (by have := (ov k).isLt; omega : (ov k).toNat ≤ 255)
    have z1 : (0 : ℝ) ≤ (c k).toNat := Nat.cast_nonneg _
    have z2 : (0 : ℝ) ≤ (ov k).toNat := Nat.cast_nonneg _
    constructor
    · have := mul_nonneg h0 z1
      have := mul_nonneg (sub_nonneg.2 h1) z2
      linarith
    · nlinarith [mul_le_mul_of_nonneg_left e1 h0, mul_le_mul_of_nonneg_left e2 (sub_nonneg.2 h1)]
  unfold mele
  rw [if_pos fun k => ⟨by linarith [(hb k).1], (hb k).2⟩]
  refine ⟨_, rfl, fun k => ?_⟩
  obtain ⟨b0, b1⟩ := hb k
  generalize a * (c k).toNat + (1 - a) * (ov k).toNat = w at *
  have hf : ⌊w⌋₊ < 256 := by rw [Nat.floor_lt b0]; exact_mod_cast b1
  rw [max_eq_right b0, BitVec.toNat_ofNat, Nat.mod_eq_of_lt (by omega)]
  exact ⟨Nat.floor_le b0, Nat.lt_floor_add_one w⟩

theorem mele3_exact (a : ℝ) (c ov : Px) (o : BitVec 8) (h0 : 0 ≤ a) (h1 : a ≤ 1) : ∃ p, mele3 a c ov o = some p ∧ EstMelange a c ov p ∧ p 3 = o := by
  obtain ⟨p, e, h⟩ := mele_exact a c ov h0 h1
  refine ⟨_, by unfold mele3; rw [e]; rfl, fun k hk => ?_, by simp⟩
  simp only [if_neg hk]
  exact h k

theorem octet_poids (o : BitVec 8) : (0 : ℝ) ≤ (o.toNat : ℝ) / 255 ∧ (o.toNat : ℝ) / 255 ≤ 1 := by
  have := o.isLt
  constructor
  · positivity
  · rw [div_le_one (by norm_num)]
    exact_mod_cast (by omega : o.toNat ≤ 255)

/-- A mixture with a null weight is the old colour, with the weight 1 the new one. -/
theorem EstMelange.extremes (c ov p : Px) : (EstMelange 0 c ov p → ∀ k, k ≠ 3 → p k = ov k) ∧ (EstMelange 1 c ov p → ∀ k, k ≠ 3 → p k = c k) := by
  constructor
  · intro h k hk
    obtain ⟨a, b⟩ := h k hk
    rw [zero_mul, sub_zero, one_mul, zero_add] at a b
    apply BitVec.eq_of_toNat_eq
    have a' : (p k).toNat ≤ (ov k).toNat := by exact_mod_cast a
    have b' : (ov k).toNat < (p k).toNat + 1 := by exact_mod_cast b
    omega
  · intro h k hk
    obtain ⟨a, b⟩ := h k hk
    rw [sub_self, zero_mul, add_zero, one_mul] at a b
    apply BitVec.eq_of_toNat_eq
    have a' : (p k).toNat ≤ (c k).toNat := by exact_mod_cast a
    have b' : (c k).toNat < (p k).toNat + 1 := by exact_mod_cast b
    omega

/-- **C169 (translucent rectangle).** Exactly the pixels of the image in the rectangle are mixed with the colour, in proportion to its opacity; the other ones are unchanged. -/
theorem C169_rectangle (im : Img Px) (hv : im.Valide) (x0 y0 x1 y1 : ℤ) (c : Px) : ∃ r, rectangleAlpha im x0 y0 x1 y1 c = some r ∧ r.sx = im.sx ∧ r.sy = im.sy ∧ r.Valide ∧
    ∀ u v, (min x0 x1 ≤ u ∧ u ≤ max x0 x1 ∧ min y0 y1 ≤ v ∧ v ≤ max y0 y1 → ∀ ov, im.val u v = some ov → ∃ p, r.val u v = some p ∧ EstMelange ((c 3).toNat / 255) c ov p) ∧
      (¬ (min x0 x1 ≤ u ∧ u ≤ max x0 x1 ∧ min y0 y1 ≤ v ∧ v ≤ max y0 y1) → r.val u v = im.val u v) := by
  have hval : ∀ u v ov, im.val u v = some ov → 0 ≤ u ∧ u < im.sx ∧ 0 ≤ v ∧ v < im.sy := by
    intro u v ov h
    by_contra hc
    unfold Img.val at h
    rw [if_neg hc] at h
    exact absurd h (by simp)
  unfold rectangleAlpha
  simp only
  split_ifs with hx
  · have hm : ∀ u v, (u, v) ∈ (grille (min (im.sx - 1) (max x0 x1) + 1 - max 0 (min x0 x1)) (min (im.sy - 1) (max y0 y1) + 1 - max 0 (min y0 y1))).map (fun p : ℤ × ℤ => (p.1 + max 0 (min x0 x1), p.2 + max 0 (min y0 y1))) ↔
        max 0 (min x0 x1) ≤ u ∧ u ≤ min (im.sx - 1) (max x0 x1) ∧ max 0 (min y0 y1) ≤ v ∧ v ≤ min (im.sy - 1) (max y0 y1) := by
      intro u v
      rw [List.mem_map]
      constructor
      · rintro ⟨⟨a, b⟩, hab, h⟩
        rw [mem_grille] at hab
        simp only [Prod.mk.injEq] at h
        omega
      · intro h
        exact ⟨(u - max 0 (min x0 x1), v - max 0 (min y0 y1)), (mem_grille ..).2 (by omega), by simp⟩
    obtain ⟨r, e, r1, r2, r3, r4⟩ := maj_val (fun _ _ ov => mele ((c 3).toNat / 255) c ov) _ ((grille_nodup _ _).map (f := fun p : ℤ × ℤ => (p.1 + max 0 (min x0 x1), p.2 + max 0 (min y0 y1))) (fun a b h => by
        simp only [Prod.mk.injEq] at h
        exact Prod.ext (by omega) (by omega))) im hv (fun p hp => by
        have := (hm p.1 p.2).1 hp
        omega) (fun p _ ov _ => by
        obtain ⟨q, hq, -⟩ := mele_exact _ c ov (octet_poids (c 3)).1 (octet_poids (c 3)).2
        exact ⟨q, hq⟩)
    refine ⟨r, e, r1, r2, r3, fun u v => ⟨fun h ov ho => ?_, fun h => ?_⟩⟩
    · have := hval u v ov ho
      obtain ⟨q, hq, hq'⟩ := mele_exact _ c ov (octet_poids (c 3)).1 (octet_poids (c 3)).2
      refine ⟨q, ?_, fun k _ => hq' k⟩
      rw [(r4 u v).1 ((hm u v).2 (by omega)), ho, Option.bind_some, hq]
    · apply (r4 u v).2
      rw [hm]
      omega
  · refine ⟨im, rfl, rfl, rfl, hv, fun u v => ⟨fun h ov ho => ?_, fun _ => rfl⟩⟩
    have := hval u v ov ho
    omega

/-- **C169 (blend).** Blending an image of the same size mixes each pixel in proportion to the opacity of the source and keeps the opacity of the destination; images of different sizes are an error. -/
theorem C169_blend (im src : Img Px) (hi : im.Valide) (hs : src.Valide) : (src.sx ≠ im.sx ∨ src.sy ≠ im.sy → blend im src = none) ∧
    (src.sx = im.sx → src.sy = im.sy → ∃ r, blend im src = some r ∧ r.sx = im.sx ∧ r.sy = im.sy ∧ r.Valide ∧
      ∀ u v ov iv, im.val u v = some ov → src.val u v = some iv → ∃ p, r.val u v = some p ∧ EstMelange ((iv 3).toNat / 255) iv ov p ∧ p 3 = ov 3) := by
  constructor
  · intro h
    unfold blend
    rw [if_pos h]
  · intro hx hy
    unfold blend
    rw [if_neg (by tauto)]
    have hls : ∀ u v, 0 ≤ u ∧ 0 ≤ v ∧ u < im.sx ∧ v < im.sy → lit src u v = src.val u v := fun u v h => lit_val src u v hs (by rw [hx, hy]; exact h)
    obtain ⟨r, e, r1, r2, r3, r4⟩ := maj_val (fun x y ov => (lit src x y).bind fun iv : Px => mele3 ((iv 3).toNat / 255) iv ov (ov 3)) (grille im.sx im.sy) (grille_nodup _ _) im hi
      (fun p hp => by have := (mem_grille im.sx im.sy p.1 p.2).1 hp; omega) (fun p hp ov _ => by
        have hp' := (mem_grille im.sx im.sy p.1 p.2).1 hp
        obtain ⟨iv, hiv⟩ := val_dedans src hs p.1 p.2 (by omega)
        obtain ⟨q, hq, -⟩ := mele3_exact _ iv ov (ov 3) (octet_poids (iv 3)).1 (octet_poids (iv 3)).2
        exact ⟨q, by rw [hls p.1 p.2 (by omega), hiv, Option.bind_some, hq]⟩)
    refine ⟨r, e, r1, r2, r3, fun u v ov iv ho hiv => ?_⟩
    have hin : 0 ≤ u ∧ u < im.sx ∧ 0 ≤ v ∧ v < im.sy := by
      by_contra hc
      unfold Img.val at ho
      rw [if_neg hc] at ho
      exact absurd ho (by simp)
    obtain ⟨q, hq, hq'⟩ := mele3_exact _ iv ov (ov 3) (octet_poids (iv 3)).1 (octet_poids (iv 3)).2
    exact ⟨q, by rw [(r4 u v).1 ((mem_grille ..).2 hin), ho, Option.bind_some, hls u v (by omega), hiv, Option.bind_some, hq], hq'⟩

/-- **C169 (blend in a new image).** The colours are the same as those of `blend`; the opacities are those of the new, uninitialised, image: they do not depend on the two images. -/
theorem C169_blend_nv (neuf : Px) (im src : Img Px) (hi : im.Valide) (hs : src.Valide) (hx : src.sx = im.sx) (hy : src.sy = im.sy) : ∃ r, blendNv neuf im src = some r ∧ r.sx = im.sx ∧ r.sy = im.sy ∧ r.Valide ∧
    ∀ u v ov iv, im.val u v = some ov → src.val u v = some iv → ∃ p, r.val u v = some p ∧ EstMelange ((iv 3).toNat / 255) iv ov p ∧ p 3 = neuf 3 := by
  unfold blendNv
  rw [if_neg (by tauto)]
  have hls : ∀ u v, 0 ≤ u ∧ 0 ≤ v ∧ u < im.sx ∧ v < im.sy → lit src u v = src.val u v := fun u v h => lit_val src u v hs (by rw [hx, hy]; exact h)
  have hli : ∀ u v, 0 ≤ u ∧ 0 ≤ v ∧ u < im.sx ∧ v < im.sy → lit im u v = im.val u v := fun u v h => lit_val im u v hi h
  have hn : (Img.mk im.sx im.sy (List.replicate (im.sx * im.sy).toNat neuf)).Valide := ⟨hi.1, hi.2.1, by
    have := mul_nonneg hi.1 hi.2.1
    simp [List.length_replicate, this]⟩
  obtain ⟨r, e, r1, r2, r3, r4⟩ := maj_val (fun x y ov => (lit im x y).bind fun iv1 : Px => (lit src x y).bind fun iv2 : Px => mele3 ((iv2 3).toNat / 255) iv2 iv1 (ov 3)) (grille im.sx im.sy) (grille_nodup _ _) _ hn
    (fun p hp => by have := (mem_grille im.sx im.sy p.1 p.2).1 hp; dsimp only; omega) (fun p hp ov _ => by
      have hp' := (mem_grille im.sx im.sy p.1 p.2).1 hp
      obtain ⟨iv1, hiv1⟩ := val_dedans im hi p.1 p.2 (by omega)
      obtain ⟨iv, hiv⟩ := val_dedans src hs p.1 p.2 (by omega)
      obtain ⟨q, hq, -⟩ := mele3_exact _ iv iv1 (ov 3) (octet_poids (iv 3)).1 (octet_poids (iv 3)).2
      exact ⟨q, by rw [hli p.1 p.2 (by omega), hiv1, Option.bind_some, hls p.1 p.2 (by omega), hiv, Option.bind_some, hq]⟩)
  refine ⟨r, e, r1, r2, r3, fun u v ov iv ho hiv => ?_⟩
  have hin : 0 ≤ u ∧ u < im.sx ∧ 0 ≤ v ∧ v < im.sy := by
    by_contra hc
    unfold Img.val at ho
    rw [if_neg hc] at ho
    exact absurd ho (by simp)
  obtain ⟨q, hq, hq'⟩ := mele3_exact _ iv ov (neuf 3) (octet_poids (iv 3)).1 (octet_poids (iv 3)).2
  have hnv : (Img.mk im.sx im.sy (List.replicate (im.sx * im.sy).toNat neuf)).val u v = some neuf := by
    obtain ⟨c, hc⟩ := val_dedans _ hn u v hin
    rw [hc]
    unfold Img.val at hc
    rw [if_pos hin] at hc
    have := List.mem_of_getElem? hc
    rw [List.eq_of_mem_replicate this]
  exact ⟨q, by rw [(r4 u v).1 ((mem_grille ..).2 hin), hnv, Option.bind_some, hli u v (by omega), ho, Option.bind_some, hls u v (by omega), hiv, Option.bind_some, hq], hq'⟩

theorem val_vide (im : Img Px) (u v : ℤ) (h : ¬ (0 ≤ u ∧ u < im.sx ∧ 0 ≤ v ∧ v < im.sy)) : im.val u v = none := by
  unfold Img.val
  rw [if_neg h]

/-- The loops of `puti_avec_gamma`. -/
theorem gammaDirect_val (im src : Img Px) (hi : im.Valide) (hs : src.Valide) (x y : ℤ) (hx : 0 ≤ x) (hy : 0 ≤ y) (h1 : src.sx + x ≤ im.sx) (h2 : src.sy + y ≤ im.sy) : ∃ r, gammaDirect im src x y = some r ∧ r.sx = im.sx ∧ r.sy = im.sy ∧ r.Valide ∧
    ∀ u v, (src.val (u - x) (v - y) = none → r.val u v = im.val u v) ∧ ∀ iv ov, src.val (u - x) (v - y) = some iv → im.val u v = some ov → ∃ p, r.val u v = some p ∧ EstMelange ((iv 3).toNat / 255) iv ov p ∧ p 3 = iv 3 := by
  unfold gammaDirect
  rw [if_neg (by omega)]
  have hm : ∀ u v, (u, v) ∈ (grille src.sx src.sy).map (fun p : ℤ × ℤ => (p.1 + x, p.2 + y)) ↔ 0 ≤ u - x ∧ u - x < src.sx ∧ 0 ≤ v - y ∧ v - y < src.sy := by
    intro u v
    rw [List.mem_map]
    constructor
    · rintro ⟨⟨a, b⟩, hab, h⟩
      rw [mem_grille] at hab
      simp only [Prod.mk.injEq] at h
      omega
    · intro h
      exact ⟨(u - x, v - y), (mem_grille ..).2 h, by simp⟩
  obtain ⟨r, e, r1, r2, r3, r4⟩ := maj_val (fun u v ov => (lit src (u - x) (v - y)).bind fun iv : Px => mele3 ((iv 3).toNat / 255) iv ov (iv 3)) _ ((grille_nodup _ _).map (f := fun p : ℤ × ℤ => (p.1 + x, p.2 + y)) (fun a b h => by
      simp only [Prod.mk.injEq] at h
      exact Prod.ext (by omega) (by omega))) im hi (fun p hp => by
      have := (hm p.1 p.2).1 hp
      omega) (fun p hp ov _ => by
      have hp' := (hm p.1 p.2).1 hp
      obtain ⟨iv, hiv⟩ := val_dedans src hs (p.1 - x) (p.2 - y) hp'
      obtain ⟨q, hq, -⟩ := mele3_exact _ iv ov (iv 3) (octet_poids (iv 3)).1 (octet_poids (iv 3)).2
      exact ⟨q, by rw [lit_val src _ _ hs (by omega), hiv, Option.bind_some, hq]⟩)
  refine ⟨r, e, r1, r2, r3, fun u v => ⟨fun h => ?_, fun iv ov hiv ho => ?_⟩⟩
  · apply (r4 u v).2
    rw [hm]
    intro hc
    obtain ⟨c, hc'⟩ := val_dedans src hs _ _ hc
    rw [h] at hc'
    exact absurd hc' (by simp)
  · have hin : 0 ≤ u - x ∧ u - x < src.sx ∧ 0 ≤ v - y ∧ v - y < src.sy := by
      by_contra hc
      rw [val_vide src _ _ hc] at hiv
      exact absurd hiv (by simp)
    obtain ⟨q, hq, hq'⟩ := mele3_exact _ iv ov (iv 3) (octet_poids (iv 3)).1 (octet_poids (iv 3)).2
    exact ⟨q, by rw [(r4 u v).1 ((hm u v).2 hin), ho, Option.bind_some, lit_val src _ _ hs (by omega), hiv, Option.bind_some, hq], hq'⟩

end Verif.Vue
