/-
C170: resizing of images (core/src/vue/image-bmp.cc).
-/
import Verif.Vue.Melange

namespace Verif.Vue

/-! ## Model (exact arithmetic) -/

/-- `pixel_e(x, y)`: the nearest pixel of the image, core/src/vue/image-bmp.cc:1055-1060; `none` on an empty image (null pointer). -/
def pixelE (im : Img Px) (x y : ℤ) : Option Px := lit im (max 0 (min x (im.sx - 1))) (max 0 (min y (im.sy - 1)))

/-- A new image; `neuf` is the (indeterminate) content of its pixels, core/src/vue/image-bmp.cc:602-610. -/
def nouvelle (neuf : Px) (l h : ℤ) : Img Px := ⟨l, h, List.replicate (l * h).toNat neuf⟩

/-- The decimation by two of `redim`, core/src/vue/image-bmp.cc:1070-1087. -/
def moitie (neuf : Px) (im : Img Px) : Option (Img Px) :=
  maj (nouvelle neuf (im.sx / 2) (im.sy / 2)) (grille (im.sx / 2) (im.sy / 2)) fun x y _ =>
    (lit im (2 * x) (2 * y)).bind fun p00 : Px => (lit im (2 * x + 1) (2 * y)).bind fun p01 : Px => (lit im (2 * x) (2 * y + 1)).bind fun p10 : Px => (lit im (2 * x + 1) (2 * y + 1)).map fun (p11 : Px) (k : Fin 4) =>
      BitVec.ofNat 8 (((p00 k).toNat + (p01 k).toNat + (p10 k).toNat + (p11 k).toNat) / 4)

/-- The value of the bilinear interpolation, core/src/vue/image-bmp.cc:1112-1114. -/
noncomputable def bilineaire (rx ry a b c d : ℝ) : ℝ := (a * (1 - rx) + b * rx) * (1 - ry) + (c * (1 - rx) + d * rx) * ry

open Classical in
/-- The interpolated pixel, core/src/vue/image-bmp.cc:1110-1115; `none`: conversion outside of the range of a byte. -/
noncomputable def pixelBil (rx ry : ℝ) (p00 p01 p10 p11 : Px) : Option Px :=
  if ∀ k, -1 < bilineaire rx ry (p00 k).toNat (p01 k).toNat (p10 k).toNat (p11 k).toNat ∧ bilineaire rx ry (p00 k).toNat (p01 k).toNat (p10 k).toNat (p11 k).toNat < 256 then
    some fun k => BitVec.ofNat 8 ⌊max 0 (bilineaire rx ry (p00 k).toNat (p01 k).toNat (p10 k).toNat (p11 k).toNat)⌋₊ else none

/-- One pixel of the bilinear interpolation, core/src/vue/image-bmp.cc:1096-1116; `none` if `l = 1` or `h = 1`: 0 / 0 is not a number and its conversion to an integer is undefined. -/
noncomputable def pixelRedim (im : Img Px) (l h x y : ℤ) : Option Px :=
  if l = 1 ∨ h = 1 then none
  else
    let xe : ℝ := (x : ℝ) / (l - 1) * im.sx;
    let ye : ℝ := (y : ℝ) / (h - 1) * im.sy;
    let xi := ⌊xe⌋;
    let yi := ⌊ye⌋;
    (pixelE im xi yi).bind fun p00 : Px => (pixelE im (xi + 1) yi).bind fun p01 : Px => (pixelE im xi (yi + 1)).bind fun p10 : Px => (pixelE im (xi + 1) (yi + 1)).bind fun p11 : Px => pixelBil (xe - xi) (ye - yi) p00 p01 p10 p11

/-- The bilinear interpolation of `redim`, core/src/vue/image-bmp.cc:1090-1120. -/
noncomputable def redimBil (neuf : Px) (im : Img Px) (l h : ℤ) : Option (Img Px) := maj (nouvelle neuf l h) (grille l h) fun x y _ => pixelRedim im l h x y

/-- `redim(l, h)`, core/src/vue/image-bmp.cc:1066-1121, with at most `n` decimations (`none` when they do not suffice). -/
noncomputable def redimBorne (neuf : Px) (l h : ℤ) : ℕ → Img Px → Option (Img Px)
  | n, im =>
    if l < im.sx / 2 ∧ h < im.sy / 2 then
      match n with
      | 0 => none
      | n + 1 => (moitie neuf im).bind fun m : Img Px => redimBorne neuf l h n m
    else redimBil neuf im l h

/-- `redim(l, h)`: `sx` decimations always suffice. -/
noncomputable def redim (neuf : Px) (im : Img Px) (l h : ℤ) : Option (Img Px) := redimBorne neuf l h im.sx.toNat im

/-! ## Specification -/

/-- Every byte `k` of every pixel is between the bounds. -/
def Img.Entre (im : Img Px) (lo hi : Fin 4 → ℕ) : Prop := ∀ u v p, im.val u v = some p → ∀ k, lo k ≤ (p k).toNat ∧ (p k).toNat ≤ hi k

/-! ## Proofs -/

theorem nouvelle_valide (neuf : Px) (l h : ℤ) (hl : 0 ≤ l) (hh : 0 ≤ h) : (nouvelle neuf l h).Valide := ⟨hl, hh, by unfold nouvelle; rw [List.length_replicate]; exact Int.toNat_of_nonneg (mul_nonneg hl hh)⟩

/-- An image made pixel by pixel. -/
theorem fabrique (neuf : Px) (l h : ℤ) (hl : 0 ≤ l) (hh : 0 ≤ h) (f : ℤ → ℤ → Option Px) (hf : ∀ x y, 0 ≤ x ∧ x < l ∧ 0 ≤ y ∧ y < h → ∃ q, f x y = some q) : ∃ r, maj (nouvelle neuf l h) (grille l h) (fun x y _ => f x y) = some r ∧
    r.sx = l ∧ r.sy = h ∧ r.Valide ∧ ∀ u v, 0 ≤ u ∧ u < l ∧ 0 ≤ v ∧ v < h → r.val u v = f u v := by
  obtain ⟨r, e, r1, r2, r3, r4⟩ := maj_val (fun x y _ => f x y) (grille l h) (grille_nodup l h) (nouvelle neuf l h) (nouvelle_valide neuf l h hl hh)
    (fun p hp => by have := (mem_grille l h p.1 p.2).1 hp; unfold nouvelle; dsimp only; omega) (fun p hp ov _ => hf p.1 p.2 ((mem_grille l h p.1 p.2).1 hp))
  refine ⟨r, e, r1, r2, r3, fun u v hin => ?_⟩
  rw [(r4 u v).1 ((mem_grille ..).2 hin)]
  obtain ⟨c, hc⟩ := val_dedans _ (nouvelle_valide neuf l h hl hh) u v hin
  rw [hc, Option.bind_some]

/-- The decimation: each byte is the mean of the four ones, rounded downwards. -/
theorem moitie_val (neuf : Px) (im : Img Px) (hv : im.Valide) : ∃ r, moitie neuf im = some r ∧ r.sx = im.sx / 2 ∧ r.sy = im.sy / 2 ∧ r.Valide ∧
    ∀ u v p, r.val u v = some p → ∃ a b c d, im.val (2 * u) (2 * v) = some a ∧ im.val (2 * u + 1) (2 * v) = some b ∧ im.val (2 * u) (2 * v + 1) = some c ∧ im.val (2 * u + 1) (2 * v + 1) = some d ∧
      ∀ k, (p k).toNat = ((a k).toNat + (b k).toNat + (c k).toNat + (d k).toNat) / 4 := by
  have h1 := hv.1
  have h2 := hv.2.1
  have key : ∀ x y, 0 ≤ x ∧ x < im.sx / 2 ∧ 0 ≤ y ∧ y < im.sy / 2 → ∃ a b c d, im.val (2 * x) (2 * y) = some a ∧ im.val (2 * x + 1) (2 * y) = some b ∧ im.val (2 * x) (2 * y + 1) = some c ∧ im.val (2 * x + 1) (2 * y + 1) = some d ∧
      ((lit im (2 * x) (2 * y)).bind fun p00 : Px => (lit im (2 * x + 1) (2 * y)).bind fun p01 : Px => (lit im (2 * x) (2 * y + 1)).bind fun p10 : Px => (lit im (2 * x + 1) (2 * y + 1)).map fun (p11 : Px) (k : Fin 4) =>
      BitVec.ofNat 8 (((p00 k).toNat + (p01 k).toNat + (p10 k).toNat + (p11 k).toNat) / 4)) = some fun k : Fin 4 => BitVec.ofNat 8 (((a k).toNat + (b k).toNat + (c k).toNat + (d k).toNat) / 4) := by
    intro x y h
    obtain ⟨a, ha⟩ := val_dedans im hv (2 * x) (2 * y) (by omega)
    obtain ⟨b, hb⟩ := val_dedans im hv (2 * x + 1) (2 * y) (by omega)
    obtain ⟨c, hc⟩ := val_dedans im hv (2 * x) (2 * y + 1) (by omega)
    obtain ⟨d, hd⟩ := val_dedans im hv (2 * x + 1) (2 * y + 1) (by omega)
    refine ⟨a, b, c, d, ha, hb, hc, hd, ?_⟩
    rw [lit_val im _ _ hv (by omega), lit_val im _ _ hv (by omega), lit_val im _ _ hv (by omega), lit_val im _ _ hv (by omega), ha, hb, hc, hd]
    rfl
  obtain ⟨r, e, r1, r2, r3, r4⟩ := fabrique neuf (im.sx / 2) (im.sy / 2) (by omega) (by omega) _ (fun x y h => by
    obtain ⟨a, b, c, d, -, -, -, -, q⟩ := key x y h
    exact ⟨_, q⟩)
  refine ⟨r, e, r1, r2, r3, fun u v p hp => ?_⟩
  have hin : 0 ≤ u ∧ u < im.sx / 2 ∧ 0 ≤ v ∧ v < im.sy / 2 := by
    by_contra hc
    rw [val_vide r u v (by rw [r1, r2]; exact hc)] at hp
    exact absurd hp (by simp)
  obtain ⟨a, b, c, d, ha, hb, hc, hd, q⟩ := key u v hin
  refine ⟨a, b, c, d, ha, hb, hc, hd, fun k => ?_⟩
  rw [r4 u v hin, q] at hp
  rw [← Option.some.inj hp, BitVec.toNat_ofNat, Nat.mod_eq_of_lt]
  have := (a k).isLt
  have := (b k).isLt
  have := (c k).isLt
  have := (d k).isLt
  omega

theorem moitie_entre (neuf : Px) (im m : Img Px) (hv : im.Valide) (lo hi : Fin 4 → ℕ) (hb : im.Entre lo hi) (h : moitie neuf im = some m) : m.Entre lo hi := by
  obtain ⟨r, e, -, -, -, hr⟩ := moitie_val neuf im hv
  rw [e] at h
  rw [← Option.some.inj h]
  intro u v p hp k
  obtain ⟨a, b, c, d, ha, hb', hc, hd, hk⟩ := hr u v p hp
  have := hb _ _ _ ha k
  have := hb _ _ _ hb' k
  have := hb _ _ _ hc k
  have := hb _ _ _ hd k
  rw [hk k]
  omega

/-- The bilinear interpolation is between the extreme values. -/
theorem bilineaire_borne (rx ry a b c d lo hi : ℝ) (h0 : 0 ≤ rx) (h1 : rx ≤ 1) (h2 : 0 ≤ ry) (h3 : ry ≤ 1) (ha : lo ≤ a ∧ a ≤ hi) (hb : lo ≤ b ∧ b ≤ hi) (hc : lo ≤ c ∧ c ≤ hi) (hd : lo ≤ d ∧ d ≤ hi) :
    lo ≤ bilineaire rx ry a b c d ∧ bilineaire rx ry a b c d ≤ hi := by
  have mix : ∀ t u v : ℝ, 0 ≤ t → t ≤ 1 → lo ≤ u ∧ u ≤ hi → lo ≤ v ∧ v ≤ hi → lo ≤ u * (1 - t) + v * t ∧ u * (1 - t) + v * t ≤ hi := by
    intro t u v t0 t1 hu hv
    constructor
    · nlinarith [mul_le_mul_of_nonneg_right hu.1 (sub_nonneg.2 t1), mul_le_mul_of_nonneg_right hv.1 t0]
    · nlinarith [mul_le_mul_of_nonneg_right hu.2 (sub_nonneg.2 t1), mul_le_mul_of_nonneg_right hv.2 t0]
  exact mix ry _ _ h2 h3 (mix rx a b h0 h1 ha hb) (mix rx c d h0 h1 hc hd)

theorem pixelBil_val (rx ry : ℝ) (h0 : 0 ≤ rx) (h1 : rx ≤ 1) (h2 : 0 ≤ ry) (h3 : ry ≤ 1) (a b c d : Px) : ∃ p, pixelBil rx ry a b c d = some p ∧ ∀ k, ((p k).toNat : ℝ) ≤ bilineaire rx ry (a k).toNat (b k).toNat (c k).toNat (d k).toNat ∧
    bilineaire rx ry (a k).toNat (b k).toNat (c k).toNat (d k).toNat < (p k).toNat + 1 := by
  have oct : ∀ o : BitVec 8, (0 : ℝ) ≤ (o.toNat : ℝ) ∧ (o.toNat : ℝ) ≤ 255 := by
    intro o
    refine ⟨Nat.cast_nonneg _, ?_⟩
    have := o.isLt
    exact_mod_cast (by omega : o.toNat ≤ 255)
  have hb : ∀ k, 0 ≤ bilineaire rx ry (a k).toNat (b k).toNat (c k).toNat (d k).toNat ∧ bilineaire rx ry (a k).toNat (b k).toNat (c k).toNat (d k).toNat ≤ 255 := fun k =>
    bilineaire_borne rx ry _ _ _ _ 0 255 h0 h1 h2 h3 (oct _) (oct _) (oct _) (oct _)
  unfold pixelBil
  rw [if_pos fun k => ⟨by linarith [(hb k).1], by linarith [(hb k).2]⟩]
  refine ⟨_, rfl, fun k => ?_⟩
  obtain ⟨b0, b1⟩ := hb k
  generalize bilineaire rx ry (a k).toNat (b k).toNat (c k).toNat (d k).toNat = w at *
  have hf : ⌊w⌋₊ < 256 := by rw [Nat.floor_lt b0]; push_cast; linarith
  rw [max_eq_right b0, BitVec.toNat_ofNat, Nat.mod_eq_of_lt (by omega)]
  exact ⟨Nat.floor_le b0, Nat.lt_floor_add_one w⟩

theorem pixelE_val (im : Img Px) (hv : im.Valide) (h1 : 0 < im.sx) (h2 : 0 < im.sy) (x y : ℤ) : ∃ p, pixelE im x y = some p ∧ im.val (max 0 (min x (im.sx - 1))) (max 0 (min y (im.sy - 1))) = some p := by
  obtain ⟨p, hp⟩ := val_dedans im hv (max 0 (min x (im.sx - 1))) (max 0 (min y (im.sy - 1))) (by omega)
  exact ⟨p, by unfold pixelE; rw [lit_val im _ _ hv (by omega), hp], hp⟩

/-- One pixel of the bilinear interpolation. -/
theorem pixelRedim_val (im : Img Px) (hv : im.Valide) (h1 : 0 < im.sx) (h2 : 0 < im.sy) (l h : ℤ) (hl : l ≠ 1) (hh : h ≠ 1) (x y : ℤ) : ∃ p a b c d, pixelRedim im l h x y = some p ∧
    (let xe : ℝ := (x : ℝ) / (l - 1) * im.sx; let ye : ℝ := (y : ℝ) / (h - 1) * im.sy;
      pixelE im ⌊xe⌋ ⌊ye⌋ = some a ∧ pixelE im (⌊xe⌋ + 1) ⌊ye⌋ = some b ∧ pixelE im ⌊xe⌋ (⌊ye⌋ + 1) = some c ∧ pixelE im (⌊xe⌋ + 1) (⌊ye⌋ + 1) = some d ∧
      ∀ k, ((p k).toNat : ℝ) ≤ bilineaire (xe - ⌊xe⌋) (ye - ⌊ye⌋) (a k).toNat (b k).toNat (c k).toNat (d k).toNat ∧ bilineaire (xe - ⌊xe⌋) (ye - ⌊ye⌋) (a k).toNat (b k).toNat (c k).toNat (d k).toNat < (p k).toNat + 1) := by
  unfold pixelRedim
  rw [if_neg (by tauto)]
  simp only
  generalize (x : ℝ) / (l - 1) * im.sx = xe
  generalize (y : ℝ) / (h - 1) * im.sy = ye
  obtain ⟨a, ha, -⟩ := pixelE_val im hv h1 h2 ⌊xe⌋ ⌊ye⌋
  obtain ⟨b, hb, -⟩ := pixelE_val im hv h1 h2 (⌊xe⌋ + 1) ⌊ye⌋
  obtain ⟨c, hc, -⟩ := pixelE_val im hv h1 h2 ⌊xe⌋ (⌊ye⌋ + 1)
  obtain ⟨d, hd, -⟩ := pixelE_val im hv h1 h2 (⌊xe⌋ + 1) (⌊ye⌋ + 1)
  have f1 := Int.fract_nonneg xe
  have f2 := (Int.fract_lt_one xe).le
  have f3 := Int.fract_nonneg ye
  have f4 := (Int.fract_lt_one ye).le
  obtain ⟨p, hp, hk⟩ := pixelBil_val (xe - ⌊xe⌋) (ye - ⌊ye⌋) f1 f2 f3 f4 a b c d
  exact ⟨p, a, b, c, d, by rw [ha, Option.bind_some, hb, Option.bind_some, hc, Option.bind_some, hd, Option.bind_some, hp], ha, hb, hc, hd, hk⟩

/-- The bilinear interpolation keeps the bounds. -/
theorem redimBil_ok (neuf : Px) (im : Img Px) (hv : im.Valide) (h1 : 0 < im.sx) (h2 : 0 < im.sy) (l h : ℤ) (hl : 2 ≤ l) (hh : 2 ≤ h) (lo hi : Fin 4 → ℕ) (hb : im.Entre lo hi) : ∃ r, redimBil neuf im l h = some r ∧ r.sx = l ∧ r.sy = h ∧ r.Valide ∧ r.Entre lo hi ∧
    ∀ u v, 0 ≤ u ∧ u < l ∧ 0 ≤ v ∧ v < h → r.val u v = pixelRedim im l h u v := by
  obtain ⟨r, e, r1, r2, r3, r4⟩ := fabrique neuf l h (by omega) (by omega) (pixelRedim im l h) (fun x y _ => by
    obtain ⟨p, a, b, c, d, hp, -⟩ := pixelRedim_val im hv h1 h2 l h (by omega) (by omega) x y
    exact ⟨p, hp⟩)
  refine ⟨r, e, r1, r2, r3, fun u v p hp k => ?_, r4⟩
  have hin : 0 ≤ u ∧ u < l ∧ 0 ≤ v ∧ v < h := by
    by_contra hc
    rw [val_vide r u v (by rw [r1, r2]; exact hc)] at hp
    exact absurd hp (by simp)
  obtain ⟨p', a, b, c, d, hp', ha, hb', hc, hd, hk⟩ := pixelRedim_val im hv h1 h2 l h (by omega) (by omega) u v
  rw [r4 u v hin, hp'] at hp
  rw [← Option.some.inj hp]
  have bo : ∀ (x y : ℤ) (q : Px), pixelE im x y = some q → (lo k : ℝ) ≤ (q k).toNat ∧ ((q k).toNat : ℝ) ≤ hi k := by
    intro x y q hq
    obtain ⟨q', e1, e2⟩ := pixelE_val im hv h1 h2 x y
    rw [e1] at hq
    rw [← Option.some.inj hq]
    have := hb _ _ _ e2 k
    exact_mod_cast this
  obtain ⟨w1, w2⟩ := bilineaire_borne _ _ _ _ _ _ _ _ (Int.fract_nonneg ((u : ℝ) / (l - 1) * im.sx)) (Int.fract_lt_one _).le (Int.fract_nonneg ((v : ℝ) / (h - 1) * im.sy)) (Int.fract_lt_one _).le (bo _ _ _ ha) (bo _ _ _ hb') (bo _ _ _ hc) (bo _ _ _ hd)
  obtain ⟨k1, k2⟩ := hk k
  constructor
  · have : (lo k : ℝ) < (p' k).toNat + 1 := lt_of_le_of_lt w1 k2
    have : lo k < (p' k).toNat + 1 := by exact_mod_cast this
    omega
  · have := k1.trans w2
    exact_mod_cast this

/-- **C170 (resizing).** For every non empty image and every target of at least two rows and two columns, the resizing is defined, has the requested size, and creates no new extreme value: every byte stays between the bounds of the source. -/
theorem C170_redim (neuf : Px) (im : Img Px) (hv : im.Valide) (h1 : 0 < im.sx) (h2 : 0 < im.sy) (l h : ℤ) (hl : 2 ≤ l) (hh : 2 ≤ h) (lo hi : Fin 4 → ℕ) (hb : im.Entre lo hi) : ∃ r, redim neuf im l h = some r ∧ r.sx = l ∧ r.sy = h ∧ r.Valide ∧ r.Entre lo hi := by
  have key : ∀ (n : ℕ) (im : Img Px), im.Valide → 0 < im.sx → 0 < im.sy → im.sx ≤ n → im.Entre lo hi → ∃ r, redimBorne neuf l h n im = some r ∧ r.sx = l ∧ r.sy = h ∧ r.Valide ∧ r.Entre lo hi := by
    intro n
    induction n with
    | zero => intro im _ h1 _ hn; push_cast at hn; omega
    | succ n ih =>
      intro im hv h1 h2 hn hb
      unfold redimBorne
      split_ifs with hc
      · obtain ⟨m, em, m1, m2, m3, -⟩ := moitie_val neuf im hv
        obtain ⟨r, er⟩ := ih m m3 (by omega) (by omega) (by push_cast at hn; omega) (moitie_entre neuf im m hv lo hi hb em)
        exact ⟨r, by dsimp only; rw [em, Option.bind_some]; exact er.1, er.2⟩
      · obtain ⟨r, e, a, b, c, d, -⟩ := redimBil_ok neuf im hv h1 h2 l h hl hh lo hi hb
        exact ⟨r, e, a, b, c, d⟩
  exact key im.sx.toNat im hv h1 h2 (by omega) hb

/-- **C170 (uniform image).** An image of one colour stays of that colour. -/
theorem C170_uniforme (neuf : Px) (im : Img Px) (hv : im.Valide) (h1 : 0 < im.sx) (h2 : 0 < im.sy) (l h : ℤ) (hl : 2 ≤ l) (hh : 2 ≤ h) (c : Px) (hc : ∀ u v p, im.val u v = some p → p = c) : ∃ r, redim neuf im l h = some r ∧ r.sx = l ∧ r.sy = h ∧ ∀ u v p, r.val u v = some p → p = c := by
  obtain ⟨r, e, r1, r2, -, r4⟩ := C170_redim neuf im hv h1 h2 l h hl hh (fun k => (c k).toNat) (fun k => (c k).toNat) (fun u v p hp k => by rw [hc u v p hp]; exact ⟨le_rfl, le_rfl⟩)
  refine ⟨r, e, r1, r2, fun u v p hp => ?_⟩
  funext k
  apply BitVec.eq_of_toNat_eq
  have := r4 u v p hp k
  dsimp only at this
  omega

/-- **C170 (corners).** When no decimation is needed, the four corners of the result are those of the source. -/
theorem C170_coins (neuf : Px) (im : Img Px) (hv : im.Valide) (h1 : 0 < im.sx) (h2 : 0 < im.sy) (l h : ℤ) (hl : 2 ≤ l) (hh : 2 ≤ h) (hd : ¬ (l < im.sx / 2 ∧ h < im.sy / 2)) : ∃ r, redim neuf im l h = some r ∧
    r.val 0 0 = im.val 0 0 ∧ r.val (l - 1) 0 = im.val (im.sx - 1) 0 ∧ r.val 0 (h - 1) = im.val 0 (im.sy - 1) ∧ r.val (l - 1) (h - 1) = im.val (im.sx - 1) (im.sy - 1) := by
  obtain ⟨r, e, -, -, -, -, hr⟩ := redimBil_ok neuf im hv h1 h2 l h hl hh (fun _ => 0) (fun _ => 255) (fun u v p _ k => ⟨Nat.zero_le _, by have := (p k).isLt; dsimp only; omega⟩)
  have hl' : ((l : ℝ) - 1) ≠ 0 := by
    have : (2 : ℝ) ≤ l := by exact_mod_cast hl
    intro h; linarith
  have hh' : ((h : ℝ) - 1) ≠ 0 := by
    have : (2 : ℝ) ≤ h := by exact_mod_cast hh
    intro h; linarith
  -- a pixel whose position is an integer takes the value of the nearest pixel
  have entier : ∀ (u v X Y : ℤ), 0 ≤ u ∧ u < l ∧ 0 ≤ v ∧ v < h → (u : ℝ) / (l - 1) * im.sx = X → (v : ℝ) / (h - 1) * im.sy = Y → r.val u v = im.val (max 0 (min X (im.sx - 1))) (max 0 (min Y (im.sy - 1))) := by
    intro u v X Y hin hX hY
    obtain ⟨p, a, b, c, d, hp, ha, -, -, -, hk⟩ := pixelRedim_val im hv h1 h2 l h (by omega) (by omega) u v
    rw [hX, hY] at hk ha
    rw [Int.floor_intCast, Int.floor_intCast] at ha
    obtain ⟨a', e1, e2⟩ := pixelE_val im hv h1 h2 X Y
    rw [e1] at ha
    rw [hr u v hin, hp, e2]
    congr 1
    funext k
    apply BitVec.eq_of_toNat_eq
    have := hk k
    unfold bilineaire at this
    rw [Int.floor_intCast, Int.floor_intCast, sub_self, sub_self] at this
    simp only [sub_zero, mul_one, mul_zero, add_zero] at this
    obtain ⟨t1, t2⟩ := this
    have t1' : (p k).toNat ≤ (a k).toNat := by exact_mod_cast t1
    have t2' : (a k).toNat < (p k).toNat + 1 := by exact_mod_cast t2
    rw [Option.some.inj ha]
    omega
  have z0 : ((0 : ℤ) : ℝ) / (l - 1) * im.sx = (0 : ℤ) := by simp
  have z0' : ((0 : ℤ) : ℝ) / (h - 1) * im.sy = (0 : ℤ) := by simp
  have zl : ((l - 1 : ℤ) : ℝ) / (l - 1) * im.sx = im.sx := by push_cast; rw [div_self hl', one_mul]
  have zh : ((h - 1 : ℤ) : ℝ) / (h - 1) * im.sy = im.sy := by push_cast; rw [div_self hh', one_mul]
  refine ⟨r, ?_, ?_, ?_, ?_, ?_⟩
  · unfold redim
    cases hn : im.sx.toNat with
    | zero => unfold redimBorne; rw [if_neg hd]; exact e
    | succ n => unfold redimBorne; rw [if_neg hd]; exact e
  · rw [entier 0 0 0 0 (by omega) z0 z0']
    congr 1 <;> omega
  · rw [entier (l - 1) 0 im.sx 0 (by omega) zl z0']
    congr 1 <;> omega
  · rw [entier 0 (h - 1) 0 im.sy (by omega) z0 zh]
    congr 1 <;> omega
  · rw [entier (l - 1) (h - 1) im.sx im.sy (by omega) zl zh]
    congr 1 <;> omega

/-- **C170 (one column or row, refuted).** Resizing to one column or to one row is never defined: the relative position is 0 / 0. -/
theorem C170_un_refute (neuf : Px) (im : Img Px) (l h : ℤ) (hl : 1 ≤ l) (hh : 1 ≤ h) (hu : l = 1 ∨ h = 1) : redim neuf im l h = none := by
  have bil : ∀ i : Img Px, redimBil neuf i l h = none := by
    intro i
    unfold redimBil maj
    obtain ⟨n, hn⟩ : ∃ n, grille l h = (0, 0) :: n := by
      unfold grille
      obtain ⟨a, ha⟩ : ∃ a, l.toNat = a + 1 := ⟨l.toNat - 1, by omega⟩
      obtain ⟨b, hb⟩ : ∃ b, h.toNat = b + 1 := ⟨h.toNat - 1, by omega⟩
      rw [ha, hb, List.range_succ_eq_map, List.range_succ_eq_map]
      simp
    rw [hn, List.foldlM_cons]
    have : pixelRedim i l h 0 0 = none := by unfold pixelRedim; rw [if_pos hu]
    simp only [this, Option.bind_none]
    cases lit (nouvelle neuf l h) 0 0 <;> rfl
  have key : ∀ (n : ℕ) (i : Img Px), redimBorne neuf l h n i = none := by
    intro n
    induction n with
    | zero =>
      intro i
      unfold redimBorne
      split_ifs
      · rfl
      · exact bil i
    | succ n ih =>
      intro i
      unfold redimBorne
      split_ifs
      · dsimp only
        cases moitie neuf i with
        | none => rfl
        | some m => exact ih m
      · exact bil i
  exact key _ _

/-- **C170 (same size, refuted).** Resizing an image to its own size is not the identity: the source positions go from 0 to the width and not to the last column. -/
theorem C170_identite_refute (neuf : Px) : ∃ im : Img Px, im.Valide ∧ ∀ r, redim neuf im im.sx im.sy = some r → r ≠ im := by
  refine ⟨⟨3, 2, [fun _ => 0#8, fun _ => 0#8, fun _ => 200#8, fun _ => 0#8, fun _ => 0#8, fun _ => 200#8]⟩, ⟨by norm_num, by norm_num, by norm_num⟩, fun r hr he => ?_⟩
  generalize him : (⟨3, 2, [fun _ => 0#8, fun _ => 0#8, fun _ => 200#8, fun _ => 0#8, fun _ => 0#8, fun _ => 200#8]⟩ : Img Px) = im at *
  have hsx : im.sx = 3 := by rw [← him]
  have hsy : im.sy = 2 := by rw [← him]
  have hv : im.Valide := by rw [← him]; exact ⟨by norm_num, by norm_num, by norm_num⟩
  rw [hsx, hsy] at hr
  obtain ⟨r', e, -, -, -, -, hr'⟩ := redimBil_ok neuf im hv (by omega) (by omega) 3 2 (by norm_num) (by norm_num) (fun _ => 0) (fun _ => 255) (fun u v p _ k => ⟨Nat.zero_le _, by have := (p k).isLt; dsimp only; omega⟩)
  have hrr : redim neuf im 3 2 = some r' := by
    unfold redim
    rw [hsx]
    unfold redimBorne
    rw [if_neg (by rw [hsx]; norm_num)]
    exact e
  rw [hrr] at hr
  have e2 := Option.some.inj hr
  obtain ⟨p, a, b, c, d, hp, ha, hb, -, -, hk⟩ := pixelRedim_val im hv (by omega) (by omega) 3 2 (by norm_num) (by norm_num) 1 0
  have h10 := hr' 1 0 (by norm_num)
  rw [hp, e2, he] at h10
  have hp0 : p = fun _ => 0#8 := by
    have : im.val 1 0 = some fun _ => 0#8 := by rw [← him]; simp [Img.val]
    rw [this] at h10
    exact (Option.some.inj h10).symm
  have f1 : ⌊((1 : ℤ) : ℝ) / ((3 : ℤ) - 1) * im.sx⌋ = 1 := by rw [hsx, Int.floor_eq_iff]; norm_num
  have f2 : ⌊((0 : ℤ) : ℝ) / ((2 : ℤ) - 1) * im.sy⌋ = 0 := by simp
  rw [f1, f2] at ha hb hk
  have hb' : b = fun _ => 200#8 := by
    have : pixelE im (1 + 1) 0 = some fun _ => 200#8 := by rw [← him]; rfl
    rw [this] at hb
    exact (Option.some.inj hb).symm
  have ha' : a = fun _ => 0#8 := by
    have : pixelE im 1 0 = some fun _ => 0#8 := by rw [← him]; rfl
    rw [this] at ha
    exact (Option.some.inj ha).symm
  have := (hk 0).2
  rw [hp0, ha', hb', hsx, hsy] at this
  unfold bilineaire at this
  norm_num at this

/-- Non-vacuity: a 4 × 3 image resized to 2 × 2. -/
example : ∃ r, redim (fun _ => 0#8) ⟨4, 3, List.replicate 12 (fun _ => 7#8)⟩ 2 2 = some r ∧ r.sx = 2 ∧ r.sy = 2 := by
  obtain ⟨r, e, h1, h2, -⟩ := C170_redim (fun _ => 0#8) ⟨4, 3, List.replicate 12 (fun _ => 7#8)⟩ ⟨by norm_num, by norm_num, by rw [List.length_replicate]; norm_num⟩ (by norm_num) (by norm_num) 2 2 (by norm_num) (by norm_num) (fun _ => 0) (fun _ => 255)
    (fun u v p _ k => ⟨Nat.zero_le _, by have := (p k).isLt; dsimp only; omega⟩)
  exact ⟨r, e, h1, h2⟩

end Verif.Vue
