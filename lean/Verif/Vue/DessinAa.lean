/-
C167: antialiased lines and outlines of rectangles.
-/
import Verif.Vue.Dessin

namespace Verif.Vue
open Verif.Fourier (arrondi)

theorem tronc_pos {y : ℝ} (h : 0 < y) : fpart.tronc y = ⌊y⌋ := by
  unfold fpart.tronc
  rw [if_pos h.le]

theorem fpart_pos {y : ℝ} (h : 0 < y) : fpart y = y - ⌊y⌋ := by
  unfold fpart
  rw [if_pos h, tronc_pos h]

theorem fpart_borne {y : ℝ} (h : 0 < y) : 0 ≤ fpart y ∧ fpart y < 1 := by
  rw [fpart_pos h]
  have h1 := Int.floor_le y
  have h2 := Int.lt_floor_add_one y
  constructor <;> linarith

/-- A non-negative rounded value comes from a value greater than -1/2. -/
theorem arrondi_nonneg (x : ℝ) (h : 0 ≤ arrondi x) : 0 < x + 1 / 2 := by
  unfold arrondi at h
  split_ifs at h with h0
  · linarith
  · have h1 : ⌊-x + 1 / 2⌋ < 1 := by omega
    rw [Int.floor_lt] at h1
    push_cast at h1
    linarith

/-- The ordinate of the line through two points. -/
noncomputable def droite (x0 y0 x1 y1 x : ℝ) : ℝ := y0 + (y1 - y0) / (x1 - x0) * (x - x0)

/-- The main loop: columns between the bounds, rows within 1 of the line, weights between 0 and 1; with `inc = 1`, every column has its two pixels, whose weights have sum 1. -/
theorem aaBoucle_ok (L : ℝ → ℝ) (p : ℝ) (hL : ∀ s t, L (s + t) = L s + p * t) (inc : ℕ) (fin : ℤ) (n : ℕ) (x : ℤ) (y : ℝ) (hy : y = L x)
    (hp : ∀ x' : ℤ, x ≤ x' → x' ≤ fin → 0 < L x') :
    (∀ c ∈ aaBoucle p inc fin n x y, x ≤ c.1 ∧ c.1 ≤ fin ∧ |(c.2.1 : ℝ) - L c.1| ≤ 1 ∧ 0 ≤ c.2.2 ∧ c.2.2 ≤ 1) ∧
    (inc = 1 → ∀ x' : ℤ, x ≤ x' → x' ≤ fin → x' < x + n → (x', ⌊L x'⌋, 1 - Int.fract (L x')) ∈ aaBoucle p inc fin n x y ∧ (x', ⌊L x'⌋ + 1, Int.fract (L x')) ∈ aaBoucle p inc fin n x y) := by
  induction n generalizing x y with
  | zero =>
    refine ⟨by simp [aaBoucle], fun _ x' h1 _ h3 => ?_⟩
    simp at h3
    omega
  | succ n ih =>
    rw [aaBoucle]
    by_cases hx : x ≤ fin
    · rw [if_pos hx]
      have hy0 : 0 < y := by rw [hy]; exact hp x le_rfl hx
      obtain ⟨f1, f2⟩ := fpart_borne hy0
      have ht := tronc_pos hy0
      have hf := fpart_pos hy0
      have hi : (0 : ℤ) ≤ inc := Int.natCast_nonneg _
      obtain ⟨i1, i2⟩ := ih (x + inc) (y + p * inc) (by rw [hy]; push_cast; rw [hL]) (fun x' h1 h2 => hp x' (by omega) h2)
      refine ⟨fun c hc => ?_, fun h1 x' hx1 hx2 hx3 => ?_⟩
      · rcases List.mem_cons.1 hc with rfl | hc
        · refine ⟨le_rfl, hx, ?_, by simp only; linarith, by simp only; linarith⟩
          simp only
          rw [ht, ← hy, abs_sub_comm, ← hf, abs_of_nonneg f1]
          exact f2.le
        · rcases List.mem_cons.1 hc with rfl | hc
          · refine ⟨le_rfl, hx, ?_, f1, f2.le⟩
            simp only
            rw [ht, ← hy, abs_le]
            push_cast
            constructor <;> linarith
          · obtain ⟨j1, j2, j3⟩ := i1 c hc
            exact ⟨by omega, j2, j3⟩
      · subst h1
        rcases hx1.eq_or_lt with rfl | hlt
        · rw [← hy]
          have e : Int.fract y = fpart y := by rw [hf]; rfl
          rw [e, ← ht]
          exact ⟨by simp, by simp⟩
        · obtain ⟨j1, j2⟩ := i2 rfl x' (by push_cast; omega) hx2 (by push_cast at hx3 ⊢; omega)
          exact ⟨List.mem_cons_of_mem _ (List.mem_cons_of_mem _ j1), List.mem_cons_of_mem _ (List.mem_cons_of_mem _ j2)⟩
    · rw [if_neg hx]
      exact ⟨by simp, fun _ x' h1 h2 _ => absurd (h1.trans h2) hx⟩

/-- The points of a line from left to right. -/
theorem aaPoints_ok (x0 y0 x1 y1 : ℝ) (hx : x0 < x1) (inc : ℕ) (h0 : 0 < droite x0 y0 x1 y1 (arrondi x0)) (h1 : 0 < droite x0 y0 x1 y1 (arrondi x1)) :
    (∀ c ∈ aaPoints x0 y0 x1 y1 inc, arrondi x0 ≤ c.1 ∧ c.1 ≤ arrondi x1 ∧ |(c.2.1 : ℝ) - droite x0 y0 x1 y1 c.1| ≤ 1 ∧ (0 ≤ c.1 → 0 ≤ c.2.2 ∧ c.2.2 ≤ 1)) ∧
    (inc = 1 → ∀ x : ℤ, arrondi x0 < x → x < arrondi x1 → (x, ⌊droite x0 y0 x1 y1 x⌋, 1 - Int.fract (droite x0 y0 x1 y1 x)) ∈ aaPoints x0 y0 x1 y1 inc ∧
      (x, ⌊droite x0 y0 x1 y1 x⌋ + 1, Int.fract (droite x0 y0 x1 y1 x)) ∈ aaPoints x0 y0 x1 y1 inc) := by
  have hd : x1 - x0 ≠ 0 := by linarith
  obtain ⟨p, hp⟩ : ∃ p, p = (y1 - y0) / (x1 - x0) := ⟨_, rfl⟩
  obtain ⟨L, hL⟩ : ∃ L : ℝ → ℝ, L = droite x0 y0 x1 y1 := ⟨_, rfl⟩
  have hLv : ∀ t, L t = y0 + p * (t - x0) := fun t => by rw [hL, hp]; rfl
  have hyb : y1 + p * ((arrondi x1 : ℝ) - x1) = L (arrondi x1) := by
    rw [hLv, hp]
    field_simp
    ring
  have hab : arrondi x0 ≤ arrondi x1 := by
    by_contra h
    have a1 := arrondi_proche x0
    have a2 := arrondi_proche x1
    rw [abs_le] at a1 a2
    have : ((arrondi x1 + 1 : ℤ) : ℝ) ≤ arrondi x0 := by exact_mod_cast (by omega : arrondi x1 + 1 ≤ arrondi x0)
    push_cast at this
    linarith
  rw [← hL] at h0 h1 ⊢
  have hpos : ∀ x : ℤ, arrondi x0 ≤ x → x ≤ arrondi x1 → 0 < L x := by
    intro x g1 g2
    have g1' : (arrondi x0 : ℝ) ≤ x := by exact_mod_cast g1
    have g2' : (x : ℝ) ≤ arrondi x1 := by exact_mod_cast g2
    rw [hLv] at h0 h1 ⊢
    rcases le_total 0 p with hs | hs
    · nlinarith
    · nlinarith
  unfold aaPoints
  simp only
  rw [if_neg hd, ← hp, ← hLv, hyb]
  have hga := arrondi_nonneg x0
  have hgb := arrondi_nonneg x1
  generalize arrondi x0 = a at *
  generalize arrondi x1 = b at *
  have hba := hpos a le_rfl hab
  have hbb := hpos b hab le_rfl
  obtain ⟨fa1, fa2⟩ := fpart_borne hba
  obtain ⟨fb1, fb2⟩ := fpart_borne hbb
  have ta := tronc_pos hba
  have tb := tronc_pos hbb
  have fa := fpart_pos hba
  have fb := fpart_pos hbb
  obtain ⟨i1, i2⟩ := aaBoucle_ok L p (fun s t => by rw [hLv, hLv]; ring) inc (b - 1) (b - a).toNat (a + 1) (L a + p) (by rw [hLv, hLv]; push_cast; ring) (fun x g1 g2 => hpos x (by omega) (by omega))
  have proche : ∀ y : ℝ, 0 ≤ y - ⌊y⌋ → y - ⌊y⌋ < 1 → |((⌊y⌋ : ℤ) : ℝ) - y| ≤ 1 ∧ |((⌊y⌋ + 1 : ℤ) : ℝ) - y| ≤ 1 := by
    intro y e1 e2
    push_cast
    rw [abs_le, abs_le]
    refine ⟨⟨?_, ?_⟩, ?_, ?_⟩ <;> linarith
  obtain ⟨pa1, pa2⟩ := proche (L a) (by rw [← fa]; exact fa1) (by rw [← fa]; exact fa2)
  obtain ⟨pb1, pb2⟩ := proche (L b) (by rw [← fb]; exact fb1) (by rw [← fb]; exact fb2)
  refine ⟨fun c hc => ?_, fun h1' x g1 g2 => ?_⟩
  · rcases List.mem_append.1 hc with hc | hc
    · simp only [List.mem_cons, List.not_mem_nil, or_false] at hc
      rcases hc with rfl | rfl | rfl | rfl
      · refine ⟨le_rfl, hab, by rw [ta]; exact pa1, fun h => ?_⟩
        obtain ⟨q1, q2⟩ := fpart_borne (hga h)
        exact ⟨mul_nonneg (by linarith) (by linarith), mul_le_one₀ (by linarith) (by linarith) (by linarith)⟩
      · refine ⟨le_rfl, hab, by rw [ta]; exact pa2, fun h => ?_⟩
        obtain ⟨q1, q2⟩ := fpart_borne (hga h)
        exact ⟨mul_nonneg (by linarith) (by linarith), mul_le_one₀ (by linarith) (by linarith) (by linarith)⟩
      · refine ⟨hab, le_rfl, by rw [tb]; exact pb1, fun h => ?_⟩
        obtain ⟨q1, q2⟩ := fpart_borne (hgb h)
        exact ⟨mul_nonneg (by linarith) (by linarith), mul_le_one₀ (by linarith) (by linarith) (by linarith)⟩
      · refine ⟨hab, le_rfl, by rw [tb]; exact pb2, fun h => ?_⟩
        obtain ⟨q1, q2⟩ := fpart_borne (hgb h)
        exact ⟨mul_nonneg (by linarith) (by linarith), mul_le_one₀ (by linarith) (by linarith) (by linarith)⟩
    · obtain ⟨j1, j2, j3, j4, j5⟩ := i1 c hc
      exact ⟨by omega, by omega, j3, fun _ => ⟨j4, j5⟩⟩
  · obtain ⟨j1, j2⟩ := i2 h1' x (by omega) (by omega) (by omega)
    exact ⟨List.mem_append_right _ j1, List.mem_append_right _ j2⟩

/-- **C167 (antialiased point).** With a weight between 0 and 1, or outside of the image, the operation is defined and only the designated pixel can change. -/
theorem pta_ok (im : Img Px) (hv : im.Valide) (cd : Px) (x y : ℤ) (a : ℝ) (h : 0 ≤ x → 0 ≤ y → 0 ≤ a ∧ a ≤ 1) : ∃ r, pta im cd x y a = some r ∧ r.sx = im.sx ∧ r.sy = im.sy ∧ r.Valide ∧
    ∀ u v, r.val u v ≠ im.val u v → u = x ∧ v = y := by
  unfold pta
  by_cases hin : x < 0 ∨ y < 0 ∨ x ≥ im.sx ∨ y ≥ im.sy
  · rw [if_pos hin]
    exact ⟨im, rfl, rfl, rfl, hv, fun u v h => absurd rfl h⟩
  · rw [if_neg hin]
    obtain ⟨h0, h1⟩ := h (by omega) (by omega)
    rw [if_neg (by linarith)]
    have hc : ((cd 3).toNat : ℝ) ≤ 255 := by have := (cd 3).isLt; exact_mod_cast (by omega : (cd 3).toNat ≤ 255)
    have hs : √a ≤ 1 := Real.sqrt_le_iff.2 ⟨zero_le_one, by linarith⟩
    obtain ⟨r, e, r1, r2, r3, r4, -⟩ := C167_point_alpha im hv x y cd (√a * (cd 3).toNat / 255) (by positivity) (by
      rw [div_le_one (by norm_num)]
      have := mul_le_mul hs hc (by positivity) zero_le_one
      linarith)
    refine ⟨r, e, r1, r2, r3, fun u v hne => ?_⟩
    by_contra hc
    exact hne (r4 u v hc)

theorem pta_liste (cd : Px) (l : List (ℤ × ℤ × ℝ)) (hl : ∀ c ∈ l, 0 ≤ c.1 → 0 ≤ c.2.1 → 0 ≤ c.2.2 ∧ c.2.2 ≤ 1) (im : Img Px) (hv : im.Valide) :
    ∃ r, l.foldlM (fun (i : Img Px) (c : ℤ × ℤ × ℝ) => pta i cd c.1 c.2.1 c.2.2) im = some r ∧ r.sx = im.sx ∧ r.sy = im.sy ∧ r.Valide ∧ ∀ u v, r.val u v ≠ im.val u v → ∃ c ∈ l, u = c.1 ∧ v = c.2.1 := by
  induction l generalizing im with
  | nil => exact ⟨im, rfl, rfl, rfl, hv, fun u v h => absurd rfl h⟩
  | cons c l ih =>
    obtain ⟨r1, e1, a1, b1, v1, p1⟩ := pta_ok im hv cd c.1 c.2.1 c.2.2 (hl c (by simp))
    obtain ⟨r2, e2, a2, b2, v2, p2⟩ := ih (fun d hd => hl d (List.mem_cons_of_mem _ hd)) r1 v1
    refine ⟨r2, ?_, a2.trans a1, b2.trans b1, v2, fun u v h => ?_⟩
    · rw [List.foldlM_cons, e1]
      exact e2
    · by_cases h2 : r2.val u v = r1.val u v
      · obtain ⟨q1, q2⟩ := p1 u v (by rwa [h2] at h)
        exact ⟨c, by simp, q1, q2⟩
      · obtain ⟨d, hd, q⟩ := p2 u v h2
        exact ⟨d, List.mem_cons_of_mem _ hd, q⟩

/-- The points of a line more horizontal than vertical, in any direction. -/
theorem aaTous_horizontale (x0 y0 x1 y1 : ℝ) (hne : x0 ≠ x1) (hs : |y1 - y0| ≤ |x1 - x0|) (inc : ℕ) (h0 : 0 < droite x0 y0 x1 y1 (arrondi x0)) (h1 : 0 < droite x0 y0 x1 y1 (arrondi x1)) :
    (∀ c ∈ aaTous x0 y0 x1 y1 inc, min (arrondi x0) (arrondi x1) ≤ c.1 ∧ c.1 ≤ max (arrondi x0) (arrondi x1) ∧ |(c.2.1 : ℝ) - droite x0 y0 x1 y1 c.1| ≤ 1 ∧ (0 ≤ c.1 → 0 ≤ c.2.2 ∧ c.2.2 ≤ 1)) ∧
    (inc = 1 → ∀ x : ℤ, min (arrondi x0) (arrondi x1) < x → x < max (arrondi x0) (arrondi x1) → (x, ⌊droite x0 y0 x1 y1 x⌋, 1 - Int.fract (droite x0 y0 x1 y1 x)) ∈ aaTous x0 y0 x1 y1 inc ∧
      (x, ⌊droite x0 y0 x1 y1 x⌋ + 1, Int.fract (droite x0 y0 x1 y1 x)) ∈ aaTous x0 y0 x1 y1 inc) := by
  have hmono : ∀ s t : ℝ, s < t → arrondi s ≤ arrondi t := by
    intro s t h
    by_contra hc
    have a1 := arrondi_proche s
    have a2 := arrondi_proche t
    rw [abs_le] at a1 a2
    have : ((arrondi t + 1 : ℤ) : ℝ) ≤ arrondi s := by exact_mod_cast (by omega : arrondi t + 1 ≤ arrondi s)
    push_cast at this
    linarith
  unfold aaTous
  rw [if_neg (by linarith)]
  rcases lt_or_gt_of_ne hne with h | h
  · rw [if_neg (by linarith), min_eq_left (hmono _ _ h), max_eq_right (hmono _ _ h)]
    exact aaPoints_ok x0 y0 x1 y1 h inc h0 h1
  · rw [if_pos h, min_eq_right (hmono _ _ h), max_eq_left (hmono _ _ h)]
    have e : droite x0 y0 x1 y1 = droite x1 y1 x0 y0 := by
      funext t
      unfold droite
      have d1 : x1 - x0 ≠ 0 := by intro h'; apply hne; linarith
      have d2 : x0 - x1 ≠ 0 := by intro h'; apply hne; linarith
      field_simp
      ring
    rw [e] at h0 h1 ⊢
    exact aaPoints_ok x1 y1 x0 y0 h inc h1 h0

/-- A line more vertical than horizontal is the transposed one. -/
theorem aaTous_transpose (x0 y0 x1 y1 : ℝ) (hs : |x1 - x0| < |y1 - y0|) (inc : ℕ) : aaTous x0 y0 x1 y1 inc = (aaTous y0 x0 y1 x1 inc).map fun c : ℤ × ℤ × ℝ => (c.2.1, c.1, c.2.2) := by
  unfold aaTous
  rw [if_pos hs, if_neg (by linarith : ¬ |x1 - x0| > |y1 - y0|)]

/-- **C167 (antialiased line).** For two distinct ends such that the coordinate along the minor axis is positive at both ends, the drawing is defined and the pixels that change are between the ends, at a distance of at most 1 of the
line along the minor axis. The end conditions are those of the rounded major coordinates. -/
theorem C167_antialias (im : Img Px) (hv : im.Valide) (cd : Px) (x0 y0 x1 y1 : ℝ) (inc : ℕ) :
    (x0 ≠ x1 → |y1 - y0| ≤ |x1 - x0| → 0 < droite x0 y0 x1 y1 (arrondi x0) → 0 < droite x0 y0 x1 y1 (arrondi x1) → ∃ r, ligneAaInt im cd x0 y0 x1 y1 inc = some r ∧ r.sx = im.sx ∧ r.sy = im.sy ∧ r.Valide ∧
      ∀ u v, r.val u v ≠ im.val u v → min (arrondi x0) (arrondi x1) ≤ u ∧ u ≤ max (arrondi x0) (arrondi x1) ∧ |(v : ℝ) - droite x0 y0 x1 y1 u| ≤ 1) ∧
    (|x1 - x0| < |y1 - y0| → 0 < droite y0 x0 y1 x1 (arrondi y0) → 0 < droite y0 x0 y1 x1 (arrondi y1) → ∃ r, ligneAaInt im cd x0 y0 x1 y1 inc = some r ∧ r.sx = im.sx ∧ r.sy = im.sy ∧ r.Valide ∧
      ∀ u v, r.val u v ≠ im.val u v → min (arrondi y0) (arrondi y1) ≤ v ∧ v ≤ max (arrondi y0) (arrondi y1) ∧ |(u : ℝ) - droite y0 x0 y1 x1 v| ≤ 1) := by
  constructor
  · intro hne hs h0 h1
    obtain ⟨k1, -⟩ := aaTous_horizontale x0 y0 x1 y1 hne hs inc h0 h1
    obtain ⟨r, e, r1, r2, r3, r4⟩ := pta_liste cd (aaTous x0 y0 x1 y1 inc) (fun c hc hx _ => (k1 c hc).2.2.2 hx) im hv
    refine ⟨r, e, r1, r2, r3, fun u v h => ?_⟩
    obtain ⟨c, hc, rfl, rfl⟩ := r4 u v h
    obtain ⟨q1, q2, q3, -⟩ := k1 c hc
    exact ⟨q1, q2, q3⟩
  · intro hs h0 h1
    have hne : y0 ≠ y1 := by
      rintro rfl
      rw [sub_self, abs_zero] at hs
      exact absurd (abs_nonneg (x1 - x0)) (by linarith)
    obtain ⟨k1, -⟩ := aaTous_horizontale y0 x0 y1 x1 hne hs.le inc h0 h1
    have e' := aaTous_transpose x0 y0 x1 y1 hs inc
    obtain ⟨r, e, r1, r2, r3, r4⟩ := pta_liste cd (aaTous x0 y0 x1 y1 inc) (by
      intro c hc _ hy
      rw [e'] at hc
      obtain ⟨d, hd, rfl⟩ := List.mem_map.1 hc
      exact (k1 d hd).2.2.2 hy) im hv
    refine ⟨r, e, r1, r2, r3, fun u v h => ?_⟩
    obtain ⟨c, hc, rfl, rfl⟩ := r4 u v h
    rw [e'] at hc
    obtain ⟨d, hd, rfl⟩ := List.mem_map.1 hc
    obtain ⟨q1, q2, q3, -⟩ := k1 d hd
    exact ⟨q1, q2, q3⟩

theorem droite_bouts (x0 y0 x1 y1 : ℝ) (h : x0 ≠ x1) : droite x0 y0 x1 y1 x0 = y0 ∧ droite x0 y0 x1 y1 x1 = y1 := by
  have d : x1 - x0 ≠ 0 := by intro h'; apply h; linarith
  unfold droite
  constructor
  · simp
  · field_simp
    ring

/-- **C167 (oblique line).** Between two points of integer coordinates, with the thickness 1, neither on the first row nor before it (first column for a line more vertical than horizontal), the line is drawn, and only pixels between the
ends within 1 of the line change. -/
theorem C167_ligne_oblique (im : Img Px) (hv : im.Valide) (cd : Px) (x0 y0 x1 y1 : ℤ) (inc : ℕ) (hx : x0 ≠ x1) (hy : y0 ≠ y1) :
    (|y1 - y0| ≤ |x1 - x0| → 0 < y0 → 0 < y1 → ∃ r, ligne im cd 1 x0 y0 x1 y1 inc = some r ∧ r.sx = im.sx ∧ r.sy = im.sy ∧ r.Valide ∧
      ∀ u v, r.val u v ≠ im.val u v → min x0 x1 ≤ u ∧ u ≤ max x0 x1 ∧ |(v : ℝ) - droite x0 y0 x1 y1 u| ≤ 1) ∧
    (|x1 - x0| < |y1 - y0| → 0 < x0 → 0 < x1 → ∃ r, ligne im cd 1 x0 y0 x1 y1 inc = some r ∧ r.sx = im.sx ∧ r.sy = im.sy ∧ r.Valide ∧
      ∀ u v, r.val u v ≠ im.val u v → min y0 y1 ≤ v ∧ v ≤ max y0 y1 ∧ |(u : ℝ) - droite y0 x0 y1 x1 v| ≤ 1) := by
  have e : ligne im cd 1 x0 y0 x1 y1 inc = ligneAaInt im cd x0 y0 x1 y1 inc := by
    unfold ligne
    rw [if_neg hx, if_neg hy, show decalages 1 = [0] from rfl]
    simp only [List.foldlM_cons, List.foldlM_nil, Int.cast_zero, add_zero]
    exact bind_pure _
  have hx' : (x0 : ℝ) ≠ x1 := by exact_mod_cast hx
  have hy' : (y0 : ℝ) ≠ y1 := by exact_mod_cast hy
  rw [e]
  obtain ⟨k1, k2⟩ := C167_antialias im hv cd x0 y0 x1 y1 inc
  rw [arrondi_entier, arrondi_entier] at k1 k2
  rw [(droite_bouts _ _ _ _ hx').1, (droite_bouts _ _ _ _ hx').2] at k1
  rw [(droite_bouts _ _ _ _ hy').1, (droite_bouts _ _ _ _ hy').2] at k2
  refine ⟨fun h1 h2 h3 => k1 hx' (by exact_mod_cast h1) (by exact_mod_cast h2) (by exact_mod_cast h3), fun h1 h2 h3 => k2 (by exact_mod_cast h1) (by exact_mod_cast h2) (by exact_mod_cast h3)⟩

theorem pointAlpha_dim (im r : Img Px) (x y : ℤ) (c : Px) (α : ℝ) (h : pointAlpha im x y c α = some r) : r.sx = im.sx ∧ r.sy = im.sy := by
  unfold pointAlpha at h
  split_ifs at h
  · rw [Option.bind_eq_some_iff] at h
    obtain ⟨ov, -, h⟩ := h
    rw [Option.bind_eq_some_iff] at h
    obtain ⟨p, -, h⟩ := h
    unfold pose at h
    rw [Option.map_eq_some_iff] at h
    obtain ⟨b, -, rfl⟩ := h
    exact ⟨rfl, rfl⟩
  · rw [← Option.some.inj h]
    exact ⟨rfl, rfl⟩

theorem pta_dim (im r : Img Px) (cd : Px) (x y : ℤ) (a : ℝ) (h : pta im cd x y a = some r) : r.sx = im.sx ∧ r.sy = im.sy := by
  unfold pta at h
  split_ifs at h
  · rw [← Option.some.inj h]
    exact ⟨rfl, rfl⟩
  · exact pointAlpha_dim _ _ _ _ _ _ h

/-- A negative weight inside of the image makes the whole drawing undefined. -/
theorem pta_negatif (cd : Px) (l : List (ℤ × ℤ × ℝ)) (im : Img Px) (c : ℤ × ℤ × ℝ) (hc : c ∈ l) (hin : 0 ≤ c.1 ∧ 0 ≤ c.2.1 ∧ c.1 < im.sx ∧ c.2.1 < im.sy) (ha : c.2.2 < 0) :
    l.foldlM (fun (i : Img Px) (c : ℤ × ℤ × ℝ) => pta i cd c.1 c.2.1 c.2.2) im = none := by
  induction l generalizing im with
  | nil => simp at hc
  | cons d l ih =>
    rw [List.foldlM_cons]
    cases h : pta im cd d.1 d.2.1 d.2.2 with
    | none => rfl
    | some r =>
      obtain ⟨d1, d2⟩ := pta_dim _ _ _ _ _ _ h
      rcases List.mem_cons.1 hc with rfl | hc
      · exfalso
        unfold pta at h
        rw [if_neg (by omega), if_pos ha] at h
        exact absurd h (by simp)
      · exact ih r hc (by rw [d1, d2]; exact hin)

/-- **C167 (line from the first row, refuted).** An oblique line (more horizontal than vertical) one end of which is a visible point of the first row computes the square root of a negative weight: `fpart(0)` is -1. -/
theorem C167_premiere_ligne_refute (im : Img Px) (cd : Px) (x0 x1 y1 : ℤ) (inc : ℕ) (hx : x0 ≠ x1) (hy : y1 ≠ 0) (hs : |y1| ≤ |x1 - x0|) (h0 : 0 ≤ x0) (h1 : x0 < im.sx) (h2 : 1 < im.sy) : ligne im cd 1 x0 0 x1 y1 inc = none := by
  have e : ligne im cd 1 x0 0 x1 y1 inc = ligneAaInt im cd x0 0 x1 y1 inc := by
    unfold ligne
    rw [if_neg hx, if_neg hy.symm, show decalages 1 = [0] from rfl]
    simp only [List.foldlM_cons, List.foldlM_nil, Int.cast_zero, add_zero]
    exact bind_pure _
  have hs' : |(y1 : ℝ) - 0| ≤ |(x1 : ℝ) - x0| := by rw [sub_zero]; exact_mod_cast hs
  have f0 : fpart 0 = -1 := by unfold fpart fpart.tronc; norm_num
  have t0 : fpart.tronc 0 = 0 := by unfold fpart.tronc; norm_num
  have fd : fpart ((x0 : ℝ) + 1 / 2) = 1 / 2 := by
    have hp : (0 : ℝ) ≤ x0 := by exact_mod_cast h0
    have hfl : ⌊(x0 : ℝ) + 1 / 2⌋ = x0 := by rw [Int.floor_eq_iff]; constructor <;> linarith
    rw [fpart_pos (by linarith), hfl]
    ring
  rw [e]
  unfold ligneAaInt
  refine pta_negatif cd _ im (x0, 1, -(1 / 2)) ?_ ⟨h0, by norm_num, h1, h2⟩ (by norm_num)
  unfold aaTous
  rw [if_neg (by linarith)]
  have hx' : (x0 : ℝ) ≠ x1 := by exact_mod_cast hx
  have hd : (x1 : ℝ) - x0 ≠ 0 := by intro h'; apply hx'; linarith
  by_cases hlt : (x0 : ℝ) > x1
  · rw [if_pos hlt]
    apply List.mem_append_left
    simp only [arrondi_entier, sub_self, mul_zero, add_zero, f0, t0, fd]
    simp
  · rw [if_neg hlt]
    apply List.mem_append_left
    simp only [arrondi_entier, sub_self, mul_zero, add_zero, f0, t0, fd]
    norm_num

/-- **C167 (crossing line, refuted).** A line with both ends outside of the image is never drawn, even if it crosses the image: the two sides computed are always equal. -/
theorem C167_traversante_refute (im : Img Px) (inter : ℝ × ℝ → ℝ × ℝ → ℝ × ℝ) (p0 p1 : ℝ × ℝ) (h0 : ¬ dansRdi im p0.1 p0.2) (h1 : ¬ dansRdi im p1.1 p1.2) : restreint im inter p0 p1 = none := by
  unfold restreint
  simp only
  rw [if_neg (by tauto)]
  split_ifs <;> first | rfl | tauto

/-- **C167 (outline of a rectangle).** In an opaque colour and with thickness 1, for two opposite corners that differ in both coordinates, the pixels of the image on the four sides take the colour and the other ones are unchanged. -/
theorem C167_rectangle (im : Img Px) (hv : im.Valide) (c : Px) (hc : c 3 = 255#8) (x0 y0 x1 y1 : ℤ) (hx : x0 ≠ x1) : ∃ r, rectangle im c 1 x0 y0 x1 y1 = some r ∧ r.sx = im.sx ∧ r.sy = im.sy ∧ r.Valide ∧
    ∀ u v, r.val u v = if (0 ≤ u ∧ u < im.sx ∧ 0 ≤ v ∧ v < im.sy) ∧ (((v = y0 ∨ v = y1) ∧ min x0 x1 ≤ u ∧ u ≤ max x0 x1) ∨ ((u = x0 ∨ u = x1) ∧ min y0 y1 ≤ v ∧ v ≤ max y0 y1)) then some c else im.val u v := by
  obtain ⟨i1, e1, a1, b1, v1, p1⟩ := (C167_ligne_droite im hv c hc 1 le_rfl 1 (by norm_num) y0 x0 x1).2 hx
  obtain ⟨i2, e2, a2, b2, v2, p2⟩ := (C167_ligne_droite i1 v1 c hc 1 le_rfl 1 (by norm_num) x0 y0 y1).1
  obtain ⟨i3, e3, a3, b3, v3, p3⟩ := (C167_ligne_droite i2 v2 c hc 1 le_rfl 1 (by norm_num) x1 y1 y0).1
  obtain ⟨i4, e4, a4, b4, v4, p4⟩ := (C167_ligne_droite i3 v3 c hc 1 le_rfl 1 (by norm_num) y1 x1 x0).2 hx.symm
  refine ⟨i4, ?_, by omega, by omega, v4, fun u v => ?_⟩
  · unfold rectangle
    rw [e1, Option.bind_some, e2, Option.bind_some, e3, Option.bind_some, e4]
  · rw [p4, p3, p2, p1, a3, a2, a1, b3, b2, b1]
    have q1 : (1 : ℤ) / 2 = 0 := by norm_num
    split_ifs <;> first | rfl | (exfalso; simp only [Nat.cast_one, one_dvd, and_true] at *; omega)

/-- Non-vacuity: the hypotheses of the oblique line and of its refutation. -/
example : (∃ r, ligne ⟨20, 20, List.replicate 400 (fun _ => 0#8)⟩ (fun _ => 255#8) 1 3 2 15 9 1 = some r) ∧ ligne ⟨20, 20, List.replicate 400 (fun _ => 0#8)⟩ (fun _ => 255#8) 1 0 0 10 5 1 = none := by
  constructor
  · obtain ⟨r, h, -⟩ := (C167_ligne_oblique ⟨20, 20, List.replicate 400 (fun _ => 0#8)⟩ ⟨by norm_num, by norm_num, by rw [List.length_replicate]; norm_num⟩ (fun _ => 255#8) 3 2 15 9 1 (by norm_num) (by norm_num)).1 (by norm_num [abs_of_pos]) (by norm_num) (by norm_num)
    exact ⟨r, h⟩
  · exact C167_premiere_ligne_refute _ _ 0 10 5 1 (by norm_num) (by norm_num) (by norm_num [abs_of_pos]) (by norm_num) (by norm_num) (by norm_num)

end Verif.Vue
