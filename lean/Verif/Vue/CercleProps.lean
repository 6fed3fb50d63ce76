/-
C168: circles and discs, the properties.
-/
import Verif.Vue.Cercle

namespace Verif.Vue

/-- Every point of the octant has a weight between 0 and 1 and is near the circle. -/
theorem octant_ok (r : ℤ) (hr : 1 ≤ r) (aa : Bool) (n : ℕ) : ∀ i T j : ℤ, Entree r i T j → ∃ l, octant r aa n i T j = some l ∧ ∀ p ∈ l, (0 ≤ p.2.2 ∧ p.2.2 ≤ 1) ∧ (r - 1) ^ 2 < p.1 ^ 2 + p.2.1 ^ 2 ∧ p.1 ^ 2 + p.2.1 ^ 2 < (r + 1) ^ 2 := by
  induction n with
  | zero => intro i T j _; exact ⟨[], rfl, by simp⟩
  | succ n ih =>
    intro i T j he
    unfold octant
    by_cases hji : j ≤ i
    · rw [if_pos hji]
      obtain ⟨hn, he', hi'⟩ := tour r i T j hr he hji
      rw [if_neg (by omega)]
      obtain ⟨l, el, hl⟩ := ih _ _ _ he'
      simp only
      rw [el]
      obtain ⟨d0, d1, d2, d3⟩ := plafond_racine _ hn
      have h1 : √((r * r - j * j : ℤ) : ℝ) ≤ ⌈√((r * r - j * j : ℤ) : ℝ)⌉ := Int.le_ceil _
      have h2 : (⌈√((r * r - j * j : ℤ) : ℝ)⌉ : ℝ) < √((r * r - j * j : ℤ) : ℝ) + 1 := Int.ceil_lt_add_one _
      have hj := he.1
      generalize hd : ⌈√((r * r - j * j : ℤ) : ℝ)⌉ = d at *
      generalize hii : (if d < T then i - 1 else i) = i' at *
      generalize √((r * r - j * j : ℤ) : ℝ) = f at *
      have hdr : d ≤ r := by
        by_contra hc
        have := d2 (by omega)
        nlinarith [pow_le_pow_left₀ (by omega : 0 ≤ r) (by omega : r ≤ d - 1) 2]
      have hnear : ((r - 1) ^ 2 < i' ^ 2 + j ^ 2 ∧ i' ^ 2 + j ^ 2 < (r + 1) ^ 2) ∧ ((r - 1) ^ 2 < (i' - 1) ^ 2 + j ^ 2 ∧ (i' - 1) ^ 2 + j ^ 2 < (r + 1) ^ 2) := by
        rcases hi' with rfl | ⟨rfl, rfl, rfl, rfl⟩ | ⟨hj2, rfl, hlt, hrr⟩
        · by_cases hz : i' = 0
          · have := d3 hz
            subst hz
            refine ⟨⟨by nlinarith, by nlinarith⟩, by nlinarith, by nlinarith⟩
          · have := d2 hz
            refine ⟨⟨by nlinarith, by nlinarith⟩, ?_, by nlinarith⟩
            rcases eq_or_lt_of_le hdr with h | h
            · rw [h]; nlinarith
            · nlinarith
        · norm_num
        · have hmr : j - 1 < r := by
            by_contra hc
            have := pow_le_pow_left₀ (by omega : 0 ≤ r) (by omega : r ≤ j - 1) 2
            rcases hrr with h | h <;> nlinarith [sq_nonneg (j - 1)]
          rcases hrr with h | h <;> refine ⟨⟨by nlinarith, by nlinarith⟩, by nlinarith, by nlinarith⟩
      refine ⟨_, rfl, fun p hp => ?_⟩
      rcases List.mem_cons.1 hp with rfl | hp
      · refine ⟨?_, hnear.1⟩
        dsimp only
        split_ifs <;> constructor <;> linarith
      · rcases List.mem_cons.1 hp with rfl | hp
        · refine ⟨?_, hnear.2⟩
          dsimp only
          split_ifs <;> constructor <;> linarith
        · exact hl p hp
    · rw [if_neg hji]
      exact ⟨[], rfl, by simp⟩

/-- Every turn of the octant is present, with the two pixels around the circle and their weights. -/
theorem octant_complet (r : ℤ) (hr : 1 ≤ r) (aa : Bool) (y : ℤ) (hy : 0 ≤ r * r - y * y) (hyd : y ≤ ⌈√((r * r - y * y : ℤ) : ℝ)⌉) (n : ℕ) : ∀ i T j : ℤ, Entree r i T j → j ≤ i → j ≤ y → y < j + n → ∀ l, octant r aa n i T j = some l →
    let f := √((r * r - y * y : ℤ) : ℝ); (⌈f⌉, y, if aa then 1 - (⌈f⌉ - f) else 1) ∈ l ∧ (⌈f⌉ - 1, y, if aa then ⌈f⌉ - f else 1) ∈ l := by
  induction n with
  | zero => intro i T j _ _ h1 h2; omega
  | succ n ih =>
    intro i T j he hji hjy hyn l hl
    unfold octant at hl
    rw [if_pos hji] at hl
    obtain ⟨hn, he', hi'⟩ := tour r i T j hr he hji
    rw [if_neg (by omega)] at hl
    simp only at hl
    have hj := he.1
    have hmono : ⌈√((r * r - y * y : ℤ) : ℝ)⌉ ≤ ⌈√((r * r - j * j : ℤ) : ℝ)⌉ := by
      apply Int.ceil_le_ceil
      apply Real.sqrt_le_sqrt
      exact_mod_cast (by nlinarith : r * r - y * y ≤ r * r - j * j)
    have hid : (if ⌈√((r * r - j * j : ℤ) : ℝ)⌉ < T then i - 1 else i) = ⌈√((r * r - j * j : ℤ) : ℝ)⌉ := by
      rcases hi' with h | ⟨-, h1, -, h2⟩ | ⟨-, -, h, -⟩
      · exact h
      · omega
      · omega
    rw [hid] at hl he'
    obtain ⟨l', el, rfl⟩ := Option.map_eq_some_iff.1 hl
    rcases eq_or_lt_of_le hjy with rfl | hlt
    · exact ⟨by simp, by simp⟩
    · obtain ⟨a, b⟩ := ih _ _ _ he' (by omega) (by omega) (by push_cast at hyn; omega) l' el
      exact ⟨List.mem_cons_of_mem _ (List.mem_cons_of_mem _ a), List.mem_cons_of_mem _ (List.mem_cons_of_mem _ b)⟩

theorem entree_debut (r : ℤ) : Entree r r 0 1 := ⟨le_rfl, Or.inl ⟨rfl, rfl, rfl⟩⟩

theorem mem_cercle8 (cx cy x y : ℤ) (w : ℝ) (u v : ℤ) (w' : ℝ) : (u, v, w') ∈ cercle8 cx cy x y w ↔ w' = w ∧ ((|u - cx| = |x| ∧ |v - cy| = |y|) ∨ (|u - cx| = |y| ∧ |v - cy| = |x|)) := by
  have e : ∀ a b : ℤ, |a| = |b| ↔ a = b ∨ a = -b := fun a b => abs_eq_abs
  simp only [cercle8, List.flatMap_cons, List.flatMap_nil, List.append_nil, List.mem_append, List.mem_cons, List.not_mem_nil, or_false, Prod.mk.injEq, e]
  constructor
  · rintro ((⟨rfl, rfl, rfl⟩ | ⟨rfl, rfl, rfl⟩) | (⟨rfl, rfl, rfl⟩ | ⟨rfl, rfl, rfl⟩) | (⟨rfl, rfl, rfl⟩ | ⟨rfl, rfl, rfl⟩) | (⟨rfl, rfl, rfl⟩ | ⟨rfl, rfl, rfl⟩)) <;> exact ⟨rfl, by omega⟩
  · rintro ⟨rfl, (⟨h1 | h1, h2 | h2⟩ | ⟨h1 | h1, h2 | h2⟩)⟩ <;> simp only [and_true] <;> omega

/-- All the points of a circle. -/
theorem cercleTous_ok (cx cy r : ℤ) (hr : 0 ≤ r) (aa : Bool) : ∃ l, cercleTous cx cy r aa = some l ∧ ∀ p ∈ l, (0 ≤ p.2.2 ∧ p.2.2 ≤ 1) ∧ presDuCercle r (p.1 - cx) (p.2.1 - cy) := by
  have near : ∀ x y : ℤ, (r - 1) ^ 2 < x ^ 2 + y ^ 2 ∨ x ^ 2 + y ^ 2 = r ^ 2 → x ^ 2 + y ^ 2 < (r + 1) ^ 2 → presDuCercle r x y := by
    intro x y h1 h2
    unfold presDuCercle
    have hr' : (0 : ℝ) ≤ r := by exact_mod_cast hr
    have hb : √((x ^ 2 + y ^ 2 : ℤ) : ℝ) < r + 1 := by
      rw [Real.sqrt_lt' (by linarith)]
      exact_mod_cast h2
    rcases h1 with h1 | h1
    · have ha : (r : ℝ) - 1 < √((x ^ 2 + y ^ 2 : ℤ) : ℝ) := by
        apply Real.lt_sqrt_of_sq_lt
        exact_mod_cast h1
      rw [abs_lt]
      constructor <;> linarith
    · rw [h1]
      push_cast
      rw [Real.sqrt_sq hr']
      simp
  have key : ∃ l, octant r aa r.toNat r 0 1 = some l ∧ ∀ p ∈ l, (0 ≤ p.2.2 ∧ p.2.2 ≤ 1) ∧ (r - 1) ^ 2 < p.1 ^ 2 + p.2.1 ^ 2 ∧ p.1 ^ 2 + p.2.1 ^ 2 < (r + 1) ^ 2 := by
    rcases eq_or_lt_of_le hr with rfl | h
    · exact ⟨[], rfl, by simp⟩
    · exact octant_ok r (by omega) aa _ _ _ _ (entree_debut r)
  obtain ⟨l, el, hl⟩ := key
  unfold cercleTous
  rw [el]
  refine ⟨_, rfl, ?_⟩
  rintro ⟨u, v, w⟩ hp
  obtain ⟨q, hq, hp⟩ := List.mem_flatMap.1 hp
  obtain ⟨x, y, w'⟩ := q
  obtain ⟨rfl, hxy⟩ := (mem_cercle8 ..).1 hp
  have hs : (u - cx) ^ 2 + (v - cy) ^ 2 = x ^ 2 + y ^ 2 := by
    have sa : ∀ a : ℤ, a ^ 2 = |a| ^ 2 := fun a => (sq_abs a).symm
    rw [sa (u - cx), sa (v - cy), sa x, sa y]
    rcases hxy with ⟨h1, h2⟩ | ⟨h1, h2⟩ <;> rw [h1, h2]
    ring
  have conv : presDuCercle r x y → presDuCercle r (u - cx) (v - cy) := by
    unfold presDuCercle
    rw [hs]
    exact id
  rcases List.mem_cons.1 hq with h | h
  · simp only [Prod.mk.injEq] at h
    obtain ⟨rfl, rfl, rfl⟩ := h
    exact ⟨⟨by norm_num, by norm_num⟩, conv (near _ _ (Or.inr (by ring)) (by nlinarith))⟩
  · obtain ⟨hw, h1, h2⟩ := hl _ h
    exact ⟨hw, conv (near _ _ (Or.inl h1) h2)⟩

/-- **C168 (circle).** For every image, centre, radius and colour, with or without antialiasing, the drawing of a circle is defined and only changes pixels at a distance of less than one of the circle. -/
theorem C168_cercle (im : Img Px) (hv : im.Valide) (cx cy r : ℤ) (hr : 0 ≤ r) (c : Px) (aa : Bool) : ∃ res, cercle im cx cy r c aa = some res ∧ res.sx = im.sx ∧ res.sy = im.sy ∧ res.Valide ∧
    ∀ u v, res.val u v ≠ im.val u v → presDuCercle r (u - cx) (v - cy) := by
  obtain ⟨l, el, hl⟩ := cercleTous_ok cx cy r hr aa
  obtain ⟨res, e, r1, r2, r3, r4, -⟩ := pointsAlpha_val c l (fun p hp => (hl p hp).1) im hv
  refine ⟨res, by unfold cercle; rw [el]; exact e, r1, r2, r3, fun u v h => ?_⟩
  obtain ⟨p, hp, rfl, rfl, -⟩ := r4 u v h
  exact (hl p hp).2

/-- **C168 (symmetry).** The weighted points of a circle are invariant by the eight symmetries of the square around the centre. -/
theorem C168_symetrie (cx cy r : ℤ) (aa : Bool) (l : List (ℤ × ℤ × ℝ)) (h : cercleTous cx cy r aa = some l) (x y : ℤ) (w : ℝ) :
    ((cx + x, cy + y, w) ∈ l ↔ (cx - x, cy + y, w) ∈ l) ∧ ((cx + x, cy + y, w) ∈ l ↔ (cx + x, cy - y, w) ∈ l) ∧ ((cx + x, cy + y, w) ∈ l ↔ (cx + y, cy + x, w) ∈ l) := by
  unfold cercleTous at h
  obtain ⟨l', -, rfl⟩ := Option.map_eq_some_iff.1 h
  simp only [List.mem_flatMap, mem_cercle8]
  refine ⟨?_, ?_, ?_⟩ <;> refine exists_congr fun p => and_congr_right fun _ => and_congr_right fun _ => ?_
  · rw [show cx - x - cx = -x by ring, abs_neg, show cx + x - cx = x by ring]
  · rw [show cy - y - cy = -y by ring, abs_neg, show cy + y - cy = y by ring]
  · rw [show cx + x - cx = x by ring, show cy + x - cy = x by ring, show cy + y - cy = y by ring, show cx + y - cx = y by ring]
    tauto

/-- **C168 (weights).** In the octant, each row `y` has its two pixels on both sides of the circle, with the weights of the linear interpolation: their barycentre is exactly on the circle. -/
theorem C168_poids (cx cy r y : ℤ) (hy : 1 ≤ y) (hoct : 2 * y ^ 2 ≤ r ^ 2) (hr : 1 ≤ r) : ∃ l, cercleTous cx cy r true = some l ∧
    ∃ (x : ℤ) (w : ℝ), (cx + x, cy + y, 1 - w) ∈ l ∧ (cx + x - 1, cy + y, w) ∈ l ∧ 0 ≤ w ∧ w < 1 ∧ ((1 - w) * x + w * (x - 1)) ^ 2 + (y : ℝ) ^ 2 = r ^ 2 := by
  obtain ⟨l, el, -⟩ := cercleTous_ok cx cy r (by omega) true
  refine ⟨l, el, ?_⟩
  unfold cercleTous at el
  obtain ⟨l', hl', rfl⟩ := Option.map_eq_some_iff.1 el
  have hpos : 0 ≤ r * r - y * y := by nlinarith
  have hyr : y ≤ r := by nlinarith
  have hyf : (y : ℝ) ≤ √((r * r - y * y : ℤ) : ℝ) := by
    apply Real.le_sqrt_of_sq_le
    exact_mod_cast (by nlinarith : y ^ 2 ≤ r * r - y * y)
  have hyd : y ≤ ⌈√((r * r - y * y : ℤ) : ℝ)⌉ := by
    have := hyf.trans (Int.le_ceil _)
    exact_mod_cast this
  obtain ⟨a, b⟩ := octant_complet r hr true y hpos hyd r.toNat r 0 1 (entree_debut r) hr hy (by omega) l' hl'
  refine ⟨⌈√((r * r - y * y : ℤ) : ℝ)⌉, ⌈√((r * r - y * y : ℤ) : ℝ)⌉ - √((r * r - y * y : ℤ) : ℝ), ?_, ?_, ?_, ?_, ?_⟩
  · exact List.mem_flatMap.2 ⟨_, List.mem_cons_of_mem _ a, (mem_cercle8 ..).2 ⟨by simp, Or.inl ⟨by simp, by simp⟩⟩⟩
  · exact List.mem_flatMap.2 ⟨_, List.mem_cons_of_mem _ b, (mem_cercle8 ..).2 ⟨by simp, Or.inl ⟨by congr 1; dsimp only; ring, by simp⟩⟩⟩
  · have := Int.le_ceil (√((r * r - y * y : ℤ) : ℝ)); linarith
  · have := Int.ceil_lt_add_one (√((r * r - y * y : ℤ) : ℝ)); linarith
  · have hs := Real.sq_sqrt (by exact_mod_cast hpos : (0 : ℝ) ≤ ((r * r - y * y : ℤ) : ℝ))
    generalize √((r * r - y * y : ℤ) : ℝ) = f at *
    push_cast at hs
    have e : (1 - ((⌈f⌉ : ℝ) - f)) * ⌈f⌉ + ((⌈f⌉ : ℝ) - f) * (⌈f⌉ - 1) = f := by ring
    rw [e, hs]
    ring

/-- **C168 (disc).** Every pixel of the image at a distance of at most `r - 1` of the centre takes the filling colour, and no pixel at a distance of `r + 1` or more changes. -/
theorem C168_disque (im : Img Px) (hv : im.Valide) (cx cy r : ℤ) (hr : 0 ≤ r) (c : Px) : ∃ res, cerclePlein im cx cy r c = some res ∧ res.sx = im.sx ∧ res.sy = im.sy ∧ res.Valide ∧
    (∀ u v, 0 ≤ u ∧ 0 ≤ v ∧ u < im.sx ∧ v < im.sy → 1 ≤ r → (u - cx) ^ 2 + (v - cy) ^ 2 ≤ (r - 1) ^ 2 → res.val u v = some c) ∧
    (∀ u v, (r + 1) ^ 2 ≤ (u - cx) ^ 2 + (v - cy) ^ 2 → res.val u v = im.val u v) := by
  -- which circle covers a pixel
  have couvre : ∀ x y : ℤ, 1 ≤ r → x ^ 2 + y ^ 2 ≤ (r - 1) ^ 2 → ∃ r2, 0 ≤ r2 ∧ r2 < r ∧ ∀ l, cercleTous cx cy r2 false = some l → (cx + x, cy + y, (1 : ℝ)) ∈ l := by
    have octantCas : ∀ x y : ℤ, 0 ≤ y → y ≤ x → 1 ≤ r → x ^ 2 + y ^ 2 ≤ (r - 1) ^ 2 → ∃ r2 b, (0 ≤ r2 ∧ r2 < r) ∧ (∀ l, octant r2 false r2.toNat r2 0 1 = some l → (x, y, b) ∈ (r2, 0, 1) :: l) ∧ b = (1 : ℝ) := by
      intro x y hy hyx hr1 hd
      rcases eq_or_lt_of_le hy with rfl | hy1
      · exact ⟨x, 1, ⟨hyx, by nlinarith⟩, fun l _ => by simp, rfl⟩
      · -- the smallest radius greater than √((x-1)² + y²)
        have hn0 : 0 ≤ (x - 1) ^ 2 + y ^ 2 := by positivity
        obtain ⟨s, hs0, hs1, hs2⟩ : ∃ s : ℤ, 0 ≤ s ∧ s ^ 2 ≤ (x - 1) ^ 2 + y ^ 2 ∧ (x - 1) ^ 2 + y ^ 2 < (s + 1) ^ 2 := by
          refine ⟨Int.sqrt ((x - 1) ^ 2 + y ^ 2), Int.sqrt_nonneg _, ?_, ?_⟩
          · obtain ⟨m, hm⟩ := Int.eq_ofNat_of_zero_le hn0
            rw [hm, Int.sqrt_natCast]
            have := Nat.sqrt_le' m
            exact_mod_cast this
          · obtain ⟨m, hm⟩ := Int.eq_ofNat_of_zero_le hn0
            rw [hm, Int.sqrt_natCast]
            have := Nat.lt_succ_sqrt' m
            exact_mod_cast this
        have h4 : 2 * s + 1 ≤ 4 * x := by
          by_contra hc
          have : 4 * x ≤ 2 * s := by omega
          nlinarith
        have hup : (s + 1) ^ 2 ≤ (x + 1) ^ 2 + y ^ 2 := by nlinarith
        have hsr : s + 1 < r := by
          have : s < r - 1 := by
            by_contra hc
            nlinarith [pow_le_pow_left₀ (by omega : 0 ≤ r - 1) (by omega : r - 1 ≤ s) 2]
          omega
        refine ⟨s + 1, 1, ⟨by omega, hsr⟩, fun l hl => List.mem_cons_of_mem _ ?_, rfl⟩
        have hpos : 0 ≤ (s + 1) * (s + 1) - y * y := by nlinarith [sq_nonneg (x - 1)]
        have hc : ⌈√(((s + 1) * (s + 1) - y * y : ℤ) : ℝ)⌉ = x ∨ ⌈√(((s + 1) * (s + 1) - y * y : ℤ) : ℝ)⌉ = x + 1 := by
          by_cases h : (s + 1) * (s + 1) - y * y ≤ x ^ 2
          · left
            exact plafond_unique _ x (by omega) h (by nlinarith)
          · right
            exact plafond_unique _ (x + 1) (by omega) (by nlinarith) (by rw [add_sub_cancel_right]; omega)
        have hys : y ≤ s + 1 := by nlinarith
        obtain ⟨a, b⟩ := octant_complet (s + 1) (by omega) false y hpos (by omega) (s + 1).toNat (s + 1) 0 1 (entree_debut _) (by omega) (by omega) (by omega) l hl
        simp only [Bool.false_eq_true, if_false] at a b
        rcases hc with h | h
        · rw [h] at a; exact a
        · rw [h, add_sub_cancel_right] at b; exact b
    intro x y hr1 hd
    have hsq : ∀ a b : ℤ, |a| ^ 2 + |b| ^ 2 = a ^ 2 + b ^ 2 := fun a b => by rw [sq_abs, sq_abs]
    rcases le_total |y| |x| with h | h
    · obtain ⟨r2, b, hr2, hl, rfl⟩ := octantCas |x| |y| (abs_nonneg _) h hr1 (by rw [hsq]; exact hd)
      refine ⟨r2, hr2.1, hr2.2, fun l hl' => ?_⟩
      unfold cercleTous at hl'
      obtain ⟨l', el, rfl⟩ := Option.map_eq_some_iff.1 hl'
      exact List.mem_flatMap.2 ⟨_, hl l' el, (mem_cercle8 ..).2 ⟨rfl, Or.inl ⟨by simp, by simp⟩⟩⟩
    · obtain ⟨r2, b, hr2, hl, rfl⟩ := octantCas |y| |x| (abs_nonneg _) h hr1 (by rw [hsq, add_comm]; exact hd)
      refine ⟨r2, hr2.1, hr2.2, fun l hl' => ?_⟩
      unfold cercleTous at hl'
      obtain ⟨l', el, rfl⟩ := Option.map_eq_some_iff.1 hl'
      exact List.mem_flatMap.2 ⟨_, hl l' el, (mem_cercle8 ..).2 ⟨rfl, Or.inr ⟨by simp, by simp⟩⟩⟩
  -- the successive circles
  have suite : ∀ (L : List ℤ) (i : Img Px), i.Valide → (∀ k ∈ L, 0 ≤ k ∧ k ≤ r) → ∃ res, L.foldlM (fun (i : Img Px) (r2 : ℤ) => cercle i cx cy r2 c (r2 = r)) i = some res ∧ res.sx = i.sx ∧ res.sy = i.sy ∧ res.Valide ∧
      (∀ u v, i.val u v = some c → res.val u v = some c) ∧
      (∀ u v, (∃ r2 ∈ L, r2 < r ∧ ∀ l, cercleTous cx cy r2 false = some l → (u, v, (1 : ℝ)) ∈ l) → 0 ≤ u ∧ 0 ≤ v ∧ u < i.sx ∧ v < i.sy → res.val u v = some c) ∧
      (∀ u v, (r + 1) ^ 2 ≤ (u - cx) ^ 2 + (v - cy) ^ 2 → res.val u v = i.val u v) := by
    intro L
    induction L with
    | nil => intro i hi _; exact ⟨i, rfl, rfl, rfl, hi, fun _ _ h => h, fun u v h => by simp at h, fun _ _ _ => rfl⟩
    | cons k L ih =>
      intro i hi hL
      obtain ⟨hk0, hkr⟩ := hL k (by simp)
      obtain ⟨l, el, hl⟩ := cercleTous_ok cx cy k hk0 (k = r)
      obtain ⟨i1, e1, a1, a2, a3, a4, a5, a6⟩ := pointsAlpha_val c l (fun p hp => (hl p hp).1) i hi
      obtain ⟨res, e2, b1, b2, b3, b4, b5, b6⟩ := ih i1 a3 (fun q hq => hL q (List.mem_cons_of_mem _ hq))
      refine ⟨res, ?_, b1.trans a1, b2.trans a2, b3, fun u v h => b4 u v (a5 u v h), fun u v h hin => ?_, fun u v h => ?_⟩
      · rw [List.foldlM_cons]
        unfold cercle at e2 ⊢
        rw [el, Option.bind_some, e1]
        exact e2
      · obtain ⟨r2, hr2, hlt, hall⟩ := h
        rcases List.mem_cons.1 hr2 with rfl | hr2
        · apply b4
          apply a6 _ _ _ hin
          apply hall
          rw [show decide (r2 = r) = false by simp; omega] at el
          exact el
        · exact b5 u v ⟨r2, hr2, hlt, hall⟩ (by rw [a1, a2]; exact hin)
      · rw [b6 u v h]
        by_contra hne
        obtain ⟨p, hp, rfl, rfl, -⟩ := a4 u v hne
        have := (hl p hp).2
        unfold presDuCercle at this
        have hs : ((r + 1 : ℤ) : ℝ) ≤ √(((p.1 - cx) ^ 2 + (p.2.1 - cy) ^ 2 : ℤ) : ℝ) := by
          apply Real.le_sqrt_of_sq_le
          exact_mod_cast h
        rw [abs_lt] at this
        have hk : (k : ℝ) ≤ r := by exact_mod_cast hkr
        push_cast at hs this
        linarith [this.2]
  obtain ⟨res, e, h1, h2, h3, -, h5, h6⟩ := suite ((List.range (r + 1).toNat).map fun k : ℕ => r - k) im hv (by
    intro k hk
    obtain ⟨m, hm, rfl⟩ := List.mem_map.1 hk
    have := List.mem_range.1 hm
    omega)
  refine ⟨res, e, h1, h2, h3, fun u v hin hr1 hd => ?_, h6⟩
  obtain ⟨r2, ha, hb, hc⟩ := couvre (u - cx) (v - cy) hr1 hd
  refine h5 u v ⟨r2, List.mem_map.2 ⟨(r - r2).toNat, List.mem_range.2 (by omega), by omega⟩, hb, fun l hl => ?_⟩ hin
  have := hc l hl
  rwa [add_sub_cancel, add_sub_cancel] at this

/-- **C168 (stray pixel, refuted).** The two pixels of a row are not always around the circle: for the radius 10, the pixel at the offset (7, 8) is drawn with the full weight although the circle goes exactly through (6, 8): the abscissa
decreases by at most one per row, and the loop goes one row too far. -/
theorem C168_parasite_refute : ∃ l, cercleTous 0 0 10 true = some l ∧ (7, 8, (1 : ℝ)) ∈ l ∧ (6 : ℤ) ^ 2 + 8 ^ 2 = 10 ^ 2 := by
  obtain ⟨l, el, -⟩ := cercleTous_ok 0 0 10 (by norm_num) true
  refine ⟨l, el, ?_, by norm_num⟩
  unfold cercleTous at el
  obtain ⟨l', hl, rfl⟩ := Option.map_eq_some_iff.1 el
  refine List.mem_flatMap.2 ⟨(7, 8, 1), List.mem_cons_of_mem _ ?_, (mem_cercle8 ..).2 ⟨rfl, Or.inl ⟨by simp, by simp⟩⟩⟩
  have p1 : ⌈√((10 * 10 - 1 * 1 : ℤ) : ℝ)⌉ = 10 := plafond_unique _ 10 (by norm_num) (by norm_num) (by norm_num)
  have p2 : ⌈√((10 * 10 - 2 * 2 : ℤ) : ℝ)⌉ = 10 := plafond_unique _ 10 (by norm_num) (by norm_num) (by norm_num)
  have p3 : ⌈√((10 * 10 - 3 * 3 : ℤ) : ℝ)⌉ = 10 := plafond_unique _ 10 (by norm_num) (by norm_num) (by norm_num)
  have p4 : ⌈√((10 * 10 - 4 * 4 : ℤ) : ℝ)⌉ = 10 := plafond_unique _ 10 (by norm_num) (by norm_num) (by norm_num)
  have p5 : ⌈√((10 * 10 - 5 * 5 : ℤ) : ℝ)⌉ = 9 := plafond_unique _ 9 (by norm_num) (by norm_num) (by norm_num)
  have p6 : ⌈√((10 * 10 - 6 * 6 : ℤ) : ℝ)⌉ = 8 := plafond_unique _ 8 (by norm_num) (by norm_num) (by norm_num)
  have p7 : ⌈√((10 * 10 - 7 * 7 : ℤ) : ℝ)⌉ = 8 := plafond_unique _ 8 (by norm_num) (by norm_num) (by norm_num)
  have p8 : ⌈√((10 * 10 - 8 * 8 : ℤ) : ℝ)⌉ = 6 := plafond_unique _ 6 (by norm_num) (by norm_num) (by norm_num)
  have s8 : √((10 * 10 - 8 * 8 : ℤ) : ℝ) = 6 := by
    rw [show ((10 * 10 - 8 * 8 : ℤ) : ℝ) = 6 ^ 2 by norm_num, Real.sqrt_sq (by norm_num)]
  have pas1 : ∀ (n : ℕ) (i T j d : ℤ) (l : List (ℤ × ℤ × ℝ)), octant 10 true (n + 1) i T j = some l → ⌈√((10 * 10 - j * j : ℤ) : ℝ)⌉ = d → j ≤ i → 0 ≤ 10 * 10 - j * j → ∃ l', octant 10 true n (if d < T then i - 1 else i) d (j + 1) = some l' ∧
      l = ((if d < T then i - 1 else i), j, 1 - (d - √((10 * 10 - j * j : ℤ) : ℝ))) :: ((if d < T then i - 1 else i) - 1, j, d - √((10 * 10 - j * j : ℤ) : ℝ)) :: l' := by
    intro n i T j d l h hd hji hn
    unfold octant at h
    rw [if_pos hji, if_neg (by omega)] at h
    simp only [hd] at h
    obtain ⟨l', e, rfl⟩ := Option.map_eq_some_iff.1 h
    exact ⟨l', e, by simp⟩
  obtain ⟨l1, h1, rfl⟩ := pas1 9 10 0 1 10 l' hl p1 (by norm_num) (by norm_num)
  norm_num at h1
  obtain ⟨l2, h2, rfl⟩ := pas1 8 10 10 2 10 l1 h1 p2 (by norm_num) (by norm_num)
  norm_num at h2
  obtain ⟨l3, h3, rfl⟩ := pas1 7 10 10 3 10 l2 h2 p3 (by norm_num) (by norm_num)
  norm_num at h3
  obtain ⟨l4, h4, rfl⟩ := pas1 6 10 10 4 10 l3 h3 p4 (by norm_num) (by norm_num)
  norm_num at h4
  obtain ⟨l5, h5, rfl⟩ := pas1 5 10 10 5 9 l4 h4 p5 (by norm_num) (by norm_num)
  norm_num at h5
  obtain ⟨l6, h6, rfl⟩ := pas1 4 9 9 6 8 l5 h5 p6 (by norm_num) (by norm_num)
  norm_num at h6
  obtain ⟨l7, h7, rfl⟩ := pas1 3 8 8 7 8 l6 h6 p7 (by norm_num) (by norm_num)
  norm_num at h7
  obtain ⟨l8, h8, rfl⟩ := pas1 2 8 8 8 6 l7 h7 p8 (by norm_num) (by norm_num)
  rw [s8]
  simp only [List.mem_cons]
  iterate 14 right
  left
  norm_num

/-- Non-vacuity: a circle of radius 5 has the row 3 in its octant, and the centre of a disc of radius 3 is coloured. -/
example : (∃ l, cercleTous 10 10 5 true = some l ∧ ∃ (x : ℤ) (w : ℝ), (10 + x, 13, 1 - w) ∈ l ∧ 0 ≤ w) := by
  obtain ⟨l, e, x, w, h, -, h0, -⟩ := C168_poids 10 10 5 3 (by norm_num) (by norm_num) (by norm_num)
  exact ⟨l, e, x, w, h, h0⟩

end Verif.Vue
