/-
C168: circles and discs on an image (core/src/vue/image-bmp.cc).
-/
import Verif.Vue.DessinAa

namespace Verif.Vue

/-! ## Model (exact arithmetic) -/

/-- `cercle8(ctr, x, y, c, α)`, core/src/vue/image-bmp.cc:1160-1177: the eight points, with their weight. -/
def cercle8 (cx cy x y : ℤ) (w : ℝ) : List (ℤ × ℤ × ℝ) :=
  [(x, y), (-x, y), (x, -y), (-x, -y)].flatMap fun p : ℤ × ℤ => [(cx + p.1, cy + p.2, w), (cx + p.2, cy + p.1, w)]

/-- The loop of `cercle`, core/src/vue/image-bmp.cc:1294-1307: the points of one octant and their weights; `none`: square root of a negative number. The number of turns is bounded by the first argument. -/
noncomputable def octant (r : ℤ) (aa : Bool) : ℕ → ℤ → ℤ → ℤ → Option (List (ℤ × ℤ × ℝ))
  | 0, _, _, _ => some []
  | n + 1, i, T, j =>
    if j ≤ i then
      if r * r - j * j < 0 then none
      else
        let rac := √((r * r - j * j : ℤ) : ℝ);
        let d1 := ⌈rac⌉;
        let i' := if d1 < T then i - 1 else i;
        let α := d1 - rac;
        (octant r aa n i' d1 (j + 1)).map fun l : List (ℤ × ℤ × ℝ) => (i', j, if aa then 1 - α else 1) :: (i' - 1, j, if aa then α else 1) :: l
    else some []

/-- All the points of `cercle(p0, r, cd, avec_alpha)`, core/src/vue/image-bmp.cc:1288-1308, in order. -/
noncomputable def cercleTous (cx cy r : ℤ) (aa : Bool) : Option (List (ℤ × ℤ × ℝ)) :=
  (octant r aa r.toNat r 0 1).map fun l : List (ℤ × ℤ × ℝ) => ((r, 0, 1) :: l).flatMap fun p : ℤ × ℤ × ℝ => cercle8 cx cy p.1 p.2.1 p.2.2

/-- Points with a weight. -/
noncomputable def pointsAlpha (im : Img Px) (c : Px) (l : List (ℤ × ℤ × ℝ)) : Option (Img Px) := l.foldlM (fun (i : Img Px) (p : ℤ × ℤ × ℝ) => pointAlpha i p.1 p.2.1 c p.2.2) im

/-- `cercle(p0, r, cd, avec_alpha)`, core/src/vue/image-bmp.cc:1288-1313. -/
noncomputable def cercle (im : Img Px) (cx cy r : ℤ) (c : Px) (aa : Bool) : Option (Img Px) := (cercleTous cx cy r aa).bind fun l : List (ℤ × ℤ × ℝ) => pointsAlpha im c l

/-- `cercle_plein(p0, r)`, core/src/vue/image-bmp.cc:1339-1343. -/
noncomputable def cerclePlein (im : Img Px) (cx cy r : ℤ) (cf : Px) : Option (Img Px) :=
  ((List.range (r + 1).toNat).map fun k : ℕ => r - k).foldlM (fun (i : Img Px) (r2 : ℤ) => cercle i cx cy r2 cf (r2 = r)) im

/-! ## Specification -/

/-- The pixel at the offset `(x, y)` of the centre is at a distance of less than one of the circle of radius `r`. -/
def presDuCercle (r x y : ℤ) : Prop := |√((x ^ 2 + y ^ 2 : ℤ) : ℝ) - r| < 1

/-! ## Weighted points -/

theorem mele_meme (α : ℝ) (c : Px) : mele α c c = some c := by
  have h : ∀ k, α * (c k).toNat + (1 - α) * (c k).toNat = (c k).toNat := fun k => by ring
  unfold mele
  simp only [h]
  rw [if_pos]
  · congr 1
    funext k
    rw [max_eq_right (Nat.cast_nonneg _), Nat.floor_natCast, BitVec.ofNat_toNat, BitVec.setWidth_eq]
  · intro k
    have h1 : ((c k).toNat : ℝ) < 256 := by exact_mod_cast (c k).isLt
    have h0 : (0 : ℝ) ≤ (c k).toNat := Nat.cast_nonneg _
    constructor <;> linarith

theorem mele_zero (c ov : Px) : mele 0 c ov = some ov := by
  rw [← mele_meme 0 ov]
  unfold mele
  simp

theorem mele_un (c ov : Px) : mele 1 c ov = some c := by
  rw [← mele_meme 1 c]
  unfold mele
  simp

/-- One weighted point: where it acts. -/
theorem pointAlpha_val (im : Img Px) (hv : im.Valide) (x y : ℤ) (c : Px) (w : ℝ) (h0 : 0 ≤ w) (h1 : w ≤ 1) : ∃ r, pointAlpha im x y c w = some r ∧ r.sx = im.sx ∧ r.sy = im.sy ∧ r.Valide ∧
    (∀ u v, r.val u v ≠ im.val u v → u = x ∧ v = y ∧ w ≠ 0) ∧ (∀ u v, im.val u v = some c → r.val u v = some c) ∧ (w = 1 → 0 ≤ x ∧ 0 ≤ y ∧ x < im.sx ∧ y < im.sy → r.val x y = some c) := by
  unfold pointAlpha
  by_cases hin : 0 ≤ x ∧ 0 ≤ y ∧ x < im.sx ∧ y < im.sy
  · rw [if_pos hin, lit_val im x y hv hin]
    obtain ⟨ov, ho⟩ := val_dedans im hv x y ⟨hin.1, hin.2.2.1, hin.2.1, hin.2.2.2⟩
    obtain ⟨p, hp, hpb⟩ := mele_borne w c ov h0 h1
    obtain ⟨r, e, r1, r2, r3, r4⟩ := pose_val im hv x y p hin
    rw [ho, Option.bind_some, hp, Option.bind_some]
    refine ⟨r, e, r1, r2, r3, fun u v h => ?_, fun u v h => ?_, fun hw _ => ?_⟩
    · rw [r4] at h
      by_cases huv : u = x ∧ v = y
      · refine ⟨huv.1, huv.2, ?_⟩
        rintro rfl
        rw [mele_zero] at hp
        rw [if_pos huv, huv.1, huv.2, ho, ← Option.some.inj hp] at h
        exact h rfl
      · rw [if_neg huv] at h
        exact absurd rfl h
    · rw [r4]
      split_ifs with huv
      · rw [huv.1, huv.2, ho] at h
        rw [Option.some.inj h, mele_meme] at hp
        exact hp.symm
      · exact h
    · rw [r4, if_pos ⟨rfl, rfl⟩, ← hp, hw, mele_un]
  · rw [if_neg hin]
    exact ⟨im, rfl, rfl, rfl, hv, fun u v h => absurd rfl h, fun _ _ h => h, fun _ h => absurd h hin⟩

theorem pointsAlpha_val (c : Px) (l : List (ℤ × ℤ × ℝ)) (hl : ∀ p ∈ l, 0 ≤ p.2.2 ∧ p.2.2 ≤ 1) (im : Img Px) (hv : im.Valide) : ∃ r, pointsAlpha im c l = some r ∧ r.sx = im.sx ∧ r.sy = im.sy ∧ r.Valide ∧
    (∀ u v, r.val u v ≠ im.val u v → ∃ p ∈ l, u = p.1 ∧ v = p.2.1 ∧ p.2.2 ≠ 0) ∧ (∀ u v, im.val u v = some c → r.val u v = some c) ∧
    (∀ u v, (u, v, (1 : ℝ)) ∈ l → 0 ≤ u ∧ 0 ≤ v ∧ u < im.sx ∧ v < im.sy → r.val u v = some c) := by
  unfold pointsAlpha
  induction l generalizing im with
  | nil => exact ⟨im, rfl, rfl, rfl, hv, fun u v h => absurd rfl h, fun _ _ h => h, fun u v h => absurd h (by simp)⟩
  | cons p l ih =>
    obtain ⟨hp0, hp1⟩ := hl p (by simp)
    obtain ⟨i, e, i1, i2, i3, i4, i5, i6⟩ := pointAlpha_val im hv p.1 p.2.1 c p.2.2 hp0 hp1
    obtain ⟨r, er, r1, r2, r3, r4, r5, r6⟩ := ih (fun q hq => hl q (List.mem_cons_of_mem _ hq)) i i3
    refine ⟨r, by rw [List.foldlM_cons, e]; exact er, r1.trans i1, r2.trans i2, r3, fun u v h => ?_, fun u v h => r5 u v (i5 u v h), fun u v h hin => ?_⟩
    · by_cases h2 : r.val u v = i.val u v
      · rw [h2] at h
        exact ⟨p, by simp, i4 u v h⟩
      · obtain ⟨q, hq, hq'⟩ := r4 u v h2
        exact ⟨q, List.mem_cons_of_mem _ hq, hq'⟩
    · rcases List.mem_cons.1 h with h | h
      · apply r5
        obtain ⟨a, b, w⟩ := p
        simp only [Prod.mk.injEq] at h
        obtain ⟨rfl, rfl, rfl⟩ := h
        exact i6 rfl hin
      · exact r6 u v h (by rw [i1, i2]; exact hin)

/-! ## The octant -/

/-- `⌈√n⌉` in integers. -/
theorem plafond_racine (n : ℤ) (hn : 0 ≤ n) : let c := ⌈√(n : ℝ)⌉; 0 ≤ c ∧ n ≤ c ^ 2 ∧ (c ≠ 0 → (c - 1) ^ 2 < n) ∧ (c = 0 → n = 0) := by
  intro c
  have hn' : (0 : ℝ) ≤ n := by exact_mod_cast hn
  have h0 : 0 ≤ c := Int.ceil_nonneg (Real.sqrt_nonneg _)
  have h1 : √(n : ℝ) ≤ c := Int.le_ceil _
  have h2 : (c : ℝ) < √(n : ℝ) + 1 := Int.ceil_lt_add_one _
  have hs := Real.sq_sqrt hn'
  have hs0 := Real.sqrt_nonneg (n : ℝ)
  have h3 : n ≤ c ^ 2 := by
    have : (n : ℝ) ≤ (c : ℝ) ^ 2 := by rw [← hs]; exact pow_le_pow_left₀ hs0 h1 2
    exact_mod_cast this
  refine ⟨h0, h3, fun hc => ?_, fun hc => ?_⟩
  · have hc1 : (1 : ℝ) ≤ c := by exact_mod_cast (by omega : 1 ≤ c)
    have : ((c : ℝ) - 1) ^ 2 < n := by
      rw [← hs]
      exact pow_lt_pow_left₀ (by linarith) (by linarith) (by norm_num)
    exact_mod_cast this
  · rw [hc] at h3
    omega

theorem plafond_unique (n c : ℤ) (hc : 1 ≤ c) (h1 : n ≤ c ^ 2) (h2 : (c - 1) ^ 2 < n) : ⌈√(n : ℝ)⌉ = c := by
  have hn : 0 ≤ n := by nlinarith [sq_nonneg (c - 1)]
  obtain ⟨a0, a1, a2, a3⟩ := plafond_racine n hn
  generalize ⌈√(n : ℝ)⌉ = d at *
  by_cases hd : d = 0
  · have := a3 hd
    nlinarith [sq_nonneg (c - 1)]
  · have := a2 hd
    by_contra hne
    rcases lt_or_gt_of_ne hne with h | h
    · nlinarith
    · nlinarith

/-- State of the loop at the beginning of the turn `j`. -/
def Entree (r i T j : ℤ) : Prop := 1 ≤ j ∧ ((j = 1 ∧ i = r ∧ T = 0) ∨ (2 ≤ j ∧ (T : ℤ) = ⌈√((r * r - (j - 1) * (j - 1) : ℤ) : ℝ)⌉ ∧ 0 ≤ r * r - (j - 1) * (j - 1) ∧ (i = T ∨ i < j)))

/-- One turn: the new `i` is the ceiling of the abscissa, except on the last turn where it can be one more or two. -/
theorem tour (r i T j : ℤ) (hr : 1 ≤ r) (he : Entree r i T j) (hji : j ≤ i) : 0 ≤ r * r - j * j ∧
    (let d := ⌈√((r * r - j * j : ℤ) : ℝ)⌉; let i' := if d < T then i - 1 else i; Entree r i' d (j + 1) ∧ (i' = d ∨ (r = 1 ∧ j = 1 ∧ i' = 1 ∧ d = 0) ∨ (2 ≤ j ∧ i' = j - 1 ∧ d < j - 1 ∧ (r * r = 2 * (j - 1) ^ 2 + 1 ∨ r * r = 2 * (j - 1) ^ 2 + 2)))) := by
  obtain ⟨hj, he⟩ := he
  rcases he with ⟨rfl, hir, rfl⟩ | ⟨hj2, hT, hpos, hi⟩
  · have hn : 0 ≤ r * r - 1 * 1 := by nlinarith
    refine ⟨hn, ?_⟩
    intro d i'
    obtain ⟨d0, -⟩ := plafond_racine _ hn
    have hd0 : ¬ d < 0 := by simp only [d]; omega
    have hi' : i' = r := by simp only [i']; rw [if_neg hd0, hir]
    by_cases h1 : r = 1
    · have hd : d = 0 := by simp only [d]; rw [h1]; norm_num
      refine ⟨⟨by norm_num, Or.inr ⟨by norm_num, ?_, by norm_num; nlinarith, Or.inr (by omega)⟩⟩, Or.inr (Or.inl ⟨h1, rfl, by omega, hd⟩)⟩
      simp only [d]
      norm_num
    · have hd : d = r := plafond_unique _ r hr (by nlinarith) (by nlinarith [show 2 ≤ r by omega])
      refine ⟨⟨by norm_num, Or.inr ⟨by norm_num, ?_, by norm_num; nlinarith, Or.inl (by omega)⟩⟩, Or.inl (by omega)⟩
      simp only [d]
      norm_num
  · have hiT : i = T := by omega
    subst hiT
    obtain ⟨a0, a1, a2, a3⟩ := plafond_racine _ hpos
    rw [← hT] at a0 a1 a2 a3
    have hin : i ≠ 0 := by omega
    have b := a2 hin
    have hn : 0 ≤ r * r - j * j := by
      -- r² - (j-1)² > (i-1)² ≥ (j-1)², hence r² > 2 (j-1)², and r ≥ j
      have h1 : (j - 1) ^ 2 ≤ (i - 1) ^ 2 := pow_le_pow_left₀ (by omega) (by omega) 2
      have h2 : j - 1 < r := by
        by_contra hc
        nlinarith [pow_le_pow_left₀ (by omega : 0 ≤ r) (by omega : r ≤ j - 1) 2, sq_nonneg (j - 1), sq_nonneg (i - 1)]
      nlinarith
    refine ⟨hn, ?_⟩
    intro d i'
    obtain ⟨d0, d1, d2, d3⟩ := plafond_racine _ hn
    have hd' : ⌈√((r * r - j * j : ℤ) : ℝ)⌉ = d := rfl
    rw [hd'] at d0 d1 d2 d3
    have hdi : d ≤ i := by
      by_contra hc
      have := d2 (by omega)
      nlinarith [pow_le_pow_left₀ (by omega : 0 ≤ i) (by omega : i ≤ d - 1) 2]
    have hEnt : ∀ k : ℤ, (k = d ∨ k < j + 1) → Entree r k d (j + 1) := by
      intro k hk
      refine ⟨by omega, Or.inr ⟨by omega, ?_, by rw [add_sub_cancel_right]; exact hn, hk⟩⟩
      rw [add_sub_cancel_right]
    by_cases hlt : d < i
    · have hi' : i' = i - 1 := by simp only [i']; rw [if_pos hlt]
      by_cases hex : d = i - 1
      · exact ⟨hEnt _ (Or.inl (by omega)), Or.inl (by omega)⟩
      · -- a jump of at least two
        have hd2 : d ≤ i - 2 := by omega
        have h3 : r * r - j * j ≤ (i - 2) ^ 2 := by
          have := pow_le_pow_left₀ d0 hd2 2
          omega
        have hij : i = j := by
          by_contra hne
          have : j + 1 ≤ i := by omega
          nlinarith
        subst hij
        refine ⟨hEnt _ (Or.inr (by omega)), Or.inr (Or.inr ⟨hj2, hi', by omega, ?_⟩)⟩
        have e1 : (i - 1) * (i - 1) = (i - 1) ^ 2 := by ring
        have h4 : r * r ≤ 2 * (i - 1) ^ 2 + 2 := by nlinarith
        have h5 : 2 * (i - 1) ^ 2 < r * r := by nlinarith
        omega
    · have hi' : i' = i := by simp only [i']; rw [if_neg hlt]
      exact ⟨hEnt _ (Or.inl (by omega)), Or.inl (by omega)⟩

end Verif.Vue
