import Verif.Fourier.DelaisProps

/-!
# C73: the alignment succeeds for every pair of non-null signals
-/

namespace Verif.Fourier

open Finset

theorem ech_nonnul (x : List ℂ) (h : ∃ v ∈ x, v ≠ 0) : ∃ k : ℕ, k < x.length ∧ ech x k ≠ 0 := by
  obtain ⟨v, hv, h0⟩ := h
  obtain ⟨k, hk, rfl⟩ := List.getElem_of_mem hv
  refine ⟨k, hk, ?_⟩
  unfold ech
  rw [if_pos (by omega), Int.toNat_natCast, List.getD_eq_getElem _ _ hk]; exact h0

/-- The correlation of two non-null signals is not null: first non-null sample of the one against the last of the other. -/
theorem inter_nonnul (x y : List ℂ) (N : ℕ) (hx : ∃ v ∈ x, v ≠ 0) (hy : ∃ v ∈ y, v ≠ 0) (lx : x.length ≤ N) (ly : y.length ≤ N) :
    ∃ τ : ℤ, -(N : ℤ) < τ ∧ τ < N ∧ inter N (ech x) (ech y) τ ≠ 0 := by
  classical
  have ex := ech_nonnul x hx
  have ey := ech_nonnul y hy
  -- first non-null sample of x
  obtain ⟨k0, ⟨hk0, hk0'⟩, hmin⟩ : ∃ k0 : ℕ, (k0 < x.length ∧ ech x k0 ≠ 0) ∧ ∀ j < k0, ¬ (j < x.length ∧ ech x j ≠ 0) :=
    ⟨Nat.find ex, Nat.find_spec ex, fun j hj => Nat.find_min ex hj⟩
  -- last non-null sample of y
  obtain ⟨m0, hm0, hm0', hmax⟩ : ∃ m0 : ℕ, m0 < y.length ∧ ech y m0 ≠ 0 ∧ ∀ j : ℕ, m0 < j → ech y j = 0 := by
    have : ∃ r : ℕ, r < y.length ∧ ech y ((y.length - 1 - r : ℕ) : ℤ) ≠ 0 := by
      obtain ⟨m, h1, h2⟩ := ey
      exact ⟨y.length - 1 - m, by omega, by rw [show y.length - 1 - (y.length - 1 - m) = m by omega]; exact h2⟩
    refine ⟨y.length - 1 - Nat.find this, by have := (Nat.find_spec this).1; omega, (Nat.find_spec this).2, fun j hj => ?_⟩
    by_contra hc
    have hb := ech_borne y y.length le_rfl _ hc
    refine Nat.find_min this (m := y.length - 1 - j) (by have := (Nat.find_spec this).1; omega) ⟨by omega, ?_⟩
    rw [show y.length - 1 - (y.length - 1 - j) = j by omega]; exact hc
  refine ⟨(m0 : ℤ) - k0, by omega, by omega, ?_⟩
  unfold inter
  rw [sum_eq_single (k0 : ℤ)]
  · rw [show (k0 : ℤ) + ((m0 : ℤ) - k0) = m0 by ring]
    exact mul_ne_zero hk0' (by simpa using hm0')
  · intro k hk hne
    obtain ⟨h1, h2⟩ := mem_Ico.1 hk
    rcases lt_or_gt_of_ne hne with h | h
    · have : ech x k = 0 := by
        by_contra hc
        have hb := ech_borne x x.length le_rfl _ hc
        refine hmin k.toNat (by omega) ⟨by omega, ?_⟩
        rwa [Int.toNat_of_nonneg h1]
      rw [this, zero_mul]
    · have := hmax (k + ((m0 : ℤ) - k0)).toNat (by omega)
      rw [Int.toNat_of_nonneg (by omega)] at this
      rw [this, star_zero, mul_zero]
  · intro h; exact absurd (mem_Ico.2 ⟨by omega, by omega⟩) h

theorem inter_support (x y : List ℂ) (N : ℕ) (τ : ℤ) (h : inter N (ech x) (ech y) τ ≠ 0) : -(x.length : ℤ) < τ ∧ τ < y.length := by
  by_contra hc
  apply h
  unfold inter
  apply sum_eq_zero
  intro k hk
  by_contra hne
  have h1 := ech_borne x x.length le_rfl k (left_ne_zero_of_mul hne)
  have h2 := ech_borne y y.length le_rfl (k + τ) (by
    intro h0; rw [h0] at hne; simp at hne)
  omega

theorem arrondi_proche (L : ℤ) (δ : ℝ) (h : |δ| ≤ 1 / 2) : L - 1 ≤ arrondi (L + δ) ∧ arrondi (L + δ) ≤ L + 1 := by
  obtain ⟨h1, h2⟩ := abs_le.1 h
  unfold arrondi
  split
  · constructor
    · rw [Int.le_floor]; push_cast; linarith
    · rw [← Int.lt_add_one_iff, Int.floor_lt]; push_cast; linarith
  · constructor
    · have : ⌊-((L : ℝ) + δ) + 1 / 2⌋ ≤ -L + 1 := by rw [← Int.lt_add_one_iff, Int.floor_lt]; push_cast; linarith
      omega
    · have : -L - 1 ≤ ⌊-((L : ℝ) + δ) + 1 / 2⌋ := by rw [Int.le_floor]; push_cast; linarith
      omega

theorem decale_some {T : Type} (x y : List T) (d : ℤ) (h1 : -(x.length : ℤ) ≤ d) (h2 : d ≤ y.length) : ∃ q, decale x y d = some q := by
  unfold decale
  split
  · exact ⟨_, rfl⟩
  · split
    · rw [queueZ, if_pos (by omega)]; exact ⟨_, rfl⟩
    · rw [queueZ, if_pos (by omega)]; exact ⟨_, rfl⟩

/-- Delay found for two non-null signals: half a sample at most from a position where the supports of the signals overlap. -/
theorem estim_nonnul (x y : List ℂ) (N : ℕ) (hN : N = max x.length y.length) (hx : ∃ v ∈ x, v ≠ 0) (hy : ∃ v ∈ y, v ≠ 0) (hb : 3 * N ≤ 2 ^ 29) :
    ∃ (L : ℤ) (δ s : ℝ), |δ| ≤ 1 / 2 ∧ estimationDelais x y = some (L + δ, s) ∧ inter N (ech x) (ech y) L ≠ 0 ∧
      ∀ τ : ℤ, -(N : ℤ) < τ → τ < N → ‖inter N (ech x) (ech y) τ‖ ≤ ‖inter N (ech x) (ech y) L‖ := by
  obtain ⟨τ, t1, t2, hτ⟩ := inter_nonnul x y N hx hy (by omega) (by omega)
  have h0 : 0 < N := by omega
  obtain ⟨cn, lcn, hg, h1, h2⟩ := estim_forme x y N hN h0 hb
  have hnr : (1 : ℝ) ≤ N := by exact_mod_cast h0
  have hD : 0 < Real.sqrt (energie N (ech x)) * Real.sqrt (energie N (ech y)) + (N : ℝ) / 10 ^ 50 := by positivity
  have hsp := indexMax_spec cn (by omega)
  set L : ℤ := (indexMax cn : ℤ) - ((N : ℤ) - 1) with hL
  have hLr : (indexMax cn : ℝ) - ((N : ℝ) - 1) = (L : ℝ) := by rw [hL]; push_cast; ring
  have hmaxi : ∀ τ : ℤ, -(N : ℤ) < τ → τ < N → ‖inter N (ech x) (ech y) τ‖ ≤ ‖inter N (ech x) (ech y) L‖ := by
    intro τ a b
    have m := indexMax_max cn (τ + (N - 1)).toNat (by omega)
    rw [hg _ (by omega), hg _ (by omega), div_le_div_iff_of_pos_right hD, show (((τ + (N - 1)).toNat : ℕ) : ℤ) - ((N : ℤ) - 1) = τ by omega] at m
    exact m
  have hLne : inter N (ech x) (ech y) L ≠ 0 := by
    intro h
    have := hmaxi τ t1 t2
    rw [h, norm_zero] at this
    exact hτ (norm_le_zero_iff.1 this)
  by_cases hint : 0 < indexMax cn ∧ indexMax cn + 1 < cn.length
  · have a0 := indexMax_premier cn (indexMax cn - 1) (by omega)
    have a1 := indexMax_max cn (indexMax cn + 1) hint.2
    have hh := h1 hint
    set c0 := cn.getD (indexMax cn - 1) 0
    set c := cn.getD (indexMax cn) 0
    set c1 := cn.getD (indexMax cn + 1) 0
    have hden : 0 < 2 * c - c1 - c0 := by linarith
    have hq : qintLoc c0 c c1 = some ((c1 - c0) / (2 * (2 * c - c1 - c0))) := by
      unfold qintLoc; rw [if_neg (by intro h; linarith)]
    have hqb : |(c1 - c0) / (2 * (2 * c - c1 - c0))| ≤ 1 / 2 := by
      rw [abs_le, le_div_iff₀ (by linarith), div_le_iff₀ (by linarith)]
      constructor <;> linarith
    exact ⟨L, _, _, hqb, by rw [hh _ hq hqb, hLr], hLne, hmaxi⟩
  · exact ⟨L, 0, _, by norm_num, by rw [h2 hint, hLr, add_zero], hLne, hmaxi⟩

theorem inter_taille (x y : List ℂ) (N M : ℕ) (hN : x.length ≤ N) (hM : x.length ≤ M) (τ : ℤ) : inter N (ech x) (ech y) τ = inter M (ech x) (ech y) τ := by
  rw [inter_tsum N _ _ (ech_borne x N hN), inter_tsum M _ _ (ech_borne x M hM)]

/-- **C73 (success).**  For every pair of signals that are not null (of sizes compatible with the FFT), the alignment succeeds; the delay is at
most one sample away from a delay `L` that maximises the modulus of the correlation, at which the signals overlap. -/
theorem C73_succes (x y : List ℂ) (hx : ∃ v ∈ x, v ≠ 0) (hy : ∃ v ∈ y, v ≠ 0) (hb : 3 * 2 ^ Nat.clog 2 (max x.length y.length) ≤ 2 ^ 29) :
    ∃ xa ya d s L, aligneEntier x y = some (xa, ya, d, s) ∧ |d - L| ≤ 1 ∧ inter x.length (ech x) (ech y) L ≠ 0 ∧
      ∀ τ : ℤ, ‖inter x.length (ech x) (ech y) τ‖ ≤ ‖inter x.length (ech x) (ech y) L‖ := by
  set N := 2 ^ Nat.clog 2 (max x.length y.length) with hN
  have hNl := clog_borne (max x.length y.length)
  rw [← hN] at hNl
  have hx0 : x.length ≠ 0 := by
    intro h; obtain ⟨v, hv, -⟩ := hx; rw [List.length_eq_zero_iff.1 h] at hv; exact absurd hv List.not_mem_nil
  set xp := x ++ List.replicate (N - x.length) (0 : ℂ) with hxp
  set yp := y ++ List.replicate (N - y.length) (0 : ℂ) with hyp
  have lx : xp.length = N := by simp [hxp]; omega
  have ly : yp.length = N := by simp [hyp]; omega
  have hpad : padZeros x y true = some (xp, yp) := by
    unfold padZeros
    simp only [true_and, if_true]
    rw [if_neg (by omega)]
  obtain ⟨L, δ, s, hδ, he, hL, hm⟩ := estim_nonnul xp yp N (by rw [lx, ly, max_self])
    (by obtain ⟨v, hv, h⟩ := hx; exact ⟨v, by rw [hxp]; exact List.mem_append_left _ hv, h⟩)
    (by obtain ⟨v, hv, h⟩ := hy; exact ⟨v, by rw [hyp]; exact List.mem_append_left _ hv, h⟩) hb
  have ex : ech xp = ech x := by ext k; exact ech_pad x _ k
  have ey : ech yp = ech y := by ext k; exact ech_pad y _ k
  rw [ex, ey] at hL hm
  simp only [inter_taille x y N x.length (by omega) le_rfl] at hL hm
  obtain ⟨o1, o2⟩ := inter_support x y _ L hL
  obtain ⟨r1, r2⟩ := arrondi_proche L δ hδ
  obtain ⟨q, hq⟩ := decale_some x y (arrondi (L + δ)) (by omega) (by omega)
  refine ⟨(tronque q).1, (tronque q).2, arrondi (L + δ), s, L, ?_, ?_, hL, fun τ => ?_⟩
  · unfold aligneEntier
    simp only [hpad, he, Option.bind_some, hq, Option.map_some]
  · rw [abs_le]; constructor <;> omega
  · by_cases h : inter x.length (ech x) (ech y) τ = 0
    · rw [h, norm_zero]; exact norm_nonneg _
    · obtain ⟨a, b⟩ := inter_support x y _ τ h
      exact hm τ (by omega) (by omega)

/-- Non-vacuity. -/
example : (∃ v ∈ ([0, 1, 2] : List ℂ), v ≠ 0) ∧ 3 * 2 ^ Nat.clog 2 (max 3 5) ≤ 2 ^ 29 := by
  refine ⟨⟨1, by simp, by norm_num⟩, ?_⟩
  have : Nat.clog 2 (max 3 5) ≤ 3 := by rw [Nat.clog_le_iff_le_pow (by norm_num)]; norm_num
  calc 3 * 2 ^ Nat.clog 2 (max 3 5) ≤ 3 * 2 ^ 3 := by gcongr; norm_num
    _ ≤ 2 ^ 29 := by norm_num

/-- The delay found is null correlation's smallest one when either signal is null. -/
theorem estim_nul (x y : List ℂ) (h : (∀ v ∈ x, v = 0) ∨ (∀ v ∈ y, v = 0)) (N : ℕ) (hN : N = max x.length y.length) (h0 : 0 < N) (hb : 3 * N ≤ 2 ^ 29) :
    estimationDelais x y = some (-((N : ℝ) - 1), 0) := by
  rcases h with h | h
  · exact C72_silence x y h N hN h0 hb
  obtain ⟨cn, lcn, hg, h1, h2⟩ := estim_forme x y N hN h0 hb
  have hz : ∀ i, i < 2 * N - 1 → cn.getD i 0 = 0 := by
    intro i hi
    rw [hg i hi]
    have : inter N (ech x) (ech y) ((i : ℤ) - ((N : ℤ) - 1)) = 0 := by
      unfold inter
      apply sum_eq_zero
      intro k _
      have : ech y (k + ((i : ℤ) - ((N : ℤ) - 1))) = 0 := by
        unfold ech
        split
        · rcases Nat.lt_or_ge (k + ((i : ℤ) - ((N : ℤ) - 1))).toNat y.length with h' | h'
          · rw [List.getD_eq_getElem _ _ h']; exact h _ (List.getElem_mem _)
          · rw [List.getD_eq_default _ _ h']
        · rfl
      rw [this, star_zero, mul_zero]
    rw [this, norm_zero, zero_div]
  have hsp := indexMax_spec cn (by omega)
  have hi : indexMax cn = 0 := by
    by_contra hc
    have := indexMax_premier cn 0 (by omega)
    rw [hz 0 (by omega), hz _ (by omega)] at this
    exact lt_irrefl _ this
  rw [h2 (by omega), hi, hz 0 (by omega)]
  simp

/-- **C73 (silence, exactly).**  When one of the signals is null, the alignment succeeds exactly when the first signal is long enough
for the arbitrary delay `-(N-1)` that is found (`N` the power of two above the longest length). -/
theorem C73_silence (x y : List ℂ) (h : (∀ v ∈ x, v = 0) ∨ (∀ v ∈ y, v = 0)) (h0 : 0 < max x.length y.length)
    (hb : 3 * 2 ^ Nat.clog 2 (max x.length y.length) ≤ 2 ^ 29) :
    (aligneEntier x y).isSome ↔ 2 ^ Nat.clog 2 (max x.length y.length) ≤ x.length + 1 := by
  set N := 2 ^ Nat.clog 2 (max x.length y.length) with hN
  have hNl := clog_borne (max x.length y.length)
  rw [← hN] at hNl
  set xp := x ++ List.replicate (N - x.length) (0 : ℂ) with hxp
  set yp := y ++ List.replicate (N - y.length) (0 : ℂ) with hyp
  have lx : xp.length = N := by simp [hxp]; omega
  have ly : yp.length = N := by simp [hyp]; omega
  have hpad : padZeros x y true = some (xp, yp) := by
    unfold padZeros
    simp only [true_and, if_true]
    rw [if_neg (by omega)]
  have hs := estim_nul xp yp (by
    rcases h with h | h
    · left; intro v hv; rw [hxp] at hv; rcases List.mem_append.1 hv with h' | h'
      · exact h v h'
      · exact List.eq_of_mem_replicate h'
    · right; intro v hv; rw [hyp] at hv; rcases List.mem_append.1 hv with h' | h'
      · exact h v h'
      · exact List.eq_of_mem_replicate h') N (by rw [lx, ly, max_self]) (by omega) hb
  have ha : arrondi (-((N : ℝ) - 1)) = -((N : ℤ) - 1) := by
    rw [← arrondi_entier (-((N : ℤ) - 1))]; push_cast; rfl
  unfold aligneEntier
  simp only [hpad, hs, Option.bind_some, ha, Option.isSome_map]
  constructor
  · intro hq
    by_contra hc
    simp only [decale] at hq
    rw [if_neg (by omega), if_pos (by omega), queueZ, if_neg (by omega)] at hq
    simp at hq
  · intro hq
    obtain ⟨q, e⟩ := decale_some x y (-((N : ℤ) - 1)) (by omega) (by omega)
    rw [e]; rfl

/-- Non-vacuity: five null samples. -/
example : (aligneEntier (List.replicate 5 0) (List.replicate 5 0)).isSome = false := by
  rw [Option.isSome_eq_false_iff, C73_silence_refute _ (by simp)]; rfl

end Verif.Fourier
