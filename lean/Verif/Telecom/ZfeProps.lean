import Verif.Telecom.Egalisation
import Mathlib.Data.List.GetD
import Mathlib.Algebra.BigOperators.Intervals
import Mathlib.Tactic.IntervalCases

/-!
# C105: zero-forcing equaliser
-/

namespace Verif.Telecom

/-- Specification: sample `i` of the convolution of the channel `h` by the equaliser `g`. -/
noncomputable def convole (h g : List ℝ) (i : ℕ) : ℝ := ∑ k ∈ Finset.range (i + 1), h.getD (i - k) 0 * g.getD k 0

theorem zfe_element (h : List ℝ) (n : ℕ) (hn : h.length ≤ n) (i k : ℕ) (hi : i < n + h.length - 1) (hk : k < n) :
    zfeElement h n i k = some (if k ≤ i then h.getD (i - k) 0 else 0) := by
  have hlit : ∀ j : ℤ, ∀ a : ℕ, j = a → a < h.length → lit h j = some (h.getD a 0) := by
    rintro _ a rfl ha
    simp [lit, ha]
  unfold zfeElement
  dsimp only
  split_ifs with h1 h2 h3 h4 h5 h6 h7
  · exact hlit _ (i - k) (by omega) (by omega)
  · omega
  · exact hlit _ (i - k) (by omega) (by omega)
  · omega
  · exact hlit _ (i - k) (by omega) (by omega)
  · omega
  · rw [List.getD_eq_default _ _ (by omega)]
  · rfl

theorem mapM_some {α β : Type} (f : α → Option β) (g : α → β) (l : List α) (h : ∀ a ∈ l, f a = some (g a)) : l.mapM f = some (l.map g) := by
  induction l with
  | nil => rfl
  | cons a l ih =>
    rw [List.mapM_cons, h a (by simp), ih (fun b hb => h b (by simp [hb]))]
    rfl

/-- **C105 (matrix).** For a channel `h` of `m` coefficients and `n ≥ m`, the matrix has `n + m - 1` rows of `n` columns, and its product by any vector `g` of `n` coefficients is the convolution of `h` by `g`. -/
theorem C105_matrice (h : List ℝ) (n : ℕ) (hn : h.length ≤ n) : ∃ F, zfeMatrice h n = some F ∧ F.length = n + h.length - 1 ∧ (∀ l ∈ F, l.length = n) ∧
    ∀ g : List ℝ, g.length = n → F.map (fun l => (List.zipWith (· * ·) l g).sum) = (List.range (n + h.length - 1)).map fun i : ℕ => convole h g i := by
  refine ⟨(List.range (n + h.length - 1)).map fun i : ℕ => (List.range n).map fun k : ℕ => if k ≤ i then h.getD (i - k) 0 else 0, ?_, by simp, by simp, fun g hg => ?_⟩
  · rw [zfeMatrice, if_neg (by omega)]
    apply mapM_some
    intro i hi
    exact mapM_some _ _ _ fun k hk => zfe_element h n hn i k (List.mem_range.1 hi) (List.mem_range.1 hk)
  · rw [List.map_map]
    apply List.map_congr_left
    intro i hi
    have hz : ∀ (c : ℕ → ℝ) (g : List ℝ), (List.zipWith (· * ·) ((List.range g.length).map c) g).sum = ∑ k ∈ Finset.range g.length, c k * g.getD k 0 := by
      intro c g
      induction g generalizing c with
      | nil => simp
      | cons a g ih =>
        rw [List.length_cons, List.range_succ_eq_map, List.map_cons, List.map_map, List.zipWith_cons_cons, List.sum_cons, ih, Finset.sum_range_succ']
        simp [add_comm]
    show (List.zipWith (· * ·) ((List.range n).map fun k : ℕ => if k ≤ i then h.getD (i - k) 0 else 0) g).sum = _
    rw [← hg, hz, convole, hg]
    have hN : ∀ N, (∀ k, N ≤ k → (if k ≤ i then h.getD (i - k) 0 else 0) * g.getD k 0 = 0) → ∀ M, N ≤ M →
        ∑ k ∈ Finset.range M, (if k ≤ i then h.getD (i - k) 0 else 0) * g.getD k 0 = ∑ k ∈ Finset.range N, (if k ≤ i then h.getD (i - k) 0 else 0) * g.getD k 0 := by
      intro N h0 M hM
      symm
      apply Finset.sum_subset (by intro k; simp; omega)
      intro k _ hk
      exact h0 k (by simpa using hk)
    have e1 := hN n (fun k hk => by rw [List.getD_eq_default g _ (by omega), mul_zero]) (max n (i + 1)) (le_max_left _ _)
    have e2 := hN (i + 1) (fun k hk => by rw [if_neg (by omega), zero_mul]) (max n (i + 1)) (le_max_right _ _)
    rw [← e1, e2]
    apply Finset.sum_congr rfl
    intro k hk
    rw [if_pos (by have := Finset.mem_range.1 hk; omega)]

/-- **C105 (target).** For `1 ≤ m ≤ n` and `m + n > 3`, the target is the impulse delayed by the centre of the convolution, `⌈(m + n)/2⌉`. -/
theorem C105_cible_partial (m n : ℕ) (hm : 1 ≤ m) (hn : m ≤ n) (h3 : 3 < m + n) : ∃ δ d, zfeCible m n = some δ ∧ δ.length = n + m - 1 ∧ (2 * d = m + n ∨ 2 * d = m + n + 1) ∧ d < δ.length ∧
    ∀ i, i < δ.length → δ[i]? = some (if i = d then 1 else 0) := by
  refine ⟨(List.replicate (n + m - 1) 0).set ((m + n + 1) / 2) 1, (m + n + 1) / 2, ?_, by simp, by omega, by simp; omega, ?_⟩
  · rw [zfeCible, if_neg (by omega)]
    dsimp only
    rw [if_neg (by omega)]
  · intro i hi
    simp only [List.length_set, List.length_replicate] at hi
    rw [List.getElem?_set]
    split_ifs with h1 h2 h3 h3
    · rfl
    · omega
    · simp at h2; omega
    · omega
    · simp [List.getElem?_replicate, hi]

/-- **C105 (identity channel).** The delay is outside of the target vector for the channel with one coefficient and an equaliser of one or two coefficients. -/
theorem C105_cible_refute (m n : ℕ) (hm : 1 ≤ m) (hn : m ≤ n) (h3 : m + n ≤ 3) : zfeCible m n = none := by
  rw [zfeCible, if_neg (by omega)]
  dsimp only
  rw [if_pos (by omega)]

/-- **C105 (least squares).** Let `solve` be the least-squares solver of the linear algebra library (its specification is the hypothesis). The equaliser found is, among all those of `n` coefficients, the
one that brings the convolution with the channel as near as possible to the delayed impulse; so if a perfect equaliser of `n` coefficients exists, the convolution is exactly the delayed impulse. -/
theorem C105_moindres_carres (h : List ℝ) (n : ℕ) (hm : 1 ≤ h.length) (hn : h.length ≤ n) (h3 : 3 < h.length + n) (solve : List (List ℝ) → List ℝ → List ℝ)
    (hs : ∀ F b, (∀ l ∈ F, l.length = n) → F.length = b.length → (solve F b).length = n ∧ ∀ g : List ℝ, g.length = n →
      (List.zipWith (fun l v => ((List.zipWith (· * ·) l (solve F b)).sum - v) ^ 2) F b).sum ≤ (List.zipWith (fun l v => ((List.zipWith (· * ·) l g).sum - v) ^ 2) F b).sum) :
    ∃ F δ d g, zfeMatrice h n = some F ∧ zfeCible h.length n = some δ ∧ (2 * d = h.length + n ∨ 2 * d = h.length + n + 1) ∧ g = solve F δ ∧ g.length = n ∧
      (∀ g' : List ℝ, g'.length = n → ∑ i ∈ Finset.range (n + h.length - 1), (convole h g i - if i = d then 1 else 0) ^ 2 ≤ ∑ i ∈ Finset.range (n + h.length - 1), (convole h g' i - if i = d then 1 else 0) ^ 2) ∧
      ((∃ g' : List ℝ, g'.length = n ∧ ∀ i, i < n + h.length - 1 → convole h g' i = if i = d then 1 else 0) → ∀ i, i < n + h.length - 1 → convole h g i = if i = d then 1 else 0) := by
  obtain ⟨F, e1, l1, l2, hF⟩ := C105_matrice h n hn
  obtain ⟨δ, d, e2, l3, hd, hdl, hδ⟩ := C105_cible_partial h.length n hm hn h3
  obtain ⟨hg, hmin⟩ := hs F δ l2 (by rw [l1, l3])
  have key : ∀ g : List ℝ, g.length = n → (List.zipWith (fun l v => ((List.zipWith (· * ·) l g).sum - v) ^ 2) F δ).sum = ∑ i ∈ Finset.range (n + h.length - 1), (convole h g i - if i = d then 1 else 0) ^ 2 := by
    intro g hg
    have hδ' : δ = (List.range (n + h.length - 1)).map fun i : ℕ => if i = d then (1 : ℝ) else 0 := by
      apply List.ext_getElem?
      intro i
      by_cases hi : i < n + h.length - 1
      · rw [hδ i (by omega)]; simp [hi]
      · rw [List.getElem?_eq_none (by omega), List.getElem?_eq_none (by simp; omega)]
    have : List.zipWith (fun l v => ((List.zipWith (· * ·) l g).sum - v) ^ 2) F δ = (List.range (n + h.length - 1)).map fun i : ℕ => (convole h g i - if i = d then 1 else 0) ^ 2 := by
      have h5 : List.zipWith (fun l v => ((List.zipWith (· * ·) l g).sum - v) ^ 2) F δ = List.zipWith (fun a v : ℝ => (a - v) ^ 2) (F.map fun l => (List.zipWith (· * ·) l g).sum) δ := by
        rw [List.zipWith_map_left]
      rw [h5, hF g hg, hδ', List.zipWith_map_left, List.zipWith_map_right, List.zipWith_self]
    rw [this]
    generalize n + h.length - 1 = N
    induction N with
    | zero => simp
    | succ N ih => rw [List.range_succ, List.map_append, List.sum_append, ih, Finset.sum_range_succ]; simp
  have hopt : ∀ g' : List ℝ, g'.length = n → ∑ i ∈ Finset.range (n + h.length - 1), (convole h (solve F δ) i - if i = d then 1 else 0) ^ 2 ≤ ∑ i ∈ Finset.range (n + h.length - 1), (convole h g' i - if i = d then 1 else 0) ^ 2 := by
    intro g' hg'
    rw [← key _ hg, ← key _ hg']
    exact hmin g' hg'
  refine ⟨F, δ, d, solve F δ, e1, e2, hd, rfl, hg, hopt, ?_⟩
  rintro ⟨g', hg', hperf⟩ i hi
  have h0 := hopt g' hg'
  rw [Finset.sum_eq_zero (s := Finset.range (n + h.length - 1)) (f := fun i => (convole h g' i - if i = d then 1 else 0) ^ 2) (fun j hj => by rw [hperf j (Finset.mem_range.1 hj)]; simp)] at h0
  have h1 := (Finset.sum_eq_zero_iff_of_nonneg (fun j _ => sq_nonneg _)).1 (le_antisymm h0 (Finset.sum_nonneg fun j _ => sq_nonneg _)) i (Finset.mem_range.2 hi)
  have := pow_eq_zero_iff (two_ne_zero) |>.1 h1
  linarith

/-- **C105 (rejection).** An equaliser shorter than the channel is rejected. -/
theorem C105_rejet (h : List ℝ) (n : ℕ) (hn : n < h.length) : zfeCible h.length n = none := by rw [zfeCible, if_pos hn]

/-- Non-vacuity. -/
example : zfeMatrice [1, 2] 3 = some [[1, 0, 0], [2, 1, 0], [0, 2, 1], [0, 0, 2]] := by
  simp [zfeMatrice, List.range_succ, zfeElement, lit]

end Verif.Telecom
