import Verif.Fourier.TodProps
import Mathlib.Tactic.LinearCombination
import Mathlib.Algebra.BigOperators.Intervals

/-!
# C128, C129: the Haar and Daubechies wavelets, polyphase and quadrature mirror forms
-/

namespace Verif.Tod

open FracRat

/-- A step on `2 h` samples: the two halves of the result are the stages applied to the even and odd samples. -/
theorem liftStep_pair (w : Lift) (x : List ℝ) (h : ℕ) (hn : 2 * h ≤ x.length) (s d : ℕ → ℝ) (hs : ∀ j < h, x[2 * j]? = some (s j)) (hd : ∀ j < h, x[2 * j + 1]? = some (d j)) :
    ∃ y, liftStep w x (2 * h) = some y ∧ y.length = x.length ∧ Moities y h (w.etapes.foldl (etagePur 1 h) (s, d)) ∧ ∀ k, 2 * h ≤ k → y[k]? = x[k]? := by
  obtain ⟨u, a1, a2, a3, a4, a5⟩ := split_spec x (2 * h) hn
  have hm : Moities u h (s, d) := by
    refine ⟨by omega, fun k hk => by rw [a3 k (by omega), hs k hk], fun k hk => ?_⟩
    have := a4 k (by omega)
    rw [show (2 * h + 1) / 2 = h by omega] at this
    rw [this, hd k hk]
  obtain ⟨y, h1, h2, h3, h4⟩ := etages_spec 1 h w.etapes u _ hm
  refine ⟨y, by rw [liftStep, a1, Option.bind_some, show 2 * h / 2 = h by omega, h1], by omega, h3, fun k hk => by rw [h4 k hk, a5 k hk]⟩

/-! ### C128: Haar -/

theorem haar_pur (h : ℕ) (s d : ℕ → ℝ) (j : ℕ) (hj : j < h) : (haar.etapes.foldl (etagePur 1 h) (s, d)).1 j = (s j + d j) / 2 ∧ (haar.etapes.foldl (etagePur 1 h) (s, d)).2 j = d j - s j := by
  have c1 : (Poly.one : Poly ℝ).neg.coefs = [-1] := by simp [Poly.neg, Poly.one, Poly.deCoefs]
  have c2 : ((Poly.one : Poly ℝ).mulScal 0.5).coefs = [0.5] := by simp [Poly.mulScal, Poly.one, Poly.deCoefs]
  have hp : (0 : ℤ) ≤ (j : ℤ) + 0 ∧ (j : ℤ) + 0 < (h : ℤ) := by omega
  have ht : ((j : ℤ) + 0).toNat = j := by omega
  simp only [haar, List.foldl_cons, List.foldl_nil, etagePur, Bool.false_eq_true, if_true, if_false, c1, c2, valLift, hp, ht, and_self]
  constructor <;> ring

/-- **C128 (Haar, one step).**  A step of the Haar wavelet on `2 h` samples puts the means of the pairs in the first half and their differences in the second, and leaves the rest unchanged. -/
theorem C128_haar (x : List ℝ) (h : ℕ) (hn : 2 * h ≤ x.length) : ∃ y, liftStep haar x (2 * h) = some y ∧ y.length = x.length ∧ (∀ j < h, y.getD j 0 = (x.getD (2 * j) 0 + x.getD (2 * j + 1) 0) / 2) ∧
    (∀ j < h, y.getD (h + j) 0 = x.getD (2 * j + 1) 0 - x.getD (2 * j) 0) ∧ ∀ k, 2 * h ≤ k → y.getD k 0 = x.getD k 0 := by
  obtain ⟨y, h1, h2, h3, h4⟩ := liftStep_pair haar x h hn (fun j => x.getD (2 * j) 0) (fun j => x.getD (2 * j + 1) 0) (fun j hj => lire_getD _ _ (by omega)) fun j hj => lire_getD _ _ (by omega)
  refine ⟨y, h1, h2, fun j hj => ?_, fun j hj => ?_, fun k hk => ?_⟩
  · rw [getD_lire (h3.2.1 j hj)]; exact (haar_pur h _ _ j hj).1
  · rw [getD_lire (h3.2.2 j hj)]; exact (haar_pur h _ _ j hj).2
  · rw [List.getD_eq_getElem?_getD, h4 k hk, ← List.getD_eq_getElem?_getD]

/-- Mean of the `2^r` samples of block `j`. -/
noncomputable def moyenneBloc (x : List ℝ) (r j : ℕ) : ℝ := (∑ t ∈ Finset.range (2 ^ r), x.getD (j * 2 ^ r + t) 0) / 2 ^ r

theorem moyenneBloc_succ (x : List ℝ) (r j : ℕ) : moyenneBloc x (r + 1) j = (moyenneBloc x r (2 * j) + moyenneBloc x r (2 * j + 1)) / 2 := by
  unfold moyenneBloc
  have e : 2 ^ (r + 1) = 2 ^ r + 2 ^ r := by ring
  rw [e, Finset.sum_range_add, show j * (2 ^ r + 2 ^ r) = 2 * j * 2 ^ r by ring]
  have e2 : ∀ t, 2 * j * 2 ^ r + (2 ^ r + t) = (2 * j + 1) * 2 ^ r + t := fun t => by ring
  simp only [e2]
  rw [pow_succ]
  ring

theorem haar_boucle (x : List ℝ) (m d : ℕ) (hm : 0 < m) (r : ℕ) (hr : r ≤ d) (f : ℕ) (y : List ℝ) (hy : y.length = m * 2 ^ d) (hf : d - r < f) (h1 : ∀ j < m * 2 ^ (d - r), y.getD j 0 = moyenneBloc x r j)
    (h2 : ∀ q, 1 ≤ q → q ≤ r → ∀ j < m * 2 ^ (d - q), y.getD (m * 2 ^ (d - q) + j) 0 = moyenneBloc x (q - 1) (2 * j + 1) - moyenneBloc x (q - 1) (2 * j)) :
    ∃ z, boucleDwt haar (2 * m) f (m * 2 ^ (d - r)) y = some z ∧ z.length = m * 2 ^ d ∧ (∀ j < m, z.getD j 0 = moyenneBloc x d j) ∧
      ∀ q, 1 ≤ q → q ≤ d → ∀ j < m * 2 ^ (d - q), z.getD (m * 2 ^ (d - q) + j) 0 = moyenneBloc x (q - 1) (2 * j + 1) - moyenneBloc x (q - 1) (2 * j) := by
  induction f generalizing r y with
  | zero => omega
  | succ f ih =>
    unfold boucleDwt
    rcases Nat.lt_or_ge r d with hlt | hge
    · obtain ⟨e, he⟩ : ∃ e, d - r = e + 1 := ⟨d - r - 1, by omega⟩
      have hpos : 1 ≤ 2 ^ e := Nat.one_le_two_pow
      have hn : m * 2 ^ (d - r) = 2 * (m * 2 ^ e) := by rw [he, pow_succ]; ring
      have hge : m * 1 ≤ m * 2 ^ e := Nat.mul_le_mul_left _ hpos
      have hle : 2 * (m * 2 ^ e) ≤ m * 2 ^ d := by
        rw [← hn]; exact Nat.mul_le_mul_left _ (Nat.pow_le_pow_right (by omega) (by omega))
      rw [hn, if_neg (by omega)]
      rw [hn] at h1
      obtain ⟨u, a1, a2, a3, a4, a5⟩ := C128_haar y (m * 2 ^ e) (by omega)
      rw [a1, Option.bind_some, show 2 * (m * 2 ^ e) / 2 = m * 2 ^ e by omega]
      have hde : d - (r + 1) = e := by omega
      have := ih (r + 1) (by omega) u (by omega) (by omega) (by
        intro j hj
        rw [hde] at hj
        rw [a3 j hj, h1 _ (by omega), h1 _ (by omega), moyenneBloc_succ]) (by
        intro q hq1 hq2 j hj
        rcases Nat.lt_or_ge q (r + 1) with hq | hq
        · have hge2 : 2 * (m * 2 ^ e) ≤ m * 2 ^ (d - q) := by
            rw [← hn]; exact Nat.mul_le_mul_left _ (Nat.pow_le_pow_right (by omega) (by omega))
          rw [a5 _ (by omega)]
          exact h2 q hq1 (by omega) j hj
        · have hqr : q = r + 1 := by omega
          subst hqr
          rw [hde] at hj ⊢
          rw [a4 j hj, h1 _ (by omega), h1 _ (by omega), Nat.add_sub_cancel])
      rw [hde] at this
      exact this
    · have hrd : r = d := by omega
      subst hrd
      rw [Nat.sub_self, pow_zero, Nat.mul_one, if_pos (by omega)]
      rw [Nat.sub_self, pow_zero, Nat.mul_one] at h1
      exact ⟨y, rfl, hy, h1, h2⟩

/-- **C128 (Haar, whole transform).**  For `N = m 2^d` samples and the depth `d`, the Haar transform returns in the first `m` places the means of the `m` blocks of `2^d` samples (for `m = 1`: the mean of the signal), and, for each scale
`q = 1 … d`, in the `m 2^(d-q)` places that follow place `m 2^(d-q)`, the mean of the second half minus the mean of the first half of each block of `2^q` samples. -/
theorem C128_moyennes (x : List ℝ) (m d : ℕ) (hm : 0 < m) (hd : 0 < d) (hN : x.length = m * 2 ^ d) : ∃ y, dwt haar x d = some y ∧ y.length = x.length ∧ (∀ j < m, y.getD j 0 = (∑ t ∈ Finset.range (2 ^ d), x.getD (j * 2 ^ d + t) 0) / 2 ^ d) ∧
    ∀ q, 1 ≤ q → q ≤ d → ∀ j < m * 2 ^ (d - q), y.getD (m * 2 ^ (d - q) + j) 0 =
      (∑ t ∈ Finset.range (2 ^ (q - 1)), x.getD ((2 * j + 1) * 2 ^ (q - 1) + t) 0) / 2 ^ (q - 1) - (∑ t ∈ Finset.range (2 ^ (q - 1)), x.getD ((2 * j) * 2 ^ (q - 1) + t) 0) / 2 ^ (q - 1) := by
  have hl : x.length / 2 ^ (d - 1) = 2 * m := by
    rw [hN]
    obtain ⟨e, rfl⟩ : ∃ e, d = e + 1 := ⟨d - 1, by omega⟩
    rw [Nat.add_sub_cancel, show m * 2 ^ (e + 1) = 2 * m * 2 ^ e by rw [pow_succ]; ring]
    exact Nat.mul_div_cancel _ (by positivity)
  have hlt : d < 2 ^ d := Nat.lt_two_pow_self
  have hle : 1 * 2 ^ d ≤ m * 2 ^ d := Nat.mul_le_mul_right _ hm
  obtain ⟨y, h1, h2, h3, h4⟩ := haar_boucle x m d hm 0 (Nat.zero_le _) (x.length + 2) x hN (by omega) (by
    intro j _
    unfold moyenneBloc
    simp) (by intro q h1 h2; omega)
  refine ⟨y, ?_, by omega, h3, h4⟩
  rw [Nat.sub_zero, ← hN] at h1
  rw [dwt, if_neg (by omega), hl, h1]

/-- Non-vacuity: the 4 samples 1, 2, 3, 6 have the mean 3. -/
example : ∃ y, dwt haar [1, 2, 3, 6] 2 = some y ∧ y.getD 0 0 = 3 := by
  obtain ⟨y, h1, -, h2, -⟩ := C128_moyennes [1, 2, 3, 6] 1 2 one_pos two_pos (by simp)
  refine ⟨y, h1, ?_⟩
  rw [h2 0 one_pos]
  simp [Finset.sum_range_succ]
  norm_num

/-- **C128 (refuted: the transform is orthonormal).**  The normalisation term of the wavelet is not applied: the samples (1, 1), of energy 2, have the transform (1, 0), of energy 1. -/
theorem C128_energie_refute : ∃ y, dwt haar [1, 1] 1 = some y ∧ (y.map fun v : ℝ => v ^ 2).sum = 1 ∧ (([1, 1] : List ℝ).map fun v : ℝ => v ^ 2).sum = 2 := by
  obtain ⟨y, h1, h0, h2, h3⟩ := C128_moyennes [1, 1] 1 1 one_pos one_pos (by simp)
  refine ⟨y, h1, ?_, by norm_num⟩
  have a := h2 0 one_pos
  have b := h3 1 le_rfl le_rfl 0 (by norm_num)
  norm_num [Finset.sum_range_succ] at a b
  match y, h0 with
  | [u, v], _ =>
    simp at a b
    simp [a, b]

/-! ### C128: Daubechies -/

theorem db2_coefs : (((Poly.z : Poly ℝ).mulScal (Real.sqrt 3 / 4)).neg.addScal (-(Real.sqrt 3 - 2) / 4)).coefs = [-(Real.sqrt 3 - 2) / 4, -(Real.sqrt 3 / 4)] ∧ ((Poly.one : Poly ℝ).mulScal (Real.sqrt 3)).coefs = [Real.sqrt 3] ∧ (Poly.z : Poly ℝ).neg.coefs = [0, -1] := by
  refine ⟨?_, by simp [Poly.mulScal, Poly.one, Poly.deCoefs], by simp [Poly.neg, Poly.z, Poly.deCoefs]⟩
  simp [Poly.addScal, Poly.neg, Poly.mulScal, Poly.z, Poly.deCoefs, Poly.versCoefs]

/-- The details of one step. -/
theorem db2_pur (h : ℕ) (s d : ℕ → ℝ) (j : ℕ) (hj : j < h) : (db2.etapes.foldl (etagePur 1 h) (s, d)).2 j =
    d j - (Real.sqrt 3 / 4) * (s j + Real.sqrt 3 * d j) - (Real.sqrt 3 - 2) / 4 * (if 1 ≤ j then s (j - 1) + Real.sqrt 3 * d (j - 1) else 0) := by
  obtain ⟨c1, c2, c3⟩ := db2_coefs
  have hp : (0 : ℤ) ≤ (j : ℤ) + -1 + 1 ∧ (j : ℤ) + -1 + 1 < (h : ℤ) := by omega
  have ht : ((j : ℤ) + -1 + 1).toNat = j := by omega
  have hz : ∀ k : ℕ, ((k : ℤ) + 0).toNat = k := fun k => by omega
  simp only [db2, List.foldl_cons, List.foldl_nil, etagePur, Bool.false_eq_true, if_true, if_false, c1, c2, c3, valLift, hp, ht, and_self, hz]
  have hj0 : (0 : ℤ) ≤ (j : ℤ) + 0 ∧ (j : ℤ) + 0 < (h : ℤ) := by omega
  rw [if_pos hj0]
  by_cases h1 : 1 ≤ j
  · have h2 : (0 : ℤ) ≤ (j : ℤ) + -1 ∧ (j : ℤ) + -1 < (h : ℤ) := by omega
    have h3 : ((j : ℤ) + -1).toNat = j - 1 := by omega
    have h4 : (0 : ℤ) ≤ ((j - 1 : ℕ) : ℤ) + 0 ∧ ((j - 1 : ℕ) : ℤ) + 0 < (h : ℤ) := by omega
    rw [if_pos h1, if_pos h2, h3, if_pos h4]
    ring
  · have h2 : ¬ ((0 : ℤ) ≤ (j : ℤ) + -1 ∧ (j : ℤ) + -1 < (h : ℤ)) := by omega
    rw [if_neg h1, if_neg h2]
    ring

/-- **C128 (Daubechies: two vanishing moments).**  On an affine signal `x_t = α + β t`, all the details of a step are null except the first. -/
theorem C128_moments (x : List ℝ) (h : ℕ) (hn : 2 * h ≤ x.length) (α β : ℝ) (hx : ∀ t < 2 * h, x[t]? = some (α + β * t)) : ∃ y, liftStep db2 x (2 * h) = some y ∧ ∀ j, 1 ≤ j → j < h → y[h + j]? = some 0 := by
  obtain ⟨y, h1, -, h3, -⟩ := liftStep_pair db2 x h hn (fun j => α + β * (2 * j : ℕ)) (fun j => α + β * (2 * j + 1 : ℕ)) (fun j hj => hx _ (by omega)) fun j hj => hx _ (by omega)
  refine ⟨y, h1, fun j hj1 hj => ?_⟩
  rw [h3.2.2 j hj, db2_pur h _ _ j hj, if_pos hj1]
  congr 1
  obtain ⟨i, rfl⟩ : ∃ i, j = i + 1 := ⟨j - 1, by omega⟩
  rw [Nat.add_sub_cancel]
  push_cast
  have h3 : Real.sqrt 3 ^ 2 = 3 := Real.sq_sqrt (by norm_num)
  generalize Real.sqrt 3 = r at *
  linear_combination (-(α / 2) - β * (i + 1) + β / 2 * 0 - β / 4 + β / 4 * 1) * (h3) + 0

/-- **C128 (refuted: the border).**  On a constant signal `α ≠ 0`, the first detail is `α (1 - √3) / 4`, not 0. -/
theorem C128_bord_refute (x : List ℝ) (h : ℕ) (h0 : 0 < h) (hn : 2 * h ≤ x.length) (α : ℝ) (hα : α ≠ 0) (hx : ∀ t < 2 * h, x[t]? = some α) : ∃ y, liftStep db2 x (2 * h) = some y ∧ y[h]? = some (α * (1 - Real.sqrt 3) / 4) ∧ y[h]? ≠ some 0 := by
  obtain ⟨y, h1, -, h3, -⟩ := liftStep_pair db2 x h hn (fun _ => α) (fun _ => α) (fun j hj => hx _ (by omega)) fun j hj => hx _ (by omega)
  have hr : Real.sqrt 3 ^ 2 = 3 := Real.sq_sqrt (by norm_num)
  have e : y[h]? = some (α * (1 - Real.sqrt 3) / 4) := by
    have := h3.2.2 0 h0
    rw [Nat.add_zero, db2_pur h _ _ 0 h0, if_neg (by omega)] at this
    rw [this]
    congr 1
    linear_combination (-(α / 4)) * hr
  refine ⟨y, h1, e, ?_⟩
  rw [e]
  intro he
  rw [Option.some.injEq, div_eq_zero_iff, mul_eq_zero] at he
  have : Real.sqrt 3 = 1 := by
    rcases he with (he | he) | he
    · exact absurd he hα
    · linarith
    · norm_num at he
  rw [this] at hr
  norm_num at hr

/-- The approximation of one step, inside the signal. -/
theorem db2_pur_bas (h : ℕ) (s d : ℕ → ℝ) (j : ℕ) (hj : j + 1 < h) : (db2.etapes.foldl (etagePur 1 h) (s, d)).1 j =
    s j + Real.sqrt 3 * d j - (d (j + 1) - (Real.sqrt 3 / 4) * (s (j + 1) + Real.sqrt 3 * d (j + 1)) - (Real.sqrt 3 - 2) / 4 * (s j + Real.sqrt 3 * d j)) := by
  have e := db2_pur h s d (j + 1) hj
  rw [if_pos (by omega), Nat.add_sub_cancel] at e
  obtain ⟨c1, c2, c3⟩ := db2_coefs
  rw [← e]
  have hp : (0 : ℤ) ≤ (j : ℤ) + 0 ∧ (j : ℤ) + 0 < (h : ℤ) := by omega
  have hp1 : (0 : ℤ) ≤ (j : ℤ) + 0 + 1 ∧ (j : ℤ) + 0 + 1 < (h : ℤ) := by omega
  have ht : ((j : ℤ) + 0).toNat = j := by omega
  have ht1 : ((j : ℤ) + 0 + 1).toNat = j + 1 := by omega
  simp only [db2, List.foldl_cons, List.foldl_nil, etagePur, Bool.false_eq_true, if_true, if_false, c1, c2, c3, valLift, hp, hp1, ht, ht1, and_self]
  ring

/-- **C128 (Daubechies: the filters).**  Inside the signal, the approximations of a step, multiplied by the normalisation term of the wavelet, are the correlations of the signal by the scaling filter
`(1 + √3, 3 + √3, 3 - √3, 1 - √3) / (4 √2)` of Daubechies, and the details, divided by it, are the correlations by its quadrature mirror. -/
theorem C128_daubechies (x : List ℝ) (h : ℕ) (hn : 2 * h ≤ x.length) : ∃ y, liftStep db2 x (2 * h) = some y ∧
    (∀ j, j + 1 < h → 4 * Real.sqrt 2 * (db2.K * y.getD j 0) = (1 + Real.sqrt 3) * x.getD (2 * j) 0 + (3 + Real.sqrt 3) * x.getD (2 * j + 1) 0 +
      (3 - Real.sqrt 3) * x.getD (2 * j + 2) 0 + (1 - Real.sqrt 3) * x.getD (2 * j + 3) 0) ∧
    ∀ j, j + 1 < h → 4 * Real.sqrt 2 * y.getD (h + (j + 1)) 0 = db2.K * ((1 - Real.sqrt 3) * x.getD (2 * j) 0 - (3 - Real.sqrt 3) * x.getD (2 * j + 1) 0 +
      (3 + Real.sqrt 3) * x.getD (2 * j + 2) 0 - (1 + Real.sqrt 3) * x.getD (2 * j + 3) 0) * (-1) := by
  obtain ⟨y, h1, -, h3, -⟩ := liftStep_pair db2 x h hn (fun j => x.getD (2 * j) 0) (fun j => x.getD (2 * j + 1) 0) (fun j hj => lire_getD _ _ (by omega)) fun j hj => lire_getD _ _ (by omega)
  have hr : Real.sqrt 3 ^ 2 = 3 := Real.sq_sqrt (by norm_num)
  have h2 : Real.sqrt 2 ^ 2 = 2 := Real.sq_sqrt (by norm_num)
  have h20 : Real.sqrt 2 ≠ 0 := by positivity
  have hK : Real.sqrt 2 * db2.K = Real.sqrt 3 - 1 := by
    show Real.sqrt 2 * ((Real.sqrt 3 - 1) / Real.sqrt 2) = _
    field_simp
  refine ⟨y, h1, fun j hj => ?_, fun j hj => ?_⟩
  · rw [getD_lire (h3.2.1 j (by omega)), db2_pur_bas h _ _ j hj, show 2 * (j + 1) = 2 * j + 2 by ring, show 2 * j + 2 + 1 = 2 * j + 3 by ring]
    generalize x.getD (2 * j) 0 = a at *
    generalize x.getD (2 * j + 1) 0 = b at *
    generalize x.getD (2 * j + 2) 0 = c at *
    generalize x.getD (2 * j + 3) 0 = e at *
    generalize db2.K = K at *
    generalize Real.sqrt 3 = r at *
    generalize Real.sqrt 2 = q at *
    have hr3 : r ^ 3 = 3 * r := by rw [pow_succ, hr]
    linear_combination (4 * (a + r * b - (e - r / 4 * (c + r * e) - (r - 2) / 4 * (a + r * b)))) * hK + (a + b + c + e * (-1)) * hr + (b + e) * hr3
  · rw [getD_lire (h3.2.2 (j + 1) (by omega)), db2_pur h _ _ (j + 1) hj, if_pos (by omega), Nat.add_sub_cancel, show 2 * (j + 1) = 2 * j + 2 by ring, show 2 * j + 2 + 1 = 2 * j + 3 by ring]
    generalize x.getD (2 * j) 0 = a at *
    generalize x.getD (2 * j + 1) 0 = b at *
    generalize x.getD (2 * j + 2) 0 = c at *
    generalize x.getD (2 * j + 3) 0 = e at *
    generalize db2.K = K at *
    generalize Real.sqrt 3 = r at *
    generalize Real.sqrt 2 = q at *
    have hr3 : r ^ 3 = 3 * r := by rw [pow_succ, hr]
    have hK2 : K = q * (r - 1) / 2 := by linear_combination (-(K / 2)) * h2 + q / 2 * hK
    rw [hK2]
    linear_combination (q * (-(3 * e / 2) - b / 2 + c / 2 - a / 2)) * hr

end Verif.Tod
