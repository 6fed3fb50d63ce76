import Verif.Stats.Model
import Verif.Fourier.CorrProps
import Verif.Filtre.Props
import Mathlib.Data.List.GetD
import Mathlib.LinearAlgebra.Matrix.ToLinearEquiv
import Mathlib.LinearAlgebra.Matrix.PosDef
import Mathlib.Analysis.Complex.Norm
import Mathlib.Tactic.LinearCombination
import Mathlib.Tactic.FieldSimp

/-! # Properties of the Levinson recursions: specification and proofs (C28) -/

namespace Verif.Stats

open Finset Matrix

variable {K : Type} [Field K]

/-! ## Specification -/

/-- The `n × n` Toeplitz matrix with first row `l` and first column `c`. -/
def toeplitz (l c : List K) (n : Nat) : Matrix (Fin n) (Fin n) K :=
  fun i j => if j.val ≤ i.val then c.getD (i.val - j.val) 0 else l.getD (j.val - i.val) 0

/-- A list read as a vector of dimension `n`. -/
def vec (x : List K) (n : Nat) : Fin n → K := fun i => x.getD i.val 0

/-! ## Lists and sums -/

theorem dot_sum (a b : List K) (h : a.length = b.length) : dot a b = ∑ k ∈ range a.length, a.getD k 0 * b.getD k 0 := by
  unfold dot
  induction a generalizing b with
  | nil => simp
  | cons u a ih =>
    cases b with
    | nil => simp at h
    | cons v b =>
      rw [List.zipWith_cons_cons, List.sum_cons, ih b (by simpa using h), List.length_cons, Finset.sum_range_succ']
      simp only [List.getD_cons_succ, List.getD_cons_zero]
      ring

theorem getD_zipWith (g : K → K → K) (a b : List K) (k : Nat) (h : k < a.length) (h2 : a.length = b.length) :
    (List.zipWith g a b).getD k 0 = g (a.getD k 0) (b.getD k 0) := by
  rw [List.getD_eq_getElem _ _ (by simp; omega), List.getD_eq_getElem _ _ h, List.getD_eq_getElem _ _ (by omega), List.getElem_zipWith]

theorem getD_fin (a : List K) (k : Nat) (h : a.length ≤ k) : a.getD k 0 = 0 := by
  rw [List.getD_eq_default _ _ h]

theorem getD_snoc (a : List K) (v : K) (k : Nat) : (a ++ [v]).getD k 0 = if k < a.length then a.getD k 0 else if k = a.length then v else 0 := by
  split_ifs with h1 h2
  · rw [List.getD_append _ _ _ _ h1]
  · subst h2; simp
  · rw [getD_fin _ _ (by simp; omega)]

theorem getD_reverse' (a : List K) (k : Nat) (h : k < a.length) : a.reverse.getD k 0 = a.getD (a.length - 1 - k) 0 := by
  rw [List.getD_eq_getElem _ _ (by simpa), List.getD_eq_getElem _ _ (by omega), List.getElem_reverse]

theorem getD_drop' (a : List K) (n k : Nat) : (a.drop n).getD k 0 = a.getD (n + k) 0 := by
  simp [List.getD_eq_getElem?_getD]

theorem getD_take' (a : List K) (n k : Nat) (h : k < n) : (a.take n).getD k 0 = a.getD k 0 := by
  simp [List.getD_eq_getElem?_getD, h]

/-- Coefficient `(i, j)` of an infinite Toeplitz matrix. -/
def T (l c : List K) (i j : Nat) : K := if j ≤ i then c.getD (i - j) 0 else l.getD (j - i) 0

theorem toeplitz_mulVec (l c x : List K) (n : Nat) (i : Fin n) :
    (toeplitz l c n *ᵥ vec x n) i = ∑ j ∈ range n, T l c i j * x.getD j 0 := by
  rw [Matrix.mulVec, dotProduct, ← Fin.sum_univ_eq_sum_range (fun j => T l c i j * x.getD j 0)]
  rfl

theorem vec_zero (x : List K) (n : Nat) (h : vec x n = 0) (i : Nat) (hi : i < n) : x.getD i 0 = 0 := congrFun h ⟨i, hi⟩

/-- A non-null vector in the kernel makes the determinant null. -/
theorem det_zero (l c x : List K) (n : Nat) (hn : 0 < n) (h0 : x.getD 0 0 ≠ 0)
    (h : ∀ i, i < n → ∑ j ∈ range n, T l c i j * x.getD j 0 = 0) : (toeplitz l c n).det = 0 := by
  refine Matrix.exists_mulVec_eq_zero_iff.1 ⟨vec x n, fun e => h0 (vec_zero x n e 0 hn), ?_⟩
  funext i
  rw [toeplitz_mulVec, h i i.isLt]
  rfl

/-! ## C28: symmetric case -/

/-- Invariant: `a` solves the prediction equations of its order with error `α`. -/
def LrInv (r : List K) (i : Nat) (a : List K) (α : K) : Prop :=
  a.length = i ∧ a.getD 0 0 = 1 ∧ ∀ m, m < i → ∑ j ∈ range i, T r r m j * a.getD j 0 = if m = 0 then α else 0

theorem T_sym (r : List K) (i j : Nat) : T r r i j = T r r j i := by
  unfold T
  rcases Nat.lt_trichotomy i j with h | h | h
  · rw [if_neg (by omega), if_pos (by omega)]
  · subst h; rfl
  · rw [if_pos (by omega), if_neg (by omega)]

theorem T_trans (l c : List K) (i j k : Nat) : T l c (i + k) (j + k) = T l c i j := by
  unfold T
  simp only [Nat.add_le_add_iff_right, Nat.add_sub_add_right]

theorem T_refl (r : List K) (i m j : Nat) (hm : m ≤ i) (hj : j ≤ i) : T r r m (i - j) = T r r (i - m) j := by
  unfold T
  by_cases h : i - j ≤ m
  · rw [if_pos h]
    by_cases h2 : j ≤ i - m
    · rw [if_pos h2, show m - (i - j) = i - m - j by omega]
    · rw [if_neg h2, show m - (i - j) = j - (i - m) by omega]
  · rw [if_neg h, if_pos (by omega), show i - j - m = i - m - j by omega]

theorem lrPas_getD (a : List K) (k : K) (i j : Nat) (ha : a.length = i) (h0 : a.getD 0 0 = 1) (hi : 0 < i) (hj : j ≤ i) :
    (a.take 1 ++ List.zipWith (· + ·) (a.drop 1) ((a.drop 1).reverse.map (k * ·)) ++ [k]).getD j 0 =
      a.getD j 0 + k * a.getD (i - j) 0 := by
  have hl : (a.take 1 ++ List.zipWith (· + ·) (a.drop 1) ((a.drop 1).reverse.map (k * ·))).length = i := by simp; omega
  rw [getD_snoc, hl]
  by_cases h1 : j < i
  · rw [if_pos h1]
    by_cases h2 : j = 0
    · subst h2
      rw [List.getD_append _ _ _ _ (by simp; omega), getD_take' _ _ _ (by omega), getD_fin a (i - 0) (by omega)]
      ring
    · rw [List.getD_append_right _ _ _ _ (by simp; omega), getD_zipWith _ _ _ _ (by simp; omega) (by simp), getD_drop',
        show (0 : K) = k * 0 by simp, List.getD_map, show k * 0 = (0 : K) by simp, getD_reverse' _ _ (by simp; omega), getD_drop']
      simp only [List.length_take, List.length_drop]
      congr 2
      · omega
      · congr 1; omega
  · rw [if_neg h1, if_pos (by omega), show j = i by omega, getD_fin a i (by omega), Nat.sub_self, h0]
    ring

theorem lrPas_inv (r a : List K) (i : Nat) (α : K) (hi : 0 < i) (hr : i < r.length) (h : LrInv r i a α) (hα : α ≠ 0) :
    ∃ a' k, lrPas r i a α = some (a', α * (1 - k * k)) ∧ LrInv r (i + 1) a' (α * (1 - k * k)) ∧ a'.getD i 0 = k := by
  obtain ⟨hl, h0, he⟩ := h
  have hget : r[i]? = some (r.getD i 0) := by
    rw [List.getElem?_eq_getElem hr, List.getD_eq_getElem _ _ hr]
  have hs : dot ((r.drop 1).take (i - 1)) (a.drop 1).reverse + r.getD i 0 = ∑ j ∈ range i, T r r i j * a.getD j 0 := by
    rw [dot_sum _ _ (by simp; omega)]
    obtain ⟨n, rfl⟩ : ∃ n, i = n + 1 := ⟨i - 1, by omega⟩
    rw [Finset.sum_range_succ', h0]
    have e1 : ((r.drop 1).take (n + 1 - 1)).length = n := by simp; omega
    rw [e1]
    congr 1
    · rw [← Finset.sum_range_reflect]
      refine Finset.sum_congr rfl fun j hj => ?_
      have hj := Finset.mem_range.1 hj
      rw [getD_take' _ _ _ (by omega), getD_drop', getD_reverse' _ _ (by simp; omega), getD_drop', T, if_pos (by omega)]
      simp only [List.length_drop]
      congr 2 <;> omega
    · rw [T, if_pos (by omega)]; simp
  refine ⟨_, _, by unfold lrPas; rw [hget], ?_, ?_⟩
  · rw [hs]
    generalize hk : -(∑ j ∈ range i, T r r i j * a.getD j 0) / α = k
    have hsk : ∑ j ∈ range i, T r r i j * a.getD j 0 = - k * α := by
      rw [← hk]; field_simp
    refine ⟨by simp; omega, ?_, fun m hm => ?_⟩
    · rw [lrPas_getD a k i 0 hl h0 hi (by omega), h0, getD_fin a _ (by omega)]; ring
    · have hE : ∀ m, ∑ j ∈ range (i + 1), T r r m j * a.getD j 0 = ∑ j ∈ range i, T r r m j * a.getD j 0 := by
        intro m
        rw [Finset.sum_range_succ, getD_fin a i (by omega), mul_zero, add_zero]
      have e2 : ∑ j ∈ range (i + 1), T r r m j * (a.getD j 0 + k * a.getD (i - j) 0) =
          ∑ j ∈ range i, T r r m j * a.getD j 0 + k * ∑ j ∈ range i, T r r (i - m) j * a.getD j 0 := by
        rw [← hE m, ← hE (i - m), ← Finset.sum_range_reflect (fun j => T r r (i - m) j * a.getD j 0), Finset.mul_sum, ← Finset.sum_add_distrib]
        refine Finset.sum_congr rfl fun j hj => ?_
        have hj := Finset.mem_range.1 hj
        rw [show i + 1 - 1 - j = i - j by omega, ← T_refl r i m (i - j) (by omega) (by omega), show i - (i - j) = j by omega]
        ring
      rw [Finset.sum_congr rfl fun j hj => by rw [lrPas_getD a k i j hl h0 hi (by have := Finset.mem_range.1 hj; omega)], e2]
      by_cases hm0 : m = 0
      · subst hm0
        rw [if_pos rfl, he 0 hi, if_pos rfl, Nat.sub_zero, hsk]; ring
      · rw [if_neg hm0]
        by_cases hmi : m = i
        · subst hmi
          rw [Nat.sub_self, hsk, he 0 hi, if_pos rfl]; ring
        · rw [he m (by omega), if_neg hm0, he (i - m) (by omega), if_neg (by omega)]; ring
  · rw [lrPas_getD a _ i i hl h0 hi (by omega), getD_fin a i (by omega), Nat.sub_self, h0]; ring

theorem lrBoucle_inv (r : List K) : ∀ nb i a α, 0 < i → i + nb ≤ r.length → LrInv r i a α →
    (∀ m, i ≤ m → m < i + nb → (toeplitz r r m).det ≠ 0) →
    ∃ a' α', lrBoucle r nb i a α = some (a', α') ∧ LrInv r (i + nb) a' α'
  | 0, i, a, α, _, _, h, _ => ⟨a, α, rfl, h⟩
  | nb + 1, i, a, α, hi, hr, h, hd => by
    have hα : α ≠ 0 := by
      intro e
      refine hd i (by omega) (by omega) (det_zero r r a i hi (by rw [h.2.1]; exact one_ne_zero) fun m hm => ?_)
      rw [h.2.2 m hm, e]; simp
    obtain ⟨a', k, e, h', _⟩ := lrPas_inv r a i α hi (by omega) h hα
    obtain ⟨a2, α2, e2, h2⟩ := lrBoucle_inv r nb (i + 1) a' _ (by omega) (by omega) h' (fun m h1 h2 => hd m (by omega) (by omega))
    exact ⟨a2, α2, by unfold lrBoucle; rw [e]; exact e2, by rwa [show i + (nb + 1) = i + 1 + nb by omega]⟩

theorem LrInv_un (r : List K) : LrInv r 1 [1] (r.getD 0 0) := by
  refine ⟨rfl, rfl, fun m hm => ?_⟩
  have : m = 0 := by omega
  subst this
  simp [T]

/-- The initialisation of the code is one step of the recursion from order 0. -/
theorem lr_debut (r : List K) (hr : 1 < r.length) :
    lrPas r 1 [1] (r.getD 0 0) = some ([1, -r.getD 1 0 / r.getD 0 0],
      r.getD 0 0 * (1 - -r.getD 1 0 / r.getD 0 0 * (-r.getD 1 0 / r.getD 0 0))) := by
  have hget : r[1]? = some (r.getD 1 0) := by rw [List.getElem?_eq_getElem hr, List.getD_eq_getElem _ _ hr]
  unfold lrPas
  rw [hget]
  simp [dot]

theorem levinsonReel_eq (r : List K) (hr : 1 < r.length) :
    levinsonReel r = (lrBoucle r (r.length - 1) 1 [1] (r.getD 0 0)).map Prod.fst := by
  have h0 : r[0]? = some (r.getD 0 0) := by rw [List.getElem?_eq_getElem (by omega), List.getD_eq_getElem _ _ (by omega)]
  have h1 : r[1]? = some (r.getD 1 0) := by rw [List.getElem?_eq_getElem hr, List.getD_eq_getElem _ _ hr]
  unfold levinsonReel
  rw [h0, h1, show r.length - 1 = (r.length - 2) + 1 by omega]
  simp only []
  rw [lrBoucle, lr_debut r hr]
  simp only []
  cases lrBoucle r (r.length - 2) (1 + 1) [1, -r.getD 1 0 / r.getD 0 0]
    (r.getD 0 0 * (1 - -r.getD 1 0 / r.getD 0 0 * (-r.getD 1 0 / r.getD 0 0))) <;> rfl

theorem levinsonReel_inv (r : List K) (hr : 1 < r.length) (hd : ∀ m, 1 ≤ m → m < r.length → (toeplitz r r m).det ≠ 0) :
    ∃ a α, levinsonReel r = some a ∧ LrInv r r.length a α := by
  obtain ⟨a, α, e, h⟩ := lrBoucle_inv r (r.length - 1) 1 [1] (r.getD 0 0) (by omega) (by omega) (LrInv_un r)
    (fun m h1 h2 => hd m h1 (by omega))
  rw [show 1 + (r.length - 1) = r.length by omega] at h
  exact ⟨a, α, by rw [levinsonReel_eq r hr, e]; rfl, h⟩

/-- C28, symmetric case: for every autocorrelation vector `r_0 … r_n` (`n ≥ 1`) whose matrices of orders `1 … n` are invertible,
`levinson_reel` returns `1, a_1, …, a_n` where `a` solves the documented system `R a = -r`. -/
theorem C28_reel (r : List K) (n : Nat) (hn : r.length = n + 1) (h1 : 1 ≤ n) (hd : ∀ m, 1 ≤ m → m ≤ n → (toeplitz r r m).det ≠ 0) :
    ∃ a, levinsonReel r = some (1 :: a) ∧ a.length = n ∧ toeplitz r r n *ᵥ vec a n = fun i => - r.getD (i.val + 1) 0 := by
  obtain ⟨a, α, e, hl, h0, h⟩ := levinsonReel_inv r (by omega) (fun m u v => hd m u (by omega))
  cases a with
  | nil => simp at hl; omega
  | cons b a =>
    have hb : b = 1 := h0
    subst hb
    refine ⟨a, e, by simp at hl; omega, ?_⟩
    funext i
    have := h (i.val + 1) (by omega)
    rw [if_neg (by omega), hn, Finset.sum_range_succ'] at this
    simp only [List.getD_cons_succ, List.getD_cons_zero, T_trans] at this
    rw [toeplitz_mulVec]
    have e0 : T r r (i.val + 1) 0 = r.getD (i.val + 1) 0 := by simp [T]
    rw [e0] at this
    linear_combination this

/-- C28: out of bounds below two values. -/
theorem C28_reel_court (r : List K) (h : r.length < 2) : levinsonReel r = none := by
  unfold levinsonReel
  rw [List.getElem?_eq_none (show r.length ≤ 1 by omega)]
  cases r[0]? <;> rfl

/-! ### Positive definite autocorrelations -/

theorem quad_pos (r : List ℝ) (n : Nat) (hd : (toeplitz r r n).PosDef) (x : Nat → ℝ) (h : ∃ i, i < n ∧ x i ≠ 0) :
    0 < ∑ i ∈ range n, x i * ∑ j ∈ range n, T r r i j * x j := by
  obtain ⟨i, hi, h⟩ := h
  have := hd.dotProduct_mulVec_pos (x := fun i : Fin n => x i) (fun e => h (congrFun e ⟨i, hi⟩))
  simp only [dotProduct, mulVec] at this
  rw [← Fin.sum_univ_eq_sum_range (fun i => x i * ∑ j ∈ range n, T r r i j * x j)]
  refine lt_of_lt_of_eq this (Finset.sum_congr rfl fun i _ => ?_)
  rw [← Fin.sum_univ_eq_sum_range (fun j => T r r i j * x j)]
  rfl

theorem quad_nonneg (r : List ℝ) (n : Nat) (hd : (toeplitz r r n).PosDef) (x : Nat → ℝ) :
    0 ≤ ∑ i ∈ range n, x i * ∑ j ∈ range n, T r r i j * x j := by
  by_cases h : ∃ i, i < n ∧ x i ≠ 0
  · exact (quad_pos r n hd x h).le
  · push Not at h
    exact (Finset.sum_eq_zero fun i hi => by rw [h i (Finset.mem_range.1 hi), zero_mul]).symm.le

theorem posdef_sous (r : List ℝ) (n m : Nat) (h : m ≤ n) (hd : (toeplitz r r n).PosDef) : (toeplitz r r m).PosDef :=
  hd.submatrix (e := Fin.castLE h) (Fin.castLE_injective h)

theorem posdef_det (r : List ℝ) (n : Nat) (hd : (toeplitz r r n).PosDef) : (toeplitz r r n).det ≠ 0 := by
  intro h
  obtain ⟨v, hv, e⟩ := Matrix.exists_mulVec_eq_zero_iff.2 h
  have := hd.dotProduct_mulVec_pos hv
  rw [e] at this
  simp at this

theorem alpha_pos (r : List ℝ) (n : Nat) (hn : 0 < n) (hd : (toeplitz r r n).PosDef) (a : List ℝ) (α : ℝ) (h : LrInv r n a α) : 0 < α := by
  have := quad_pos r n hd (fun i => a.getD i 0) ⟨0, hn, by rw [h.2.1]; exact one_ne_zero⟩
  rw [Finset.sum_congr rfl fun i hi => by rw [h.2.2 i (Finset.mem_range.1 hi)]] at this
  rw [Finset.sum_eq_single 0 (fun b _ hb => by rw [if_neg hb, mul_zero]) (fun hb => absurd (Finset.mem_range.2 hn) hb), if_pos rfl,
    h.2.1, one_mul] at this
  exact this

theorem lrBoucle_fin (r : List K) : ∀ nb i a α, lrBoucle r (nb + 1) i a α =
    match lrBoucle r nb i a α with
    | none => none
    | some (a, α) => lrPas r (i + nb) a α
  | 0, i, a, α => by
    rw [lrBoucle, lrBoucle]
    simp only [Nat.add_zero]
    cases lrPas r i a α with
    | none => rfl
    | some p => rfl
  | nb + 1, i, a, α => by
    rw [lrBoucle, lrBoucle]
    cases e : lrPas r i a α with
    | none => rfl
    | some p =>
      obtain ⟨a', α'⟩ := p
      simp only []
      rw [lrBoucle_fin r nb (i + 1) a' α', show i + 1 + nb = i + (nb + 1) by omega]

/-- C28: for a positive definite autocorrelation matrix, the last coefficient (the reflection coefficient of the last order) has a modulus
below 1. -/
theorem C28_reflexion (r : List ℝ) (n : Nat) (hn : r.length = n + 1) (h1 : 1 ≤ n) (hd : (toeplitz r r (n + 1)).PosDef) :
    ∃ a, levinsonReel r = some a ∧ a.length = n + 1 ∧ |a.getD n 0| < 1 := by
  obtain ⟨a, α, e, h⟩ := lrBoucle_inv r (n - 1) 1 [1] (r.getD 0 0) (by omega) (by omega) (LrInv_un r)
    (fun m _ _ => posdef_det r m (posdef_sous r (n + 1) m (by omega) hd))
  rw [show 1 + (n - 1) = n by omega] at h
  have hα := alpha_pos r n (by omega) (posdef_sous r (n + 1) n (by omega) hd) a α h
  obtain ⟨a', k, e2, h2, hk⟩ := lrPas_inv r a n α (by omega) (by omega) h hα.ne'
  have hα2 := alpha_pos r (n + 1) (by omega) hd a' _ h2
  refine ⟨a', ?_, h2.1, ?_⟩
  · rw [levinsonReel_eq r (by omega), show r.length - 1 = n - 1 + 1 by omega, lrBoucle_fin, e]
    simp only []
    rw [show 1 + (n - 1) = n by omega, e2]
    rfl
  · rw [hk]
    have : 0 < 1 - k * k := by
      by_contra hc
      have := mul_nonpos_of_nonneg_of_nonpos hα.le (not_lt.1 hc)
      linarith
    rw [abs_lt]
    constructor <;> nlinarith

/-- Quotient of the polynomial of coefficients `a` by `z - z0`. -/
noncomputable def quot (a : List ℝ) (z : ℂ) : Nat → ℂ
  | 0 => (a.getD 0 0 : ℝ)
  | j + 1 => (a.getD (j + 1) 0 : ℝ) + z * quot a z j

theorem quot_eq (a : List ℝ) (z : ℂ) (n : Nat) : quot a z n = ∑ j ∈ range (n + 1), ((a.getD j 0 : ℝ) : ℂ) * z ^ (n - j) := by
  induction n with
  | zero => simp [quot]
  | succ n ih =>
    rw [quot, ih, Finset.sum_range_succ _ (n + 1), Finset.mul_sum, Nat.sub_self, pow_zero, mul_one, add_comm]
    congr 1
    refine Finset.sum_congr rfl fun j hj => ?_
    have := Finset.mem_range.1 hj
    rw [show n + 1 - j = (n - j) + 1 by omega, pow_succ]
    ring

/-- C28: for a positive definite autocorrelation matrix, all the roots of the prediction polynomial `z^n + a_1 z^{n-1} + … + a_n` are inside of
the unit circle: the synthesis filter `1/a(z)` is stable. -/
theorem C28_stable (r : List ℝ) (n : Nat) (hn : r.length = n + 1) (h1 : 1 ≤ n) (hd : (toeplitz r r (n + 1)).PosDef) :
    ∃ a, levinsonReel r = some a ∧ a.length = n + 1 ∧
      ∀ z : ℂ, ∑ j ∈ range (n + 1), ((a.getD j 0 : ℝ) : ℂ) * z ^ (n - j) = 0 → ‖z‖ < 1 := by
  obtain ⟨a, α, e, h⟩ := levinsonReel_inv r (by omega) (fun m _ _ => posdef_det r m (posdef_sous r (n + 1) m (by omega) hd))
  rw [hn] at h
  have hα := alpha_pos r (n + 1) (by omega) hd a α h
  refine ⟨a, e, h.1, fun z hz => ?_⟩
  rw [← quot_eq] at hz
  obtain ⟨v, hv⟩ : ∃ v, v = quot a z := ⟨_, rfl⟩
  have hv0 : v 0 = 1 := by rw [hv, quot, h.2.1]; simp
  have hvn : v n = 0 := by rw [hv, hz]
  -- the prediction equations, with `a_j = v_j - z v_{j-1}`
  have hE : ∀ m, m < n + 1 → ∑ j ∈ range n, ((T r r m j : ℝ) : ℂ) * v j - z * ∑ j ∈ range n, ((T r r m (j + 1) : ℝ) : ℂ) * v j =
      if m = 0 then (α : ℂ) else 0 := by
    intro m hm
    have h2 := congrArg (fun t : ℝ => (t : ℂ)) (h.2.2 m hm)
    simp only [Complex.ofReal_sum, Complex.ofReal_mul] at h2
    rw [show ((if m = 0 then α else 0 : ℝ) : ℂ) = if m = 0 then (α : ℂ) else 0 by split_ifs <;> simp] at h2
    rw [← h2, Finset.sum_range_succ']
    have e1 : ∑ j ∈ range n, ((T r r m (j + 1) : ℝ) : ℂ) * ((a.getD (j + 1) 0 : ℝ) : ℂ) =
        ∑ j ∈ range n, ((T r r m (j + 1) : ℝ) : ℂ) * v (j + 1) - z * ∑ j ∈ range n, ((T r r m (j + 1) : ℝ) : ℂ) * v j := by
      rw [Finset.mul_sum, ← Finset.sum_sub_distrib]
      refine Finset.sum_congr rfl fun j _ => ?_
      rw [hv, quot]; ring
    rw [e1]
    have e2 : ∑ j ∈ range n, ((T r r m (j + 1) : ℝ) : ℂ) * v (j + 1) + ((T r r m 0 : ℝ) : ℂ) * v 0 = ∑ j ∈ range n, ((T r r m j : ℝ) : ℂ) * v j := by
      rw [← Finset.sum_range_succ' (fun j => ((T r r m j : ℝ) : ℂ) * v j), Finset.sum_range_succ, hvn, mul_zero, add_zero]
    rw [← e2, hv0, h.2.1]
    push_cast
    ring
  have hE0 := fun m (hm : m < n) => hE m (by omega)
  have hE1 := fun m (hm : m < n) => hE (m + 1) (by omega)
  -- inner products
  obtain ⟨c, hc⟩ : ∃ c, c = ∑ i ∈ range n, star (v i) * ∑ j ∈ range n, ((T r r i j : ℝ) : ℂ) * v j := ⟨_, rfl⟩
  obtain ⟨d, hdd⟩ : ∃ d, d = ∑ i ∈ range n, star (v i) * ∑ j ∈ range n, ((T r r (i + 1) j : ℝ) : ℂ) * v j := ⟨_, rfl⟩
  have hd2 : ∑ i ∈ range n, star (v i) * ∑ j ∈ range n, ((T r r i (j + 1) : ℝ) : ℂ) * v j = star d := by
    rw [hdd, star_sum]
    simp only [star_mul, star_star, star_sum, Finset.mul_sum]
    rw [Finset.sum_comm]
    refine Finset.sum_congr rfl fun i _ => Finset.sum_congr rfl fun j _ => ?_
    rw [T_sym r (i + 1) j]
    simp only [Complex.star_def, Complex.conj_ofReal]
    ring
  have hcs : star c = c := by
    rw [hc, star_sum]
    simp only [star_mul, star_star, star_sum, Finset.mul_sum]
    rw [Finset.sum_comm]
    refine Finset.sum_congr rfl fun i _ => Finset.sum_congr rfl fun j _ => ?_
    rw [T_sym r j i]
    simp only [Complex.star_def, Complex.conj_ofReal]
    ring
  have k1 : d = z * c := by
    have : ∑ i ∈ range n, star (v i) * (∑ j ∈ range n, ((T r r (i + 1) j : ℝ) : ℂ) * v j - z * ∑ j ∈ range n, ((T r r (i + 1) (j + 1) : ℝ) : ℂ) * v j) = 0 :=
      Finset.sum_eq_zero fun i hi => by rw [hE1 i (Finset.mem_range.1 hi), if_neg (by omega), mul_zero]
    simp only [T_trans, mul_sub, Finset.sum_sub_distrib] at this
    rw [← hdd] at this
    rw [hc, Finset.mul_sum, sub_eq_zero.1 this]
    exact Finset.sum_congr rfl fun i _ => by ring
  have k2 : (α : ℂ) = c - z * star d := by
    have : ∑ i ∈ range n, star (v i) * (∑ j ∈ range n, ((T r r i j : ℝ) : ℂ) * v j - z * ∑ j ∈ range n, ((T r r i (j + 1) : ℝ) : ℂ) * v j) = α := by
      rw [Finset.sum_eq_single 0 (fun b hb hb0 => by rw [hE0 b (Finset.mem_range.1 hb), if_neg hb0, mul_zero])
        (fun hb => absurd (Finset.mem_range.2 (by omega)) hb), hE0 0 (by omega), if_pos rfl, hv0]
      simp
    simp only [mul_sub, Finset.sum_sub_distrib] at this
    rw [← hc] at this
    rw [← this, ← hd2, Finset.mul_sum]
    congr 1
    exact Finset.sum_congr rfl fun i _ => by ring
  have k3 : α = c.re * (1 - ‖z‖ ^ 2) := by
    rw [k1, star_mul, hcs] at k2
    have hz2 : z * star z = ((‖z‖ ^ 2 : ℝ) : ℂ) := by rw [Complex.star_def, Complex.mul_conj, Complex.normSq_eq_norm_sq]
    have : (α : ℂ) = c * ((1 - ‖z‖ ^ 2 : ℝ) : ℂ) := by
      rw [k2, Complex.ofReal_sub, ← hz2, Complex.ofReal_one]
      ring
    have := congrArg Complex.re this
    rwa [Complex.ofReal_re, Complex.re_mul_ofReal] at this
  have k4 : 0 < c.re := by
    have hp := posdef_sous r (n + 1) n (by omega) hd
    have q1 := quad_pos r n hp (fun i => (v i).re) ⟨0, by omega, by rw [hv0]; simp⟩
    have q2 := quad_nonneg r n hp (fun i => (v i).im)
    have : c.re = ∑ i ∈ range n, (v i).re * ∑ j ∈ range n, T r r i j * (v j).re + ∑ i ∈ range n, (v i).im * ∑ j ∈ range n, T r r i j * (v j).im := by
      rw [hc, Complex.re_sum, ← Finset.sum_add_distrib]
      refine Finset.sum_congr rfl fun i _ => ?_
      rw [Complex.mul_re, Complex.re_sum, Complex.im_sum]
      simp
    rw [this]; linarith
  have : 0 < 1 - ‖z‖ ^ 2 := by
    by_contra hcon
    have := mul_nonpos_of_nonneg_of_nonpos k4.le (not_lt.1 hcon)
    linarith
  nlinarith [norm_nonneg z]

/-! ## C28: general case -/

/-- Invariant of `levinson`: forward vector, backward vector, solution of order `i`. -/
def LevInv (l1 c1 y : List K) (i : Nat) (s : LevEtat K) : Prop :=
  s.f.length = i ∧ s.b.length = i ∧ s.x.length = i ∧ s.f.getD 0 0 ≠ 0 ∧
  (∀ m, m < i → ∑ j ∈ range i, T l1 c1 m j * s.f.getD j 0 = if m = 0 then 1 else 0) ∧
  (∀ m, m < i → ∑ j ∈ range i, T l1 c1 m j * s.b.getD j 0 = if m + 1 = i then 1 else 0) ∧
  (∀ m, m < i → ∑ j ∈ range i, T l1 c1 m j * s.x.getD j 0 = y.getD m 0)

theorem dot_col (c1 l1 u : List K) (i : Nat) (h : i < c1.length) (hu : u.length = i) :
    dot ((c1.drop 1).reverse.drop ((c1.drop 1).reverse.length - i)) u = ∑ j ∈ range i, T l1 c1 i j * u.getD j 0 := by
  rw [dot_sum _ _ (by simp; omega)]
  have e : ((c1.drop 1).reverse.drop ((c1.drop 1).reverse.length - i)).length = i := by simp; omega
  rw [e]
  refine Finset.sum_congr rfl fun j hj => ?_
  have hj := Finset.mem_range.1 hj
  rw [getD_drop', getD_reverse' _ _ (by simp; omega), getD_drop', T, if_pos (by omega)]
  simp only [List.length_reverse, List.length_drop]
  congr 2
  omega

theorem dot_ligne (c1 l1 u : List K) (i : Nat) (h : i < l1.length) (hu : u.length = i) :
    dot ((l1.drop 1).take i) u = ∑ j ∈ range i, T l1 c1 0 (j + 1) * u.getD j 0 := by
  rw [dot_sum _ _ (by simp; omega)]
  have e : ((l1.drop 1).take i).length = i := by simp; omega
  rw [e]
  refine Finset.sum_congr rfl fun j hj => ?_
  have hj := Finset.mem_range.1 hj
  rw [getD_take' _ _ _ hj, getD_drop', T, if_neg (by omega)]
  congr 2
  omega

theorem levPas_inv (l1 c1 y : List K) (i : Nat) (s : LevEtat K) (hi : 0 < i) (hl : i < l1.length) (hc : i < c1.length) (hy : i < y.length)
    (h : LevInv l1 c1 y i s) (hdet : (toeplitz l1 c1 (i + 1)).det ≠ 0) :
    ∃ s', levPas l1 c1 y (i + 1) s = some s' ∧ LevInv l1 c1 y (i + 1) s' := by
  obtain ⟨lf, lb, lx, f0, hf, hb, hx⟩ := h
  have hget : y[i + 1 - 1]? = some (y.getD i 0) := by
    rw [Nat.add_sub_cancel, List.getElem?_eq_getElem hy, List.getD_eq_getElem _ _ hy]
  unfold levPas
  rw [hget]
  simp only [Nat.add_sub_cancel]
  rw [dot_col c1 l1 s.f i hc lf, dot_col c1 l1 s.x i hc lx, dot_ligne c1 l1 s.b i hl lb]
  generalize hef : ∑ j ∈ range i, T l1 c1 i j * s.f.getD j 0 = ef
  generalize heb : ∑ j ∈ range i, T l1 c1 0 (j + 1) * s.b.getD j 0 = eb
  generalize hex : ∑ j ∈ range i, T l1 c1 i j * s.x.getD j 0 = ex
  -- the two extended vectors
  have Ff : ∀ m, m < i + 1 → ∑ j ∈ range (i + 1), T l1 c1 m j * (s.f ++ [0]).getD j 0 = if m = 0 then 1 else if m = i then ef else 0 := by
    intro m hm
    rw [Finset.sum_range_succ, getD_snoc, if_neg (by omega), if_pos lf.symm, mul_zero, add_zero,
      Finset.sum_congr rfl fun j hj => by rw [getD_snoc, if_pos (by have := Finset.mem_range.1 hj; omega)]]
    by_cases hm1 : m = i
    · subst hm1; rw [hef, if_neg (by omega), if_pos rfl]
    · rw [hf m (by omega)]; simp only [hm1, if_false]
  have Fb : ∀ m, m < i + 1 → ∑ j ∈ range (i + 1), T l1 c1 m j * (0 :: s.b).getD j 0 = if m = 0 then eb else if m = i then 1 else 0 := by
    intro m hm
    rw [Finset.sum_range_succ']
    simp only [List.getD_cons_zero, List.getD_cons_succ, mul_zero, add_zero]
    cases m with
    | zero => rw [heb, if_pos rfl]
    | succ m =>
      simp only [T_trans]
      rw [hb m (by omega), if_neg (Nat.succ_ne_zero m)]
  have Fx : ∀ m, m < i + 1 → ∑ j ∈ range (i + 1), T l1 c1 m j * (s.x ++ [0]).getD j 0 = if m = i then ex else y.getD m 0 := by
    intro m hm
    rw [Finset.sum_range_succ, getD_snoc, if_neg (by omega), if_pos lx.symm, mul_zero, add_zero,
      Finset.sum_congr rfl fun j hj => by rw [getD_snoc, if_pos (by have := Finset.mem_range.1 hj; omega)]]
    by_cases hm1 : m = i
    · subst hm1; rw [hex, if_pos rfl]
    · rw [hx m (by omega), if_neg hm1]
  have comb : ∀ (u v : List K) (p q : K) (m : Nat), u.length = i + 1 → v.length = i + 1 →
      ∑ j ∈ range (i + 1), T l1 c1 m j * (List.zipWith (fun a b => p * a - q * b) u v).getD j 0 =
        p * ∑ j ∈ range (i + 1), T l1 c1 m j * u.getD j 0 - q * ∑ j ∈ range (i + 1), T l1 c1 m j * v.getD j 0 := by
    intro u v p q m hu hv
    rw [Finset.mul_sum, Finset.mul_sum, ← Finset.sum_sub_distrib]
    refine Finset.sum_congr rfl fun j hj => ?_
    have hj := Finset.mem_range.1 hj
    rw [getD_zipWith _ _ _ _ (by omega) (by omega)]
    ring
  have l1' : (s.f ++ [0]).length = i + 1 := by simp [lf]
  have l2' : ((0 : K) :: s.b).length = i + 1 := by simp [lb]
  have l3' : (s.x ++ [0]).length = i + 1 := by simp [lx]
  -- the pivot does not vanish
  have piv : 1 - eb * ef ≠ 0 := by
    intro hz
    refine hdet (det_zero l1 c1 (List.zipWith (fun a b => 1 * a - ef * b) (s.f ++ [0]) (0 :: s.b)) (i + 1) (by omega) ?_ fun m hm => ?_)
    · rw [getD_zipWith _ _ _ _ (by omega) (by omega), getD_snoc, if_pos (by omega)]
      simpa using f0
    · rw [comb _ _ _ _ _ l1' l2', Ff m hm, Fb m hm]
      by_cases hm0 : m = 0
      · rw [if_pos hm0, if_pos hm0]; linear_combination hz
      · rw [if_neg hm0, if_neg hm0]
        split_ifs <;> ring
  generalize hfr : 1 / (1 - eb * ef) = fr
  have hfr1 : fr * (1 - eb * ef) = 1 := by rw [← hfr]; field_simp
  have hfr0 : fr ≠ 0 := fun h0 => by rw [h0, zero_mul] at hfr1; exact zero_ne_one hfr1
  have Bb : ∀ m, m < i + 1 → ∑ j ∈ range (i + 1), T l1 c1 m j *
      (List.zipWith (fun u v => fr * u - eb * fr * v) (0 :: s.b) (s.f ++ [0])).getD j 0 = if m + 1 = i + 1 then 1 else 0 := by
    intro m hm
    rw [comb _ _ _ _ _ l2' l1', Ff m hm, Fb m hm]
    by_cases hm0 : m = 0
    · rw [if_pos hm0, if_pos hm0, if_neg (by omega)]; ring
    · rw [if_neg hm0, if_neg hm0]
      by_cases hm1 : m = i
      · rw [if_pos hm1, if_pos hm1, if_pos (by omega)]; linear_combination hfr1
      · rw [if_neg hm1, if_neg hm1, if_neg (by omega)]; ring
  refine ⟨_, rfl, ⟨by simp; omega, by simp; omega, by simp; omega, ?_, fun m hm => ?_, Bb, fun m hm => ?_⟩⟩
  · rw [getD_zipWith _ _ _ _ (by omega) (by omega), getD_snoc, if_pos (by omega)]
    simpa using ⟨hfr0, f0⟩
  · rw [comb _ _ _ _ _ l1' l2', Ff m hm, Fb m hm]
    by_cases hm0 : m = 0
    · rw [if_pos hm0, if_pos hm0, if_pos hm0]; linear_combination hfr1
    · rw [if_neg hm0, if_neg hm0, if_neg hm0]
      split_ifs <;> ring
  · have e : ∀ b : List K, b.length = i + 1 → ∑ j ∈ range (i + 1), T l1 c1 m j *
        (List.zipWith (fun u v => u + (y.getD i 0 - ex) * v) (s.x ++ [0]) b).getD j 0 =
        ∑ j ∈ range (i + 1), T l1 c1 m j * (s.x ++ [0]).getD j 0 + (y.getD i 0 - ex) * ∑ j ∈ range (i + 1), T l1 c1 m j * b.getD j 0 := by
      intro b hb
      rw [Finset.mul_sum, ← Finset.sum_add_distrib]
      refine Finset.sum_congr rfl fun j hj => ?_
      have hj := Finset.mem_range.1 hj
      rw [getD_zipWith _ _ _ _ (by omega) (by omega)]
      ring
    rw [e _ (by simp; omega), Fx m hm, Bb m hm]
    by_cases hm1 : m = i
    · subst hm1; rw [if_pos rfl, if_pos rfl]; ring
    · rw [if_neg hm1, if_neg (by omega)]; ring

theorem levBoucle_inv (l1 c1 y : List K) : ∀ nb i s, 0 < i → i + nb ≤ l1.length → i + nb ≤ c1.length → i + nb ≤ y.length →
    LevInv l1 c1 y i s → (∀ m, i < m → m ≤ i + nb → (toeplitz l1 c1 m).det ≠ 0) →
    ∃ s', levBoucle l1 c1 y nb (i + 1) s = some s' ∧ LevInv l1 c1 y (i + nb) s'
  | 0, i, s, _, _, _, _, h, _ => ⟨s, rfl, h⟩
  | nb + 1, i, s, hi, h1, h2, h3, h, hd => by
    obtain ⟨s1, e1, i1⟩ := levPas_inv l1 c1 y i s hi (by omega) (by omega) (by omega) h (hd (i + 1) (by omega) (by omega))
    obtain ⟨s2, e2, i2⟩ := levBoucle_inv l1 c1 y nb (i + 1) s1 (by omega) (by omega) (by omega) (by omega) i1
      (fun m u v => hd m (by omega) (by omega))
    exact ⟨s2, by rw [levBoucle, e1]; exact e2, by rwa [show i + (nb + 1) = i + 1 + nb by omega]⟩

/-- C28, general case: for every dimension `n ≥ 1`, when the leading submatrices of the Toeplitz matrix with first row `l1` and first column
`c1` are invertible, `levinson(l1, c1, y)` returns the solution of `T x = y`. -/
theorem C28_general [DecidableEq K] (l1 c1 y : List K) (n : Nat) (hn : 1 ≤ n) (hl : l1.length = n) (hc : c1.length = n) (hy : y.length = n)
    (h0 : l1.getD 0 0 = c1.getD 0 0) (hd : ∀ m, 1 ≤ m → m ≤ n → (toeplitz l1 c1 m).det ≠ 0) :
    ∃ x, levinson l1 c1 y = some x ∧ x.length = n ∧ toeplitz l1 c1 n *ᵥ vec x n = vec y n := by
  have gl : l1[0]? = some (c1.getD 0 0) := by rw [← h0, List.getElem?_eq_getElem (by omega), List.getD_eq_getElem _ _ (by omega)]
  have gc : c1[0]? = some (c1.getD 0 0) := by rw [List.getElem?_eq_getElem (by omega), List.getD_eq_getElem _ _ (by omega)]
  have gy : y[0]? = some (y.getD 0 0) := by rw [List.getElem?_eq_getElem (by omega), List.getD_eq_getElem _ _ (by omega)]
  have hne : c1.getD 0 0 ≠ 0 := by
    have := hd 1 (by omega) hn
    rw [Matrix.det_fin_one] at this
    simpa [toeplitz] using this
  have init : LevInv l1 c1 y 1 ⟨[1 / c1.getD 0 0], [1 / c1.getD 0 0], [y.getD 0 0 / c1.getD 0 0]⟩ := by
    refine ⟨rfl, rfl, rfl, by simpa using hne, fun m hm => ?_, fun m hm => ?_, fun m hm => ?_⟩ <;>
    · have : m = 0 := by omega
      subst this
      simp only [Finset.sum_range_one, T, Nat.le_refl, if_true, Nat.sub_self, List.getD_cons_zero]
      field_simp
  obtain ⟨s, e, _, _, lx, _, _, _, hx⟩ := levBoucle_inv l1 c1 y (n - 1) 1 _ (by omega) (by omega) (by omega) (by omega) init
    (fun m u v => hd m (by omega) (by omega))
  rw [show 1 + (n - 1) = n by omega] at lx hx
  refine ⟨s.x, ?_, lx, ?_⟩
  · unfold levinson
    rw [if_neg (by omega), if_neg (by omega), gl, gc, gy]
    simp only [ne_eq, not_true_eq_false, if_false]
    rw [hl, e]
  · funext i
    rw [toeplitz_mulVec, hx i i.isLt]
    rfl

/-- C28: vectors of different dimensions, empty vectors and different corner elements are rejected. -/
theorem C28_rejets [DecidableEq K] (l1 c1 y : List K) (h : l1.length ≠ c1.length ∨ l1.length ≠ y.length ∨ l1 = [] ∨ l1.getD 0 0 ≠ c1.getD 0 0) :
    levinson l1 c1 y = none := by
  unfold levinson
  by_cases h1 : l1.length ≠ c1.length
  · rw [if_pos h1]
  rw [if_neg h1]
  by_cases h2 : l1.length ≠ y.length
  · rw [if_pos h2]
  rw [if_neg h2]
  push Not at h1 h2
  cases l1 with
  | nil => rfl
  | cons l0 l =>
    cases c1 with
    | nil => simp at h1
    | cons c0 c =>
      cases y with
      | nil => simp at h2
      | cons y0 y =>
        simp only [List.getElem?_cons_zero]
        rw [if_pos]
        rcases h with h | h | h | h
        · exact absurd h1 h
        · exact absurd h2 h
        · simp at h
        · simpa using h

/-! ### Concrete cases -/

example : levinsonReel [(4 : ℚ), 2, 1] = some [1, -1 / 2, 0] := by norm_num [levinsonReel, lrBoucle, lrPas, dot]

example : ∀ m, 1 ≤ m → m ≤ 2 → (toeplitz [(4 : ℚ), 2, 1] [4, 2, 1] m).det ≠ 0 := by
  intro m h1 h2
  interval_cases m
  · simp [toeplitz]
  · rw [Matrix.det_fin_two]; norm_num [toeplitz]

example : ∀ m, 1 ≤ m → m ≤ 2 → (toeplitz [(3 : ℚ), 1] [3, -2] m).det ≠ 0 := by
  intro m h1 h2
  interval_cases m
  · simp [toeplitz]
  · rw [Matrix.det_fin_two]; norm_num [toeplitz]

example : levinson [(3 : ℚ), 1] [3, -2] [5, 4] = some [1, 2] := by
  norm_num [levinson, levBoucle, levPas, dot]

example : (toeplitz [(2 : ℝ), 1] [2, 1] (1 + 1)).PosDef := by
  refine Matrix.PosDef.of_dotProduct_mulVec_pos ?_ fun x hx => ?_
  · ext i j
    fin_cases i <;> fin_cases j <;> simp [toeplitz]
  · have h : x 0 ≠ 0 ∨ x 1 ≠ 0 := by
      by_contra hc
      push Not at hc
      refine hx ?_
      funext i
      fin_cases i
      · exact hc.1
      · exact hc.2
    have hq : 0 < x 0 ^ 2 + x 1 ^ 2 := by
      rcases h with h | h
      · have := sq_nonneg (x 1); positivity
      · have := sq_nonneg (x 0); positivity
    simp [dotProduct, mulVec, toeplitz]
    nlinarith [sq_nonneg (x 0 + x 1)]

/-! ## C54: covariance matrix, C55: linear prediction -/

open Verif.Fourier Verif.Filtre

/-- Specification: unbiased estimate of `E[x_p conj(x_q)]` over the pairs `p - q = d`. -/
noncomputable def covEst (x : List ℂ) (d : Int) : ℂ :=
  (∑ p ∈ range x.length, ∑ q ∈ range x.length, if (p : Int) - q = d then x.getD p 0 * star (x.getD q 0) else 0) /
    (((x.length : Int) - |d| : Int) : ℂ)

theorem corr_covEst (x : List ℂ) (τ : Int) :
    corrLineaire x x τ = ∑ p ∈ range x.length, ∑ q ∈ range x.length, if (p : Int) - q = -τ then x.getD p 0 * star (x.getD q 0) else 0 := by
  unfold corrLineaire
  refine Finset.sum_congr rfl fun k hk => ?_
  by_cases h : 0 ≤ (k : Int) + τ ∧ (k : Int) + τ < x.length
  · rw [if_pos h, Finset.sum_eq_single ((k : Int) + τ).toNat]
    · rw [if_pos (by omega)]
    · intro q _ hq
      rw [if_neg (by omega)]
    · intro hc
      exact absurd (Finset.mem_range.2 (by omega)) hc
  · rw [if_neg h]
    refine (Finset.sum_eq_zero fun q hq => ?_).symm
    have := Finset.mem_range.1 hq
    rw [if_neg (by omega)]

theorem covEst_conj (x : List ℂ) (d : Int) : star (covEst x d) = covEst x (-d) := by
  unfold covEst
  rw [star_div₀, star_sum, abs_neg]
  congr 1
  · simp only [star_sum]
    rw [Finset.sum_comm]
    refine Finset.sum_congr rfl fun p _ => Finset.sum_congr rfl fun q _ => ?_
    by_cases h : (q : Int) - p = d
    · rw [if_pos h, if_pos (by omega), star_mul, star_star]
    · rw [if_neg h, if_neg (by omega), star_zero]
  · rw [Complex.star_def, map_intCast]

theorem covVec_some (x : List ℂ) (m : Nat) (hm : 0 < m) (hmx : m ≤ x.length) (hx2 : x.length + 2 * m ≤ 2 ^ 29) :
    ∃ r, covVec trigoC x m = some r ∧ r.length = m ∧ ∀ t, t < m → r.getD t 0 = covEst x (-(t : Int)) := by
  obtain ⟨lags, c, e, _, lc, g⟩ := C48_xcorr x x m hm hmx hx2 (.inr rfl)
  obtain ⟨r, e2, lr, g2⟩ := queue_some c m (by omega)
  refine ⟨r, ?_, lr, fun t ht => ?_⟩
  · unfold covVec
    rw [e]
    simp only []
    rw [if_neg (by omega), Int.toNat_natCast, e2]
  · have h1 : r.getD t 0 = c.getD (c.length - m + t) 0 := by
      rw [List.getD_eq_getElem?_getD, List.getD_eq_getElem?_getD, g2 t ht]
    have hx : (if x = [] then x else x) = x := by split_ifs <;> rfl
    rw [h1, (g _ (by omega)).2, hx, lc, show ((2 * m - 1 - m + t : Nat) : Int) - ((m : Int) - 1) = t by omega, corr_covEst, covEst, abs_neg]

/-- C54: `covmtx(x, m)` (`1 ≤ m ≤ N`) is a Hermitian matrix whose coefficient `(i, j)` is the unbiased estimate of
`E[x_{k+j} conj(x_{k+i})]`. -/
theorem C54_covariance (x : List ℂ) (m : Nat) (hm : 0 < m) (hmx : m ≤ x.length) (hx2 : x.length + 2 * m ≤ 2 ^ 29) :
    ∃ r, covVec trigoC x m = some r ∧ r.length = m ∧ (rVersR star r).IsHermitian ∧
      ∀ i j : Fin r.length, rVersR star r i j = covEst x ((j.val : Int) - i.val) := by
  obtain ⟨r, e, l, g⟩ := covVec_some x m hm hmx hx2
  have hval : ∀ i j : Fin r.length, rVersR star r i j = covEst x ((j.val : Int) - i.val) := by
    intro i j
    have hi := i.isLt
    have hj := j.isLt
    unfold rVersR
    by_cases h : j.val > i.val
    · rw [if_pos h, g _ (by omega), covEst_conj]
      congr 1
      omega
    · rw [if_neg h, g _ (by omega)]
      congr 1
      omega
  refine ⟨r, e, l, ?_, hval⟩
  ext i j
  rw [Matrix.conjTranspose_apply, hval, hval, covEst_conj]
  congr 1
  omega

/-- C54: for real signals, this is the documented matrix `E[x_{k+i} conj(x_{k+j})]`. -/
theorem C54_reel (x : List ℂ) (hx : ∀ k, star (x.getD k 0) = x.getD k 0) (m : Nat) (hm : 0 < m) (hmx : m ≤ x.length)
    (hx2 : x.length + 2 * m ≤ 2 ^ 29) :
    ∃ r, covVec trigoC x m = some r ∧ r.length = m ∧ ∀ i j : Fin r.length, rVersR star r i j = covEst x ((i.val : Int) - j.val) := by
  obtain ⟨r, e, l, _, g⟩ := C54_covariance x m hm hmx hx2
  refine ⟨r, e, l, fun i j => ?_⟩
  rw [g, ← neg_sub (i.val : Int) (j.val : Int), ← covEst_conj]
  unfold covEst
  rw [star_div₀, star_sum, Complex.star_def, map_intCast]
  congr 1
  refine Finset.sum_congr rfl fun p _ => ?_
  rw [map_sum]
  refine Finset.sum_congr rfl fun q _ => ?_
  split_ifs
  · rw [map_mul]
    have h1 := hx p
    have h2 := hx q
    rw [Complex.star_def] at h1 h2
    rw [h2, h1, h2]
  · rw [map_zero]

/-- C54, refuted for complex signals: the matrix of `x = (1, i)` is the transpose of the documented one. -/
theorem C54_complexe_refute : ∃ r, covVec trigoC [1, Complex.I] 2 = some r ∧ ∃ h : 1 < r.length,
    rVersR star r ⟨1, h⟩ ⟨0, by omega⟩ ≠ covEst [1, Complex.I] 1 := by
  obtain ⟨r, e, l, _, g⟩ := C54_covariance [1, Complex.I] 2 (by omega) (by simp) (by simp)
  refine ⟨r, e, by omega, ?_⟩
  rw [g]
  simp [covEst, Finset.sum_range_succ]
  intro h
  have := congrArg Complex.im h
  norm_num at this

/-- Specification: unbiased autocorrelation of a real signal at lag `τ`. -/
noncomputable def autocorr (x : List ℝ) (τ : Nat) : ℝ :=
  (∑ k ∈ range (x.length - τ), x.getD k 0 * x.getD (k + τ) 0) / ((x.length : ℝ) - τ)

theorem covEst_reel (x : List ℝ) (τ : Nat) (hτ : τ < x.length) :
    covEst (x.map fun v : ℝ => (v : ℂ)) (-(τ : Int)) = ((autocorr x τ : ℝ) : ℂ) := by
  have hg : ∀ k, (x.map fun v : ℝ => (v : ℂ)).getD k 0 = ((x.getD k 0 : ℝ) : ℂ) := by
    intro k
    have := List.getD_map (l := x) (d := 0) (n := k) (fun v : ℝ => (v : ℂ))
    rwa [Complex.ofReal_zero] at this
  unfold covEst autocorr
  rw [List.length_map, abs_neg]
  simp only [hg]
  push_cast
  congr 1
  · have : ∀ p, p ∈ range x.length → (∑ q ∈ range x.length, if (p : Int) - q = -(τ : Int) then
        ((x.getD p 0 : ℝ) : ℂ) * star ((x.getD q 0 : ℝ) : ℂ) else 0) =
        if p < x.length - τ then ((x.getD p 0 : ℝ) : ℂ) * ((x.getD (p + τ) 0 : ℝ) : ℂ) else 0 := by
      intro p hp
      have hp := Finset.mem_range.1 hp
      by_cases h : p < x.length - τ
      · rw [if_pos h, Finset.sum_eq_single (p + τ)]
        · rw [if_pos (by omega), Complex.star_def, Complex.conj_ofReal]
        · intro q _ hq
          rw [if_neg (by omega)]
        · intro hc
          exact absurd (Finset.mem_range.2 (by omega)) hc
      · rw [if_neg h]
        refine Finset.sum_eq_zero fun q hq => ?_
        have := Finset.mem_range.1 hq
        rw [if_neg (by omega)]
    rw [Finset.sum_congr rfl this, ← Finset.sum_filter]
    refine Finset.sum_congr ?_ fun _ _ => rfl
    ext p
    simp only [Finset.mem_filter, Finset.mem_range]
    omega
  · simp

/-- C55: for `2 ≤ p ≤ N`, `lpc(x, p)` returns `1, a_1 … a_{p-1}` and the prediction error
`e_n = x_n + a_1 x_{n-1} + … + a_{p-1} x_{n-p+1}` (null past); the `a_k` solve the Yule-Walker equations of the unbiased
autocorrelations of `x`, when the matrices of these equations are invertible. -/
theorem C55_lpc (x : List ℝ) (p : Nat) (hp : 2 ≤ p) (hpx : p ≤ x.length) (hx2 : x.length + 2 * p ≤ 2 ^ 29)
    (r : List ℝ) (hr : r = (List.range p).map (autocorr x)) (hd : ∀ m, 1 ≤ m → m < p → (toeplitz r r m).det ≠ 0) :
    ∃ a e, lpc trigoC (fun v : ℝ => (v : ℂ)) Complex.re x p = some (1 :: a, e) ∧ a.length = p - 1 ∧
      toeplitz r r (p - 1) *ᵥ vec a (p - 1) = (fun i => - autocorr x (i.val + 1)) ∧ e.length = x.length ∧
      ∀ n, n < x.length → e.getD n 0 = x.getD n 0 + ∑ k ∈ range (p - 1), a.getD k 0 * passe x n (k + 1) := by
  obtain ⟨c, e1, lc, g⟩ := covVec_some (x.map fun v : ℝ => (v : ℂ)) p (by omega) (by simpa using hpx) (by simpa using hx2)
  have hcr : c.map Complex.re = r := by
    refine List.ext_getElem (by simp [hr, lc]) fun t h1 h2 => ?_
    have ht : t < p := by simp [lc] at h1; exact h1
    have := g t ht
    rw [covEst_reel x t (by omega), List.getD_eq_getElem _ _ (by omega)] at this
    simp [hr, this]
  have lr : r.length = p := by simp [hr]
  obtain ⟨a, e2, la, ha⟩ := C28_reel r (p - 1) (by omega) (by omega) (fun m u v => hd m u (by omega))
  obtain ⟨s, y, e3, ly, gy⟩ := C19_convolution (1 :: a) (by simp) [x]
  simp only [enchaine, List.flatten_cons, List.flatten_nil, List.append_nil] at e3 ly gy
  cases e4 : Rif.step (0 : ℝ) (· + ·) (· * ·) (Rif.init 0 (1 :: a)) x with
  | none => rw [e4] at e3; simp at e3
  | some q =>
    obtain ⟨s', y'⟩ := q
    rw [e4] at e3
    simp at e3
    obtain ⟨-, hy⟩ := e3
    subst hy
    refine ⟨a, y', ?_, la, ?_, ly, fun n hn => ?_⟩
    · unfold lpc
      rw [e1]
      simp only []
      rw [hcr, e2]
      simp only []
      rw [e4]
    · rw [ha]
      funext i
      have hi := i.isLt
      rw [hr, List.getD_eq_getElem _ _ (by simp; omega)]
      simp
    · rw [List.getD_eq_getElem?_getD, gy n (by omega), Option.getD_some, convolution, List.length_cons, Finset.sum_range_succ', la]
      simp only [List.getD_cons_succ, List.getD_cons_zero, one_mul]
      rw [add_comm]
      simp [passe]

/-- C55: with `p = 1` the autocorrelation is read out of bounds. -/
theorem C55_ordre_nul (x : List ℝ) (hx : 1 ≤ x.length) (hx2 : x.length + 2 ≤ 2 ^ 29) :
    lpc trigoC (fun v : ℝ => (v : ℂ)) Complex.re x 1 = none := by
  obtain ⟨c, e1, lc, g⟩ := covVec_some (x.map fun v : ℝ => (v : ℂ)) 1 (by omega) (by simpa using hx) (by simpa using hx2)
  unfold lpc
  rw [show (1 : Int) = ((1 : Nat) : Int) from rfl, e1]
  simp only []
  rw [C28_reel_court _ (by simp [lc])]

example : ∀ m, 1 ≤ m → m < 2 → (toeplitz ((List.range 2).map (autocorr [1, 2, 3])) ((List.range 2).map (autocorr [1, 2, 3])) m).det ≠ 0 := by
  intro m h1 h2
  interval_cases m
  norm_num [toeplitz, autocorr, Finset.sum_range_succ]

end Verif.Stats
