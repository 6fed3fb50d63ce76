import Verif.Itrp.Model
import Mathlib.Algebra.Polynomial.Derivative
import Mathlib.Algebra.Polynomial.Degree.Lemmas
import Mathlib.Tactic.ComputeDegree
import Mathlib.Tactic.IntervalCases
import Mathlib.Data.List.GetD
import Mathlib.Tactic.LinearCombination
import Mathlib.Tactic.FieldSimp
import Mathlib.Tactic.Linarith

/-! # Interpolation at arbitrary points: specification and proofs (C56) -/

namespace Verif.Itrp

set_option linter.unusedSectionVars false

open Polynomial

variable {K : Type} [Field K] [LinearOrder K] [IsStrictOrderedRing K] [FloorRing K]

/-! ## Specification -/

/-- `r` is the value at `v` of the function defined by the points `(x_k, y_k)`: constant outside of the range of the points, and `f k`
between the points `k` and `k + 1`. -/
def Interpole (x y : List K) (f : Nat → K → K) (v r : K) : Prop :=
  (v ≤ x.getD 0 0 ∧ r = y.getD 0 0) ∨ (x.getD 0 0 < v ∧ x.getD (x.length - 1) 0 ≤ v ∧ r = y.getD (x.length - 1) 0) ∨
    (x.getD 0 0 < v ∧ v < x.getD (x.length - 1) 0 ∧ ∃ k, k + 1 < x.length ∧ x.getD k 0 < v ∧ v ≤ x.getD (k + 1) 0 ∧ r = f k v)

/-- The straight line through the points `k` and `k + 1`. -/
def droite (x y : List K) (k : Nat) (v : K) : K :=
  y.getD k 0 + (v - x.getD k 0) * ((y.getD (k + 1) 0 - y.getD k 0) / (x.getD (k + 1) 0 - x.getD k 0))

/-- `S_0 … S_{n-1}` are the pieces of a natural cubic spline through the points: cubic, through the points, with continuous first and second
derivatives, and with null second derivatives at both ends. -/
structure SplineNaturelle (x y : List K) (n : Nat) (S : Nat → K[X]) : Prop where
  degre : ∀ k, k < n → (S k).natDegree ≤ 3
  gauche : ∀ k, k < n → (S k).eval (x.getD k 0) = y.getD k 0
  droite : ∀ k, k < n → (S k).eval (x.getD (k + 1) 0) = y.getD (k + 1) 0
  pente : ∀ k, k + 1 < n → (derivative (S k)).eval (x.getD (k + 1) 0) = (derivative (S (k + 1))).eval (x.getD (k + 1) 0)
  courbure : ∀ k, k + 1 < n →
    (derivative (derivative (S k))).eval (x.getD (k + 1) 0) = (derivative (derivative (S (k + 1)))).eval (x.getD (k + 1) 0)
  debut : (derivative (derivative (S 0))).eval (x.getD 0 0) = 0
  fin : (derivative (derivative (S (n - 1)))).eval (x.getD n 0) = 0

/-! ## Search and loop -/

theorem get_some (x : List K) (i : Nat) (h : i < x.length) : x[i]? = some (x.getD i 0) := by
  rw [List.getElem?_eq_getElem h, List.getD_eq_getElem _ _ h]

theorem cherche_some (x : List K) (v : K) (hv : v ≤ x.getD (x.length - 1) 0) : ∀ fuel j, j < x.length → x.length < fuel + j →
    ∃ j', cherche x v fuel j = some j' ∧ j ≤ j' ∧ j' < x.length ∧ v ≤ x.getD j' 0 ∧ ∀ l, j ≤ l → l < j' → x.getD l 0 < v
  | 0, j, h1, h2 => by omega
  | fuel + 1, j, h1, h2 => by
    unfold cherche
    rw [get_some x j h1]
    simp only []
    by_cases h : x.getD j 0 < v
    · rw [if_pos h]
      have hj : j + 1 < x.length := by
        by_contra hc
        have : j = x.length - 1 := by omega
        rw [this] at h
        exact absurd hv (not_le.2 h)
      obtain ⟨j', e, a, b, c, d⟩ := cherche_some x v hv fuel (j + 1) hj (by omega)
      refine ⟨j', e, by omega, b, c, fun l l1 l2 => ?_⟩
      by_cases hl : l = j
      · rw [hl]; exact h
      · exact d l (by omega) l2
    · rw [if_neg h]
      exact ⟨j, rfl, le_rfl, h1, not_lt.1 h, fun l _ _ => by omega⟩

theorem parcours_some (x y : List K) (hl : x.length = y.length) (h0 : 0 < x.length) (eval : Nat → K → Option K) (f : Nat → K → K)
    (he : ∀ k v, k + 1 < x.length → x.getD k 0 < v → v ≤ x.getD (k + 1) 0 → eval k v = some (f k v)) :
    ∀ x2 j, x2.Pairwise (· ≤ ·) → j < x.length → (∀ v ∈ x2, ∀ l, l < j → x.getD l 0 < v) →
      ∃ r, parcours x y eval x2 j = some r ∧ List.Forall₂ (Interpole x y f) x2 r
  | [], j, _, _, _ => ⟨[], rfl, List.Forall₂.nil⟩
  | v :: x2, j, hs, hj, hi => by
    have hs' := List.pairwise_cons.1 hs
    unfold parcours
    rw [get_some x 0 h0, get_some y 0 (by omega), get_some x _ (by omega), get_some y (x.length - 1) (by omega)]
    simp only []
    by_cases h1 : v ≤ x.getD 0 0
    · obtain ⟨r, e, g⟩ := parcours_some x y hl h0 eval f he x2 j hs'.2 hj fun w hw l hl => hi w (List.mem_cons_of_mem _ hw) l hl
      rw [if_pos h1, e]
      exact ⟨_, rfl, List.Forall₂.cons (.inl ⟨h1, rfl⟩) g⟩
    · rw [if_neg h1]
      have h1 := not_le.1 h1
      by_cases h2 : v ≥ x.getD (x.length - 1) 0
      · obtain ⟨r, e, g⟩ := parcours_some x y hl h0 eval f he x2 j hs'.2 hj fun w hw l hl => hi w (List.mem_cons_of_mem _ hw) l hl
        rw [if_pos h2, e]
        exact ⟨_, rfl, List.Forall₂.cons (.inr (.inl ⟨h1, h2, rfl⟩)) g⟩
      · rw [if_neg h2]
        have h2 := not_le.1 h2
        obtain ⟨j', e, a, b, c, d⟩ := cherche_some x v h2.le (x.length + 1) j hj (by omega)
        rw [e]
        cases j' with
        | zero => exact absurd c (not_le.2 h1)
        | succ k =>
          have hlt : ∀ l, l < k + 1 → x.getD l 0 < v := by
            intro l hl
            by_cases hlj : l < j
            · exact hi v (by simp) l hlj
            · exact d l (by omega) hl
          simp only []
          rw [he k v b (hlt k (by omega)) c]
          simp only []
          obtain ⟨r, e2, g⟩ := parcours_some x y hl h0 eval f he x2 (k + 1) hs'.2 b
            fun w hw l hl => lt_of_lt_of_le (hlt l hl) (hs'.1 w hw)
          rw [e2]
          exact ⟨_, rfl, List.Forall₂.cons (.inr (.inr ⟨h1, h2, k, b, hlt k (by omega), c, rfl⟩)) g⟩

/-! ## C56 -/

/-- C56: `interp` in linear mode, for a non-empty set of points and increasing output abscissas: every output is on the segment between the
two points around its abscissa (constant outside of the range). -/
theorem C56_lineaire (x y x2 : List K) (hl : x.length = y.length) (h0 : 0 < x.length) (hs : x2.Pairwise (· ≤ ·)) :
    ∃ r, interp x y x2 false = some r ∧ List.Forall₂ (Interpole x y (droite x y)) x2 r := by
  unfold interp
  rw [if_neg (by simpa using hl)]
  simp only [Bool.false_eq_true, if_false]
  refine parcours_some x y hl h0 _ _ (fun k v hk h1 h2 => ?_) x2 0 hs h0 (fun _ _ l h => by omega)
  unfold evalLin
  rw [get_some x k (by omega), get_some x (k + 1) hk, get_some y k (by omega), get_some y (k + 1) (by omega)]
  simp only [droite]
  have hne : x.getD (k + 1) 0 - x.getD k 0 ≠ 0 := sub_ne_zero.2 (lt_of_lt_of_le h1 h2).ne'
  congr 1
  field_simp
  ring

/-- Strictly increasing abscissas. -/
def Croissant (x : List K) : Prop := ∀ i j, i < j → j < x.length → x.getD i 0 < x.getD j 0

theorem croissant_le {x : List K} (h : Croissant x) {i j : Nat} (hij : i ≤ j) (hj : j < x.length) : x.getD i 0 ≤ x.getD j 0 := by
  rcases Nat.lt_or_eq_of_le hij with h1 | h1
  · exact (h i j h1 hj).le
  · rw [h1]

/-- C56: for strictly increasing abscissas, both modes give back the points themselves (`f` is any family of functions through the points). -/
theorem C56_noeuds (x y : List K) (f : Nat → K → K) (hx : Croissant x) (hf : ∀ k, k + 1 < x.length → f k (x.getD (k + 1) 0) = y.getD (k + 1) 0)
    (i : Nat) (hi : i < x.length) (r : K) (h : Interpole x y f (x.getD i 0) r) : r = y.getD i 0 := by
  rcases h with ⟨h1, h2⟩ | ⟨h1, h2, h3⟩ | ⟨h1, h2, k, hk, h3, h4, h5⟩
  · have : i = 0 := by
      by_contra hc
      exact absurd h1 (not_le.2 (hx 0 i (by omega) hi))
    rw [h2, this]
  · have : i = x.length - 1 := by
      by_contra hc
      exact absurd h2 (not_le.2 (hx i (x.length - 1) (by omega) (by omega)))
    rw [h3, ← this]
  · have : i = k + 1 := by
      rcases Nat.lt_trichotomy i (k + 1) with h | h | h
      · exact absurd h3 (not_lt.2 (croissant_le hx (by omega) (by omega)))
      · exact h
      · exact absurd h4 (not_le.2 (hx _ _ h hi))
    rw [h5, this, hf k hk]

/-! ### The spline -/

theorem diff_pos {x : List K} (hx : Croissant x) (i : Nat) (hi : i + 1 < x.length) : 0 < diff x i :=
  sub_pos.2 (hx i (i + 1) (by omega) hi)

/-- The pivots of the elimination are positive and `U` is in `[0, 1)`. -/
theorem splU (x y : List K) (hx : Croissant x) : ∀ i, i + 1 < x.length → 0 ≤ (splUZ x y i).1 ∧ (splUZ x y i).1 < 1
  | 0, _ => by simp [splUZ]
  | i + 1, hi => by
    obtain ⟨h0, h1⟩ := splU x y hx i (by omega)
    have d0 := diff_pos hx i (by omega)
    have d1 := diff_pos hx (i + 1) hi
    have hd : x.getD (i + 2) 0 - x.getD i 0 = diff x (i + 1) + diff x i := by unfold diff; ring
    have hL : diff x (i + 1) < 2 * (x.getD (i + 2) 0 - x.getD i 0) - diff x i * (splUZ x y i).1 := by
      rw [hd]; nlinarith
    simp only [splUZ]
    constructor
    · exact div_nonneg d1.le (le_of_lt (lt_trans d1 hL))
    · rw [div_lt_one (lt_trans d1 hL)]; exact hL

theorem splL (x y : List K) (hx : Croissant x) (i : Nat) (hi : i + 2 < x.length) :
    2 * (x.getD (i + 2) 0 - x.getD i 0) - diff x i * (splUZ x y i).1 ≠ 0 := by
  obtain ⟨h0, h1⟩ := splU x y hx i (by omega)
  have d0 := diff_pos hx i (by omega)
  have d1 := diff_pos hx (i + 1) hi
  have hd : x.getD (i + 2) 0 - x.getD i 0 = diff x (i + 1) + diff x i := by unfold diff; ring
  have : 0 < 2 * (x.getD (i + 2) 0 - x.getD i 0) - diff x i * (splUZ x y i).1 := by rw [hd]; nlinarith
  exact this.ne'

theorem splC_fin (x y : List K) (n : Nat) : splC x y n n = 0 := by simp [splC, splCrev]

theorem splC_rec (x y : List K) (n i : Nat) (hi : i < n) : splC x y n i = (splUZ x y i).2 - (splUZ x y i).1 * splC x y n (i + 1) := by
  unfold splC
  obtain ⟨m, hm⟩ : ∃ m, n - i = m + 1 := ⟨n - i - 1, by omega⟩
  rw [hm, splCrev, show n - (m + 1) = i by omega, show n - (i + 1) = m by omega]

theorem splC_debut (x y : List K) (n : Nat) : splC x y n 0 = 0 := by
  cases n with
  | zero => exact splC_fin x y 0
  | succ n => rw [splC_rec x y _ 0 (by omega)]; simp [splUZ]

/-- The tridiagonal system is solved. -/
theorem spl_systeme (x y : List K) (hx : Croissant x) (n i : Nat) (hn : n + 1 = x.length) (hi : i + 1 < n) :
    diff x i * splC x y n i + 2 * (diff x i + diff x (i + 1)) * splC x y n (i + 1) + diff x (i + 1) * splC x y n (i + 2) =
      splY x y (i + 1) := by
  have e0 := splC_rec x y n i (by omega)
  have e1 := splC_rec x y n (i + 1) (by omega)
  have hL := splL x y hx i (by omega)
  have hd : x.getD (i + 2) 0 - x.getD i 0 = diff x (i + 1) + diff x i := by unfold diff; ring
  simp only [splUZ] at e1
  rw [hd] at e1 hL
  generalize splC x y n i = c0 at *
  generalize splC x y n (i + 1) = c1 at *
  generalize splC x y n (i + 1 + 1) = c2 at *
  generalize (splUZ x y i).1 = u at *
  generalize (splUZ x y i).2 = z at *
  have e2 : c1 * (2 * (diff x (i + 1) + diff x i) - diff x i * u) = splY x y (i + 1) - diff x i * z - diff x (i + 1) * c2 := by
    rw [e1]
    field_simp
  linear_combination e2 + diff x i * e0

/-- The piece `k` of the spline computed by the code, as a polynomial of the abscissa. -/
noncomputable def piece (x y : List K) (n k : Nat) : K[X] :=
  (C (y.getD k 0) + C (splB x y n k) * X + C (splC x y n k) * X ^ 2 + C (splD x y n k) * X ^ 3).comp (X - C (x.getD k 0))

theorem piece_eval (x y : List K) (n k : Nat) (v : K) : (piece x y n k).eval v = y.getD k 0 + splB x y n k * (v - x.getD k 0) +
    splC x y n k * (v - x.getD k 0) ^ 2 + splD x y n k * (v - x.getD k 0) ^ 3 := by
  simp [piece]

theorem piece_d1 (x y : List K) (n k : Nat) (v : K) : (derivative (piece x y n k)).eval v = splB x y n k +
    2 * splC x y n k * (v - x.getD k 0) + 3 * splD x y n k * (v - x.getD k 0) ^ 2 := by
  unfold piece
  rw [derivative_comp]
  simp
  ring

theorem piece_d2 (x y : List K) (n k : Nat) (v : K) : (derivative (derivative (piece x y n k))).eval v =
    2 * splC x y n k + 6 * splD x y n k * (v - x.getD k 0) := by
  unfold piece
  rw [derivative_comp, derivative_mul, derivative_comp]
  simp
  ring

theorem piece_spline (x y : List K) (hx : Croissant x) (n : Nat) (hn : n + 1 = x.length) (h1 : 1 ≤ n) :
    SplineNaturelle x y n (piece x y n) := by
  have hd : ∀ k, k < n → x.getD (k + 1) 0 - x.getD k 0 = diff x k ∧ diff x k ≠ 0 :=
    fun k hk => ⟨rfl, (diff_pos hx k (by omega)).ne'⟩
  refine ⟨fun k hk => ?_, fun k hk => ?_, fun k hk => ?_, fun k hk => ?_, fun k hk => ?_, ?_, ?_⟩
  · unfold piece
    refine le_trans Polynomial.natDegree_comp_le ?_
    rw [Polynomial.natDegree_X_sub_C, mul_one]
    compute_degree
  · rw [piece_eval]; ring
  · obtain ⟨e, hne⟩ := hd k hk
    rw [piece_eval, e, splB, splD]
    field_simp
    ring
  · obtain ⟨e, hne⟩ := hd k (by omega)
    obtain ⟨e', hne'⟩ := hd (k + 1) (by omega)
    have sys := spl_systeme x y hx n k hn hk
    rw [piece_d1, piece_d1, e, sub_self, splB, splB, splD]
    rw [splY, Nat.add_sub_cancel] at sys
    generalize splC x y n k = c0 at *
    generalize splC x y n (k + 1 + 1) = c2 at *
    generalize splC x y n (k + 1) = c1 at *
    field_simp at sys ⊢
    linear_combination sys
  · obtain ⟨e, hne⟩ := hd k (by omega)
    rw [piece_d2, piece_d2, e, sub_self, splD]
    field_simp
    ring
  · rw [piece_d2, splC_debut, sub_self]; ring
  · have e := (hd (n - 1) (by omega)).1
    have hne := (hd (n - 1) (by omega)).2
    rw [show n - 1 + 1 = n by omega] at e
    rw [piece_d2, e, splD, show n - 1 + 1 = n by omega, splC_fin]
    field_simp
    ring

/-- C56: `interp` in spline mode, for at least two points of strictly increasing abscissas and increasing output abscissas: the outputs are the
values of a natural cubic spline through the points (constant outside of the range). -/
theorem C56_spline (x y x2 : List K) (n : Nat) (hn : x.length = n + 1) (h1 : 1 ≤ n) (hl : x.length = y.length) (hx : Croissant x)
    (hs : x2.Pairwise (· ≤ ·)) :
    ∃ S, SplineNaturelle x y n S ∧
      ∃ r, interp x y x2 true = some r ∧ List.Forall₂ (Interpole x y fun k v => (S k).eval v) x2 r := by
  refine ⟨piece x y n, piece_spline x y hx n hn.symm h1, ?_⟩
  unfold interp
  rw [if_neg (by simpa using hl)]
  simp only [if_true]
  rw [if_neg (by omega)]
  refine parcours_some x y hl (by omega) _ _ (fun k v hk h1 h2 => ?_) x2 0 hs (by omega) (fun _ _ l h => by omega)
  unfold evalSpl
  rw [show x.length - 1 = n by omega]
  simp only []
  rw [if_pos (by omega), piece_eval]
  congr 1
  ring

/-- C56: a single point gives a constant, in both modes. -/
theorem C56_un_point (a b : K) (x2 : List K) (mode : Bool) : interp [a] [b] x2 mode = some (x2.map fun _ => b) := by
  have key : ∀ eval j, parcours [a] [b] eval x2 j = some (x2.map fun _ => b) := by
    intro eval j
    induction x2 with
    | nil => rfl
    | cons v x2 ih =>
      unfold parcours
      simp only [List.getElem?_cons_zero, List.length_singleton, Nat.sub_self]
      rw [ih]
      by_cases h : v ≤ a
      · rw [if_pos h]; rfl
      · rw [if_neg h, if_pos (not_le.1 h).le]; rfl
  unfold interp
  cases mode <;> simp [key]

/-- C56: vectors of different sizes are rejected. -/
theorem C56_rejets (x y x2 : List K) (mode : Bool) (h : x.length ≠ y.length) : interp x y x2 mode = none := by
  unfold interp
  rw [if_pos h]

/-- C56: increasing output abscissas are really needed: with a decreasing pair, the second value is extrapolated from the wrong interval. -/
theorem C56_desordre : interp [0, 1, 2] [0, 0, 1] [3 / 2, 1 / 2] false = some [1 / 2, -1 / 2] (α := List ℚ) := by
  norm_num [interp, parcours, cherche, evalLin]

example : Croissant [(0 : ℚ), 1, 3] ∧ [(1 / 2 : ℚ), 1, 2].Pairwise (· ≤ ·) := by
  refine ⟨fun i j h1 h2 => ?_, by norm_num⟩
  simp at h2
  interval_cases j <;> interval_cases i <;> simp

end Verif.Itrp
