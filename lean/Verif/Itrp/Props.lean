import Verif.Itrp.Model
import Mathlib.LinearAlgebra.Lagrange
import Mathlib.Data.List.GetD
import Mathlib.Tactic.LinearCombination
import Mathlib.Tactic.FieldSimp
import Mathlib.Tactic.IntervalCases
import Mathlib.Algebra.Order.Archimedean.Real.Basic

/-! # Properties of the interpolators (C32) and of the interpolation at arbitrary points (C56) -/

namespace Verif.Itrp

set_option linter.unusedSectionVars false

open Finset Polynomial

variable {K : Type} [Field K] [LinearOrder K] [IsStrictOrderedRing K] [FloorRing K]

/-! ## C32 -/

theorem stepBoucle_some (t k : Nat) (h x : List K) (hh : h.length = t) (hx : x.length = t) :
    ∀ nb i res, i + nb ≤ t → stepBoucle t k h x nb i res =
      some (res + ∑ j ∈ range nb, h.getD (i + j) 0 * x.getD ((i + j + k) % t) 0)
  | 0, i, res, _ => by simp [stepBoucle]
  | nb + 1, i, res, hi => by
    have h1 : h[i]? = some (h.getD i 0) := by rw [List.getElem?_eq_getElem (by omega), List.getD_eq_getElem _ _ (by omega)]
    have hm : (i + k) % t < x.length := by rw [hx]; exact Nat.mod_lt _ (by omega)
    have h2 : x[(i + k) % t]? = some (x.getD ((i + k) % t) 0) := by
      rw [List.getElem?_eq_getElem hm, List.getD_eq_getElem _ _ hm]
    rw [stepBoucle, h1, h2]
    simp only []
    rw [stepBoucle_some t k h x hh hx nb (i + 1) _ (by omega), Finset.sum_range_succ']
    simp only [Nat.add_zero]
    congr 1
    rw [Finset.sum_congr rfl fun j _ => by rw [show i + 1 + j = i + (j + 1) by omega]]
    ring

/-- C32: `step` on a circular window whose oldest sample is at index `k` is the scalar product of the coefficients with the window read
from its oldest sample. -/
theorem C32_step (h x : List K) (k : Nat) (hx : x.length = h.length) :
    step h.length h x k = some (∑ i ∈ range h.length, h.getD i 0 * x.getD ((i + k) % h.length) 0) := by
  unfold step
  rw [if_neg (by simp), stepBoucle_some _ _ _ _ rfl hx _ _ _ (by omega)]
  simp

theorem step_zero (h x : List K) (hx : x.length = h.length) :
    step h.length h x 0 = some (∑ i ∈ range h.length, h.getD i 0 * x.getD i 0) := by
  rw [C32_step h x 0 hx]
  congr 1
  refine Finset.sum_congr rfl fun i hi => ?_
  rw [Nat.add_zero, Nat.mod_eq_of_lt (Finset.mem_range.1 hi)]

theorem lagProd_eq (d : Nat) (t : K) (j : Nat) :
    lagProd d t j = ∏ k ∈ (range (d + 1)).erase j, (t - (k : K)) / ((j : K) - (k : K)) := by
  have key : ∀ n (p : K), (List.range n).foldl (fun p k => if k ≠ j then p * ((t - (k : K)) / ((j : K) - (k : K))) else p) p =
      p * ∏ k ∈ (range n).erase j, (t - (k : K)) / ((j : K) - (k : K)) := by
    intro n
    induction n with
    | zero => intro p; simp
    | succ n ih =>
      intro p
      rw [List.range_succ, List.foldl_append, ih, List.foldl_cons, List.foldl_nil, Finset.range_add_one]
      by_cases hn : n = j
      · subst hn
        rw [if_neg (by simp), Finset.erase_insert (by simp), Finset.erase_eq_of_notMem (by simp)]
      · rw [if_pos hn, Finset.erase_insert_of_ne hn, Finset.prod_insert (by simp)]
        ring
  unfold lagProd
  rw [key, one_mul]

theorem lag_basis (d : Nat) (t : K) (j : Nat) :
    lagProd d t j = (Lagrange.basis (range (d + 1)) (fun k : Nat => (k : K)) j).eval t := by
  rw [lagProd_eq, Lagrange.basis, Polynomial.eval_prod]
  refine Finset.prod_congr rfl fun k _ => ?_
  rw [Lagrange.basisDivisor]
  simp
  rw [div_eq_inv_mul]

/-- C32: the Lagrange interpolator of degree `d` reproduces every polynomial signal of degree at most `d`, at every fractional delay `τ`
(position `(d-1)/2 + τ` after the oldest sample of the window). -/
theorem C32_lagrange (d : Nat) (τ : K) (P : K[X]) (hP : P.natDegree ≤ d) :
    step (d + 1) (coefsLagrange d τ) ((List.range (d + 1)).map fun i : Nat => P.eval (i : K)) 0 =
      some (P.eval (((d : K) - 1) / 2 + τ)) := by
  have hl : (coefsLagrange d τ).length = d + 1 := by simp [coefsLagrange]
  have := step_zero (coefsLagrange d τ) ((List.range (d + 1)).map fun i : Nat => P.eval (i : K)) (by simp [hl])
  rw [hl] at this
  rw [this]
  congr 1
  have hinj : Set.InjOn (fun k : Nat => (k : K)) (range (d + 1) : Finset Nat) := fun a _ b _ h => Nat.cast_injective h
  have hdeg : P.degree < (range (d + 1)).card := by
    rw [Finset.card_range]
    exact lt_of_le_of_lt Polynomial.degree_le_natDegree (by exact_mod_cast Nat.lt_succ_of_le hP)
  conv_rhs => rw [Lagrange.eq_interpolate hinj hdeg, Lagrange.interpolate_apply, Polynomial.eval_finsetSum]
  refine Finset.sum_congr rfl fun i hi => ?_
  have hi := Finset.mem_range.1 hi
  rw [List.getD_eq_getElem _ _ (show i < (coefsLagrange d τ).length by omega), List.getD_eq_getElem _ _ (by simpa using hi)]
  simp only [coefsLagrange, List.getElem_map, List.getElem_range, Polynomial.eval_mul, Polynomial.eval_C]
  rw [lag_basis]
  ring

/-- C32: the linear interpolator is the Lagrange interpolator of degree 1. -/
theorem C32_lineaire (τ : K) : coefsLin τ = coefsLagrange 1 τ := by
  simp [coefsLin, coefsLagrange, List.range_succ, lagProd]
  ring

/-- C32: the linear interpolator reproduces affine signals and gives back the nodes. -/
theorem C32_lineaire_affine (a b τ : K) : step 2 (coefsLin τ) [a, a + b] 0 = some (a + b * τ) ∧
    step 2 (coefsLin 0) [a, b] 0 = some a ∧ step 2 (coefsLin 1) [a, b] 0 = some b := by
  simp [step, stepBoucle, coefsLin]
  ring

theorem coefsCspline_some (τ : K) (h0 : 0 ≤ τ) (h1 : τ ≤ 1) :
    coefsCspline τ = some (csplineFiltre ((⌊τ * 256⌋ : K) / 256) 0) := by
  have hp : 0 ≤ τ * 256 := by positivity
  have hf0 : 0 ≤ ⌊τ * 256⌋ := Int.floor_nonneg.2 hp
  have hf1 : ⌊τ * 256⌋ ≤ 256 := by
    have : τ * 256 < ((257 : Int) : K) := by push_cast; linarith
    have := Int.floor_lt.2 this
    omega
  unfold coefsCspline tronque
  simp only [if_pos hp]
  rw [if_pos ⟨hf0, hf1⟩]
  have hlt : ⌊τ * 256⌋.toNat < 256 + 1 := by omega
  have gen : ∀ (n i : Nat), i < n + 1 → (csplineLut n (0 : K))[i]? = some (csplineFiltre ((i : K) / (n : K)) 0) := by
    intro n i hi
    simp [csplineLut, hi]
  rw [gen 256 _ hlt]
  congr 2
  have : ((⌊τ * 256⌋.toNat : Nat) : K) = (⌊τ * 256⌋ : K) := by
    have h := Int.toNat_of_nonneg hf0
    calc ((⌊τ * 256⌋.toNat : Nat) : K) = (((⌊τ * 256⌋.toNat : Nat) : Int) : K) := by push_cast; rfl
      _ = _ := by rw [h]
  rw [this]
  norm_num

theorem cspline_quadratique (t a b c : K) :
    step 4 (csplineFiltre t 0) [a - b + c, a, a + b + c, a + 2 * b + 4 * c] 0 = some (a + b * t + c * t ^ 2) := by
  simp [step, stepBoucle, csplineFiltre, csplineCalc]
  ring

/-- C32: the spline interpolator gives back the nodes at the delays 0 and 1. -/
theorem C32_cspline_noeuds (a b c d : K) : (coefsCspline (0 : K)).bind (fun h => step 4 h [a, b, c, d] 0) = some b ∧
    (coefsCspline (1 : K)).bind (fun h => step 4 h [a, b, c, d] 0) = some c := by
  rw [coefsCspline_some 0 le_rfl zero_le_one, coefsCspline_some 1 zero_le_one le_rfl]
  have e : ⌊(1 : K) * 256⌋ = 256 := by rw [one_mul]; exact_mod_cast Int.floor_natCast (R := K) 256
  rw [e]
  simp [step, stepBoucle, csplineFiltre, csplineCalc]
  norm_num

/-- C32: for every delay `τ` of `[0, 1]`, the spline interpolator evaluates every signal of degree at most 2 exactly, at the delay `τ` rounded
down to a multiple of 1/256; in particular it reproduces them at the delays multiple of 1/256. -/
theorem C32_cspline_partial (τ a b c : K) (h0 : 0 ≤ τ) (h1 : τ ≤ 1) :
    ∃ τ', 0 ≤ τ' ∧ τ' ≤ τ ∧ τ - τ' < 1 / 256 ∧ (∀ i : Nat, τ = (i : K) / 256 → τ' = τ) ∧
      (coefsCspline τ).bind (fun h => step 4 h [a - b + c, a, a + b + c, a + 2 * b + 4 * c] 0) = some (a + b * τ' + c * τ' ^ 2) := by
  have hp : 0 ≤ τ * 256 := by positivity
  refine ⟨(⌊τ * 256⌋ : K) / 256, ?_, ?_, ?_, fun i hi => ?_, ?_⟩
  · have : (0 : K) ≤ (⌊τ * 256⌋ : K) := by exact_mod_cast Int.floor_nonneg.2 hp
    positivity
  · rw [div_le_iff₀ (by norm_num)]; exact Int.floor_le _
  · have := Int.lt_floor_add_one (τ * 256)
    rw [sub_lt_iff_lt_add, ← add_div, lt_div_iff₀ (by norm_num)]
    linarith
  · rw [hi, div_mul_cancel₀ _ (by norm_num), Int.floor_natCast, Int.cast_natCast]
  · rw [coefsCspline_some τ h0 h1, Option.bind_some, cspline_quadratique]

/-- C32, refuted for the splines at the other delays: the ramp `-1, 0, 1, 2` at the delay 1/512 gives 0. -/
theorem C32_cspline_refute : (coefsCspline (1 / 512 : K)).bind (fun h => step 4 h [-1, 0, 1, 2] 0) = some 0 := by
  rw [coefsCspline_some _ (by norm_num) (by norm_num)]
  have : ⌊(1 / 512 : K) * 256⌋ = 0 := by
    rw [Int.floor_eq_zero_iff]
    constructor <;> norm_num
  rw [this]
  simp [step, stepBoucle, csplineFiltre, csplineCalc]

/-- C32: delays above 1 + 1/256 and below -1/256 are rejected by the spline interpolator. -/
theorem C32_cspline_rejets (τ : K) (h : 1 + 1 / 256 ≤ τ ∨ τ ≤ -1 / 256) : coefsCspline τ = none := by
  unfold coefsCspline tronque
  rcases h with h | h
  · have hp : 0 ≤ τ * 256 := by
      have : (0 : K) ≤ τ := le_trans (by norm_num) h
      positivity
    simp only [if_pos hp]
    rw [if_neg]
    rintro ⟨-, h2⟩
    have h3 : ((257 : Int) : K) ≤ τ * 256 := by push_cast; linarith
    have := Int.le_floor.2 h3
    omega
  · have hp : ¬ 0 ≤ τ * 256 := by rw [not_le]; linarith
    simp only [if_neg hp]
    rw [if_neg]
    rintro ⟨h2, -⟩
    have h3 : τ * 256 ≤ ((-1 : Int) : K) := by push_cast; linarith
    have := Int.ceil_le.2 h3
    omega

example : step 4 (coefsLagrange 3 (1 / 2 : ℚ)) [0, 1, 8, 27] 0 = some (27 / 8) := by
  norm_num [step, stepBoucle, coefsLagrange, List.range_succ, lagProd]

end Verif.Itrp
