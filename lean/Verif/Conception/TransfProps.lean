/-
C83: transformations of FIR filters (cascade, spectral reflection, spectral inversion, type).  C84: FIR differentiators.

Specification: `reponse h ν` is the frequency response of the FIR filter `h` at the normalised frequency `ν`; `Filtre.convolution h x n` (C19) is
what the filter outputs at time `n` for the input `x`.
-/
import Verif.Conception.RifProps
import Verif.Filtre.Props
import Mathlib.Algebra.Polynomial.Coeff

namespace Verif.Conception

open Finset Verif.Fourier

/-- Specification: frequency response of a FIR filter. -/
noncomputable def reponse (h : List ℝ) (ν : ℝ) : ℂ := ∑ k ∈ range h.length, (h.getD k 0 : ℂ) * Complex.exp (-(2 * Real.pi * Complex.I) * ν * k)

/-! ### Cascade -/

theorem rif_step_some (c : List ℝ) (hc : 0 < c.length) (x : List ℝ) :
    ∃ s y, Filtre.Rif.step (0 : ℝ) (· + ·) (· * ·) (Filtre.Rif.init 0 c) x = some (s, y) ∧ y.length = x.length ∧
      ∀ n, n < x.length → y.getD n 0 = Filtre.convolution c x n := by
  obtain ⟨s, y, e, l, g⟩ := Filtre.C19_convolution c hc [x]
  simp only [List.flatten_cons, List.flatten_nil, List.append_nil] at l g
  unfold Filtre.enchaine at e
  cases hst : Filtre.Rif.step (0 : ℝ) (· + ·) (· * ·) (Filtre.Rif.init 0 c) x with
  | none => rw [hst] at e; simp at e
  | some p =>
    obtain ⟨s', y'⟩ := p
    rw [hst] at e
    simp [Filtre.enchaine] at e
    obtain ⟨rfl, rfl⟩ := e
    refine ⟨_, _, rfl, l, fun n hn => ?_⟩
    rw [List.getD_eq_getElem?_getD, g n (by omega)]
    rfl

open Polynomial in
/-- The polynomial of the coefficients of a filter (proof device). -/
noncomputable def pol (l : List ℝ) : ℝ[X] := ∑ k ∈ range l.length, C (l.getD k 0) * X ^ k

theorem pol_coeff (l : List ℝ) (n : ℕ) : (pol l).coeff n = l.getD n 0 := by
  unfold pol
  simp only [Polynomial.finsetSum_coeff, Polynomial.coeff_C_mul, Polynomial.coeff_X_pow, mul_ite, mul_one, mul_zero]
  by_cases h : n < l.length
  · rw [Finset.sum_eq_single_of_mem n (by simpa using h) fun b _ hb => by simp [Ne.symm hb]]
    simp
  · rw [Finset.sum_eq_zero fun b hb => by rw [Finset.mem_range] at hb; rw [if_neg (by omega)], List.getD_eq_default _ _ (by omega)]

theorem convolution_coeff (c x : List ℝ) (n : ℕ) : Filtre.convolution c x n = (pol c * pol x).coeff n := by
  rw [Polynomial.coeff_mul, Finset.Nat.sum_antidiagonal_eq_sum_range_succ_mk]
  simp only [pol_coeff]
  unfold Filtre.convolution Filtre.passe
  have key : ∀ N, (∀ k, N ≤ k → c.getD k 0 * (if k ≤ n then x.getD (n - k) 0 else 0) = 0) →
      ∑ k ∈ range N, c.getD k 0 * (if k ≤ n then x.getD (n - k) 0 else 0) =
        ∑ k ∈ range (max c.length (n + 1)), c.getD k 0 * (if k ≤ n then x.getD (n - k) 0 else 0) := by
    intro N hN
    by_cases h : N ≤ max c.length (n + 1)
    · refine Finset.sum_subset (fun a ha => ?_) fun k _ hk => hN k (by simpa using hk)
      rw [Finset.mem_range] at ha ⊢
      omega
    · refine (Finset.sum_subset (fun a ha => ?_) fun k _ hk => ?_).symm
      · rw [Finset.mem_range] at ha ⊢
        omega
      · rw [Finset.mem_range] at hk
        rw [if_neg (by omega), mul_zero]
  rw [key c.length fun k hk => by rw [List.getD_eq_default _ _ hk, zero_mul]]
  rw [← key (n + 1) fun k hk => by rw [if_neg (by omega), mul_zero]]
  refine Finset.sum_congr rfl fun k hk => ?_
  rw [Finset.mem_range] at hk
  rw [if_pos (by omega)]

theorem pol_eval (h : List ℝ) (z : ℂ) : Polynomial.eval₂ (algebraMap ℝ ℂ) z (pol h) = ∑ k ∈ range h.length, (h.getD k 0 : ℂ) * z ^ k := by
  unfold pol
  rw [Polynomial.eval₂_finsetSum]
  simp [Polynomial.eval₂_mul]

theorem reponse_pol (h : List ℝ) (ν : ℝ) :
    reponse h ν = Polynomial.eval₂ (algebraMap ℝ ℂ) (Complex.exp (-(2 * Real.pi * Complex.I) * ν)) (pol h) := by
  rw [pol_eval]
  unfold reponse
  refine Finset.sum_congr rfl fun k _ => ?_
  rw [← Complex.exp_nat_mul]
  congr 2
  ring

/-- **C83 (cascade).**  `design_rif_prod(h1, h2)` has `n1 + n2 - 1` coefficients, the filter has as response the product of the responses of the
two filters, and filtering any signal by it is filtering it by `h2`, then by `h1`. -/
theorem C83_produit (h1 h2 : List ℝ) (l1 : 0 < h1.length) (l2 : 0 < h2.length) :
    ∃ h, rifProd h1 h2 = some h ∧ h.length = h1.length + h2.length - 1 ∧
      (∀ ν, reponse h ν = reponse h1 ν * reponse h2 ν) ∧
      ∀ (x : List ℝ) (n : ℕ), n < x.length →
        Filtre.convolution h x n = Filtre.convolution h1 ((List.range x.length).map (Filtre.convolution h2 x)) n := by
  obtain ⟨s, y, e, l, g⟩ := rif_step_some h1 l1 (h2 ++ List.replicate (h1.length - 1) 0)
  have hpad : pol (h2 ++ List.replicate (h1.length - 1) 0) = pol h2 := by
    ext n
    rw [pol_coeff, pol_coeff, List.getD_eq_getElem?_getD, List.getD_eq_getElem?_getD, List.getElem?_append]
    split
    · rfl
    · rename_i hn
      rw [List.getElem?_replicate, List.getElem?_eq_none (l := h2) (by omega)]
      split <;> rfl
  have ll : y.length = h1.length + h2.length - 1 := by rw [l]; simp; omega
  have hp : pol y = pol h1 * pol h2 := by
    ext n
    rw [pol_coeff]
    by_cases hn : n < y.length
    · rw [g n (by rw [← l]; exact hn), convolution_coeff, hpad]
    · rw [List.getD_eq_default _ _ (by omega), Polynomial.coeff_mul]
      symm
      refine Finset.sum_eq_zero fun p hp => ?_
      rw [Finset.mem_antidiagonal] at hp
      rw [pol_coeff, pol_coeff]
      by_cases h : p.1 < h1.length
      · rw [List.getD_eq_default (l := h2) _ (by omega), mul_zero]
      · rw [List.getD_eq_default (l := h1) _ (by omega), zero_mul]
  refine ⟨y, by rw [rifProd, if_neg (by omega), e]; rfl, ll, fun ν => ?_, fun x n hn => ?_⟩
  · rw [reponse_pol, reponse_pol, reponse_pol, hp, Polynomial.eval₂_mul]
  · rw [convolution_coeff, convolution_coeff, hp, mul_assoc, Polynomial.coeff_mul, Polynomial.coeff_mul]
    refine Finset.sum_congr rfl fun p hp => ?_
    rw [Finset.mem_antidiagonal] at hp
    rw [pol_coeff ((List.range x.length).map _), List.getD_eq_getElem _ _ (by simp; omega), List.getElem_map, List.getElem_range,
      convolution_coeff]

example : ∃ h, rifProd [1, 1] [1, -1] = some h ∧ h.length = 3 := by
  obtain ⟨h, e, l, -⟩ := C83_produit [1, 1] [1, -1] (by simp) (by simp)
  exact ⟨h, e, by simpa using l⟩

/-! ### Types of FIR filters -/

theorem estApprox_self (a : List ℝ) (t : ℝ) : estApprox a a t = true := by
  have h0 : ∀ l : List ℝ, (List.zipWith (fun u v : ℝ => u - v) l l).map (fun v : ℝ => v * v) = List.replicate l.length 0 := by
    intro l
    induction l with
    | nil => rfl
    | cons a l ih => simp [List.replicate_succ]
  have hp : 0 ≤ (a.map fun v : ℝ => v * v).sum := List.sum_nonneg (by simp only [List.mem_map]; rintro _ ⟨v, -, rfl⟩; exact mul_self_nonneg v)
  simp only [estApprox, decide_eq_true_eq, h0, List.sum_replicate, smul_zero, min_self]
  exact mul_nonneg (mul_self_nonneg t) hp

theorem n2_neg (h : List ℝ) : ((h.map fun v : ℝ => -v).map fun v : ℝ => v * v).sum = (h.map fun v : ℝ => v * v).sum := by
  rw [List.map_map]; congr 1; refine List.map_congr_left fun v _ => ?_; simp

/-- **C83 (types).**  The type found for a filter with exactly symmetric coefficients is I or II, with exactly antisymmetric coefficients (not all
zero), III or IV, according to the parity of the number of coefficients. -/
theorem C83_type (h : List ℝ) :
    (h.reverse = h → typeRif h = if h.length % 2 = 1 then 1 else 2) ∧
    (h.reverse = h.map (fun v : ℝ => -v) → (∃ v ∈ h, v ≠ 0) → typeRif h = if h.length % 2 = 1 then 3 else 4) := by
  refine ⟨fun hs => ?_, fun hs hz => ?_⟩
  · unfold typeRif
    rw [hs, if_pos (estApprox_self h _)]
  · unfold typeRif
    have hpos : 0 < (h.map fun v : ℝ => v * v).sum := by
      obtain ⟨v, hv, h0⟩ := hz
      have h1 : ∀ w ∈ h.map (fun v : ℝ => v * v), 0 ≤ w := by
        simp only [List.mem_map]; rintro _ ⟨v, -, rfl⟩; exact mul_self_nonneg v
      refine lt_of_lt_of_le (mul_self_pos.2 h0) (List.single_le_sum h1 _ (List.mem_map.2 ⟨v, hv, rfl⟩))
    have hf : estApprox h.reverse h 1e-5 = false := by
      have hd : ∀ l : List ℝ, (List.zipWith (fun u v : ℝ => u - v) (l.map fun v : ℝ => -v) l).map (fun v : ℝ => v * v) =
          l.map fun v : ℝ => 4 * (v * v) := by
        intro l
        induction l with
        | nil => rfl
        | cons a l ih => simp only [List.map_cons, List.zipWith_cons_cons, ih]; congr 1; ring
      rw [hs]
      simp only [estApprox, decide_eq_false_iff_not, not_le, hd, n2_neg, min_self, List.sum_map_mul_left]
      have : (1e-5 : ℝ) * 1e-5 < 4 := by norm_num
      nlinarith
    rw [if_neg (by rw [hf]; simp), hs, if_pos (estApprox_self _ _)]

example : ([1, 2, 1] : List ℝ).reverse = [1, 2, 1] ∧ ([1, 0, -1] : List ℝ).reverse = [1, 0, -1].map (fun v : ℝ => -v) := by
  constructor <;> simp

/-! ### Spectral reflection and inversion -/

/-- **C83 (spectral reflection).**  When accepted, `design_rif_pb2ph_rs(h)` has the response of `h` shifted by half the sampling frequency: a
low-pass filter becomes a high-pass filter.  An odd-length exactly symmetric filter is accepted, an even-length filter is not. -/
theorem C83_reflexion (h : List ℝ) :
    (typeRif h = 1 → ∃ g, pb2phRs h = some g ∧ g.length = h.length ∧ ∀ ν, reponse g ν = reponse h (ν + 1 / 2)) ∧
    (h.reverse = h → h.length % 2 = 1 → pb2phRs h ≠ none) ∧ (h.length % 2 = 0 → pb2phRs h = none) := by
  refine ⟨fun ht => ?_, fun hs hl => ?_, fun hl => ?_⟩
  · refine ⟨_, by rw [pb2phRs, if_pos ht], by simp, fun ν => ?_⟩
    unfold reponse
    rw [List.length_mapIdx]
    refine Finset.sum_congr rfl fun k hk => ?_
    rw [Finset.mem_range] at hk
    rw [List.getD_eq_getElem _ _ (by simpa using hk), List.getElem_mapIdx, List.getD_eq_getElem _ _ hk]
    have he : Complex.exp (-(2 * Real.pi * Complex.I) * ((ν + 1 / 2 : ℝ) : ℂ) * k) =
        Complex.exp (-(2 * Real.pi * Complex.I) * ν * k) * (-1) ^ k := by
      rw [show -(2 * Real.pi * Complex.I) * ((ν + 1 / 2 : ℝ) : ℂ) * k = -(2 * Real.pi * Complex.I) * ν * k + k * (-(Real.pi * Complex.I)) by
        push_cast; ring, Complex.exp_add, Complex.exp_nat_mul, Complex.exp_neg, Complex.exp_pi_mul_I]
      norm_num
    rw [he]
    split
    · rename_i ho
      rw [Odd.neg_one_pow (Nat.odd_iff.2 ho)]; push_cast; ring
    · rename_i ho
      rw [Even.neg_one_pow (Nat.even_iff.2 (by omega))]; ring
  · rw [pb2phRs, if_pos (by rw [(C83_type h).1 hs, if_pos hl])]
    simp
  · rw [pb2phRs, if_neg]
    unfold typeRif
    split_ifs <;> first | omega | decide

/-- **C83 (spectral inversion).**  When accepted, `design_rif_pb2ph_is(h)` is the pure delay of `(n-1)/2` samples minus `h`: where `h` passes,
it stops, and conversely. -/
theorem C83_inversion (h : List ℝ) :
    (typeRif h = 1 → ∃ g, pb2phIs h = some g ∧ g.length = h.length ∧
      ∀ ν, reponse g ν = Complex.exp (-(2 * Real.pi * Complex.I) * ν * ((h.length - 1) / 2 : ℕ)) - reponse h ν) ∧
    (h.reverse = h → h.length % 2 = 1 → pb2phIs h ≠ none) ∧ (h.length % 2 = 0 → pb2phIs h = none) := by
  have hpar : typeRif h = 1 → h.length % 2 = 1 := by
    unfold typeRif
    split_ifs <;> first | omega | (intro h; simp at h)
  have hacc : typeRif h = 1 → ∃ g, pb2phIs h = some g ∧ g.length = h.length ∧ ∀ k, g.getD k 0 = -h.getD k 0 + if k = (h.length - 1) / 2 then 1 else 0 := by
    intro ht
    have := hpar ht
    obtain ⟨g, e, l, v⟩ := incremente_some (h.map fun v : ℝ => -v) ((h.length - 1) / 2) (by simp; omega)
    refine ⟨g, by rw [pb2phIs, if_pos ht, e], by simpa using l, fun k => ?_⟩
    rw [v k, map_getD _ (by simp)]
  refine ⟨fun ht => ?_, fun hs hl => ?_, fun hl => ?_⟩
  · obtain ⟨g, e, l, v⟩ := hacc ht
    have := hpar ht
    refine ⟨g, e, l, fun ν => ?_⟩
    unfold reponse
    rw [l]
    have hd : ∑ k ∈ range h.length, (((if k = (h.length - 1) / 2 then 1 else 0 : ℝ)) : ℂ) * Complex.exp (-(2 * Real.pi * Complex.I) * ν * k) =
        Complex.exp (-(2 * Real.pi * Complex.I) * ν * ((h.length - 1) / 2 : ℕ)) := by
      rw [Finset.sum_eq_single_of_mem ((h.length - 1) / 2) (by rw [Finset.mem_range]; omega) fun b _ hb => by rw [if_neg hb]; simp]
      simp
    rw [← hd, ← Finset.sum_sub_distrib]
    refine Finset.sum_congr rfl fun k _ => ?_
    rw [v k]
    push_cast
    ring
  · obtain ⟨g, e, -⟩ := hacc (by rw [(C83_type h).1 hs, if_pos hl])
    rw [e]; simp
  · rw [pb2phIs, if_neg]
    unfold typeRif
    split_ifs <;> first | omega | decide

/-- **C83 (band-pass transformation, refuted).**  `design_rif_pb2pm(h)` ("low-pass to band-pass") and `design_rif_pb2pb(h)` return the filter
unchanged: the average filter of two coefficients, turned into a "band-pass", still has a gain of 1 at the null frequency. -/
theorem C83_pb2pm_refute : reponse (pb2pm [1 / 2, 1 / 2]) 0 = 1 ∧ ∀ h, pb2pm h = h ∧ pb2pb h = h := by
  refine ⟨?_, fun h => ⟨rfl, rfl⟩⟩
  simp [pb2pm, reponse, Finset.sum_range_succ]
  norm_num

end Verif.Conception
