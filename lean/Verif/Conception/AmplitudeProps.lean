/-
C130: amplitude response of linear-phase FIR filters.

Specification: `reponse h ν` (C83), the frequency response of the filter, and the definition of linear phase: `H(ν) = exp(-iπν(n-1)) A(ν)` with `A` real
(types I and II), `H(ν) = i exp(-iπν(n-1)) A(ν)` (types III and IV).
-/
import Verif.Conception.Equi
import Verif.Conception.TransfProps
import Verif.Conception.RifFreqProps
import Mathlib.Tactic.LinearCombination

namespace Verif.Conception

open Finset Verif.Fourier

/-- A sum by pairs of symmetric terms. -/
theorem somme_paires {K : Type} [AddCommMonoid K] (f : ℕ → K) (n : ℕ) :
    ∑ k ∈ range n, f k = ∑ k ∈ range (n / 2), (f k + f (n - 1 - k)) + if n % 2 = 1 then f (n / 2) else 0 := by
  obtain ⟨q, hq⟩ : ∃ q, n = q + q ∨ n = (q + 1) + q := ⟨n / 2, by omega⟩
  have hr : ∀ N, ∑ k ∈ range q, f (N + k) = ∑ k ∈ range q, f (N + q - 1 - k) := by
    intro N
    rw [← Finset.sum_range_reflect]
    refine Finset.sum_congr rfl fun k hk => ?_
    rw [Finset.mem_range] at hk
    congr 1
    omega
  rcases hq with rfl | rfl
  · rw [Finset.sum_range_add, hr, show (q + q) / 2 = q by omega, if_neg (by omega), add_zero, Finset.sum_add_distrib]
  · rw [Finset.sum_range_add, hr, show (q + 1 + q) / 2 = q by omega, if_pos (by omega), Finset.sum_add_distrib, Finset.sum_range_succ]
    abel

theorem somme_liste {K : Type} [AddCommMonoid K] (f : ℕ → K) (n : ℕ) : ((List.range n).map f).sum = ∑ k ∈ range n, f k := by
  induction n with
  | zero => simp
  | succ n ih => rw [List.range_succ, List.map_append, List.sum_append, ih, Finset.sum_range_succ]; simp

/-- `H e^{iω(n-1)/2}` as a centred sum. -/
theorem reponse_centre (h : List ℝ) (ν : ℝ) : Complex.exp (Complex.I * (Real.pi * ν * ((h.length : ℝ) - 1) : ℝ)) * reponse h ν =
    ∑ k ∈ range h.length, (h.getD k 0 : ℂ) * Complex.exp (Complex.I * (2 * Real.pi * ν * (0.5 * ((h.length : ℝ) - 1) - (k : ℝ)) : ℝ)) := by
  rw [reponse, Finset.mul_sum]
  refine Finset.sum_congr rfl fun k _ => ?_
  rw [mul_left_comm, ← Complex.exp_add]
  congr 2
  push_cast
  ring

theorem exp_plus (θ : ℝ) : Complex.exp (Complex.I * (θ : ℝ)) + Complex.exp (Complex.I * (-θ : ℝ)) = ((2 * Real.cos θ : ℝ) : ℂ) := by
  push_cast
  rw [Complex.cos, mul_comm Complex.I, mul_comm Complex.I]
  ring

theorem exp_moins (θ : ℝ) : Complex.exp (Complex.I * (θ : ℝ)) - Complex.exp (Complex.I * (-θ : ℝ)) = Complex.I * ((2 * Real.sin θ : ℝ) : ℂ) := by
  push_cast
  rw [Complex.sin, mul_comm Complex.I, mul_comm Complex.I]
  linear_combination (Complex.exp (↑θ * Complex.I) - Complex.exp (-↑θ * Complex.I)) * Complex.I_mul_I

/-- Symmetric coefficients. -/
theorem amplitude_sym (h : List ℝ) (hs : ∀ k, k < h.length → h.getD (h.length - 1 - k) 0 = h.getD k 0) (ν : ℝ) :
    Complex.exp (Complex.I * (Real.pi * ν * ((h.length : ℝ) - 1) : ℝ)) * reponse h ν = (rifampImpl h (2 * Real.pi * ν) (if h.length % 2 = 0 then 2 else 1) : ℝ) := by
  rw [reponse_centre, somme_paires]
  have e : rifampImpl h (2 * Real.pi * ν) (if h.length % 2 = 0 then 2 else 1) =
      (∑ k ∈ range (h.length / 2), h.getD k 0 * 2 * Real.cos (2 * Real.pi * ν * (0.5 * ((h.length : ℝ) - 1) - (k : ℝ)))) + if h.length % 2 = 1 then h.getD (h.length / 2) 0 else 0 := by
    unfold rifampImpl
    simp only [somme_liste]
    by_cases hp : h.length % 2 = 0
    · simp [hp]
    · simp [hp, show h.length % 2 = 1 by omega]
  rw [e, Complex.ofReal_add, Complex.ofReal_sum]
  congr 1
  · refine Finset.sum_congr rfl fun k hk => ?_
    rw [Finset.mem_range] at hk
    rw [hs k (by omega), ← mul_add]
    have hc : ((h.length - 1 - k : ℕ) : ℝ) = (h.length : ℝ) - 1 - k := by
      rw [Nat.sub_sub, Nat.cast_sub (by omega)]; push_cast; ring
    rw [hc, show 2 * Real.pi * ν * (0.5 * ((h.length : ℝ) - 1) - ((h.length : ℝ) - 1 - k)) = -(2 * Real.pi * ν * (0.5 * ((h.length : ℝ) - 1) - (k : ℝ))) by ring, exp_plus]
    push_cast
    ring
  · split_ifs with h1
    · have hc : ((h.length / 2 : ℕ) : ℝ) = 0.5 * ((h.length : ℝ) - 1) := by
        have : (h.length : ℝ) = 2 * ((h.length / 2 : ℕ) : ℝ) + 1 := by exact_mod_cast (by omega : h.length = 2 * (h.length / 2) + 1)
        linarith
      rw [hc]
      simp
    · simp

/-- Antisymmetric coefficients. -/
theorem amplitude_anti (h : List ℝ) (hs : ∀ k, k < h.length → h.getD (h.length - 1 - k) 0 = -h.getD k 0) (ν : ℝ) :
    Complex.exp (Complex.I * (Real.pi * ν * ((h.length : ℝ) - 1) : ℝ)) * reponse h ν = Complex.I * (rifampImpl h (2 * Real.pi * ν) (if h.length % 2 = 0 then 4 else 3) : ℝ) := by
  rw [reponse_centre, somme_paires]
  have e : rifampImpl h (2 * Real.pi * ν) (if h.length % 2 = 0 then 4 else 3) =
      ∑ k ∈ range (h.length / 2), h.getD k 0 * 2 * Real.sin (2 * Real.pi * ν * (0.5 * ((h.length : ℝ) - 1) - (k : ℝ))) := by
    unfold rifampImpl
    simp only [somme_liste]
    by_cases hp : h.length % 2 = 0
    · simp [hp]
    · simp [hp]
  rw [e, Complex.ofReal_sum, Finset.mul_sum]
  have hz : (if h.length % 2 = 1 then ((h.getD (h.length / 2) 0 : ℝ) : ℂ) * Complex.exp (Complex.I * (2 * Real.pi * ν * (0.5 * ((h.length : ℝ) - 1) - ((h.length / 2 : ℕ) : ℝ)) : ℝ)) else 0) = 0 := by
    split_ifs with h1
    · have := hs (h.length / 2) (by omega)
      rw [show h.length - 1 - h.length / 2 = h.length / 2 by omega] at this
      rw [show h.getD (h.length / 2) 0 = 0 by linarith]
      simp
    · rfl
  rw [hz, add_zero]
  refine Finset.sum_congr rfl fun k hk => ?_
  rw [Finset.mem_range] at hk
  rw [hs k (by omega), Complex.ofReal_neg, neg_mul, ← sub_eq_add_neg, ← mul_sub]
  have hc : ((h.length - 1 - k : ℕ) : ℝ) = (h.length : ℝ) - 1 - k := by
    rw [Nat.sub_sub, Nat.cast_sub (by omega)]; push_cast; ring
  rw [hc, show 2 * Real.pi * ν * (0.5 * ((h.length : ℝ) - 1) - ((h.length : ℝ) - 1 - k)) = -(2 * Real.pi * ν * (0.5 * ((h.length : ℝ) - 1) - (k : ℝ))) by ring, exp_moins]
  push_cast
  ring

theorem riftype_some (h : List ℝ) (hn : 0 < h.length) : riftype h =
    some (if h.getD 0 0 = h.getD (h.length - 1) 0 then (if h.length % 2 = 0 then 2 else 1) else (if h.length % 2 = 0 then 4 else 3)) := by
  have a : h[0]? = some (h.getD 0 0) := by simp [hn]
  have b : h[h.length - 1]? = some (h.getD (h.length - 1) 0) := by
    rw [List.getD_eq_getElem?_getD, List.getElem?_eq_getElem (by omega)]; rfl
  rw [riftype, a, b]
  rfl

/-- `H = e^{-iθ} c` from `e^{iθ} H = c`. -/
theorem isole (θ : ℝ) (H c : ℂ) (e : Complex.exp (Complex.I * (θ : ℝ)) * H = c) : H = Complex.exp (-(Complex.I * (θ : ℝ))) * c := by
  rw [← e, ← mul_assoc, ← Complex.exp_add]
  simp

/-- **C130 (amplitude at given frequencies).**  For every non-empty FIR filter with symmetric coefficients and every list of frequencies, the amplitudes returned are the real factor
of the frequency response, whose phase is the linear phase `-πν(n-1)`. -/
theorem C130_symetrique (h : List ℝ) (hn : 0 < h.length) (hs : ∀ k, k < h.length → h.getD (h.length - 1 - k) 0 = h.getD k 0) (fr : List ℝ) :
    ∃ A, rifamp2 h fr = some A ∧ A.length = fr.length ∧ ∀ i, i < fr.length →
      reponse h (fr.getD i 0) = Complex.exp (-(Complex.I * (Real.pi * fr.getD i 0 * ((h.length : ℝ) - 1) : ℝ))) * (A.getD i 0 : ℝ) := by
  have h0 := hs 0 hn
  rw [Nat.sub_zero] at h0
  refine ⟨_, by rw [rifamp2, riftype_some h hn, if_pos h0.symm]; rfl, by simp, fun i hi => isole _ _ _ ?_⟩
  rw [amplitude_sym h hs]
  congr 1
  simp only [List.getD_eq_getElem?_getD, List.getElem?_map, List.getElem?_eq_getElem hi, Option.map_some, Option.getD_some]
  congr 1
  ring

/-- **C130 (antisymmetric filters).**  Same property for antisymmetric coefficients whose first coefficient is not null, with the additional factor `i`. -/
theorem C130_antisymetrique_partial (h : List ℝ) (hn : 0 < h.length) (hs : ∀ k, k < h.length → h.getD (h.length - 1 - k) 0 = -h.getD k 0) (h0 : h.getD 0 0 ≠ 0) (fr : List ℝ) :
    ∃ A, rifamp2 h fr = some A ∧ A.length = fr.length ∧ ∀ i, i < fr.length →
      reponse h (fr.getD i 0) = Complex.exp (-(Complex.I * (Real.pi * fr.getD i 0 * ((h.length : ℝ) - 1) : ℝ))) * (Complex.I * (A.getD i 0 : ℝ)) := by
  have h1 := hs 0 hn
  rw [Nat.sub_zero] at h1
  have h2 : ¬ h.getD 0 0 = h.getD (h.length - 1) 0 := by
    rw [h1]; intro h3; exact h0 (by linarith)
  refine ⟨_, by rw [rifamp2, riftype_some h hn, if_neg h2]; rfl, by simp, fun i hi => isole _ _ _ ?_⟩
  rw [amplitude_anti h hs]
  congr 2
  simp only [List.getD_eq_getElem?_getD, List.getElem?_map, List.getElem?_eq_getElem hi, Option.map_some, Option.getD_some]
  congr 1
  ring

/-- **C130 (refuted: null extreme coefficients).**  The antisymmetric differentiator `(0, 1, 0, -1, 0)` is taken for a symmetric filter: at the null frequency its response is 0 and the
amplitude returned is 2. -/
theorem C130_antisymetrique_refute : (∀ k, k < 5 → ([0, 1, 0, -1, 0] : List ℝ).getD (5 - 1 - k) 0 = -([0, 1, 0, -1, 0] : List ℝ).getD k 0) ∧
    reponse [0, 1, 0, -1, 0] 0 = 0 ∧ rifamp2 [0, 1, 0, -1, 0] [0] = some [2] := by
  refine ⟨?_, ?_, ?_⟩
  · intro k hk
    interval_cases k <;> simp
  · simp [reponse, Finset.sum_range_succ]
  · rw [rifamp2, riftype_some _ (by simp)]
    simp [rifampImpl, List.range_succ]

/-- The uniform grid of frequencies. -/
theorem grille_freq (L : ℕ) (i : ℕ) (hi : i < L) : (Util.linspace (0 : ℝ) (0.5 - 0.5 / (L : ℝ)) L).getD i 0 = (i : ℝ) / (2 * L) := by
  have := (Util.C33_linspace (0 : ℝ) (0.5 - 0.5 / (L : ℝ)) L).2.1 i hi
  rw [List.getD_eq_getElem?_getD, this, Option.getD_some]
  have hL : (L : ℝ) ≠ 0 := by exact_mod_cast (by omega : L ≠ 0)
  by_cases h1 : L = 1
  · subst h1
    have : i = 0 := by omega
    subst this
    simp
  · have h2 : (L : ℝ) - 1 ≠ 0 := by
      rw [sub_ne_zero]; exact_mod_cast h1
    field_simp
    ring

/-- **C130 (uniform grid, direct evaluation).**  `rifampn` returns the `L` frequencies `i/(2L)` and the amplitudes at these frequencies. -/
theorem C130_grille (h : List ℝ) (hn : 0 < h.length) (L : ℕ) :
    ∃ fr A, rifampn h L = some (fr, A) ∧ fr.length = L ∧ A.length = L ∧ (∀ i, i < L → fr.getD i 0 = (i : ℝ) / (2 * L)) ∧ rifamp2 h fr = some A := by
  refine ⟨_, _, by rw [rifampn, riftype_some h hn]; rfl, ?_, by simp, fun i hi => grille_freq L i hi, ?_⟩
  · exact (Util.C33_linspace _ _ _).1
  · rw [rifamp2, riftype_some h hn, Option.map_some]
    congr 1
    apply List.ext_getElem?
    intro i
    by_cases hi : i < L
    · have hl : i < (Util.linspace (0 : ℝ) (0.5 - 0.5 / (L : ℝ)) L).length := by rw [(Util.C33_linspace _ _ _).1]; exact hi
      have hg := grille_freq L i hi
      rw [List.getD_eq_getElem?_getD, List.getElem?_eq_getElem hl, Option.getD_some] at hg
      rw [List.getElem?_map, List.getElem?_map, List.getElem?_eq_getElem hl, hg, List.getElem?_range hi, Option.map_some, Option.map_some]
      congr 2
      have hL : (L : ℝ) ≠ 0 := by exact_mod_cast (by omega : L ≠ 0)
      field_simp
    · rw [List.getElem?_eq_none (by rw [List.length_map, (Util.C33_linspace _ _ _).1]; omega), List.getElem?_eq_none (by simp; omega)]

/-! ### By Fourier transform -/

theorem rifamp_some (h : List ℝ) (hn : 0 < h.length) (L : ℕ) (hL : h.length ≤ 2 * L) (h29 : 2 * L ≤ 2 ^ 29) (sym : Bool) :
    ∃ fr A, rifamp h L sym = some (fr, A) ∧ fr.length = L ∧ A.length = L ∧ (∀ i, i < L → fr.getD i 0 = (i : ℝ) / (2 * L)) ∧
      ∀ i, i < L → A.getD i 0 = ((if sym then 1 else -Complex.I) * (Complex.exp (Complex.I * (((h.length - 1) / 2 : ℕ) * (Real.pi * i / L) : ℝ)) * reponse h ((i : ℝ) / (2 * L)))).re := by
  have hdim : max (2 * L) h.length = 2 * L := max_eq_left hL
  have hL0 : (L : ℝ) ≠ 0 := by exact_mod_cast (by omega : L ≠ 0)
  have e1 := ecrit_debut (2 * L) (enC h) (by simpa [enC] using hL)
  set h2 := enC h ++ List.replicate (2 * L - (enC h).length) (0 : ℂ) with hh2
  have lenC : (enC h).length = h.length := by simp [enC]
  have l2 : h2.length = 2 * L := by rw [hh2, List.length_append, List.length_replicate, lenC]; omega
  obtain ⟨H, e2, l3, t3⟩ := C27_fft h2 (by omega) (by omega)
  have hH : ∀ i, i < 2 * L → H.getD i 0 * (Real.sqrt ((2 * L : ℕ) : ℝ) : ℂ) = reponse h ((i : ℝ) / (2 * L)) := by
    intro i hi
    have hsq : (Real.sqrt ((2 * L : ℕ) : ℝ) : ℂ) ≠ 0 := by
      rw [Complex.ofReal_ne_zero]
      exact (Real.sqrt_pos.2 (by exact_mod_cast (by omega : 0 < 2 * L))).ne'
    rw [t3 i (by omega), TFD, l2, div_mul_cancel₀ _ hsq, reponse]
    rw [← Finset.sum_subset (Finset.range_subset_range.2 hL) ?_]
    · refine Finset.sum_congr rfl fun k _ => ?_
      rw [hh2, debut_getD]
      congr 2
      push_cast
      have : (L : ℂ) ≠ 0 := by exact_mod_cast (by omega : L ≠ 0)
      field_simp
    · intro k _ hk
      rw [hh2, debut_getD, List.getD_eq_default _ _ (by simpa using hk)]
      simp
  have hdiv : 2 * L / 2 = L := by omega
  set w : List ℝ := (Util.linspace (0 : ℝ) ((L : ℝ) - 1) L).map fun v : ℝ => v * Real.pi / (L : ℝ) with hw
  have lw : w.length = L := by rw [hw, List.length_map, (Util.C33_linspace _ _ _).1]
  have gw : ∀ i, i < L → w[i]? = some (Real.pi * i / L) := by
    intro i hi
    rw [hw, List.getElem?_map, (Util.C33_linspace _ _ _).2.1 i hi, Option.map_some]
    congr 1
    by_cases h1 : L = 1
    · subst h1
      have : i = 0 := by omega
      subst this
      simp
    · have h2 : (L : ℝ) - 1 ≠ 0 := by
        rw [sub_ne_zero]; exact_mod_cast h1
      field_simp
      ring
  set M := (h.length - 1) / 2 with hM
  have e3 : produit ((H.take L).map fun z : ℂ => z * (Real.sqrt ((2 * L : ℕ) : ℝ) : ℝ)) (w.map fun v : ℝ => Complex.exp (Complex.I * ((M : ℝ) * v : ℝ))) =
      some (List.zipWith (· * ·) ((H.take L).map fun z : ℂ => z * (Real.sqrt ((2 * L : ℕ) : ℝ) : ℝ)) (w.map fun v : ℝ => Complex.exp (Complex.I * ((M : ℝ) * v : ℝ)))) := by
    rw [produit, if_pos]
    rw [List.length_map, List.length_map, lw, List.length_take, l3, l2]
    omega
  set P := List.zipWith (fun a b : ℂ => a * b) ((H.take L).map fun z : ℂ => z * (Real.sqrt ((2 * L : ℕ) : ℝ) : ℝ)) (w.map fun v : ℝ => Complex.exp (Complex.I * ((M : ℝ) * v : ℝ))) with hP
  have lP : P.length = L := by
    rw [hP, List.length_zipWith, List.length_map, List.length_map, lw, List.length_take, l3, l2]
    omega
  have gP : ∀ i, i < L → P[i]? = some (Complex.exp (Complex.I * ((M : ℝ) * (Real.pi * i / L) : ℝ)) * reponse h ((i : ℝ) / (2 * L))) := by
    intro i hi
    rw [hP, List.getElem?_zipWith, List.getElem?_map, List.getElem?_map, gw i hi, List.getElem?_take_of_lt hi, List.getElem?_eq_getElem (by omega)]
    simp only [Option.map_some]
    congr 1
    rw [← hH i (by omega), List.getD_eq_getElem?_getD, List.getElem?_eq_getElem (by omega), Option.getD_some]
    ring
  have hmain : rifamp h L sym = some (Util.linspace 0 (0.5 - 0.5 / (L : ℝ)) L, (if sym then P else P.map fun z : ℂ => z * (-Complex.I)).map Complex.re) := by
    unfold rifamp
    simp only [hdim, e1, ← hh2, Option.bind_eq_bind, Option.bind_some, e2, hdiv, ← hM]
    rw [← hw, e3, Option.bind_some, if_pos]
    cases sym <;> simp [lP]
  refine ⟨_, _, hmain, (Util.C33_linspace _ _ _).1, ?_, fun i hi => grille_freq L i hi, fun i hi => ?_⟩
  · cases sym <;> simp [lP]
  · cases sym
    · simp only [Bool.false_eq_true, if_false]
      rw [List.getD_eq_getElem?_getD, List.getElem?_map, List.getElem?_map, gP i hi, Option.map_some, Option.map_some, Option.getD_some, mul_comm]
    · simp only [if_true, one_mul]
      rw [List.getD_eq_getElem?_getD, List.getElem?_map, gP i hi, Option.map_some, Option.getD_some]

/-- **C130 (by Fourier transform).**  For an odd number `N ≤ 2L` of symmetric (resp. antisymmetric) coefficients, `rifamp` returns the `L` frequencies `i/(2L)` and the amplitude
response at these frequencies. -/
theorem C130_fft_partial (h : List ℝ) (hn : h.length % 2 = 1) (L : ℕ) (hL : h.length ≤ 2 * L) (h29 : 2 * L ≤ 2 ^ 29) (sym : Bool)
    (hs : ∀ k, k < h.length → h.getD (h.length - 1 - k) 0 = if sym then h.getD k 0 else -h.getD k 0) :
    ∃ fr A, rifamp h L sym = some (fr, A) ∧ fr.length = L ∧ A.length = L ∧ (∀ i, i < L → fr.getD i 0 = (i : ℝ) / (2 * L)) ∧
      ∀ i, i < L → reponse h (fr.getD i 0) = Complex.exp (-(Complex.I * (Real.pi * fr.getD i 0 * ((h.length : ℝ) - 1) : ℝ))) * ((if sym then 1 else Complex.I) * (A.getD i 0 : ℝ)) := by
  obtain ⟨fr, A, e, l1, l2, g1, g2⟩ := rifamp_some h (by omega) L hL h29 sym
  refine ⟨fr, A, e, l1, l2, g1, fun i hi => isole _ _ _ ?_⟩
  have hL0 : (L : ℝ) ≠ 0 := by exact_mod_cast (by omega : L ≠ 0)
  have hc : (((h.length - 1) / 2 : ℕ) : ℝ) * (Real.pi * i / L) = Real.pi * ((i : ℝ) / (2 * L)) * ((h.length : ℝ) - 1) := by
    have : (h.length : ℝ) = 2 * (((h.length - 1) / 2 : ℕ) : ℝ) + 1 := by exact_mod_cast (by omega : h.length = 2 * ((h.length - 1) / 2) + 1)
    rw [this]
    field_simp
    ring
  rw [g1 i hi, g2 i hi, hc]
  cases sym
  · simp only [Bool.false_eq_true, if_false] at hs ⊢
    rw [amplitude_anti h hs]
    congr 1
    simp [← mul_assoc]
  · simp only [if_true] at hs ⊢
    rw [amplitude_sym h hs, one_mul, one_mul]
    simp

/-- **C130 (refuted: even number of coefficients).**  For an even number `N ≤ 2L` of symmetric coefficients (type II, documented), the value returned is the amplitude multiplied by
`cos(ω/2)` (the centre of symmetry `(N-1)/2` is rounded down). -/
theorem C130_type2_refute : (∀ (h : List ℝ), h.length % 2 = 0 → 0 < h.length → ∀ L : ℕ, h.length ≤ 2 * L → 2 * L ≤ 2 ^ 29 →
    (∀ k, k < h.length → h.getD (h.length - 1 - k) 0 = h.getD k 0) →
    ∃ fr A B, rifamp h L true = some (fr, A) ∧ rifamp2 h fr = some B ∧ ∀ i, i < L → A.getD i 0 = B.getD i 0 * Real.cos (Real.pi * fr.getD i 0)) ∧
    ∃ fr A B, rifamp [1 / 2, 1 / 2] 2 true = some (fr, A) ∧ rifamp2 [1 / 2, 1 / 2] fr = some B ∧ A.getD 1 0 = 1 / 2 ∧ B.getD 1 0 = Real.sqrt 2 / 2 := by
  have key : ∀ (h : List ℝ), h.length % 2 = 0 → 0 < h.length → ∀ L : ℕ, h.length ≤ 2 * L → 2 * L ≤ 2 ^ 29 →
    (∀ k, k < h.length → h.getD (h.length - 1 - k) 0 = h.getD k 0) →
    ∃ fr A B, rifamp h L true = some (fr, A) ∧ rifamp2 h fr = some B ∧ (∀ i, i < L → fr.getD i 0 = (i : ℝ) / (2 * L)) ∧ fr.length = L ∧ ∀ i, i < L → A.getD i 0 = B.getD i 0 * Real.cos (Real.pi * fr.getD i 0) := by
    intro h hp hn L hL h29 hs
    obtain ⟨fr, A, e, l1, l2, g1, g2⟩ := rifamp_some h hn L hL h29 true
    obtain ⟨B, e2, l3, g3⟩ := C130_symetrique h hn hs fr
    refine ⟨fr, A, B, e, e2, g1, l1, fun i hi => ?_⟩
    have hL0 : (L : ℝ) ≠ 0 := by exact_mod_cast (by omega : L ≠ 0)
    rw [g2 i hi, ← g1 i hi, g3 i (by omega)]
    simp only [if_true, one_mul]
    rw [← mul_assoc, ← Complex.exp_add]
    have hc : Complex.I * ((((h.length - 1) / 2 : ℕ) : ℝ) * (Real.pi * i / L) : ℝ) + -(Complex.I * (Real.pi * fr.getD i 0 * ((h.length : ℝ) - 1) : ℝ)) = ((-(Real.pi * fr.getD i 0) : ℝ) : ℂ) * Complex.I := by
      have : (h.length : ℝ) = 2 * (((h.length - 1) / 2 : ℕ) : ℝ) + 2 := by exact_mod_cast (by omega : h.length = 2 * ((h.length - 1) / 2) + 2)
      rw [g1 i hi, this]
      push_cast
      have : (L : ℂ) ≠ 0 := by exact_mod_cast (by omega : L ≠ 0)
      field_simp
      ring
    rw [hc, Complex.re_mul_ofReal, Complex.exp_ofReal_mul_I_re, Real.cos_neg, mul_comm]
  refine ⟨fun h a b L c d e => ?_, ?_⟩
  · obtain ⟨fr, A, B, h1, h2, -, -, h3⟩ := key h a b L c d e
    exact ⟨fr, A, B, h1, h2, h3⟩
  · obtain ⟨fr, A, B, h1, h2, h3, h3', h4⟩ := key [1 / 2, 1 / 2] (by simp) (by simp) 2 (by simp) (by norm_num) (by intro k hk; simp at hk; interval_cases k <;> simp)
    have hB : B.getD 1 0 = Real.sqrt 2 / 2 := by
      rw [rifamp2, riftype_some _ (by simp)] at h2
      simp only [Option.map_some, Option.some.injEq] at h2
      have hf := h3 1 (by norm_num)
      rw [List.getD_eq_getElem?_getD, List.getElem?_eq_getElem (by omega), Option.getD_some] at hf
      rw [← h2, List.getD_eq_getElem?_getD, List.getElem?_map, List.getElem?_eq_getElem (by omega), hf]
      simp [rifampImpl, List.range_succ]
      rw [show (2⁻¹ * Real.pi * (0.5 * (2 - 1)) : ℝ) = Real.pi / 4 by ring, Real.cos_pi_div_four]
    refine ⟨fr, A, B, h1, h2, ?_, hB⟩
    rw [h4 1 (by norm_num), hB, h3 1 (by norm_num), show (Real.pi * (((1 : ℕ) : ℝ) / (2 * ((2 : ℕ) : ℝ)))) = Real.pi / 4 by push_cast; ring, Real.cos_pi_div_four]
    have : Real.sqrt 2 * Real.sqrt 2 = 2 := Real.mul_self_sqrt (by norm_num)
    linarith

/-- **C130 (refuted: resolution).**  A filter with more than `2L + 1` coefficients is refused. -/
theorem C130_resolution_refute (h : List ℝ) (L : ℕ) (hL : 2 * L + 1 < h.length) (sym : Bool) : rifamp h L sym = none := by
  have hdim : max (2 * L) h.length = h.length := max_eq_right (by omega)
  unfold rifamp
  simp only [hdim, Option.bind_eq_bind, Option.bind_eq_none_iff]
  intro h2 e2 H e3 P e4
  rw [if_neg]
  have hl2 : h2.length = h.length := by
    unfold ecrit at e2
    split_ifs at e2 with hc
    simp only [Option.some.injEq] at e2
    rw [← e2]
    simp [enC]
  have lw : ∀ a b : ℝ, (Util.linspace a b (h.length / 2)).length = h.length / 2 := fun a b => (Util.C33_linspace _ _ _).1
  unfold produit at e4
  split_ifs at e4 with hc
  simp only [Option.some.injEq] at e4
  have : P.length = h.length / 2 := by
    rw [← e4, List.length_zipWith, hc, min_self, List.length_map, List.length_map, lw]
  cases sym <;> simp [this] <;> omega

/-- The hypotheses are satisfied. -/
example : ∃ A, rifamp2 [1, 2, 1] [0] = some A ∧ A.length = 1 := by
  obtain ⟨A, h1, h2, -⟩ := C130_symetrique [1, 2, 1] (by simp) (by intro k hk; simp at hk; interval_cases k <;> simp) [0]
  exact ⟨A, h1, h2⟩

example : ∃ A, rifamp2 [1, 0, -1] [0] = some A ∧ A.length = 1 := by
  obtain ⟨A, h1, h2, -⟩ := C130_antisymetrique_partial [1, 0, -1] (by simp) (by intro k hk; simp at hk; interval_cases k <;> simp) (by simp) [0]
  exact ⟨A, h1, h2⟩

example : ∃ fr A, rifamp [1, 2, 1] 8 true = some (fr, A) ∧ A.length = 8 := by
  obtain ⟨fr, A, h1, -, h2, -⟩ := C130_fft_partial [1, 2, 1] (by simp) 8 (by simp) (by norm_num) true (by intro k hk; simp at hk; interval_cases k <;> simp)
  exact ⟨fr, A, h1, h2⟩

end Verif.Conception
