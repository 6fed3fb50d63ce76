/-
C132: half-band filters.  C133: templates of the equiripple design.
-/
import Verif.Conception.EquiProps
import Verif.Fourier.DelaisProps
import Mathlib.RingTheory.Polynomial.Chebyshev
import Mathlib.Analysis.SpecialFunctions.Trigonometric.Chebyshev.Basic

namespace Verif.Conception

open Finset Verif.Fourier

/-! ### Half-band filters -/

/-- Specification: the coefficients at a non-null even distance of the centre are null and the central one is 1/2. -/
def DemiBande (h : List ℝ) : Prop := h.length % 2 = 1 ∧ Symetrique h ∧ h.getD (h.length / 2) 0 = 1 / 2 ∧
  ∀ k, k < h.length → k ≠ h.length / 2 → (k + h.length / 2) % 2 = 0 → h.getD k 0 = 0

/-- The amplitudes of a half-band filter at `ν` and `1/2 - ν` are complementary. -/
theorem demi_bande_complement (h : List ℝ) (hh : DemiBande h) (ν : ℝ) : Ampl h ν + Ampl h (1 / 2 - ν) = 1 := by
  obtain ⟨hp, hs, hc, hz⟩ := hh
  rw [Ampl_sym h hs, Ampl_sym h hs, rifampImpl_sym, rifampImpl_sym, if_pos hp, hc]
  have key : ∑ k ∈ range (h.length / 2), h.getD k 0 * 2 * Real.cos (2 * Real.pi * (1 / 2 - ν) * (0.5 * ((h.length : ℝ) - 1) - (k : ℝ))) =
      -∑ k ∈ range (h.length / 2), h.getD k 0 * 2 * Real.cos (2 * Real.pi * ν * (0.5 * ((h.length : ℝ) - 1) - (k : ℝ))) := by
    rw [← Finset.sum_neg_distrib]
    refine Finset.sum_congr rfl fun k hk => ?_
    rw [Finset.mem_range] at hk
    by_cases he : (k + h.length / 2) % 2 = 0
    · rw [hz k (by omega) (by omega) he]; simp
    · obtain ⟨j, hj⟩ : ∃ j : ℕ, h.length / 2 - k = 2 * j + 1 := ⟨(h.length / 2 - k) / 2, by omega⟩
      have hd : (0.5 * ((h.length : ℝ) - 1) - (k : ℝ)) = ((2 * j + 1 : ℕ) : ℝ) := by
        have h1 : (h.length : ℝ) = 2 * ((h.length / 2 : ℕ) : ℝ) + 1 := by exact_mod_cast (by omega : h.length = 2 * (h.length / 2) + 1)
        have h2 : ((h.length / 2 : ℕ) : ℝ) = (k : ℝ) + ((2 * j + 1 : ℕ) : ℝ) := by exact_mod_cast (by omega : h.length / 2 = k + (2 * j + 1))
        rw [h1, h2]; ring
      rw [hd]
      have : Real.cos (2 * Real.pi * (1 / 2 - ν) * ((2 * j + 1 : ℕ) : ℝ)) = -Real.cos (2 * Real.pi * ν * ((2 * j + 1 : ℕ) : ℝ)) := by
        rw [show 2 * Real.pi * (1 / 2 - ν) * ((2 * j + 1 : ℕ) : ℝ) = (Real.pi - 2 * Real.pi * ν * ((2 * j + 1 : ℕ) : ℝ)) + (j : ℕ) * (2 * Real.pi) by push_cast; ring, Real.cos_add_nat_mul_two_pi, Real.cos_pi_sub]
      rw [this]; ring
  rw [key]
  ring

theorem coefsDemiBande_getD (m : ℕ) (g : List ℝ) (k : ℕ) (hk : k < 2 * m + 1) :
    (coefsDemiBande m g).getD k 0 = if k = m then 0.5 else if k % 2 = 1 then 0 else 0.5 * g.getD (k / 2) 0 := by
  rw [coefsDemiBande, List.getD_eq_getElem?_getD, List.getElem?_map, List.getElem?_range hk]
  rfl

theorem coefsDemiBande_structure (m : ℕ) (hm : m % 2 = 1) (g : List ℝ) (lg : g.length = m + 1) (sg : Symetrique g) : DemiBande (coefsDemiBande m g) := by
  have ll : (coefsDemiBande m g).length = 2 * m + 1 := by simp [coefsDemiBande]
  refine ⟨by omega, fun k hk => ?_, ?_, fun k hk h1 h2 => ?_⟩
  · rw [ll] at hk ⊢
    rw [coefsDemiBande_getD m g _ (by omega), coefsDemiBande_getD m g k hk]
    by_cases h1 : k = m
    · rw [if_pos h1, if_pos (by omega)]
    · rw [if_neg h1, if_neg (by omega)]
      by_cases h2 : k % 2 = 1
      · rw [if_pos h2, if_pos (by omega)]
      · rw [if_neg h2, if_neg (by omega)]
        have := sg (k / 2) (by omega)
        rw [lg] at this
        rw [← this]
        congr 2
        omega
  · rw [ll, show (2 * m + 1) / 2 = m by omega, coefsDemiBande_getD m g m (by omega), if_pos rfl]; norm_num
  · rw [ll] at hk h1 h2
    rw [show (2 * m + 1) / 2 = m by omega] at h1 h2
    rw [coefsDemiBande_getD m g k hk, if_neg h1, if_pos (by omega)]

/-- The result of the equiripple design is symmetric, whatever the solver. -/
theorem designRifEq_pair (lsq : List (List ℝ) → List ℝ → Option (List ℝ)) (nc : ℕ) (hp : nc % 2 = 0) (D W g : List ℝ) (h : designRifEq lsq nc D W = some g) : g.length = nc ∧ Symetrique g := by
  unfold designRifEq at h
  split_ifs at h
  rw [Option.bind_eq_some_iff] at h
  obtain ⟨x, -, hx⟩ := h
  by_cases hl : nc / 2 ≤ x.length
  · have lt : (x.take (nc / 2)).length = (nc + 1) / 2 := by rw [List.length_take]; omega
    obtain ⟨h', e', l', s', -⟩ := filtre_solution nc (x.take (nc / 2)) lt
    have : coefsEq nc (x.take (nc / 2)) = coefsEq nc x := by
      unfold coefsEq
      rw [if_pos hl, if_pos (by omega), List.take_take, min_self]
      simp [hp]
    rw [← this, e', Option.some.injEq] at hx
    subst hx
    exact ⟨l', s'⟩
  · unfold coefsEq at hx
    rw [if_neg hl] at hx
    simp at hx

theorem bord_demi_bande (h : List ℝ) (hh : DemiBande h) (hm : (h.length / 2) % 2 = 1) : DemiBande (0 :: (h ++ [0])) := by
  obtain ⟨hp, hs, hc, hz⟩ := hh
  have ll : (0 :: (h ++ [0])).length = h.length + 2 := by simp
  have g0 : (0 :: (h ++ [(0 : ℝ)])).getD 0 0 = 0 := rfl
  have gs : ∀ k, (0 :: (h ++ [(0 : ℝ)])).getD (k + 1) 0 = h.getD k 0 := by
    intro k
    rw [List.getD_cons_succ]
    by_cases hk : k < h.length
    · rw [List.getD_append _ _ _ _ hk]
    · rw [List.getD_append_right _ _ _ _ (by omega), List.getD_eq_default h 0 (by omega)]
      rcases Nat.eq_zero_or_pos (k - h.length) with e | e
      · rw [e]; rfl
      · rw [List.getD_eq_default _ _ (by simp; omega)]
  refine ⟨by omega, fun k hk => ?_, ?_, fun k hk h1 h2 => ?_⟩
  · rw [ll] at hk ⊢
    rcases Nat.eq_zero_or_pos k with rfl | hk0
    · rw [g0, show h.length + 2 - 1 - 0 = h.length + 1 by omega, gs, List.getD_eq_default _ _ (by omega)]
    · obtain ⟨j, rfl⟩ : ∃ j, k = j + 1 := ⟨k - 1, by omega⟩
      rw [gs]
      by_cases hj : j < h.length
      · rw [show h.length + 2 - 1 - (j + 1) = (h.length - 1 - j) + 1 by omega, gs, hs j hj]
      · rw [show h.length + 2 - 1 - (j + 1) = 0 by omega, g0, List.getD_eq_default _ _ (by omega)]
  · rw [ll, show (h.length + 2) / 2 = h.length / 2 + 1 by omega, gs, hc]
  · rw [ll] at hk h1 h2
    rcases Nat.eq_zero_or_pos k with rfl | hk0
    · exact g0
    · obtain ⟨j, rfl⟩ : ∃ j, k = j + 1 := ⟨k - 1, by omega⟩
      rw [gs]
      by_cases hj : j < h.length
      · exact hz j hj (by omega) (by omega)
      · exact List.getD_eq_default _ _ (by omega)

/-- **C132 (structure).**  For every least-squares solver, every `n` and every cut-off frequency: if the half-band design returns `h`, then `n` is odd, `h` has exactly `n` coefficients, symmetric, the
central one is 1/2 and one in two of the others is null; so that `A(ν) + A(1/2 - ν) = 1` at every frequency, and the amplitude at 1/4 is 1/2.  If moreover `(n-1)/2` is even, the two extreme coefficients
are null. -/
theorem C132_structure (lsq : List (List ℝ) → List ℝ → Option (List ℝ)) (n : ℕ) (fc : ℝ) (h : List ℝ) (hd : designDemiBande lsq n fc = some h) :
    n % 2 = 1 ∧ h.length = n ∧ DemiBande h ∧ (∀ ν, Ampl h ν + Ampl h (1 / 2 - ν) = 1) ∧ Ampl h (1 / 4) = 1 / 2 ∧ ((n - 1) / 2 % 2 = 0 → h.getD 0 0 = 0 ∧ h.getD (n - 1) 0 = 0) := by
  have fin : n % 2 = 1 ∧ h.length = n ∧ DemiBande h ∧ ((n - 1) / 2 % 2 = 0 → h.getD 0 0 = 0 ∧ h.getD (n - 1) 0 = 0) := by
    unfold designDemiBande at hd
    dsimp only at hd
    by_cases h1 : n % 2 = 0
    · rw [if_pos h1] at hd; simp at hd
    rw [if_neg h1] at hd
    by_cases h2 : (n - 1) / 2 = 0
    · rw [if_pos h2] at hd; simp at hd
    rw [if_neg h2, Option.bind_eq_some_iff] at hd
    obtain ⟨g, eg, hd⟩ := hd
    by_cases h4 : (n - 1) / 2 % 2 = 1
    · simp only [if_pos h4] at eg hd
      obtain ⟨l1, s1⟩ := designRifEq_pair lsq _ (by omega) _ _ _ eg
      rw [if_pos l1, Option.some.injEq] at hd
      subst hd
      exact ⟨by omega, by simp [coefsDemiBande]; omega, coefsDemiBande_structure _ h4 g l1 s1, fun h => by omega⟩
    · simp only [if_neg h4] at eg hd
      obtain ⟨l1, s1⟩ := designRifEq_pair lsq _ (by omega) _ _ _ eg
      rw [if_pos l1, Option.some.injEq] at hd
      subst hd
      have hm : ((n - 1) / 2 - 1) % 2 = 1 := by omega
      have ll : (coefsDemiBande ((n - 1) / 2 - 1) g).length = 2 * ((n - 1) / 2 - 1) + 1 := by simp [coefsDemiBande]
      have D0 := bord_demi_bande _ (coefsDemiBande_structure _ hm g l1 s1) (by rw [ll]; omega)
      have hL : (0 :: (coefsDemiBande ((n - 1) / 2 - 1) g ++ [0])).length = n := by simp [ll]; omega
      refine ⟨by omega, hL, D0, fun _ => ⟨rfl, ?_⟩⟩
      have := D0.2.1 0 (by omega)
      rw [hL] at this
      rw [Nat.sub_zero] at this
      rw [this]
      rfl
  obtain ⟨a, b, c, d⟩ := fin
  refine ⟨a, b, c, demi_bande_complement h c, ?_, d⟩
  have := demi_bande_complement h c (1 / 4)
  rw [show (1 / 2 - 1 / 4 : ℝ) = 1 / 4 by norm_num] at this
  linarith

/-- **C132 (refusals).**  An even number of coefficients and a single coefficient are refused. -/
theorem C132_refus (lsq : List (List ℝ) → List ℝ → Option (List ℝ)) (n : ℕ) (fc : ℝ) (hn : n % 2 = 0 ∨ n = 1) : designDemiBande lsq n fc = none := by
  unfold designDemiBande
  dsimp only
  by_cases h1 : n % 2 = 0
  · rw [if_pos h1]
  · rw [if_neg h1, if_pos (by omega)]

/-- **C132 (pass band).**  For a pass band `0 < fc ≤ 1/4 - 1/(32 m)`, the prototype (whose response at `2ν` gives the half-band response at `ν`) is asked to be 1 with the weight 1 exactly on the grid
frequencies below `2 fc`, that is `fc` for the half-band filter. -/
theorem C132_bande (m : ℕ) (hm : 0 < m) (fc : ℝ) (h0 : 0 ≤ fc) (h1 : fc ≤ 1 / 4 - 1 / (32 * m)) :
    (poidsDemiBande m fc).length = 16 * m ∧ ∀ i, i < 16 * m → (poidsDemiBande m fc).getD i 0 = if (i : ℝ) / (2 * (16 * m)) < 2 * fc then 1 else 0 := by
  refine ⟨by simp [poidsDemiBande], fun i hi => ?_⟩
  have hm0 : (0 : ℝ) < m := by exact_mod_cast hm
  have e : (2 * fc * ((16 * m : ℕ) : ℝ) / 0.5) = 64 * m * fc := by push_cast; ring
  have hle : ⌈(64 * m * fc : ℝ)⌉ ≤ ((16 * m : ℕ) : ℤ) - 2 := by
    rw [Int.ceil_le]
    have : 64 * (m : ℝ) * fc ≤ 64 * m * (1 / 4 - 1 / (32 * m)) := mul_le_mul_of_nonneg_left h1 (by positivity)
    have h2 : 64 * (m : ℝ) * (1 / 4 - 1 / (32 * m)) = 16 * m - 2 := by field_simp; ring
    push_cast
    linarith
  have hge : 0 ≤ ⌈(64 * m * fc : ℝ)⌉ := Int.ceil_nonneg (by positivity)
  rw [poidsDemiBande, List.getD_eq_getElem?_getD, List.getElem?_map, List.getElem?_range hi]
  simp only [e, min_eq_left hle, max_eq_right hge, Option.map_some, Option.getD_some]
  congr 1
  rw [Int.lt_ceil, div_lt_iff₀ (by positivity), eq_iff_iff]
  push_cast
  constructor <;> intro h <;> nlinarith

/-- The response of the half-band filter from that of the prototype. -/
theorem C132_prototype (m : ℕ) (hm : m % 2 = 1) (g : List ℝ) (lg : g.length = m + 1) (sg : Symetrique g) (ν : ℝ) :
    Ampl (coefsDemiBande m g) ν = 1 / 2 + Ampl g (2 * ν) / 2 := by
  have ll : (coefsDemiBande m g).length = 2 * m + 1 := by simp [coefsDemiBande]
  rw [Ampl_sym _ (coefsDemiBande_structure m hm g lg sg).2.1, Ampl_sym _ sg, rifampImpl_sym, rifampImpl_sym, ll, lg, if_pos (by omega), if_neg (by omega), show (2 * m + 1) / 2 = m by omega,
    coefsDemiBande_getD m g m (by omega), if_pos rfl]
  obtain ⟨j, rfl⟩ : ∃ j, m = 2 * j + 1 := ⟨m / 2, by omega⟩
  rw [show (2 * j + 1 + 1) / 2 = j + 1 by omega]
  have : ∀ (f : ℕ → ℝ) (j : ℕ), (∀ k, k < j → f (2 * k + 1) = 0) → ∑ k ∈ range (2 * j + 1), f k = ∑ k ∈ range (j + 1), f (2 * k) := by
    intro f j
    induction j with
    | zero => intro _; simp
    | succ j ih =>
      intro hf
      rw [show 2 * (j + 1) + 1 = 2 * j + 1 + 1 + 1 by ring, Finset.sum_range_succ, Finset.sum_range_succ, ih fun k hk => hf k (by omega), hf j (by omega), Finset.sum_range_succ _ (j + 1)]
      rw [add_zero]
      rfl
  rw [this _ j fun k hk => by rw [coefsDemiBande_getD _ g _ (by omega), if_neg (by omega), if_pos (by omega)]; ring, add_comm, add_zero, Finset.sum_div]
  congr 1
  · norm_num
  · refine Finset.sum_congr rfl fun k hk => ?_
    rw [Finset.mem_range] at hk
    rw [coefsDemiBande_getD _ g _ (by omega), if_neg (by omega), if_neg (by omega), show 2 * k / 2 = k by omega]
    push_cast
    rw [show 2 * Real.pi * ν * (0.5 * (2 * (2 * (j : ℝ) + 1) + 1 - 1) - 2 * k) = 2 * Real.pi * (2 * ν) * (0.5 * (2 * j + 1 + 1 - 1) - k) by ring]
    ring

open Polynomial in
/-- The constant template is not attainable by an even number of coefficients on more grid frequencies than coefficients. -/
theorem template_un (m : ℕ) (hm : m % 2 = 1) (g : List ℝ) (lg : g.length = m + 1) (sg : Symetrique g) (n : ℕ) (hn : m < n) : ∃ i, i ≤ m ∧ Ampl g ((i : ℝ) / (2 * n)) ≠ 1 := by
  by_contra hcon
  push Not at hcon
  set P : ℝ[X] := (∑ k ∈ range ((m + 1) / 2), C (g.getD k 0 * 2) * Chebyshev.T ℝ ((m - 2 * k : ℕ) : ℤ)) - 1 with hP
  have hdeg : P.natDegree ≤ m := by
    rw [hP]
    refine (natDegree_sub_le _ _).trans (max_le ?_ (by simp))
    refine natDegree_sum_le_of_forall_le _ _ fun k _ => (natDegree_C_mul_le _ _).trans ?_
    rw [Chebyshev.natDegree_T]
    simp
  have h0 : P.eval 0 = -1 := by
    rw [hP, eval_sub, eval_finsetSum, Finset.sum_eq_zero fun k hk => ?_]
    · simp
    · rw [Finset.mem_range] at hk
      rw [eval_mul, eval_C]
      have hodd : Odd ((m - 2 * k : ℕ) : ℤ) := by rw [Int.odd_iff]; omega
      rw [Chebyshev.T_eval_zero_of_odd ℝ hodd, mul_zero]
  have hne : P ≠ 0 := by
    intro h; rw [h] at h0; simp at h0
  have hn0 : (0 : ℝ) < n := by exact_mod_cast (by omega : 0 < n)
  have hroot : ∀ i, i ≤ m → P.IsRoot (Real.cos (Real.pi * i / (2 * n))) := by
    intro i hi
    have h1 := hcon i hi
    rw [Ampl_sym g sg, rifampImpl_sym, lg, if_neg (by omega), add_zero] at h1
    rw [IsRoot.def, hP, eval_sub, eval_finsetSum, eval_one, sub_eq_zero, ← h1]
    refine Finset.sum_congr rfl fun k hk => ?_
    rw [Finset.mem_range] at hk
    rw [eval_mul, eval_C, Chebyshev.T_real_cos]
    congr 2
    have : ((m - 2 * k : ℕ) : ℝ) = (m : ℝ) - 2 * k := by rw [Nat.cast_sub (by omega)]; push_cast; ring
    rw [Int.cast_natCast, this]
    push_cast
    field_simp
    ring
  have hinj : Set.InjOn (fun i : ℕ => Real.cos (Real.pi * i / (2 * n))) (range (m + 1)) := by
    intro i hi j hj h
    simp only [Finset.coe_range, Set.mem_Iio] at hi hj
    have b : ∀ i : ℕ, i < m + 1 → Real.pi * i / (2 * n) ∈ Set.Icc 0 Real.pi := by
      intro i hi
      refine ⟨by positivity, ?_⟩
      rw [div_le_iff₀ (by positivity)]
      have : (i : ℝ) ≤ n := by exact_mod_cast (by omega : i ≤ n)
      nlinarith [Real.pi_pos]
    have := Real.injOn_cos (b i hi) (b j hj) h
    rw [div_left_inj' (by positivity), mul_right_inj' Real.pi_pos.ne'] at this
    exact_mod_cast this
  have hcard : ((range (m + 1)).image fun i : ℕ => Real.cos (Real.pi * i / (2 * n))).card = m + 1 := by
    rw [Finset.card_image_of_injOn hinj, Finset.card_range]
  have hsub : ((range (m + 1)).image fun i : ℕ => Real.cos (Real.pi * i / (2 * n))) ⊆ P.roots.toFinset := by
    intro v hv
    rw [Finset.mem_image] at hv
    obtain ⟨i, hi, rfl⟩ := hv
    rw [Finset.mem_range] at hi
    rw [Multiset.mem_toFinset, mem_roots hne]
    exact hroot i (by omega)
  have h1 := Finset.card_le_card hsub
  have h2 := (Multiset.toFinset_card_le P.roots).trans (P.card_roots')
  omega

/-- **C132 (the design returns).**  With a least-squares solver, for every odd `n ≥ 3` and every cut-off frequency `fc > 1/64`, the design returns a filter. -/
theorem C132_total (lsq : List (List ℝ) → List ℝ → Option (List ℝ)) (hl : MoindresCarres lsq) (n : ℕ) (hn : n % 2 = 1) (h3 : 3 ≤ n) (fc : ℝ) (h0 : 1 / 64 < fc) :
    ∃ h, designDemiBande lsq n fc = some h := by
  have base : ∀ m : ℕ, m % 2 = 1 → ∃ g, designRifEq lsq (m + 1) (List.replicate (16 * m) 1) (poidsDemiBande m fc) = some g := by
    intro m hm
    have hm1 : (1 : ℝ) ≤ m := by exact_mod_cast (by omega : 1 ≤ m)
    refine C131_total lsq hl (m + 1) _ _ (by simp; omega) (by simp [poidsDemiBande]) fun h lh sh => ?_
    obtain ⟨i, hi, hA⟩ := template_un m hm h lh sh (16 * m) (by omega)
    have hi2 : i < 16 * m := by omega
    refine ⟨i, by simpa using hi2, ?_, ?_⟩
    · have e : (2 * fc * ((16 * m : ℕ) : ℝ) / 0.5) = 64 * m * fc := by push_cast; ring
      have hc : (m : ℤ) < ⌈(64 * m * fc : ℝ)⌉ := by
        rw [Int.lt_ceil]
        push_cast
        nlinarith
      rw [poidsDemiBande, List.getD_eq_getElem?_getD, List.getElem?_map, List.getElem?_range hi2]
      simp only [e, Option.map_some, Option.getD_some]
      rw [if_pos]
      · norm_num
      · rw [lt_max_iff, lt_min_iff]
        right
        constructor <;> omega
    · rw [List.length_replicate, List.getD_eq_getElem?_getD, List.getElem?_replicate, if_pos hi2]
      exact hA
  unfold designDemiBande
  dsimp only
  rw [if_neg (by omega), if_neg (by omega)]
  by_cases h4 : (n - 1) / 2 % 2 = 1
  · simp only [if_pos h4]
    obtain ⟨g, e⟩ := base _ h4
    rw [e, Option.bind_some, if_pos (designRifEq_pair lsq _ (by omega) _ _ _ e).1]
    exact ⟨_, rfl⟩
  · simp only [if_neg h4]
    obtain ⟨g, e⟩ := base ((n - 1) / 2 - 1) (by omega)
    rw [e, Option.bind_some, if_pos (designRifEq_pair lsq _ (by omega) _ _ _ e).1]
    exact ⟨_, rfl⟩

/-- The hypotheses are satisfied. -/
example : ∃ lsq h, MoindresCarres lsq ∧ designDemiBande lsq 31 (1 / 5) = some h ∧ h.length = 31 := by
  obtain ⟨lsq, hl⟩ := moindres_carres_existe
  obtain ⟨h, e⟩ := C132_total lsq hl 31 (by norm_num) (by norm_num) (1 / 5) (by norm_num)
  exact ⟨lsq, h, hl, e, (C132_structure lsq 31 _ h e).2.1⟩

/-- The structure is that of an actual filter. -/
example : DemiBande (coefsDemiBande 1 [1, 1]) := coefsDemiBande_structure 1 rfl [1, 1] rfl (by intro k hk; simp at hk; interval_cases k <;> simp)

/-- With null weights, the design fails: the greatest error is null, the loop computes `0 / 0`. -/
theorem nul_poids (lsq : List (List ℝ) → List ℝ → Option (List ℝ)) (nc : ℕ) (D W : List ℝ) (hD : D ≠ []) (lW : W.length = D.length) (hW : ∀ i, i < D.length → W.getD i 0 = 0) : designRifEq lsq nc D W = none := by
  have hA : (systeme nc D.length).length = D.length := by simp [systeme]
  rw [designRifEq, if_pos lW, lsi, if_pos ⟨by simpa [systeme] using hA, lW⟩]
  change ((lsq (systeme nc D.length) D).bind _).bind _ = _
  cases lsq (systeme nc D.length) D with
  | none => rfl
  | some x0 =>
    rw [Option.bind_some]
    change (boucleLsi lsq (systeme nc D.length) D W 100 x0 _).bind _ = _
    rw [boucleLsi]
    have hE : erreurLsi (systeme nc D.length) D W x0 ≠ [] := by
      intro h; have := erreur_length (systeme nc D.length) D W hA lW x0; rw [h] at this; exact hD (List.length_eq_zero_iff.1 (by simpa using this.symm))
    have hmax : valeurMax (erreurLsi (systeme nc D.length) D W x0) = 0 := by
      obtain ⟨m1, -⟩ := valeurMax_prop _ hE
      rw [List.mem_iff_getElem] at m1
      obtain ⟨i, hi, e⟩ := m1
      rw [← e]
      have lE := erreur_length (systeme nc D.length) D W hA lW x0
      have := erreur_getD (systeme nc D.length) D W hA lW x0 i (by omega)
      rw [List.getD_eq_getElem?_getD, List.getElem?_eq_getElem hi, Option.getD_some, hW i (by omega), mul_zero] at this
      exact this
    dsimp only
    rw [if_pos hmax]
    rfl

/-- **C132 (empty pass band).**  For a null or negative cut-off frequency all the weights are null, and the design fails, for every number of coefficients. -/
theorem C132_negatif (lsq : List (List ℝ) → List ℝ → Option (List ℝ)) (n : ℕ) (fc : ℝ) (h0 : fc ≤ 0) : designDemiBande lsq n fc = none := by
  have base : ∀ m : ℕ, 0 < m → designRifEq lsq (m + 1) (List.replicate (16 * m) 1) (poidsDemiBande m fc) = none := by
    intro m hm
    refine nul_poids lsq (m + 1) _ _ (by simp; omega) (by simp [poidsDemiBande]) fun i hi => ?_
    rw [List.length_replicate] at hi
    have e : (2 * fc * ((16 * m : ℕ) : ℝ) / 0.5) = 64 * m * fc := by push_cast; ring
    have hc : ⌈(64 * m * fc : ℝ)⌉ ≤ 0 := by
      rw [Int.ceil_le]
      push_cast
      exact mul_nonpos_of_nonneg_of_nonpos (by positivity) h0
    rw [poidsDemiBande, List.getD_eq_getElem?_getD, List.getElem?_map, List.getElem?_range hi]
    simp only [e, Option.map_some, Option.getD_some]
    rw [if_neg]
    rw [lt_max_iff, lt_min_iff]
    omega
  unfold designDemiBande
  dsimp only
  split_ifs
  · rfl
  · rfl
  · rw [base _ (by omega)]; rfl
  · rw [base _ (by omega)]; rfl

/-! ### Templates -/

theorem ecrit_getD (y v : List ℝ) (i : ℕ) (h : i + v.length ≤ y.length) : ∃ z, ecrit y i v = some z ∧ z.length = y.length ∧
    ∀ j, j < y.length → z.getD j 0 = if i ≤ j ∧ j < i + v.length then v.getD (j - i) 0 else y.getD j 0 := by
  refine ⟨_, by rw [ecrit, if_pos h], by simp; omega, fun j hj => ?_⟩
  have lt : (y.take i).length = i := by rw [List.length_take]; omega
  rcases Nat.lt_or_ge j i with h1 | h1
  · rw [if_neg (by omega), List.append_assoc, List.getD_append _ _ _ _ (by omega), List.getD_eq_getElem?_getD, List.getElem?_take_of_lt h1, ← List.getD_eq_getElem?_getD]
  · rcases Nat.lt_or_ge j (i + v.length) with h2 | h2
    · rw [if_pos ⟨h1, h2⟩, List.getD_append _ _ _ _ (by rw [List.length_append]; omega), List.getD_append_right _ _ _ _ (by omega), lt]
    · rw [if_neg (by omega), List.getD_append_right _ _ _ _ (by rw [List.length_append]; omega), List.length_append, lt, List.getD_eq_getElem?_getD, List.getElem?_drop, ← List.getD_eq_getElem?_getD]
      congr 1
      omega

/-- Specification: grid index of a frequency on a grid of `l` points of `[0, 1/2)`: the nearest one, at most `l - 1`. -/
noncomputable def indice (l : ℕ) (f : ℝ) : ℕ := min (⌊2 * f * l + 1 / 2⌋).toNat (l - 1)

theorem indiceEq_val (l : ℕ) (hl : 0 < l) (f : ℝ) (hf : 0 ≤ f) : indiceEq l f = (indice l f : ℤ) := by
  have h0 : 0 ≤ 2 * f * l := by positivity
  have h1 : 0 ≤ ⌊2 * f * l + 1 / 2⌋ := Int.floor_nonneg.2 (by linarith)
  rw [indiceEq, indice, arrondi, if_pos h0]
  omega

/-- Specification: intervals in order, the next one beginning after the end of the previous one, strictly inside of the grid. -/
def Ordonnes (l : ℕ) : List SpecFreq → Prop
  | [] => True
  | [s] => 0 ≤ s.fb ∧ s.fb ≤ s.fh
  | s :: s2 :: r => 0 ≤ s.fb ∧ s.fb ≤ s.fh ∧ s.fh ≤ s2.fb ∧ 2 * s2.fb * l < l - 1 / 2 ∧ Ordonnes l (s2 :: r)

theorem indice_mono (l : ℕ) (f g : ℝ) (h : f ≤ g) : indice l f ≤ indice l g := by
  have : ⌊2 * f * l + 1 / 2⌋ ≤ ⌊2 * g * l + 1 / 2⌋ := Int.floor_le_floor (by
    have : (0 : ℝ) ≤ l := by positivity
    nlinarith)
  unfold indice
  omega

theorem indice_lt (l : ℕ) (hl : 0 < l) (f : ℝ) : indice l f < l := by
  unfold indice
  omega

theorem etape_some (l : ℕ) (hl : 0 < l) (s : SpecFreq) (h1 : 0 ≤ s.fb) (h2 : s.fb ≤ s.fh) (suiv : Option SpecFreq) (hs : ∀ s2, suiv = some s2 → s.fh ≤ s2.fb ∧ 2 * s2.fb * l < l - 1 / 2) (D W : List ℝ)
    (lD : D.length = l) (lW : W.length = l) : ∃ D' W', etapeSpec l s suiv (D, W) = some (D', W') ∧ D'.length = l ∧ W'.length = l ∧
      (∀ i, i < l → W'.getD i 0 = if indice l s.fb ≤ i ∧ i ≤ indice l s.fh then s.poids + 1e-10 else W.getD i 0) ∧
      (∀ i, i < indice l s.fb → D'.getD i 0 = D.getD i 0) ∧
      (∀ i, i < l → (∀ s2, suiv = some s2 → indice l s2.fb < i) → indice l s.fh < i → D'.getD i 0 = D.getD i 0) ∧
      (∀ i, indice l s.fb ≤ i → i ≤ indice l s.fh → D'.getD i 0 = s.atten) ∧
      (∀ s2, suiv = some s2 → ∀ i, indice l s.fh < i → i ≤ indice l s2.fb →
        D'.getD i 0 = s.atten + ((i : ℝ) - indice l s.fh) * ((s2.atten - s.atten) / ((indice l s2.fb : ℝ) - indice l s.fh))) := by
  set ib := indice l s.fb with hib
  set ih := indice l s.fh with hih
  have hbh : ib ≤ ih := indice_mono l _ _ h2
  have hhl : ih < l := indice_lt l hl _
  have eb : indiceEq l s.fb = (ib : ℤ) := indiceEq_val l hl _ h1
  have eh : indiceEq l s.fh = (ih : ℤ) := indiceEq_val l hl _ (h1.trans h2)
  have segm : ∀ (y : List ℝ) (v : ℝ), y.length = l → ∃ z, segmentCst y ib ((ih : ℤ) - ib + 1) v = some z ∧ z.length = l ∧ ∀ j, j < l → z.getD j 0 = if ib ≤ j ∧ j ≤ ih then v else y.getD j 0 := by
    intro y v ly
    obtain ⟨z, e, lz, gz⟩ := ecrit_getD y (List.replicate (ih - ib + 1) v) ib (by rw [List.length_replicate, ly]; omega)
    refine ⟨z, ?_, by omega, fun j hj => ?_⟩
    · rw [segmentCst, if_pos (by omega), segment, if_pos (by omega), Int.toNat_natCast, show ((ih : ℤ) - ib + 1).toNat = ih - ib + 1 by omega, e]
    · rw [gz j (by omega), List.length_replicate]
      by_cases hc : ib ≤ j ∧ j ≤ ih
      · rw [if_pos hc, if_pos (by omega), List.getD_eq_getElem?_getD, List.getElem?_replicate, if_pos (by omega)]; rfl
      · rw [if_neg hc, if_neg (by omega)]
  obtain ⟨D1, e1, l1, g1⟩ := segm D s.atten lD
  obtain ⟨W1, e2, l2, g2⟩ := segm W (s.poids + 1e-10) lW
  cases suiv with
  | none =>
    refine ⟨D1, W1, ?_, l1, l2, g2, fun i hi => ?_, fun i hi _ h => ?_, fun i h3 h4 => ?_, fun s2 h => by simp at h⟩
    · simp only [etapeSpec, eb, eh, e1, e2, Option.bind_eq_bind, Option.bind_some]
    · rw [g1 i (by omega), if_neg (by omega)]
    · rw [g1 i hi, if_neg (by omega)]
    · rw [g1 i (by omega), if_pos ⟨h3, h4⟩]
  | some s2 =>
    obtain ⟨h3, h4⟩ := hs s2 rfl
    set ib2 := indice l s2.fb with hib2
    have hle : ih ≤ ib2 := indice_mono l _ _ h3
    have hl2 : ib2 < l := indice_lt l hl _
    have ea : arrondi (2 * s2.fb * l) = (ib2 : ℤ) := by
      have h0 : 0 ≤ 2 * s2.fb * l := by
        have : 0 ≤ s2.fb := by linarith
        positivity
      have h5 : 0 ≤ ⌊2 * s2.fb * l + 1 / 2⌋ := Int.floor_nonneg.2 (by linarith)
      have h6 : ⌊2 * s2.fb * l + 1 / 2⌋ ≤ (l : ℤ) - 1 := by
        have : ⌊2 * s2.fb * l + 1 / 2⌋ < (l : ℤ) := by
          rw [Int.floor_lt]; push_cast; linarith
        omega
      rw [arrondi, if_pos h0, hib2, indice]
      omega
    obtain ⟨k1, k2, -⟩ := Util.C33_linspace s.atten s2.atten (ib2 - ih + 1)
    obtain ⟨D2, e3, l3, g3⟩ := ecrit_getD D1 (Util.linspace s.atten s2.atten (ib2 - ih + 1)) ih (by rw [k1, l1]; omega)
    have gv : ∀ i, ih ≤ i → i ≤ ib2 → D2.getD i 0 = s.atten + ((i : ℝ) - ih) * ((s2.atten - s.atten) / ((ib2 : ℝ) - ih)) := by
      intro i h5 h6
      rw [g3 i (by omega), if_pos (by rw [k1]; omega), List.getD_eq_getElem?_getD, k2 _ (by omega), Option.getD_some, Nat.cast_sub h5]
      push_cast
      rw [Nat.cast_sub hle]
      ring
    refine ⟨D2, W1, ?_, by omega, l2, g2, fun i hi => ?_, fun i hi h5 h => ?_, fun i h5 h6 => ?_, fun s3 h i h5 h6 => ?_⟩
    · simp only [etapeSpec, eb, eh, e1, e2, ea, Option.bind_eq_bind, Option.bind_some]
      rw [if_pos (by omega), segment, if_pos (by omega), Int.toNat_natCast, show ((ib2 : ℤ) - ih + 1).toNat = ib2 - ih + 1 by omega, e3]
      rfl
    · rw [g3 i (by omega), if_neg (by omega), g1 i (by omega), if_neg (by omega)]
    · have := h5 s2 rfl
      rw [g3 i (by omega), if_neg (by rw [k1]; omega), g1 i hi, if_neg (by omega)]
    · rcases Nat.lt_or_ge i ih with h7 | h7
      · rw [g3 i (by omega), if_neg (by omega), g1 i (by omega), if_pos ⟨h5, h6⟩]
      · have : i = ih := by omega
        subst this
        rw [gv _ le_rfl hle]
        simp
    · simp only [Option.some.injEq] at h
      subst h
      exact gv i (by omega) h6

/-- Specification of a template: `D` and `W` conform to the intervals. -/
def Conforme (l : ℕ) (spec : List SpecFreq) (D W : List ℝ) : Prop :=
  (∀ a s r, spec = a ++ s :: r → ∀ i, indice l s.fb ≤ i → i ≤ indice l s.fh → (∀ s2 ∈ r.head?, i < indice l s2.fb) → D.getD i 0 = s.atten ∧ W.getD i 0 = s.poids + 1e-10) ∧
  (∀ a s s2 r, spec = a ++ s :: s2 :: r → ∀ i, indice l s.fh < i → i < indice l s2.fb →
    D.getD i 0 = s.atten + ((i : ℝ) - indice l s.fh) * ((s2.atten - s.atten) / ((indice l s2.fb : ℝ) - indice l s.fh)) ∧ W.getD i 0 = 1e-10)

theorem boucle_conforme (l : ℕ) (hl : 0 < l) (spec : List SpecFreq) (ho : Ordonnes l spec) (D W : List ℝ) (lD : D.length = l) (lW : W.length = l)
    (hW : ∀ s, spec.head? = some s → ∀ i, i < l → indice l s.fb < i → W.getD i 0 = 1e-10) :
    ∃ D' W', boucleSpec l spec (D, W) = some (D', W') ∧ D'.length = l ∧ W'.length = l ∧ Conforme l spec D' W' ∧
      (∀ i, (∀ s ∈ spec.head?, i < indice l s.fb) → i < l → D'.getD i 0 = D.getD i 0 ∧ W'.getD i 0 = W.getD i 0) ∧
      (∀ i, i < l → (∀ s ∈ spec, indice l s.fh < i) → D'.getD i 0 = D.getD i 0 ∧ W'.getD i 0 = W.getD i 0) := by
  induction spec generalizing D W with
  | nil =>
    refine ⟨D, W, rfl, lD, lW, ⟨fun a s r h => ?_, fun a s s2 r h => ?_⟩, fun _ _ _ => ⟨rfl, rfl⟩, fun _ _ _ => ⟨rfl, rfl⟩⟩
    · simp at h
    · simp at h
  | cons s r ih =>
    have hfirst : 0 ≤ s.fb ∧ s.fb ≤ s.fh ∧ (∀ s2, r.head? = some s2 → s.fh ≤ s2.fb ∧ 2 * s2.fb * l < l - 1 / 2) ∧ Ordonnes l r := by
      cases r with
      | nil => exact ⟨ho.1, ho.2, by simp, trivial⟩
      | cons s2 r => exact ⟨ho.1, ho.2.1, fun s3 h => by simp only [List.head?_cons, Option.some.injEq] at h; subst h; exact ⟨ho.2.2.1, ho.2.2.2.1⟩, ho.2.2.2.2⟩
    obtain ⟨f1, f2, f3, f4⟩ := hfirst
    obtain ⟨D1, W1, e1, l1, l2, g1, g2, g3, g4, g5⟩ := etape_some l hl s f1 f2 r.head? f3 D W lD lW
    have hbh : indice l s.fb ≤ indice l s.fh := indice_mono l _ _ f2
    have hnext : ∀ s2, r.head? = some s2 → indice l s.fh ≤ indice l s2.fb := fun s2 h => indice_mono l _ _ (f3 s2 h).1
    obtain ⟨D2, W2, e2, l3, l4, c, u, v⟩ := ih f4 D1 W1 l1 l2 (fun s2 h i hi h2 => by
      have := hnext s2 h
      rw [g1 i hi, if_neg (by omega), hW s rfl i hi (by omega)])
    have hlt : ∀ f, indice l f < l := indice_lt l hl
    refine ⟨D2, W2, by rw [boucleSpec, e1, Option.bind_some, e2], l3, l4, ⟨?_, ?_⟩, ?_, ?_⟩
    · intro a t q h i h1 h2 h3
      cases a with
      | nil =>
        simp only [List.nil_append, List.cons.injEq] at h
        obtain ⟨rfl, rfl⟩ := h
        have hil : i < l := h2.trans_lt (hlt _)
        obtain ⟨u1, u2⟩ := u i h3 hil
        rw [u1, u2, g4 i h1 h2, g1 i hil, if_pos ⟨h1, h2⟩]
        exact ⟨rfl, rfl⟩
      | cons t' a =>
        simp only [List.cons_append, List.cons.injEq] at h
        exact c.1 a t q h.2 i h1 h2 h3
    · intro a t t2 q h i h1 h2
      cases a with
      | nil =>
        simp only [List.nil_append, List.cons.injEq] at h
        obtain ⟨rfl, rfl⟩ := h
        have hil : i < l := h2.trans (hlt _)
        obtain ⟨u1, u2⟩ := u i (by simpa using h2) hil
        rw [u1, u2, g5 t2 rfl i h1 h2.le, g1 i hil, if_neg (by omega), hW s rfl i hil (by omega)]
        exact ⟨rfl, rfl⟩
      | cons t' a =>
        simp only [List.cons_append, List.cons.injEq] at h
        exact c.2 a t t2 q h.2 i h1 h2
    · intro i h1 hil
      have h1 := h1 s rfl
      obtain ⟨u1, u2⟩ := u i (fun s2 h2 => by have := hnext s2 h2; omega) hil
      rw [u1, u2, g2 i h1, g1 i hil, if_neg (by omega)]
      exact ⟨rfl, rfl⟩
    · intro i hil h1
      have h2 := h1 s (by simp)
      obtain ⟨u1, u2⟩ := v i hil fun s2 hs2 => h1 s2 (by simp [hs2])
      rw [u1, u2, g3 i hil ?_ h2, g1 i hil, if_neg (by omega)]
      · exact ⟨rfl, rfl⟩
      · intro s2 hs2
        have h3 := h1 s2 (List.mem_cons_of_mem _ (List.mem_of_mem_head? hs2))
        have h4 : s2.fb ≤ s2.fh := by
          cases r with
          | nil => simp at hs2
          | cons t r =>
            simp only [List.head?_cons, Option.some.injEq] at hs2
            subst hs2
            cases r with
            | nil => exact f4.2
            | cons => exact f4.2.1
        exact (indice_mono l _ _ h4).trans_lt h3

/-- **C133 (template).**  For every number of coefficients and every list of frequency intervals in order inside of `[0, 1/2)`, the template and weights given to the equiripple design have `16 nc` points (point
`i` at the frequency `i/(32 nc)`): on each interval, the amplitude and the weight of the interval (plus `10⁻¹⁰`); between two intervals, the linear interpolation of the amplitudes, with the weight `10⁻¹⁰`;
and 1, with the weight `10⁻¹⁰`, outside. -/
theorem C133_gabarit_partial (nc : ℕ) (hn : 0 < nc) (spec : List SpecFreq) (ho : Ordonnes (16 * nc) spec) : ∃ D W, gabaritEq nc spec = some (D, W) ∧ D.length = 16 * nc ∧ W.length = 16 * nc ∧
    Conforme (16 * nc) spec D W ∧
    ∀ i, i < 16 * nc → (∀ s ∈ spec.head?, i < indice (16 * nc) s.fb) ∨ (∀ s ∈ spec, indice (16 * nc) s.fh < i) → D.getD i 0 = 1 ∧ W.getD i 0 = 1e-10 := by
  have rep : ∀ (v : ℝ) (i : ℕ), i < 16 * nc → (List.replicate (16 * nc) v).getD i 0 = v := by
    intro v i hi
    rw [List.getD_eq_getElem?_getD, List.getElem?_replicate, if_pos hi]; rfl
  obtain ⟨D, W, e, l1, l2, c, u, v⟩ := boucle_conforme (16 * nc) (by omega) spec ho (List.replicate (16 * nc) 1) (List.replicate (16 * nc) 1e-10) (by simp) (by simp) (fun s _ i hi _ => rep _ i hi)
  refine ⟨D, W, e, l1, l2, c, fun i hi h => ?_⟩
  rcases h with h | h
  · obtain ⟨a, b⟩ := u i h hi
    rw [a, b, rep _ i hi, rep _ i hi]; exact ⟨rfl, rfl⟩
  · obtain ⟨a, b⟩ := v i hi h
    rw [a, b, rep _ i hi, rep _ i hi]; exact ⟨rfl, rfl⟩

/-- **C133 (refuted: interval at the Nyquist frequency).**  A second interval reduced to the frequency 1/2 (a null wanted at the Nyquist frequency) makes the design fail, whatever the solver and the number of
coefficients: the index of the transition is not clamped. -/
theorem C133_nyquist_refute (lsq : List (List ℝ) → List ℝ → Option (List ℝ)) (nc : ℕ) (hn : 0 < nc) : designRifEqSpec lsq nc [⟨0, 1 / 4, 1, 1⟩, ⟨1 / 2, 1 / 2, 0, 1⟩] = none := by
  have hl : (0 : ℝ) < ((16 * nc : ℕ) : ℝ) := by exact_mod_cast (by omega : 0 < 16 * nc)
  have a1 : arrondi (2 * (1 / 2) * ((16 * nc : ℕ) : ℝ)) = ((16 * nc : ℕ) : ℤ) := by
    rw [arrondi, if_pos (by positivity), Int.floor_eq_iff]
    push_cast
    constructor <;> linarith
  have e0 : indiceEq (16 * nc) 0 = (0 : ℕ) := by rw [indiceEq_val _ (by omega) _ le_rfl, indice]; norm_num
  have e1 : indiceEq (16 * nc) (1 / 4) = ((indice (16 * nc) (1 / 4) : ℕ) : ℤ) := indiceEq_val _ (by omega) _ (by norm_num)
  have hlt := indice_lt (16 * nc) (by omega) (1 / 4)
  unfold designRifEqSpec gabaritEq
  rw [boucleSpec, Option.bind_eq_none_iff]
  intro DW h
  exfalso
  rw [Option.bind_eq_some_iff] at h
  obtain ⟨DW1, h, -⟩ := h
  simp only [etapeSpec, List.head?_cons, e0, e1, a1, Option.bind_eq_bind, Option.bind_eq_some_iff] at h
  obtain ⟨D1, hD1, W1, -, h⟩ := h
  rw [if_pos (by omega), Option.map_eq_some_iff] at h
  obtain ⟨D2, h, -⟩ := h
  have lD1 : D1.length = 16 * nc := by
    unfold segmentCst segment ecrit at hD1
    split_ifs at hD1
    simp only [Option.some.injEq] at hD1
    rw [← hD1]
    simp only [List.length_append, List.length_take, List.length_drop, List.length_replicate]
    omega
  unfold segment ecrit at h
  rw [if_pos (by omega), (Util.C33_linspace _ _ _).1, lD1, if_neg (by omega)] at h
  simp at h

/-- A low-pass template. -/
example : Ordonnes (16 * 15) [⟨0, 1 / 5, 1, 1⟩, ⟨1 / 4, 1 / 2, 0, 1⟩] := by
  refine ⟨le_rfl, by norm_num, by norm_num, by norm_num, by norm_num, by norm_num⟩

end Verif.Conception
