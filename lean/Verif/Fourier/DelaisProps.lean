/-
C72 (delay estimation), C73 (alignment).
-/
import Verif.Fourier.Delais
import Verif.Fourier.CorrProps
import Verif.Fourier.FreqProps
import Verif.Fourier.OlaProps
import Mathlib.Topology.Algebra.InfiniteSum.Basic
import Mathlib.Algebra.Order.BigOperators.Ring.Finset

namespace Verif.Fourier

open Finset

/-! ### Correlation of finitely supported signals -/

/-- Signal with all its samples in `[0, n)`. -/
def Borne (n : ℕ) (u : ℤ → ℂ) : Prop := ∀ k, u k ≠ 0 → 0 ≤ k ∧ k < n

theorem ech_borne (x : List ℂ) (n : ℕ) (h : x.length ≤ n) : Borne n (ech x) := by
  intro k hk
  unfold ech at hk
  split at hk
  · rename_i h0
    refine ⟨h0, ?_⟩
    by_contra hc
    apply hk
    rw [List.getD_eq_default]
    omega
  · exact absurd rfl hk

theorem ech_pad (x : List ℂ) (m : ℕ) (k : ℤ) : ech (x ++ List.replicate m 0) k = ech x k := by
  unfold ech
  split
  · rcases Nat.lt_or_ge k.toNat x.length with h | h
    · rw [List.getD_append _ _ _ _ h]
    · rw [List.getD_append_right _ _ _ _ h, List.getD_eq_default x _ h, List.getD_eq_getElem?_getD, List.getElem?_replicate]
      split <;> rfl
  · rfl

noncomputable def inter (n : ℕ) (u v : ℤ → ℂ) (τ : ℤ) : ℂ := ∑ k ∈ Ico (0 : ℤ) n, u k * star (v (k + τ))

noncomputable def energie (n : ℕ) (u : ℤ → ℂ) : ℝ := ∑ k ∈ Ico (0 : ℤ) n, ‖u k‖ ^ 2

theorem sum_Ico_range {M : Type} [AddCommMonoid M] (n : ℕ) (f : ℤ → M) :
    ∑ k ∈ Ico (0 : ℤ) n, f k = ∑ j ∈ range n, f j := by
  symm
  refine sum_bij (fun (j : ℕ) _ => (j : ℤ)) ?_ ?_ ?_ ?_
  · intro a ha; have := mem_range.1 ha; simp only [mem_Ico]; omega
  · intro a _ b _ h; exact_mod_cast h
  · intro b hb
    have := mem_Ico.1 hb
    exact ⟨b.toNat, mem_range.2 (by omega), by omega⟩
  · intro a _; rfl

theorem corr_inter (x y : List ℂ) (τ : ℤ) : corrLineaire x y τ = inter x.length (ech x) (ech y) τ := by
  unfold corrLineaire inter
  rw [sum_Ico_range]
  apply sum_congr rfl
  intro k _
  have e : ech x k = x.getD k 0 := by unfold ech; rw [if_pos (by omega)]; rfl
  rw [e]
  unfold ech
  by_cases h0 : 0 ≤ (k : ℤ) + τ
  · rw [if_pos h0]
    by_cases h1 : (k : ℤ) + τ < y.length
    · rw [if_pos ⟨h0, h1⟩]
    · rw [if_neg (fun h => h1 h.2), List.getD_eq_default y _ (by omega)]; simp
  · rw [if_neg (fun h => h0 h.1), if_neg h0]; simp

theorem energie_liste (x : List ℂ) : (x.map fun v => ‖v‖ ^ 2).sum = energie x.length (ech x) := by
  unfold energie
  rw [sum_Ico_range]
  have : ∀ j ∈ range x.length, ‖ech x j‖ ^ 2 = ‖x.getD j 0‖ ^ 2 := by
    intro j _; unfold ech; rw [if_pos (by omega)]; rfl
  rw [sum_congr rfl this]
  clear this
  induction x with
  | nil => simp
  | cons a l ih =>
    rw [List.map_cons, List.sum_cons, ih, List.length_cons, sum_range_succ']
    simp only [List.getD_cons_succ, List.getD_cons_zero]
    ring

/-- A sum of non negative terms over a shifted part of the support. -/
theorem somme_decalee (n : ℕ) (v : ℤ → ℂ) (hv : Borne n v) (S : Finset ℤ) (τ : ℤ) :
    ∑ k ∈ S, ‖v (k + τ)‖ ^ 2 ≤ energie n v := by
  have h1 : ∑ k ∈ S, ‖v (k + τ)‖ ^ 2 = ∑ m ∈ S.map (addRightEmbedding τ), ‖v m‖ ^ 2 := by
    rw [sum_map]; rfl
  rw [h1]
  unfold energie
  have h2 : ∑ m ∈ S.map (addRightEmbedding τ), ‖v m‖ ^ 2 = ∑ m ∈ (S.map (addRightEmbedding τ)).filter (fun m => v m ≠ 0), ‖v m‖ ^ 2 := by
    rw [sum_filter_of_ne]
    intro m _ hm hc
    apply hm; rw [hc]; simp
  rw [h2]
  apply sum_le_sum_of_subset_of_nonneg
  · intro m hm
    have := hv m (mem_filter.1 hm).2
    exact mem_Ico.2 this
  · intros; positivity

theorem cauchy (S : Finset ℤ) (u v : ℤ → ℂ) : ‖∑ k ∈ S, u k * star (v k)‖ ^ 2 ≤ (∑ k ∈ S, ‖u k‖ ^ 2) * ∑ k ∈ S, ‖v k‖ ^ 2 := by
  calc ‖∑ k ∈ S, u k * star (v k)‖ ^ 2 ≤ (∑ k ∈ S, ‖u k‖ * ‖v k‖) ^ 2 := by
        gcongr
        refine (norm_sum_le _ _).trans (sum_le_sum fun k _ => ?_)
        rw [norm_mul, norm_star]
    _ ≤ _ := sum_mul_sq_le_sq_mul_sq S _ _

theorem inter_borne (n : ℕ) (u v : ℤ → ℂ) (hv : Borne n v) (τ : ℤ) : ‖inter n u v τ‖ ^ 2 ≤ energie n u * energie n v := by
  refine (cauchy (Ico (0 : ℤ) n) u (fun k => v (k + τ))).trans ?_
  refine mul_le_mul_of_nonneg_left (somme_decalee n v hv _ τ) (sum_nonneg fun _ _ => by positivity)

theorem inter_tsum (n : ℕ) (u v : ℤ → ℂ) (hu : Borne n u) (τ : ℤ) : inter n u v τ = ∑' k : ℤ, u k * star (v (k + τ)) := by
  unfold inter
  rw [tsum_eq_sum]
  intro k hk
  by_contra hc
  exact hk (mem_Ico.2 (hu k fun h => hc (by rw [h, zero_mul])))

theorem energie_pos (n : ℕ) (u : ℤ → ℂ) (hu : Borne n u) (h : ∃ k, u k ≠ 0) : 0 < energie n u := by
  obtain ⟨k, hk⟩ := h
  refine sum_pos' (fun _ _ => by positivity) ⟨k, mem_Ico.2 (hu k hk), ?_⟩
  have := norm_pos_iff.2 hk
  positivity

/-- The auto-correlation is strictly smaller away from 0. -/
theorem auto_stricte (n : ℕ) (u : ℤ → ℂ) (hu : Borne n u) (h : ∃ k, u k ≠ 0) (s : ℤ) (hs : s ≠ 0) :
    ‖inter n u u s‖ < energie n u := by
  have hE := energie_pos n u hu h
  set S := (Ico (0 : ℤ) n).filter (fun k => u k ≠ 0) with hS
  have memS : ∀ k, k ∈ S ↔ u k ≠ 0 := by
    intro k
    rw [hS, mem_filter]
    exact ⟨fun h => h.2, fun h => ⟨mem_Ico.2 (hu k h), h⟩⟩
  have hne : S.Nonempty := by obtain ⟨k, hk⟩ := h; exact ⟨k, (memS k).2 hk⟩
  obtain ⟨k0, hk0, hk1⟩ : ∃ k0 ∈ S, k0 - s ∉ S := by
    rcases lt_or_gt_of_ne hs with h | h
    · exact ⟨S.max' hne, S.max'_mem hne, fun hc => by have := S.le_max' _ hc; omega⟩
    · exact ⟨S.min' hne, S.min'_mem hne, fun hc => by have := S.min'_le _ hc; omega⟩
  have hI : inter n u u s = ∑ k ∈ S, u k * star (u (k + s)) := by
    unfold inter
    rw [hS, sum_filter_of_ne]
    intro k _ hk hc
    apply hk; rw [hc, zero_mul]
  have hES : energie n u = ∑ k ∈ S, ‖u k‖ ^ 2 := by
    unfold energie
    rw [hS, sum_filter_of_ne]
    intro k _ hk hc
    apply hk; rw [hc]; simp
  have hshift : ∑ k ∈ S, ‖u (k + s)‖ ^ 2 ≤ energie n u - ‖u k0‖ ^ 2 := by
    have e1 : energie n u - ‖u k0‖ ^ 2 = energie n (fun k => if k = k0 then 0 else u k) := by
      unfold energie
      rw [← sum_erase_add _ _ (mem_Ico.2 (hu k0 ((memS k0).1 hk0))), add_sub_cancel_right,
        ← sum_erase_add _ _ (mem_Ico.2 (hu k0 ((memS k0).1 hk0)))]
      simp only [if_true, norm_zero]
      have hcong : ∀ k ∈ (Ico (0 : ℤ) n).erase k0, ‖if k = k0 then 0 else u k‖ ^ 2 = ‖u k‖ ^ 2 := by
        intro k hk; rw [if_neg (mem_erase.1 hk).1]
      rw [sum_congr rfl hcong]
      simp
    rw [e1]
    have e2 : ∑ k ∈ S, ‖u (k + s)‖ ^ 2 = ∑ k ∈ S, ‖(fun k => if k = k0 then 0 else u k) (k + s)‖ ^ 2 := by
      apply sum_congr rfl
      intro k hk
      simp only
      rw [if_neg]
      intro hc
      apply hk1
      rw [← hc, add_sub_cancel_right]; exact hk
    rw [e2]
    refine somme_decalee n (fun k => if k = k0 then 0 else u k) ?_ S s
    intro k hk
    simp only at hk
    split at hk
    · exact absurd rfl hk
    · exact hu k hk
  have hpos : 0 < ‖u k0‖ ^ 2 := by
    have := norm_pos_iff.2 ((memS k0).1 hk0)
    positivity
  have h2 : ‖inter n u u s‖ ^ 2 < energie n u ^ 2 := by
    rw [hI]
    calc _ ≤ (∑ k ∈ S, ‖u k‖ ^ 2) * ∑ k ∈ S, ‖u (k + s)‖ ^ 2 := cauchy S u (fun k => u (k + s))
      _ ≤ energie n u * (energie n u - ‖u k0‖ ^ 2) := by rw [← hES]; gcongr
      _ < _ := by nlinarith
  exact lt_of_pow_lt_pow_left₀ 2 hE.le h2

theorem auto_symetrique (n : ℕ) (u : ℤ → ℂ) (hu : Borne n u) (s : ℤ) : ‖inter n u u (-s)‖ = ‖inter n u u s‖ := by
  have : inter n u u (-s) = star (inter n u u s) := by
    rw [inter_tsum n u u hu s, ← (Equiv.addRight (-s)).tsum_eq, inter_tsum n u u hu (-s)]
    have hstar : star (∑' k : ℤ, u ((Equiv.addRight (-s)) k) * star (u ((Equiv.addRight (-s)) k + s)))
        = ∑' k : ℤ, star (u ((Equiv.addRight (-s)) k) * star (u ((Equiv.addRight (-s)) k + s))) := tsum_star
    rw [hstar]
    apply tsum_congr
    intro k
    simp only [Equiv.coe_addRight, star_mul, star_star, neg_add_cancel_right]
  rw [this, norm_star]

theorem auto_zero (n : ℕ) (u : ℤ → ℂ) : inter n u u 0 = (energie n u : ℂ) := by
  unfold inter energie
  push_cast
  apply sum_congr rfl
  intro k _
  rw [add_zero]
  show u k * (starRingEnd ℂ) (u k) = _
  rw [Complex.mul_conj, Complex.normSq_eq_norm_sq]
  push_cast; rfl

/-! ### Index of the maximum: the first one -/

theorem indexMaxDe_premier (l : List ℝ) (i b : ℕ) (vb : ℝ) :
    (indexMaxDe l i b vb = b) ∨
      ∃ j, indexMaxDe l i b vb = i + j ∧ j < l.length ∧ vb < l.getD j 0 ∧ ∀ t, t < j → l.getD t 0 < l.getD j 0 := by
  induction l generalizing i b vb with
  | nil => left; rfl
  | cons v l ih =>
    unfold indexMaxDe
    split
    · rename_i h
      right
      rcases ih (i + 1) i v with e | ⟨j, e, hj, h1, h2⟩
      · exact ⟨0, by simpa using e, by simp, by simpa using h, by simp⟩
      · refine ⟨j + 1, by rw [e]; ring, by simpa using hj, ?_, ?_⟩
        · rw [List.getD_cons_succ]; linarith
        · intro t ht
          rw [List.getD_cons_succ]
          cases t with
          | zero => simpa using h1
          | succ t => rw [List.getD_cons_succ]; exact h2 t (by omega)
    · rename_i h
      have h := not_lt.1 h
      rcases ih (i + 1) b vb with e | ⟨j, e, hj, h1, h2⟩
      · left; exact e
      · right
        refine ⟨j + 1, by rw [e]; ring, by simpa using hj, ?_, ?_⟩
        · rw [List.getD_cons_succ]; exact h1
        · intro t ht
          rw [List.getD_cons_succ]
          cases t with
          | zero => rw [List.getD_cons_zero]; linarith
          | succ t => rw [List.getD_cons_succ]; exact h2 t (by omega)

theorem indexMax_premier (l : List ℝ) (t : ℕ) (ht : t < indexMax l) : l.getD t 0 < l.getD (indexMax l) 0 := by
  cases l with
  | nil => simp [indexMax] at ht
  | cons v l =>
    change t < indexMaxDe l 1 0 v at ht
    show (v :: l).getD t 0 < (v :: l).getD (indexMaxDe l 1 0 v) 0
    rcases indexMaxDe_premier l 1 0 v with e | ⟨j, e, hj, h1, h2⟩
    · omega
    · rw [e, Nat.add_comm, List.getD_cons_succ]
      cases t with
      | zero => simpa using h1
      | succ t => rw [List.getD_cons_succ]; exact h2 t (by omega)

theorem indexMax_max (l : List ℝ) (t : ℕ) (ht : t < l.length) : l.getD t 0 ≤ l.getD (indexMax l) 0 := by
  refine (indexMax_spec l (by omega)).2 _ ?_
  rw [List.getD_eq_getElem _ _ ht]; exact List.getElem_mem _

/-! ### C72 -/

/-- The result of `estimation_délais` from the normalised correlation. -/
theorem estim_forme (x y : List ℂ) (N : ℕ) (hN : N = max x.length y.length) (h0 : 0 < N) (hb : 3 * N ≤ 2 ^ 29) :
    ∃ cn : List ℝ, cn.length = 2 * N - 1 ∧
      (∀ i, i < 2 * N - 1 → cn.getD i 0 = ‖inter N (ech x) (ech y) ((i : ℤ) - ((N : ℤ) - 1))‖ /
        (Real.sqrt (energie N (ech x)) * Real.sqrt (energie N (ech y)) + N / 10 ^ 50)) ∧
      ((0 < indexMax cn ∧ indexMax cn + 1 < cn.length → ∀ δ,
          qintLoc (cn.getD (indexMax cn - 1) 0) (cn.getD (indexMax cn) 0) (cn.getD (indexMax cn + 1) 0) = some δ → |δ| ≤ 1 / 2 →
          estimationDelais x y = some ((indexMax cn : ℝ) - ((N : ℝ) - 1) + δ, cn.getD (indexMax cn) 0)) ∧
        (¬ (0 < indexMax cn ∧ indexMax cn + 1 < cn.length) →
          estimationDelais x y = some ((indexMax cn : ℝ) - ((N : ℝ) - 1), cn.getD (indexMax cn) 0))) := by
  set xp := x ++ List.replicate (N - x.length) (0 : ℂ) with hxp
  set yp := y ++ List.replicate (N - y.length) (0 : ℂ) with hyp
  have lx : xp.length = N := by simp [hxp]; omega
  have ly : yp.length = N := by simp [hyp]; omega
  have ex : ech xp = ech x := by ext k; exact ech_pad x _ k
  have ey : ech yp = ech y := by ext k; exact ech_pad y _ k
  have hpad : padZeros x y false = some (xp, yp) := by
    unfold padZeros
    simp only [Bool.false_eq_true, false_and, if_false, ← hN, ← hxp, ← hyp]
  have hne : yp ≠ [] := by intro h; rw [h] at ly; simp at ly; omega
  obtain ⟨lags, c, e, l1, l2, g⟩ := C48_xcorrb xp yp N h0 (by omega) (by omega) (.inr (by omega))
  rw [← lx, ← (C48_defaut xp yp (-1) (by norm_num)).1] at e
  have hnr : (0 : ℝ) < N := by exact_mod_cast h0
  set cn := c.map fun c => ‖c‖ / (rms xp * rms yp + 1 / 10 ^ 50) with hcn
  have lcn : cn.length = 2 * N - 1 := by rw [hcn, List.length_map, l2]
  have hrms : rms xp * rms yp = Real.sqrt (energie N (ech x)) * Real.sqrt (energie N (ech y)) / N := by
    unfold rms
    rw [energie_liste, energie_liste, lx, ly, ex, ey, Real.sqrt_div' _ hnr.le, Real.sqrt_div' _ hnr.le, div_mul_div_comm,
      Real.mul_self_sqrt hnr.le]
  have hg : ∀ i, i < 2 * N - 1 → cn.getD i 0 = ‖inter N (ech x) (ech y) ((i : ℤ) - ((N : ℤ) - 1))‖ /
        (Real.sqrt (energie N (ech x)) * Real.sqrt (energie N (ech y)) + N / 10 ^ 50) := by
    intro i hi
    rw [hcn, List.getD_eq_getElem _ _ (by rw [List.length_map]; omega), List.getElem_map, ← List.getD_eq_getElem c 0 (by omega),
      (g i hi).2, if_neg hne, corr_inter, lx, ex, ey, norm_div, Complex.norm_natCast, hrms, div_div]
    congr 1
    field_simp
  have hsp := indexMax_spec cn (by omega)
  have hlag : lags[indexMax cn]? = some (((indexMax cn : ℝ) - ((N : ℝ) - 1) : ℝ) : ℂ) := by
    rw [List.getElem?_eq_getElem (by omega), ← List.getD_eq_getElem lags 0 (by omega), (g _ (by omega)).1]
    push_cast; rfl
  have hget : ∀ i, i < cn.length → cn[i]? = some (cn.getD i 0) := by
    intro i hi; rw [List.getElem?_eq_getElem hi, List.getD_eq_getElem _ _ hi]
  refine ⟨cn, lcn, hg, ?_, ?_⟩
  · intro hint δ hδ hδb
    unfold estimationDelais
    simp only [hpad, e, Option.bind_eq_bind, Option.bind_some, ← hcn, hget _ hsp.1, hlag]
    rw [if_pos hint, hget _ (by omega), hget _ hint.2]
    simp only [Option.bind_some, hδ]
    rw [if_neg]
    · rw [Complex.ofReal_re]
    · have := abs_le.1 hδb
      rintro (h | h) <;> linarith
  · intro hint
    unfold estimationDelais
    simp only [hpad, e, Option.bind_eq_bind, Option.bind_some, ← hcn, hget _ hsp.1, hlag]
    rw [if_neg hint, Complex.ofReal_re]

/-- **C72 (well defined).**  For all non empty signals (of total size compatible with the FFT), the estimation returns a number, a delay
between `-(N-1)` and `N-1` (`N` the longest length) and a score between 0 and 1. -/
theorem C72_bornes (x y : List ℂ) (N : ℕ) (hN : N = max x.length y.length) (h0 : 0 < N) (hb : 3 * N ≤ 2 ^ 29) :
    ∃ d s, estimationDelais x y = some (d, s) ∧ 0 ≤ s ∧ s ≤ 1 ∧ |d| ≤ (N : ℝ) - 1 := by
  obtain ⟨cn, lcn, hg, h1, h2⟩ := estim_forme x y N hN h0 hb
  have hnr : (1 : ℝ) ≤ N := by exact_mod_cast h0
  have hD : 0 < Real.sqrt (energie N (ech x)) * Real.sqrt (energie N (ech y)) + (N : ℝ) / 10 ^ 50 := by positivity
  have hsp := indexMax_spec cn (by omega)
  have hs0 : 0 ≤ cn.getD (indexMax cn) 0 := by rw [hg _ (by omega)]; positivity
  have hs1 : cn.getD (indexMax cn) 0 ≤ 1 := by
    rw [hg _ (by omega), div_le_one hD]
    have hcs := inter_borne N (ech x) (ech y) (ech_borne y N (by omega)) ((indexMax cn : ℤ) - ((N : ℤ) - 1))
    have hE1 : 0 ≤ energie N (ech x) := sum_nonneg fun _ _ => by positivity
    have := Real.sqrt_le_sqrt hcs
    rw [Real.sqrt_sq (norm_nonneg _), Real.sqrt_mul hE1] at this
    have h3 : (0 : ℝ) ≤ (N : ℝ) / 10 ^ 50 := by positivity
    linarith
  by_cases hint : 0 < indexMax cn ∧ indexMax cn + 1 < cn.length
  · have a0 := indexMax_premier cn (indexMax cn - 1) (by omega)
    have a1 := indexMax_max cn (indexMax cn + 1) hint.2
    set c0 := cn.getD (indexMax cn - 1) 0
    set c := cn.getD (indexMax cn) 0
    set c1 := cn.getD (indexMax cn + 1) 0
    have hden : 0 < 2 * c - c1 - c0 := by linarith
    have hq : qintLoc c0 c c1 = some ((c1 - c0) / (2 * (2 * c - c1 - c0))) := by
      unfold qintLoc; rw [if_neg (by intro h; linarith)]
    have hqb : |(c1 - c0) / (2 * (2 * c - c1 - c0))| ≤ 1 / 2 := by
      rw [abs_le, le_div_iff₀ (by linarith), div_le_iff₀ (by linarith)]
      constructor <;> linarith
    refine ⟨_, _, h1 hint _ hq hqb, hs0, hs1, ?_⟩
    have i1 : (1 : ℝ) ≤ (indexMax cn : ℝ) := by exact_mod_cast hint.1
    have i2 : (indexMax cn : ℝ) + 2 ≤ 2 * N - 1 := by
      have : indexMax cn + 2 + 1 ≤ 2 * N := by omega
      have : ((indexMax cn + 2 + 1 : ℕ) : ℝ) ≤ ((2 * N : ℕ) : ℝ) := by exact_mod_cast this
      push_cast at this; linarith
    have := abs_le.1 hqb
    rw [abs_le]
    constructor <;> linarith
  · refine ⟨_, _, h2 hint, hs0, hs1, ?_⟩
    have i2 : (indexMax cn : ℝ) + 1 ≤ 2 * N - 1 := by
      have : indexMax cn + 1 + 1 ≤ 2 * N := by omega
      have : ((indexMax cn + 1 + 1 : ℕ) : ℝ) ≤ ((2 * N : ℕ) : ℝ) := by exact_mod_cast this
      push_cast at this; linarith
    have i0 : (0 : ℝ) ≤ (indexMax cn : ℝ) := Nat.cast_nonneg _
    rw [abs_le]
    constructor <;> linarith

/-- **C72 (exact delay).**  When `y` is `x` (not null) delayed by `d` samples — `d` of any sign — and multiplied by any non null complex
gain, the delay found is exactly `d`, with a score below 1 only by the regularisation `10⁻⁵⁰`. -/
theorem C72_exact (x y : List ℂ) (d : ℤ) (a : ℂ) (ha : a ≠ 0) (hx : ∃ v ∈ x, v ≠ 0) (hy : ∀ k : ℤ, ech y k = a * ech x (k - d))
    (hb : 3 * max x.length y.length ≤ 2 ^ 29) :
    ∃ s E : ℝ, 0 < E ∧ estimationDelais x y = some ((d : ℝ), s) ∧ s = E / (E + 1 / 10 ^ 50) := by
  obtain ⟨v, hv, hv0⟩ := hx
  obtain ⟨j, hj, rfl⟩ := List.getElem_of_mem hv
  set N := max x.length y.length with hN
  have h0 : 0 < N := by omega
  have bx := ech_borne x N (by omega)
  have by' := ech_borne y N (by omega)
  have hxj : ech x j ≠ 0 := by
    unfold ech
    rw [if_pos (by omega), Int.toNat_natCast, List.getD_eq_getElem _ _ hj]; exact hv0
  have hyj : ech y ((j : ℤ) + d) ≠ 0 := by rw [hy, add_sub_cancel_right]; exact mul_ne_zero ha hxj
  have k1 := bx _ hxj
  have k2 := by' _ hyj
  obtain ⟨cn, lcn, hg, h1, h2⟩ := estim_forme x y N hN h0 hb
  have hE := energie_pos N (ech x) bx ⟨_, hxj⟩
  -- cross-correlation
  have hint : ∀ τ, inter N (ech x) (ech y) τ = star a * inter N (ech x) (ech x) (τ - d) := by
    intro τ
    unfold inter
    rw [mul_sum]
    apply sum_congr rfl
    intro k _
    rw [hy, star_mul', add_sub_assoc]; ring
  have hna : 0 < ‖a‖ := norm_pos_iff.2 ha
  -- energy of y
  have hEy : energie N (ech y) = ‖a‖ ^ 2 * energie N (ech x) := by
    have e1 : energie N (ech y) = ∑' k : ℤ, ‖ech y k‖ ^ 2 := by
      unfold energie
      rw [tsum_eq_sum]
      intro k hk
      by_contra hc
      exact hk (mem_Ico.2 (by' k fun h => hc (by rw [h]; simp)))
    have e2 : energie N (ech x) = ∑' k : ℤ, ‖ech x k‖ ^ 2 := by
      unfold energie
      rw [tsum_eq_sum]
      intro k hk
      by_contra hc
      exact hk (mem_Ico.2 (bx k fun h => hc (by rw [h]; simp)))
    rw [e1, e2, ← tsum_mul_left, ← (Equiv.addRight d).tsum_eq]
    apply tsum_congr
    intro k
    rw [Equiv.coe_addRight, hy, add_sub_cancel_right, norm_mul, mul_pow]
  have hnr : (1 : ℝ) ≤ N := by exact_mod_cast h0
  set D := Real.sqrt (energie N (ech x)) * Real.sqrt (energie N (ech y)) + (N : ℝ) / 10 ^ 50 with hDdef
  have hDe : D = ‖a‖ * energie N (ech x) + (N : ℝ) / 10 ^ 50 := by
    rw [hDdef, hEy, Real.sqrt_mul (by positivity), Real.sqrt_sq hna.le]
    have := Real.mul_self_sqrt hE.le
    linear_combination ‖a‖ * this
  have hD : 0 < D := by rw [hDe]; positivity
  -- position of the maximum
  obtain ⟨i0, hi0⟩ := Int.eq_ofNat_of_zero_le (show 0 ≤ d + ((N : ℤ) - 1) by omega)
  have hi0b : i0 < 2 * N - 1 := by omega
  have hval : ∀ i, i < 2 * N - 1 → cn.getD i 0 = ‖a‖ * ‖inter N (ech x) (ech x) ((i : ℤ) - i0)‖ / D := by
    intro i hi
    rw [hg i hi, hint, norm_mul, norm_star]
    congr 4
    omega
  have hpeak : cn.getD i0 0 = ‖a‖ * energie N (ech x) / D := by
    rw [hval i0 hi0b, sub_self, auto_zero, Complex.norm_real, Real.norm_eq_abs, abs_of_pos hE]
  have hmaxi : indexMax cn = i0 := by
    by_contra hc
    have hsp := indexMax_spec cn (by omega)
    have m1 := indexMax_max cn i0 (by omega)
    rw [hpeak, hval _ (by omega)] at m1
    have m2 := auto_stricte N (ech x) bx ⟨_, hxj⟩ ((indexMax cn : ℤ) - i0) (by omega)
    have m3 : ‖a‖ * ‖inter N (ech x) (ech x) ((indexMax cn : ℤ) - i0)‖ / D < ‖a‖ * energie N (ech x) / D := by gcongr
    linarith
  have hdr : (i0 : ℝ) - ((N : ℝ) - 1) = d := by
    have : ((d + ((N : ℤ) - 1) : ℤ) : ℝ) = ((i0 : ℤ) : ℝ) := by rw [hi0]
    push_cast at this; linarith
  refine ⟨cn.getD i0 0, ‖a‖ * energie N (ech x) / N, by positivity, ?_, ?_⟩
  · rw [hmaxi, hdr] at h1 h2
    by_cases hcase : 0 < i0 ∧ i0 + 1 < cn.length
    · have v0 : cn.getD (i0 - 1) 0 = cn.getD (i0 + 1) 0 := by
        rw [hval _ (by omega), hval _ (by omega), show ((i0 - 1 : ℕ) : ℤ) - i0 = -1 by omega,
          show ((i0 + 1 : ℕ) : ℤ) - i0 = 1 by omega, auto_symetrique N _ bx 1]
      have vs : cn.getD (i0 + 1) 0 < cn.getD i0 0 := by
        rw [hpeak, hval _ (by omega)]
        have m2 := auto_stricte N (ech x) bx ⟨_, hxj⟩ (((i0 + 1 : ℕ) : ℤ) - i0) (by omega)
        gcongr
      have := h1 hcase 0 (by unfold qintLoc; rw [v0, sub_self, zero_div, if_neg (by intro h; linarith)]) (by norm_num)
      rw [this, add_zero]
    · exact h2 hcase
  · rw [hpeak, hDe]
    have : (N : ℝ) ≠ 0 := by linarith
    field_simp

/-- Non-vacuity: `y` is `x` delayed by two samples and doubled. -/
example : ∀ k : ℤ, ech [0, 0, 2, 4, 6] k = 2 * ech [1, 2, 3] (k - 2) := by
  intro k
  unfold ech
  rcases lt_or_ge k 2 with h | h
  · rw [if_neg (show ¬ 0 ≤ k - 2 by omega)]
    split
    · have : k = 0 ∨ k = 1 := by omega
      rcases this with rfl | rfl <;> simp
    · simp
  · obtain ⟨j, hj⟩ := Int.eq_ofNat_of_zero_le (show 0 ≤ k - 2 by omega)
    obtain rfl : k = 2 + (j : ℤ) := by omega
    rw [if_pos (by omega), if_pos (by omega), show ((2 : ℤ) + (j : ℤ)).toNat = j + 2 by omega, show (2 + (j : ℤ) - 2).toNat = j by omega]
    rcases j with _ | _ | _ | j
    all_goals norm_num
  
/-! ### C73 -/

theorem arrondi_entier (d : ℤ) : arrondi (d : ℝ) = d := by
  unfold arrondi
  have h : ∀ z : ℤ, ⌊(z : ℝ) + 1 / 2⌋ = z := by
    intro z
    rw [Int.floor_eq_iff]; constructor <;> linarith
  split
  · exact h d
  · have := h (-d)
    push_cast at this
    rw [this]; omega

/-- The samples of `x` from index `i`. -/
theorem queueZ_some {T : Type} (x : List T) (n : ℤ) (t : List T) (h : queueZ x n = some t) :
    0 ≤ n ∧ n ≤ x.length ∧ t = x.drop (x.length - n.toNat) ∧ (t.length : ℤ) = n := by
  unfold queueZ at h
  split at h
  · rename_i hc
    cases h
    refine ⟨hc.1, hc.2, rfl, ?_⟩
    rw [List.length_drop]; omega
  · cases h

/-- **C73 (shape).**  When the alignment succeeds, the outputs are the common part of the two signals, the late one being advanced by `|d|`
samples: same length, `xa_k = x_{k + max(0,-d)}`, `ya_k = y_{k + max(0,d)}`. -/
theorem C73_forme (x y xa ya : List ℂ) (d : ℤ) (s : ℝ) (h : aligneEntier x y = some (xa, ya, d, s)) :
    xa.length = ya.length ∧
    (xa.length : ℤ) = min ((x.length : ℤ) - max 0 (-d)) ((y.length : ℤ) - max 0 d) ∧
    (∀ k : ℕ, k < xa.length → xa[k]? = x[k + (-d).toNat]? ∧ ya[k]? = y[k + d.toNat]?) := by
  unfold aligneEntier at h
  simp only [Option.bind_eq_some_iff, Option.map_eq_some_iff] at h
  obtain ⟨⟨xp, yp⟩, -, ⟨dr, sc⟩, -, ⟨u, v⟩, h1, h2⟩ := h
  simp only [decale] at h1
  simp only [tronque] at h2
  have huv : ∃ i j : ℕ, u = x.drop i ∧ v = y.drop j ∧ i ≤ x.length ∧ j ≤ y.length ∧ (i : ℤ) = max 0 (-arrondi dr) ∧ (j : ℤ) = max 0 (arrondi dr) := by
    split at h1
    · rename_i h0
      cases h1
      exact ⟨0, 0, by simp, by simp, by omega, by omega, by omega, by omega⟩
    · split at h1
      · rename_i hneg
        obtain ⟨t, ht, e⟩ := Option.map_eq_some_iff.1 h1
        cases e
        obtain ⟨q1, q2, q3, q4⟩ := queueZ_some _ _ _ ht
        exact ⟨_, 0, q3, by simp, by omega, by omega, by omega, by omega⟩
      · rename_i hneg
        obtain ⟨t, ht, e⟩ := Option.map_eq_some_iff.1 h1
        cases e
        obtain ⟨q1, q2, q3, q4⟩ := queueZ_some _ _ _ ht
        exact ⟨0, _, by simp, q3, by omega, by omega, by omega, by omega⟩
  obtain ⟨i, j, rfl, rfl, hi, hj, ei, ej⟩ := huv
  have fin : ∀ (m : ℕ), m = min (x.drop i).length (y.drop j).length → xa = (x.drop i).take m → ya = (y.drop j).take m → d = arrondi dr →
      xa.length = ya.length ∧
      (xa.length : ℤ) = min ((x.length : ℤ) - max 0 (-d)) ((y.length : ℤ) - max 0 d) ∧
      (∀ k : ℕ, k < xa.length → xa[k]? = x[k + (-d).toNat]? ∧ ya[k]? = y[k + d.toNat]?) := by
    intro m hm e1 e2 hd
    rw [List.length_drop, List.length_drop] at hm
    have lxa : xa.length = m := by rw [e1, List.length_take, List.length_drop]; omega
    have lya : ya.length = m := by rw [e2, List.length_take, List.length_drop]; omega
    refine ⟨by omega, by omega, fun k hk => ⟨?_, ?_⟩⟩
    · rw [e1, List.getElem?_take_of_lt (by omega), List.getElem?_drop]; congr 1; omega
    · rw [e2, List.getElem?_take_of_lt (by omega), List.getElem?_drop]; congr 1; omega
  split at h2
  · rename_i hlt
    cases h2
    refine fin (y.drop j).length (by omega) rfl (by rw [List.take_length]) rfl
  · split at h2
    · cases h2
      refine fin (x.drop i).length (by omega) (by rw [List.take_length]) rfl rfl
    · cases h2
      refine fin (x.drop i).length (by omega) (by rw [List.take_length]) (by rw [List.take_of_length_le (by omega)]) rfl

theorem clog_borne (n : ℕ) : n ≤ 2 ^ Nat.clog 2 n := Nat.le_pow_clog (by norm_num) n

/-- **C73 (exact alignment).**  When `y` is `x` (not null) delayed by `d` samples of any sign and multiplied by a complex gain `a ≠ 0`, the
alignment succeeds, finds `d`, and the aligned signals satisfy `ya = a · xa` sample by sample. -/
theorem C73_exact (x y : List ℂ) (d : ℤ) (a : ℂ) (ha : a ≠ 0) (hx : ∃ v ∈ x, v ≠ 0) (hy : ∀ k : ℤ, ech y k = a * ech x (k - d))
    (hb : 3 * 2 ^ Nat.clog 2 (max x.length y.length) ≤ 2 ^ 29) :
    ∃ xa ya s, aligneEntier x y = some (xa, ya, d, s) ∧ ya = xa.map (a * ·) := by
  obtain ⟨v, hv, hv0⟩ := hx
  obtain ⟨j, hj, rfl⟩ := List.getElem_of_mem hv
  set N := 2 ^ Nat.clog 2 (max x.length y.length) with hN
  have hNl := clog_borne (max x.length y.length)
  rw [← hN] at hNl
  set xp := x ++ List.replicate (N - x.length) (0 : ℂ) with hxp
  set yp := y ++ List.replicate (N - y.length) (0 : ℂ) with hyp
  have lx : xp.length = N := by simp [hxp]; omega
  have ly : yp.length = N := by simp [hyp]; omega
  have hpad : padZeros x y true = some (xp, yp) := by
    unfold padZeros
    simp only [true_and, if_true]
    rw [if_neg (by omega)]
  obtain ⟨s, E, -, he, -⟩ := C72_exact xp yp d a ha ⟨x[j], by rw [hxp]; exact List.mem_append_left _ (List.getElem_mem _), hv0⟩ (by
    intro k; rw [hxp, hyp, ech_pad, ech_pad]; exact hy k) (by rw [lx, ly, max_self]; exact hb)
  have hxj : ech x j ≠ 0 := by
    unfold ech
    rw [if_pos (by omega), Int.toNat_natCast, List.getD_eq_getElem _ _ hj]; exact hv0
  have hyj : ech y ((j : ℤ) + d) ≠ 0 := by rw [hy, add_sub_cancel_right]; exact mul_ne_zero ha hxj
  have k2 := ech_borne y y.length le_rfl _ hyj
  have hsome : ∃ xa ya, aligneEntier x y = some (xa, ya, d, s) := by
    unfold aligneEntier
    simp only [hpad, he, Option.bind_some, arrondi_entier, decale]
    split
    · exact ⟨_, _, rfl⟩
    · split
      · rw [show queueZ x (x.length + d) = some (x.drop (x.length - ((x.length : ℤ) + d).toNat)) by
          unfold queueZ; rw [if_pos (by omega)]]
        exact ⟨_, _, rfl⟩
      · rw [show queueZ y (y.length - d) = some (y.drop (y.length - ((y.length : ℤ) - d).toNat)) by
          unfold queueZ; rw [if_pos (by omega)]]
        exact ⟨_, _, rfl⟩
  obtain ⟨xa, ya, e⟩ := hsome
  obtain ⟨f1, f2, f3⟩ := C73_forme x y xa ya d s e
  refine ⟨xa, ya, s, e, ?_⟩
  apply List.ext_getElem?
  intro k
  rcases Nat.lt_or_ge k xa.length with hk | hk
  · obtain ⟨g1, g2⟩ := f3 k hk
    rw [List.getElem?_map, g1, g2]
    have b1 : k + (-d).toNat < x.length := by omega
    have b2 : k + d.toNat < y.length := by omega
    rw [List.getElem?_eq_getElem b1, List.getElem?_eq_getElem b2]
    simp only [Option.map_some, Option.some.injEq]
    have := hy ((k + d.toNat : ℕ) : ℤ)
    unfold ech at this
    rw [if_pos (by omega), if_pos (by omega), Int.toNat_natCast, List.getD_eq_getElem _ _ b2] at this
    rw [this, show (((k + d.toNat : ℕ) : ℤ) - d).toNat = k + (-d).toNat by omega, List.getD_eq_getElem _ _ b1]
  · rw [List.getElem?_eq_none (by omega), List.getElem?_eq_none (by simpa using hk)]

/-- **C72 (silence).**  When one of the signals is null, the "delay" found is the smallest one, with a null score. -/
theorem C72_silence (x y : List ℂ) (hx : ∀ v ∈ x, v = 0) (N : ℕ) (hN : N = max x.length y.length) (h0 : 0 < N) (hb : 3 * N ≤ 2 ^ 29) :
    estimationDelais x y = some (-((N : ℝ) - 1), 0) := by
  obtain ⟨cn, lcn, hg, h1, h2⟩ := estim_forme x y N hN h0 hb
  have hz : ∀ i, i < 2 * N - 1 → cn.getD i 0 = 0 := by
    intro i hi
    rw [hg i hi]
    have : inter N (ech x) (ech y) ((i : ℤ) - ((N : ℤ) - 1)) = 0 := by
      unfold inter
      apply sum_eq_zero
      intro k _
      have : ech x k = 0 := by
        unfold ech
        split
        · rcases Nat.lt_or_ge k.toNat x.length with h | h
          · rw [List.getD_eq_getElem _ _ h]; exact hx _ (List.getElem_mem _)
          · rw [List.getD_eq_default _ _ h]
        · rfl
      rw [this, zero_mul]
    rw [this, norm_zero, zero_div]
  have hsp := indexMax_spec cn (by omega)
  have hi : indexMax cn = 0 := by
    by_contra hc
    have := indexMax_premier cn 0 (by omega)
    rw [hz 0 (by omega), hz _ (by omega)] at this
    exact lt_irrefl _ this
  rw [h2 (by omega), hi, hz 0 (by omega)]
  simp

/-- **C73 refuted (every pair of signals).**  With a silent first signal of five samples (and any second signal of at most eight, e.g. the
same one), the alignment fails: it asks for a segment of −2 samples. -/
theorem C73_silence_refute (y : List ℂ) (hy : y.length ≤ 8) : aligneEntier (List.replicate 5 0) y = none := by
  have hclog : 2 ^ Nat.clog 2 (max 5 y.length) = 8 := by
    have h1 : Nat.clog 2 (max 5 y.length) ≤ 3 := by
      rw [Nat.clog_le_iff_le_pow (by norm_num)]; omega
    have h2 : 2 < Nat.clog 2 (max 5 y.length) := by
      rw [Nat.lt_clog_iff_pow_lt (by norm_num)]; omega
    have h3 : Nat.clog 2 (max 5 y.length) = 3 := by omega
    rw [h3]; norm_num
  have hpad : padZeros (List.replicate 5 (0 : ℂ)) y true
      = some (List.replicate 5 0 ++ List.replicate 3 0, y ++ List.replicate (8 - y.length) 0) := by
    unfold padZeros
    simp only [true_and, if_true, List.length_replicate, hclog]
    rw [if_neg (by omega)]
  have hlen : (y ++ List.replicate (8 - y.length) (0 : ℂ)).length = 8 := by simp; omega
  have hs := C72_silence (List.replicate 5 (0 : ℂ) ++ List.replicate 3 0) (y ++ List.replicate (8 - y.length) 0)
    (by simp) 8 (by rw [hlen]; simp) (by norm_num) (by norm_num)
  unfold aligneEntier
  simp only [hpad, hs, Option.bind_some]
  have ha : arrondi (-(((8 : ℕ) : ℝ) - 1)) = -7 := by
    have := arrondi_entier (-7)
    rw [← this]; congr 1; norm_num
  rw [ha]
  simp [decale, queueZ]

end Verif.Fourier
