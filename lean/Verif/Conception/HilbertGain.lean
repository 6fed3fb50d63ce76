/-
C82 (continued): response of the Hilbert filter to sinusoids.
-/
import Verif.Conception.HilbertProps

namespace Verif.Conception

open Finset

/-- Abel summation: a sum of sines of odd multiples with non negative decreasing weights. -/
theorem sinus_abel (a : ℕ → ℝ) (hd : ∀ m, a (m + 1) ≤ a m) (ω : ℝ) (M : ℕ) :
    (a 0 - a 1) * (1 - Real.cos (2 * ω)) + a (M + 1) * (1 - Real.cos (2 * (M + 2 : ℕ) * ω)) ≤ 2 * Real.sin ω * ∑ m ∈ range (M + 2), a m * Real.sin ((2 * m + 1) * ω) := by
  have key : ∀ m : ℕ, 2 * Real.sin ω * (a m * Real.sin ((2 * m + 1) * ω)) = a m * (Real.cos (2 * m * ω) - Real.cos (2 * (m + 1 : ℕ) * ω)) := by
    intro m
    have e1 : (2 * (m : ℝ) * ω) = (2 * m + 1) * ω - ω := by ring
    have e2 : (2 * ((m + 1 : ℕ) : ℝ) * ω) = (2 * m + 1) * ω + ω := by push_cast; ring
    rw [e1, e2, Real.cos_sub, Real.cos_add]
    ring
  rw [Finset.mul_sum, Finset.sum_congr rfl fun m _ => key m]
  induction M with
  | zero =>
    rw [Finset.sum_range_succ, Finset.sum_range_succ, Finset.sum_range_zero]
    simp only [Nat.cast_zero, mul_zero, zero_mul, Real.cos_zero, zero_add, Nat.cast_one, mul_one, Nat.reduceAdd]
    push_cast
    apply le_of_eq
    ring
  | succ M ih =>
    rw [Finset.sum_range_succ]
    have hc := Real.cos_le_one (2 * (M + 2 : ℕ) * ω)
    have := hd (M + 1)
    have := mul_le_mul_of_nonneg_right this (sub_nonneg.2 hc)
    generalize Real.cos (2 * (M + 2 : ℕ) * ω) = c at *
    have e : ((M + 1 + 2 : ℕ)) = (M + 2 + 1 : ℕ) := by omega
    rw [e]
    generalize Real.cos (2 * (M + 2 + 1 : ℕ) * ω) = d at *
    rw [show M + 1 + 1 = M + 2 by omega] at *
    linarith

/-- The same, strictly positive between 0 and π. -/
theorem sinus_positif (a : ℕ → ℝ) (h0 : ∀ m, 0 ≤ a m) (hd : ∀ m, a (m + 1) ≤ a m) (hs : a 1 < a 0) (ω : ℝ) (hω : 0 < ω) (hπ : ω < Real.pi) (M : ℕ) :
    0 < ∑ m ∈ range (M + 2), a m * Real.sin ((2 * m + 1) * ω) := by
  have h := sinus_abel a hd ω M
  have hsin : 0 < Real.sin ω := Real.sin_pos_of_pos_of_lt_pi hω hπ
  have hcos : 0 < 1 - Real.cos (2 * ω) := by
    rw [Real.cos_two_mul, Real.cos_sq']
    have := pow_pos hsin 2
    linarith
  have h2 : 0 ≤ a (M + 1) * (1 - Real.cos (2 * (M + 2 : ℕ) * ω)) := mul_nonneg (h0 _) (sub_nonneg.2 (Real.cos_le_one _))
  have h3 : 0 < (a 0 - a 1) * (1 - Real.cos (2 * ω)) := mul_pos (sub_pos.2 hs) hcos
  have h4 : 0 < 2 * Real.sin ω * ∑ m ∈ range (M + 2), a m * Real.sin ((2 * m + 1) * ω) := by linarith
  exact pos_of_mul_pos_right h4 (by linarith)

/-- Specification: gain of an antisymmetric filter of odd length at the pulsation `ω`. -/
noncomputable def gainImpair (h : List ℝ) (ω : ℝ) : ℝ := ∑ k ∈ range h.length, h.getD k 0 * Real.sin (ω * ((k : ℝ) - (h.length / 2 : ℕ)))

/-- A filter of odd length, antisymmetric, turns a cosine into a sine delayed by its centre. -/
theorem regime_sinus (h : List ℝ) (hn : h.length % 2 = 1) (ha : ∀ k, k < h.length → h.getD (h.length - 1 - k) 0 = -h.getD k 0) (ω φ : ℝ) (t : ℤ) :
    regime h (fun u : ℤ => Real.cos (ω * u + φ)) t = gainImpair h ω * Real.sin (ω * (t - (h.length / 2 : ℕ)) + φ) := by
  unfold regime gainImpair
  have e : ∀ k ∈ range h.length, h.getD k 0 * Real.cos (ω * ((t - (k : ℤ) : ℤ) : ℝ) + φ) =
      h.getD k 0 * Real.cos (ω * ((k : ℝ) - (h.length / 2 : ℕ))) * Real.cos (ω * (t - (h.length / 2 : ℕ)) + φ) +
      h.getD k 0 * Real.sin (ω * ((k : ℝ) - (h.length / 2 : ℕ))) * Real.sin (ω * (t - (h.length / 2 : ℕ)) + φ) := by
    intro k _
    rw [show ω * ((t - (k : ℤ) : ℤ) : ℝ) + φ = (ω * (t - (h.length / 2 : ℕ)) + φ) - ω * ((k : ℝ) - (h.length / 2 : ℕ)) by push_cast; ring, Real.cos_sub]
    ring
  rw [Finset.sum_congr rfl e, Finset.sum_add_distrib, ← Finset.sum_mul, ← Finset.sum_mul]
  have z : ∑ k ∈ range h.length, h.getD k 0 * Real.cos (ω * ((k : ℝ) - (h.length / 2 : ℕ))) = 0 := by
    have : ∑ k ∈ range h.length, h.getD k 0 * Real.cos (ω * ((k : ℝ) - (h.length / 2 : ℕ))) = - ∑ k ∈ range h.length, h.getD k 0 * Real.cos (ω * ((k : ℝ) - (h.length / 2 : ℕ))) := by
      conv_lhs => rw [← Finset.sum_range_reflect]
      rw [← Finset.sum_neg_distrib]
      refine Finset.sum_congr rfl fun k hk => ?_
      have hk' := Finset.mem_range.1 hk
      rw [ha k hk', ← Real.cos_neg, neg_mul]
      congr 3
      obtain ⟨D, hD⟩ : ∃ D, h.length = 2 * D + 1 := ⟨h.length / 2, by omega⟩
      rw [hD, show (2 * D + 1) / 2 = D by omega, show 2 * D + 1 - 1 - k = 2 * D - k by omega, Nat.cast_sub (by omega)]
      push_cast
      ring
    linarith
  rw [z]
  ring

/-- **C82 (sinusoids).**  For an odd number of coefficients (at least 3) and a named window whose sample next to the middle is not null, the steady state of the Hilbert filter maps every sinusoid
`cos(ωt + φ)`, `0 < ω < π`, to `G sin(ω(t - n/2) + φ)` where the gain `G` does not depend on the phase and is positive: positive frequencies are delayed by exactly a quarter of turn. -/
theorem C82_sinus (n : ℕ) (hn : n % 2 = 1) (h3 : 3 ≤ n) (fen : String) (w : Fenetre) (hw : parseFenetre fen = some w) (hc : w ≠ .chebychev)
    (hpos : ∃ v, fenetre w n true = some v ∧ 0 < v.getD (n / 2 - 1) 0) :
    ∃ h, designRifHilbert n fen = some h ∧ h.length = n ∧ ∀ ω : ℝ, 0 < ω → ω < Real.pi → 0 < gainImpair h ω ∧
      ∀ (φ : ℝ) (t : ℤ), regime h (fun u : ℤ => Real.cos (ω * u + φ)) t = gainImpair h ω * Real.sin (ω * (t - (n / 2 : ℕ)) + φ) := by
  obtain ⟨h, v, e, hl, ev, hg, ha, -⟩ := (C82_coefficients n fen w hw hc).2 hn
  obtain ⟨v', ev', hv'⟩ := hpos
  rw [ev, Option.some.injEq] at ev'
  subst ev'
  obtain ⟨v'', ev'', lv, hb, hsym, -, hmono, -⟩ := C78_symetrie w hc n true
  rw [ev, Option.some.injEq] at ev''
  subst ev''
  refine ⟨h, e, hl, fun ω h0 hπ => ⟨?_, fun φ t => by rw [regime_sinus h (by omega) (by rw [hl]; exact ha) ω φ t, hl]⟩⟩
  obtain ⟨D, hD⟩ : ∃ D, n = 2 * D + 1 := ⟨n / 2, by omega⟩
  have hD2 : n / 2 = D := by omega
  rw [hD2] at hv' hg
  -- the two halves
  have e1 : gainImpair h ω = 2 * ∑ i ∈ range D, h.getD (D + 1 + i) 0 * Real.sin (ω * ((i : ℝ) + 1)) := by
    unfold gainImpair
    rw [hl, hD2, hD, show 2 * D + 1 = D + (1 + D) by omega, Finset.sum_range_add, Finset.sum_range_add, Finset.sum_range_one]
    rw [← Finset.sum_range_reflect]
    have z : Real.sin (ω * (((D + 0 : ℕ) : ℝ) - (D : ℝ))) = 0 := by simp
    rw [z, mul_zero, zero_add, two_mul]
    congr 1
    · refine Finset.sum_congr rfl fun i hi => ?_
      have hi' := Finset.mem_range.1 hi
      have q := ha (D + 1 + i) (by omega)
      rw [show n - 1 - (D + 1 + i) = D - 1 - i by omega] at q
      rw [q, Nat.cast_sub (by omega), Nat.cast_sub (by omega), show ω * ((D : ℝ) - ((1 : ℕ) : ℝ) - (i : ℝ) - D) = -(ω * ((i : ℝ) + 1)) by push_cast; ring, Real.sin_neg]
      ring
    · refine Finset.sum_congr rfl fun i _ => ?_
      rw [show D + (1 + i) = D + 1 + i by omega]
      congr 2
      push_cast
      ring
  -- the odd terms
  set a : ℕ → ℝ := fun m => if 2 * m + 1 ≤ D then v.getD (D - (2 * m + 1)) 0 / (2 * m + 1) else 0 with hadef
  have e2 : ∑ i ∈ range D, h.getD (D + 1 + i) 0 * Real.sin (ω * ((i : ℝ) + 1)) = 2 / Real.pi * ∑ m ∈ range (D + 2), a m * Real.sin ((2 * m + 1) * ω) := by
    set F : ℕ → ℝ := fun i => if i < D then h.getD (D + 1 + i) 0 * Real.sin (ω * ((i : ℝ) + 1)) else 0 with hF
    have s1 : ∑ i ∈ range D, h.getD (D + 1 + i) 0 * Real.sin (ω * ((i : ℝ) + 1)) = ∑ i ∈ range (2 * (D + 2)), F i := by
      rw [show 2 * (D + 2) = D + (D + 4) by omega, Finset.sum_range_add]
      have : ∑ i ∈ range (D + 4), F (D + i) = 0 := Finset.sum_eq_zero fun i _ => by simp [hF]
      rw [this, add_zero]
      exact Finset.sum_congr rfl fun i hi => by simp [hF, Finset.mem_range.1 hi]
    have s2 : ∀ M, ∑ i ∈ range (2 * M), F i = ∑ m ∈ range M, (F (2 * m) + F (2 * m + 1)) := by
      intro M
      induction M with
      | zero => simp
      | succ M ih => rw [show 2 * (M + 1) = 2 * M + 1 + 1 by omega, Finset.sum_range_succ, Finset.sum_range_succ, ih, Finset.sum_range_succ]; ring
    rw [s1, s2, Finset.mul_sum]
    refine Finset.sum_congr rfl fun m _ => ?_
    have odd : F (2 * m + 1) = 0 := by
      simp only [hF]
      split
      · rw [hg _ (by omega), if_neg (by omega)]
        have : Real.sin ((((D + 1 + (2 * m + 1) : ℕ) : ℝ) - (D : ℕ)) * Real.pi / 2) = 0 := by
          rw [show (((D + 1 + (2 * m + 1) : ℕ) : ℝ) - (D : ℕ)) * Real.pi / 2 = ((m + 1 : ℕ) : ℝ) * Real.pi by push_cast; ring]
          exact Real.sin_nat_mul_pi _
        rw [this]
        ring
      · rfl
    rw [odd, add_zero]
    simp only [hF, hadef]
    by_cases hm : 2 * m + 1 ≤ D
    · rw [if_pos (by omega), if_pos hm, hg _ (by omega), if_neg (by omega)]
      have s3 : Real.sin ((((D + 1 + 2 * m : ℕ) : ℝ) - (D : ℕ)) * Real.pi / 2) ^ 2 = 1 := by
        rw [show (((D + 1 + 2 * m : ℕ) : ℝ) - (D : ℕ)) * Real.pi / 2 = Real.pi / 2 + (m : ℕ) * Real.pi by push_cast; ring, Real.sin_add_nat_mul_pi, Real.sin_pi_div_two, mul_one,
          ← pow_mul, mul_comm, pow_mul]
        norm_num
      rw [s3]
      have hv2 := hsym rfl (D + 1 + 2 * m) (by omega)
      rw [show n - 1 - (D + 1 + 2 * m) = D - (2 * m + 1) by omega] at hv2
      rw [hv2]
      have hne : (2 * (m : ℝ) + 1) ≠ 0 := by positivity
      have hp := Real.pi_ne_zero
      rw [show ((D + 1 + 2 * m : ℕ) : ℝ) - (D : ℕ) = 2 * m + 1 by push_cast; ring, show ω * (((2 * m : ℕ) : ℝ) + 1) = (2 * m + 1) * ω by push_cast; ring]
      field_simp
    · rw [if_neg (by omega), if_neg hm]
      ring
  have h0a : ∀ m, 0 ≤ a m := by
    intro m
    simp only [hadef]
    split
    · exact div_nonneg (hb _ (by omega)).1 (by positivity)
    · exact le_rfl
  have hda : ∀ m, a (m + 1) ≤ a m := by
    intro m
    simp only [hadef]
    by_cases h1 : 2 * (m + 1) + 1 ≤ D
    · rw [if_pos h1, if_pos (by omega)]
      have q := hmono (D - (2 * (m + 1) + 1)) (D - (2 * m + 1)) (by omega) (by omega)
      have q0 := (hb (D - (2 * (m + 1) + 1)) (by omega)).1
      refine div_le_div₀ (le_trans q0 q) q (by positivity) (by push_cast; linarith)
    · rw [if_neg h1]
      exact h0a m
  have hsa : a 1 < a 0 := by
    have h0' : a 0 = v.getD (D - 1) 0 := by simp only [hadef]; rw [if_pos (by omega)]; simp
    rw [h0']
    simp only [hadef]
    split
    · have q := hmono (D - (2 * 1 + 1)) (D - 1) (by omega) (by omega)
      generalize v.getD (D - (2 * 1 + 1)) 0 = p at *
      generalize v.getD (D - 1) 0 = r at *
      push_cast
      rw [div_lt_iff₀ (by norm_num)]
      linarith
    · exact hv'
  rw [e1, e2]
  have := sinus_positif a h0a hda hsa ω h0 hπ D
  have := Real.pi_pos
  positivity

/-- The windows of Hann of odd length at least 3 meet the hypothesis. -/
theorem hann_milieu (n : ℕ) (hn : n % 2 = 1) (h3 : 3 ≤ n) : ∃ v, fenetre .hann n true = some v ∧ 0 < v.getD (n / 2 - 1) 0 := by
  obtain ⟨v, e, l, g⟩ := C78_forme .hann (by decide) n true
  refine ⟨v, e, ?_⟩
  rw [g _ (by omega)]
  obtain ⟨D, rfl⟩ : ∃ D, n = 2 * D + 1 := ⟨n / 2, by omega⟩
  have hp : position (2 * D + 1) true ((2 * D + 1) / 2 - 1) = -(1 / (2 * D + 1)) := by
    rw [position, if_pos rfl, if_neg (by omega), show (2 * D + 1) / 2 - 1 = D - 1 by omega, Nat.cast_sub (by omega)]
    push_cast
    field_simp
    ring
  rw [hp, profil_pair]
  simp only [profil]
  have : 0 < Real.cos (Real.pi * (1 / (2 * D + 1))) := by
    apply Real.cos_pos_of_mem_Ioo
    have hD : (1 : ℝ) ≤ D := by exact_mod_cast (by omega : 1 ≤ D)
    have h1 : (1 : ℝ) / (2 * D + 1) ≤ 1 / 3 := by
      apply one_div_le_one_div_of_le <;> linarith
    have h0 : (0 : ℝ) < 1 / (2 * D + 1) := by positivity
    have := Real.pi_pos
    constructor
    · have : 0 < Real.pi * (1 / (2 * D + 1)) := by positivity
      linarith
    · nlinarith
  positivity

/-- Non-vacuity: the filter of the single side-band modulator. -/
example : (255 % 2 = 1 ∧ 3 ≤ 255 ∧ parseFenetre "hn" = some .hann) ∧ ∃ v, fenetre .hann 255 true = some v ∧ 0 < v.getD (255 / 2 - 1) 0 :=
  ⟨by decide, hann_milieu 255 (by norm_num) (by norm_num)⟩

end Verif.Conception
