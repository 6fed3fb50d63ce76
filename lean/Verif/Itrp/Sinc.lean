import Verif.Divers.Props
import Verif.Util.Props
import Verif.Conception.Ordre1

/-!
# Windowed sinc interpolator (core/src/reechan/itrp.cc)

Exact real arithmetic instead of `float`.
-/

namespace Verif.Itrp

/-- `InterpolateurSinc::coefs_calcule(τ)`, core/src/reechan/itrp.cc:24-39; `hn`: the window is `"hn"`. -/
noncomputable def sincCalcule (nc : ℕ) (fc : ℝ) (hn : Bool) (τ : ℝ) : List ℝ :=
  let h := (List.range nc).map fun i : ℕ => Divers.sinc (2 * fc) ((i : ℝ) - ((nc / 2 : ℕ) : ℝ) - τ)
  if hn then List.zipWith (· * ·) h ((Util.linspace (-((nc / 2 : ℕ) : ℝ)) (((nc - 1) / 2 : ℕ) : ℝ) nc).map fun t : ℝ => 1 / 2 + 2 * (1 / 4) * Real.cos ((t - τ) * (2 * Real.pi / nc))) else h

/-- The look-up table of the constructor, core/src/reechan/itrp.cc:41-54: `none` when the cut-off frequency is refused (or `nphases = 0`: not-a-number in the code). -/
noncomputable def sincLut (nc np : ℕ) (fc : ℝ) (hn : Bool) : Option (List (List ℝ)) :=
  if fc < 0 ∨ 1 / 2 < fc ∨ np = 0 then none else some ((List.range (np + 1)).map fun i : ℕ => sincCalcule nc fc hn ((1 * (i : ℝ)) / (np : ℝ)))

/-- `InterpolateurSinc::coefs(τ)`, core/src/reechan/itrp.cc:16-22 (truncation of a nonnegative number: integer part). -/
noncomputable def coefsSinc (nc np : ℕ) (fc : ℝ) (hn : Bool) (τ : ℝ) : Option (List ℝ) :=
  if 0 ≤ τ ∧ τ ≤ 1 then (sincLut nc np fc hn).bind fun l : List (List ℝ) => l[⌊τ * np⌋₊]? else none

theorem linspace_centre (nc : ℕ) : Util.linspace (-((nc / 2 : ℕ) : ℝ)) (((nc - 1) / 2 : ℕ) : ℝ) nc = (List.range nc).map fun i : ℕ => (i : ℝ) - ((nc / 2 : ℕ) : ℝ) := by
  unfold Util.linspace
  refine List.map_congr_left fun i hi => ?_
  rw [List.mem_range] at hi
  split
  · rename_i h; rw [h]; simp
  · have h2 : ((nc - 1) / 2 : ℕ) + (nc / 2 : ℕ) + 1 = nc := by omega
    have h3 : ((((nc - 1) / 2 : ℕ) : ℝ)) + ((nc / 2 : ℕ) : ℝ) + 1 = nc := by exact_mod_cast h2
    have h4 : (nc : ℝ) - 1 ≠ 0 := by
      have : (2 : ℝ) ≤ nc := by exact_mod_cast (by omega : 2 ≤ nc)
      linarith
    have h5 : (((nc - 1) / 2 : ℕ) : ℝ) - -((nc / 2 : ℕ) : ℝ) = nc - 1 := by linarith
    rw [h5, div_self h4, one_mul]
    ring

/-- The coefficient `i`. -/
theorem sincCalcule_val (nc : ℕ) (fc : ℝ) (hn : Bool) (τ : ℝ) : sincCalcule nc fc hn τ =
    (List.range nc).map fun i : ℕ => Divers.sinc (2 * fc) ((i : ℝ) - ((nc / 2 : ℕ) : ℝ) - τ) * (if hn then (1 + Real.cos (2 * Real.pi * ((i : ℝ) - ((nc / 2 : ℕ) : ℝ) - τ) / nc)) / 2 else 1) := by
  unfold sincCalcule
  cases hn with
  | false => simp
  | true =>
    simp only [if_true]
    rw [linspace_centre, List.map_map, List.zipWith_map_left, List.zipWith_map_right, List.zipWith_self]
    refine List.map_congr_left fun i _ => ?_
    simp only [Function.comp_apply]
    congr 1
    rw [show ((i : ℝ) - ((nc / 2 : ℕ) : ℝ) - τ) * (2 * Real.pi / nc) = 2 * Real.pi * ((i : ℝ) - ((nc / 2 : ℕ) : ℝ) - τ) / nc by ring]
    ring

/-- **C153 (windowed ideal low-pass, quantised delay).**  For every number of coefficients, every cut-off frequency of `[0, 1/2]`, every number of phases and every delay `τ` of `[0, 1]`, the coefficients are those of a delay `q` of the grid of the phases, `q ≤ τ < q + 1/np`:
the coefficient `i` is the impulse response of the ideal low-pass filter at `t = i - nc/2 - q` (Fourier transform of the gate of width `2 fc`, up to an error of `2 fc / 10¹⁴`), multiplied by the Hann window centred on the delay when it is asked for. -/
theorem C153_coefs (nc np : ℕ) (hnp : 0 < np) (fc : ℝ) (h0 : 0 ≤ fc) (h1 : fc ≤ 1 / 2) (hn : Bool) (τ : ℝ) (t0 : 0 ≤ τ) (t1 : τ ≤ 1) :
    ∃ (j : ℕ) (h : List ℝ), coefsSinc nc np fc hn τ = some h ∧ h.length = nc ∧ (j : ℝ) / np ≤ τ ∧ τ < ((j : ℝ) + 1) / np ∧ j ≤ np ∧
      ∀ i : ℕ, i < nc → ∃ e : ℝ, ‖(e : ℂ) - Divers.tfPorte (2 * fc) ((i : ℝ) - ((nc / 2 : ℕ) : ℝ) - (j : ℝ) / np)‖ ≤ 2 * fc / 10 ^ 14 ∧
        h.getD i 0 = e * (if hn then (1 + Real.cos (2 * Real.pi * ((i : ℝ) - ((nc / 2 : ℕ) : ℝ) - (j : ℝ) / np) / nc)) / 2 else 1) := by
  have hnp' : (0 : ℝ) < np := by exact_mod_cast hnp
  have hj : ⌊τ * np⌋₊ ≤ np := by
    refine Nat.floor_le_of_le ?_
    nlinarith
  refine ⟨⌊τ * np⌋₊, sincCalcule nc fc hn ((⌊τ * np⌋₊ : ℝ) / np), ?_, by rw [sincCalcule_val]; simp, ?_, ?_, hj, fun i hi => ?_⟩
  · unfold coefsSinc sincLut
    rw [if_pos ⟨t0, t1⟩, if_neg (by push Not; exact ⟨h0, h1, hnp.ne'⟩), Option.bind_some, List.getElem?_map, List.getElem?_range (by omega)]
    simp
  · rw [div_le_iff₀ hnp']
    exact Nat.floor_le (by positivity)
  · rw [lt_div_iff₀ hnp']
    exact Nat.lt_floor_add_one _
  · refine ⟨Divers.sinc (2 * fc) ((i : ℝ) - ((nc / 2 : ℕ) : ℝ) - (⌊τ * np⌋₊ : ℝ) / np), ?_, ?_⟩
    · have := (Divers.C71_sinc (2 * fc) ((i : ℝ) - ((nc / 2 : ℕ) : ℝ) - (⌊τ * np⌋₊ : ℝ) / np)).2
      rwa [abs_of_nonneg (by linarith)] at this
    · rw [sincCalcule_val, List.getD_eq_getElem _ _ (by simpa using hi)]
      simp

example : ∃ h, coefsSinc 15 1024 (9 / 20) true (1 / 3) = some h ∧ h.length = 15 := by
  obtain ⟨j, h, h1, h2, -⟩ := C153_coefs 15 1024 (by norm_num) (9 / 20) (by norm_num) (by norm_num) true (1 / 3) (by norm_num) (by norm_num)
  exact ⟨h, h1, h2⟩

theorem coefsSinc_bord (nc np : ℕ) (hnp : 0 < np) (fc : ℝ) (h0 : 0 ≤ fc) (h1 : fc ≤ 1 / 2) (hn : Bool) (e : ℕ) (he : e ≤ 1) : coefsSinc nc np fc hn e = some (sincCalcule nc fc hn e) := by
  have hnp' : (np : ℝ) ≠ 0 := by exact_mod_cast hnp.ne'
  have hf : ⌊(e : ℝ) * np⌋₊ = e * np := by rw [← Nat.cast_mul, Nat.floor_natCast]
  unfold coefsSinc sincLut
  rw [if_pos ⟨by positivity, by exact_mod_cast he⟩, if_neg (by push Not; exact ⟨h0, h1, hnp.ne'⟩), Option.bind_some, hf, List.getElem?_map, List.getElem?_range (by
    have : e * np ≤ 1 * np := Nat.mul_le_mul_right np he
    omega)]
  simp only [Option.map_some]
  congr 2
  push_cast
  field_simp

/-- **C153 (integer delays).**  At the cut-off frequency `1/2`, with or without the window, the delays 0 and 1 are exact: the only non-zero coefficient is 1, at the index `nc/2` or `nc/2 + 1` (for `nc = 1, 2` the delay 1 is outside of the filter and the output is zero). -/
theorem C153_entier (nc np : ℕ) (hnp : 0 < np) (hn : Bool) (e : ℕ) (he : e ≤ 1) : coefsSinc nc np (1 / 2) hn e = some ((List.range nc).map fun i : ℕ => if i = nc / 2 + e then 1 else 0) := by
  rw [coefsSinc_bord nc np hnp (1 / 2) (by norm_num) le_rfl hn e he, sincCalcule_val]
  congr 1
  refine List.map_congr_left fun i _ => ?_
  have h1 : ((i : ℝ) - ((nc / 2 : ℕ) : ℝ) - (e : ℝ)) = (((i : ℤ) - ((nc / 2 : ℕ) : ℤ) - (e : ℤ) : ℤ) : ℝ) := by
    rw [Int.cast_sub, Int.cast_sub, Int.cast_natCast, Int.cast_natCast, Int.cast_natCast]
  have h2 := Divers.C71_noeuds ((i : ℤ) - ((nc / 2 : ℕ) : ℤ) - (e : ℤ))
  unfold Divers.sinc1 at h2
  rw [show (2 : ℝ) * (1 / 2) = 1 by norm_num, h1, h2]
  by_cases hi : i = nc / 2 + e
  · rw [if_pos (by omega), if_pos hi, show ((i : ℤ) - ((nc / 2 : ℕ) : ℤ) - (e : ℤ)) = 0 by omega]
    cases hn <;> simp
  · rw [if_neg (by omega), if_neg hi, zero_mul]

/-- **C153 (symmetry).**  The filters of the delays `τ` and `1 - τ` are the mirror of each other around the middle `nc/2 + 1/2`. -/
theorem C153_symetrie (nc : ℕ) (fc : ℝ) (hn : Bool) (τ : ℝ) (i k : ℕ) (hi : i < nc) (hk : k < nc) (h : i + k = 2 * (nc / 2) + 1) : (sincCalcule nc fc hn (1 - τ)).getD k 0 = (sincCalcule nc fc hn τ).getD i 0 := by
  have hs : ∀ T f : ℝ, Divers.sinc T (-f) = Divers.sinc T f := by
    intro T f
    unfold Divers.sinc
    simp only [mul_neg, abs_neg, Real.sin_neg]
    split
    · rfl
    · rw [neg_div_neg_eq]
  have h' : (k : ℝ) = 2 * ((nc / 2 : ℕ) : ℝ) + 1 - i := by
    have : (i : ℝ) + k = 2 * ((nc / 2 : ℕ) : ℝ) + 1 := by exact_mod_cast h
    linarith
  rw [sincCalcule_val, sincCalcule_val, List.getD_eq_getElem _ _ (by simpa using hk), List.getD_eq_getElem _ _ (by simpa using hi)]
  simp only [List.getElem_map, List.getElem_range]
  have e : (k : ℝ) - ((nc / 2 : ℕ) : ℝ) - (1 - τ) = -((i : ℝ) - ((nc / 2 : ℕ) : ℝ) - τ) := by rw [h']; ring
  rw [e, hs, mul_neg, neg_div, Real.cos_neg]

example : (sincCalcule 15 (1 / 2) true (1 - 1 / 4)).getD 6 0 = (sincCalcule 15 (1 / 2) true (1 / 4)).getD 9 0 := C153_symetrie 15 _ _ _ 9 6 (by norm_num) (by norm_num) (by norm_num)

/-- **C153 (refutation: unit gain).**  The coefficients are not normalised: below the cut-off frequency 1/2, a constant signal is not kept, even at an integer delay (here 3 coefficients, `fc = 0.45` as in the frame receiver, gain at most 0.95). -/
theorem C153_gain_refute (np : ℕ) (hnp : 0 < np) : ∃ h, coefsSinc 3 np (9 / 20) true 0 = some h ∧ h.sum ≤ 95 / 100 ∧ h.sum ≠ 1 := by
  have hb := coefsSinc_bord 3 np hnp (9 / 20) (by norm_num) (by norm_num) true 0 (by norm_num)
  rw [Nat.cast_zero] at hb
  refine ⟨_, hb, ?_⟩
  have hpi := Real.pi_pos
  have hp2 := Real.two_le_pi
  have e0 : Divers.sinc (2 * (9 / 20)) 0 = 9 / 10 := by unfold Divers.sinc; norm_num
  have e1 : Divers.sinc (2 * (9 / 20)) 1 = Real.sin (Real.pi / 10) / Real.pi := by
    unfold Divers.sinc
    simp only
    rw [if_neg (by
      rw [abs_of_pos (by positivity)]
      push Not
      linarith), mul_one, mul_one]
    rw [show Real.pi * (2 * (9 / 20)) = Real.pi - Real.pi / 10 by ring, Real.sin_pi_sub]
  have e2 : Divers.sinc (2 * (9 / 20)) (-1) = Real.sin (Real.pi / 10) / Real.pi := by
    rw [← e1]
    unfold Divers.sinc
    simp only [mul_neg, abs_neg, Real.sin_neg, mul_one]
    split
    · rfl
    · rw [neg_div_neg_eq]
  have hs : Real.sin (Real.pi / 10) / Real.pi ≤ 1 / 10 := by
    rw [div_le_iff₀ hpi]
    have := (Real.sin_lt (by positivity : 0 < Real.pi / 10)).le
    linarith
  have hs0 : 0 ≤ Real.sin (Real.pi / 10) / Real.pi := div_nonneg (Real.sin_nonneg_of_nonneg_of_le_pi (by positivity) (by linarith)) hpi.le
  have hc : Real.cos (2 * Real.pi * 1 / 3) = -1 / 2 := by
    rw [show 2 * Real.pi * 1 / 3 = Real.pi - Real.pi / 3 by ring, Real.cos_pi_sub, Real.cos_pi_div_three]
    norm_num
  have hc2 : Real.cos (2 * Real.pi * (-1) / 3) = -1 / 2 := by
    rw [show 2 * Real.pi * (-1) / 3 = -(2 * Real.pi * 1 / 3) by ring, Real.cos_neg, hc]
  have hsum : (sincCalcule 3 (9 / 20) true 0).sum = 9 / 10 + Real.sin (Real.pi / 10) / Real.pi / 2 := by
    rw [sincCalcule_val]
    simp only [List.range_succ, List.range_zero, List.nil_append, List.cons_append, List.map_cons, List.map_nil, List.sum_cons, List.sum_nil, if_true, Nat.cast_zero, Nat.cast_one, Nat.cast_ofNat]
    norm_num only [Nat.reduceDiv, Nat.cast_one]
    norm_num at e0 e1 e2 hc hc2 ⊢
    rw [e0, e1, e2, hc, hc2]
    ring
  rw [hsum]
  constructor
  · linarith
  · linarith

end Verif.Itrp
