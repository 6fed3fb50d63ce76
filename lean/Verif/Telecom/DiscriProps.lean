import Verif.Telecom.Analogique
import Verif.Telecom.FskProps
import Mathlib.Analysis.SpecialFunctions.Complex.Arg
import Mathlib.Analysis.Real.Pi.Bounds

/-!
# C108: FM discriminator
-/

namespace Verif.Telecom

open Complex

/-- **C108 (cut).**  The discriminator gives one output per input, and the same ones whatever the cut of the signal into blocks. -/
theorem C108_decoupe (s : Discri) (a b : List ℂ) : (s.step a).2.length = a.length ∧
    s.step (a ++ b) = (((s.step a).1.step b).1, (s.step a).2 ++ ((s.step a).1.step b).2) := by
  induction a generalizing s with
  | nil => simp [Discri.step]
  | cons x l ih =>
    obtain ⟨h1, h2⟩ := ih ⟨x⟩
    refine ⟨by simp [Discri.step, h1], ?_⟩
    rw [List.cons_append]
    simp only [Discri.step, h2, List.cons_append]

theorem discri_valeur (x : List ℂ) (s : Discri) (k : ℕ) (hk : k < x.length) :
    (s.step x).2[k]? = some (arg (x[k] * (starRingEnd ℂ) (if k = 0 then s.last else x.getD (k - 1) 0))) := by
  induction x generalizing s k with
  | nil => simp at hk
  | cons v l ih =>
    cases k with
    | zero => simp [Discri.step]
    | succ k =>
      have := ih ⟨v⟩ k (by simpa using hk)
      simp only [Discri.step, List.getElem?_cons_succ, this, List.getElem_cons_succ, Option.some.injEq]
      cases k with
      | zero => simp
      | succ k => simp

/-- **C108 (frequency).**  Whatever its (positive, possibly varying) amplitude and its initial phase, a signal `a_k exp(iφ_k)` whose phase moves by less than half a turn per sample
gives exactly the phase increments `φ_k - φ_{k-1}`: the discriminator inverts the frequency modulation, whatever the cut into blocks. The first output is 0. -/
theorem C108_frequence (a φ : ℕ → ℝ) (ha : ∀ k, 0 < a k) (hφ : ∀ k, -Real.pi < φ (k + 1) - φ k ∧ φ (k + 1) - φ k ≤ Real.pi) (n : ℕ) :
    (Discri.initial.step ((List.range n).map fun k : ℕ => (a k : ℂ) * exp (φ k * I))).2 = (List.range n).map fun k : ℕ => if k = 0 then 0 else φ k - φ (k - 1) := by
  apply List.ext_getElem?
  intro k
  rcases Nat.lt_or_ge k n with hk | hk
  · rw [discri_valeur _ _ _ (by simpa using hk), List.getElem?_map, List.getElem?_range hk, Option.map_some, Option.some.injEq]
    cases k with
    | zero => simp [Discri.initial]
    | succ k =>
      rw [if_neg (by omega), if_neg (by omega)]
      simp only [List.getElem_map, List.getElem_range, Nat.add_sub_cancel]
      rw [List.getD_eq_getElem?_getD, List.getElem?_map, List.getElem?_range (by omega)]
      simp only [Option.map_some, Option.getD_some]
      have e : (a (k + 1) : ℂ) * exp (φ (k + 1) * I) * (starRingEnd ℂ) ((a k : ℂ) * exp (φ k * I)) = ((a (k + 1) * a k : ℝ) : ℂ) * exp (((φ (k + 1) - φ k : ℝ) : ℂ) * I) := by
        rw [map_mul, conj_ofReal, ← exp_conj, map_mul, conj_ofReal, conj_I]
        push_cast
        rw [show ((φ (k + 1) : ℂ) - φ k) * I = φ (k + 1) * I + φ k * -I by ring, exp_add]
        ring
      rw [e, arg_real_mul _ (mul_pos (ha _) (ha _))]
      rw [exp_mul_I, arg_cos_add_sin_mul_I ⟨(hφ k).1, (hφ k).2⟩]
  · rw [List.getElem?_eq_none (by rw [(C108_decoupe _ _ []).1]; simpa using hk), List.getElem?_eq_none (by simpa using hk)]

/-- Non-vacuity: a modulation with a varying amplitude. -/
example : ∀ k : ℕ, (0 : ℝ) < 1 + k ∧ -Real.pi < ((k + 1 : ℕ) : ℝ) / 2 - (k : ℝ) / 2 ∧ ((k + 1 : ℕ) : ℝ) / 2 - (k : ℝ) / 2 ≤ Real.pi := by
  intro k
  have := Real.pi_gt_three
  refine ⟨by positivity, ?_, ?_⟩ <;> push_cast <;> linarith

/-- **C108 (range, carrier offset).**  Every output is in `(-π, π]`; a gain and a phase shift change nothing from the second sample on; a frequency shift adds its pulsation to every output, modulo one turn. -/
theorem C108_decalage (x : List ℂ) (k : ℕ) (hk : k < x.length) :
    (∀ v ∈ (Discri.initial.step x).2, -Real.pi < v ∧ v ≤ Real.pi) ∧
    (∀ g : ℂ, g ≠ 0 → (Discri.initial.step (x.map (g * ·))).2 = (Discri.initial.step x).2) ∧
    (0 < k → x.getD k 0 ≠ 0 → x.getD (k - 1) 0 ≠ 0 → ∀ ω : ℝ, ∃ m : ℤ, (Discri.initial.step ((List.range x.length).map fun j : ℕ => x.getD j 0 * exp ((ω * j : ℝ) * I))).2.getD k 0 =
      (Discri.initial.step x).2.getD k 0 + ω + m * (2 * Real.pi)) := by
  refine ⟨?_, ?_, ?_⟩
  · intro v hv
    obtain ⟨i, hi, rfl⟩ := List.getElem_of_mem hv
    have hi' : i < x.length := by rwa [(C108_decoupe _ x []).1] at hi
    have := discri_valeur x Discri.initial i hi'
    rw [List.getElem?_eq_getElem hi, Option.some.injEq] at this
    rw [this]
    exact ⟨neg_pi_lt_arg _, arg_le_pi _⟩
  · intro g hg
    apply List.ext_getElem?
    intro i
    rcases Nat.lt_or_ge i x.length with hi | hi
    · rw [discri_valeur _ _ _ (by simpa using hi), discri_valeur _ _ _ hi, Option.some.injEq]
      split
      · simp [Discri.initial]
      · rename_i h0
        rw [List.getElem_map, List.getD_eq_getElem?_getD, List.getElem?_map, List.getD_eq_getElem?_getD, List.getElem?_eq_getElem (by omega)]
        simp only [Option.map_some, Option.getD_some, map_mul]
        rw [show g * x[i] * ((starRingEnd ℂ) g * (starRingEnd ℂ) x[i - 1]) = (g * (starRingEnd ℂ) g) * (x[i] * (starRingEnd ℂ) x[i - 1]) by ring, mul_conj, arg_real_mul]
        exact normSq_pos.2 hg
    · rw [List.getElem?_eq_none (by rw [(C108_decoupe _ _ []).1]; simpa using hi), List.getElem?_eq_none (by rw [(C108_decoupe _ _ []).1]; simpa using hi)]
  · intro h0 h1 h2 ω
    have g1 := discri_valeur ((List.range x.length).map fun j : ℕ => x.getD j 0 * exp ((ω * j : ℝ) * I)) Discri.initial k (by simpa using hk)
    rw [List.getD_eq_getElem?_getD (l := (Discri.step _ _).2), g1, List.getD_eq_getElem?_getD (l := (Discri.step _ x).2), discri_valeur _ _ _ hk]
    simp only [Option.getD_some]
    rw [if_neg (by omega), if_neg (by omega)]
    simp only [List.getElem_map, List.getElem_range]
    rw [List.getD_eq_getElem?_getD (l := List.map _ _), List.getElem?_map, List.getElem?_range (by omega)]
    simp only [Option.map_some, Option.getD_some]
    rw [List.getD_eq_getElem _ _ hk] at h1 ⊢
    set u := x[k] with hu
    set v := x.getD (k - 1) 0 with hv
    have hc : ((k - 1 : ℕ) : ℝ) = (k : ℝ) - 1 := by rw [Nat.cast_sub h0]; simp
    have e : u * exp ((ω * k : ℝ) * I) * (starRingEnd ℂ) (v * exp ((ω * (k - 1 : ℕ) : ℝ) * I)) = u * (starRingEnd ℂ) v * exp ((ω : ℝ) * I) := by
      rw [map_mul, ← exp_conj, map_mul, conj_ofReal, conj_I, hc]
      rw [show u * exp ((ω * k : ℝ) * I) * ((starRingEnd ℂ) v * exp ((ω * ((k : ℝ) - 1) : ℝ) * -I)) = u * (starRingEnd ℂ) v * (exp ((ω * k : ℝ) * I) * exp ((ω * ((k : ℝ) - 1) : ℝ) * -I)) by ring, ← exp_add]
      congr 2
      push_cast
      ring
    rw [e]
    have hne : u * (starRingEnd ℂ) v ≠ 0 := mul_ne_zero h1 ((map_ne_zero _).2 h2)
    have ha := arg_mul_coe_angle hne (exp_ne_zero ((ω : ℝ) * I))
    have hw : (arg (exp ((ω : ℝ) * I)) : Real.Angle) = (ω : Real.Angle) := by
      have := arg_cos_add_sin_mul_I_coe_angle (ω : Real.Angle)
      rw [Real.Angle.cos_coe, Real.Angle.sin_coe, ofReal_cos, ofReal_sin] at this
      rw [exp_mul_I, this]
    rw [hw, ← Real.Angle.coe_add, Real.Angle.angle_eq_iff_two_pi_dvd_sub] at ha
    obtain ⟨m, hm⟩ := ha
    exact ⟨m, by linarith⟩

/-- **C108 (FSK).**  The discriminator inverts the frequency modulation stage of the transmitter: applied to the modulated signal it gives, from the second sample on, the shaped
symbols `u` up to a positive gain, as soon as the modulation index is less than the oversampling factor. -/
theorem C108_fsk (index : ℝ) (osf : ℕ) (ho : |index| < osf) (u : List ℂ) : ∃ g : ℝ, 0 < g ∧ ∀ n (hn : n < u.length), 0 < n →
    (Discri.initial.step (etageFsk index osf u)).2[n]? = some (u[n].re / g * (Real.pi * index / osf)) := by
  obtain ⟨g, ω, hg, h1, h2, -, h4, h5, -, h7⟩ := C98_phase index osf u
  refine ⟨g, hg, fun n hn h0 => ?_⟩
  rw [discri_valeur _ _ _ (by omega), if_neg (by omega), ← h1 n hn, Option.some.injEq]
  obtain ⟨m, rfl⟩ : ∃ m, n = m + 1 := ⟨n - 1, by omega⟩
  have e := h7 m _ _ (List.getElem?_eq_getElem (by omega)) (List.getElem?_eq_getElem (by omega))
  rw [Nat.add_sub_cancel, List.getD_eq_getElem _ _ (by omega), e]
  have hu := h5 _ (List.getElem_mem (show m < (etageFsk index osf u).length by omega))
  generalize (etageFsk index osf u)[m] = y at *
  rw [show y * exp ((ω (m + 1) : ℝ) * I) * (starRingEnd ℂ) y = (y * (starRingEnd ℂ) y) * exp ((ω (m + 1) : ℝ) * I) by ring, mul_conj, normSq_eq_norm_sq, hu]
  have hb := h2 (m + 1) hn
  have hpos : (0 : ℝ) < osf := lt_of_le_of_lt (abs_nonneg _) ho
  have hlt : |ω (m + 1)| < Real.pi := by
    refine lt_of_le_of_lt hb ?_
    rw [div_lt_iff₀ hpos]
    exact mul_lt_mul_of_pos_left ho Real.pi_pos
  rw [abs_lt] at hlt
  rw [show (((1 : ℝ) ^ 2 : ℝ) : ℂ) = 1 by simp, one_mul, exp_mul_I, arg_cos_add_sin_mul_I ⟨hlt.1, hlt.2.le⟩]

/-- Non-vacuity: the index of minimum shift keying with four samples per symbol. -/
example : |(1 / 2 : ℝ)| < (4 : ℕ) := by norm_num [abs_lt]

end Verif.Telecom
