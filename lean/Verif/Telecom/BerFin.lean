import Verif.Telecom.BerQpsk
import Verif.Telecom.BerQam

namespace Verif.Telecom
open MeasureTheory ProbabilityTheory
open scoped NNReal

theorem db2pow_strictMono : StrictMono db2pow := by
  intro x y h
  unfold db2pow
  exact Real.rpow_lt_rpow_of_exponent_lt (by norm_num) (by linarith)

theorem erfc_racine (c : ℝ) (hc : 0 < c) : StrictAnti fun dB => erfc (Real.sqrt (c * db2pow dB)) := by
  intro x y h
  apply erfc_strictAnti
  apply Real.sqrt_lt_sqrt (mul_nonneg hc.le (db2pow_pos x).le)
  exact mul_lt_mul_of_pos_left (db2pow_strictMono h) hc

theorem anti_fois (f : ℝ → ℝ) (hf : StrictAnti f) (c : ℝ) (hc : 0 < c) (g : ℝ → ℝ) (hg : ∀ x, g x = c * f x) : StrictAnti g := by
  intro x y h
  rw [hg, hg]
  exact mul_lt_mul_of_pos_left (hf h) hc

theorem berPsk_forme (k : ℕ) (hk : 0 < k) (dB : ℝ) : berPsk (2 ^ k) dB = (if k = 1 then 1 / 2 else 1 / (k : ℝ)) * erfc (Real.sqrt (k * Real.sin (Real.pi / ((2 ^ k : ℕ) : ℝ)) ^ 2 * db2pow dB)) := by
  have hd := db2pow_pos dB
  have hM' : (1 : ℝ) ≤ ((2 ^ k : ℕ) : ℝ) := by exact_mod_cast Nat.one_le_two_pow
  have hsin : 0 ≤ Real.sin (Real.pi / ((2 ^ k : ℕ) : ℝ)) :=
    Real.sin_nonneg_of_nonneg_of_le_pi (by have := Real.pi_pos; positivity) (div_le_self Real.pi_pos.le hM')
  have harg : Real.sqrt (k * Real.sin (Real.pi / ((2 ^ k : ℕ) : ℝ)) ^ 2 * db2pow dB) = Real.sqrt ((k : ℝ) * db2pow dB) * Real.sin (Real.pi / ((2 ^ k : ℕ) : ℝ)) := by
    rw [show (k : ℝ) * Real.sin (Real.pi / ((2 ^ k : ℕ) : ℝ)) ^ 2 * db2pow dB = (k * db2pow dB) * Real.sin (Real.pi / ((2 ^ k : ℕ) : ℝ)) ^ 2 by ring]
    have : 0 ≤ (k : ℝ) * db2pow dB := by positivity
    generalize (k : ℝ) * db2pow dB = w at *
    rw [Real.sqrt_mul this, Real.sqrt_sq hsin]
  rw [harg]
  unfold berPsk
  simp only
  rw [nbBits_pow]
  by_cases h1 : k = 1
  · subst h1
    simp
    ring
  · have : 2 ^ k ≠ 2 := by
      intro h
      exact h1 (Nat.pow_right_injective (le_refl 2) (by simpa using h))
    rw [if_neg this, if_neg h1]
    ring

/-- **C159 (shape of the curves).** The announced rate is positive, at most 1/2 and strictly decreasing with the normalised SNR, for every PSK, π/4-QPSK, ASK, square QAM (numbers of
points that are powers of two) and FSK. -/
theorem C159_courbes (k : ℕ) (hk : 0 < k) : ∀ f ∈ [berPsk (2 ^ k), berPi4, berAsk (2 ^ k), berQam (2 ^ k * 2 ^ k), berFsk], StrictAnti f ∧ ∀ dB, 0 < f dB ∧ f dB ≤ 1 / 2 := by
  have hk1 : (1 : ℝ) ≤ k := by exact_mod_cast hk
  have hk' : (0 : ℝ) < k := by linarith
  have hM2 : 2 ≤ 2 ^ k := by
    calc 2 = 2 ^ 1 := rfl
      _ ≤ 2 ^ k := Nat.pow_le_pow_right (by norm_num) hk
  have hM : (2 : ℝ) ≤ ((2 ^ k : ℕ) : ℝ) := by exact_mod_cast hM2
  have hkM : (k : ℝ) + 1 ≤ ((2 ^ k : ℕ) : ℝ) := by exact_mod_cast (Nat.lt_two_pow_self : k < 2 ^ k)
  -- a positive factor at most 1/2
  have gen : ∀ (f : ℝ → ℝ) (c a : ℝ), 0 < c → c ≤ 1 / 2 → 0 < a → (∀ dB, f dB = c * erfc (Real.sqrt (a * db2pow dB))) → StrictAnti f ∧ ∀ dB, 0 < f dB ∧ f dB ≤ 1 / 2 := by
    intro f c a hc hc2 ha hf
    refine ⟨anti_fois _ (erfc_racine a ha) c hc f hf, fun dB => ?_⟩
    rw [hf]
    have h1 := erfc_pos (Real.sqrt (a * db2pow dB))
    have h2 := erfc_le_one (Real.sqrt (a * db2pow dB)) (Real.sqrt_nonneg _)
    exact ⟨mul_pos hc h1, by nlinarith⟩
  intro f hf
  simp only [List.mem_cons, List.not_mem_nil, or_false] at hf
  rcases hf with rfl | rfl | rfl | rfl | rfl
  · have hsin : 0 < Real.sin (Real.pi / ((2 ^ k : ℕ) : ℝ)) :=
      Real.sin_pos_of_pos_of_lt_pi (by have := Real.pi_pos; positivity) (div_lt_self Real.pi_pos (by linarith))
    refine gen _ (if k = 1 then 1 / 2 else 1 / (k : ℝ)) _ (by split <;> positivity) ?_ (by positivity) (berPsk_forme k hk)
    split
    · exact le_rfl
    · rename_i h1
      have : (2 : ℝ) ≤ k := by exact_mod_cast (by omega : 2 ≤ k)
      exact one_div_le_one_div_of_le (by norm_num) this
  · refine gen _ (1 / 2) 1 (by norm_num) le_rfl one_pos fun dB => ?_
    have h : berPi4 dB = berPsk (2 ^ 2) dB := by
      unfold berPi4 berPsk
      simp only
      rw [nbBits_pow, if_neg (by norm_num)]
      push_cast
      norm_num
    rw [h, show (2 ^ 2 : ℕ) = 4 by norm_num, berPsk4, one_mul]
    ring
  · refine gen _ ((((2 ^ k : ℕ) : ℝ) - 1) / ((2 ^ k : ℕ) : ℝ) / k) (3 * Real.logb 2 ((2 ^ k : ℕ) : ℝ) / (((2 ^ k : ℕ) : ℝ) * ((2 ^ k : ℕ) : ℝ) - 1)) ?_ ?_ ?_ fun dB => ?_
    · have : 0 < ((2 ^ k : ℕ) : ℝ) - 1 := by linarith
      positivity
    · rcases Nat.lt_or_ge 1 k with h | h
      · have h2 : (2 : ℝ) ≤ k := by exact_mod_cast h
        have h3 : (((2 ^ k : ℕ) : ℝ) - 1) / ((2 ^ k : ℕ) : ℝ) ≤ 1 := (div_le_one (by linarith)).2 (by linarith)
        rw [div_le_div_iff₀ hk' (by norm_num)]
        linarith
      · have : k = 1 := by omega
        subst this
        norm_num
    · have hlog : Real.logb 2 ((2 ^ k : ℕ) : ℝ) = k := by
        push_cast
        rw [Real.logb_pow, Real.logb_self_eq_one (by norm_num), mul_one]
      rw [hlog]
      have : 0 < ((2 ^ k : ℕ) : ℝ) * ((2 ^ k : ℕ) : ℝ) - 1 := by nlinarith
      positivity
    · unfold berAsk
      rw [nbBits_pow, show 3 * Real.logb 2 ((2 ^ k : ℕ) : ℝ) / (((2 ^ k : ℕ) : ℝ) * ((2 ^ k : ℕ) : ℝ) - 1) * db2pow dB =
        3 * Real.logb 2 ((2 ^ k : ℕ) : ℝ) * db2pow dB / (((2 ^ k : ℕ) : ℝ) * ((2 ^ k : ℕ) : ℝ) - 1) by ring]
      ring
  · have hkb : nbBits (2 ^ k * 2 ^ k) = 2 * k := by
      rw [← pow_add, ← two_mul]
      exact nbBits_pow _
    have hsq : Real.sqrt ((2 ^ k * 2 ^ k : ℕ) : ℝ) = ((2 ^ k : ℕ) : ℝ) := by
      rw [Nat.cast_mul, Real.sqrt_mul_self (Nat.cast_nonneg _)]
    refine gen _ ((2 / ((2 * k : ℕ) : ℝ)) * (1 - 1 / ((2 ^ k : ℕ) : ℝ))) (3 * ((2 * k : ℕ) : ℝ) / (2 * (((2 ^ k * 2 ^ k : ℕ) : ℝ) - 1))) ?_ ?_ ?_ fun dB => ?_
    · have : 0 < 1 - 1 / ((2 ^ k : ℕ) : ℝ) := by
        rw [sub_pos, div_lt_one (by linarith)]
        linarith
      have h2 : (0 : ℝ) < ((2 * k : ℕ) : ℝ) := by push_cast; positivity
      positivity
    · have e : (2 / ((2 * k : ℕ) : ℝ)) * (1 - 1 / ((2 ^ k : ℕ) : ℝ)) = (((2 ^ k : ℕ) : ℝ) - 1) / ((2 ^ k : ℕ) : ℝ) / k := by
        generalize ((2 ^ k : ℕ) : ℝ) = m at *
        have : m ≠ 0 := by linarith
        push_cast
        field_simp
      rw [e]
      rcases Nat.lt_or_ge 1 k with h | h
      · have h2 : (2 : ℝ) ≤ k := by exact_mod_cast h
        have h3 : (((2 ^ k : ℕ) : ℝ) - 1) / ((2 ^ k : ℕ) : ℝ) ≤ 1 := (div_le_one (by linarith)).2 (by linarith)
        rw [div_le_div_iff₀ hk' (by norm_num)]
        linarith
      · have : k = 1 := by omega
        subst this
        norm_num
    · have h2 : (0 : ℝ) < ((2 * k : ℕ) : ℝ) := by push_cast; positivity
      have h3 : 0 < ((2 ^ k * 2 ^ k : ℕ) : ℝ) - 1 := by
        rw [Nat.cast_mul]
        nlinarith
      positivity
    · unfold berQam
      rw [hkb, hsq, show 3 * ((2 * k : ℕ) : ℝ) / (2 * (((2 ^ k * 2 ^ k : ℕ) : ℝ) - 1)) * db2pow dB = 3 * ((2 * k : ℕ) : ℝ) * db2pow dB / (2 * (((2 ^ k * 2 ^ k : ℕ) : ℝ) - 1)) by ring]
  · refine gen _ (1 / 2) (1 / 2) (by norm_num) le_rfl (by norm_num) fun dB => ?_
    unfold berFsk
    rw [show db2pow dB * (1 - 0) / 2 = 1 / 2 * db2pow dB by ring]
    norm_num

/-- The announced rate of the BPSK. -/
theorem berPsk2 (x : ℝ) : berPsk 2 x = erfc (Real.sqrt (db2pow x)) / 2 := by
  have h : berPsk 2 x = _ := berPsk_forme 1 one_pos x
  rw [h, if_pos rfl]
  norm_num [Real.sin_pi_div_two]
  ring

/-- **C159 (equal curves).** The announced rates of the BPSK, the QPSK, the π/4-QPSK, the 2-ASK and the 4-QAM are the same. -/
theorem C159_egales (dB : ℝ) : berPsk 4 dB = berPsk 2 dB ∧ berPi4 dB = berPsk 2 dB ∧ berAsk 2 dB = berPsk 2 dB ∧ berQam 4 dB = berPsk 2 dB := by
  have h2 := berPsk2 dB
  have hk2 : nbBits 2 = 1 := nbBits_pow 1
  have hk4 : nbBits 4 = 2 := nbBits_pow 2
  refine ⟨by rw [berPsk4, h2], ?_, ?_, ?_⟩
  · rw [h2, ← berPsk4]
    unfold berPi4 berPsk
    simp only
    rw [hk4, if_neg (by norm_num)]
    push_cast
    rfl
  · rw [h2]
    unfold berAsk
    rw [hk2]
    push_cast
    rw [Real.logb_self_eq_one (by norm_num), show 3 * 1 * db2pow dB / ((2 : ℝ) * 2 - 1) = db2pow dB by ring]
    ring
  · rw [h2]
    unfold berQam
    rw [hk4]
    push_cast
    rw [show (4 : ℝ) = 2 ^ 2 by norm_num, Real.sqrt_sq (by norm_num), show 3 * 2 * db2pow dB / (2 * ((2 : ℝ) ^ 2 - 1)) = db2pow dB by ring]
    ring

/-- **C159 (FSK).** The announced rate of the FSK is that of the BPSK with 3.01 dB less. -/
theorem C159_fsk (dB : ℝ) : berFsk dB = berPsk 2 (dB - 10 * Real.logb 10 2) := by
  have h2 := berPsk2
  have e : db2pow (dB - 10 * Real.logb 10 2) = db2pow dB / 2 := by
    unfold db2pow
    rw [show (dB - 10 * Real.logb 10 2) / 10 = dB / 10 - Real.logb 10 2 by ring, Real.rpow_sub (by norm_num), Real.rpow_logb (by norm_num) (by norm_num) (by norm_num)]
  rw [h2, e]
  unfold berFsk
  rw [show db2pow dB * (1 - 0) / 2 = db2pow dB / 2 by ring]
  norm_num
  ring

/-- **C156 (ASK, refuted claim).** The announced rate does not depend on the levels: for an on-off keying (levels 0 and 1) the true bit error rate at 0 dB is strictly greater
than the announced one. -/
theorem C156_ook_refute : ∃ (dB : ℝ) (c : List (ℝ × ℝ)), askConstellation 2 0 1 = some c ∧ berAsk 2 dB < tauxBit c (symbolePlusProche c) 1 (variance c 1 dB) := by
  obtain ⟨c, hc, hE, h⟩ := C156_ask_symboles 2 le_rfl 1 one_pos 0 1 one_pos (by norm_num) (by norm_num) 0
  refine ⟨0, c, hc, ?_⟩
  obtain ⟨c', e, hl, hs, -⟩ := C96_ask 2 le_rfl 0 1
  rw [hc] at e
  obtain rfl := Option.some.inj e
  have hce : c = [(0, 0), (1, 0)] := by
    apply List.ext_getElem
    · simp [hl]
    · intro i h1 h2
      rw [hs i h1]
      have : i < 2 := by omega
      interval_cases i <;> norm_num
  have hEe : energieBit c 1 = 1 / 2 := by rw [hce]; simp [energieBit]
  have hdb : db2pow 0 = 1 := by simp [db2pow]
  obtain ⟨-, hv⟩ := variance_pos c 1 0 hE
  rw [hEe, hdb] at hv
  rw [hEe, hdb, hv] at h
  obtain ⟨b1, -⟩ := taux_encadre c (symbolePlusProche c) 1 one_pos hl (fun p r hr => by rw [pow_one, ← hl]; exact plusProche_borne c p r hr) (variance c 1 0)
  refine lt_of_lt_of_le ?_ b1
  have hk2 : nbBits 2 = 1 := nbBits_pow 1
  have hb : berAsk 2 0 = erfc 1 / 2 := by
    unfold berAsk
    rw [hk2, hdb]
    push_cast
    rw [Real.logb_self_eq_one (by norm_num), show 3 * 1 * 1 / ((2 : ℝ) * 2 - 1) = 1 by norm_num, Real.sqrt_one]
    ring
  rw [hb]
  have h' := (abs_le.1 h).1
  have hsq : Real.sqrt ((1 / (((2 : ℕ) : ℝ) - 1) / 2) ^ 2 / (1 / 2) * 1) ≤ 0.9 := by
    rw [Real.sqrt_le_left (by norm_num)]
    norm_num
  have ea := erfc_strictAnti.antitone hsq
  have ec := erfc_ecart 0.9 1 (by norm_num) (by norm_num)
  have k1 : (0.1 : ℝ) ≤ Real.exp (-1 ^ 2) := by
    have := Real.exp_one_lt_d9
    rw [one_pow, Real.exp_neg]
    rw [le_inv_comm₀ (by norm_num) (Real.exp_pos 1)]
    linarith
  have k2 : (0.01 : ℝ) ≤ erfc 0.9 - erfc 1 := by
    refine le_trans ?_ ec
    calc (0.01 : ℝ) = (1 - 0.9) * 0.1 := by norm_num
      _ ≤ _ := mul_le_mul_of_nonneg_left k1 (by norm_num)
  generalize erfc 1 = E1 at *
  generalize erfc 0.9 = E2 at *
  generalize erfc (Real.sqrt ((1 / (((2 : ℕ) : ℝ) - 1) / 2) ^ 2 / (1 / 2) * 1)) = E3 at *
  generalize tauxSymbole c (symbolePlusProche c) (variance c 1 0) = T at *
  norm_num at h' ⊢
  linarith

/-- Non-vacuity: the 8-PSK and the 16-QAM at 10 dB. -/
example : 3 * berPsk (2 ^ 3) 10 / 2 - 2 * (variance (pskConstellation (2 ^ 3)) 3 10 : ℝ≥0) / 10 ^ 96 ≤
    tauxSymbole (pskConstellation (2 ^ 3)) (pskPlusProche (2 ^ 3)) (variance (pskConstellation (2 ^ 3)) 3 10) ∧ 0 < berPsk (2 ^ 3) 10 := by
  have h := (C158_psk 3 (by norm_num) 10 _ rfl).1
  push_cast at h
  exact ⟨h, ((C159_courbes 3 (by norm_num) _ (List.mem_cons_self)).2 10).1⟩

end Verif.Telecom
