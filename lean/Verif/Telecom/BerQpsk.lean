import Verif.Telecom.BerPsk
import Mathlib.Analysis.Complex.ExponentialBounds

namespace Verif.Telecom
open MeasureTheory ProbabilityTheory
open scoped NNReal

/-! ## QPSK -/

/-- Noises that change the sign of a coordinate `±a` (`b`: the coordinate is negative). -/
def signeFaux (a : ℝ) (b : Bool) : Set ℝ := {x | decide ((if b then -a else a) + x < 0) ≠ b}

theorem signeFaux_eq (a : ℝ) (b : Bool) : signeFaux a b = if b then Set.Ici a else Set.Iio (-a) := by
  ext x
  cases b <;> simp [signeFaux]
  constructor <;> intro h <;> linarith

theorem signeFaux_mes (a : ℝ) (b : Bool) : MeasurableSet (signeFaux a b) := by
  rw [signeFaux_eq]
  split
  · exact measurableSet_Ici
  · exact measurableSet_Iio

theorem signeFaux_proba (v : ℝ≥0) (hv : v ≠ 0) (a : ℝ) (b : Bool) : (gaussianReal 0 v).real (signeFaux a b) = erfc (a / Real.sqrt (2 * v)) / 2 := by
  rw [signeFaux_eq]
  split
  · exact queue_ici v hv a
  · exact queue_iio v hv a

/-- Exactly one of two independent events of the same probability. -/
theorem un_des_deux (v : ℝ≥0) (A B : Set ℝ) (hA : MeasurableSet A) (hB : MeasurableSet B) (p : ℝ) (pA : (gaussianReal 0 v).real A = p) (pB : (gaussianReal 0 v).real B = p) :
    (bruit v).real {n | ¬ (n.1 ∈ A ↔ n.2 ∈ B)} = 2 * p * (1 - p) := by
  have e : {n : ℝ × ℝ | ¬ (n.1 ∈ A ↔ n.2 ∈ B)} = A ×ˢ Bᶜ ∪ Aᶜ ×ˢ B := by
    ext n
    simp only [Set.mem_setOf_eq, Set.mem_union, Set.mem_prod, Set.mem_compl_iff]
    tauto
  rw [e, measureReal_union (by rw [Set.disjoint_left]; rintro n ⟨h1, -⟩ ⟨h2, -⟩; exact h2 h1) (hA.compl.prod hB), bruit_rect, bruit_rect, pA, pB,
    probReal_compl_eq_one_sub hA, probReal_compl_eq_one_sub hB, pA, pB]
  ring

theorem decode_bits (p : ℝ × ℝ) : (decodeQPSK p).testBit 1 = decide (p.2 < 0) ∧ (decodeQPSK p).testBit 0 = (decide (p.1 < 0) ^^ decide (p.2 < 0)) ∧ decodeQPSK p < 4 := by
  unfold decodeQPSK
  by_cases h1 : 0 ≤ p.1 <;> by_cases h2 : 0 ≤ p.2 <;> simp [h1, h2, not_lt.2, not_le.1] <;> first | decide | (simp [not_le.1 h1]; try decide) | (simp [not_le.1 h2]; try decide)

theorem qpsk_coord (i : ℕ) (hi : i < 4) : (pskConstellation 4).getD i (0, 0) =
    ((if (i.testBit 0 ^^ i.testBit 1) then -(Real.sqrt 2 / 2) else Real.sqrt 2 / 2), (if i.testBit 1 then -(Real.sqrt 2 / 2) else Real.sqrt 2 / 2)) := by
  rw [qpsk_points]
  interval_cases i <;> simp [Nat.testBit]

/-- The events of a bit error for the quadrant decision. -/
theorem evenements (i : ℕ) (hi : i < 4) :
    {n | ∀ r, some (decodeQPSK ((pskConstellation 4).getD i (0, 0) + n)) = some r → r.testBit 1 ≠ i.testBit 1} = {n | n.2 ∈ signeFaux (Real.sqrt 2 / 2) (i.testBit 1)} ∧
    {n | ∀ r, some (decodeQPSK ((pskConstellation 4).getD i (0, 0) + n)) = some r → r.testBit 0 ≠ i.testBit 0} =
      {n | ¬ (n.1 ∈ signeFaux (Real.sqrt 2 / 2) (i.testBit 0 ^^ i.testBit 1) ↔ n.2 ∈ signeFaux (Real.sqrt 2 / 2) (i.testBit 1))} := by
  rw [qpsk_coord i hi]
  constructor
  · ext n
    simp only [Set.mem_setOf_eq, Option.some.injEq, forall_eq', (decode_bits _).1, signeFaux, Prod.snd_add]
  · ext n
    simp only [Set.mem_setOf_eq, Option.some.injEq, forall_eq', (decode_bits _).2.1, signeFaux, Prod.snd_add, Prod.fst_add]
    generalize (decide ((if (i.testBit 0 ^^ i.testBit 1) = true then -(Real.sqrt 2 / 2) else Real.sqrt 2 / 2) + n.1 < 0)) = x
    generalize (decide ((if i.testBit 1 = true then -(Real.sqrt 2 / 2) else Real.sqrt 2 / 2) + n.2 < 0)) = y
    generalize i.testBit 0 = b
    generalize i.testBit 1 = c
    revert x y b c
    decide

theorem berPsk4 (dB : ℝ) : berPsk 4 dB = erfc (Real.sqrt (db2pow dB)) / 2 := by
  have hd := db2pow_pos dB
  unfold berPsk
  simp only
  have hk : nbBits 4 = 2 := nbBits_pow 2
  rw [if_neg (by norm_num), hk]
  push_cast
  congr 2
  rw [Real.sqrt_mul (by norm_num), Real.sin_pi_div_four]
  have h2 : Real.sqrt 2 * Real.sqrt 2 = 2 := Real.mul_self_sqrt (by norm_num)
  linear_combination Real.sqrt (db2pow dB) / 2 * h2

theorem seuil_qpsk (dB : ℝ) (v : ℝ≥0) (hve : v = variance (pskConstellation 4) 2 dB) : v ≠ 0 ∧ erfc (Real.sqrt 2 / 2 / Real.sqrt (2 * v)) / 2 = berPsk 4 dB := by
  have hE0 := energie_psk 4 (by norm_num) 2
  have hE : 0 < energieBit (pskConstellation 4) 2 := by rw [hE0]; norm_num
  obtain ⟨hv, -⟩ := variance_pos _ 2 dB hE
  refine ⟨by rw [hve]; exact hv, ?_⟩
  rw [hve, seuil _ 2 dB hE _ (by positivity), hE0, berPsk4]
  congr 3
  rw [div_pow, Real.sq_sqrt (by norm_num)]
  push_cast
  ring

/-- Bit error rate of a decision whose events are those of the quadrants. -/
theorem taux_quadrant (symbs : List (ℝ × ℝ)) (dec : ℝ × ℝ → Option ℕ) (hl : symbs.length = 4) (v : ℝ≥0) (p : ℝ)
    (h1 : ∀ i, i < 4 → probaBit symbs dec v i 1 = p) (h0 : ∀ i, i < 4 → probaBit symbs dec v i 0 = 2 * p * (1 - p)) : tauxBit symbs dec 2 v = 3 / 2 * p - p ^ 2 := by
  unfold tauxBit
  rw [hl, Finset.sum_congr rfl (g := fun _ => 2 * p * (1 - p) + p)]
  · rw [Finset.sum_const, Finset.card_range, nsmul_eq_mul]
    push_cast
    ring
  · intro i hi
    rw [Finset.sum_range_succ, Finset.sum_range_succ, Finset.sum_range_zero, zero_add, h0 i (Finset.mem_range.1 hi), h1 i (Finset.mem_range.1 hi)]

/-- Two decisions that rarely differ have close bit error rates. -/
theorem taux_bit_proche (symbs : List (ℝ × ℝ)) (dec dec' : ℝ × ℝ → Option ℕ) (k : ℕ) (hk : 0 < k) (hM : 0 < symbs.length) (v : ℝ≥0) (ε : ℝ)
    (h : ∀ i, i < symbs.length → (bruit v).real {n | dec (symbs.getD i (0, 0) + n) ≠ dec' (symbs.getD i (0, 0) + n)} ≤ ε) : |tauxBit symbs dec k v - tauxBit symbs dec' k v| ≤ ε := by
  have hk' : (0 : ℝ) < k := by exact_mod_cast hk
  have hM' : (0 : ℝ) < symbs.length := by exact_mod_cast hM
  have hbit : ∀ i, i < symbs.length → ∀ j, |probaBit symbs dec v i j - probaBit symbs dec' v i j| ≤ ε := by
    intro i hi j
    have hsub : ∀ d d' : ℝ × ℝ → Option ℕ, {n | ∀ r, d (symbs.getD i (0, 0) + n) = some r → r.testBit j ≠ i.testBit j} ⊆
        {n | ∀ r, d' (symbs.getD i (0, 0) + n) = some r → r.testBit j ≠ i.testBit j} ∪ {n | d (symbs.getD i (0, 0) + n) ≠ d' (symbs.getD i (0, 0) + n)} := by
      intro d d' n hn
      by_cases he : d (symbs.getD i (0, 0) + n) = d' (symbs.getD i (0, 0) + n)
      · left
        intro r hr
        exact hn r (by rw [he, hr])
      · exact Or.inr he
    have a := (measureReal_mono (μ := bruit v) (hsub dec dec')).trans (measureReal_union_le _ _)
    have b := (measureReal_mono (μ := bruit v) (hsub dec' dec)).trans (measureReal_union_le _ _)
    have e : {n | dec' (symbs.getD i (0, 0) + n) ≠ dec (symbs.getD i (0, 0) + n)} = {n | dec (symbs.getD i (0, 0) + n) ≠ dec' (symbs.getD i (0, 0) + n)} := by
      ext n; exact ne_comm
    rw [e] at b
    have := h i hi
    unfold probaBit
    rw [abs_le]
    constructor <;> linarith
  unfold tauxBit
  rw [← sub_div, abs_div, abs_of_pos (mul_pos hM' hk'), div_le_iff₀ (mul_pos hM' hk'), ← Finset.sum_sub_distrib]
  refine (Finset.abs_sum_le_sum_abs _ _).trans ((Finset.sum_le_card_nsmul _ _ (k * ε) fun i hi => ?_).trans ?_)
  · rw [← Finset.sum_sub_distrib]
    refine (Finset.abs_sum_le_sum_abs _ _).trans ((Finset.sum_le_card_nsmul _ _ ε fun j _ => hbit i (Finset.mem_range.1 hi) j).trans ?_)
    rw [Finset.card_range, nsmul_eq_mul]
  · rw [Finset.card_range, nsmul_eq_mul]
    exact le_of_eq (by ring)

/-- Away from the axes the decision by the nearest symbol is the decision by quadrants. -/
theorem qpsk_quadrant (p : ℝ × ℝ) (h1 : p.1 ≠ 0) (h2 : p.2 ≠ 0) (hb : ∀ s ∈ pskConstellation 4, dist2 p s < 10 ^ 100) : pskPlusProche 4 p = some (decodeQPSK p) := by
  have hl := psk_longueur 4
  have ha : 0 < Real.sqrt 2 / 2 := by positivity
  unfold pskPlusProche
  rw [if_neg (by norm_num)]
  refine proche_unique _ p hb _ (by rw [hl]; exact (decode_bits p).2.2) ?_
  have hg : ∀ i (hi : i < (pskConstellation 4).length), (pskConstellation 4)[i] = (pskConstellation 4).getD i (0, 0) := by
    intro i hi
    rw [List.getD_eq_getElem?_getD, List.getElem?_eq_getElem hi, Option.getD_some]
  intro j hj hne
  rw [hg, hg, qpsk_coord _ (decode_bits p).2.2, qpsk_coord j (by omega), (decode_bits p).1, (decode_bits p).2.1]
  have hne' : ¬ (j.testBit 0 = (decide (p.1 < 0) ^^ decide (p.2 < 0)) ∧ j.testBit 1 = decide (p.2 < 0)) := by
    rintro ⟨e0, e1⟩
    obtain ⟨b, hb2, hd⟩ := bits_differents 2 (decodeQPSK p) j (decode_bits p).2.2 (by omega) hne
    interval_cases b
    · exact hd (by rw [e0, (decode_bits p).2.1])
    · exact hd (by rw [e1, (decode_bits p).1])
  generalize j.testBit 0 = x at *
  generalize j.testBit 1 = y at *
  generalize Real.sqrt 2 / 2 = a at *
  clear hb hg hne hj hl
  rcases lt_or_gt_of_ne h1 with g1 | g1 <;> rcases lt_or_gt_of_ne h2 with g2 | g2 <;> cases x <;> cases y <;>
    simp_all [dist2, not_lt.2 (le_of_lt g1), not_lt.2 (le_of_lt g2)] <;> nlinarith

/-- **C155 (QPSK).** For every normalised SNR, the true bit error rate of the QPSK (nearest symbol, natural bit mapping: *not* a Gray code) in white Gaussian noise is
`3/2 ber - ber²` up to a negligible term, where `ber` is the rate returned by the code. -/
theorem C155_qpsk (dB : ℝ) (v : ℝ≥0) (hve : v = variance (pskConstellation 4) 2 dB) :
    |tauxBit (pskConstellation 4) (pskPlusProche 4) 2 v - (3 / 2 * berPsk 4 dB - berPsk 4 dB ^ 2)| ≤ 2 * (v : ℝ) / 10 ^ 96 := by
  obtain ⟨hv, hp⟩ := seuil_qpsk dB v hve
  have hl := psk_longueur 4
  rw [← taux_quadrant (pskConstellation 4) (fun p => some (decodeQPSK p)) hl v (berPsk 4 dB) (fun i hi => ?_) (fun i hi => ?_)]
  · refine taux_bit_proche _ _ _ 2 (by norm_num) (by omega) v _ fun i hi => ?_
    set s := (pskConstellation 4).getD i (0, 0) with hs
    haveI := nullSingletonClass_gaussianReal (μ := 0) hv
    have hsub : {n | pskPlusProche 4 (s + n) ≠ some (decodeQPSK (s + n))} ⊆ ({n | n.1 ∈ ({-s.1} : Set ℝ)} ∪ {n | n.2 ∈ ({-s.2} : Set ℝ)}) ∪ horsPortee := by
      intro n hn
      by_contra hc
      simp only [Set.mem_union, not_or, Set.mem_setOf_eq, Set.mem_singleton_iff] at hc
      refine hn (qpsk_quadrant _ (fun h => hc.1.1 ?_) (fun h => hc.1.2 ?_) fun q hq => ?_)
      · rw [Prod.fst_add] at h; linarith
      · rw [Prod.snd_add] at h; linarith
      · have hb : ∀ s ∈ pskConstellation 4, |s.1| ≤ 10 ^ 48 ∧ |s.2| ≤ 10 ^ 48 := by
          intro s hs
          obtain ⟨j, hj, rfl⟩ := List.getElem_of_mem hs
          rw [psk_elt]
          exact ⟨(Real.abs_cos_le_one _).trans (by norm_num), (Real.abs_sin_le_one _).trans (by norm_num)⟩
        refine en_portee _ _ _ ?_ (hb q hq) hc.2
        rw [hs, List.getD_eq_getElem?_getD, List.getElem?_eq_getElem hi, Option.getD_some]
        exact hb _ (List.getElem_mem hi)
    have a := (measureReal_mono (μ := bruit v) hsub).trans ((measureReal_union_le _ _).trans (add_le_add (measureReal_union_le _ _) (horsPortee_rare v)))
    rw [bruit_fst, bruit_snd] at a
    simpa [Measure.real] using a
  · show (bruit v).real _ = _
    rw [(evenements i hi).1, bruit_snd, signeFaux_proba v hv, hp]
  · show (bruit v).real _ = _
    rw [(evenements i hi).2]
    exact un_des_deux v _ _ (signeFaux_mes _ _) (signeFaux_mes _ _) _ (by rw [signeFaux_proba v hv, hp]) (by rw [signeFaux_proba v hv, hp])

theorem erfc_ecart (x y : ℝ) (hx : 0 ≤ x) (h : x ≤ y) : (y - x) * Real.exp (-y ^ 2) ≤ erfc x - erfc y := by
  have hp : 0 < Real.sqrt Real.pi := Real.sqrt_pos.2 Real.pi_pos
  have hi : ∫ t in Set.Ioi x, Real.exp (-t ^ 2) = (∫ t in Set.Ioc x y, Real.exp (-t ^ 2)) + ∫ t in Set.Ioi y, Real.exp (-t ^ 2) := by
    rw [← setIntegral_union (by rw [Set.disjoint_left]; intro t h1 h2; exact absurd h1.2 (not_le.2 h2)) measurableSet_Ioi exp_integrable.integrableOn exp_integrable.integrableOn,
      Set.Ioc_union_Ioi_eq_Ioi h]
  have hm : (y - x) * Real.exp (-y ^ 2) ≤ ∫ t in Set.Ioc x y, Real.exp (-t ^ 2) := by
    have := setIntegral_mono_on (μ := volume) (s := Set.Ioc x y) (f := fun _ => Real.exp (-y ^ 2)) (g := fun t => Real.exp (-t ^ 2)) (by simp) exp_integrable.integrableOn measurableSet_Ioc
      (fun t ht => by apply Real.exp_le_exp.2; have := ht.1; have := ht.2; nlinarith)
    rw [setIntegral_const, smul_eq_mul, Measure.real, Real.volume_Ioc, ENNReal.toReal_ofReal (by linarith)] at this
    exact this
  have hsp : Real.sqrt Real.pi ≤ 2 := by
    rw [Real.sqrt_le_left (by norm_num)]
    linarith [Real.pi_le_four]
  have h2 : 1 ≤ 2 / Real.sqrt Real.pi := (le_div_iff₀ hp).2 (by linarith)
  unfold erfc
  rw [hi, ← mul_sub, add_sub_cancel_right]
  have h0 : 0 ≤ ∫ t in Set.Ioc x y, Real.exp (-t ^ 2) := le_trans (mul_nonneg (by linarith) (Real.exp_pos _).le) hm
  nlinarith

/-- **C155 (QPSK, refuted claim).** At 0 dB the true bit error rate is strictly greater than the rate announced by `ber` (by about 40 %). -/
theorem C155_qpsk_refute : ∃ dB : ℝ, berPsk 4 dB < tauxBit (pskConstellation 4) (pskPlusProche 4) 2 (variance (pskConstellation 4) 2 dB) := by
  refine ⟨0, ?_⟩
  have h := (abs_le.1 (C155_qpsk 0 _ rfl)).1
  have hE0 := energie_psk 4 (by norm_num) 2
  have hE : 0 < energieBit (pskConstellation 4) 2 := by rw [hE0]; norm_num
  obtain ⟨-, hv⟩ := variance_pos (pskConstellation 4) 2 0 hE
  have hdb : db2pow 0 = 1 := by simp [db2pow]
  rw [hE0, hdb] at hv
  rw [hv] at h
  have hb := berPsk4 0
  rw [hdb, Real.sqrt_one] at hb
  have e1 := erfc_ecart 0 1 le_rfl zero_le_one
  have e2 := erfc_ecart 1 2 zero_le_one (by norm_num)
  rw [erfc_zero] at e1
  have e3 := erfc_pos 2
  have k1 : (0.1 : ℝ) ≤ Real.exp (-1 ^ 2) := by
    have := Real.exp_one_lt_d9
    rw [one_pow, Real.exp_neg]
    rw [le_inv_comm₀ (by norm_num) (Real.exp_pos 1)]
    linarith
  have k2 : (0.001 : ℝ) ≤ Real.exp (-2 ^ 2) := by
    have h1 := Real.exp_one_lt_d9
    have h4 : Real.exp 4 = Real.exp 1 ^ 4 := by rw [← Real.exp_nat_mul]; norm_num
    rw [show (-2 ^ 2 : ℝ) = -4 by norm_num, Real.exp_neg, h4, le_inv_comm₀ (by norm_num) (by positivity)]
    calc Real.exp 1 ^ 4 ≤ 3 ^ 4 := pow_le_pow_left₀ (Real.exp_pos 1).le (by linarith) 4
      _ ≤ _ := by norm_num
  rw [hb] at h ⊢
  generalize erfc 1 = E at *
  have b1 : (0.001 : ℝ) ≤ E := by
    rw [show (2 - 1 : ℝ) * Real.exp (-2 ^ 2) = Real.exp (-2 ^ 2) by norm_num] at e2
    exact k2.trans (e2.trans (by linarith))
  have b2 : (0.1 : ℝ) ≤ 1 - E := by
    rw [show (1 - 0 : ℝ) * Real.exp (-1 ^ 2) = Real.exp (-1 ^ 2) by norm_num] at e1
    exact k1.trans e1
  have b3 : (0.001 : ℝ) * 0.1 ≤ E * (1 - E) := mul_le_mul b1 b2 (by norm_num) (by linarith)
  norm_num at h b3
  nlinarith

/-! ## π/4-QPSK -/

/-- The index decided by the context at a symbol of rank `cnt`. -/
noncomputable def pi4Index (cnt : ℕ) (x : ℝ × ℝ) : Option ℕ := (pi4Ctx cnt x).map fun r => r.2.1

theorem pi4Index_eq (cnt : ℕ) (x : ℝ × ℝ) : pi4Index cnt x =
    some (decodeQPSK (if cnt % 2 = 1 then mulC x (Real.cos (-Real.pi / 4), Real.sin (-Real.pi / 4)) else x)) := by
  unfold pi4Index pi4Ctx
  simp only
  have hl := pi4_longueur (decide ((cnt + 1 + 1) % 2 = 1))
  rw [List.getElem?_eq_getElem (by rw [hl]; exact (decode_bits _).2.2)]
  rfl

/-- **C155 (π/4-QPSK).** For every rank of symbol (both constellations of the π/4-QPSK) and every normalised SNR, the bit error rate of the demodulation context in white
Gaussian noise is exactly `3/2 ber - ber²`, where `ber` is the rate returned by the code: strictly more than announced, at every SNR. -/
theorem C155_pi4 (cnt : ℕ) (dB : ℝ) (v : ℝ≥0) (hve : v = variance (pi4Symbs (cnt % 2 = 1)) 2 dB) :
    tauxBit (pi4Symbs (cnt % 2 = 1)) (pi4Index cnt) 2 v = 3 / 2 * berPi4 dB - berPi4 dB ^ 2 ∧ berPi4 dB < tauxBit (pi4Symbs (cnt % 2 = 1)) (pi4Index cnt) 2 v := by
  have hber : berPi4 dB = berPsk 4 dB := by
    rw [berPsk4]
    unfold berPi4
    congr 2
    rw [Real.sqrt_mul (by norm_num), Real.sin_pi_div_four]
    have h2 : Real.sqrt 2 * Real.sqrt 2 = 2 := Real.mul_self_sqrt (by norm_num)
    linear_combination Real.sqrt (db2pow dB) / 2 * h2
  have hE : energieBit (pi4Symbs (cnt % 2 = 1)) 2 = energieBit (pskConstellation 4) 2 := by
    rw [energie_psk 4 (by norm_num) 2]
    have h : ((pi4Symbs (cnt % 2 = 1)).map fun s => s.1 ^ 2 + s.2 ^ 2) = List.replicate 4 1 := by
      apply List.ext_getElem
      · simp [pi4_longueur]
      · intro i h1 h2
        simp only [List.getElem_map, List.getElem_replicate, pi4_elt]
        exact Real.cos_sq_add_sin_sq _
    unfold energieBit
    rw [h, pi4_longueur]
    norm_num
  have hve' : v = variance (pskConstellation 4) 2 dB := by rw [hve]; unfold variance; rw [hE]
  obtain ⟨hv, hp⟩ := seuil_qpsk dB v hve'
  have key : tauxBit (pi4Symbs (cnt % 2 = 1)) (pi4Index cnt) 2 v = 3 / 2 * berPi4 dB - berPi4 dB ^ 2 := by
    rw [hber]
    have hev : ∀ i, i < 4 → ∀ j, probaBit (pi4Symbs (cnt % 2 = 1)) (pi4Index cnt) v i j =
        (bruit v).real {n | (if cnt % 2 = 1 then (Real.cos (Real.pi / 4) * n.1 + Real.sin (Real.pi / 4) * n.2, -Real.sin (Real.pi / 4) * n.1 + Real.cos (Real.pi / 4) * n.2) else n) ∈
          {n | ∀ r, some (decodeQPSK ((pskConstellation 4).getD i (0, 0) + n)) = some r → r.testBit j ≠ i.testBit j}} := by
      intro i hi j
      unfold probaBit
      congr 1
      ext n
      simp only [Set.mem_setOf_eq, pi4Index_eq]
      have hpt : (if cnt % 2 = 1 then mulC ((pi4Symbs (cnt % 2 = 1)).getD i (0, 0) + n) (Real.cos (-Real.pi / 4), Real.sin (-Real.pi / 4)) else (pi4Symbs (cnt % 2 = 1)).getD i (0, 0) + n) =
          (pskConstellation 4).getD i (0, 0) +
            (if cnt % 2 = 1 then (Real.cos (Real.pi / 4) * n.1 + Real.sin (Real.pi / 4) * n.2, -Real.sin (Real.pi / 4) * n.1 + Real.cos (Real.pi / 4) * n.2) else n) := by
        by_cases hc : cnt % 2 = 1
        · simp only [hc, decide_true, if_true]
          have hg : (pi4Symbs true).getD i (0, 0) = mulC ((pskConstellation 4).getD i (0, 0)) (Real.cos (Real.pi / 4), Real.sin (Real.pi / 4)) := by
            have hi' : i < (pskConstellation 4).length := by rw [psk_longueur]; exact hi
            unfold pi4Symbs
            rw [if_pos rfl, List.getD_eq_getElem?_getD, List.getElem?_map, List.getElem?_eq_getElem hi', List.getD_eq_getElem?_getD, List.getElem?_eq_getElem hi']
            rfl
          rw [hg, show -Real.pi / 4 = -(Real.pi / 4) by ring, Real.cos_neg, Real.sin_neg]
          have hcs := Real.sin_sq_add_cos_sq (Real.pi / 4)
          generalize (pskConstellation 4).getD i (0, 0) = s
          generalize Real.sin (Real.pi / 4) = S at *
          generalize Real.cos (Real.pi / 4) = C at *
          ext
          · simp only [mulC, Prod.fst_add, Prod.snd_add]
            linear_combination s.1 * hcs
          · simp only [mulC, Prod.fst_add, Prod.snd_add]
            linear_combination s.2 * hcs
        · simp only [hc, decide_false, if_false]
          simp [pi4Symbs]
      rw [hpt]
    have hrot : ∀ S : Set (ℝ × ℝ), MeasurableSet S → (bruit v).real {n | (if cnt % 2 = 1 then (Real.cos (Real.pi / 4) * n.1 + Real.sin (Real.pi / 4) * n.2,
        -Real.sin (Real.pi / 4) * n.1 + Real.cos (Real.pi / 4) * n.2) else n) ∈ S} = (bruit v).real S := by
      intro S hS
      by_cases hc : cnt % 2 = 1
      · simp only [hc, if_true]
        exact bruit_rotation v _ S hS
      · simp only [hc, if_false]
        rfl
    refine taux_quadrant _ _ (pi4_longueur _) v _ (fun i hi => ?_) (fun i hi => ?_)
    · rw [hev i hi, (evenements i hi).1, hrot {n | n.2 ∈ signeFaux (Real.sqrt 2 / 2) (i.testBit 1)} (measurable_snd (signeFaux_mes _ _)), bruit_snd, signeFaux_proba v hv, hp]
    · rw [hev i hi, (evenements i hi).2, hrot]
      · exact un_des_deux v _ _ (signeFaux_mes _ _) (signeFaux_mes _ _) _ (by rw [signeFaux_proba v hv, hp]) (by rw [signeFaux_proba v hv, hp])
      · have m1 : MeasurableSet {n : ℝ × ℝ | n.1 ∈ signeFaux (Real.sqrt 2 / 2) (i.testBit 0 ^^ i.testBit 1)} := measurable_fst (signeFaux_mes _ _)
        have m2 : MeasurableSet {n : ℝ × ℝ | n.2 ∈ signeFaux (Real.sqrt 2 / 2) (i.testBit 1)} := measurable_snd (signeFaux_mes _ _)
        exact (m1.iff m2).compl
  refine ⟨key, ?_⟩
  rw [key, hber, berPsk4]
  have h1 := erfc_pos (Real.sqrt (db2pow dB))
  have h2 : erfc (Real.sqrt (db2pow dB)) < 1 := by
    rw [← erfc_zero]
    exact erfc_strictAnti (Real.sqrt_pos.2 (db2pow_pos dB))
  nlinarith

end Verif.Telecom
