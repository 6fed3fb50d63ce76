import Verif.Telecom.BerBase
import Verif.Telecom.FormesProps

namespace Verif.Telecom
open MeasureTheory ProbabilityTheory
open scoped NNReal

theorem variance_pos (symbs : List (ℝ × ℝ)) (k : ℕ) (dB : ℝ) (hE : 0 < energieBit symbs k) : variance symbs k dB ≠ 0 ∧
    ((variance symbs k dB : ℝ≥0) : ℝ) = energieBit symbs k / db2pow dB / 2 := by
  have h : 0 < energieBit symbs k / db2pow dB / 2 := by have := db2pow_pos dB; positivity
  refine ⟨by unfold variance; simpa using h, ?_⟩
  unfold variance
  exact Real.coe_toNNReal _ h.le

/-- The argument of `erfc` for a threshold at distance `a`. -/
theorem seuil (symbs : List (ℝ × ℝ)) (k : ℕ) (dB : ℝ) (hE : 0 < energieBit symbs k) (a : ℝ) (ha : 0 ≤ a) :
    a / Real.sqrt (2 * (variance symbs k dB : ℝ≥0)) = Real.sqrt (a ^ 2 / energieBit symbs k * db2pow dB) := by
  have hd := db2pow_pos dB
  rw [(variance_pos symbs k dB hE).2]
  conv_lhs => rw [← Real.sqrt_sq ha]
  rw [← Real.sqrt_div' _ (by positivity)]
  congr 1
  field_simp

theorem nbBits_pow (k : ℕ) : nbBits (2 ^ k) = k := Nat.log_pow one_lt_two k

theorem energie_bpsk : energieBit (pskConstellation 2) 1 = 1 := by
  simp [energieBit, pskConstellation]

/-- **C154 (BPSK).** For every normalised SNR, the rate returned by `ber` is exactly the probability of a bit error of the decision of the code in white Gaussian
noise. -/
theorem C154_bpsk (dB : ℝ) : tauxBit (pskConstellation 2) (pskPlusProche 2) 1 (variance (pskConstellation 2) 1 dB) = berPsk 2 dB := by
  have hE : 0 < energieBit (pskConstellation 2) 1 := by rw [energie_bpsk]; norm_num
  obtain ⟨hv, -⟩ := variance_pos (pskConstellation 2) 1 dB hE
  have hs := seuil (pskConstellation 2) 1 dB hE 1 zero_le_one
  generalize variance (pskConstellation 2) 1 dB = v at *
  have h0 : probaBit (pskConstellation 2) (pskPlusProche 2) v 0 0 = erfc (1 / Real.sqrt (2 * v)) / 2 := by
    rw [← queue_ioi v hv 1, ← bruit_fst]
    unfold probaBit
    congr 1
    ext n
    simp only [pskConstellation, pskPlusProche, bpskDecision, if_true, List.getD_cons_zero, Set.mem_setOf_eq, Option.some.injEq, forall_eq', Prod.fst_add, Set.mem_Ioi]
    by_cases h : (-1 : ℝ) + n.1 > 0
    · rw [if_pos h]; simp; linarith
    · rw [if_neg h]; simp; linarith
  have h1 : probaBit (pskConstellation 2) (pskPlusProche 2) v 1 0 = erfc (1 / Real.sqrt (2 * v)) / 2 := by
    rw [← queue_iic v hv 1, ← bruit_fst]
    unfold probaBit
    congr 1
    ext n
    simp only [pskConstellation, pskPlusProche, bpskDecision, if_true, List.getD_cons_succ, List.getD_cons_zero, Set.mem_setOf_eq, Option.some.injEq, forall_eq', Prod.fst_add, Set.mem_Iic]
    by_cases h : (1 : ℝ) + n.1 > 0
    · rw [if_pos h]; simp; linarith
    · rw [if_neg h]; simp; linarith
  have hl : (pskConstellation 2).length = 2 := psk_longueur 2
  unfold tauxBit berPsk
  rw [hl]
  have hk : nbBits 2 = 1 := nbBits_pow 1
  simp only [Finset.sum_range_succ, Finset.sum_range_zero, zero_add, h0, h1, hs, energie_bpsk, hk, if_true]
  norm_num

/-! ## Decision by the nearest symbol: the cases where it is determined -/

theorem proche_unique (symbs : List (ℝ × ℝ)) (p : ℝ × ℝ) (hb : ∀ s ∈ symbs, dist2 p s < 10 ^ 100) (i : ℕ) (hi : i < symbs.length)
    (h : ∀ j (hj : j < symbs.length), j ≠ i → dist2 p symbs[i] < dist2 p symbs[j]) : symbolePlusProche symbs p = some i := by
  obtain ⟨r, hr, e, h1, -⟩ := C40_decision_optimale symbs p (by intro h; subst h; simp at hi) hb
  by_cases hri : r = i
  · rw [e, hri]
  · exact absurd (h r hr hri) (not_lt.2 (h1 i hi))

theorem proche_pas (symbs : List (ℝ × ℝ)) (p : ℝ × ℝ) (hb : ∀ s ∈ symbs, dist2 p s < 10 ^ 100) (i j : ℕ) (hi : i < symbs.length) (hj : j < symbs.length)
    (h : dist2 p symbs[j] < dist2 p symbs[i]) : symbolePlusProche symbs p ≠ some i := by
  obtain ⟨r, hr, e, h1, -⟩ := C40_decision_optimale symbs p (by intro h; subst h; simp at hi) hb
  rw [e]
  intro hh
  obtain rfl := Option.some.inj hh
  exact absurd h (not_lt.2 (h1 j hj))

/-- The samples so far away (`10^48`) that the squared distances may exceed the initial bound `1e100` of the search. -/
def horsPortee : Set (ℝ × ℝ) := {n | 10 ^ 48 ≤ |n.1| ∨ 10 ^ 48 ≤ |n.2|}

theorem abs_queue (v : ℝ≥0) (hv : v ≠ 0) (a : ℝ) (ha : 0 < a) : (gaussianReal 0 v).real {x | a ≤ |x|} = erfc (a / Real.sqrt (2 * v)) := by
  have : {x : ℝ | a ≤ |x|} = Set.Iic (-a) ∪ Set.Ici a := by
    ext x
    simp only [Set.mem_setOf_eq, Set.mem_union, Set.mem_Iic, Set.mem_Ici, le_abs]
    constructor
    · rintro (h | h)
      · exact Or.inr h
      · exact Or.inl (by linarith)
    · rintro (h | h)
      · exact Or.inr (by linarith)
      · exact Or.inl h
  rw [this, measureReal_union (by rw [Set.disjoint_left]; intro t h1 h2; have := Set.mem_Iic.1 h1; have := Set.mem_Ici.1 h2; linarith) measurableSet_Ici, queue_ici v hv,
    queue_iic v hv]
  ring

theorem tchebychev (v : ℝ≥0) (a : ℝ) (ha : 0 < a) : (gaussianReal 0 v).real {x | a ≤ |x|} ≤ v / a ^ 2 := by
  have h := meas_ge_le_variance_div_sq (μ := gaussianReal 0 v) (X := fun x => x) (memLp_id_gaussianReal 2) ha
  rw [integral_id_gaussianReal, variance_fun_id_gaussianReal] at h
  simp only [sub_zero] at h
  unfold Measure.real
  exact ENNReal.toReal_le_of_le_ofReal (by positivity) h

/-- These samples are extremely rare. -/
theorem horsPortee_rare (v : ℝ≥0) : (bruit v).real horsPortee ≤ 2 * v / 10 ^ 96 := by
  have h1 := tchebychev v (10 ^ 48) (by norm_num)
  have e : horsPortee = {n | n.1 ∈ {x : ℝ | 10 ^ 48 ≤ |x|}} ∪ {n | n.2 ∈ {x : ℝ | 10 ^ 48 ≤ |x|}} := rfl
  rw [e]
  refine (measureReal_union_le _ _).trans ?_
  rw [bruit_fst, bruit_snd]
  have : ((10 : ℝ) ^ 48) ^ 2 = 10 ^ 96 := by norm_num
  rw [this] at h1
  linarith

theorem en_portee (s n q : ℝ × ℝ) (hs : |s.1| ≤ 10 ^ 48 ∧ |s.2| ≤ 10 ^ 48) (hq : |q.1| ≤ 10 ^ 48 ∧ |q.2| ≤ 10 ^ 48) (hn : n ∉ horsPortee) : dist2 (s + n) q < 10 ^ 100 := by
  simp only [horsPortee, Set.mem_setOf_eq, not_or, not_le] at hn
  simp only [dist2, Prod.fst_add, Prod.snd_add]
  have key : ∀ a b c : ℝ, |a| ≤ 10 ^ 48 → |b| < 10 ^ 48 → |c| ≤ 10 ^ 48 → (a + b - c) * (a + b - c) ≤ (10 ^ 49 * 2) ^ 2 := by
    intro a b c ha hb hc
    rw [← pow_two]
    apply sq_le_sq'
    · have := abs_le.1 ha; have := abs_lt.1 hb; have := abs_le.1 hc; norm_num at *; linarith
    · have := abs_le.1 ha; have := abs_lt.1 hb; have := abs_le.1 hc; norm_num at *; linarith
  have h1 := key _ _ _ hs.1 hn.1 hq.1
  have h2 := key _ _ _ hs.2 hn.2 hq.2
  calc _ ≤ ((10 : ℝ) ^ 49 * 2) ^ 2 + (10 ^ 49 * 2) ^ 2 := add_le_add h1 h2
    _ < 10 ^ 100 := by norm_num

end Verif.Telecom
