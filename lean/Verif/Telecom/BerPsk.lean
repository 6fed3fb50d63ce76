import Verif.Telecom.BerAsk
import Mathlib.Probability.Distributions.Gaussian.Fernique

namespace Verif.Telecom
open MeasureTheory ProbabilityTheory
open scoped NNReal

/-- The noise is invariant by rotation. -/
theorem bruit_rotation (v : ℝ≥0) (θ : ℝ) (S : Set (ℝ × ℝ)) (hS : MeasurableSet S) :
    (bruit v).real {n | (Real.cos θ * n.1 + Real.sin θ * n.2, -Real.sin θ * n.1 + Real.cos θ * n.2) ∈ S} = (bruit v).real S := by
  have h : (bruit v).map (ContinuousLinearMap.rotation θ) = bruit v := by
    unfold bruit
    refine IsGaussian.map_rotation_eq_self ?_ θ
    simp
  conv_rhs => rw [← h]
  unfold Measure.real
  rw [Measure.map_apply (by fun_prop) hS]
  rfl

/-- Probability of a half-plane. -/
theorem demi_plan (v : ℝ≥0) (hv : v ≠ 0) (θ a : ℝ) : (bruit v).real {n | a ≤ -Real.sin θ * n.1 + Real.cos θ * n.2} = erfc (a / Real.sqrt (2 * v)) / 2 := by
  rw [← queue_ici v hv a, ← bruit_snd]
  exact bruit_rotation v θ {n | n.2 ∈ Set.Ici a} (measurable_snd measurableSet_Ici)

theorem demi_plan_strict (v : ℝ≥0) (hv : v ≠ 0) (θ a : ℝ) : (bruit v).real {n | a < -Real.sin θ * n.1 + Real.cos θ * n.2} = erfc (a / Real.sqrt (2 * v)) / 2 := by
  rw [← queue_ioi v hv a, ← bruit_snd]
  exact bruit_rotation v θ {n | n.2 ∈ Set.Ioi a} (measurable_snd measurableSet_Ioi)

/-- A point strictly inside the angular sector of half-width `β < π/2` around `α`. -/
theorem secteur (α β : ℝ) (h0 : 0 < β) (h1 : β < Real.pi / 2) (p : ℝ × ℝ)
    (hA : -Real.sin (α + β) * p.1 + Real.cos (α + β) * p.2 < 0) (hB : 0 < -Real.sin (α - β) * p.1 + Real.cos (α - β) * p.2) :
    ∃ ρ φ, 0 < ρ ∧ ρ ^ 2 = p.1 ^ 2 + p.2 ^ 2 ∧ |φ - α| < β ∧ p = (ρ * Real.cos φ, ρ * Real.sin φ) := by
  set x := Real.cos α * p.1 + Real.sin α * p.2 with hx
  set y := -Real.sin α * p.1 + Real.cos α * p.2 with hy
  have e1 : -Real.sin (α + β) * p.1 + Real.cos (α + β) * p.2 = y * Real.cos β - x * Real.sin β := by
    rw [Real.sin_add, Real.cos_add, hx, hy]; ring
  have e2 : -Real.sin (α - β) * p.1 + Real.cos (α - β) * p.2 = y * Real.cos β + x * Real.sin β := by
    rw [Real.sin_sub, Real.cos_sub, hx, hy]; ring
  rw [e1] at hA
  rw [e2] at hB
  have hs : 0 < Real.sin β := Real.sin_pos_of_pos_of_lt_pi h0 (by linarith [Real.pi_pos])
  have hc : 0 < Real.cos β := Real.cos_pos_of_mem_Ioo ⟨by linarith [Real.pi_pos], h1⟩
  have hxp : 0 < x := by
    by_contra h
    have : x * Real.sin β ≤ 0 := mul_nonpos_of_nonpos_of_nonneg (not_lt.1 h) hs.le
    linarith
  have hcs := Real.sin_sq_add_cos_sq α
  have hp1 : p.1 = Real.cos α * x - Real.sin α * y := by rw [hx, hy]; linear_combination -(p.1) * hcs
  have hp2 : p.2 = Real.sin α * x + Real.cos α * y := by rw [hx, hy]; linear_combination -(p.2) * hcs
  have hn : x ^ 2 + y ^ 2 = p.1 ^ 2 + p.2 ^ 2 := by rw [hp1, hp2]; linear_combination -(x ^ 2 + y ^ 2) * hcs
  clear_value x y
  have hcp := Real.cos_arctan_pos (y / x)
  set δ := Real.arctan (y / x) with hδ
  have hcd : 0 < Real.cos δ := hcp
  have htan : y = x * (Real.sin δ / Real.cos δ) := by
    rw [← Real.tan_eq_sin_div_cos, hδ, Real.tan_arctan]; field_simp
  have hsd := Real.sin_sq_add_cos_sq δ
  refine ⟨x / Real.cos δ, α + δ, by positivity, ?_, ?_, ?_⟩
  · rw [← hn, htan]
    field_simp
    linear_combination -hsd
  · rw [show α + δ - α = δ by ring, abs_lt]
    have ht : Real.tan β = Real.sin β / Real.cos β := Real.tan_eq_sin_div_cos β
    constructor
    · rw [hδ, neg_lt, ← Real.arctan_neg, ← Real.arctan_tan (x := β) (by linarith) h1, Real.arctan_lt_arctan_iff, ht, lt_div_iff₀ hc]
      rw [show -(y / x) * Real.cos β = (-(y * Real.cos β)) / x by ring, div_lt_iff₀ hxp]
      linarith
    · rw [hδ, ← Real.arctan_tan (x := β) (by linarith) h1, Real.arctan_lt_arctan_iff, ht, lt_div_iff₀ hc]
      rw [show y / x * Real.cos β = (y * Real.cos β) / x by ring, div_lt_iff₀ hxp]
      linarith
  · have c1 : x / Real.cos δ * Real.cos (α + δ) = p.1 := by
      rw [Real.cos_add, hp1, htan]; field_simp
    have c2 : x / Real.cos δ * Real.sin (α + δ) = p.2 := by
      rw [Real.sin_add, hp2, htan]; field_simp
    rw [c1, c2]

/-- Error probability of a PSK symbol. -/
theorem psk_symbole (M : ℕ) (hM : 3 ≤ M) (v : ℝ≥0) (hv : v ≠ 0) (i : ℕ) (hi : i < M) :
    erfc (Real.sin (Real.pi / M) / Real.sqrt (2 * v)) / 2 - 2 * v / 10 ^ 96 ≤ probaSymbole (pskConstellation M) (pskPlusProche M) v i ∧
    probaSymbole (pskConstellation M) (pskPlusProche M) v i ≤ erfc (Real.sin (Real.pi / M) / Real.sqrt (2 * v)) + 2 * v / 10 ^ 96 := by
  have hl := psk_longueur M
  have hi' : i < (pskConstellation M).length := by omega
  have hrare := horsPortee_rare v
  set α := anglePsk M i with hα
  set β := Real.pi / M with hβ
  have hM' : (3 : ℝ) ≤ M := by exact_mod_cast hM
  have hM0 : (0 : ℝ) < M := by linarith
  have hβ0 : 0 < β := by have := Real.pi_pos; positivity
  have hβ1 : β < Real.pi / 2 := by
    rw [hβ]
    apply div_lt_div_of_pos_left Real.pi_pos (by norm_num) (by linarith)
  have hget : (pskConstellation M).getD i (0, 0) = (Real.cos α, Real.sin α) := by
    rw [List.getD_eq_getElem?_getD, List.getElem?_eq_getElem hi', Option.getD_some, psk_elt]
  have hb : ∀ s ∈ pskConstellation M, |s.1| ≤ 10 ^ 48 ∧ |s.2| ≤ 10 ^ 48 := by
    intro s hs
    obtain ⟨j, hj, rfl⟩ := List.getElem_of_mem hs
    rw [psk_elt]
    exact ⟨(Real.abs_cos_le_one _).trans (by norm_num), (Real.abs_sin_le_one _).trans (by norm_num)⟩
  -- the two half-planes
  have p1 := demi_plan v hv (α + β) (Real.sin β)
  have p2 : (bruit v).real {n | -Real.sin (α - β) * n.1 + Real.cos (α - β) * n.2 ≤ -Real.sin β} = erfc (Real.sin β / Real.sqrt (2 * v)) / 2 := by
    rw [← demi_plan v hv (α - β + Real.pi) (Real.sin β)]
    congr 1
    ext n
    simp only [Set.mem_setOf_eq, Real.sin_add_pi, Real.cos_add_pi]
    constructor <;> intro h <;> linarith
  have hdot : ∀ n : ℝ × ℝ, ∀ γ, -Real.sin (α + γ) * (Real.cos α + n.1) + Real.cos (α + γ) * (Real.sin α + n.2) = (-Real.sin (α + γ) * n.1 + Real.cos (α + γ) * n.2) - Real.sin γ := by
    intro n γ
    have h := Real.sin_sub (α + γ) α
    rw [show α + γ - α = γ by ring] at h
    rw [h]; ring
  constructor
  · -- the half-plane beyond the bisector with the next symbol is not decided `i`
    set j := (i + 1) % M with hj
    have hjM : j < M := Nat.mod_lt _ (by omega)
    have hang : ∃ m : ℤ, anglePsk M j = α + 2 * β + m * (2 * Real.pi) := by
      by_cases hlast : i + 1 < M
      · refine ⟨0, ?_⟩
        rw [hα, hj, Nat.mod_eq_of_lt hlast]
        unfold anglePsk
        simp only [if_neg (show ¬ M = 2 by omega)]
        generalize (if M = 4 then Real.pi / 4 else 0) = d
        rw [hβ]
        push_cast
        ring
      · refine ⟨-1, ?_⟩
        have : i + 1 = M := by omega
        have hiM : (i : ℝ) = M - 1 := by
          have : (i : ℝ) + 1 = M := by exact_mod_cast this
          linarith
        rw [hα, hj, this, Nat.mod_self]
        unfold anglePsk
        simp only [if_neg (show ¬ M = 2 by omega)]
        generalize (if M = 4 then Real.pi / 4 else 0) = d
        rw [hiM, hβ]
        push_cast
        field_simp
        ring
    obtain ⟨m, hm⟩ := hang
    have hsub : {n : ℝ × ℝ | Real.sin β < -Real.sin (α + β) * n.1 + Real.cos (α + β) * n.2} ⊆
        {n | pskPlusProche M ((pskConstellation M).getD i (0, 0) + n) ≠ some i} ∪ horsPortee := by
      intro n hn
      by_cases hp : n ∈ horsPortee
      · exact Or.inr hp
      · left
        simp only [Set.mem_setOf_eq] at hn ⊢
        unfold pskPlusProche
        rw [if_neg (by omega)]
        have hport : ∀ s ∈ pskConstellation M, dist2 ((pskConstellation M).getD i (0, 0) + n) s < 10 ^ 100 := by
          intro s hs
          refine en_portee _ _ _ ?_ (hb s hs) hp
          rw [List.getD_eq_getElem?_getD, List.getElem?_eq_getElem hi', Option.getD_some]
          exact hb _ (List.getElem_mem hi')
        refine proche_pas _ _ hport i j hi' (by omega) ?_
        rw [psk_elt, psk_elt, ← hα, hget, hm, Real.cos_add_int_mul_two_pi, Real.sin_add_int_mul_two_pi]
        have hd := hdot n β
        simp only [dist2, Prod.fst_add, Prod.snd_add]
        have c1 : Real.cos (α + 2 * β) = Real.cos α - 2 * Real.sin (α + β) * Real.sin β := by
          have := Real.cos_sub_cos (α + 2 * β) α
          rw [show (α + 2 * β + α) / 2 = α + β by ring, show (α + 2 * β - α) / 2 = β by ring] at this
          linarith
        have c2 : Real.sin (α + 2 * β) = Real.sin α + 2 * Real.cos (α + β) * Real.sin β := by
          have := Real.sin_sub_sin (α + 2 * β) α
          rw [show (α + 2 * β + α) / 2 = α + β by ring, show (α + 2 * β - α) / 2 = β by ring] at this
          linarith
        have q1 := Real.sin_sq_add_cos_sq (α + 2 * β)
        have q2 := Real.sin_sq_add_cos_sq α
        have hsβ : 0 < Real.sin β := Real.sin_pos_of_pos_of_lt_pi hβ0 (by linarith [Real.pi_pos])
        have hpos : 0 < -Real.sin (α + β) * (Real.cos α + n.1) + Real.cos (α + β) * (Real.sin α + n.2) := by rw [hd]; linarith
        have key : (Real.cos α + n.1 - Real.cos α) * (Real.cos α + n.1 - Real.cos α) + (Real.sin α + n.2 - Real.sin α) * (Real.sin α + n.2 - Real.sin α) -
            ((Real.cos α + n.1 - Real.cos (α + 2 * β)) * (Real.cos α + n.1 - Real.cos (α + 2 * β)) + (Real.sin α + n.2 - Real.sin (α + 2 * β)) * (Real.sin α + n.2 - Real.sin (α + 2 * β))) =
            4 * Real.sin β * (-Real.sin (α + β) * (Real.cos α + n.1) + Real.cos (α + β) * (Real.sin α + n.2)) := by
          have : (Real.cos α + n.1) * (Real.cos (α + 2 * β) - Real.cos α) + (Real.sin α + n.2) * (Real.sin (α + 2 * β) - Real.sin α) =
              2 * Real.sin β * (-Real.sin (α + β) * (Real.cos α + n.1) + Real.cos (α + β) * (Real.sin α + n.2)) := by rw [c1, c2]; ring
          linear_combination 2 * this + q2 - q1
        have := mul_pos (mul_pos (by norm_num : (0 : ℝ) < 4) hsβ) hpos
        linarith
    have := (measureReal_mono (μ := bruit v) hsub).trans (measureReal_union_le _ _)
    rw [demi_plan_strict v hv] at this
    unfold probaSymbole
    linarith
  · have hsub : {n | pskPlusProche M ((pskConstellation M).getD i (0, 0) + n) ≠ some i} ⊆
        ({n : ℝ × ℝ | Real.sin β ≤ -Real.sin (α + β) * n.1 + Real.cos (α + β) * n.2} ∪ {n | -Real.sin (α - β) * n.1 + Real.cos (α - β) * n.2 ≤ -Real.sin β}) ∪ horsPortee := by
      intro n hn
      by_contra hc
      simp only [Set.mem_union, not_or, Set.mem_setOf_eq, not_le] at hc
      obtain ⟨⟨h1, h2⟩, h3⟩ := hc
      have d1 := hdot n β
      have d2 := hdot n (-β)
      rw [← sub_eq_add_neg, Real.sin_neg] at d2
      obtain ⟨ρ, φ, hρ, hρ2, hφ, e⟩ := secteur α β hβ0 hβ1 (Real.cos α + n.1, Real.sin α + n.2) (by simp only; rw [d1]; linarith) (by simp only; rw [d2]; linarith)
      refine hn ?_
      have hs : (pskConstellation M).getD i (0, 0) + n = (Real.cos α + n.1, Real.sin α + n.2) := by rw [hget]; rfl
      rw [hs, e]
      refine C94_phase M (by omega) i hi ρ φ hρ ?_ hφ
      simp only [horsPortee, Set.mem_setOf_eq, not_or, not_le] at h3
      have b1 := abs_lt.1 h3.1
      have b2 := abs_lt.1 h3.2
      have k1 : (Real.cos α + n.1) ^ 2 ≤ (2 * 10 ^ 48) ^ 2 := by
        apply sq_le_sq' <;> linarith [Real.cos_le_one α, Real.neg_one_le_cos α, (by norm_num : (1 : ℝ) ≤ 10 ^ 48)]
      have k2 : (Real.sin α + n.2) ^ 2 ≤ (2 * 10 ^ 48) ^ 2 := by
        apply sq_le_sq' <;> linarith [Real.sin_le_one α, Real.neg_one_le_sin α, (by norm_num : (1 : ℝ) ≤ 10 ^ 48)]
      simp only at hρ2
      by_contra hbig
      have : ((10 : ℝ) ^ 49) ^ 2 < ρ ^ 2 := by
        apply sq_lt_sq'
        · linarith [(by norm_num : (0 : ℝ) < 10 ^ 49)]
        · exact not_le.1 hbig
      rw [hρ2] at this
      have : ((10 : ℝ) ^ 49) ^ 2 < (2 * 10 ^ 48) ^ 2 + (2 * 10 ^ 48) ^ 2 := by linarith
      norm_num at this
    have a := (measureReal_mono (μ := bruit v) hsub).trans ((measureReal_union_le _ _).trans (add_le_add (measureReal_union_le _ _) le_rfl))
    rw [p1, p2] at a
    unfold probaSymbole
    linarith

theorem energie_psk (M : ℕ) (hM : 0 < M) (k : ℕ) : energieBit (pskConstellation M) k = 1 / k := by
  have h : ((pskConstellation M).map fun s => s.1 ^ 2 + s.2 ^ 2) = List.replicate M 1 := by
    apply List.ext_getElem
    · simp [psk_longueur]
    · intro i h1 h2
      simp only [List.getElem_map, List.getElem_replicate, psk_elt]
      exact Real.cos_sq_add_sin_sq _
  unfold energieBit
  rw [h, psk_longueur, List.sum_replicate, nsmul_eq_mul, mul_one, div_self (by exact_mod_cast hM.ne')]

/-- **C158 (PSK).** For every PSK of `2^k` points, `k ≥ 2`, `k` times the rate returned by `ber` is, up to a negligible term, an upper bound of the symbol error rate of the
decision of the code in white Gaussian noise, and at most twice it; the true bit error rate lies between `ber / 2` and `k · ber`. -/
theorem C158_psk (k : ℕ) (hk : 2 ≤ k) (dB : ℝ) (v : ℝ≥0) (hve : v = variance (pskConstellation (2 ^ k)) k dB) :
    k * berPsk (2 ^ k) dB / 2 - 2 * v / 10 ^ 96 ≤ tauxSymbole (pskConstellation (2 ^ k)) (pskPlusProche (2 ^ k)) v ∧
    tauxSymbole (pskConstellation (2 ^ k)) (pskPlusProche (2 ^ k)) v ≤ k * berPsk (2 ^ k) dB + 2 * v / 10 ^ 96 ∧
    berPsk (2 ^ k) dB / 2 - 2 * v / 10 ^ 96 ≤ tauxBit (pskConstellation (2 ^ k)) (pskPlusProche (2 ^ k)) k v ∧
    tauxBit (pskConstellation (2 ^ k)) (pskPlusProche (2 ^ k)) k v ≤ k * berPsk (2 ^ k) dB + 2 * v / 10 ^ 96 := by
  have hM : 4 ≤ 2 ^ k := by
    calc 4 = 2 ^ 2 := rfl
      _ ≤ 2 ^ k := Nat.pow_le_pow_right (by norm_num) hk
  have hk1 : (2 : ℝ) ≤ k := by exact_mod_cast hk
  have hk' : (0 : ℝ) < k := by linarith
  have hl := psk_longueur (2 ^ k)
  have hE0 := energie_psk (2 ^ k) (by omega) k
  have hE : 0 < energieBit (pskConstellation (2 ^ k)) k := by rw [hE0]; positivity
  obtain ⟨hv, -⟩ := variance_pos _ k dB hE
  have hM' : (1 : ℝ) ≤ ((2 ^ k : ℕ) : ℝ) := by exact_mod_cast (by omega : 1 ≤ 2 ^ k)
  have hsin : 0 ≤ Real.sin (Real.pi / ((2 ^ k : ℕ) : ℝ)) :=
    Real.sin_nonneg_of_nonneg_of_le_pi (by have := Real.pi_pos; positivity) (div_le_self Real.pi_pos.le hM')
  have hse := seuil (pskConstellation (2 ^ k)) k dB hE _ hsin
  rw [← hve] at hse hv
  have hd := db2pow_pos dB
  have hber : (k : ℝ) * berPsk (2 ^ k) dB = erfc (Real.sin (Real.pi / ((2 ^ k : ℕ) : ℝ)) / Real.sqrt (2 * v)) := by
    unfold berPsk
    simp only
    rw [if_neg (by omega), nbBits_pow, hse, hE0, mul_div_cancel₀ _ hk'.ne']
    congr 1
    rw [show Real.sin (Real.pi / ((2 ^ k : ℕ) : ℝ)) ^ 2 / (1 / (k : ℝ)) * db2pow dB = ((k : ℝ) * db2pow dB) * Real.sin (Real.pi / ((2 ^ k : ℕ) : ℝ)) ^ 2 by field_simp]
    have : 0 ≤ (k : ℝ) * db2pow dB := by positivity
    generalize (k : ℝ) * db2pow dB = w at *
    rw [Real.sqrt_mul this, Real.sqrt_sq hsin]
  have hs := fun i hi => psk_symbole (2 ^ k) (by omega) v hv i hi
  rw [← hber] at hs
  have hlenpos : (0 : ℝ) < ((2 ^ k : ℕ) : ℝ) := by linarith
  have t1 : k * berPsk (2 ^ k) dB / 2 - 2 * v / 10 ^ 96 ≤ tauxSymbole (pskConstellation (2 ^ k)) (pskPlusProche (2 ^ k)) v := by
    unfold tauxSymbole
    rw [hl, le_div_iff₀ hlenpos]
    refine le_trans (le_of_eq ?_) (Finset.card_nsmul_le_sum (Finset.range (2 ^ k)) _ _ fun i hi => (hs i (Finset.mem_range.1 hi)).1)
    rw [Finset.card_range, nsmul_eq_mul, mul_comm]
  have t2 : tauxSymbole (pskConstellation (2 ^ k)) (pskPlusProche (2 ^ k)) v ≤ k * berPsk (2 ^ k) dB + 2 * v / 10 ^ 96 := by
    unfold tauxSymbole
    rw [hl, div_le_iff₀ hlenpos]
    refine le_trans (Finset.sum_le_card_nsmul (Finset.range (2 ^ k)) _ _ fun i hi => (hs i (Finset.mem_range.1 hi)).2) (le_of_eq ?_)
    rw [Finset.card_range, nsmul_eq_mul, mul_comm]
  obtain ⟨b1, b2⟩ := taux_encadre (pskConstellation (2 ^ k)) (pskPlusProche (2 ^ k)) k (by omega) hl (fun p r hr => by
    unfold pskPlusProche at hr
    rw [if_neg (by omega)] at hr
    rw [← hl]
    exact plusProche_borne _ p r hr) v
  refine ⟨t1, t2, ?_, by linarith⟩
  refine le_trans ?_ b1
  rw [le_div_iff₀ hk']
  have : 0 ≤ 2 * (v : ℝ) / 10 ^ 96 := by positivity
  nlinarith

end Verif.Telecom
