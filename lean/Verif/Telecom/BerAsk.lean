import Verif.Telecom.BerProps
import Verif.Telecom.Pi4Props

namespace Verif.Telecom
open MeasureTheory ProbabilityTheory
open scoped NNReal

/-! ## One axis: `m` regularly spaced levels -/

/-- Noises that move level `u` of `m` (spacing `δ`) out of its decision interval, bounds included. -/
def sortieLarge (m : ℕ) (δ : ℝ) (u : ℕ) : Set ℝ := {n | (0 < u ∧ n ≤ -(δ / 2)) ∨ (u + 1 < m ∧ δ / 2 ≤ n)}

/-- Same, bounds excluded. -/
def sortieStricte (m : ℕ) (δ : ℝ) (u : ℕ) : Set ℝ := {n | (0 < u ∧ n < -(δ / 2)) ∨ (u + 1 < m ∧ δ / 2 < n)}

/-- Number of neighbours of level `u`. -/
def voisins (m u : ℕ) : ℕ := (if 0 < u then 1 else 0) + (if u + 1 < m then 1 else 0)

theorem sortieLarge_proba (m : ℕ) (δ : ℝ) (hδ : 0 < δ) (v : ℝ≥0) (hv : v ≠ 0) (u : ℕ) : (gaussianReal 0 v).real (sortieLarge m δ u) =
    voisins m u * (erfc (δ / 2 / Real.sqrt (2 * v)) / 2) := by
  have e : sortieLarge m δ u = (if 0 < u then Set.Iic (-(δ / 2)) else ∅) ∪ (if u + 1 < m then Set.Ici (δ / 2) else ∅) := by
    ext n
    unfold sortieLarge
    by_cases h1 : 0 < u <;> by_cases h2 : u + 1 < m <;> simp [h1, h2]
  rw [e, measureReal_union]
  · unfold voisins
    by_cases h1 : 0 < u <;> by_cases h2 : u + 1 < m <;> simp only [h1, h2, if_true, if_false, queue_ici v hv, queue_iic v hv] <;> simp <;> ring
  · by_cases h1 : 0 < u <;> by_cases h2 : u + 1 < m <;> simp only [h1, h2, if_true, if_false] <;> rw [Set.disjoint_left] <;> intro t a b <;> simp_all <;> linarith
  · split
    · exact measurableSet_Ici
    · exact MeasurableSet.empty

theorem sortieStricte_proba (m : ℕ) (δ : ℝ) (hδ : 0 < δ) (v : ℝ≥0) (hv : v ≠ 0) (u : ℕ) : (gaussianReal 0 v).real (sortieStricte m δ u) =
    voisins m u * (erfc (δ / 2 / Real.sqrt (2 * v)) / 2) := by
  have e : sortieStricte m δ u = (if 0 < u then Set.Iio (-(δ / 2)) else ∅) ∪ (if u + 1 < m then Set.Ioi (δ / 2) else ∅) := by
    ext n
    unfold sortieStricte
    by_cases h1 : 0 < u <;> by_cases h2 : u + 1 < m <;> simp [h1, h2]
  rw [e, measureReal_union]
  · unfold voisins
    by_cases h1 : 0 < u <;> by_cases h2 : u + 1 < m <;> simp only [h1, h2, if_true, if_false, queue_ioi v hv, queue_iio v hv] <;> simp <;> ring
  · by_cases h1 : 0 < u <;> by_cases h2 : u + 1 < m <;> simp only [h1, h2, if_true, if_false] <;> rw [Set.disjoint_left] <;> intro t a b <;> simp_all <;> linarith
  · split
    · exact measurableSet_Ioi
    · exact MeasurableSet.empty

/-- Inside its interval a level is the strictly nearest one. -/
theorem axe_dedans (m : ℕ) (δ a : ℝ) (hδ : 0 < δ) (u w : ℕ) (hw : w < m) (hu : w ≠ u) (n : ℝ) (hn : n ∉ sortieLarge m δ u) :
    (a + δ * u + n - (a + δ * u)) * (a + δ * u + n - (a + δ * u)) < (a + δ * u + n - (a + δ * w)) * (a + δ * u + n - (a + δ * w)) := by
  simp only [sortieLarge, Set.mem_setOf_eq, not_or, not_and, not_le] at hn
  rcases Nat.lt_or_gt_of_ne hu with h | h
  · have h1 := hn.1 (by omega)
    have h2 : (w : ℝ) + 1 ≤ u := by exact_mod_cast h
    have h3 : δ ≤ δ * ((u : ℝ) - w) := by nlinarith
    have : a + δ * u + n - (a + δ * w) = n + δ * ((u : ℝ) - w) := by ring
    rw [this]
    have : a + δ * u + n - (a + δ * u) = n := by ring
    rw [this]
    nlinarith
  · have h1 := hn.2 (by omega)
    have h2 : (u : ℝ) + 1 ≤ w := by exact_mod_cast h
    have h3 : δ ≤ δ * ((w : ℝ) - u) := by nlinarith
    have : a + δ * u + n - (a + δ * w) = n - δ * ((w : ℝ) - u) := by ring
    rw [this]
    have : a + δ * u + n - (a + δ * u) = n := by ring
    rw [this]
    nlinarith

/-- Outside, another level is strictly nearer. -/
theorem axe_dehors (m : ℕ) (δ a : ℝ) (hδ : 0 < δ) (u : ℕ) (hu : u < m) (n : ℝ) (hn : n ∈ sortieStricte m δ u) : ∃ w, w < m ∧
    (a + δ * u + n - (a + δ * w)) * (a + δ * u + n - (a + δ * w)) < (a + δ * u + n - (a + δ * u)) * (a + δ * u + n - (a + δ * u)) := by
  rcases hn with ⟨h, h1⟩ | ⟨h, h1⟩
  · refine ⟨u - 1, by omega, ?_⟩
    rw [Nat.cast_sub h]
    push_cast
    nlinarith
  · refine ⟨u + 1, h, ?_⟩
    push_cast
    nlinarith

theorem voisins_somme (m : ℕ) (hm : 1 ≤ m) : ∑ u ∈ Finset.range m, (voisins m u : ℝ) = 2 * ((m : ℝ) - 1) := by
  obtain ⟨n, rfl⟩ : ∃ n, m = n + 1 := ⟨m - 1, by omega⟩
  unfold voisins
  push_cast
  rw [Finset.sum_add_distrib]
  have h1 : ∑ u ∈ Finset.range (n + 1), (if 0 < u then (1 : ℝ) else 0) = n := by
    rw [Finset.sum_range_succ']
    simp
  have h2 : ∑ u ∈ Finset.range (n + 1), (if u + 1 < n + 1 then (1 : ℝ) else 0) = n := by
    rw [Finset.sum_range_succ]
    rw [Finset.sum_congr rfl (g := fun _ => (1 : ℝ)) (fun u hu => by rw [if_pos]; have := Finset.mem_range.1 hu; omega)]
    simp
  rw [h1, h2]
  ring

/-! ## Comparison of events -/

theorem encadre (v : ℝ≥0) (S T T' : Set (ℝ × ℝ)) (q : ℝ) (h1 : S ⊆ T ∪ horsPortee) (h2 : T' ⊆ S ∪ horsPortee) (e1 : (bruit v).real T = q) (e2 : (bruit v).real T' = q) :
    |(bruit v).real S - q| ≤ 2 * v / 10 ^ 96 := by
  have hr := horsPortee_rare v
  have a1 := (measureReal_mono (μ := bruit v) h1).trans (measureReal_union_le _ _)
  have a2 := (measureReal_mono (μ := bruit v) h2).trans (measureReal_union_le _ _)
  rw [e1] at a1
  rw [e2] at a2
  rw [abs_le]
  constructor <;> linarith

theorem bits_differents (k i r : ℕ) (hi : i < 2 ^ k) (hr : r < 2 ^ k) (h : r ≠ i) : ∃ j, j < k ∧ r.testBit j ≠ i.testBit j := by
  by_contra hc
  push Not at hc
  refine h (Nat.eq_of_testBit_eq fun j => ?_)
  by_cases hj : j < k
  · exact hc j hj
  · rw [Nat.testBit_lt_two_pow (lt_of_lt_of_le hr (Nat.pow_le_pow_right (by norm_num) (by omega))),
      Nat.testBit_lt_two_pow (lt_of_lt_of_le hi (Nat.pow_le_pow_right (by norm_num) (by omega)))]

/-- A symbol error makes between one and `k` bit errors. -/
theorem taux_encadre (symbs : List (ℝ × ℝ)) (dec : ℝ × ℝ → Option ℕ) (k : ℕ) (hk : 0 < k) (hM : symbs.length = 2 ^ k) (hd : ∀ p r, dec p = some r → r < 2 ^ k) (v : ℝ≥0) :
    tauxSymbole symbs dec v / k ≤ tauxBit symbs dec k v ∧ tauxBit symbs dec k v ≤ tauxSymbole symbs dec v := by
  have hk' : (0 : ℝ) < k := by exact_mod_cast hk
  have hM' : (0 : ℝ) < symbs.length := by rw [hM]; positivity
  have h1 : ∀ i ∈ Finset.range symbs.length, probaSymbole symbs dec v i ≤ ∑ j ∈ Finset.range k, probaBit symbs dec v i j := by
    intro i hi
    have hi' : i < 2 ^ k := by rw [← hM]; exact Finset.mem_range.1 hi
    unfold probaSymbole probaBit
    refine le_trans (measureReal_mono ?_ (measure_ne_top _ _)) (measureReal_biUnion_finset_le (μ := bruit v) (Finset.range k)
      (fun j => {n | ∀ r, dec (symbs.getD i (0, 0) + n) = some r → r.testBit j ≠ i.testBit j}))
    intro n hn
    simp only [Set.mem_iUnion, Set.mem_setOf_eq, Finset.mem_range, exists_prop] at hn ⊢
    cases hr : dec (symbs.getD i (0, 0) + n) with
    | none => exact ⟨0, hk, fun r h => by simp at h⟩
    | some r =>
      rw [hr] at hn
      obtain ⟨j, hj, hb⟩ := bits_differents k i r hi' (hd _ _ hr) (fun h => hn (by rw [h]))
      exact ⟨j, hj, fun r' h => by obtain rfl := Option.some.inj h; exact hb⟩
  have h2 : ∀ i ∈ Finset.range symbs.length, ∑ j ∈ Finset.range k, probaBit symbs dec v i j ≤ k * probaSymbole symbs dec v i := by
    intro i _
    refine (Finset.sum_le_card_nsmul _ _ (probaSymbole symbs dec v i) fun j _ => ?_).trans (by rw [Finset.card_range, nsmul_eq_mul])
    unfold probaSymbole probaBit
    refine measureReal_mono fun n hn => ?_
    simp only [Set.mem_setOf_eq] at hn ⊢
    intro h
    exact hn i h rfl
  unfold tauxSymbole tauxBit
  constructor
  · rw [div_div]
    exact div_le_div_of_nonneg_right (Finset.sum_le_sum h1) (by positivity)
  · rw [div_le_div_iff₀ (by positivity) hM']
    have := Finset.sum_le_sum h2
    rw [← Finset.mul_sum] at this
    nlinarith

/-- A mean of probabilities all within `ε` of given values. -/
theorem taux_proche (symbs : List (ℝ × ℝ)) (dec : ℝ × ℝ → Option ℕ) (v : ℝ≥0) (q : ℕ → ℝ) (ε : ℝ) (hM : 0 < symbs.length)
    (h : ∀ i, i < symbs.length → |probaSymbole symbs dec v i - q i| ≤ ε) : |tauxSymbole symbs dec v - (∑ i ∈ Finset.range symbs.length, q i) / symbs.length| ≤ ε := by
  have hM' : (0 : ℝ) < symbs.length := by exact_mod_cast hM
  unfold tauxSymbole
  rw [← sub_div, ← Finset.sum_sub_distrib, abs_div, abs_of_pos hM', div_le_iff₀ hM']
  refine (Finset.abs_sum_le_sum_abs _ _).trans ((Finset.sum_le_card_nsmul _ _ ε fun i hi => h i (Finset.mem_range.1 hi)).trans ?_)
  rw [Finset.card_range, nsmul_eq_mul, mul_comm]

/-! ## ASK -/

theorem plusProche_borne (symbs : List (ℝ × ℝ)) (p : ℝ × ℝ) (r : ℕ) (h : symbolePlusProche symbs p = some r) : r < symbs.length := by
  unfold symbolePlusProche at h
  simp only at h
  split at h
  · rename_i h'
    rw [← Option.some.inj h]
    exact h'
  · simp at h

/-- Probability of error on a level of an ASK. -/
theorem ask_symbole (M : ℕ) (hM : 2 ≤ M) (K1 K2 : ℝ) (h0 : 0 < K2) (hB : |K1| ≤ 10 ^ 40) (hB2 : K2 ≤ 10 ^ 40) (c : List (ℝ × ℝ)) (hc : askConstellation M K1 K2 = some c) (v : ℝ≥0)
    (hv : v ≠ 0) (i : ℕ) (hi : i < M) : |probaSymbole c (symbolePlusProche c) v i - voisins M i * (erfc (K2 / ((M : ℝ) - 1) / 2 / Real.sqrt (2 * v)) / 2)| ≤ 2 * v / 10 ^ 96 := by
  obtain ⟨c', e, hl, hs, -⟩ := C96_ask M hM K1 K2
  rw [hc] at e
  obtain rfl := Option.some.inj e
  have hM1 : (0 : ℝ) < (M : ℝ) - 1 := by
    have : (2 : ℝ) ≤ M := by exact_mod_cast hM
    linarith
  have hδ : 0 < K2 / ((M : ℝ) - 1) := by positivity
  have hb : ∀ s ∈ c, |s.1| ≤ 10 ^ 48 ∧ |s.2| ≤ 10 ^ 48 := by
    intro s hs'
    obtain ⟨j, hj, rfl⟩ := List.getElem_of_mem hs'
    rw [hs j hj]
    refine ⟨?_, by simp⟩
    have hj2 : (j : ℝ) ≤ (M : ℝ) - 1 := by
      have : (j : ℝ) + 1 ≤ M := by exact_mod_cast (by omega : j + 1 ≤ M)
      linarith
    have h3 : (j : ℝ) * (K2 / ((M : ℝ) - 1)) ≤ K2 := by
      calc (j : ℝ) * (K2 / ((M : ℝ) - 1)) ≤ ((M : ℝ) - 1) * (K2 / ((M : ℝ) - 1)) := mul_le_mul_of_nonneg_right hj2 hδ.le
        _ = K2 := by field_simp
    have h4 : 0 ≤ (j : ℝ) * (K2 / ((M : ℝ) - 1)) := by positivity
    have h5 := abs_le.1 hB
    rw [abs_le]
    norm_num at *
    constructor <;> linarith
  generalize hδe : K2 / ((M : ℝ) - 1) = δ at *
  have hi' : i < c.length := by omega
  have hget : c.getD i (0, 0) = (K1 + δ * i, 0) := by
    rw [List.getD_eq_getElem?_getD, List.getElem?_eq_getElem hi', Option.getD_some, hs i hi', mul_comm]
  have hport : ∀ n : ℝ × ℝ, n ∉ horsPortee → ∀ s ∈ c, dist2 (c.getD i (0, 0) + n) s < 10 ^ 100 := by
    intro n hn s hs'
    refine en_portee _ _ _ ?_ (hb s hs') hn
    rw [List.getD_eq_getElem?_getD, List.getElem?_eq_getElem hi', Option.getD_some]
    exact hb _ (List.getElem_mem hi')
  unfold probaSymbole
  refine encadre v _ {n | n.1 ∈ sortieLarge M δ i} {n | n.1 ∈ sortieStricte M δ i} _ ?_ ?_ (by rw [bruit_fst, sortieLarge_proba M δ hδ v hv]) (by rw [bruit_fst, sortieStricte_proba M δ hδ v hv])
  · intro n hn
    by_contra hc'
    rw [Set.mem_union, not_or] at hc'
    refine hn (proche_unique c _ (hport n hc'.2) i hi' fun j hj hji => ?_)
    have := axe_dedans M δ K1 hδ i j (by omega) hji n.1 hc'.1
    rw [hget, hs i hi', hs j hj]
    simp only [dist2, Prod.fst_add, Prod.snd_add]
    rw [mul_comm (i : ℝ), mul_comm (j : ℝ)]
    linarith
  · intro n hn
    by_cases hp : n ∈ horsPortee
    · exact Or.inr hp
    · left
      obtain ⟨w, hw, h⟩ := axe_dehors M δ K1 hδ i hi n.1 hn
      refine proche_pas c _ (hport n hp) i w hi' (by omega) ?_
      rw [hget, hs i hi', hs w (by omega)]
      simp only [dist2, Prod.fst_add, Prod.snd_add]
      rw [mul_comm (i : ℝ), mul_comm (w : ℝ)]
      linarith

/-- **C156 (ASK, symbols).** For every `M ≥ 2`, every first level and every positive range, the symbol error rate of the decision of the code in white Gaussian noise is, up to the
negligible probability of a sample beyond `10^48`, `(M-1)/M erfc(√(d²/Eb · Eb/N0))` with `d` half the distance between levels and `Eb` the mean energy per bit. -/
theorem C156_ask_symboles (M : ℕ) (hM : 2 ≤ M) (k : ℕ) (hk : 0 < k) (K1 K2 : ℝ) (h0 : 0 < K2) (hB : |K1| ≤ 10 ^ 40) (hB2 : K2 ≤ 10 ^ 40) (dB : ℝ) : ∃ c, askConstellation M K1 K2 = some c ∧
    0 < energieBit c k ∧
    |tauxSymbole c (symbolePlusProche c) (variance c k dB) - (((M : ℝ) - 1) / M) * erfc (Real.sqrt ((K2 / ((M : ℝ) - 1) / 2) ^ 2 / energieBit c k * db2pow dB))| ≤
      2 * (variance c k dB : ℝ≥0) / 10 ^ 96 := by
  obtain ⟨c, hc, hl, hs, hlast⟩ := C96_ask M hM K1 K2
  have hM1 : (0 : ℝ) < (M : ℝ) - 1 := by
    have : (2 : ℝ) ≤ M := by exact_mod_cast hM
    linarith
  have hk' : (0 : ℝ) < k := by exact_mod_cast hk
  have hM' : (0 : ℝ) < M := by linarith
  have hE : 0 < energieBit c k := by
    unfold energieBit
    rw [hl]
    have hsum : 0 < (c.map fun s => s.1 ^ 2 + s.2 ^ 2).sum := by
      have hnn : ∀ x ∈ c.map fun s : ℝ × ℝ => s.1 ^ 2 + s.2 ^ 2, 0 ≤ x := by
        intro x hx
        obtain ⟨s, -, rfl⟩ := List.mem_map.1 hx
        positivity
      rcases (List.sum_nonneg hnn).lt_or_eq with h | h
      · exact h
      · exfalso
        have hz : ∀ i (hi : i < c.length), c[i].1 = 0 := by
          intro i hi
          have h1 := List.single_le_sum hnn _ (List.mem_map.2 ⟨c[i], List.getElem_mem hi, rfl⟩)
          rw [← h] at h1
          nlinarith [sq_nonneg c[i].1, sq_nonneg c[i].2]
        have a1 := hz 0 (by omega)
        have a2 := hz 1 (by omega)
        rw [hs 0 (by omega)] at a1
        rw [hs 1 (by omega)] at a2
        simp at a1 a2
        rw [a1] at a2
        have : 0 < K2 / ((M : ℝ) - 1) := by positivity
        linarith
    positivity
  refine ⟨c, hc, hE, ?_⟩
  obtain ⟨hv, -⟩ := variance_pos c k dB hE
  have hδ : 0 < K2 / ((M : ℝ) - 1) / 2 := by positivity
  rw [← seuil c k dB hE _ hδ.le]
  generalize variance c k dB = v at *
  have h := taux_proche c (symbolePlusProche c) v _ _ (by omega) fun i hi => ask_symbole M hM K1 K2 h0 hB hB2 c hc v hv i (by omega)
  rw [hl, ← Finset.sum_mul, voisins_somme M (by omega)] at h
  convert h using 3
  ring

theorem energie_ask (M : ℕ) (hM : 2 ≤ M) (k : ℕ) (hk : 0 < k) (K2 : ℝ) (c : List (ℝ × ℝ)) (hc : askConstellation M (-(K2 / 2)) K2 = some c) :
    energieBit c k = K2 ^ 2 / 4 * ((M : ℝ) + 1) / (3 * ((M : ℝ) - 1)) / k := by
  obtain ⟨c', e, hl, hs, -⟩ := C96_ask M hM (-(K2 / 2)) K2
  rw [hc] at e
  obtain rfl := Option.some.inj e
  have hM1 : (0 : ℝ) < (M : ℝ) - 1 := by
    have : (2 : ℝ) ≤ M := by exact_mod_cast hM
    linarith
  have hM' : (0 : ℝ) < M := by linarith
  have hsum : (c.map fun s => s.1 ^ 2 + s.2 ^ 2).sum = K2 ^ 2 / 4 * (M * (M + 1) / (3 * ((M : ℝ) - 1))) := by
    rw [← somme_axe M hM, Finset.mul_sum, ← Fin.sum_univ_eq_sum_range (fun i : ℕ => K2 ^ 2 / 4 * ((i : ℝ) / ((M : ℝ) - 1) * 2 - 1) ^ 2), ← List.sum_ofFn]
    congr 1
    apply List.ext_getElem
    · simp [hl]
    · intro i h1 h2
      simp only [List.getElem_map, List.getElem_ofFn]
      rw [hs i (by simpa using h1)]
      simp only
      field_simp
      ring
  unfold energieBit
  rw [hsum, hl]
  field_simp

/-- **C156 (ASK, `ber`).** For every symmetric ASK of `2^k` levels, `k` times the rate returned by `ber` is (up to a negligible term) the exact symbol error rate of the
decision of the code; the true bit error rate lies between `ber` and `k · ber`. -/
theorem C156_ask (k : ℕ) (hk : 0 < k) (K2 : ℝ) (h0 : 0 < K2) (hB : K2 ≤ 10 ^ 40) (dB : ℝ) : ∃ c, askConstellation (2 ^ k) (-(K2 / 2)) K2 = some c ∧
    |tauxSymbole c (symbolePlusProche c) (variance c k dB) - k * berAsk (2 ^ k) dB| ≤ 2 * (variance c k dB : ℝ≥0) / 10 ^ 96 ∧
    berAsk (2 ^ k) dB - 2 * (variance c k dB : ℝ≥0) / 10 ^ 96 ≤ tauxBit c (symbolePlusProche c) k (variance c k dB) ∧
    tauxBit c (symbolePlusProche c) k (variance c k dB) ≤ k * berAsk (2 ^ k) dB + 2 * (variance c k dB : ℝ≥0) / 10 ^ 96 := by
  have hM : 2 ≤ 2 ^ k := by
    calc 2 = 2 ^ 1 := rfl
      _ ≤ 2 ^ k := Nat.pow_le_pow_right (by norm_num) hk
  have hk1 : (1 : ℝ) ≤ k := by exact_mod_cast hk
  have hk' : (0 : ℝ) < k := by linarith
  obtain ⟨c, hc, hE, h⟩ := C156_ask_symboles (2 ^ k) hM k hk (-(K2 / 2)) K2 h0 (by rw [abs_neg, abs_of_pos (by positivity)]; linarith) hB dB
  obtain ⟨c', e, hl, -⟩ := C96_ask (2 ^ k) hM (-(K2 / 2)) K2
  rw [hc] at e
  obtain rfl := Option.some.inj e
  have hM1 : (0 : ℝ) < ((2 ^ k : ℕ) : ℝ) - 1 := by
    have : (2 : ℝ) ≤ ((2 ^ k : ℕ) : ℝ) := by exact_mod_cast hM
    linarith
  have harg : (K2 / (((2 ^ k : ℕ) : ℝ) - 1) / 2) ^ 2 / energieBit c k * db2pow dB = 3 * Real.logb 2 ((2 ^ k : ℕ) : ℝ) * db2pow dB / ((((2 ^ k : ℕ) : ℝ)) * ((2 ^ k : ℕ) : ℝ) - 1) := by
    rw [energie_ask (2 ^ k) hM k hk K2 c hc]
    have hlog : Real.logb 2 ((2 ^ k : ℕ) : ℝ) = k := by
      push_cast
      rw [Real.logb_pow, Real.logb_self_eq_one (by norm_num), mul_one]
    rw [hlog]
    generalize ((2 ^ k : ℕ) : ℝ) = m at *
    have h2 : m * m - 1 ≠ 0 := by nlinarith
    have h3 : m + 1 ≠ 0 := by linarith
    have h4 : m * m - 1 = (m - 1) * (m + 1) := by ring
    rw [h4]
    field_simp
    norm_num
  have hber : (((2 ^ k : ℕ) : ℝ) - 1) / ((2 ^ k : ℕ) : ℝ) * erfc (Real.sqrt ((K2 / (((2 ^ k : ℕ) : ℝ) - 1) / 2) ^ 2 / energieBit c k * db2pow dB)) = k * berAsk (2 ^ k) dB := by
    rw [harg]
    unfold berAsk
    rw [nbBits_pow]
    field_simp
  rw [hber] at h
  obtain ⟨b1, b2⟩ := taux_encadre c (symbolePlusProche c) k hk hl (fun p r hr => by rw [← hl]; exact plusProche_borne c p r hr) (variance c k dB)
  refine ⟨c, hc, h, ?_, ?_⟩
  · have a := (abs_le.1 h).1
    refine le_trans ?_ b1
    rw [le_div_iff₀ hk']
    have : 0 ≤ 2 * ((variance c k dB : ℝ≥0) : ℝ) / 10 ^ 96 := by positivity
    nlinarith
  · have a := (abs_le.1 h).2
    linarith

end Verif.Telecom
