import Verif.Telecom.BerAsk

namespace Verif.Telecom
open MeasureTheory ProbabilityTheory
open scoped NNReal

/-! ## Square QAM: the two axes are decided independently -/

/-- One digit of the decision is wrong. -/
def chiffreFaux (c : List (ℝ × ℝ)) (f : ℕ → ℕ) (i : ℕ) : Set (ℝ × ℝ) := {n | ∀ r, symbolePlusProche c (c.getD i (0, 0) + n) = some r → f r ≠ f i}

/-- If the `l` bits from `b` on are those of a digit `f < 2^l`, their error probabilities are between that of the digit and `l` times it. -/
theorem chiffre_bits (c : List (ℝ × ℝ)) (l : ℕ) (hl : 0 < l) (f : ℕ → ℕ) (b : ℕ) (N : ℕ) (hN : c.length = N) (hf : ∀ r, r < N → f r < 2 ^ l) (hb : ∀ r j, j < l → r.testBit (b + j) = (f r).testBit j)
    (v : ℝ≥0) (i : ℕ) (hi : i < N) : (bruit v).real (chiffreFaux c f i) ≤ ∑ j ∈ Finset.range l, probaBit c (symbolePlusProche c) v i (b + j) ∧
    ∑ j ∈ Finset.range l, probaBit c (symbolePlusProche c) v i (b + j) ≤ l * (bruit v).real (chiffreFaux c f i) := by
  constructor
  · unfold probaBit
    refine le_trans (measureReal_mono ?_ (measure_ne_top _ _)) (measureReal_biUnion_finset_le (μ := bruit v) (Finset.range l)
      (fun j => {n | ∀ r, symbolePlusProche c (c.getD i (0, 0) + n) = some r → r.testBit (b + j) ≠ i.testBit (b + j)}))
    intro n hn
    simp only [Set.mem_iUnion, Set.mem_setOf_eq, Finset.mem_range, exists_prop, chiffreFaux] at hn ⊢
    cases hr : symbolePlusProche c (c.getD i (0, 0) + n) with
    | none => exact ⟨0, hl, fun r h => by simp at h⟩
    | some r =>
      have hrN : r < N := by rw [← hN]; exact plusProche_borne c _ r hr
      obtain ⟨j, hj, hbj⟩ := bits_differents l (f i) (f r) (hf i hi) (hf r hrN) (hn r hr)
      refine ⟨j, hj, fun r' h => ?_⟩
      obtain rfl := Option.some.inj h
      rw [hb _ j hj, hb _ j hj]
      exact hbj
  · refine (Finset.sum_le_card_nsmul _ _ ((bruit v).real (chiffreFaux c f i)) fun j hj => ?_).trans (by rw [Finset.card_range, nsmul_eq_mul])
    unfold probaBit
    refine measureReal_mono fun n hn => ?_
    simp only [Set.mem_setOf_eq, chiffreFaux] at hn ⊢
    intro r hr he
    refine hn r hr ?_
    rw [hb _ j (Finset.mem_range.1 hj), hb _ j (Finset.mem_range.1 hj), he]

theorem somme_modulo (m : ℕ) (g : ℕ → ℝ) : ∑ i ∈ Finset.range (m * m), g (i % m) = m * ∑ u ∈ Finset.range m, g u := by
  have h : ∀ n, ∑ i ∈ Finset.range (n * m), g (i % m) = n * ∑ u ∈ Finset.range m, g u := by
    intro n
    induction n with
    | zero => simp
    | succ n ih =>
      have h1 : ∑ u ∈ Finset.range m, g ((n * m + u) % m) = ∑ u ∈ Finset.range m, g u :=
        Finset.sum_congr rfl fun u hu => by rw [Nat.mul_comm, Nat.mul_add_mod, Nat.mod_eq_of_lt (Finset.mem_range.1 hu)]
      rw [Nat.succ_mul, Finset.sum_range_add, ih, h1]
      push_cast
      ring
  exact h m

theorem somme_quotient (m : ℕ) (g : ℕ → ℝ) : ∑ i ∈ Finset.range (m * m), g (i / m) = m * ∑ u ∈ Finset.range m, g u := by
  have h : ∀ n, ∑ i ∈ Finset.range (n * m), g (i / m) = m * ∑ u ∈ Finset.range n, g u := by
    intro n
    induction n with
    | zero => simp
    | succ n ih =>
      have h1 : ∑ u ∈ Finset.range m, g ((n * m + u) / m) = ∑ u ∈ Finset.range m, g n :=
        Finset.sum_congr rfl fun u hu => by
          have hu := Finset.mem_range.1 hu
          rw [Nat.mul_comm, Nat.mul_add_div (by omega), Nat.div_eq_of_lt hu, add_zero]
      rw [Nat.succ_mul, Finset.sum_range_add, ih, Finset.sum_range_succ, h1, Finset.sum_const, Finset.card_range, nsmul_eq_mul]
      ring
  exact h m

/-- The points of the square QAM. -/
theorem qam_point (m : ℕ) (hm : 2 ≤ m) (c : List (ℝ × ℝ)) (hc : qamConstellation (m * m) = some c) : c.length = m * m ∧
    ∀ i (hi : i < c.length), c[i] = (-1 + 2 / ((m : ℝ) - 1) * ((i % m : ℕ) : ℝ), -1 + 2 / ((m : ℝ) - 1) * ((i / m : ℕ) : ℝ)) := by
  rw [qam_some m hm] at hc
  obtain rfl := Option.some.inj hc
  refine ⟨by simp, fun i hi => ?_⟩
  simp only [List.getElem_map, List.getElem_range]
  have hm1 : (m : ℝ) - 1 ≠ 0 := by
    have : (2 : ℝ) ≤ m := by exact_mod_cast hm
    linarith
  ext
  · simp only; field_simp; ring
  · simp only; field_simp; ring

/-- Error probability of a coordinate. -/
theorem qam_axe (m : ℕ) (hm : 2 ≤ m) (c : List (ℝ × ℝ)) (hc : qamConstellation (m * m) = some c) (v : ℝ≥0) (hv : v ≠ 0) (i : ℕ) (hi : i < m * m) :
    |(bruit v).real (chiffreFaux c (fun r => r % m) i) - voisins m (i % m) * (erfc (2 / ((m : ℝ) - 1) / 2 / Real.sqrt (2 * v)) / 2)| ≤ 2 * v / 10 ^ 96 ∧
    |(bruit v).real (chiffreFaux c (fun r => r / m) i) - voisins m (i / m) * (erfc (2 / ((m : ℝ) - 1) / 2 / Real.sqrt (2 * v)) / 2)| ≤ 2 * v / 10 ^ 96 := by
  obtain ⟨hl, hs⟩ := qam_point m hm c hc
  have hm1 : (0 : ℝ) < (m : ℝ) - 1 := by
    have : (2 : ℝ) ≤ m := by exact_mod_cast hm
    linarith
  have hδ : 0 < 2 / ((m : ℝ) - 1) := by positivity
  have hb : ∀ s ∈ c, |s.1| ≤ 10 ^ 48 ∧ |s.2| ≤ 10 ^ 48 := by
    obtain ⟨c', e, -, h1, -⟩ := C96_qam m hm
    rw [hc] at e
    obtain rfl := Option.some.inj e
    intro s hs'
    exact ⟨(h1 s hs').1.trans (by norm_num), (h1 s hs').2.trans (by norm_num)⟩
  generalize 2 / ((m : ℝ) - 1) = δ at *
  have hi' : i < c.length := by omega
  have hget : c.getD i (0, 0) = c[i] := by
    rw [List.getD_eq_getElem?_getD, List.getElem?_eq_getElem hi', Option.getD_some]
  have hport : ∀ n : ℝ × ℝ, n ∉ horsPortee → ∀ s ∈ c, dist2 (c.getD i (0, 0) + n) s < 10 ^ 100 := by
    intro n hn s hs'
    refine en_portee _ _ _ ?_ (hb s hs') hn
    rw [hget]
    exact hb _ (List.getElem_mem hi')
  have hmod : ∀ r, r % m < m := fun r => Nat.mod_lt _ (by omega)
  have hdiv : ∀ r, r < m * m → r / m < m := fun r hr => Nat.div_lt_of_lt_mul hr
  have hpt : ∀ a b, a < m → b < m → a + m * b < c.length ∧ (a + m * b) % m = a ∧ (a + m * b) / m = b := by
    intro a b ha hb
    refine ⟨?_, by rw [Nat.add_mul_mod_self_left, Nat.mod_eq_of_lt ha], by rw [Nat.add_mul_div_left _ _ (by omega), Nat.div_eq_of_lt ha, zero_add]⟩
    rw [hl]
    calc a + m * b < m * (b + 1) := by rw [Nat.mul_add]; omega
      _ ≤ m * m := Nat.mul_le_mul_left m hb
  constructor
  · refine encadre v _ {n | n.1 ∈ sortieLarge m δ (i % m)} {n | n.1 ∈ sortieStricte m δ (i % m)} _ ?_ ?_ (by rw [bruit_fst, sortieLarge_proba m δ hδ v hv])
      (by rw [bruit_fst, sortieStricte_proba m δ hδ v hv])
    · intro n hn
      by_contra hc'
      rw [Set.mem_union, not_or] at hc'
      obtain ⟨r, hr, e, h1, -⟩ := C40_decision_optimale c (c.getD i (0, 0) + n) (by intro h; subst h; simp at hi') (hport n hc'.2)
      refine hn r e ?_
      by_contra hne
      have hrm : r < m * m := by omega
      obtain ⟨hw, hw1, hw2⟩ := hpt (i % m) (r / m) (hmod i) (hdiv r hrm)
      have h2 := h1 _ hw
      have h3 := axe_dedans m δ (-1) hδ (i % m) (r % m) (hmod r) hne n.1 hc'.1
      rw [hget, hs i hi', hs r hr, hs _ hw, hw1, hw2] at h2
      simp only [dist2, Prod.fst_add, Prod.snd_add] at h2
      linarith
    · intro n hn
      by_cases hp : n ∈ horsPortee
      · exact Or.inr hp
      · left
        intro r e he
        obtain ⟨w, hw, h⟩ := axe_dehors m δ (-1) hδ (i % m) (hmod i) n.1 hn
        have hr := plusProche_borne c _ r e
        have hrm : r < m * m := by omega
        obtain ⟨hw0, hw1, hw2⟩ := hpt w (r / m) hw (hdiv r hrm)
        refine proche_pas c _ (hport n hp) r (w + m * (r / m)) hr hw0 ?_ e
        rw [hget, hs i hi', hs r hr, hs _ hw0, hw1, hw2]
        simp only [dist2, Prod.fst_add, Prod.snd_add]
        simp only at he
        rw [he]
        linarith
  · refine encadre v _ {n | n.2 ∈ sortieLarge m δ (i / m)} {n | n.2 ∈ sortieStricte m δ (i / m)} _ ?_ ?_ (by rw [bruit_snd, sortieLarge_proba m δ hδ v hv])
      (by rw [bruit_snd, sortieStricte_proba m δ hδ v hv])
    · intro n hn
      by_contra hc'
      rw [Set.mem_union, not_or] at hc'
      obtain ⟨r, hr, e, h1, -⟩ := C40_decision_optimale c (c.getD i (0, 0) + n) (by intro h; subst h; simp at hi') (hport n hc'.2)
      refine hn r e ?_
      by_contra hne
      have hrm : r < m * m := by omega
      obtain ⟨hw, hw1, hw2⟩ := hpt (r % m) (i / m) (hmod r) (hdiv i hi)
      have h2 := h1 _ hw
      have h3 := axe_dedans m δ (-1) hδ (i / m) (r / m) (hdiv r hrm) hne n.2 hc'.1
      rw [hget, hs i hi', hs r hr, hs _ hw, hw1, hw2] at h2
      simp only [dist2, Prod.fst_add, Prod.snd_add] at h2
      linarith
    · intro n hn
      by_cases hp : n ∈ horsPortee
      · exact Or.inr hp
      · left
        intro r e he
        obtain ⟨w, hw, h⟩ := axe_dehors m δ (-1) hδ (i / m) (hdiv i hi) n.2 hn
        have hr := plusProche_borne c _ r e
        obtain ⟨hw0, hw1, hw2⟩ := hpt (r % m) w (hmod r) hw
        refine proche_pas c _ (hport n hp) r (r % m + m * w) hr hw0 ?_ e
        rw [hget, hs i hi', hs r hr, hs _ hw0, hw1, hw2]
        simp only [dist2, Prod.fst_add, Prod.snd_add]
        simp only at he
        rw [he]
        linarith

theorem energie_qam (m : ℕ) (hm : 2 ≤ m) (k : ℕ) (c : List (ℝ × ℝ)) (hc : qamConstellation (m * m) = some c) :
    energieBit c k = 2 * (m + 1) / (3 * ((m : ℝ) - 1)) / k := by
  obtain ⟨hl, -⟩ := qam_point m hm c hc
  obtain ⟨c', e, h⟩ := C96_qam_energie m hm
  rw [hc] at e
  obtain rfl := Option.some.inj e
  unfold energieBit
  rw [← h, hl]
  congr 4
  funext s
  simp only [dist2]
  ring

/-- **C157 (QAM).** For every square QAM of `4^l` points, the true bit error rate of the decision and bit mapping of the code in white Gaussian noise lies, up to a negligible
term, between the rate returned by `ber` and `l` times it: equality for the 4-QAM. -/
theorem C157_qam (l : ℕ) (hl : 0 < l) (dB : ℝ) : ∃ c, qamConstellation (2 ^ l * 2 ^ l) = some c ∧
    berQam (2 ^ l * 2 ^ l) dB - 2 * (variance c (2 * l) dB : ℝ≥0) / 10 ^ 96 ≤ tauxBit c (symbolePlusProche c) (2 * l) (variance c (2 * l) dB) ∧
    tauxBit c (symbolePlusProche c) (2 * l) (variance c (2 * l) dB) ≤ l * berQam (2 ^ l * 2 ^ l) dB + 2 * (variance c (2 * l) dB : ℝ≥0) / 10 ^ 96 := by
  have hm : 2 ≤ 2 ^ l := by
    calc 2 = 2 ^ 1 := rfl
      _ ≤ 2 ^ l := Nat.pow_le_pow_right (by norm_num) hl
  obtain ⟨c, hc, -⟩ := C96_qam (2 ^ l) hm
  obtain ⟨hlen, -⟩ := qam_point (2 ^ l) hm c hc
  have hEe := energie_qam (2 ^ l) hm (2 * l) c hc
  have hl' : (1 : ℝ) ≤ l := by exact_mod_cast hl
  have hk : nbBits (2 ^ l * 2 ^ l) = 2 * l := by
    rw [← pow_add, ← two_mul]
    exact nbBits_pow _
  have hm1 : (0 : ℝ) < ((2 ^ l : ℕ) : ℝ) - 1 := by
    have : (2 : ℝ) ≤ ((2 ^ l : ℕ) : ℝ) := by exact_mod_cast hm
    linarith
  have hE : 0 < energieBit c (2 * l) := by
    rw [hEe]
    push_cast
    push_cast at hm1
    positivity
  obtain ⟨hv, -⟩ := variance_pos c (2 * l) dB hE
  have hδ : 0 ≤ 2 / (((2 ^ l : ℕ) : ℝ) - 1) / 2 := by positivity
  have hse := seuil c (2 * l) dB hE _ hδ
  refine ⟨c, hc, ?_⟩
  generalize variance c (2 * l) dB = v at *
  have hax := fun i hi => qam_axe (2 ^ l) hm c hc v hv i hi
  rw [hse] at hax
  set t := 2 * (v : ℝ) / 10 ^ 96 with ht
  have ht0 : 0 ≤ t := by positivity
  set E := erfc (Real.sqrt ((2 / (((2 ^ l : ℕ) : ℝ) - 1) / 2) ^ 2 / energieBit c (2 * l) * db2pow dB)) with hEr
  -- the value returned by `ber`
  have hber : (l : ℝ) * berQam (2 ^ l * 2 ^ l) dB = (((2 ^ l : ℕ) : ℝ) - 1) / ((2 ^ l : ℕ) : ℝ) * E := by
    have harg : (2 / (((2 ^ l : ℕ) : ℝ) - 1) / 2) ^ 2 / energieBit c (2 * l) * db2pow dB = 3 * ((2 * l : ℕ) : ℝ) * db2pow dB / (2 * (((2 ^ l * 2 ^ l : ℕ) : ℝ) - 1)) := by
      rw [hEe]
      push_cast
      push_cast at hm1
      generalize ((2 : ℝ) ^ l) = m at *
      have h2 : m * m - 1 ≠ 0 := by nlinarith
      have h3 : m + 1 ≠ 0 := by linarith
      have h4 : m * m - 1 = (m - 1) * (m + 1) := by ring
      rw [h4]
      field_simp
    have hsq : Real.sqrt ((2 ^ l * 2 ^ l : ℕ) : ℝ) = ((2 ^ l : ℕ) : ℝ) := by
      rw [Nat.cast_mul, Real.sqrt_mul_self (Nat.cast_nonneg _)]
    rw [hEr, harg]
    unfold berQam
    rw [hk, hsq]
    generalize ((2 ^ l : ℕ) : ℝ) = m at *
    have hm0 : m ≠ 0 := by linarith
    push_cast
    field_simp
  -- the bits of each coordinate
  have hbx : ∀ r j, j < l → r.testBit (0 + j) = (r % 2 ^ l).testBit j := by
    intro r j hj
    rw [Nat.testBit_mod_two_pow, zero_add]
    simp [hj]
  have hby : ∀ r j, j < l → r.testBit (l + j) = (r / 2 ^ l).testBit j := by
    intro r j hj
    rw [Nat.testBit_div_two_pow, Nat.add_comm]
  have hcx := fun i hi => chiffre_bits c l hl (fun r => r % 2 ^ l) 0 (2 ^ l * 2 ^ l) hlen (fun r _ => Nat.mod_lt _ (by positivity)) hbx v i hi
  have hcy := fun i hi => chiffre_bits c l hl (fun r => r / 2 ^ l) l (2 ^ l * 2 ^ l) hlen (fun r hr => Nat.div_lt_of_lt_mul hr) hby v i hi
  have hsplit : ∀ i, ∑ j ∈ Finset.range (2 * l), probaBit c (symbolePlusProche c) v i j =
      ∑ j ∈ Finset.range l, probaBit c (symbolePlusProche c) v i (0 + j) + ∑ j ∈ Finset.range l, probaBit c (symbolePlusProche c) v i (l + j) := by
    intro i
    rw [two_mul, Finset.sum_range_add]
    simp only [zero_add]
  -- sums over the constellation
  have hsum : ∑ i ∈ Finset.range (2 ^ l * 2 ^ l), ((voisins (2 ^ l) (i % 2 ^ l) : ℝ) * (E / 2) + voisins (2 ^ l) (i / 2 ^ l) * (E / 2)) =
      2 * ((2 ^ l : ℕ) : ℝ) * (((2 ^ l : ℕ) : ℝ) - 1) * E := by
    rw [Finset.sum_add_distrib, somme_modulo (2 ^ l) (fun u => (voisins (2 ^ l) u : ℝ) * (E / 2)), somme_quotient (2 ^ l) (fun u => (voisins (2 ^ l) u : ℝ) * (E / 2)),
      ← Finset.sum_mul, voisins_somme _ (by omega)]
    ring
  have hlow : ∀ i ∈ Finset.range (2 ^ l * 2 ^ l), ((voisins (2 ^ l) (i % 2 ^ l) : ℝ) * (E / 2) + voisins (2 ^ l) (i / 2 ^ l) * (E / 2)) - 2 * t ≤
      ∑ j ∈ Finset.range (2 * l), probaBit c (symbolePlusProche c) v i j := by
    intro i hi
    have hi' := Finset.mem_range.1 hi
    rw [hsplit]
    have a1 := (abs_le.1 (hax i hi').1).1
    have a2 := (abs_le.1 (hax i hi').2).1
    have b1 := (hcx i hi').1
    have b2 := (hcy i hi').1
    linarith
  have hhigh : ∀ i ∈ Finset.range (2 ^ l * 2 ^ l), ∑ j ∈ Finset.range (2 * l), probaBit c (symbolePlusProche c) v i j ≤
      l * (((voisins (2 ^ l) (i % 2 ^ l) : ℝ) * (E / 2) + voisins (2 ^ l) (i / 2 ^ l) * (E / 2)) + 2 * t) := by
    intro i hi
    have hi' := Finset.mem_range.1 hi
    rw [hsplit]
    have a1 := (abs_le.1 (hax i hi').1).2
    have a2 := (abs_le.1 (hax i hi').2).2
    have b1 := (hcx i hi').2
    have b2 := (hcy i hi').2
    have c1 := mul_le_mul_of_nonneg_left a1 (by linarith : (0 : ℝ) ≤ l)
    have c2 := mul_le_mul_of_nonneg_left a2 (by linarith : (0 : ℝ) ≤ l)
    nlinarith
  have sl := Finset.sum_le_sum hlow
  have sh := Finset.sum_le_sum hhigh
  rw [Finset.sum_sub_distrib, hsum] at sl
  rw [← Finset.mul_sum, Finset.sum_add_distrib, hsum] at sh
  simp only [Finset.sum_const, Finset.card_range, nsmul_eq_mul] at sl sh
  constructor
  · unfold tauxBit
    rw [hlen, le_div_iff₀ (by push_cast; positivity)]
    refine le_trans ?_ sl
    have e : berQam (2 ^ l * 2 ^ l) dB * (((2 ^ l * 2 ^ l : ℕ) : ℝ) * ((2 * l : ℕ) : ℝ)) = 2 * ((2 ^ l : ℕ) : ℝ) * (((2 ^ l : ℕ) : ℝ) - 1) * E := by
      have : berQam (2 ^ l * 2 ^ l) dB * (((2 ^ l * 2 ^ l : ℕ) : ℝ) * ((2 * l : ℕ) : ℝ)) = 2 * ((2 ^ l : ℕ) : ℝ) * ((2 ^ l : ℕ) : ℝ) * ((l : ℝ) * berQam (2 ^ l * 2 ^ l) dB) := by
        push_cast; ring
      rw [this, hber]
      generalize ((2 ^ l : ℕ) : ℝ) = m at *
      have hm0 : m ≠ 0 := by linarith
      field_simp
    rw [sub_mul, e]
    have : ((2 ^ l * 2 ^ l : ℕ) : ℝ) * (2 * t) ≤ t * (((2 ^ l * 2 ^ l : ℕ) : ℝ) * ((2 * l : ℕ) : ℝ)) := by
      have h0 : (0 : ℝ) ≤ ((2 ^ l * 2 ^ l : ℕ) : ℝ) := Nat.cast_nonneg _
      have : ((2 ^ l * 2 ^ l : ℕ) : ℝ) * t * 1 ≤ ((2 ^ l * 2 ^ l : ℕ) : ℝ) * t * l := mul_le_mul_of_nonneg_left hl' (by positivity)
      push_cast at this ⊢
      nlinarith
    linarith
  · unfold tauxBit
    rw [hlen, div_le_iff₀ (by push_cast; positivity)]
    refine sh.trans (le_of_eq ?_)
    rw [hber]
    push_cast
    push_cast at hm1
    generalize ((2 : ℝ) ^ l) = m at *
    have hm0 : m ≠ 0 := by linarith
    field_simp

end Verif.Telecom
