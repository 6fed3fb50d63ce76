import Verif.Telecom.Porteuse
import Verif.Fourier.FreqProps
import Verif.Fourier.GoertzelProps

/-!
# C103: localisation of the frequency peak (`localise_pic_frequence`)
-/

namespace Verif.Telecom

open Verif.Fourier

theorem getD_positif {l : List ℝ} (h : ∀ v ∈ l, 0 ≤ v) (i : ℕ) : 0 ≤ l.getD i 0 := by
  by_cases hi : i < l.length
  · rw [List.getD_eq_getElem _ _ hi]; exact h _ (List.getElem_mem hi)
  · simp [List.getD_eq_getElem?_getD, List.getElem?_eq_none (by omega : l.length ≤ i)]

/-- The frequency of the bin, brought back in the interval [−1/2, 1/2]. -/
theorem pic_bin (N i : ℕ) (hi : i < N) (hN : Even N) :
    |(((if N / 2 ≤ i then (i : ℤ) - N else i : ℤ) : ℝ)) / N| ≤ 1 / 2 := by
  obtain ⟨m, rfl⟩ := hN
  have h2 : (m + m) / 2 = m := by omega
  have hm : (0 : ℝ) < ((m + m : ℕ) : ℝ) := by exact_mod_cast (by omega : 0 < m + m)
  rw [h2, abs_div, abs_of_pos hm, div_le_iff₀ hm, abs_le]
  split_ifs with h
  · have h1 : (m : ℝ) ≤ i := by exact_mod_cast h
    have h3 : (i : ℝ) ≤ ((m + m : ℕ) : ℝ) := by exact_mod_cast hi.le
    push_cast at h3 ⊢
    constructor <;> linarith
  · have h1 : (i : ℝ) ≤ m := by exact_mod_cast (by omega : i ≤ m)
    have h3 : (0 : ℝ) ≤ i := Nat.cast_nonneg i
    push_cast
    constructor <;> linarith

theorem pic_ecart (a b c : ℝ) (ha : 0 ≤ a) (hb : 0 ≤ b) (hc : 0 ≤ c) : |(c - a) / (a + b + c + 1 / 10 ^ 30)| ≤ 1 := by
  have h : (0 : ℝ) < a + b + c + 1 / 10 ^ 30 := by positivity
  rw [abs_div, abs_of_pos h, div_le_one h, abs_le]
  have : (0 : ℝ) < 1 / 10 ^ 30 := by positivity
  constructor <;> linarith

/-- Index of the bin, signed. -/
def binSigne (N i : ℕ) : ℤ := if N / 2 ≤ i then (i : ℤ) - N else i

/-- Correction. -/
noncomputable def correction (a2 : List ℝ) : ℝ :=
  (a2.getD ((indexMax a2 + 1) % a2.length) 0 - a2.getD ((indexMax a2 + a2.length - 1) % a2.length) 0) /
    (a2.getD ((indexMax a2 + a2.length - 1) % a2.length) 0 + a2.getD (indexMax a2) 0 +
      a2.getD ((indexMax a2 + 1) % a2.length) 0 + 1 / 10 ^ 30)

theorem suiviPic_eq (a2 : List ℝ) (h : a2 ≠ []) : suiviPic a2 =
    if |(binSigne a2.length (indexMax a2) : ℝ) / a2.length| ≤ 1 / 2 ∧ |correction a2| ≤ 1 then
      some ((binSigne a2.length (indexMax a2) : ℝ) / a2.length + correction a2 / a2.length,
        divise (a2.getD (indexMax a2) 0) (a2.sum / a2.length)) else none := by
  have : 0 < a2.length := List.length_pos_iff.2 h
  rw [suiviPic, if_neg (by omega)]
  rfl

/-- **C103 (assertions).** For every signal whose length is even, no assertion is violated, and the frequency found is that of a bin of maximal energy, in [−1/2, 1/2],
corrected by at most the distance of two bins. -/
theorem C103_domaine_partial (x : List ℂ) (h0 : x ≠ []) (hp : Even x.length) (hx : x.length ≤ 2 ^ 29) :
    ∃ X f, fft trigoC x = some X ∧ (localisePic x).map Prod.fst = some f ∧
      ∃ k : ℤ, 2 * |k| ≤ x.length ∧ |f - k / x.length| ≤ 1 / x.length ∧
        ∀ z ∈ X, ‖z‖ ≤ ‖X.getD (k % x.length).toNat 0‖ := by
  have hl : 0 < x.length := List.length_pos_iff.2 h0
  obtain ⟨X, e, l, -⟩ := C27_fft x hl hx
  obtain ⟨a2, ha2⟩ : ∃ a2, a2 = X.map Complex.normSq := ⟨_, rfl⟩
  have la : a2.length = x.length := by rw [ha2, List.length_map, l]
  have hpos : ∀ v ∈ a2, 0 ≤ v := by
    rw [ha2]; intro v hv; obtain ⟨z, -, rfl⟩ := List.mem_map.1 hv; exact Complex.normSq_nonneg z
  obtain ⟨hi, hmax⟩ := indexMax_spec a2 (by omega)
  have hb : |(binSigne a2.length (indexMax a2) : ℝ) / a2.length| ≤ 1 / 2 :=
    pic_bin a2.length (indexMax a2) hi (by rw [la]; exact hp)
  have hd : |correction a2| ≤ 1 :=
    pic_ecart _ _ _ (getD_positif hpos _) (getD_positif hpos _) (getD_positif hpos _)
  have hN : (0 : ℝ) < x.length := by exact_mod_cast hl
  refine ⟨X, (binSigne a2.length (indexMax a2) : ℝ) / a2.length + correction a2 / a2.length, e, ?_,
    binSigne a2.length (indexMax a2), ?_, ?_, ?_⟩
  · unfold localisePic
    rw [e, Option.bind_some, ← ha2, suiviPic_eq a2 (List.length_pos_iff.1 (by omega)), if_pos ⟨hb, hd⟩, Option.map_some]
  · rw [la] at hb ⊢
    rw [abs_div, abs_of_pos hN, div_le_iff₀ hN] at hb
    have : (2 : ℝ) * |(binSigne x.length (indexMax a2) : ℝ)| ≤ x.length := by linarith
    exact_mod_cast this
  · rw [la, add_sub_cancel_left, abs_div, abs_of_pos hN]
    exact div_le_div_of_nonneg_right hd hN.le
  · have : (binSigne a2.length (indexMax a2) % x.length).toNat = indexMax a2 := by
      rw [la, binSigne]
      split_ifs
      · rw [Int.sub_emod_right, Int.emod_eq_of_lt (by omega) (by omega)]; rfl
      · rw [Int.emod_eq_of_lt (by omega) (by omega)]; rfl
    rw [this]
    intro z hz
    have hm := hmax (Complex.normSq z) (by rw [ha2]; exact List.mem_map_of_mem hz)
    have hg : a2.getD (indexMax a2) 0 = Complex.normSq (X.getD (indexMax a2) 0) := by
      have hi' : indexMax a2 < X.length := by omega
      rw [List.getD_eq_getElem _ _ hi, List.getD_eq_getElem _ _ hi']
      simp [ha2]
    rw [hg, Complex.normSq_eq_norm_sq, Complex.normSq_eq_norm_sq] at hm
    exact (sq_le_sq₀ (norm_nonneg _) (norm_nonneg _)).1 hm

/-- Spectrum of an exponential whose frequency is that of a bin. -/
theorem ton_spectre (A : ℂ) (hA : A ≠ 0) (n k : ℕ) (hk : k < n) (hn : n ≤ 2 ^ 29) :
    ∃ X, fft trigoC (exponentielle A (k / n : ℝ) n) = some X ∧ X.length = n ∧
      ∃ e : ℝ, 0 < e ∧ X.map Complex.normSq = (List.range n).map fun m : ℕ => if m = k then e else 0 := by
  obtain ⟨X, e, l, c, hc, hX⟩ := spectre_exp A (k / n : ℝ) n (by omega) hn
  have hn0 : (n : ℝ) ≠ 0 := by exact_mod_cast (by omega : n ≠ 0)
  have hn1 : (n : ℂ) ≠ 0 := by exact_mod_cast (by omega : n ≠ 0)
  refine ⟨X, e, l, Complex.normSq (c * n), Complex.normSq_pos.2 (mul_ne_zero (hc hA) hn1), ?_⟩
  apply List.ext_getElem
  · simp [l]
  · intro m h1 h2
    have hm : m < n := by simpa using h2
    have hv := hX m hm
    rw [List.getD_eq_getElem _ _ (by omega)] at hv
    rw [List.getElem_map, List.getElem_map, List.getElem_range, hv]
    split_ifs with hmk
    · subst hmk
      have h0 : geo n (ecart n (m / n : ℝ) m) = n := by
        unfold geo ecart
        simp
      rw [h0]
    · have hz : geo n (ecart n (k / n : ℝ) m) = 0 := by
        have h3 := geo_mul n (k / n : ℝ) m (by omega)
        have h4 : Complex.exp ((2 * Real.pi * (n * (k / n : ℝ)) : ℝ) * Complex.I) = 1 := by
          have : ((2 * Real.pi * (n * (k / n : ℝ)) : ℝ) : ℂ) * Complex.I = (k : ℤ) * (2 * Real.pi * Complex.I) := by
            push_cast; field_simp
          rw [this, Complex.exp_int_mul_two_pi_mul_I]
        rw [h4, sub_self] at h3
        rcases mul_eq_zero.1 h3 with h | h
        · exact h
        · exfalso
          rw [sub_eq_zero, Complex.exp_eq_one_iff] at h
          obtain ⟨q, hq⟩ := h
          have hq2 : 2 * ecart n (k / n : ℝ) m = q * (2 * Real.pi) := by
            have := congrArg Complex.im hq
            simpa using this
          have hq3 : ((k : ℤ) : ℝ) - (m : ℤ) = ((q * n : ℤ) : ℝ) := by
            unfold ecart at hq2
            have hpi := Real.pi_ne_zero
            field_simp at hq2
            push_cast
            linarith
          have hq4 : (k : ℤ) - m = q * n := by exact_mod_cast hq3
          have : q = 0 := by
            by_contra hq0
            rcases lt_or_gt_of_ne hq0 with h | h
            · nlinarith [(by omega : q ≤ -1), (by omega : (m : ℤ) < n), (by omega : (0 : ℤ) ≤ k)]
            · nlinarith [(by omega : 1 ≤ q), (by omega : (k : ℤ) < n), (by omega : (0 : ℤ) ≤ m)]
          rw [this] at hq4
          omega
      rw [hz, mul_zero, map_zero]

theorem ton_index (n k : ℕ) (hk : k < n) (e : ℝ) (he : 0 < e) :
    indexMax ((List.range n).map fun m : ℕ => if m = k then e else 0) = k := by
  set l := (List.range n).map fun m : ℕ => if m = k then e else 0 with hl
  have ll : l.length = n := by simp [hl]
  obtain ⟨hi, hmax⟩ := indexMax_spec l (by omega)
  have hv : ∀ i, i < n → l.getD i 0 = if i = k then e else 0 := by
    intro i h
    rw [List.getD_eq_getElem _ _ (by omega)]
    simp [hl]
  have h1 := hmax e (by rw [hl]; exact List.mem_map.2 ⟨k, List.mem_range.2 hk, by simp⟩)
  rw [hv _ (by omega)] at h1
  by_contra hne
  rw [if_neg hne] at h1
  linarith

theorem ton_somme (n k : ℕ) (hk : k < n) (e : ℝ) :
    ((List.range n).map fun m : ℕ => if m = k then e else 0).sum = e := by
  rw [Fourier.somme_range]
  simp [hk]

/-- **C103 (exactness).** The frequency of an exponential at a bin of a transform of even length is found exactly, and the signal to noise ratio is the number of bins. -/
theorem C103_ton (A : ℂ) (hA : A ≠ 0) (n k : ℕ) (hk : k < n) (hn : n ≤ 2 ^ 29) (hp : Even n) :
    localisePic (exponentielle A (k / n : ℝ) n) =
      some (if 2 * k < n then (k / n : ℝ) else k / n - 1, some (n : ℝ)) := by
  obtain ⟨X, e, l, v, hv, hX⟩ := ton_spectre A hA n k hk hn
  unfold localisePic
  rw [e, Option.bind_some, hX, suiviPic_eq _ (List.length_pos_iff.1 (by simp; omega))]
  have h2 : 2 ≤ n := by obtain ⟨m, rfl⟩ := hp; omega
  have hn0 : (n : ℝ) ≠ 0 := by exact_mod_cast (by omega : n ≠ 0)
  have hg : ∀ i, i < n → ((List.range n).map fun m : ℕ => if m = k then v else 0).getD i 0 = if i = k then v else 0 := by
    intro i h
    rw [List.getD_eq_getElem _ _ (by simpa using h)]
    simp
  have hc : correction ((List.range n).map fun m : ℕ => if m = k then v else 0) = 0 := by
    unfold correction
    rw [ton_index n k hk v hv, List.length_map, List.length_range, hg _ (Nat.mod_lt _ (by omega)), hg _ (Nat.mod_lt _ (by omega)), if_neg, if_neg]
    · simp
    · intro h
      by_cases h0 : k = 0
      · subst h0; rw [Nat.mod_eq_of_lt (by omega)] at h; omega
      · rw [show k + n - 1 = (k - 1) + n by omega, Nat.add_mod_right, Nat.mod_eq_of_lt (by omega)] at h; omega
    · intro h
      by_cases h0 : k + 1 = n
      · rw [h0, Nat.mod_self] at h; omega
      · rw [Nat.mod_eq_of_lt (by omega)] at h; omega
  rw [hc, ton_index n k hk v hv, List.length_map, List.length_range, hg k hk, if_pos rfl, ton_somme n k hk v, if_pos ⟨pic_bin n k hk hp, by simp⟩]
  have hs : divise v (v / n) = some (n : ℝ) := by
    rw [divise, if_neg (div_ne_zero hv.ne' hn0)]
    congr 1
    field_simp
  rw [hs]
  congr 2
  rw [zero_div, add_zero, binSigne]
  obtain ⟨m, rfl⟩ := hp
  split_ifs with h1 h3 h3
  · omega
  · push_cast; push_cast at hn0; rw [sub_div, div_self hn0]
  · simp
  · omega

/-- **C103 (odd length).** Whatever the odd length, there is an exponential, with a frequency between −1/2 and 1/2, for which an assertion is violated. -/
theorem C103_impair_refute (A : ℂ) (hA : A ≠ 0) (n : ℕ) (hn : n ≤ 2 ^ 29) (hp : Odd n) :
    ∃ k, k < n ∧ 2 * k < n ∧ localisePic (exponentielle A (k / n : ℝ) n) = none := by
  obtain ⟨m, rfl⟩ := hp
  refine ⟨m, by omega, by omega, ?_⟩
  obtain ⟨X, e, l, v, hv, hX⟩ := ton_spectre A hA (2 * m + 1) m (by omega) hn
  unfold localisePic
  rw [e, Option.bind_some, hX, suiviPic_eq _ (List.length_pos_iff.1 (by simp)), if_neg]
  rintro ⟨h, -⟩
  rw [ton_index (2 * m + 1) m (by omega) v hv, List.length_map, List.length_range, binSigne, if_pos (by omega)] at h
  have hm : (0 : ℝ) < ((2 * m + 1 : ℕ) : ℝ) := by exact_mod_cast (by omega)
  rw [abs_div, abs_of_pos hm, div_le_iff₀ hm] at h
  have := (abs_le.1 h).1
  push_cast at this
  linarith

/-- The hypotheses are met. -/
example : ∃ r, localisePic (exponentielle 1 ((3 : ℕ) / (4 : ℕ) : ℝ) 4) = some r ∧ r = (((3 : ℕ) : ℝ) / ((4 : ℕ) : ℝ) - 1, some ((4 : ℕ) : ℝ)) :=
  ⟨_, by rw [C103_ton 1 one_ne_zero 4 3 (by norm_num) (by norm_num) (by decide), if_neg (by norm_num)], rfl⟩

end Verif.Telecom
