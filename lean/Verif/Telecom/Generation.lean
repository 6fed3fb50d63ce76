/-
C160: one-shot sample generation (`génère_échantillons`).

Specification: superposition of pulses (`superposition`), position of the sampling instants.
-/
import Verif.Telecom.FskProps
import Verif.Telecom.EmetteurProps
import Verif.Telecom.Pi4Props
import Mathlib.Data.List.GetD

namespace Verif.Telecom

open Verif.Filtre Verif.Reechan

/-! ## Model -/

/-- `génère_échantillons` from the symbols on, core/src/telecom/modulations.cc:165-206: shaping filter, `⌈ncoefs / osf⌉` null symbols, delay (twice its value; core/src/reechan/polyphase.cc:363-369), and, for a
frequency modulation of index `fsk`, the division by the largest modulus, *without* the guard that the modulator has (`none`: division of zero by zero, every sample is a NaN). -/
noncomputable def echantillonsDe (fsk : Option ℝ) (t : MiseEnForme) (R : ℕ) (s : List ℂ) : Option (List ℂ × ℕ) :=
  (filtreForme t R).bind fun f => (t.coefs R).bind fun h =>
    (f.step (s ++ List.replicate ((h.length + R - 1) / R) 0)).bind fun r : EtatForme × List ℂ =>
      match fsk with
      | none => some (r.2, delaisUps2 h.length R)
      | some index =>
        let xr := r.2.map Complex.re
        let d := (xr.map abs).foldl max 0
        if d = 0 then none
        else some ((cumul 0 (xr.map fun v => v * (Real.pi * index / R / d))).map fun φ : ℝ => Complex.exp ((φ : ℂ) * Complex.I), delaisUps2 h.length R)

/-- `génère_échantillons` for a memoryless waveform, core/src/telecom/modulations.cc:165-170. -/
noncomputable def genereEchantillons (symbs : List (ℝ × ℝ)) (k : ℕ) (fsk : Option ℝ) (t : MiseEnForme) (R : ℕ) (bs : List Bool) : Option (List ℂ × ℕ) :=
  (genereSymboles symbs k bs).bind fun s => echantillonsDe fsk t R (s.map cplx)

/-- `génère_échantillons` for the π/4-QPSK, core/src/telecom/modulations.cc:165-170, 486-490. -/
noncomputable def genereEchantillonsPi4 (t : MiseEnForme) (R : ℕ) (bs : List Bool) : Option (List ℂ × ℕ) :=
  (pi4Genere bs).bind fun s => echantillonsDe none t R (s.map cplx)

/-- `CtxGenImpl::step`, core/src/telecom/modulations.cc:141-156: `retourne {}`. -/
def ctxGenStep (_ : List Bool) : List ℂ := []

/-! ## Specification -/

/-- Superposition, at instant `p`, of the pulses `g` sent every `R` samples and weighted by the symbols `s`. -/
def superposition (g : List ℝ) (R : ℕ) (s : List ℂ) (p : ℕ) : ℂ :=
  ∑ m ∈ Finset.range s.length, (if m * R ≤ p then ((g.getD (p - m * R) 0 : ℝ) : ℂ) else 0) * s.getD m 0

/-! ## Proofs -/

theorem impulsion_longueur (h : List ℝ) (R : ℕ) (hR : 0 < R) : (impulsion h R).length = (h.length + R - 1) / R * R := by
  unfold impulsion complement
  rw [List.length_reverse, List.length_append, List.length_map, List.length_replicate]
  have h1 := Nat.div_add_mod h.length R
  have h2 := Nat.mod_lt h.length hR
  rw [Nat.mul_comm] at h1
  generalize hq : h.length / R = q at *
  generalize hr : h.length % R = r at *
  rcases Nat.eq_zero_or_pos r with h0 | h0
  · subst h0
    have e : (h.length + R - 1) / R = q := by
      rw [← h1, show q * R + 0 + R - 1 = (R - 1) + q * R by omega, Nat.add_mul_div_right _ _ hR, Nat.div_eq_of_lt (by omega)]
      omega
    rw [e, Nat.sub_zero, Nat.mod_self]
    omega
  · have e : (h.length + R - 1) / R = q + 1 := by
      rw [← h1, show q * R + r + R - 1 = (r - 1) + (q + 1) * R by rw [Nat.succ_mul]; omega, Nat.add_mul_div_right _ _ hR, Nat.div_eq_of_lt (by omega)]
      omega
    rw [e, Nat.mod_eq_of_lt (by omega), Nat.succ_mul]
    omega

/-- The convolution with the symbols followed by zeros is the superposition of the pulses. -/
theorem convolution_superposition (g : List ℝ) (R : ℕ) (hR : 0 < R) (L : ℕ) (hg : g.length = L * R) (s : List ℂ) (Z p : ℕ) :
    convolution (g.map fun v : ℝ => (v : ℂ)) (insereZeros R (s ++ List.replicate Z 0)) p = superposition g R s p := by
  have hp : p = p / R * R + p % R := by rw [Nat.mul_comm]; exact (Nat.div_add_mod p R).symm
  have hi := Nat.mod_lt p hR
  generalize p / R = n at *
  generalize p % R = i at *
  subst hp
  rw [convolution_insere R hR _ _ L (by rw [List.length_map, hg]) n i hi]
  have hx : ∀ u, passe (s ++ List.replicate Z 0) n u = if u ≤ n then s.getD (n - u) 0 else (0 : ℂ) := by
    intro u
    unfold passe
    split
    · rw [List.getD_eq_getElem?_getD, List.getD_eq_getElem?_getD]
      rcases Nat.lt_or_ge (n - u) s.length with h | h
      · rw [List.getElem?_append_left h]
      · rw [List.getElem?_append_right h, List.getElem?_replicate, List.getElem?_eq_none h]
        split <;> rfl
    · rfl
  have hgd : ∀ j, (g.map fun v : ℝ => (v : ℂ)).getD j 0 = ((g.getD j 0 : ℝ) : ℂ) := by
    intro j
    rw [List.getD_eq_getElem?_getD, List.getD_eq_getElem?_getD, List.getElem?_map]
    cases g[j]? <;> simp
  -- both sums are the sum over `m ≤ n` of `g (n - m) s m`
  have e1 : ∑ u ∈ Finset.range L, (g.map fun v : ℝ => (v : ℂ)).getD (u * R + i) 0 * passe (s ++ List.replicate Z 0) n u =
      ∑ u ∈ Finset.range (n + 1), ((g.getD (u * R + i) 0 : ℝ) : ℂ) * s.getD (n - u) 0 := by
    simp only [hx, hgd]
    have a1 : ∑ u ∈ Finset.range L, ((g.getD (u * R + i) 0 : ℝ) : ℂ) * (if u ≤ n then s.getD (n - u) 0 else 0) =
        ∑ u ∈ Finset.range (max L (n + 1)), ((g.getD (u * R + i) 0 : ℝ) : ℂ) * (if u ≤ n then s.getD (n - u) 0 else 0) := by
      apply Finset.sum_subset
      · intro u hu
        simp only [Finset.mem_range] at hu ⊢
        omega
      · intro u _ hu
        rw [Finset.mem_range, not_lt] at hu
        have : g.length ≤ u * R + i := by
          rw [hg]
          exact (Nat.mul_le_mul_right R hu).trans (Nat.le_add_right _ _)
        rw [List.getD_eq_default _ _ this]
        simp
    rw [a1]
    symm
    calc _ = ∑ u ∈ Finset.range (n + 1), ((g.getD (u * R + i) 0 : ℝ) : ℂ) * (if u ≤ n then s.getD (n - u) 0 else 0) := by
          apply Finset.sum_congr rfl
          intro u hu
          rw [Finset.mem_range] at hu
          rw [if_pos (by omega)]
      _ = _ := by
          apply Finset.sum_subset
          · intro u hu
            simp only [Finset.mem_range] at hu ⊢
            omega
          · intro u _ hu
            rw [Finset.mem_range, not_lt] at hu
            rw [if_neg (by omega), mul_zero]
  rw [e1, ← Finset.sum_range_reflect]
  unfold superposition
  have hle : ∀ m, m * R ≤ n * R + i ↔ m ≤ n := by
    intro m
    constructor
    · intro h
      by_contra hc
      have : (n + 1) * R ≤ m * R := Nat.mul_le_mul_right R (by omega)
      rw [Nat.succ_mul] at this
      omega
    · intro h
      exact (Nat.mul_le_mul_right R h).trans (Nat.le_add_right _ _)
  have b1 : ∑ m ∈ Finset.range s.length, (if m * R ≤ n * R + i then ((g.getD (n * R + i - m * R) 0 : ℝ) : ℂ) else 0) * s.getD m 0 =
      ∑ m ∈ Finset.range (max s.length (n + 1)), (if m * R ≤ n * R + i then ((g.getD (n * R + i - m * R) 0 : ℝ) : ℂ) else 0) * s.getD m 0 := by
    apply Finset.sum_subset
    · intro u hu
      simp only [Finset.mem_range] at hu ⊢
      omega
    · intro u _ hu
      rw [Finset.mem_range, not_lt] at hu
      rw [List.getD_eq_default _ _ hu, mul_zero]
  rw [b1]
  calc _ = ∑ m ∈ Finset.range (n + 1), (if m * R ≤ n * R + i then ((g.getD (n * R + i - m * R) 0 : ℝ) : ℂ) else 0) * s.getD m 0 := by
        apply Finset.sum_congr rfl
        intro m hm
        rw [Finset.mem_range] at hm
        rw [if_pos ((hle m).2 (by omega))]
        have ed : n + 1 - 1 - m = n - m := by omega
        have ee : (n - m) * R + i = n * R + i - m * R := by
          have : m * R ≤ n * R := Nat.mul_le_mul_right R (by omega)
          rw [Nat.sub_mul]
          omega
        rw [ed, ee, show n - (n - m) = m by omega]
    _ = _ := by
        apply Finset.sum_subset
        · intro u hu
          simp only [Finset.mem_range] at hu ⊢
          omega
        · intro u _ hu
          rw [Finset.mem_range, not_lt] at hu
          rw [if_neg (by rw [hle]; omega), zero_mul]

/-- The filter of one call, from its definition. -/
theorem forme_appel (t : MiseEnForme) (R : ℕ) (hR : 0 < R) (h : List ℝ) (ht : t.coefs R = some h) (hE : energie h ≠ 0) (x : List ℂ) :
    ∃ f f' y, filtreForme t R = some f ∧ f.step x = some (f', y) ∧ y.length = x.length * R ∧
      ∀ p, p < y.length → y[p]? = some (convolution ((impulsion h R).map fun v : ℝ => (v : ℂ)) (insereZeros R x) p) := by
  obtain ⟨m0, m, y, e0, e1, hl, hv⟩ := forme_flux t R hR h ht hE [x]
  unfold Modulateur.cree at e0
  cases hf : filtreForme t R with
  | none => rw [hf] at e0; simp at e0
  | some f =>
    rw [hf, Option.map_some] at e0
    obtain rfl := Option.some.inj e0
    simp only [List.flatten_cons, List.flatten_nil, List.append_nil] at hl hv
    cases hs : f.step x with
    | none => simp [enchaine, Modulateur.step, hs] at e1
    | some r =>
      simp [enchaine, Modulateur.step, hs] at e1
      exact ⟨f, r.1, r.2, rfl, hs, by rw [e1.2]; exact hl, by rw [e1.2]; exact hv⟩

/-- **C160 (linear waveforms).** For every filter, every factor and every sequence of symbols, the samples are the superposition of the pulses weighted by the symbols, and every pulse is entirely in the
samples: the last `R` samples follow the last pulse. -/
theorem echantillons_lineaire (t : MiseEnForme) (R : ℕ) (hR : 0 < R) (h : List ℝ) (ht : t.coefs R = some h) (hE : energie h ≠ 0) (s : List ℂ) :
    ∃ y, echantillonsDe none t R s = some (y, delaisUps2 h.length R) ∧ y.length = s.length * R + (impulsion h R).length ∧
      (∀ p, p < y.length → y[p]? = some (superposition (impulsion h R) R s p)) ∧ ∀ m, m < s.length → m * R + (impulsion h R).length + R ≤ y.length := by
  obtain ⟨f, f', y, e0, e1, hl, hv⟩ := forme_appel t R hR h ht hE (s ++ List.replicate ((h.length + R - 1) / R) 0)
  have hg := impulsion_longueur h R hR
  have hly : y.length = s.length * R + (impulsion h R).length := by
    rw [hl, List.length_append, List.length_replicate, Nat.add_mul, hg]
  refine ⟨y, ?_, hly, fun p hp => ?_, fun m hm => ?_⟩
  · unfold echantillonsDe
    rw [e0, ht]
    simp only [Option.bind_some, e1]
  · rw [hv p hp, convolution_superposition (impulsion h R) R hR _ hg]
  · rw [hly]
    have : (m + 1) * R ≤ s.length * R := Nat.mul_le_mul_right R hm
    rw [Nat.succ_mul] at this
    omega

/-- **C160 (linear waveforms).** For every memoryless waveform, every filter of non-zero energy, every factor and every stream of bits, the generation returns `R` samples per symbol and the length of the pulse;
each sample is the superposition of the pulses weighted by the symbols of the stream, and every pulse is entirely in the samples. The π/4-QPSK too. -/
theorem C160_lineaire (symbs : List (ℝ × ℝ)) (k : ℕ) (hk : 0 < k) (hM : 2 ^ k ≤ symbs.length) (t : MiseEnForme) (R : ℕ) (hR : 0 < R) (h : List ℝ)
    (ht : t.coefs R = some h) (hE : energie h ≠ 0) (bs : List Bool) : ∃ s y, genereSymboles symbs k bs = some s ∧ s.length = (bs.length + k - 1) / k ∧
      genereEchantillons symbs k none t R bs = some (y, delaisUps2 h.length R) ∧ y.length = s.length * R + (impulsion h R).length ∧
      (∀ p, p < y.length → y[p]? = some (superposition (impulsion h R) R (s.map cplx) p)) ∧ ∀ m, m < s.length → m * R + (impulsion h R).length + R ≤ y.length := by
  obtain ⟨s, _, e, hl⟩ := genere_some symbs k hk hM bs
  obtain ⟨y, e1, h1, h2, h3⟩ := echantillons_lineaire t R hR h ht hE ((s.map fun i => symbs.getD i (0, 0)).map cplx)
  refine ⟨_, y, e, by rw [List.length_map, hl], ?_, by rw [h1, List.length_map], h2, fun m hm => h3 m (by simpa using hm)⟩
  unfold genereEchantillons
  rw [e, Option.bind_some, e1]

/-- **C160 (π/4-QPSK).** The same for the symbols of the π/4-QPSK. -/
theorem C160_pi4 (t : MiseEnForme) (R : ℕ) (hR : 0 < R) (h : List ℝ) (ht : t.coefs R = some h) (hE : energie h ≠ 0) (bs : List Bool) (s : List (ℝ × ℝ)) (hs : pi4Genere bs = some s) :
    ∃ y, genereEchantillonsPi4 t R bs = some (y, delaisUps2 h.length R) ∧ y.length = s.length * R + (impulsion h R).length ∧
      (∀ p, p < y.length → y[p]? = some (superposition (impulsion h R) R (s.map cplx) p)) ∧ ∀ m, m < s.length → m * R + (impulsion h R).length + R ≤ y.length := by
  obtain ⟨y, e1, h1, h2, h3⟩ := echantillons_lineaire t R hR h ht hE (s.map cplx)
  refine ⟨y, ?_, by rw [h1, List.length_map], h2, fun m hm => h3 m (by simpa using hm)⟩
  unfold genereEchantillonsPi4
  rw [hs, Option.bind_some, e1]

/-- **C160 (delay).** If the coefficients of the filter are symmetric, the returned delay (half of `delaisUps2`) is the centre of symmetry of the pulse of the first symbol. -/
theorem C160_retard (h : List ℝ) (hh : h ≠ []) (R : ℕ) (hR : 0 < R) (hs : h.reverse = h) : (∀ j, j ≤ delaisUps2 h.length R → (impulsion h R).getD j 0 = (impulsion h R).getD (delaisUps2 h.length R - j) 0) ∧
    ∀ j, delaisUps2 h.length R < j → (impulsion h R).getD j 0 = 0 := by
  have hn : 0 < h.length := List.length_pos_iff.2 hh
  have hc : delaisUps2 h.length R = h.length - 1 + 2 * complement h.length R := by
    unfold delaisUps2 complement
    have := Nat.mod_lt h.length hR
    split
    · rename_i h0
      rw [Nat.mod_eq_of_lt (show R - h.length % R < R by omega)]
    · rename_i h0
      simp only [ne_eq, not_not] at h0
      rw [h0, Nat.sub_zero, Nat.mod_self]
  have hi : impulsion h R = List.replicate (complement h.length R) 0 ++ h.map fun v => v * (Real.sqrt R / Real.sqrt (energie h)) := by
    unfold impulsion
    rw [List.reverse_append, List.reverse_replicate, ← List.map_reverse, hs]
  rw [hc, hi]
  generalize complement h.length R = c
  generalize Real.sqrt R / Real.sqrt (energie h) = q
  have hsym : ∀ a b, a + b = h.length - 1 → h.getD a 0 = h.getD b 0 := by
    intro a b hab
    conv_lhs => rw [← hs]
    rw [List.getD_eq_getElem?_getD, List.getD_eq_getElem?_getD, List.getElem?_reverse (by omega)]
    congr 2
    omega
  have hv : ∀ j, (List.replicate c 0 ++ h.map fun v => v * q).getD j 0 = if j < c then 0 else h.getD (j - c) 0 * q := by
    intro j
    rw [List.getD_eq_getElem?_getD]
    split
    · rename_i hj
      rw [List.getElem?_append_left (by simpa using hj), List.getElem?_replicate, if_pos hj]
      rfl
    · rename_i hj
      rw [List.getElem?_append_right (by simpa using hj), List.getElem?_map, List.length_replicate, List.getD_eq_getElem?_getD]
      cases h[j - c]? <;> simp
  refine ⟨fun j hj => ?_, fun j hj => ?_⟩
  · rw [hv, hv]
    by_cases h1 : j < c
    · rw [if_pos h1, if_neg (by omega), List.getD_eq_default _ _ (by omega), zero_mul]
    · rw [if_neg h1]
      by_cases h2 : h.length - 1 + 2 * c - j < c
      · rw [if_pos h2, List.getD_eq_default _ _ (by omega), zero_mul]
      · rw [if_neg h2, hsym (j - c) (h.length - 1 + 2 * c - j - c) (by omega)]
  · rw [hv, if_neg (by omega), List.getD_eq_default _ _ (by omega), zero_mul]

/-- **C160 (sampling instants).** If the returned delay is an integer `d` and the pulse is null at the other multiples of `R` from `d` (Nyquist criterion), the sample at `d + m R` is the symbol `m`, times the
gain of the pulse at its centre. -/
theorem C160_lecture (t : MiseEnForme) (R : ℕ) (hR : 0 < R) (h : List ℝ) (ht : t.coefs R = some h) (hE : energie h ≠ 0) (d : ℕ) (hd : delaisUps2 h.length R = 2 * d)
    (hN : ∀ j, j ≠ d → j % R = d % R → (impulsion h R).getD j 0 = 0) (s : List ℂ) : ∃ y, echantillonsDe none t R s = some (y, 2 * d) ∧
      ∀ m (hm : m < s.length), y[d + m * R]? = some (((impulsion h R).getD d 0 : ℝ) * s[m]) := by
  obtain ⟨y, e, hl, hv, -⟩ := echantillons_lineaire t R hR h ht hE s
  refine ⟨y, by rw [e, hd], fun m hm => ?_⟩
  have hdl : d < (impulsion h R).length + R := by
    rw [impulsion_longueur h R hR]
    have h1 := Nat.div_add_mod (h.length + R - 1) R
    have h2 := Nat.mod_lt (h.length + R - 1) hR
    rw [Nat.mul_comm] at h1
    have : delaisUps2 h.length R ≤ h.length - 1 + 2 * R := by
      unfold delaisUps2
      split <;> omega
    have hne : 0 < h.length := List.length_pos_iff.2 (by rintro rfl; simp [energie] at hE)
    omega
  have hmR : (m + 1) * R ≤ s.length * R := Nat.mul_le_mul_right R hm
  rw [Nat.succ_mul] at hmR
  rw [hv _ (by rw [hl]; omega)]
  unfold superposition
  congr 1
  rw [Finset.sum_eq_single m]
  · rw [if_pos (by omega), show d + m * R - m * R = d by omega, List.getD_eq_getElem _ _ hm]
  · intro j hj hne
    split
    · rename_i hle
      rw [hN _ ?_ ?_]
      · simp
      · intro hc
        apply hne
        have : m * R = j * R := by omega
        exact (Nat.eq_of_mul_eq_mul_right hR this).symm
      · have : (d + m * R - j * R + j * R) % R = (d + m * R) % R := by rw [Nat.sub_add_cancel hle]
        simpa using this
    · simp
  · intro hc
    exact absurd (Finset.mem_range.2 hm) hc

theorem energie_nrz (R : ℕ) (hR : 0 < R) : energie (List.replicate R (1 / (R : ℝ))) = 1 / R := by
  have hRr : (R : ℝ) ≠ 0 := by exact_mod_cast hR.ne'
  simp only [energie, List.map_replicate, List.sum_replicate, nsmul_eq_mul]
  field_simp

theorem impulsion_nrz (R : ℕ) (hR : 0 < R) : impulsion (List.replicate R (1 / (R : ℝ))) R = List.replicate R 1 := by
  have hRr : (R : ℝ) ≠ 0 := by exact_mod_cast hR.ne'
  unfold impulsion
  have hc : complement R R = 0 := by simp [complement]
  rw [energie_nrz R hR, List.map_replicate, List.length_replicate, hc, List.replicate_zero, List.append_nil, List.reverse_replicate]
  congr 1
  rw [Real.sqrt_div (by norm_num), Real.sqrt_one, div_div_eq_mul_div, div_one, Real.mul_self_sqrt (Nat.cast_nonneg R)]
  field_simp

/-- **C160 (NRZ).** With the NRZ filter and an odd factor the delay is the middle of the first symbol, and the sample at the middle of each symbol is the symbol. -/
theorem C160_nrz (q : ℕ) (s : List ℂ) : ∃ y, echantillonsDe none .nrz (2 * q + 1) s = some (y, 2 * q) ∧ ∀ m (hm : m < s.length), y[q + m * (2 * q + 1)]? = some s[m] := by
  have hR : 0 < 2 * q + 1 := by omega
  have hRr : ((2 * q + 1 : ℕ) : ℝ) ≠ 0 := by exact_mod_cast hR.ne'
  have ht : MiseEnForme.nrz.coefs (2 * q + 1) = some (List.replicate (2 * q + 1) (1 / ((2 * q + 1 : ℕ) : ℝ))) := by
    unfold MiseEnForme.coefs
    rw [if_neg hR.ne']
    split
    · rename_i h
      obtain rfl : q = 0 := by omega
      simp
    · rfl
  have hi := impulsion_nrz (2 * q + 1) hR
  have hen : energie (List.replicate (2 * q + 1) (1 / ((2 * q + 1 : ℕ) : ℝ))) ≠ 0 := by
    rw [energie_nrz _ hR]
    exact one_div_ne_zero hRr
  have hg : ∀ j, (impulsion (List.replicate (2 * q + 1) (1 / ((2 * q + 1 : ℕ) : ℝ))) (2 * q + 1)).getD j 0 = if j < 2 * q + 1 then 1 else 0 := by
    intro j
    rw [hi, List.getD_eq_getElem?_getD, List.getElem?_replicate]
    split <;> rfl
  have hN : ∀ j, j ≠ q → j % (2 * q + 1) = q % (2 * q + 1) → (impulsion (List.replicate (2 * q + 1) (1 / ((2 * q + 1 : ℕ) : ℝ))) (2 * q + 1)).getD j 0 = 0 := by
    intro j hj hm
    rw [hg, if_neg]
    intro hlt
    rw [Nat.mod_eq_of_lt hlt, Nat.mod_eq_of_lt (by omega)] at hm
    exact hj hm
  obtain ⟨y, e, h⟩ := C160_lecture .nrz (2 * q + 1) hR _ ht hen q (by simp [delaisUps2]) hN s
  refine ⟨y, e, fun m hm => ?_⟩
  rw [h m hm, hg, if_pos (by omega)]
  simp

/-- **C160 (frequency modulation).** If the filtered symbols are not all null, the samples have a constant modulus 1, the phase rotates at each sample by an angle proportional to the filtered symbol (the
superposition of the pulses) and bounded by the documented peak deviation `π |index| / osf`, a bound that is attained. -/
theorem C160_fsk (index : ℝ) (t : MiseEnForme) (R : ℕ) (hR : 0 < R) (h : List ℝ) (ht : t.coefs R = some h) (hE : energie h ≠ 0) (s : List ℂ)
    (hn : ∃ p, p < s.length * R + (impulsion h R).length ∧ (superposition (impulsion h R) R s p).re ≠ 0) :
    ∃ (y : List ℂ) (g : ℝ) (ω : ℕ → ℝ), echantillonsDe (some index) t R s = some (y, delaisUps2 h.length R) ∧ y.length = s.length * R + (impulsion h R).length ∧ 0 < g ∧
      (∀ n, n < y.length → ω n = (superposition (impulsion h R) R s n).re / g * (Real.pi * index / R)) ∧ (∀ n, n < y.length → |ω n| ≤ Real.pi * |index| / R) ∧
      (∃ n, n < y.length ∧ |ω n| = Real.pi * |index| / R) ∧ (∀ v ∈ y, ‖v‖ = 1) ∧ (∀ v, y[0]? = some v → v = Complex.exp ((ω 0 : ℝ) * Complex.I)) ∧
      (∀ n v z, y[n]? = some v → y[n + 1]? = some z → z = v * Complex.exp ((ω (n + 1) : ℝ) * Complex.I)) := by
  obtain ⟨u, e, hl, hv, -⟩ := echantillons_lineaire t R hR h ht hE s
  obtain ⟨g, ω, h1, h2, h3, h4, h5, h6, h7, h8⟩ := C98_phase index R u
  obtain ⟨p, hp, hpn⟩ := hn
  rw [← hl] at hp
  have hup : u[p].re ≠ 0 := by
    have := hv p hp
    rw [List.getElem?_eq_getElem hp] at this
    rw [Option.some.inj this]
    exact hpn
  have hne : ∃ v ∈ u, v.re ≠ 0 := ⟨u[p], List.getElem_mem _, hup⟩
  refine ⟨etageFsk index R u, g, ω, ?_, by rw [h5, hl], h1, fun n hnn => ?_, fun n hnn => h3 n (by rw [← h5]; exact hnn), ?_, h6, h7, h8⟩
  · have hd : (((u.map Complex.re).map abs).foldl max 0) ≠ 0 := by
      intro h0
      have := (foldl_max ((u.map Complex.re).map abs) 0).2.1 |u[p].re| (by
        rw [List.mem_map]
        exact ⟨u[p].re, List.mem_map.2 ⟨u[p], List.getElem_mem _, rfl⟩, rfl⟩)
      rw [h0] at this
      exact hup (abs_nonpos_iff.1 this)
    unfold echantillonsDe at e ⊢
    cases hf : filtreForme t R with
    | none => rw [hf] at e; simp at e
    | some f =>
      rw [hf, ht] at e
      rw [ht]
      simp only [Option.bind_some] at e ⊢
      cases hs : f.step (s ++ List.replicate ((h.length + R - 1) / R) 0) with
      | none => rw [hs] at e; simp at e
      | some r =>
        rw [hs] at e
        simp only [Option.bind_some, Option.some.injEq, Prod.mk.injEq] at e ⊢
        rw [e.1]
        rw [if_neg hd]
        unfold etageFsk denomFsk
        simp only []
        rw [if_neg hd]
  · have hnn' : n < u.length := by rw [← h5]; exact hnn
    rw [h2 n hnn']
    have := hv n hnn'
    rw [List.getElem?_eq_getElem hnn'] at this
    rw [Option.some.inj this]
  · obtain ⟨n, hn1, hn2⟩ := h4 hne
    exact ⟨n, by rw [h5]; exact hn1, hn2⟩

/-- **C160 (frequency modulation, refuted).** When the filtered symbols are all null (no bit at all, or only null symbols), every sample is undefined (zero divided by zero), although the linear waveforms and the
modulator object give a signal. -/
theorem C160_fsk_refute (index : ℝ) (t : MiseEnForme) (R : ℕ) (hR : 0 < R) (h : List ℝ) (ht : t.coefs R = some h) (hE : energie h ≠ 0) (n : ℕ) :
    echantillonsDe (some index) t R (List.replicate n 0) = none ∧ ∃ y, echantillonsDe none t R (List.replicate n 0) = some (y, delaisUps2 h.length R) := by
  obtain ⟨u, e, hl, hv, -⟩ := echantillons_lineaire t R hR h ht hE (List.replicate n 0)
  refine ⟨?_, u, e⟩
  have hz : ∀ v ∈ u, v = 0 := by
    intro v hvv
    obtain ⟨p, hp, rfl⟩ := List.getElem_of_mem hvv
    have := hv p hp
    rw [List.getElem?_eq_getElem hp] at this
    rw [Option.some.inj this]
    unfold superposition
    apply Finset.sum_eq_zero
    intro m hm
    rw [Finset.mem_range, List.length_replicate] at hm
    have hz : (List.replicate n (0 : ℂ)).getD m 0 = 0 := by
      rw [List.getD_eq_getElem?_getD, List.getElem?_replicate, if_pos hm]
      rfl
    rw [hz, mul_zero]
  have hd : (((u.map Complex.re).map abs).foldl max 0) = 0 := by
    rcases (foldl_max ((u.map Complex.re).map abs) 0).2.2 with h0 | h0
    · exact h0
    · rw [List.mem_map] at h0
      obtain ⟨a, ha, h0⟩ := h0
      obtain ⟨v, hvv, rfl⟩ := List.mem_map.1 ha
      rw [← h0, hz v hvv]
      simp
  unfold echantillonsDe at e ⊢
  cases hf : filtreForme t R with
  | none => simp
  | some f =>
    rw [hf, ht] at e
    rw [ht]
    simp only [Option.bind_some] at e ⊢
    cases hs : f.step (List.replicate n 0 ++ List.replicate ((h.length + R - 1) / R) 0) with
    | none => simp
    | some r =>
      rw [hs] at e
      simp only [Option.bind_some, Option.some.injEq, Prod.mk.injEq] at e ⊢
      rw [e.1, if_pos hd]

/-- **C160 (streaming context, refuted).** The transmission context returned by `get_contexte_tx` never gives a sample, for any stream of bits. -/
theorem C160_contexte_refute (bs : List Bool) : ctxGenStep bs = [] := rfl

/-- Non-vacuity: a filter that is not NRZ, with a length that is not a multiple of the factor, symmetric and of non-zero energy. -/
example : (MiseEnForme.autre [1, 2, 1]).coefs 2 = some [1, 2, 1] ∧ energie [1, 2, 1] ≠ 0 ∧ [1, 2, 1].reverse = ([1, 2, 1] : List ℝ) ∧ delaisUps2 3 2 = 4 := by
  refine ⟨by simp [MiseEnForme.coefs], by norm_num [energie], by simp, by decide⟩

end Verif.Telecom
