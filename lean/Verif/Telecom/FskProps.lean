/-
C98: frequency modulation (continuous phase inside a block).

Specification: the phase of a sample as the sum of the frequencies of the samples up to it, the frequency of a symbol.
-/
import Verif.Telecom.ModProps

namespace Verif.Telecom

open Verif.Filtre Verif.Reechan

theorem cumul_longueur (l : List ℝ) (a : ℝ) : (cumul a l).length = l.length := by
  induction l generalizing a with
  | nil => rfl
  | cons v l ih => simp [cumul, ih]

theorem cumul_val (l : List ℝ) (a : ℝ) (n : ℕ) (hn : n < l.length) : (cumul a l)[n]? = some (a + (l.take (n + 1)).sum) := by
  induction l generalizing a n with
  | nil => simp at hn
  | cons v l ih =>
    cases n with
    | zero => simp [cumul]
    | succ n =>
      rw [cumul, List.getElem?_cons_succ, ih (a + v) n (by simpa using hn), List.take_succ_cons, List.sum_cons, add_assoc]

theorem foldl_max (l : List ℝ) (a : ℝ) : a ≤ l.foldl max a ∧ (∀ v ∈ l, v ≤ l.foldl max a) ∧ (l.foldl max a = a ∨ l.foldl max a ∈ l) := by
  induction l generalizing a with
  | nil => simp
  | cons v l ih =>
    obtain ⟨h1, h2, h3⟩ := ih (max a v)
    rw [List.foldl_cons]
    refine ⟨(le_max_left _ _).trans h1, fun w hw => ?_, ?_⟩
    · rcases List.mem_cons.1 hw with rfl | hw
      · exact (le_max_right _ _).trans h1
      · exact h2 w hw
    · rcases h3 with h3 | h3
      · rw [h3]
        rcases max_choice a v with h | h
        · exact Or.inl h
        · right; rw [h]; simp
      · right; simp [h3]

/-- The scale of the frequencies: the largest absolute value of the block (1 if it is null). -/
theorem denom_prop (x : List ℝ) : 0 < denomFsk x ∧ (∀ v ∈ x, |v| ≤ denomFsk x) ∧ ((∃ v ∈ x, v ≠ 0) → ∃ v ∈ x, |v| = denomFsk x) := by
  obtain ⟨h1, h2, h3⟩ := foldl_max (x.map abs) 0
  unfold denomFsk
  simp only []
  generalize (x.map abs).foldl max 0 = d at *
  have h2' : ∀ v ∈ x, |v| ≤ d := fun v hv => h2 _ (List.mem_map.2 ⟨v, hv, rfl⟩)
  split
  · rename_i h0
    subst h0
    refine ⟨one_pos, fun v hv => (h2' v hv).trans zero_le_one, fun ⟨v, hv, hn⟩ => ?_⟩
    exact absurd (abs_pos.2 hn) (not_lt.2 (h2' v hv))
  · rename_i h0
    refine ⟨lt_of_le_of_ne h1 (Ne.symm h0), h2', fun _ => ?_⟩
    rcases h3 with h3 | h3
    · exact absurd h3 h0
    · obtain ⟨v, hv, e⟩ := List.mem_map.1 h3
      exact ⟨v, hv, e⟩

theorem fsk_val (index : ℝ) (osf : ℕ) (x : List ℂ) : (etageFsk index osf x).length = x.length ∧ ∀ n, n < x.length → (etageFsk index osf x)[n]? =
    some (Complex.exp (((((x.map Complex.re).map fun v => v * (Real.pi * index / osf / denomFsk (x.map Complex.re))).take (n + 1)).sum : ℝ) * Complex.I)) := by
  refine ⟨by simp [etageFsk, cumul_longueur], fun n hn => ?_⟩
  unfold etageFsk
  simp only []
  rw [List.getElem?_map, cumul_val _ _ _ (by simpa using hn), zero_add]
  rfl

/-- **C98 (constant envelope, continuous phase).** For every index, every oversampling factor and every block `u` of filtered symbols, the frequency modulator returns one
sample per element of `u`, of modulus 1; the first one has the phase `ω 0`, each other one is the preceding one rotated by `ω n`, where the rotations are proportional to the
real part of `u` and bounded by `π |index| / osf`, a bound attained as soon as the block is not null (the documented peak deviation). -/
theorem C98_phase (index : ℝ) (osf : ℕ) (u : List ℂ) : ∃ (g : ℝ) (ω : ℕ → ℝ), 0 < g ∧ (∀ n (hn : n < u.length), ω n = (u[n].re / g) * (Real.pi * index / osf)) ∧
    (∀ n, n < u.length → |ω n| ≤ Real.pi * |index| / osf) ∧ ((∃ v ∈ u, v.re ≠ 0) → ∃ n, n < u.length ∧ |ω n| = Real.pi * |index| / osf) ∧
    (etageFsk index osf u).length = u.length ∧ (∀ y ∈ etageFsk index osf u, ‖y‖ = 1) ∧
    (∀ y, (etageFsk index osf u)[0]? = some y → y = Complex.exp ((ω 0 : ℝ) * Complex.I)) ∧
    (∀ n y z, (etageFsk index osf u)[n]? = some y → (etageFsk index osf u)[n + 1]? = some z → z = y * Complex.exp ((ω (n + 1) : ℝ) * Complex.I)) := by
  obtain ⟨hg, hb, ha⟩ := denom_prop (u.map Complex.re)
  obtain ⟨hl, hv⟩ := fsk_val index osf u
  generalize hG : denomFsk (u.map Complex.re) = g at *
  have habs : |Real.pi * index / osf| = Real.pi * |index| / osf := by
    rw [abs_div, abs_mul, abs_of_pos Real.pi_pos, abs_of_nonneg (Nat.cast_nonneg osf : (0 : ℝ) ≤ osf)]
  have hωe : ∀ n (hn : n < u.length), (((u.map Complex.re).map fun v => v * (Real.pi * index / osf / g)).getD n 0) = (u[n].re / g) * (Real.pi * index / osf) := by
    intro n hn
    simp only [List.getD_eq_getElem?_getD, List.getElem?_map, List.getElem?_eq_getElem hn, Option.map_some, Option.getD_some]
    ring
  have hmod : ∀ v : ℝ, |v| ≤ g → |v / g * (Real.pi * index / osf)| ≤ Real.pi * |index| / osf := by
    intro v hv
    rw [abs_mul, habs, abs_div, abs_of_pos hg]
    have : 0 ≤ Real.pi * |index| / osf := by positivity
    exact mul_le_of_le_one_left this ((div_le_one hg).2 hv)
  refine ⟨g, fun n => ((u.map Complex.re).map fun v => v * (Real.pi * index / osf / g)).getD n 0, hg, hωe, fun n hn => ?_, fun ⟨v, hv, hn⟩ => ?_, hl, fun y hy => ?_, fun y hy => ?_,
    fun n y z hy hz => ?_⟩
  · show |((u.map Complex.re).map fun v => v * (Real.pi * index / osf / g)).getD n 0| ≤ _
    rw [hωe n hn]
    exact hmod _ (hb _ (List.mem_map.2 ⟨u[n], List.getElem_mem _, rfl⟩))
  · obtain ⟨w, hw, e⟩ := ha ⟨v.re, List.mem_map.2 ⟨v, hv, rfl⟩, hn⟩
    obtain ⟨n, hn, e2⟩ := List.getElem_of_mem hw
    have hn' : n < u.length := by simpa using hn
    refine ⟨n, hn', ?_⟩
    show |((u.map Complex.re).map fun v => v * (Real.pi * index / osf / g)).getD n 0| = _
    rw [hωe n hn']
    have e3 : u[n].re = w := by rw [← e2]; simp
    rw [e3, abs_mul, habs, abs_div, e, abs_of_pos hg, div_self hg.ne', one_mul]
  · obtain ⟨n, hn, e⟩ := List.getElem_of_mem hy
    have h := hv n (by rw [← hl]; exact hn)
    rw [List.getElem?_eq_getElem hn, e] at h
    rw [Option.some.inj h]
    exact Complex.norm_exp_ofReal_mul_I _
  · have hn : 0 < u.length := by
      rw [← hl]
      exact (List.getElem?_eq_some_iff.1 hy).1
    rw [hv 0 hn] at hy
    rw [← Option.some.inj hy]
    congr 3
    cases u with
    | nil => simp at hn
    | cons a u => simp
  · have hn : n + 1 < u.length := by
      rw [← hl]
      exact (List.getElem?_eq_some_iff.1 hz).1
    rw [hv n (by omega)] at hy
    rw [hv (n + 1) hn] at hz
    rw [← Option.some.inj hy, ← Option.some.inj hz, ← Complex.exp_add, ← add_mul]
    congr 2
    rw [← Complex.ofReal_add]
    congr 1
    generalize hL : (u.map Complex.re).map (fun v => v * (Real.pi * index / osf / g)) = L
    have hlen : n + 1 < L.length := by rw [← hL]; simpa using hn
    show _ = (L.take (n + 1)).sum + L.getD (n + 1) 0
    rw [List.take_add_one (i := n + 1), List.sum_append, List.getD_eq_getElem?_getD, List.getElem?_eq_getElem hlen]
    simp

/-- Partial sums of held values. -/
theorem somme_tenue (R : ℕ) (g : ℂ → ℝ) (s : List ℂ) (m i : ℕ) (hm : m < s.length) (hi : i < R) :
    ((((s.flatMap fun v => List.replicate R v).map g).take (m * R + i + 1)).sum) = R * ((s.take m).map g).sum + (i + 1) * g s[m] := by
  induction s generalizing m with
  | nil => simp at hm
  | cons v s ih =>
    rw [List.flatMap_cons, List.map_append, List.map_replicate]
    cases m with
    | zero =>
      rw [Nat.zero_mul, Nat.zero_add, List.take_append_of_le_length (by simp; omega), List.take_replicate, Nat.min_eq_left (by omega)]
      simp
    | succ m =>
      rw [List.take_append, List.take_of_length_le (by rw [List.length_replicate, Nat.succ_mul]; omega), List.sum_append, List.length_replicate,
        show (m + 1) * R + i + 1 - R = m * R + i + 1 by rw [Nat.succ_mul]; omega, ih m (by simpa using hm)]
      simp only [List.sum_replicate, nsmul_eq_mul, List.take_succ_cons, List.map_cons, List.sum_cons, List.getElem_cons_succ]
      ring

/-- One call with the NRZ filter from the initial state: the frequency modulator receives the held symbols. -/
theorem fsk_nrz (symbs : List (ℝ × ℝ)) (k : ℕ) (hk : 0 < k) (hM : 2 ^ k ≤ symbs.length) (R : ℕ) (hR : 0 < R) (index : ℝ) (bs : List Bool) (hb : bs.length % k = 0) :
    ∃ s m0 m, genereSymboles symbs k bs = some s ∧ Modulateur.cree .nrz R = some m0 ∧
      m0.stepBits symbs k (some index) bs = some (m, etageFsk index R ((s.map cplx).flatMap fun v => List.replicate R v)) := by
  obtain ⟨s, m0, m, h1, h2, h3⟩ := C97_nrz symbs k hk hM R hR [bs] (by simpa using hb)
  have h1' : genereSymboles symbs k bs = some s := by simpa using h1
  have hosf : m0.osf = R := by
    unfold Modulateur.cree at h2
    cases hf : filtreForme .nrz R with
    | none => rw [hf] at h2; simp at h2
    | some f => rw [hf] at h2; simp at h2; rw [← h2]
  refine ⟨s, m0, m, h1', h2, ?_⟩
  simp only [enchaine, Modulateur.stepBits, h1', Option.bind_some, Modulateur.step] at h3 ⊢
  cases hf : m0.filtre.step (s.map cplx) with
  | none => rw [hf] at h3; simp at h3
  | some r =>
    rw [hf] at h3
    simp only [Option.map_some, List.append_nil, Option.some.injEq, Prod.mk.injEq] at h3 ⊢
    refine ⟨h3.1, ?_⟩
    rw [hosf, h3.2, List.flatMap_map]

theorem tenue_mem (R : ℕ) (hR : 0 < R) (s : List ℂ) (v : ℂ) : v ∈ (s.flatMap fun v => List.replicate R v) ↔ v ∈ s := by
  simp only [List.mem_flatMap, List.mem_replicate]
  constructor
  · rintro ⟨a, ha, _, rfl⟩
    exact ha
  · intro h
    exact ⟨v, h, hR.ne', rfl⟩

/-- The scale is the one of the symbols. -/
theorem denom_unite (x : List ℂ) (h1 : ∀ v ∈ x, |v.re| ≤ 1) (h2 : ∃ v ∈ x, |v.re| = 1) : denomFsk (x.map Complex.re) = 1 := by
  obtain ⟨_, hb, ha⟩ := denom_prop (x.map Complex.re)
  obtain ⟨v, hv, hv1⟩ := h2
  have hn : v.re ≠ 0 := by
    intro h
    rw [h] at hv1
    simp at hv1
  obtain ⟨w, hw, e⟩ := ha ⟨v.re, List.mem_map.2 ⟨v, hv, rfl⟩, hn⟩
  obtain ⟨w', hw', rfl⟩ := List.mem_map.1 hw
  apply le_antisymm
  · rw [← e]; exact h1 _ hw'
  · rw [← hv1]; exact hb _ (List.mem_map.2 ⟨v, hv, rfl⟩)

theorem fsk_points (M : ℕ) (hM : 2 ≤ M) : ∃ symbs, fskConstellation M = some symbs ∧ symbs.length = M ∧ ∀ i, i < M → symbs.getD i (0, 0) = (2 * (i : ℝ) / ((M : ℝ) - 1) - 1, 0) := by
  refine ⟨_, by rw [fskConstellation, if_neg (by omega)], by simp, fun i hi => ?_⟩
  simp only [List.getD_eq_getElem?_getD, List.getElem?_map, List.getElem?_range hi, Option.map_some, Option.getD_some]
  congr 1
  ring

/-- **C98 (NRZ).** `M`-ary FSK (`M = 2^k`), NRZ filter, first block of whole symbols containing one of the two extreme symbols: the symbol of index `i` advances the phase by
`π index (2 i / (M - 1) - 1)`, linearly over its `R` samples. -/
theorem C98_nrz_partial (k : ℕ) (hk : 0 < k) (R : ℕ) (hR : 0 < R) (index : ℝ) (bs : List Bool) (s : List ℕ) (hs : symmap bs k = some s)
    (hx : 0 ∈ s ∨ 2 ^ k - 1 ∈ s) (hb : bs.length % k = 0) : ∃ symbs m0 m y, fskConstellation (2 ^ k) = some symbs ∧ Modulateur.cree .nrz R = some m0 ∧
      m0.stepBits symbs k (some index) bs = some (m, y) ∧ y.length = s.length * R ∧ ∀ j i (hj : j < s.length), i < R → y[j * R + i]? =
        some (Complex.exp (((Real.pi * index * (((s.take j).map fun v : ℕ => 2 * (v : ℝ) / ((2 : ℝ) ^ k - 1) - 1).sum +
          ((i : ℝ) + 1) / R * (2 * (s[j] : ℝ) / ((2 : ℝ) ^ k - 1) - 1)) : ℝ) : ℂ) * Complex.I)) := by
  have h2k : 2 ≤ 2 ^ k := by
    calc 2 = 2 ^ 1 := rfl
      _ ≤ 2 ^ k := Nat.pow_le_pow_right (by norm_num) hk
  have hRr : (R : ℝ) ≠ 0 := by exact_mod_cast hR.ne'
  obtain ⟨symbs, e0, hl, hp⟩ := fsk_points (2 ^ k) h2k
  obtain ⟨s', m0, m, e1, e2, e3⟩ := fsk_nrz symbs k hk hl.ge R hR index bs hb
  obtain ⟨s'', a1, a2, _⟩ := genere_some symbs k hk hl.ge bs
  obtain ⟨t, b1, _, _, hlt, _⟩ := C07_aller_retour bs k hk
  rw [hs] at a1 b1
  obtain rfl := Option.some.inj a1
  obtain rfl := Option.some.inj b1
  rw [a2] at e1
  obtain rfl := Option.some.inj e1
  have hD : (0 : ℝ) < (2 : ℝ) ^ k - 1 := by
    have : (2 : ℝ) ≤ (2 : ℝ) ^ k := by exact_mod_cast h2k
    linarith
  have hmap : ((s.map fun i => symbs.getD i (0, 0)).map cplx) = s.map fun v : ℕ => ((2 * (v : ℝ) / ((2 : ℝ) ^ k - 1) - 1 : ℝ) : ℂ) := by
    rw [List.map_map]
    apply List.map_congr_left
    intro v hv
    simp only [Function.comp, hp v (hlt v hv), cplx]
    push_cast
    apply Complex.ext <;> simp <;> norm_cast
  rw [hmap] at e3
  have hd : denomFsk (((s.map fun v : ℕ => ((2 * (v : ℝ) / ((2 : ℝ) ^ k - 1) - 1 : ℝ) : ℂ)).flatMap fun v => List.replicate R v).map Complex.re) = 1 := by
    apply denom_unite
    · intro v hv
      rw [tenue_mem R hR] at hv
      obtain ⟨n, hn, rfl⟩ := List.mem_map.1 hv
      rw [Complex.ofReal_re, abs_le]
      have h1 : (n : ℝ) ≤ (2 : ℝ) ^ k - 1 := by
        have := hlt n hn
        have : n + 1 ≤ 2 ^ k := this
        have : ((n : ℝ) + 1) ≤ (2 : ℝ) ^ k := by exact_mod_cast this
        linarith
      have h0 : 0 ≤ 2 * (n : ℝ) / ((2 : ℝ) ^ k - 1) := by positivity
      have h2 : 2 * (n : ℝ) / ((2 : ℝ) ^ k - 1) ≤ 2 := by
        rw [div_le_iff₀ hD]
        linarith
      constructor <;> linarith
    · rcases hx with hx | hx
      · refine ⟨_, (tenue_mem R hR _ _).2 (List.mem_map.2 ⟨0, hx, rfl⟩), ?_⟩
        simp
      · refine ⟨_, (tenue_mem R hR _ _).2 (List.mem_map.2 ⟨2 ^ k - 1, hx, rfl⟩), ?_⟩
        rw [Complex.ofReal_re]
        have : ((2 ^ k - 1 : ℕ) : ℝ) = (2 : ℝ) ^ k - 1 := by
          rw [Nat.cast_sub (by omega)]
          push_cast
          rfl
        rw [this, mul_div_assoc, div_self hD.ne']
        norm_num
  refine ⟨symbs, m0, m, _, e0, e2, e3, ?_, fun j i hj hi => ?_⟩
  · rw [(fsk_val _ _ _).1, (flatMap_getElem R _ (fun a => by simp) _).1, List.length_map]
  · have hln : j * R + i < ((s.map fun v : ℕ => ((2 * (v : ℝ) / ((2 : ℝ) ^ k - 1) - 1 : ℝ) : ℂ)).flatMap fun v => List.replicate R v).length := by
      rw [(flatMap_getElem R _ (fun a => by simp) _).1, List.length_map]
      calc j * R + i < j * R + R := by omega
        _ = (j + 1) * R := by ring
        _ ≤ s.length * R := Nat.mul_le_mul_right R hj
    rw [(fsk_val _ _ _).2 _ hln, hd, List.map_map, somme_tenue R _ _ j i (by simpa using hj) hi]
    congr 4
    rw [← List.map_take, List.map_map]
    simp only [List.getElem_map, Function.comp_def, Complex.ofReal_re, div_one, List.sum_map_mul_right]
    field_simp

/-- **C98 (binary).** Binary FSK, NRZ filter, whatever the first block of bits: at the end of the bit `j` the phase is `π index (n₁ - n₀)`, where `n₁` and `n₀` are the numbers
of ones and zeros among the first `j + 1` bits. -/
theorem C98_binaire (R : ℕ) (hR : 0 < R) (index : ℝ) (bs : List Bool) : ∃ symbs m0 m y, fskConstellation 2 = some symbs ∧ Modulateur.cree .nrz R = some m0 ∧
    m0.stepBits symbs 1 (some index) bs = some (m, y) ∧ y.length = bs.length * R ∧ ∀ j, j < bs.length → y[j * R + (R - 1)]? =
      some (Complex.exp (((Real.pi * index * (((bs.take (j + 1)).count true : ℝ) - (bs.take (j + 1)).count false) : ℝ) : ℂ) * Complex.I)) := by
  obtain ⟨s, e, hdem, hlen, hlt, hval⟩ := C07_aller_retour bs 1 one_pos
  have hl : s.length = bs.length := by simpa using hlen
  have hs : s = bs.map fun b => if b then 1 else 0 := by
    apply List.ext_getElem?
    intro i
    by_cases hi : i < s.length
    · rw [hval i hi]
      have hi' : i < bs.length := by omega
      rw [List.getElem?_map, List.getElem?_eq_getElem hi', Option.map_some, Nat.mul_one, List.drop_eq_getElem_cons hi', List.take_succ_cons, List.take_zero]
      cases bs[i] <;> simp [valeur]
    · rw [List.getElem?_eq_none (by omega), List.getElem?_eq_none (by simp; omega)]
  by_cases h0 : bs = []
  · subst h0
    obtain ⟨symbs, e0, hls, _⟩ := fsk_points 2 le_rfl
    obtain ⟨s', m0, m, e1, e2, e3⟩ := fsk_nrz symbs 1 one_pos (by simp [hls]) R hR index [] rfl
    refine ⟨symbs, m0, m, _, e0, e2, e3, ?_, by simp⟩
    obtain ⟨s'', _, a2, a3⟩ := genere_some symbs 1 one_pos (by simp [hls]) []
    rw [e1] at a2
    have : s' = [] := by
      rw [Option.some.inj a2]
      simp at a3
      simp [a3]
    rw [(fsk_val _ _ _).1, this]
    simp
  · have hx : 0 ∈ s ∨ 2 ^ 1 - 1 ∈ s := by
      obtain ⟨b, l, rfl⟩ := List.exists_cons_of_ne_nil h0
      rw [hs]
      cases b <;> simp
    obtain ⟨symbs, m0, m, y, a1, a2, a3, a4, a5⟩ := C98_nrz_partial 1 one_pos R hR index bs s e hx (Nat.mod_one _)
    refine ⟨symbs, m0, m, y, a1, a2, a3, by rw [a4, hl], fun j hj => ?_⟩
    have hj' : j < s.length := by omega
    rw [a5 j (R - 1) hj' (by omega)]
    congr 4
    have hRr : (R : ℝ) ≠ 0 := by exact_mod_cast hR.ne'
    have hR1 : ((R - 1 : ℕ) : ℝ) + 1 = R := by
      rw [Nat.cast_sub (by omega)]
      push_cast
      ring
    rw [hR1, div_self hRr, one_mul]
    have hcount : ∀ l : List Bool, ((l.map fun b : Bool => if b then (1 : ℕ) else 0).map fun v : ℕ => 2 * (v : ℝ) / ((2 : ℝ) ^ 1 - 1) - 1).sum = (l.count true : ℝ) - l.count false := by
      intro l
      induction l with
      | nil => simp
      | cons b l ih =>
        rw [List.map_cons, List.map_cons, List.sum_cons, ih]
        cases b <;> simp <;> ring
    rw [← hcount (bs.take (j + 1)), List.take_add_one, List.map_append, List.map_append, List.sum_append]
    simp only [hs, ← List.map_take, List.getElem_map]
    simp [hj]

/-- **C98 (cutting, refuted).** The phase restarts from zero at each call: a stream cut in two blocks of whole symbols does not give the same signal. -/
theorem C98_decoupe_refute : ∃ m y ya yb, m = (⟨.ident, 1⟩ : Modulateur) ∧ Modulateur.cree .nrz 1 = some m ∧
    m.step (some (1 / 2)) [1, 1] = some (m, y) ∧ m.step (some (1 / 2)) [1] = some (m, ya) ∧ m.step (some (1 / 2)) [1] = some (m, yb) ∧ y ≠ ya ++ yb := by
  refine ⟨_, _, _, _, rfl, by simp [Modulateur.cree, filtreForme], rfl, rfl, rfl, ?_⟩
  have d2 : denomFsk [1, 1] = 1 := by simp [denomFsk]
  have d1 : denomFsk [1] = 1 := by simp [denomFsk]
  simp only [etageFsk, List.map_cons, List.map_nil, Complex.one_re, d1, d2, cumul, List.cons_append, List.nil_append]
  intro h
  simp only [List.cons.injEq, and_true, true_and] at h
  have h1 : ((0 : ℝ) + 1 * (Real.pi * (1 / 2) / ((1 : ℕ) : ℝ) / 1)) = Real.pi / 2 := by push_cast; ring
  rw [h1] at h
  have h2 : (Real.pi / 2 + 1 * (Real.pi * (1 / 2) / ((1 : ℕ) : ℝ) / 1)) = Real.pi := by push_cast; ring
  rw [h2, Complex.exp_pi_mul_I] at h
  have h3 : Complex.exp (((Real.pi / 2 : ℝ) : ℂ) * Complex.I) = Complex.I := by
    push_cast
    exact Complex.exp_pi_div_two_mul_I
  rw [h3] at h
  have := congrArg Complex.re h
  simp at this

/-- **C98 (ambiguity, refuted).** The frequencies are normalised by the largest symbol of the block: with the 4-FSK two different blocks of bits give the same signal,
whatever the index and the oversampling factor, so that the receiver cannot separate them. -/
theorem C98_ambigu_refute (R : ℕ) (hR : 0 < R) (index : ℝ) : ∃ symbs m0 ma mb a b y, fskConstellation 4 = some symbs ∧ Modulateur.cree .nrz R = some m0 ∧ a ≠ b ∧
    m0.stepBits symbs 2 (some index) a = some (ma, y) ∧ m0.stepBits symbs 2 (some index) b = some (mb, y) := by
  obtain ⟨symbs, e0, hls, hp⟩ := fsk_points 4 (by norm_num)
  have hcle : ∀ v : ℕ, v < 4 → 2 * (v : ℝ) / ((4 : ℕ) - 1 : ℝ) - 1 < 0 → etageFsk index R (([symbs.getD v (0, 0)].map cplx).flatMap fun v => List.replicate R v) =
      (cumul 0 (List.replicate R (-(Real.pi * index / R)))).map fun φ : ℝ => Complex.exp ((φ : ℂ) * Complex.I) := by
    intro v hv hneg
    rw [hp v hv]
    generalize 2 * (v : ℝ) / ((4 : ℕ) - 1 : ℝ) - 1 = c at *
    have e : (([(c, (0 : ℝ))].map cplx).flatMap fun v => List.replicate R v) = List.replicate R (cplx (c, 0)) := by simp
    have er : (cplx (c, 0)).re = c := rfl
    rw [e]
    unfold etageFsk
    simp only [List.map_replicate, er]
    obtain ⟨_, _, ha⟩ := denom_prop (List.replicate R c)
    obtain ⟨w, hw, hw2⟩ := ha ⟨c, by simp [hR.ne'], hneg.ne⟩
    rw [List.eq_of_mem_replicate hw, abs_of_neg hneg] at hw2
    rw [← hw2]
    congr 3
    have hc : c ≠ 0 := hneg.ne
    have hRr : (R : ℝ) ≠ 0 := by exact_mod_cast hR.ne'
    field_simp
    try ring
  obtain ⟨s1, m0, m1, a1, a2, a3⟩ := fsk_nrz symbs 2 (by norm_num) (by simp [hls]) R hR index [false, false] rfl
  obtain ⟨s2, m0', m2, b1, b2, b3⟩ := fsk_nrz symbs 2 (by norm_num) (by simp [hls]) R hR index [true, false] rfl
  rw [a2] at b2
  obtain rfl := Option.some.inj b2
  obtain ⟨t1, c1, c2, _⟩ := genere_some symbs 2 (by norm_num) (by simp [hls]) [false, false]
  obtain ⟨t2, d1, d2, _⟩ := genere_some symbs 2 (by norm_num) (by simp [hls]) [true, false]
  have f1 : symmap [false, false] ((2 : ℕ) : ℤ) = some [0] := by simp [symmap, symbBoucle]
  have f2 : symmap [true, false] ((2 : ℕ) : ℤ) = some [1] := by simp [symmap, symbBoucle]
  rw [f1] at c1
  rw [f2] at d1
  obtain rfl := Option.some.inj c1
  obtain rfl := Option.some.inj d1
  rw [a1] at c2
  rw [b1] at d2
  rw [Option.some.inj c2] at a3
  rw [Option.some.inj d2] at b3
  rw [List.map_cons, List.map_nil, hcle 0 (by norm_num) (by norm_num)] at a3
  rw [List.map_cons, List.map_nil, hcle 1 (by norm_num) (by norm_num)] at b3
  exact ⟨symbs, m0, m1, m2, [false, false], [true, false], _, e0, a2, by simp, a3, b3⟩

/-- Non-vacuity of `C98_nrz_partial`: 4-FSK, the symbols 3, 1 (an extreme one and an inner one). -/
example : ∃ s, symmap [true, true, true, false] ((2 : ℕ) : ℤ) = some s ∧ (0 ∈ s ∨ 2 ^ 2 - 1 ∈ s) ∧ [true, true, true, false].length % 2 = 0 :=
  ⟨[3, 1], by simp [symmap, symbBoucle, List.range_succ], Or.inr (by simp), rfl⟩

end Verif.Telecom
