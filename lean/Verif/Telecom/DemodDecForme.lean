import Verif.Telecom.DemodDecSymb
import Verif.Telecom.CmpBitsProps
import Verif.Telecom.ModProps

/-!
# C140 for any pulse shaping

The demodulator without loops applied to the signal of the modulator, for every shaping filter: value of the decided samples, and round trip under the
open eye condition.
-/

namespace Verif.Telecom

open Filtre (Decoupable enchaine boucle convolution passe)
open Complex (exp I)

/-- Intersymbol interference of the pulse `g` at `R` samples per symbol, read `D` symbols late: what the pulse lacks or leaves at the decision instants. -/
noncomputable def interference (g : List ℝ) (R D : ℕ) : ℝ :=
  |g.getD (D * R) 0 - 1| + ∑ u ∈ (Finset.range (g.length / R)).erase D, |g.getD (u * R) 0|

theorem getD_map_c (g : List ℝ) (n : ℕ) : (g.map fun v : ℝ => (v : ℂ)).getD n 0 = ((g.getD n 0 : ℝ) : ℂ) := by
  by_cases h : n < g.length
  · rw [List.getD_eq_getElem _ _ (by simpa using h), List.getD_eq_getElem _ _ h, List.getElem_map]
  · rw [List.getD_eq_default _ _ (by simpa using h), List.getD_eq_default _ _ (by omega)]; simp

theorem impulsion_longueur_forme (h : List ℝ) (R : ℕ) (hR : 0 < R) : (impulsion h R).length = (impulsion h R).length / R * R := by
  have : (impulsion h R).length % R = 0 := by
    unfold impulsion
    simp only [List.length_reverse, List.length_append, List.length_map, List.length_replicate]
    exact Reechan.complement_mod _ _ hR
  have h2 := Nat.div_add_mod (impulsion h R).length R
  rw [this, Nat.add_zero, Nat.mul_comm] at h2
  exact h2.symm

/-- The sample at the start of symbol `m`: the symbols weighted by the samples of the pulse that are whole periods apart. -/
theorem echantillon_symbole (h : List ℝ) (R : ℕ) (hR : 0 < R) (x : List ℂ) (m : ℕ) :
    convolution ((impulsion h R).map fun v : ℝ => (v : ℂ)) (Reechan.insereZeros R x) (m * R) =
      ∑ u ∈ Finset.range ((impulsion h R).length / R), (((impulsion h R).getD (u * R) 0 : ℝ) : ℂ) * passe x m u := by
  have := Reechan.convolution_insere R hR ((impulsion h R).map fun v : ℝ => (v : ℂ)) x ((impulsion h R).length / R) (by
    rw [List.length_map]; exact impulsion_longueur_forme h R hR) m 0 hR
  rw [Nat.add_zero] at this
  rw [this]
  refine Finset.sum_congr rfl fun u _ => ?_
  rw [Nat.add_zero, getD_map_c]

theorem passe_borne (x : List ℂ) (A : ℝ) (hA : 0 ≤ A) (hx : ∀ z ∈ x, ‖z‖ ≤ A) (m u : ℕ) : ‖passe x m u‖ ≤ A := by
  unfold passe
  split
  · by_cases h : m - u < x.length
    · rw [List.getD_eq_getElem _ _ h]; exact hx _ (List.getElem_mem h)
    · rw [List.getD_eq_default _ _ (by omega)]; simpa using hA
  · simpa using hA

/-- The distance to the symbol sent `D` symbols earlier is bounded by the interference. -/
theorem interference_borne (g : List ℝ) (R D : ℕ) (x : List ℂ) (A : ℝ) (hA : 0 ≤ A) (hx : ∀ z ∈ x, ‖z‖ ≤ A) (hR : 0 < R) (hg : g.length = g.length / R * R) (m : ℕ) (hm : D ≤ m) :
    ‖∑ u ∈ Finset.range (g.length / R), ((g.getD (u * R) 0 : ℝ) : ℂ) * passe x m u - x.getD (m - D) 0‖ ≤ interference g R D * A := by
  have hp : passe x m D = x.getD (m - D) 0 := by unfold passe; rw [if_pos hm]
  have e1 : ∑ u ∈ Finset.range (g.length / R), ((g.getD (u * R) 0 : ℝ) : ℂ) * passe x m u - x.getD (m - D) 0 =
      ((g.getD (D * R) 0 - 1 : ℝ) : ℂ) * passe x m D + ∑ u ∈ (Finset.range (g.length / R)).erase D, ((g.getD (u * R) 0 : ℝ) : ℂ) * passe x m u := by
    by_cases hD : D ∈ Finset.range (g.length / R)
    · rw [← Finset.add_sum_erase _ _ hD, hp]; push_cast; ring
    · have hz : g.getD (D * R) 0 = 0 := by
        apply List.getD_eq_default
        rw [Finset.mem_range, not_lt] at hD
        calc g.length = g.length / R * R := hg
          _ ≤ D * R := Nat.mul_le_mul_right R hD
      rw [Finset.erase_eq_of_notMem hD, hz, hp]; push_cast; ring
  rw [e1]
  refine (norm_add_le _ _).trans ?_
  unfold interference
  rw [add_mul, Finset.sum_mul]
  refine add_le_add ?_ ((norm_sum_le _ _).trans (Finset.sum_le_sum fun u _ => ?_))
  · rw [norm_mul, Complex.norm_real, Real.norm_eq_abs]
    exact mul_le_mul_of_nonneg_left (passe_borne x A hA hx m D) (abs_nonneg _)
  · rw [norm_mul, Complex.norm_real, Real.norm_eq_abs]
    exact mul_le_mul_of_nonneg_left (passe_borne x A hA hx m u) (abs_nonneg _)

theorem symboleSur_get (R : ℕ) (hR : 0 < R) (n : ℕ) (x : List ℂ) (hx : x.length = n * R) : symboleSur R x = (List.range n).map fun m : ℕ => x.getD (m * R) 0 := by
  unfold symboleSur
  congr 2
  rw [hx, show n * R + R - 1 = (R - 1) + R * n by rw [Nat.mul_comm]; omega, Nat.add_mul_div_left _ _ hR, Nat.div_eq_of_lt (by omega), Nat.zero_add]

/-- **C140 (round trip for any shaping).** For every memoryless linear waveform, every shaping filter of non-zero energy, every oversampling factor and intermediate frequency: if the received signal is, at the start of each symbol,
within `σ` of the modulated one, and if `σ` plus the interference of the pulse `D` symbols late (times the largest amplitude `A`) is less than half the minimal distance `√d`, the demodulator without loops returns the bits,
`D` symbols late, whatever the two cuttings. -/
theorem C140_formes (symbs : List (ℝ × ℝ)) (k : ℕ) (hk : 0 < k) (hM : 2 ^ k ≤ symbs.length) (dec : ℝ × ℝ → Option ℕ) (d : ℝ) (hdec : ∀ i (h : i < symbs.length) p, 4 * dist2 p symbs[i] < d → dec p = some i)
    (hdt : ∀ p, ∃ i, dec p = some i ∧ i < symbs.length) (A : ℝ) (hA : ∀ p ∈ symbs, ‖cplx p‖ ≤ A)
    (c : ConfigDec Unit) (hctx : c.ctx = ctxSansMemoire symbs dec) (hck : c.k = k) (hosf : 0 < c.osf) (hh : c.horloge = false) (hp : c.porteuse = false) (hg : c.cag = false)
    (h : List ℝ) (hf : c.forme.coefs c.osf = some h) (hE : energie h ≠ 0) (D : ℕ) (σ : ℝ) (hσ : 0 ≤ σ) (hi : 4 * (σ + interference (impulsion h c.osf) c.osf D * A) ^ 2 < d)
    (bits : List (List Bool)) (hb : ∀ b ∈ bits, b.length % k = 0) :
    ∃ m0 m y s0, Modulateur.cree c.forme c.osf = some m0 ∧ enchaine (Modulateur.stepBits symbs k none) m0 bits = some (m, y) ∧ DemodDec.cree c = some s0 ∧
      ∀ blocs : List (List ℂ), blocs.flatten.length = y.length →
        (∀ t, c.osf ∣ t → t < y.length → ‖blocs.flatten.getD t 0 - exp ((2 * Real.pi * (t * c.fi) : ℝ) * I) * y.getD t 0‖ ≤ σ) →
        ∃ s q, enchaine (DemodDec.step c) s0 blocs = some (s, q ++ bits.flatten.take (bits.flatten.length - D * k)) ∧ q.length = min (D * k) bits.flatten.length := by
  obtain ⟨sy, m0, m, y, e1, e2, e3, e4, e5⟩ := C97_modulateur symbs k hk hM c.forme c.osf hosf h hf hE bits hb
  obtain ⟨idx, f1, f2, f3⟩ := bits_indices symbs k hk hM bits.flatten
  rw [f1] at e1
  obtain rfl := Option.some.inj e1
  have hmq : manque bits.flatten.length k = 0 := by
    have : bits.flatten.length % k = 0 := by
      clear e3 e5 f1 f3
      induction bits with
      | nil => simp
      | cons b l ih =>
        rw [List.flatten_cons, List.length_append, Nat.add_mod, hb b (by simp), ih (fun b hb' => hb b (by simp [hb']))]
        simp
    rw [manque, this, Nat.sub_zero, Nat.mod_self]
  rw [hmq, List.replicate_zero, List.append_nil] at f3
  choose dz hdz1 hdz2 using hdt
  obtain ⟨s0, _, e0, -⟩ := cree_forme c hosf _ hf
  refine ⟨m0, m, y, s0, e2, e3, e0, fun blocs hlen hbr => ?_⟩
  obtain ⟨s0', s, e0', e6⟩ := C140_decimation symbs dec (fun z => dz (z.re, z.im)) (fun z => ⟨hdz1 _, hdz2 _⟩) c hctx hosf hh hp hg (by rw [hf]; rfl) blocs
  rw [e0] at e0'
  obtain rfl := Option.some.inj e0'
  rw [List.length_map] at e4
  have hrec : ∀ t, t < y.length → (if c.fi = 0 then blocs.flatten else transpose c.fi blocs.flatten).getD t 0 = blocs.flatten.getD t 0 * exp (-(2 * Real.pi * (t * c.fi) : ℝ) * I) := by
    intro t ht
    split
    · rename_i h0; rw [h0]; simp
    · exact transpose_get _ _ _ (by omega)
  have hlr : (if c.fi = 0 then blocs.flatten else transpose c.fi blocs.flatten).length = idx.length * c.osf := by
    split
    · omega
    · rw [transpose_long]; omega
  generalize (if c.fi = 0 then blocs.flatten else transpose c.fi blocs.flatten) = r at e6 hrec hlr
  rw [symboleSur_get c.osf hosf _ r hlr, List.map_map] at e6
  have hA0 : 0 ≤ A := by
    have : 0 < symbs.length := lt_of_lt_of_le (by positivity) hM
    exact (norm_nonneg _).trans (hA _ (List.getElem_mem this))
  have hdist : ∀ (n : ℕ) (_ : D ≤ n) (hn : n < idx.length), dz ((r.getD (n * c.osf) 0).re, (r.getD (n * c.osf) 0).im) = idx[n - D]'(by omega) := by
    intro n hD hn
    have hii : idx[n - D]'(by omega) < symbs.length := f2 _ (List.getElem_mem _)
    have ht : n * c.osf < y.length := by rw [e4]; exact Nat.mul_lt_mul_of_pos_right hn hosf
    have hb2 := hbr (n * c.osf) (Dvd.intro_left n rfl) ht
    have hye := e5 _ ht
    rw [echantillon_symbole h c.osf hosf] at hye
    have hyd : y.getD (n * c.osf) 0 = ∑ u ∈ Finset.range ((impulsion h c.osf).length / c.osf), (((impulsion h c.osf).getD (u * c.osf) 0 : ℝ) : ℂ) * passe ((idx.map fun i => symbs.getD i (0, 0)).map cplx) n u := by
      rw [List.getD_eq_getElem?_getD, hye, Option.getD_some]
    have hib := interference_borne (impulsion h c.osf) c.osf D ((idx.map fun i => symbs.getD i (0, 0)).map cplx) A hA0 (by
      intro z hz
      simp only [List.map_map, List.mem_map, Function.comp_apply] at hz
      obtain ⟨a, ha, rfl⟩ := hz
      rw [List.getD_eq_getElem _ _ (f2 a ha)]
      exact hA _ (List.getElem_mem _)) hosf (impulsion_longueur_forme h c.osf hosf) n hD
    rw [← hyd] at hib
    have hxg : ((idx.map fun i => symbs.getD i (0, 0)).map cplx).getD (n - D) 0 = cplx symbs[idx[n - D]'(by omega)] := by
      rw [List.getD_eq_getElem _ _ (by simp; omega)]
      simp only [List.getElem_map]
      rw [List.getD_eq_getElem _ _ hii]
    rw [hxg] at hib
    have hu : ‖exp (-(2 * Real.pi * ((n * c.osf : ℕ) * c.fi) : ℝ) * I)‖ = 1 := by
      rw [show -((2 * Real.pi * ((n * c.osf : ℕ) * c.fi) : ℝ) : ℂ) * I = ((-(2 * Real.pi * ((n * c.osf : ℕ) * c.fi)) : ℝ) : ℂ) * I by push_cast; ring]
      exact Complex.norm_exp_ofReal_mul_I _
    have hx : exp ((2 * Real.pi * ((n * c.osf : ℕ) * c.fi) : ℝ) * I) * exp (-(2 * Real.pi * ((n * c.osf : ℕ) * c.fi) : ℝ) * I) = 1 := by
      rw [← Complex.exp_add]; simp
    have hz : r.getD (n * c.osf) 0 - cplx symbs[idx[n - D]'(by omega)] =
        (blocs.flatten.getD (n * c.osf) 0 - exp ((2 * Real.pi * ((n * c.osf : ℕ) * c.fi) : ℝ) * I) * y.getD (n * c.osf) 0) * exp (-(2 * Real.pi * ((n * c.osf : ℕ) * c.fi) : ℝ) * I) +
          (y.getD (n * c.osf) 0 - cplx symbs[idx[n - D]'(by omega)]) := by
      rw [hrec _ ht]
      linear_combination y.getD (n * c.osf) 0 * hx
    have hn1 : ‖r.getD (n * c.osf) 0 - cplx symbs[idx[n - D]'(by omega)]‖ ≤ σ + interference (impulsion h c.osf) c.osf D * A := by
      rw [hz]
      refine (norm_add_le _ _).trans (add_le_add ?_ hib)
      rw [norm_mul, hu, mul_one]
      exact hb2
    have hd := hdec _ hii ((r.getD (n * c.osf) 0).re, (r.getD (n * c.osf) 0).im) (by
      rw [dist2_norme, cplx_re_im]
      refine lt_of_le_of_lt ?_ hi
      gcongr)
    rw [hdz1] at hd
    exact Option.some.inj hd
  have hbl : bits.flatten.length = idx.length * k := by rw [← f3, symdemap_long]
  refine ⟨s, symdemap ((List.range (min D idx.length)).map fun n : ℕ => dz ((r.getD (n * c.osf) 0).re, (r.getD (n * c.osf) 0).im)) k, ?_, ?_⟩
  · rw [e6, hck]
    congr 2
    have hsplit : ((List.range idx.length).map ((fun z : ℂ => dz (z.re, z.im)) ∘ fun m : ℕ => r.getD (m * c.osf) 0)) =
        ((List.range (min D idx.length)).map fun n : ℕ => dz ((r.getD (n * c.osf) 0).re, (r.getD (n * c.osf) 0).im)) ++ idx.take (idx.length - D) := by
      apply List.ext_getElem (by simp; omega)
      intro n h1 h2
      have hn : n < idx.length := by simpa using h1
      rw [List.getElem_append]
      split
      · simp
      · rename_i hc
        have hDn : D ≤ n := by simp at hc; omega
        simp only [List.getElem_map, List.getElem_range, Function.comp_apply, List.length_map, List.length_range, List.getElem_take]
        rw [hdist n hDn hn]
        congr 1
        omega
    rw [hsplit, symdemap_append]
    congr 1
    have hta : bits.flatten = symdemap (idx.take (idx.length - D)) k ++ symdemap (idx.drop (idx.length - D)) k := by
      rw [← symdemap_append, List.take_append_drop, f3]
    rw [hta, List.take_append_of_le_length]
    · symm
      apply List.take_of_length_le
      rw [← hta, hbl, symdemap_long, List.length_take, Nat.min_eq_left (by omega), Nat.sub_mul]
    · rw [← hta, hbl, symdemap_long, List.length_take, Nat.min_eq_left (by omega), Nat.sub_mul]
  · rw [symdemap_long, hbl, List.length_map, List.length_range]
    rcases le_total D idx.length with hc | hc
    · rw [Nat.min_eq_left hc, Nat.min_eq_left (Nat.mul_le_mul_right k hc)]
    · rw [Nat.min_eq_right hc, Nat.min_eq_right (Nat.mul_le_mul_right k hc)]

/-- Non-vacuity: at 2 samples per symbol, a pulse of two symbols without interference one symbol late (its energy is 2 already). -/
example : energie [4/5, 1, 3/5, 0] ≠ 0 ∧ MiseEnForme.coefs (.autre [4/5, 1, 3/5, 0]) 2 = some [4/5, 1, 3/5, 0] ∧ interference (impulsion [4/5, 1, 3/5, 0] 2) 2 1 = 0 := by
  have he : energie [4/5, 1, 3/5, 0] = 2 := by norm_num [energie]
  have hi : impulsion [4/5, 1, 3/5, 0] 2 = [0, 3/5, 1, 4/5] := by
    unfold impulsion
    rw [he]
    have : Real.sqrt ((2 : ℕ) : ℝ) / Real.sqrt 2 = 1 := by
      rw [Nat.cast_ofNat]
      exact div_self (Real.sqrt_ne_zero'.2 (by norm_num))
    rw [this]
    simp [Reechan.complement]
  refine ⟨by rw [he]; norm_num, by simp [MiseEnForme.coefs], ?_⟩
  rw [hi]
  unfold interference
  have : (Finset.range ([0, 3/5, 1, 4/5] : List ℝ).length) = Finset.range 4 := rfl
  have h2 : (Finset.range (([0, 3/5, 1, 4/5] : List ℝ).length / 2)).erase 1 = {0} := by
    simp only [List.length_cons, List.length_nil]
    decide
  rw [h2, Finset.sum_singleton]
  norm_num

end Verif.Telecom
