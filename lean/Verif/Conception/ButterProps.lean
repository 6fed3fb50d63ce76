/-
C90: Butterworth designs (analog prototype, digital low-pass and high-pass).

Specification: the squared modulus of the frequency response, the position of the poles.
-/
import Verif.Conception.RiiProps
import Verif.Util.Props
import Mathlib.RingTheory.RootsOfUnity.Complex
import Mathlib.RingTheory.RootsOfUnity.PrimitiveRoots
import Mathlib.Algebra.BigOperators.Intervals

namespace Verif.Rii

open Verif.FracRat Finset

theorem liste_prod (f : ℕ → ℂ) (n : ℕ) : ((List.range n).map f).prod = ∏ k ∈ range n, f k := by
  induction n with
  | zero => simp
  | succ n ih => rw [List.range_succ, List.map_append, List.prod_append, ih, prod_range_succ]; simp

theorem linspace_un (n : ℕ) : Util.linspace (1 : ℝ) n n = (List.range n).map fun k : ℕ => (k : ℝ) + 1 := by
  unfold Util.linspace
  refine List.map_congr_left fun k hk => ?_
  rw [List.mem_range] at hk
  by_cases h : k = 0
  · simp [h]
  · rw [if_neg h]
    have : (n : ℝ) - 1 ≠ 0 := by
      have : (1 : ℝ) < n := by exact_mod_cast (by omega : 1 < n)
      linarith
    field_simp
    ring

/-! ### Factorisation of `x^(2n) + r^(2n)` -/

theorem prod_primitive (N : ℕ) (hN : 0 < N) (ζ : ℂ) (h : IsPrimitiveRoot ζ N) (x y : ℂ) :
    ∏ j ∈ range N, (x - ζ ^ j * y) = x ^ N - y ^ N := by
  have e := h.nthRoots_eq (rfl : y ^ N = y ^ N)
  have hm : (Polynomial.X ^ N - Polynomial.C (y ^ N)).Monic := Polynomial.monic_X_pow_sub_C _ hN.ne'
  have hc : Multiset.card (Polynomial.X ^ N - Polynomial.C (y ^ N)).roots = (Polynomial.X ^ N - Polynomial.C (y ^ N)).natDegree := by
    rw [Polynomial.natDegree_X_pow_sub_C]
    have := congrArg Multiset.card e
    simpa [Polynomial.nthRoots] using this
  have hp := Polynomial.prod_multiset_X_sub_C_of_monic_of_roots_card_eq hm hc
  have hr : (Polynomial.X ^ N - Polynomial.C (y ^ N)).roots = (Multiset.range N).map (ζ ^ · * y) := e
  rw [hr, Multiset.map_map] at hp
  have := congrArg (Polynomial.eval x) hp
  rw [Polynomial.eval_multiset_prod, Multiset.map_map] at this
  simp only [Function.comp_def, Polynomial.eval_sub, Polynomial.eval_X, Polynomial.eval_C, Polynomial.eval_pow] at this
  exact this

/-- The angle `π (2k+1) / (2n)`. -/
noncomputable def angle (n k : ℕ) : ℝ := Real.pi * (2 * k + 1) / (2 * n)

/-- `e^{i π (2k+1) / (2n)}`. -/
noncomputable def racUnite (n k : ℕ) : ℂ := Complex.exp ((angle n k : ℂ) * Complex.I)

theorem prod_racUnite (n : ℕ) (hn : 0 < n) (x r : ℂ) :
    ∏ k ∈ range n, ((x - r * racUnite n k) * (x - r * starRingEnd ℂ (racUnite n k))) = x ^ (2 * n) + r ^ (2 * n) := by
  have hn' : (n : ℂ) ≠ 0 := by exact_mod_cast hn.ne'
  have hprim := Complex.isPrimitiveRoot_exp (2 * n) (by omega)
  have e := prod_primitive (2 * n) (by omega) _ hprim x (Complex.exp ((Real.pi / (2 * n) : ℂ) * Complex.I) * r)
  have hy : (Complex.exp ((Real.pi / (2 * n) : ℂ) * Complex.I) * r) ^ (2 * n) = -r ^ (2 * n) := by
    rw [mul_pow, ← Complex.exp_nat_mul]
    rw [show ((2 * n : ℕ) : ℂ) * ((Real.pi / (2 * n) : ℂ) * Complex.I) = Real.pi * Complex.I by push_cast; field_simp, Complex.exp_pi_mul_I]
    ring
  rw [hy, sub_neg_eq_add] at e
  rw [← e, two_mul n, prod_range_add, ← prod_range_reflect (fun k => x - _ ^ (n + k) * _) n, ← prod_mul_distrib]
  refine prod_congr rfl fun k hk => ?_
  rw [mem_range] at hk
  congr 1
  · congr 1
    unfold racUnite angle
    rw [← Complex.exp_nat_mul, mul_comm r, ← mul_assoc, ← Complex.exp_add]
    congr 2
    push_cast
    field_simp
    ring
  · congr 1
    unfold racUnite angle
    rw [← Complex.exp_conj, ← Complex.exp_nat_mul, mul_comm r, ← mul_assoc, ← Complex.exp_add]
    congr 1
    have : ((n - 1 - k : ℕ) : ℂ) = n - 1 - k := by
      have h1 : ((n - 1 - k : ℕ) : ℂ) + k + 1 = n := by exact_mod_cast (by omega : n - 1 - k + k + 1 = n)
      linear_combination h1
    rw [Complex.exp_eq_exp_iff_exists_int]
    refine ⟨-1, ?_⟩
    simp only [map_mul, Complex.conj_ofReal, Complex.conj_I]
    push_cast
    rw [this]
    field_simp
    ring

theorem angle_intervalle (n k : ℕ) (hk : k < n) : 0 < angle n k ∧ angle n k < Real.pi := by
  have hn : (0 : ℝ) < n := by exact_mod_cast (by omega : 0 < n)
  have hkn : (k : ℝ) + 1 ≤ n := by exact_mod_cast hk
  have := Real.pi_pos
  unfold angle
  constructor
  · positivity
  · rw [div_lt_iff₀ (by positivity)]
    nlinarith

/-- The poles of the Butterworth prototype. -/
theorem poles_butterworth (n : ℕ) (hn : 0 < n) : (butterworth n).denom = Poly.deRacines ((List.range n).map fun k : ℕ => Complex.I * racUnite n k) := by
  have hn' : (n : ℂ) ≠ 0 := by exact_mod_cast hn.ne'
  unfold butterworth
  rw [linspace_un, List.map_map]
  show Poly.deRacines _ = Poly.deRacines _
  congr 1
  refine List.map_congr_left fun k _ => ?_
  simp only [Function.comp_def]
  unfold racUnite angle
  rw [← Complex.exp_pi_div_two_mul_I, ← Complex.exp_add, Complex.exp_pi_div_two_mul_I]
  congr 1
  push_cast
  field_simp
  ring

theorem valeur_butterworth (n : ℕ) (hn : 0 < n) (s : ℂ) : valeur (butterworth n) s = (∏ k ∈ range n, (s - Complex.I * racUnite n k))⁻¹ := by
  rw [valeur_racines _ rfl rfl, poles_butterworth n hn]
  simp [butterworth, numerVide, Poly.deRacines, List.map_map, Function.comp_def, liste_prod]

theorem normSq_pole (ω : ℝ) (q : ℂ) : ((Complex.normSq ((ω : ℂ) * Complex.I - Complex.I * q) : ℝ) : ℂ) = (ω - 1 * q) * (ω - 1 * starRingEnd ℂ q) := by
  rw [← Complex.mul_conj]
  simp only [map_sub, map_mul, Complex.conj_ofReal, Complex.conj_I]
  linear_combination -(ω - q) * (ω - starRingEnd ℂ q) * Complex.I_sq

/-- **C90 (analog prototype).** For every order `n ≥ 1` the Butterworth prototype has `n` poles of modulus 1 and negative real part, gain 1 at zero frequency and
the maximally flat response `|H(iω)|² = 1 / (1 + ω^(2n))`. -/
theorem C90_prototype (n : ℕ) (hn : 0 < n) : (butterworth n).denom.coefs.length = n ∧ (∀ p ∈ (butterworth n).denom.coefs, ‖p‖ = 1 ∧ p.re < 0) ∧
    valeur (butterworth n) 0 = 1 ∧ ∀ ω : ℝ, Complex.normSq (valeur (butterworth n) (ω * Complex.I)) = 1 / (1 + ω ^ (2 * n)) := by
  have hn' : (n : ℂ) ≠ 0 := by exact_mod_cast hn.ne'
  refine ⟨?_, ?_, ?_, fun ω => ?_⟩
  · rw [poles_butterworth n hn]
    simp [Poly.deRacines]
  · rw [poles_butterworth n hn]
    intro p hp
    simp only [Poly.deRacines, List.mem_map, List.mem_range] at hp
    obtain ⟨k, hk, rfl⟩ := hp
    have := angle_intervalle n k hk
    constructor
    · unfold racUnite
      rw [norm_mul, Complex.norm_I, Complex.norm_exp_ofReal_mul_I, one_mul]
    · unfold racUnite
      rw [Complex.I_mul_re, Complex.exp_ofReal_mul_I_im]
      linarith [Real.sin_pos_of_pos_of_lt_pi this.1 this.2]
  · rw [valeur_butterworth n hn]
    have e : ∀ k ∈ range n, (0 : ℂ) - Complex.I * racUnite n k = Complex.exp (((angle n k : ℂ) - Real.pi / 2) * Complex.I) := by
      intro k _
      unfold racUnite
      rw [sub_mul, Complex.exp_sub, Complex.exp_pi_div_two_mul_I]
      rw [eq_div_iff Complex.I_ne_zero]
      linear_combination -Complex.exp ((angle n k : ℂ) * Complex.I) * Complex.I_sq
    rw [prod_congr rfl e, ← Complex.exp_sum, ← sum_mul, sum_sub_distrib]
    have hs : ∑ k ∈ range n, (angle n k : ℂ) = n * (Real.pi / 2) := by
      have : ∀ m : ℕ, ∑ k ∈ range m, (2 * (k : ℂ) + 1) = (m : ℂ) ^ 2 := by
        intro m
        induction m with
        | zero => simp
        | succ m ih => rw [sum_range_succ, ih]; push_cast; ring
      have h2 : ∀ k ∈ range n, (angle n k : ℂ) = (Real.pi / (2 * n) : ℂ) * (2 * (k : ℂ) + 1) := by
        intro k _
        unfold angle
        push_cast
        ring
      rw [sum_congr rfl h2, ← mul_sum, this]
      field_simp
    rw [hs]
    simp
  · rw [valeur_butterworth n hn, map_inv₀, map_prod, one_div]
    congr 1
    have := prod_racUnite n hn ω 1
    have h2 : ((∏ k ∈ range n, Complex.normSq ((ω : ℂ) * Complex.I - Complex.I * racUnite n k) : ℝ) : ℂ) = ((1 + ω ^ (2 * n) : ℝ) : ℂ) := by
      rw [Complex.ofReal_prod]
      simp only [normSq_pole]
      rw [this]
      push_cast
      ring
    exact_mod_cast h2

/-! ### Digital designs -/

theorem pulsation_coupure (fc : ℝ) (h0 : 0 < fc) (h1 : fc < 1 / 2) : wdVersWa (2 * Real.pi * fc) 1 = 2 * Real.tan (Real.pi * fc) ∧
    0 < Real.tan (Real.pi * fc) := by
  have := Real.pi_pos
  constructor
  · unfold wdVersWa
    rw [show 2 * Real.pi * fc / (2 * 1) = Real.pi * fc by ring]
    ring
  · exact Real.tan_pos_of_pos_of_lt_pi_div_two (by positivity) (by nlinarith)

/-- The digital low-pass deduced from an analog prototype (`design_riia`, given the prototype). -/
noncomputable def numerique (ha : FRat ℂ) (fc : ℝ) (t : TypeFiltre) : Option (FRat ℂ) := (riiaLaplaceDe ha fc t).bind fun hl => trfBilineaire hl 1

theorem ne_deux (r : ℂ) (h : r.re ≤ 0) : r ≠ 2 := by
  rintro rfl
  norm_num at h

/-- **C89 (digital low-pass).** From any stable proper analog prototype (poles of negative real part, zeros of real part at most zero), `design_riia` gives for every
cut-off frequency `0 < fc < 1/2` a digital filter with the same number of poles, all inside the unit disk, whose response at the pulsation `θ` is the
response of the prototype at `tan(θ/2) / tan(π fc)`: the edge of the prototype (1 rad/s) is mapped exactly to `fc`. -/
theorem C89_numerique_bas (ha : FRat ℂ) (fc : ℝ) (h0 : 0 < fc) (h1 : fc < 1 / 2) (hn : ha.numer.racines = true) (hd : ha.denom.racines = true)
    (hp : ∀ r ∈ ha.denom.coefs, r.re < 0) (hz : ∀ r ∈ ha.numer.coefs, r.re ≤ 0) (hl : ha.numer.coefs.length ≤ ha.denom.coefs.length) :
    ∃ H, numerique ha fc .passeBas = some H ∧ H.denom.coefs.length = ha.denom.coefs.length ∧ (∀ p ∈ H.denom.coefs, ‖p‖ < 1) ∧
      valeur H 1 = valeur ha 0 ∧
      ∀ θ : ℝ, Real.cos (θ / 2) ≠ 0 →
        valeur H (Complex.exp ((θ : ℂ) * Complex.I)) = valeur ha (((Real.tan (θ / 2) / Real.tan (Real.pi * fc) : ℝ) : ℂ) * Complex.I) := by
  obtain ⟨hw, ht⟩ := pulsation_coupure fc h0 h1
  set wa := wdVersWa (2 * Real.pi * fc) 1 with hwa
  have hw0 : 0 < wa := by rw [hw]; linarith
  obtain ⟨Hl, e1, rn, rd, hv⟩ := C89_passe_bas ha wa hw0.ne' hn hd
  have e1' := e1
  unfold pbanVersPba at e1'
  simp only [hn, hd, Bool.and_self, if_true, Option.some.injEq] at e1'
  have cn : Hl.numer.coefs = ha.numer.coefs.map (· * (wa : ℂ)) := by rw [← e1']
  have cd : Hl.denom.coefs = ha.denom.coefs.map (· * (wa : ℂ)) := by rw [← e1']
  have hp' : ∀ r ∈ Hl.denom.coefs, r.re < 0 := by
    rw [cd]
    intro r hr
    obtain ⟨q, hq, rfl⟩ := List.mem_map.1 hr
    rw [Complex.re_mul_ofReal]
    exact mul_neg_of_neg_of_pos (hp q hq) hw0
  have hz' : ∀ r ∈ Hl.numer.coefs, r.re ≤ 0 := by
    rw [cn]
    intro r hr
    obtain ⟨q, hq, rfl⟩ := List.mem_map.1 hr
    rw [Complex.re_mul_ofReal]
    exact mul_nonpos_of_nonpos_of_nonneg (hz q hq) hw0.le
  have hl' : Hl.numer.coefs.length ≤ Hl.denom.coefs.length := by rw [cn, cd]; simpa using hl
  obtain ⟨H, e2, _, l2, _, st⟩ := C88_stable Hl 1 one_pos rn rd hp' hl'
  obtain ⟨H', e3, hr⟩ := C88_reponse Hl rn rd (fun r hr => ne_deux r (hz' r hr)) (fun r hr => ne_deux r (hp' r hr).le)
  rw [e2, Option.some.injEq] at e3
  subst e3
  have hpt : ∀ θ : ℝ, Real.cos (θ / 2) ≠ 0 →
        valeur H (Complex.exp ((θ : ℂ) * Complex.I)) = valeur ha (((Real.tan (θ / 2) / Real.tan (Real.pi * fc) : ℝ) : ℂ) * Complex.I) := by
    intro θ hθ
    rw [hr θ hθ, hv, hw]
    congr 1
    unfold wdVersWa
    rw [show θ / (2 * 1) = θ / 2 by ring]
    have ht' : ((Real.tan (Real.pi * fc) : ℝ) : ℂ) ≠ 0 := by exact_mod_cast ht.ne'
    simp only [Complex.ofReal_mul, Complex.ofReal_div, Complex.ofReal_one, Complex.ofReal_ofNat]
    field_simp
  refine ⟨H, ?_, ?_, st, ?_, hpt⟩
  · unfold numerique riiaLaplaceDe
    rw [← hwa, e1, Option.bind_some, e2]
  · rw [l2, cd, List.length_map]
  · have := hpt 0 (by simp)
    simpa using this

theorem re_inverse (q : ℂ) (wc : ℝ) : (q⁻¹ * (wc : ℂ)).re = q.re / Complex.normSq q * wc := by
  rw [Complex.re_mul_ofReal, Complex.inv_re]

/-- **C89 (digital high-pass, up to the sign).** Same statement for the high-pass, whose response at the pulsation `θ ≠ 0` is the response of the prototype at
`-tan(π fc) / tan(θ/2)`, up to the sign error of `C89_passe_haut_refute`. -/
theorem C89_numerique_haut_partial (ha : FRat ℂ) (fc : ℝ) (h0 : 0 < fc) (h1 : fc < 1 / 2) (hn : ha.numer.racines = true) (hd : ha.denom.racines = true)
    (hp : ∀ r ∈ ha.denom.coefs, r.re < 0) (hz : ∀ r ∈ ha.numer.coefs, r.re ≤ 0) (hz0 : ∀ r ∈ ha.numer.coefs, r ≠ 0)
    (hl : ha.numer.coefs.length ≤ ha.denom.coefs.length) :
    ∃ H, numerique ha fc .passeHaut = some H ∧ H.denom.coefs.length = ha.denom.coefs.length ∧ (∀ p ∈ H.denom.coefs, ‖p‖ < 1) ∧
      ∀ θ : ℝ, Real.cos (θ / 2) ≠ 0 → Real.sin (θ / 2) ≠ 0 →
        valeur H (Complex.exp ((θ : ℂ) * Complex.I)) = (-1) ^ (ha.numer.coefs.length + ha.denom.coefs.length) *
          valeur ha (((-(Real.tan (Real.pi * fc) / Real.tan (θ / 2)) : ℝ) : ℂ) * Complex.I) := by
  obtain ⟨hw, ht⟩ := pulsation_coupure fc h0 h1
  set wa := wdVersWa (2 * Real.pi * fc) 1 with hwa
  have hw0 : 0 < wa := by rw [hw]; linarith
  have hp0 : ∀ r ∈ ha.denom.coefs, r ≠ 0 := fun r hr h => by
    have := hp r hr
    rw [h] at this
    exact lt_irrefl _ this
  obtain ⟨Hl, e1, rn, rd, hv⟩ := C89_passe_haut_partial ha wa hw0.ne' hn hd hz0 hp0
  have e1' := e1
  unfold pbanVersPha at e1'
  simp only [hn, hd, Bool.and_self, if_true, Option.some.injEq] at e1'
  have cn : Hl.numer.coefs = ha.numer.coefs.map (fun r : ℂ => r⁻¹ * wa) ++ List.replicate (ha.denom.coefs.length - ha.numer.coefs.length) 0 := by
    rw [← e1']; rfl
  have cd : Hl.denom.coefs = ha.denom.coefs.map (fun r : ℂ => r⁻¹ * wa) := by
    rw [← e1']
    simp [inversePoly, Nat.sub_eq_zero_of_le hl]
  have hp' : ∀ r ∈ Hl.denom.coefs, r.re < 0 := by
    rw [cd]
    intro r hr
    obtain ⟨q, hq, rfl⟩ := List.mem_map.1 hr
    rw [re_inverse]
    exact mul_neg_of_neg_of_pos (div_neg_of_neg_of_pos (hp q hq) (Complex.normSq_pos.2 (hp0 q hq))) hw0
  have hz' : ∀ r ∈ Hl.numer.coefs, r.re ≤ 0 := by
    rw [cn]
    intro r hr
    rcases List.mem_append.1 hr with hr | hr
    · obtain ⟨q, hq, rfl⟩ := List.mem_map.1 hr
      rw [re_inverse]
      exact mul_nonpos_of_nonpos_of_nonneg (div_nonpos_of_nonpos_of_nonneg (hz q hq) (Complex.normSq_nonneg _)) hw0.le
    · rw [(List.mem_replicate.1 hr).2]
      simp
  have hl' : Hl.numer.coefs.length ≤ Hl.denom.coefs.length := by
    rw [cn, cd]
    simp
    omega
  obtain ⟨H, e2, _, l2, _, st⟩ := C88_stable Hl 1 one_pos rn rd hp' hl'
  obtain ⟨H', e3, hr⟩ := C88_reponse Hl rn rd (fun r hr => ne_deux r (hz' r hr)) (fun r hr => ne_deux r (hp' r hr).le)
  rw [e2, Option.some.injEq] at e3
  subst e3
  refine ⟨H, ?_, ?_, st, fun θ hc hs => ?_⟩
  · unfold numerique riiaLaplaceDe
    rw [← hwa, e1, Option.bind_some, e2]
  · rw [l2, cd, List.length_map]
  · have htθ : Real.tan (θ / 2) ≠ 0 := by
      rw [Real.tan_eq_sin_div_cos]
      exact div_ne_zero hs hc
    have htθ' : ((Real.tan (θ / 2) : ℝ) : ℂ) ≠ 0 := by exact_mod_cast htθ
    have e4 : wdVersWa θ 1 = 2 * Real.tan (θ / 2) := by
      unfold wdVersWa
      rw [show θ / (2 * 1) = θ / 2 by ring]
      ring
    rw [hr θ hc, e4, hv, hw]
    · congr 2
      simp only [Complex.ofReal_mul, Complex.ofReal_div, Complex.ofReal_ofNat, Complex.ofReal_neg]
      have hI := Complex.I_ne_zero
      field_simp
      linear_combination ((Real.tan (Real.pi * fc) : ℝ) : ℂ) * Complex.I_sq
    · simp only [Complex.ofReal_mul, Complex.ofReal_ofNat]
      exact mul_ne_zero (mul_ne_zero two_ne_zero htθ') Complex.I_ne_zero

/-- **C90 (digital low-pass).** For every order `n ≥ 1` and cut-off frequency `0 < fc < 1/2`, `design_riia(n, "lp", "butt", fc)` returns a filter with `n` poles inside
the unit disk, gain 1 at zero frequency and `|H(e^{iθ})|² = 1 / (1 + (tan(θ/2)/tan(π fc))^(2n))`; in particular -3 dB (1/2) exactly at `fc`. -/
theorem C90_passe_bas (n : ℕ) (hn : 0 < n) (fc δ₁ δ₂ : ℝ) (h0 : 0 < fc) (h1 : fc < 1 / 2) :
    ∃ H, riiaChaine n "lp" "butt" fc δ₁ δ₂ = some H ∧ H.denom.coefs.length = n ∧ (∀ p ∈ H.denom.coefs, ‖p‖ < 1) ∧ valeur H 1 = 1 ∧
      (∀ θ : ℝ, Real.cos (θ / 2) ≠ 0 → Complex.normSq (valeur H (Complex.exp ((θ : ℂ) * Complex.I))) =
        1 / (1 + (Real.tan (θ / 2) / Real.tan (Real.pi * fc)) ^ (2 * n))) ∧
      Complex.normSq (valeur H (Complex.exp (((2 * Real.pi * fc : ℝ) : ℂ) * Complex.I))) = 1 / 2 := by
  obtain ⟨bl, bp, b0, bω⟩ := C90_prototype n hn
  obtain ⟨_, ht⟩ := pulsation_coupure fc h0 h1
  obtain ⟨H, e, l, st, v0, vθ⟩ := C89_numerique_bas (butterworth n) fc h0 h1 rfl rfl (fun r hr => (bp r hr).2) (by simp [butterworth, numerVide])
    (by simp [butterworth, numerVide])
  have hθ : ∀ θ : ℝ, Real.cos (θ / 2) ≠ 0 → Complex.normSq (valeur H (Complex.exp ((θ : ℂ) * Complex.I))) =
        1 / (1 + (Real.tan (θ / 2) / Real.tan (Real.pi * fc)) ^ (2 * n)) := fun θ h => by rw [vθ θ h, bω]
  refine ⟨H, e, by rw [l, bl], st, by rw [v0, b0], hθ, ?_⟩
  have hpi := Real.pi_pos
  have e2 : 2 * Real.pi * fc / 2 = Real.pi * fc := by ring
  rw [hθ, e2, div_self ht.ne', one_pow]
  · norm_num
  · rw [e2]
    exact (Real.cos_pos_of_mem_Ioo ⟨by nlinarith, by nlinarith⟩).ne'

/-- **C90 (digital high-pass).** Same for `design_riia(n, "hp", "butt", fc)`: `|H(e^{iθ})|² = 1 / (1 + (tan(π fc)/tan(θ/2))^(2n))`. -/
theorem C90_passe_haut (n : ℕ) (hn : 0 < n) (fc δ₁ δ₂ : ℝ) (h0 : 0 < fc) (h1 : fc < 1 / 2) :
    ∃ H, riiaChaine n "hp" "butt" fc δ₁ δ₂ = some H ∧ H.denom.coefs.length = n ∧ (∀ p ∈ H.denom.coefs, ‖p‖ < 1) ∧
      ∀ θ : ℝ, Real.cos (θ / 2) ≠ 0 → Real.sin (θ / 2) ≠ 0 → Complex.normSq (valeur H (Complex.exp ((θ : ℂ) * Complex.I))) =
        1 / (1 + (Real.tan (Real.pi * fc) / Real.tan (θ / 2)) ^ (2 * n)) := by
  obtain ⟨bl, bp, b0, bω⟩ := C90_prototype n hn
  obtain ⟨H, e, l, st, vθ⟩ := C89_numerique_haut_partial (butterworth n) fc h0 h1 rfl rfl (fun r hr => (bp r hr).2) (by simp [butterworth, numerVide])
    (by simp [butterworth, numerVide]) (by simp [butterworth, numerVide])
  refine ⟨H, e, by rw [l, bl], st, fun θ hc hs => ?_⟩
  rw [vθ θ hc hs, map_mul, bω, map_pow, Complex.normSq_neg, map_one, one_pow, one_mul, (even_two_mul n).neg_pow]

theorem produit_nyquist (l : List ℂ) (hl : ∀ r ∈ l, r ≠ 2) :
    produitGain 1 l * ((l.map (racineBilineaire 1)).map fun r : ℂ => -1 - r).prod = (-4) ^ l.length := by
  induction l with
  | nil => simp [produitGain]
  | cons a l ih =>
    have ih := ih fun r hr => hl r (List.mem_cons_of_mem _ hr)
    have ha : -a + 2 ≠ 0 := by
      intro h
      exact hl a (by simp) (by linear_combination -h)
    have e : (2 - a) * (-1 - racineBilineaire 1 a) = -4 := by
      unfold racineBilineaire
      simp only [Complex.ofReal_one, mul_one]
      field_simp
      ring
    simp only [produitGain, List.map_cons, List.prod_cons, List.length_cons, pow_succ, Complex.ofReal_one, mul_one] at ih ⊢
    linear_combination (l.map fun r : ℂ => 2 - r).prod * ((l.map (racineBilineaire 1)).map fun r : ℂ => -1 - r).prod * e - 4 * ih

/-- **C88 (Nyquist frequency).** At `z = -1` the bilinear transform takes the limit of the analog function at infinity: 0 with fewer zeros than poles, the quotient
of the leading coefficients with as many zeros as poles. -/
theorem C88_nyquist (ha : FRat ℂ) (hn : ha.numer.racines = true) (hd : ha.denom.racines = true)
    (h1 : ∀ r ∈ ha.numer.coefs, r ≠ 2) (h2 : ∀ r ∈ ha.denom.coefs, r ≠ 2) :
    ∃ hz, trfBilineaire ha 1 = some hz ∧ (ha.numer.coefs.length < ha.denom.coefs.length → valeur hz (-1) = 0) ∧
      (ha.numer.coefs.length = ha.denom.coefs.length → valeur hz (-1) = ha.numer.mlt / ha.denom.mlt) := by
  refine ⟨_, bilineaire_forme ha 1 hn hd, fun h => ?_, fun h => ?_⟩
  · rw [valeur_racines _ rfl rfl]
    have h3 : ha.denom.coefs.length - ha.numer.coefs.length ≠ 0 := by omega
    simp [h3]
  · rw [valeur_racines _ rfl rfl]
    simp only [h, Nat.sub_self, List.replicate_zero, List.append_nil]
    have e1 := produit_nyquist _ h1
    have e2 := produit_nyquist _ h2
    have g1 := prod_gain_ne 1 ha.numer.coefs (by simpa using h1)
    have g2 := prod_gain_ne 1 ha.denom.coefs (by simpa using h2)
    rw [h] at e1
    have h4 : ((-4 : ℂ)) ^ ha.denom.coefs.length ≠ 0 := pow_ne_zero _ (by norm_num)
    generalize produitGain 1 ha.numer.coefs = A at *
    generalize produitGain 1 ha.denom.coefs = B at *
    generalize ((ha.numer.coefs.map (racineBilineaire 1)).map fun r : ℂ => -1 - r).prod = U at *
    generalize ((ha.denom.coefs.map (racineBilineaire 1)).map fun r : ℂ => -1 - r).prod = V at *
    have hV : V ≠ 0 := fun h0 => h4 (by rw [← e2, h0, mul_zero])
    rw [← e2] at e1
    by_cases hm : ha.denom.mlt = 0
    · simp [hm]
    · field_simp
      linear_combination ha.numer.mlt * e1

theorem produit_poles (n : ℕ) (hn : 0 < n) : (butterworth n).denom.coefs.prod = (-1) ^ n := by
  have e := (C90_prototype n hn).2.2.1
  rw [valeur_butterworth n hn, inv_eq_one] at e
  rw [poles_butterworth n hn]
  simp only [Poly.deRacines]
  rw [liste_prod]
  have : ∏ k ∈ range n, (0 - Complex.I * racUnite n k) = (-1) ^ n * ∏ k ∈ range n, Complex.I * racUnite n k := by
    rw [← Finset.card_range n, ← prod_const, Finset.card_range, ← prod_mul_distrib]
    exact prod_congr rfl fun k _ => by ring
  rw [this] at e
  have h2 : ((-1 : ℂ)) ^ n * (-1) ^ n = 1 := by rw [← mul_pow]; simp
  linear_combination (-1) ^ n * e - (∏ k ∈ range n, Complex.I * racUnite n k) * h2

/-- **C90 (sign of the high-pass, refuted).** For an odd order the Butterworth high-pass has the gain -1 at the Nyquist frequency: the passband is inverted. -/
theorem C90_signe_refute (n : ℕ) (hn : 0 < n) (fc δ₁ δ₂ : ℝ) (h0 : 0 < fc) (h1 : fc < 1 / 2) :
    ∃ H, riiaChaine n "hp" "butt" fc δ₁ δ₂ = some H ∧ valeur H (-1) = (-1) ^ n := by
  obtain ⟨hw, ht⟩ := pulsation_coupure fc h0 h1
  obtain ⟨bl, bp, _, _⟩ := C90_prototype n hn
  have hw0 : 0 < wdVersWa (2 * Real.pi * fc) 1 := by rw [hw]; linarith
  have hp0 : ∀ r ∈ (butterworth n).denom.coefs, r ≠ 0 := fun r hr h => by
    have := (bp r hr).2
    rw [h] at this
    exact lt_irrefl _ this
  let Hl : FRat ℂ := ⟨inversePoly (butterworth n).numer (wdVersWa (2 * Real.pi * fc) 1) ((butterworth n).denom.coefs.length - 0),
    inversePoly (butterworth n).denom (wdVersWa (2 * Real.pi * fc) 1) (0 - (butterworth n).denom.coefs.length)⟩
  obtain ⟨H, e, _, h⟩ := C88_nyquist Hl rfl rfl
    (by
      intro r hr
      simp only [Hl, inversePoly, butterworth, numerVide, List.map_nil, List.nil_append] at hr
      rw [(List.mem_replicate.1 hr).2]
      norm_num)
    (by
      intro r hr
      simp only [Hl, inversePoly, Nat.zero_sub, List.replicate_zero, List.append_nil] at hr
      obtain ⟨q, hq, rfl⟩ := List.mem_map.1 hr
      refine ne_deux _ ?_
      rw [re_inverse]
      exact mul_nonpos_of_nonpos_of_nonneg (div_nonpos_of_nonpos_of_nonneg (bp q hq).2.le (Complex.normSq_nonneg _)) hw0.le)
  refine ⟨H, ?_, ?_⟩
  · exact e
  · rw [h (by simp [Hl, inversePoly, butterworth, numerVide])]
    have e1 : Hl.numer.mlt = 1 := by simp [Hl, inversePoly, butterworth, numerVide]
    have e2 : Hl.denom.mlt = (-1) ^ n := by
      show (butterworth n).denom.mlt * (butterworth n).denom.coefs.prod = _
      rw [produit_poles n hn]
      simp [butterworth, Poly.deRacines]
    rw [e1, e2]
    have h2 : ((-1 : ℂ)) ^ n * (-1) ^ n = 1 := by rw [← mul_pow]; simp
    rw [div_eq_iff (pow_ne_zero _ (by norm_num))]
    exact h2.symm

/-- **C90 (filter types, refuted).** `design_riia` accepts the names of four filter types but only builds low-pass and high-pass filters: for a band-pass or a
band-stop filter it throws, whatever the prototype. And `"pb"` designates the low-pass, never the band-pass. -/
theorem C90_types_refute (n : ℕ) (p : String) (fc δ₁ δ₂ : ℝ) : riiaChaine n "bp" p fc δ₁ δ₂ = none ∧ riiaChaine n "sb" p fc δ₁ δ₂ = none ∧
    parseTf "bp" = some .passeBande ∧ parseTf "sb" = some .coupeBande ∧ parseTf "pb" = some .passeBas := by
  have a : parseTf "bp" = some .passeBande := by decide
  have b : parseTf "sb" = some .coupeBande := by decide
  refine ⟨?_, ?_, a, b, by decide⟩
  · unfold riiaChaine riia
    rw [a]
    simp [riiaLaplaceDe]
  · unfold riiaChaine riia
    rw [b]
    simp [riiaLaplaceDe]

end Verif.Rii
