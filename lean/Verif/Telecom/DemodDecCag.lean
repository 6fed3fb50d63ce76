import Verif.Telecom.DemodDecBoucles
import Verif.Telecom.DemodDecSymb
import Verif.Conception.Ordre1Props
import Mathlib.Analysis.SpecificLimits.Basic

/-!
# C142: automatic gain control of the decision-directed demodulator
-/

namespace Verif.Telecom

open Filtre (Decoupable enchaine boucle)
open Complex (exp I)

/-- `n` symbols received at the intermediate frequency `fi`, with an invariant of the loops. -/
theorem demod_symboles {C : Type} (c : ConfigDec C) (hh : c.horloge = false) (hosf : 0 < c.osf) (hf : (c.forme.coefs c.osf).isSome) (Rel : ℕ → EtatDec C → Prop) (v : ℕ → ℂ) (i : ℕ → ℕ)
    (n : ℕ) (hR : ∀ m, m < n → ∀ s, Rel m s → ∃ y s', c.tourne s.boucle.θ (v m) = some y ∧
      EtatDec.decide c { s with cnt := s.cnt + 1, cnt1 := 0 } (if c.cag then y * (s.gain : ℂ) else y) = some (s', some (i m : ℤ)) ∧ Rel (m + 1) { s' with cnt := s.cnt + c.osf, cnt1 := c.osf - 1 })
    (h0 : Rel 0 (etatInitial c)) (blocs : List (List ℂ)) (hlen : blocs.flatten.length = n * c.osf)
    (hv : ∀ m, m < n → blocs.flatten.getD (m * c.osf) 0 = exp ((2 * Real.pi * ((m * c.osf : ℕ) * c.fi) : ℝ) * I) * v m) :
    ∃ s0 s, DemodDec.cree c = some s0 ∧ enchaine (DemodDec.step c) s0 blocs = some (s, symdemap ((List.range n).map i) c.k) ∧ Rel n s.etat := by
  obtain ⟨h, hf⟩ := Option.isSome_iff_exists.1 hf
  obtain ⟨s0, a, e0, e4⟩ := demod_flux c hosf h hf blocs
  have hr : recu c h blocs.flatten = if c.fi = 0 then blocs.flatten else transpose c.fi blocs.flatten := by simp [recu, hh]
  rw [hr] at e4
  have hrec : ∀ t, t < n * c.osf → (if c.fi = 0 then blocs.flatten else transpose c.fi blocs.flatten).getD t 0 = blocs.flatten.getD t 0 * exp (-(2 * Real.pi * (t * c.fi) : ℝ) * I) := by
    intro t ht
    split
    · rename_i h0; rw [h0]; simp
    · exact transpose_get _ _ _ (by omega)
  have hlr : (if c.fi = 0 then blocs.flatten else transpose c.fi blocs.flatten).length = n * c.osf := by
    split
    · exact hlen
    · rw [transpose_long]; exact hlen
  generalize (if c.fi = 0 then blocs.flatten else transpose c.fi blocs.flatten) = r at e4 hrec hlr
  obtain ⟨s', l, h1, h2, h3, -⟩ := flux_symboles c hh hosf Rel v (fun m => (i m : ℤ)) n hR (etatInitial c) h0 (by show c.osf - 1 + 1 = c.osf; omega) r hlr (fun m hm => by
      have ht : m * c.osf < n * c.osf := Nat.mul_lt_mul_of_pos_right hm hosf
      have e := hrec _ ht
      rw [hv m hm, mul_right_comm, ← Complex.exp_add] at e
      have ht' : m * c.osf < r.length := by omega
      rw [List.getD_eq_getElem _ _ ht'] at e
      rw [List.getElem?_eq_getElem ht', e]
      simp)
  refine ⟨s0, ⟨a, s'⟩, e0, ?_, h3⟩
  rw [e4, h1, Option.map_some, h2, List.map_map]
  rfl

/-! ### The gain -/

/-- The gains of the AGC in front of a constant level `a`. -/
noncomputable def suiteGain (α a : ℝ) : ℕ → ℝ
  | 0 => 1
  | n + 1 => (1 - α) * suiteGain α a n + α * (1 / (a * suiteGain α a n))

theorem suiteGain_borne (α a : ℝ) (h0 : 0 ≤ α) (h1 : α ≤ 1) (ha : 0 < a) (n : ℕ) : min 1 (1 / a) ≤ suiteGain α a n ∧ suiteGain α a n ≤ max 1 (1 / a) := by
  have hm : 0 < min 1 (1 / a) := lt_min one_pos (by positivity)
  have hM : min 1 (1 / a) * max 1 (1 / a) = 1 / a := by rw [min_mul_max, one_mul]
  have hz : min 1 (1 / a) ≤ 1 ∧ 1 ≤ max 1 (1 / a) := ⟨min_le_left _ _, le_max_left _ _⟩
  generalize min 1 (1 / a) = m at *
  generalize max 1 (1 / a) = M at *
  induction n with
  | zero => exact hz
  | succ n ih =>
    obtain ⟨i1, i2⟩ := ih
    have hg : 0 < suiteGain α a n := lt_of_lt_of_le hm i1
    have k1 : m ≤ 1 / (a * suiteGain α a n) := by
      rw [← div_div, ← hM, le_div_iff₀ hg]
      exact mul_le_mul_of_nonneg_left i2 hm.le
    have k2 : 1 / (a * suiteGain α a n) ≤ M := by
      rw [← div_div, ← hM, div_le_iff₀ hg, mul_comm]
      exact mul_le_mul_of_nonneg_left i1 (le_trans hm.le (le_trans i1 i2))
    unfold suiteGain
    constructor <;> nlinarith

/-- Relative error of the gain: it is multiplied at each symbol by a factor which is bounded away from 1. -/
theorem suiteGain_limite (α a : ℝ) (h0 : 0 < α) (h1 : α < 1) (ha : 0 < a) : Filter.Tendsto (suiteGain α a) Filter.atTop (nhds (1 / Real.sqrt a)) := by
  set q := 1 / Real.sqrt a with hq
  have hs : 0 < Real.sqrt a := Real.sqrt_pos.2 ha
  have hq0 : 0 < q := by positivity
  have hqq : 1 / a = q * q := by
    rw [hq, div_mul_div_comm, Real.mul_self_sqrt ha.le, one_mul]
  set m := min 1 (1 / a) with hm
  set M := max 1 (1 / a) with hM
  have hm0 : 0 < m := lt_min one_pos (by positivity)
  have hb := suiteGain_borne α a h0.le h1.le ha
  rw [← hm, ← hM] at hb
  clear_value m M
  have hg : ∀ n, 0 < suiteGain α a n := fun n => lt_of_lt_of_le hm0 (hb n).1
  have hD : 0 < (1 - α) * M + α * q := by
    have : 0 < M := lt_of_lt_of_le (hg 0) (hb 0).2
    have : 0 < 1 - α := by linarith
    positivity
  set ε := min (α * q) ((1 - α) * m) with hε
  have hε0 : 0 < ε := lt_min (by positivity) (mul_pos (by linarith) hm0)
  have e1 : ε ≤ α * q := min_le_left _ _
  have e2 : ε ≤ (1 - α) * m := min_le_right _ _
  clear_value ε
  set ρ := 1 - 2 * ε / ((1 - α) * M + α * q) with hρ
  have hρ1 : ρ < 1 := by
    have : 0 < 2 * ε / ((1 - α) * M + α * q) := by positivity
    linarith
  have hf : ∀ n, |((1 - α) * suiteGain α a n - α * q) / ((1 - α) * suiteGain α a n + α * q)| ≤ ρ := by
    intro n
    have hgn := hg n
    obtain ⟨b1, b2⟩ := hb n
    have hp1 : 0 < (1 - α) * suiteGain α a n := mul_pos (by linarith) hgn
    have hden : 0 < (1 - α) * suiteGain α a n + α * q := by positivity
    have hle : (1 - α) * suiteGain α a n + α * q ≤ (1 - α) * M + α * q := by nlinarith
    have hbase : 2 * ε / ((1 - α) * M + α * q) ≤ 2 * ε / ((1 - α) * suiteGain α a n + α * q) := by
      apply div_le_div_of_nonneg_left (by linarith) hden hle
    have hmul : (1 - α) * m ≤ (1 - α) * suiteGain α a n := mul_le_mul_of_nonneg_left b1 (by linarith)
    rw [abs_le]
    constructor
    · have : -1 + 2 * ε / ((1 - α) * suiteGain α a n + α * q) ≤ ((1 - α) * suiteGain α a n - α * q) / ((1 - α) * suiteGain α a n + α * q) := by
        rw [le_div_iff₀ hden, add_mul, div_mul_cancel₀ _ hden.ne']
        linarith
      linarith
    · have : ((1 - α) * suiteGain α a n - α * q) / ((1 - α) * suiteGain α a n + α * q) ≤ 1 - 2 * ε / ((1 - α) * suiteGain α a n + α * q) := by
        rw [div_le_iff₀ hden, sub_mul 1 (2 * ε / ((1 - α) * suiteGain α a n + α * q)), div_mul_cancel₀ _ hden.ne']
        linarith
      linarith
  have hρ0 : 0 ≤ ρ := le_trans (abs_nonneg _) (hf 0)
  clear_value ρ
  set z : ℕ → ℝ := fun n => (suiteGain α a n - q) / (suiteGain α a n + q) with hz
  have hrec : ∀ n, z (n + 1) = z n * (((1 - α) * suiteGain α a n - α * q) / ((1 - α) * suiteGain α a n + α * q)) := by
    intro n
    have hgn := hg n
    have hgn1 := hg (n + 1)
    have hp1 : 0 < (1 - α) * suiteGain α a n := mul_pos (by linarith) hgn
    have hd1 : suiteGain α a n + q ≠ 0 := by positivity
    have hd2 : (1 - α) * suiteGain α a n + α * q ≠ 0 := by positivity
    have hd3 : suiteGain α a (n + 1) + q ≠ 0 := by positivity
    have hv : suiteGain α a (n + 1) = ((1 - α) * suiteGain α a n ^ 2 + α * (q * q)) / suiteGain α a n := by
      show (1 - α) * suiteGain α a n + α * (1 / (a * suiteGain α a n)) = _
      rw [← div_div, hqq]
      field_simp
    simp only [hz]
    rw [div_mul_div_comm, div_eq_div_iff hd3 (mul_ne_zero hd1 hd2), hv]
    field_simp
    ring
  have hgeo : ∀ n, |z n| ≤ ρ ^ n * |z 0| := by
    intro n
    induction n with
    | zero => simp
    | succ n ih =>
      rw [hrec, abs_mul, pow_succ]
      have := mul_le_mul ih (hf n) (abs_nonneg _) (by positivity)
      linarith
  have hborne : ∀ n, |suiteGain α a n - q| ≤ ρ ^ n * (|z 0| * (M + q)) := by
    intro n
    have hd1 : 0 < suiteGain α a n + q := by have := hg n; positivity
    have : suiteGain α a n - q = z n * (suiteGain α a n + q) := by
      simp only [hz]
      rw [div_mul_cancel₀ _ hd1.ne']
    rw [this, abs_mul, abs_of_pos hd1, ← mul_assoc]
    exact mul_le_mul (hgeo n) (by linarith [(hb n).2]) hd1.le (by positivity)
  rw [tendsto_iff_norm_sub_tendsto_zero]
  refine squeeze_zero (fun _ => norm_nonneg _) hborne ?_
  have := (tendsto_pow_atTop_nhds_zero_of_lt_one hρ0 hρ1).mul_const (|z 0| * (M + q))
  rwa [zero_mul] at this

theorem alpha_borne {C : Type} (c : ConfigDec C) (h : 0 < c.tcCag) : 0 < c.alpha ∧ c.alpha < 1 := by
  unfold ConfigDec.alpha
  rw [Conception.C85_coef.2.2.2.2.1 _ h.ne']
  have h1 := Real.exp_pos (-1 / c.tcCag)
  have h2 : Real.exp (-1 / c.tcCag) < 1 := by
    rw [Real.exp_lt_one_iff]
    exact div_neg_of_neg_of_pos (by norm_num) h
  constructor <;> linarith

theorem exp_polaire (θ : ℝ) : exp (θ * I) = ⟨Real.cos θ, Real.sin θ⟩ := Complex.ext (Complex.exp_ofReal_mul_I_re θ) (Complex.exp_ofReal_mul_I_im θ)

/-- **C142 (AGC).** PSK of any order `M`, received with any level `a` and any residual phase less than half the angle between two symbols, carrier recovery off: whatever the symbols and the cutting, the decisions are exact, the level after the
AGC stays between 1 and `a`, depends only on the number of symbols, and tends to `√a` (and not to 1). -/
theorem C142_cag (M : ℕ) (hM : 2 ≤ M) (c : ConfigDec Unit) (hctx : c.ctx = ctxSansMemoire (pskConstellation M) (pskPlusProche M)) (hosf : 0 < c.osf) (hf : (c.forme.coefs c.osf).isSome)
    (hh : c.horloge = false) (hp : c.porteuse = false) (hg : c.cag = true) (htc : 0 < c.tcCag) (a φ : ℝ) (ha : 0 < a) (ha2 : a ≤ 10 ^ 49) (hφ : |φ| < Real.pi / M) :
    ∃ niveau : ℕ → ℝ, Filter.Tendsto niveau Filter.atTop (nhds (Real.sqrt a)) ∧ (∀ n, min 1 a ≤ niveau n ∧ niveau n ≤ max 1 a) ∧
      ∀ (n : ℕ) (i : ℕ → ℕ), (∀ m, i m < M) → ∀ blocs : List (List ℂ), blocs.flatten.length = n * c.osf →
        (∀ m, m < n → blocs.flatten.getD (m * c.osf) 0 = exp ((2 * Real.pi * ((m * c.osf : ℕ) * c.fi) : ℝ) * I) * ((a : ℂ) * exp (φ * I) * cplx ((pskConstellation M).getD (i m) (0, 0)))) →
        ∃ s0 s, DemodDec.cree c = some s0 ∧ enchaine (DemodDec.step c) s0 blocs = some (s, symdemap ((List.range n).map i) c.k) ∧ a * s.etat.gain = niveau n := by
  obtain ⟨h0, h1⟩ := alpha_borne c htc
  have hbn : ∀ n, min 1 a ≤ a * suiteGain c.alpha a n ∧ a * suiteGain c.alpha a n ≤ max 1 a := by
    intro n
    obtain ⟨b1, b2⟩ := suiteGain_borne c.alpha a h0.le h1.le ha n
    have e1 : a * min 1 (1 / a) = min 1 a := by rw [mul_min_of_nonneg _ _ ha.le, mul_one, mul_one_div_cancel ha.ne', min_comm]
    have e2 : a * max 1 (1 / a) = max 1 a := by rw [mul_max_of_nonneg _ _ ha.le, mul_one, mul_one_div_cancel ha.ne', max_comm]
    rw [← e1, ← e2]
    exact ⟨mul_le_mul_of_nonneg_left b1 ha.le, mul_le_mul_of_nonneg_left b2 ha.le⟩
  refine ⟨fun n => a * suiteGain c.alpha a n, ?_, hbn, fun n i hi blocs hlen hv => ?_⟩
  · have := (suiteGain_limite c.alpha a h0 h1 ha).const_mul a
    rwa [mul_one_div, Real.div_sqrt] at this
  obtain ⟨s0, s, k1, k2, k3⟩ := demod_symboles c hh hosf hf (fun m s => s.gain = suiteGain c.alpha a m) _ i n (by
    intro m hm s hs
    have him : i m < (pskConstellation M).length := by rw [psk_longueur]; exact hi m
    have hL : 0 < a * suiteGain c.alpha a m := lt_of_lt_of_le (lt_min one_pos ha) (hbn m).1
    set L := a * suiteGain c.alpha a m with hLd
    have hpt : (a : ℂ) * exp (φ * I) * cplx ((pskConstellation M).getD (i m) (0, 0)) * (s.gain : ℂ) = ⟨L * Real.cos (φ + anglePsk M (i m)), L * Real.sin (φ + anglePsk M (i m))⟩ := by
      rw [List.getD_eq_getElem _ _ him, psk_elt, hs, exp_polaire, Real.cos_add, Real.sin_add, hLd]
      apply Complex.ext <;> simp [cplx] <;> ring
    have hdec : pskPlusProche M (L * Real.cos (φ + anglePsk M (i m)), L * Real.sin (φ + anglePsk M (i m))) = some (i m) :=
      C94_phase M hM (i m) (hi m) L _ hL (le_trans (hbn m).2 (max_le (by norm_num) ha2)) (by rwa [add_sub_cancel_right])
    have hnorm : ‖(⟨L * Real.cos (φ + anglePsk M (i m)), L * Real.sin (φ + anglePsk M (i m))⟩ : ℂ)‖ = L := by
      have : (⟨L * Real.cos (φ + anglePsk M (i m)), L * Real.sin (φ + anglePsk M (i m))⟩ : ℂ) = (L : ℂ) * exp ((φ + anglePsk M (i m) : ℝ) * I) := by
        rw [exp_polaire]
        apply Complex.ext <;> simp
      rw [this, norm_mul, Complex.norm_exp_ofReal_mul_I, mul_one, Complex.norm_real, Real.norm_of_nonneg hL.le]
    have hsym : ‖cplx (pskConstellation M)[i m]‖ = 1 := by
      have : cplx (pskConstellation M)[i m] = exp ((anglePsk M (i m) : ℝ) * I) := by
        rw [psk_elt, exp_polaire]
        rfl
      rw [this, Complex.norm_exp_ofReal_mul_I]
    have hgn : c.majGain s.gain ⟨L * Real.cos (φ + anglePsk M (i m)), L * Real.sin (φ + anglePsk M (i m))⟩ (cplx (pskConstellation M)[i m]) = some (suiteGain c.alpha a (m + 1)) := by
      unfold ConfigDec.majGain
      rw [if_pos hg, if_neg, hnorm, hsym, hs, div_one, hLd]
      · rfl
      · rintro (h | h)
        · rw [h, norm_zero] at hnorm; linarith
        · rw [h, norm_zero] at hsym; linarith
    have hd := decide_sans_memoire _ _ c hctx { s with cnt := s.cnt + 1, cnt1 := 0 } ⟨L * Real.cos (φ + anglePsk M (i m)), L * Real.sin (φ + anglePsk M (i m))⟩ (i m) him hdec _ hgn
    refine ⟨(a : ℂ) * exp (φ * I) * cplx ((pskConstellation M).getD (i m) (0, 0)), { s with cnt := s.cnt + 1, cnt1 := 0, gain := suiteGain c.alpha a (m + 1), lye := cplx (pskConstellation M)[i m] }, by simp [ConfigDec.tourne, hp], ?_, rfl⟩
    rw [if_pos hg, hpt, hd]
    simp only [hh, hp, Bool.false_eq_true, false_and, and_false, if_false]) rfl blocs hlen hv
  exact ⟨s0, s, k1, k2, by rw [k3]⟩

end Verif.Telecom
