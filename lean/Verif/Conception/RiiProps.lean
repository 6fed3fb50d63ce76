/-
C88: bilinear transform (frequency maps, value, stability). C89: analog low-pass to low-pass / high-pass transformations.

Specification: `H.valeur s`, the value of the rational function at a point, and the modulus of the roots of the denominator.
-/
import Verif.Conception.Rii
import Verif.Poly.Props
import Mathlib.Analysis.Complex.Norm
import Mathlib.Tactic.Positivity

namespace Verif.Rii

open Verif.FracRat

/-- Value of a rational function at a complex point: the quotient of the two polynomials in factored form. -/
noncomputable def valeur (H : FRat ℂ) (s : ℂ) : ℂ := H.horner id s

/-- The polynomial given by its roots. -/
theorem horner_racines (p : Poly ℂ) (h : p.racines = true) (s : ℂ) : p.horner id s = p.mlt * (p.coefs.map fun r : ℂ => s - r).prod := by
  have := C30_horner (RingHom.id ℂ) p s
  simpa [Poly.val, h, valRacines] using this

theorem valeur_racines (H : FRat ℂ) (hn : H.numer.racines = true) (hd : H.denom.racines = true) (s : ℂ) :
    valeur H s = (H.numer.mlt * (H.numer.coefs.map fun r : ℂ => s - r).prod) / (H.denom.mlt * (H.denom.coefs.map fun r : ℂ => s - r).prod) := by
  unfold valeur FRat.horner
  rw [horner_racines _ hn, horner_racines _ hd]

/-! ### Frequency maps -/

/-- **C88 (frequencies).** The analog / digital frequency maps are inverse of each other: `ωa_vers_ωd` and `ωd_vers_ωa` for every sampling frequency
`fe > 0` and every digital pulsation below the Nyquist pulsation, `fa_vers_fd` and `fd_vers_fa` for every normalised frequency below 1/2. -/
theorem C88_frequences (fe : ℝ) (hfe : 0 < fe) :
    (∀ wa, wdVersWa (waVersWd wa fe) fe = wa) ∧ (∀ wd, |wd| < Real.pi * fe → waVersWd (wdVersWa wd fe) fe = wd) ∧
    (∀ fa, fdVersFa (faVersFd fa) = fa) ∧ (∀ fd, |fd| < 1 / 2 → faVersFd (fdVersFa fd) = fd) := by
  have hpi := Real.pi_pos
  refine ⟨fun wa => ?_, fun wd h => ?_, fun fa => ?_, fun fd h => ?_⟩
  · unfold wdVersWa waVersWd
    rw [mul_div_cancel_left₀ _ (by positivity), Real.tan_arctan]
    field_simp
  · unfold wdVersWa waVersWd
    rw [abs_lt] at h
    rw [mul_div_cancel_left₀ _ (by positivity), Real.arctan_tan]
    · field_simp
    · rw [lt_div_iff₀ (by positivity)]
      nlinarith
    · rw [div_lt_iff₀ (by positivity)]
      nlinarith
  · unfold fdVersFa faVersFd
    rw [mul_div_cancel₀ _ hpi.ne', Real.tan_arctan]
    field_simp
  · unfold fdVersFa faVersFd
    rw [abs_lt] at h
    rw [mul_div_cancel₀ _ hpi.ne', Real.arctan_tan]
    · field_simp
    · nlinarith
    · nlinarith

/-- Beyond the Nyquist pulsation the round trip fails: `ωd_vers_ωa` is not injective. -/
theorem C88_frequences_refute : ∃ wd, Real.pi * 1 < wd ∧ waVersWd (wdVersWa wd 1) 1 ≠ wd := by
  refine ⟨2 * Real.pi, by linarith [Real.pi_pos], ?_⟩
  unfold wdVersWa waVersWd
  have : Real.tan (2 * Real.pi / (2 * 1)) = 0 := by
    rw [show 2 * Real.pi / (2 * 1) = Real.pi by ring, Real.tan_pi]
  rw [this]
  simp [Real.pi_ne_zero]

/-! ### Bilinear transform -/

theorem produit_bilineaire (fe : ℝ) (z : ℂ) (hz : z + 1 ≠ 0) (l : List ℂ) (hl : ∀ r ∈ l, r ≠ 2 * (fe : ℂ)) :
    (l.map fun r : ℂ => 2 * (fe : ℂ) * (z - 1) / (z + 1) - r).prod * (z + 1) ^ l.length =
    produitGain fe l * ((l.map (racineBilineaire fe)).map fun r : ℂ => z - r).prod := by
  induction l with
  | nil => simp [produitGain]
  | cons a l ih =>
    have ih := ih fun r hr => hl r (List.mem_cons_of_mem _ hr)
    have ha : -a + 2 * (fe : ℂ) ≠ 0 := by
      intro h
      exact hl a (by simp) (by linear_combination -h)
    have e : (2 * (fe : ℂ) * (z - 1) / (z + 1) - a) * (z + 1) = (2 * (fe : ℂ) - a) * (z - racineBilineaire fe a) := by
      unfold racineBilineaire
      field_simp
      ring
    simp only [produitGain, List.map_cons, List.prod_cons, List.length_cons, pow_succ] at ih ⊢
    linear_combination (l.map fun r : ℂ => 2 * (fe : ℂ) * (z - 1) / (z + 1) - r).prod * (z + 1) ^ l.length * e +
      (2 * (fe : ℂ) - a) * (z - racineBilineaire fe a) * ih

theorem prod_gain_ne (fe : ℝ) (l : List ℂ) (hl : ∀ r ∈ l, r ≠ 2 * (fe : ℂ)) : produitGain fe l ≠ 0 := by
  unfold produitGain
  refine List.prod_ne_zero ?_
  simp only [List.mem_map, not_exists, not_and]
  intro r hr h
  exact hl r hr (by linear_combination -h)

theorem prod_replicate (k : ℕ) (z c : ℂ) : ((List.replicate k c).map fun r : ℂ => z - r).prod = (z - c) ^ k := by
  simp

theorem mul_deRacines (p : Poly ℂ) (h : p.racines = true) (r : List ℂ) :
    p.mul (Poly.deRacines r) = { coefs := p.coefs ++ r, racines := true, mlt := p.mlt * 1 } := by
  simp [Poly.mul, h, Poly.deRacines]

/-- The roots and multipliers of the result. -/
theorem bilineaire_forme (ha : FRat ℂ) (fe : ℝ) (hn : ha.numer.racines = true) (hd : ha.denom.racines = true) :
    trfBilineaire ha fe = some ⟨⟨ha.numer.coefs.map (racineBilineaire fe) ++ List.replicate (ha.denom.coefs.length - ha.numer.coefs.length) (-1),
        true, ha.numer.mlt * (produitGain fe ha.numer.coefs / produitGain fe ha.denom.coefs)⟩,
      ⟨ha.denom.coefs.map (racineBilineaire fe) ++ List.replicate (ha.numer.coefs.length - ha.denom.coefs.length) (-1), true, ha.denom.mlt⟩⟩ := by
  unfold trfBilineaire racinesDe
  simp only [hn, hd, if_true, Option.bind_some, Option.map_some, Option.some.injEq]
  unfold bilineaireDe
  by_cases h1 : ha.numer.coefs.length < ha.denom.coefs.length
  · have h2 : ¬ ha.denom.coefs.length < ha.numer.coefs.length := by omega
    have h3 : ha.numer.coefs.length - ha.denom.coefs.length = 0 := by omega
    simp only [h1, h2, h3, if_true, if_false]
    rw [mul_deRacines _ rfl]
    simp [Poly.deRacines]
  · have h3 : ha.denom.coefs.length - ha.numer.coefs.length = 0 := by omega
    by_cases h2 : ha.denom.coefs.length < ha.numer.coefs.length
    · simp only [h1, h2, h3, if_true, if_false]
      rw [mul_deRacines _ rfl]
      simp [Poly.deRacines]
    · have h4 : ha.numer.coefs.length - ha.denom.coefs.length = 0 := by omega
      simp only [h1, h2, h3, h4, if_false]
      simp [Poly.deRacines]

/-- **C88 (value).** For every analog rational function given by its zeros and poles (none equal to `2 fe`), `trf_bilineaire(ha, fe)` returns the rational
function `z ↦ ha(2 fe (z-1)/(z+1))`, at every `z ≠ -1`. -/
theorem C88_bilineaire (ha : FRat ℂ) (fe : ℝ) (hn : ha.numer.racines = true) (hd : ha.denom.racines = true)
    (h1 : ∀ r ∈ ha.numer.coefs, r ≠ 2 * (fe : ℂ)) (h2 : ∀ r ∈ ha.denom.coefs, r ≠ 2 * (fe : ℂ)) :
    ∃ hz, trfBilineaire ha fe = some hz ∧ ∀ z : ℂ, z ≠ -1 → valeur hz z = valeur ha (2 * (fe : ℂ) * (z - 1) / (z + 1)) := by
  refine ⟨_, bilineaire_forme ha fe hn hd, fun z hz => ?_⟩
  have hw : z + 1 ≠ 0 := fun h => hz (by linear_combination h)
  rw [valeur_racines _ rfl rfl, valeur_racines _ hn hd]
  have e1 := produit_bilineaire fe z hw _ h1
  have e2 := produit_bilineaire fe z hw _ h2
  have g1 := prod_gain_ne fe _ h1
  have g2 := prod_gain_ne fe _ h2
  simp only [List.map_append, List.prod_append, prod_replicate]
  rw [← mul_div_assoc ha.numer.mlt]
  generalize ((ha.numer.coefs.map (racineBilineaire fe)).map fun r : ℂ => z - r).prod = Zn at *
  generalize ((ha.denom.coefs.map (racineBilineaire fe)).map fun r : ℂ => z - r).prod = Zd at *
  generalize (ha.numer.coefs.map fun r : ℂ => 2 * (fe : ℂ) * (z - 1) / (z + 1) - r).prod = Sn at *
  generalize (ha.denom.coefs.map fun r : ℂ => 2 * (fe : ℂ) * (z - 1) / (z + 1) - r).prod = Sd at *
  generalize produitGain fe ha.numer.coefs = An at *
  generalize produitGain fe ha.denom.coefs = Ad at *
  generalize ha.numer.coefs.length = N at *
  generalize ha.denom.coefs.length = P at *
  rw [sub_neg_eq_add]
  set w := z + 1 with hwdef
  have s1 : Sn = An * Zn / w ^ N := by
    rw [eq_div_iff (pow_ne_zero _ hw)]
    exact e1
  have s2 : Sd = Ad * Zd / w ^ P := by
    rw [eq_div_iff (pow_ne_zero _ hw)]
    exact e2
  rw [s1, s2]
  by_cases hm : ha.denom.mlt = 0
  · simp [hm]
  by_cases hZ : Zd = 0
  · simp [hZ]
  rcases Nat.le_total N P with h | h
  · obtain ⟨k, rfl⟩ := Nat.exists_eq_add_of_le h
    rw [Nat.add_sub_cancel_left, Nat.sub_eq_zero_of_le h, pow_add]
    field_simp
  · obtain ⟨k, rfl⟩ := Nat.exists_eq_add_of_le h
    rw [Nat.add_sub_cancel_left, Nat.sub_eq_zero_of_le h, pow_add]
    field_simp

/-- On the unit circle the substitution is the frequency map of `ωd_vers_ωa`. -/
theorem cercle_axe (θ : ℝ) (h : Real.cos (θ / 2) ≠ 0) :
    2 * ((1 : ℝ) : ℂ) * (Complex.exp ((θ : ℂ) * Complex.I) - 1) / (Complex.exp ((θ : ℂ) * Complex.I) + 1) = (wdVersWa θ 1 : ℂ) * Complex.I := by
  have e1 : Complex.exp ((θ : ℂ) * Complex.I) = (((Real.cos (θ / 2) : ℝ) : ℂ) + ((Real.sin (θ / 2) : ℝ) : ℂ) * Complex.I) ^ 2 := by
    rw [Complex.ofReal_cos, Complex.ofReal_sin, ← Complex.exp_mul_I, sq, ← Complex.exp_add]
    congr 1
    push_cast
    ring
  rw [e1]
  unfold wdVersWa
  rw [Real.tan_eq_sin_div_cos, show θ / (2 * 1) = θ / 2 by ring]
  simp only [Complex.ofReal_mul, Complex.ofReal_div, Complex.ofReal_one, Complex.ofReal_ofNat]
  have hc : ((Real.cos (θ / 2) : ℝ) : ℂ) ≠ 0 := by exact_mod_cast h
  have hcs : ((Real.sin (θ / 2) : ℝ) : ℂ) ^ 2 + ((Real.cos (θ / 2) : ℝ) : ℂ) ^ 2 = 1 := by exact_mod_cast Real.sin_sq_add_cos_sq (θ / 2)
  generalize ((Real.cos (θ / 2) : ℝ) : ℂ) = c at *
  generalize ((Real.sin (θ / 2) : ℝ) : ℂ) = s at *
  have hI := Complex.I_sq
  have hp : (c + s * Complex.I) ^ 2 + 1 = 2 * c * (c + s * Complex.I) := by linear_combination s ^ 2 * hI - hcs
  have hm : (c + s * Complex.I) ^ 2 - 1 = 2 * (s * Complex.I) * (c + s * Complex.I) := by linear_combination -s ^ 2 * hI + hcs
  have h0 : c + s * Complex.I ≠ 0 := fun h0 => by
    have : (c + s * Complex.I) * (c - s * Complex.I) = 1 := by linear_combination hcs - s ^ 2 * hI
    rw [h0, zero_mul] at this
    exact zero_ne_one this
  rw [hp, hm]
  field_simp

/-- **C88 (frequency response).** For a sampling frequency of 1, the frequency response of the digital filter at the digital pulsation `θ` is the
response of the analog one at the analog pulsation `ωd_vers_ωa(θ, 1)`. -/
theorem C88_reponse (ha : FRat ℂ) (hn : ha.numer.racines = true) (hd : ha.denom.racines = true)
    (h1 : ∀ r ∈ ha.numer.coefs, r ≠ 2) (h2 : ∀ r ∈ ha.denom.coefs, r ≠ 2) :
    ∃ hz, trfBilineaire ha 1 = some hz ∧ ∀ θ : ℝ, Real.cos (θ / 2) ≠ 0 →
      valeur hz (Complex.exp ((θ : ℂ) * Complex.I)) = valeur ha ((wdVersWa θ 1 : ℂ) * Complex.I) := by
  obtain ⟨hz, e, h⟩ := C88_bilineaire ha 1 hn hd (by simpa using h1) (by simpa using h2)
  refine ⟨hz, e, fun θ hθ => ?_⟩
  rw [h, cercle_axe θ hθ]
  intro h0
  have e1 : (Complex.exp ((θ : ℂ) * Complex.I)).re = -1 := by rw [h0]; simp
  rw [Complex.exp_ofReal_mul_I_re, show θ = 2 * (θ / 2) by ring, Real.cos_two_mul] at e1
  exact hθ (by nlinarith)

theorem racine_stable (fe : ℝ) (hfe : 0 < fe) (p : ℂ) (hp : p.re < 0) : ‖racineBilineaire fe p‖ < 1 := by
  have h0 : 0 < Complex.normSq (-p + 2 * fe) := by
    rw [Complex.normSq_pos]
    intro h
    have := congrArg Complex.re h
    simp at this
    linarith
  unfold racineBilineaire
  rw [← sq_lt_one_iff₀ (norm_nonneg _), ← Complex.normSq_eq_norm_sq, Complex.normSq_div, div_lt_one h0]
  simp only [Complex.normSq_apply, Complex.add_re, Complex.add_im, Complex.neg_re, Complex.neg_im, Complex.mul_re, Complex.mul_im, Complex.ofReal_re,
    Complex.ofReal_im, Complex.re_ofNat, Complex.im_ofNat]
  nlinarith [mul_pos hfe (neg_pos.2 hp)]

/-- **C88 (stability).** The bilinear transform of a stable proper analog filter (poles of negative real part, no more zeros than poles) has all its poles
strictly inside the unit disk. -/
theorem C88_stable (ha : FRat ℂ) (fe : ℝ) (hfe : 0 < fe) (hn : ha.numer.racines = true) (hd : ha.denom.racines = true)
    (hs : ∀ p ∈ ha.denom.coefs, p.re < 0) (hl : ha.numer.coefs.length ≤ ha.denom.coefs.length) :
    ∃ hz, trfBilineaire ha fe = some hz ∧ hz.denom.racines = true ∧ hz.denom.coefs.length = ha.denom.coefs.length ∧
      hz.numer.coefs.length = hz.denom.coefs.length ∧ ∀ p ∈ hz.denom.coefs, ‖p‖ < 1 := by
  refine ⟨_, bilineaire_forme ha fe hn hd, rfl, ?_, ?_, ?_⟩
  · simp [Nat.sub_eq_zero_of_le hl]
  · simp
    omega
  · intro p hp
    rw [Nat.sub_eq_zero_of_le hl] at hp
    simp only [List.replicate_zero, List.append_nil, List.mem_map] at hp
    obtain ⟨q, hq, rfl⟩ := hp
    exact racine_stable fe hfe q (hs q hq)

/-- The hypothesis on the degrees is needed: a differentiator (one zero, no pole) gives a pole on the unit circle. -/
theorem C88_stable_refute : ∃ ha : FRat ℂ, ha.numer.racines = true ∧ ha.denom.racines = true ∧ (∀ p ∈ ha.denom.coefs, p.re < 0) ∧
    ∃ hz, trfBilineaire ha 1 = some hz ∧ ∃ p ∈ hz.denom.coefs, ‖p‖ = 1 := by
  refine ⟨⟨Poly.deRacines [0], Poly.deRacines []⟩, rfl, rfl, by simp [Poly.deRacines], _, bilineaire_forme _ _ rfl rfl, -1, ?_, by simp⟩
  simp [Poly.deRacines]

/-- **C88 (refuted for coefficients).** A transfer function given by its coefficients cannot be transformed: `roots()` throws for complex polynomials. -/
theorem C88_coefficients_refute (ha : FRat ℂ) (fe : ℝ) (h : ha.numer.racines = false ∨ ha.denom.racines = false) : trfBilineaire ha fe = none := by
  unfold trfBilineaire racinesDe
  rcases h with h | h
  · simp [h]
  · rw [h]
    cases ha.numer.racines <;> simp

/-- Non-vacuity: the integrator-like filter `1 / (s + 1)` meets the hypotheses of the four theorems. -/
example : ∃ ha : FRat ℂ, ha.numer.racines = true ∧ ha.denom.racines = true ∧ (∀ r ∈ ha.numer.coefs, r ≠ 2) ∧ (∀ r ∈ ha.denom.coefs, r ≠ 2) ∧
    (∀ p ∈ ha.denom.coefs, p.re < 0) ∧ ha.numer.coefs.length < ha.denom.coefs.length := by
  refine ⟨⟨Poly.deRacines [], Poly.deRacines [-1]⟩, rfl, rfl, by simp [Poly.deRacines], ?_, by simp [Poly.deRacines], by simp [Poly.deRacines]⟩
  simp only [Poly.deRacines, List.mem_singleton, forall_eq]
  norm_num

/-! ### Analog frequency transformations -/

theorem produit_echelle (wc : ℝ) (hw : wc ≠ 0) (s : ℂ) (l : List ℂ) :
    ((l.map (· * (wc : ℂ))).map fun r : ℂ => s - r).prod = (wc : ℂ) ^ l.length * (l.map fun r : ℂ => s / wc - r).prod := by
  have hwc : (wc : ℂ) ≠ 0 := by exact_mod_cast hw
  induction l with
  | nil => simp
  | cons a l ih =>
    simp only [List.map_cons, List.prod_cons, List.length_cons, pow_succ, ih]
    field_simp

/-- **C89 (low-pass).** `pban_vers_pba(H, ωc)` is `s ↦ H(s/ωc)`, for every transfer function given by its zeros and poles. -/
theorem C89_passe_bas (ha : FRat ℂ) (wc : ℝ) (hw : wc ≠ 0) (hn : ha.numer.racines = true) (hd : ha.denom.racines = true) :
    ∃ H, pbanVersPba ha wc = some H ∧ H.numer.racines = true ∧ H.denom.racines = true ∧ ∀ s, valeur H s = valeur ha (s / wc) := by
  have hwc : (wc : ℂ) ≠ 0 := by exact_mod_cast hw
  unfold pbanVersPba
  simp only [hn, hd, Bool.and_self, if_true, Option.some.injEq, exists_eq_left', true_and]
  intro s
  rw [valeur_racines _ rfl rfl, valeur_racines _ hn hd]
  simp only
  rw [produit_echelle wc hw, produit_echelle wc hw, sub_sub_sub_cancel_right, zpow_sub₀ hwc, zpow_natCast, zpow_natCast]
  field_simp

theorem produit_inverse (wc : ℝ) (hw : wc ≠ 0) (s : ℂ) (hs : s ≠ 0) (l : List ℂ) (hl : ∀ r ∈ l, r ≠ 0) :
    l.prod * ((l.map fun r : ℂ => r⁻¹ * (wc : ℂ)).map fun r : ℂ => s - r).prod = (-s) ^ l.length * (l.map fun r : ℂ => wc / s - r).prod := by
  have hwc : (wc : ℂ) ≠ 0 := by exact_mod_cast hw
  induction l with
  | nil => simp
  | cons a l ih =>
    have ih := ih fun r hr => hl r (List.mem_cons_of_mem _ hr)
    have ha : a ≠ 0 := hl a (by simp)
    have e : a * (s - a⁻¹ * wc) = -s * (wc / s - a) := by
      field_simp
      ring
    simp only [List.map_cons, List.prod_cons, List.length_cons, pow_succ]
    linear_combination l.prod * ((l.map fun r : ℂ => r⁻¹ * (wc : ℂ)).map fun r : ℂ => s - r).prod * e - s * (wc / s - a) * ih

/-- **C89 (high-pass, with the sign).** `pban_vers_pha(H, ωc)` is `s ↦ ± H(ωc/s)`, the sign being the parity of the number of zeros and poles, for every
transfer function given by its (non-zero) zeros and poles. -/
theorem C89_passe_haut_partial (ha : FRat ℂ) (wc : ℝ) (hw : wc ≠ 0) (hn : ha.numer.racines = true) (hd : ha.denom.racines = true)
    (h1 : ∀ r ∈ ha.numer.coefs, r ≠ 0) (h2 : ∀ r ∈ ha.denom.coefs, r ≠ 0) :
    ∃ H, pbanVersPha ha wc = some H ∧ H.numer.racines = true ∧ H.denom.racines = true ∧
      ∀ s, s ≠ 0 → valeur H s = (-1) ^ (ha.numer.coefs.length + ha.denom.coefs.length) * valeur ha (wc / s) := by
  have hwc : (wc : ℂ) ≠ 0 := by exact_mod_cast hw
  unfold pbanVersPha
  simp only [hn, hd, Bool.and_self, if_true, Option.some.injEq, exists_eq_left']
  refine ⟨rfl, rfl, fun s hs => ?_⟩
  rw [valeur_racines _ rfl rfl, valeur_racines _ hn hd]
  have e1 := produit_inverse wc hw s hs _ h1
  have e2 := produit_inverse wc hw s hs _ h2
  have g1 : ha.numer.coefs.prod ≠ 0 := List.prod_ne_zero fun h => h1 _ h rfl
  have g2 : ha.denom.coefs.prod ≠ 0 := List.prod_ne_zero fun h => h2 _ h rfl
  simp only [inversePoly, List.map_append, List.prod_append, prod_replicate, sub_zero]
  rw [neg_pow] at e1 e2
  generalize ((ha.numer.coefs.map fun r : ℂ => r⁻¹ * (wc : ℂ)).map fun r : ℂ => s - r).prod = Zn at *
  generalize ((ha.denom.coefs.map fun r : ℂ => r⁻¹ * (wc : ℂ)).map fun r : ℂ => s - r).prod = Zd at *
  generalize (ha.numer.coefs.map fun r : ℂ => (wc : ℂ) / s - r).prod = Sn at *
  generalize (ha.denom.coefs.map fun r : ℂ => (wc : ℂ) / s - r).prod = Sd at *
  generalize ha.numer.coefs.prod = An at *
  generalize ha.denom.coefs.prod = Ad at *
  generalize ha.numer.coefs.length = N at *
  generalize ha.denom.coefs.length = P at *
  have s1 : Zn = (-1) ^ N * s ^ N * Sn / An := by
    rw [eq_div_iff g1]
    linear_combination e1
  have s2 : Zd = (-1) ^ P * s ^ P * Sd / Ad := by
    rw [eq_div_iff g2]
    linear_combination e2
  rw [s1, s2]
  have hP : ((-1 : ℂ) ^ P) * (-1) ^ P = 1 := by rw [← mul_pow]; simp
  have hP0 : ((-1 : ℂ) ^ P) ≠ 0 := pow_ne_zero _ (by norm_num)
  by_cases hm : ha.denom.mlt = 0
  · simp [hm]
  by_cases hZ : Sd = 0
  · simp [hZ]
  rw [pow_add (-1 : ℂ)]
  rcases Nat.le_total N P with h | h
  · obtain ⟨k, rfl⟩ := Nat.exists_eq_add_of_le h
    rw [Nat.add_sub_cancel_left, Nat.sub_eq_zero_of_le h, pow_add s]
    generalize (-1 : ℂ) ^ (N + k) = σ at *
    field_simp
    linear_combination -ha.numer.mlt * Sn * hP
  · obtain ⟨k, rfl⟩ := Nat.exists_eq_add_of_le h
    rw [Nat.add_sub_cancel_left, Nat.sub_eq_zero_of_le h, pow_add s]
    generalize (-1 : ℂ) ^ P = σ at *
    field_simp
    linear_combination -ha.numer.mlt * Sn * hP

/-- **C89 (high-pass, refuted).** The sign is wrong for an odd number of poles and no zero: the high-pass deduced from the first-order low-pass
`1 / (1 + s)` has the gain -1, not 1, at high frequencies: it is `-s / (s + ωc)`. -/
theorem C89_passe_haut_refute (wc : ℝ) : ∃ H, pbanVersPha ⟨numerVide, Poly.deRacines [-1]⟩ wc = some H ∧
    ∀ s : ℂ, s + wc ≠ 0 → valeur H s = -s / (s + wc) := by
  unfold pbanVersPha
  simp only [numerVide, Poly.deRacines, Bool.and_self, if_true, Option.some.injEq, exists_eq_left']
  intro s hs
  rw [valeur_racines _ rfl rfl]
  simp only [inversePoly, List.map_nil, List.map_cons, List.nil_append, List.length_nil, List.length_singleton, List.prod_nil, List.prod_singleton,
    Nat.sub_zero, List.replicate_one, Nat.zero_sub, List.replicate_zero, List.append_nil, one_mul, sub_zero]
  rw [show ((-1 : ℂ))⁻¹ * wc = -wc by norm_num, sub_neg_eq_add]
  field_simp

end Verif.Rii
