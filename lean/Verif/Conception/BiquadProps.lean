/-
C93: second order (biquad) designs.

Specification: the analog prototypes of the documentation (`protoNum / protoDen`), the difference equation satisfied by the output of the filter, the modulus of
the poles.
-/
import Verif.Conception.Biquad
import Verif.Conception.RiiProps
import Verif.Conception.Ordre1Props

set_option linter.unusedSectionVars false

namespace Verif.Rii

open Verif.FracRat Verif.Filtre Finset

/-! ### Specification: analog prototypes (documentation of `design_biquad`, core/include/tsd/filtrage.hpp:601-636, and the cookbook it cites) -/

/-- Numerator of the analog prototype, for a quality factor `Q` and `A² =` the linear gain. -/
noncomputable def protoNum (A Q : ℝ) (s : ℂ) : TypeBiquad → ℂ
  | .passeBas => 1
  | .passeHaut => s ^ 2
  | .passeBande => s / Q
  | .coupeBande => s ^ 2 + 1
  | .resonateur => s ^ 2 + s * (A / Q) + 1
  | .plateauBf => A * (s ^ 2 + s * Real.sqrt (2 * A) + A)
  | .plateauHf => A * (A * s ^ 2 + s * Real.sqrt (2 * A) + 1)

/-- Denominator of the analog prototype. -/
noncomputable def protoDen (A Q : ℝ) (s : ℂ) : TypeBiquad → ℂ
  | .resonateur => s ^ 2 + s / (A * Q) + 1
  | .plateauBf => A * s ^ 2 + s * Real.sqrt (2 * A) + 1
  | .plateauHf => s ^ 2 + s * Real.sqrt (2 * A) + A
  | _ => s ^ 2 + s / Q + 1

/-! ### Shape of the result -/

section
variable {K : Type} [Field K] [DecidableEq K]

theorem polyBiquad_forme (c0 c1 c2 : K) : polyBiquad c0 c1 c2 = ⟨Poly.deCoefs [0, c2, c1, c0], Poly.deCoefs [0, 0, 0, 1]⟩ := by
  simp [polyBiquad, FRat.inv, FRat.z, FRat.pow, FRat.mul, FRat.add, FRat.addScal, FRat.mulScal, Poly.z, Poly.one, Poly.deCoefs, Poly.mul, Poly.add,
    Poly.mulScal, Poly.versCoefs, produitCoefs, ajouteCoefs, partiel, boucleProduit]

theorem mul_z3 (c0 c1 c2 : K) : (Poly.deCoefs [0, c2, c1, c0]).mul (Poly.deCoefs [0, 0, 0, 1]) = Poly.deCoefs [0, 0, 0, 0, c2, c1, c0] ∧
    (Poly.deCoefs [0, 0, 0, 1]).mul (Poly.deCoefs [0, c2, c1, c0]) = Poly.deCoefs [0, 0, 0, 0, c2, c1, c0] := by
  constructor <;>
  simp [Poly.deCoefs, Poly.mul, Poly.versCoefs, produitCoefs, ajouteCoefs, partiel, boucleProduit]

theorem nbNuls_ne (c : K) (hc : c ≠ 0) (l : List K) : nbNuls (c :: l) = 0 := by rw [nbNuls, if_neg hc]

theorem quotient_forme (b0 b1 b2 a0 a1 a2 : K) (h : b2 ≠ 0 ∨ a2 ≠ 0) :
    (polyBiquad b0 b1 b2).div (polyBiquad a0 a1 a2) = ⟨Poly.deCoefs [b2, b1, b0], Poly.deCoefs [a2, a1, a0]⟩ := by
  rw [polyBiquad_forme, polyBiquad_forme]
  unfold FRat.div
  simp only [(mul_z3 b0 b1 b2).1, (mul_z3 a0 a1 a2).2]
  have e : ∀ l : List K, nbNuls (0 :: 0 :: 0 :: 0 :: l) = nbNuls l + 4 := fun l => by simp [nbNuls]
  have hm : min (nbNuls (0 :: 0 :: 0 :: 0 :: [b2, b1, b0])) (nbNuls (0 :: 0 :: 0 :: 0 :: [a2, a1, a0])) = 4 := by
    rw [e, e]
    rcases h with h | h
    · rw [nbNuls_ne b2 h]; omega
    · rw [nbNuls_ne a2 h]; omega
  unfold FRat.simplifie
  rw [if_neg (by simp [Poly.deCoefs])]
  have hm' : min (nbNuls (Poly.deCoefs (0 :: 0 :: 0 :: 0 :: [b2, b1, b0])).coefs) (nbNuls (Poly.deCoefs (0 :: 0 :: 0 :: 0 :: [a2, a1, a0])).coefs) = 4 := hm
  simp only [hm']
  simp [Poly.deCoefs]

end

theorem simplifie_denom {K : Type} [Field K] [DecidableEq K] (f : FRat K) (hn : f.numer.racines = false) :
    ∃ m, m ≤ nbNuls f.denom.coefs ∧ f.simplifie.denom = { f.denom with coefs := f.denom.coefs.drop m } := by
  unfold FRat.simplifie
  rw [if_neg (by simp [hn])]
  simp only []
  split
  · exact ⟨_, Nat.min_le_right _ _, rfl⟩
  · exact ⟨0, Nat.zero_le _, by simp⟩

/-- The denominator vanishes only at the zeros of `a0 z² + a1 z + a2`, or at 0. -/
theorem denom_nul [DecidableEq ℝ] (b0 b1 b2 a0 a1 a2 : ℝ) (z : ℂ) (hz : z ≠ 0)
    (h : ((polyBiquad b0 b1 b2).div (polyBiquad a0 a1 a2)).denom.horner Complex.ofRealHom z = 0) : (a0 : ℂ) * z ^ 2 + a1 * z + a2 = 0 := by
  rw [polyBiquad_forme, polyBiquad_forme] at h
  unfold FRat.div at h
  simp only [(mul_z3 b0 b1 b2).1, (mul_z3 a0 a1 a2).2] at h
  obtain ⟨m, hm, e⟩ := simplifie_denom ⟨Poly.deCoefs [0, 0, 0, 0, b2, b1, b0], Poly.deCoefs [0, 0, 0, 0, a2, a1, a0]⟩ rfl
  have hv : valCoefs Complex.ofRealHom [0, 0, 0, 0, a2, a1, a0] z = 0 := by
    have hq := nbNuls_val Complex.ofRealHom z [0, 0, 0, 0, a2, a1, a0] m hm
    rw [hq]
    rw [e, C30_horner] at h
    simp only [Poly.val] at h
    rw [if_neg (by simp [Poly.deCoefs])] at h
    have h2 : valCoefs Complex.ofRealHom (List.drop m [0, 0, 0, 0, a2, a1, a0]) z = 0 := h
    rw [h2, mul_zero]
  simp only [valCoefs_cons, valCoefs_nil, map_zero, Complex.ofRealHom_eq_coe] at hv
  have h4 : z ^ 4 * ((a0 : ℂ) * z ^ 2 + a1 * z + a2) = 0 := by linear_combination hv
  exact (mul_eq_zero.1 h4).resolve_left (pow_ne_zero _ hz)

theorem valeur_poly (c0 c1 c2 : ℝ) (z : ℂ) (hz : z ≠ 0) : (polyBiquad c0 c1 c2).horner Complex.ofRealHom z = (c0 : ℂ) + c1 * z⁻¹ + c2 * z⁻¹ ^ 2 := by
  classical
  rw [polyBiquad_forme]
  unfold FRat.horner
  simp only [horner_deCoefs, valCoefs_cons, valCoefs_nil, map_zero, Complex.ofRealHom_eq_coe, Complex.ofReal_one, zero_add, mul_zero, add_zero]
  field_simp
  ring

/-- The value of the biquad at any non-zero point. -/
theorem valeur_frat (b0 b1 b2 a0 a1 a2 : ℝ) (ha : a0 ≠ 0) (z : ℂ) (hz : z ≠ 0) [DecidableEq ℝ] :
    (fratBiquad b0 b1 b2 a0 a1 a2).horner Complex.ofRealHom z = ((b0 : ℂ) * z + b1 + b2 * z⁻¹) / ((a0 : ℂ) * z + a1 + a2 * z⁻¹) := by
  have ha' : (a0 : ℂ) ≠ 0 := by exact_mod_cast ha
  unfold fratBiquad
  rw [C31_quotient, valeur_poly _ _ _ z hz, valeur_poly _ _ _ z hz]
  · push_cast
    have e1 : (b0 : ℂ) * z + b1 + b2 * z⁻¹ = (a0 * z) * ((b0 : ℂ) / a0 + b1 / a0 * z⁻¹ + b2 / a0 * z⁻¹ ^ 2) := by field_simp
    have e2 : (a0 : ℂ) * z + a1 + a2 * z⁻¹ = (a0 * z) * (1 + (a1 : ℂ) / a0 * z⁻¹ + a2 / a0 * z⁻¹ ^ 2) := by field_simp
    rw [e1, e2, mul_div_mul_left _ _ (mul_ne_zero ha' hz)]
  · exact hz
  · rw [polyBiquad_forme, polyBiquad_forme]
    intro h
    simp [Poly.deCoefs] at h
  · rw [polyBiquad_forme, polyBiquad_forme]
    intro h
    simp [Poly.deCoefs] at h

/-! ### Coefficients -/

/-- `A`. -/
noncomputable def BiquadSpec.A (s : BiquadSpec) : ℝ := Real.sqrt (db2mag s.gain)

theorem A_pos (s : BiquadSpec) : 0 < s.A := by
  unfold BiquadSpec.A db2mag db2pow
  positivity

/-- `A² = 10^(gain/20)`. -/
theorem A_carre (s : BiquadSpec) : s.A ^ 2 = (10 : ℝ) ^ (s.gain / 20) := by
  unfold BiquadSpec.A db2mag db2pow
  rw [Real.sq_sqrt (by positivity)]
  congr 1
  ring

theorem coefs_eq (s : BiquadSpec) : coefsSpec s = coefsBiquad (Real.sin (2 * Real.pi * s.f)) (Real.cos (2 * Real.pi * s.f)) s.A
    (Real.sin (2 * Real.pi * s.f) / (2 * s.Q)) (Real.sqrt (2 * s.A)) s.type := rfl

theorem beta_carre (s : BiquadSpec) : 0 < Real.sqrt (2 * s.A) ∧ Real.sqrt (2 * s.A) ^ 2 = 2 * s.A := by
  have := A_pos s
  exact ⟨Real.sqrt_pos.2 (by linarith), Real.sq_sqrt (by linarith)⟩

theorem trigo_f (f : ℝ) (h0 : 0 < f) (h1 : f < 1 / 2) : 0 < Real.sin (2 * Real.pi * f) ∧ Real.cos (2 * Real.pi * f) < 1 ∧ -1 < Real.cos (2 * Real.pi * f) := by
  have hpi := Real.pi_pos
  have hs : 0 < Real.sin (2 * Real.pi * f) := Real.sin_pos_of_pos_of_lt_pi (by positivity) (by nlinarith)
  have := Real.sin_sq_add_cos_sq (2 * Real.pi * f)
  refine ⟨hs, ?_, ?_⟩ <;> nlinarith [sq_pos_of_pos hs]

/-- The Jury criterion on the coefficients of the denominator. -/
theorem jury_coefs (s : BiquadSpec) (h0 : 0 < s.f) (h1 : s.f < 1 / 2) (hQ : 0 < s.Q) :
    0 < (coefsSpec s).a0 ∧ |(coefsSpec s).a2| < (coefsSpec s).a0 ∧ |(coefsSpec s).a1| < (coefsSpec s).a0 + (coefsSpec s).a2 := by
  obtain ⟨hs, hc1, hc2⟩ := trigo_f s.f h0 h1
  obtain ⟨hb, _⟩ := beta_carre s
  have hA := A_pos s
  rw [coefs_eq]
  have hα : 0 < Real.sin (2 * Real.pi * s.f) / (2 * s.Q) := by positivity
  have hαA : 0 < Real.sin (2 * Real.pi * s.f) / (2 * s.Q) / s.A := by positivity
  have hβ := mul_pos hb hs
  generalize Real.sin (2 * Real.pi * s.f) / (2 * s.Q) = α at *
  generalize Real.sqrt (2 * s.A) = β at *
  generalize Real.sin (2 * Real.pi * s.f) = sn at *
  generalize Real.cos (2 * Real.pi * s.f) = cs at *
  generalize s.A = A at *
  have p1 : 0 < A * (1 - cs) := mul_pos hA (by linarith)
  have p2 : 0 < A * (1 + cs) := mul_pos hA (by linarith)
  cases s.type <;> simp only [coefsBiquad, abs_lt] <;>
    refine ⟨?_, ⟨?_, ?_⟩, ⟨?_, ?_⟩⟩ <;> nlinarith

theorem jury (a1 a2 : ℝ) (h2 : |a2| < 1) (h1 : |a1| < 1 + a2) (z : ℂ) (hz : z ^ 2 + a1 * z + a2 = 0) : ‖z‖ < 1 := by
  rw [abs_lt] at h1 h2
  have hre := congrArg Complex.re hz
  have him := congrArg Complex.im hz
  simp [pow_two] at hre him
  rw [← sq_lt_one_iff₀ (norm_nonneg _), ← Complex.normSq_eq_norm_sq, Complex.normSq_apply]
  generalize z.re = x at *
  generalize z.im = y at *
  by_cases hy : y = 0
  · subst hy
    simp only [mul_zero, sub_zero, add_zero] at hre ⊢
    by_contra hx
    have hx : 1 ≤ x * x := not_lt.1 hx
    rcases le_or_gt 0 x with hx0 | hx0
    · have : 1 ≤ x := by nlinarith
      nlinarith
    · have : x ≤ -1 := by nlinarith
      nlinarith
  · have : a1 = -2 * x := by
      have : y * (a1 + 2 * x) = 0 := by linarith
      rcases mul_eq_zero.1 this with h | h
      · exact absurd h hy
      · linarith
    subst this
    nlinarith

/-- **C93 (stability).** For every type of biquad, every frequency `0 < f < 1/2`, quality factor `Q > 0` and gain, all the poles of the filter returned by `design_biquad`
are strictly inside the unit disk. -/
theorem C93_stable (s : BiquadSpec) (h0 : 0 < s.f) (h1 : s.f < 1 / 2) (hQ : 0 < s.Q) (z : ℂ)
    (hz : (designBiquad s).denom.horner Complex.ofRealHom z = 0) : ‖z‖ < 1 := by
  by_cases h : z = 0
  · simp [h]
  obtain ⟨ha, hb, hc⟩ := jury_coefs s h0 h1 hQ
  have ha' : ((coefsSpec s).a0 : ℂ) ≠ 0 := by exact_mod_cast ha.ne'
  unfold designBiquad fratBiquad at hz
  have e := denom_nul _ _ _ _ _ _ z h hz
  refine jury ((coefsSpec s).a1 / (coefsSpec s).a0) ((coefsSpec s).a2 / (coefsSpec s).a0) ?_ ?_ z ?_
  · rw [abs_div, abs_of_pos ha, div_lt_one ha]
    exact hb
  · rw [abs_div, abs_of_pos ha, div_lt_iff₀ ha, add_mul, div_mul_cancel₀ _ ha.ne', one_mul]
    exact hc
  · push_cast at e ⊢
    linear_combination e

/-- **C93 (difference equation).** `filtre_rii(design_biquad(spec))` computes `y_n = (b0 x_n + b1 x_{n-1} + b2 x_{n-2} - a1 y_{n-1} - a2 y_{n-2}) / a0` with the
coefficients of the cookbook, for every stream and every cutting (the degenerate case of a constant filter, where `b2 = a2 = 0`, being excluded). -/
theorem C93_flux (s : BiquadSpec) (h0 : 0 < s.f) (h1 : s.f < 1 / 2) (hQ : 0 < s.Q) (hd : (coefsSpec s).b2 ≠ 0 ∨ (coefsSpec s).a2 ≠ 0) (blocs : List (List ℝ)) :
    ∃ s0 st y, filtreRii (designBiquad s) = some s0 ∧
      enchaine (Filtre.Rii.step (0 : ℝ) (· + ·) (· - ·) (· * ·) (· / ·)) s0 blocs = some (st, y) ∧ y.length = blocs.flatten.length ∧
      ∀ n, n < y.length → (coefsSpec s).a0 * y.getD n 0 = (coefsSpec s).b0 * blocs.flatten.getD n 0 + (coefsSpec s).b1 * passe blocs.flatten n 1 +
        (coefsSpec s).b2 * passe blocs.flatten n 2 - (coefsSpec s).a1 * passe y n 1 - (coefsSpec s).a2 * passe y n 2 := by
  classical
  obtain ⟨ha, _, _⟩ := jury_coefs s h0 h1 hQ
  unfold designBiquad fratBiquad
  rw [quotient_forme _ _ _ _ _ _ (by
    rcases hd with h | h
    · exact Or.inl (div_ne_zero h ha.ne')
    · exact Or.inr (div_ne_zero h ha.ne'))]
  obtain ⟨s0, st, y, e1, e2, l, g⟩ := Conception.rii_polys [(coefsSpec s).b2 / (coefsSpec s).a0, (coefsSpec s).b1 / (coefsSpec s).a0, (coefsSpec s).b0 / (coefsSpec s).a0]
    [(coefsSpec s).a2 / (coefsSpec s).a0, (coefsSpec s).a1 / (coefsSpec s).a0, 1] rfl (by simp) (by simp) blocs
  refine ⟨s0, st, y, e1, e2, l, fun n hn => ?_⟩
  have := g n hn
  simp only [convolution, List.reverse_cons, List.reverse_nil, List.nil_append, List.cons_append, List.length_cons, List.length_nil,
    sum_range_succ, sum_range_zero, List.getD_cons_zero, List.getD_cons_succ] at this
  simp only [show ∀ x : List ℝ, passe x n 0 = x.getD n 0 from fun x => by simp [passe]] at this
  field_simp at this
  linarith

/-! ### Frequency response -/

/-- Common algebra: with `z = (c + i s)²`, `c² + s² = 1`. -/
theorem forme_demi (b0 b1 b2 c s : ℂ) (h : c ^ 2 + s ^ 2 = 1) :
    b0 * (c + s * Complex.I) ^ 2 + b1 + b2 * (c - s * Complex.I) ^ 2 =
      (b0 + b2) * (c ^ 2 - s ^ 2) + b1 * (c ^ 2 + s ^ 2) + 2 * (b0 - b2) * s * c * Complex.I := by
  linear_combination (b0 + b2) * s ^ 2 * Complex.I_sq - b1 * h

/-- The pair (numerator, denominator) of the digital filter at `e^{iθ}` is proportional to the analog prototype at `iΩ`, `Ω = (s/c)/(S/C)`. -/
theorem proportion (A Q c s C S : ℝ) (hA : 0 < A) (hQ : 0 < Q) (hc : c ≠ 0) (hS : S ≠ 0) (hu : C ^ 2 + S ^ 2 = 1) (h : c ^ 2 + s ^ 2 = 1)
    (t : TypeBiquad) (X : CoefsBiquad) (hX : X = coefsBiquad (2 * S * C) (C ^ 2 - S ^ 2) A (2 * S * C / (2 * Q)) (Real.sqrt (2 * A)) t) (x : ℂ) (hx : x = ((s / c) / (S / C) : ℝ)) :
    ∃ k : ℂ, k ≠ 0 ∧ (X.b0 : ℂ) * (c + s * Complex.I) ^ 2 + X.b1 + X.b2 * (c - s * Complex.I) ^ 2 = k * protoNum A Q (Complex.I * x) t ∧
      (X.a0 : ℂ) * (c + s * Complex.I) ^ 2 + X.a1 + X.a2 * (c - s * Complex.I) ^ 2 = k * protoDen A Q (Complex.I * x) t := by
  have hc' : (c : ℂ) ≠ 0 := by exact_mod_cast hc
  have hS' : (S : ℂ) ≠ 0 := by exact_mod_cast hS
  have hA' : (A : ℂ) ≠ 0 := by exact_mod_cast hA.ne'
  have hQ' : (Q : ℂ) ≠ 0 := by exact_mod_cast hQ.ne'
  have hu' : (C : ℂ) ^ 2 + (S : ℂ) ^ 2 = 1 := by exact_mod_cast hu
  have h' : (c : ℂ) ^ 2 + (s : ℂ) ^ 2 = 1 := by exact_mod_cast h
  have e1 : (c : ℂ) * S * x = s * C := by
    rw [hx]
    push_cast
    rw [div_div_eq_mul_div, div_mul_eq_mul_div, div_div, mul_div_cancel₀ _ (mul_ne_zero hc' hS')]
  have e2 : (c : ℂ) ^ 2 * S ^ 2 * x ^ 2 = s ^ 2 * C ^ 2 := by linear_combination ((c : ℂ) * S * x + s * C) * e1
  have hI := Complex.I_sq
  clear hx
  generalize hβ : Real.sqrt (2 * A) = β at hX
  subst hX
  simp only [forme_demi _ _ _ _ _ h']
  by_cases ht : t = .plateauBf ∨ t = .plateauHf
  · refine ⟨8 * c ^ 2 * S ^ 2, by simp [hc', hS'], ?_⟩
    rcases ht with rfl | rfl
    · constructor
      · simp only [coefsBiquad, protoNum, hβ]
        push_cast
        linear_combination -(A * 8 * Complex.I ^ 2) * e2 - 8 * A * β * Complex.I * c * S * e1 - A * 8 * s ^ 2 * C ^ 2 * hI - 2 * A * (A + 1) * (c ^ 2 - s ^ 2) * hu' - 2 * A * (A - 1) * (c ^ 2 + s ^ 2) * hu'
      · simp only [coefsBiquad, protoDen, hβ]
        push_cast
        linear_combination -(A * 8 * Complex.I ^ 2) * e2 - 8 * β * Complex.I * c * S * e1 - A * 8 * s ^ 2 * C ^ 2 * hI - 2 * (A + 1) * (c ^ 2 - s ^ 2) * hu' + 2 * (A - 1) * (c ^ 2 + s ^ 2) * hu'
    · constructor
      · simp only [coefsBiquad, protoNum, hβ]
        push_cast
        linear_combination -(A ^ 2 * 8 * Complex.I ^ 2) * e2 - 8 * A * β * Complex.I * c * S * e1 - A ^ 2 * 8 * s ^ 2 * C ^ 2 * hI - 2 * A * (A + 1) * (c ^ 2 - s ^ 2) * hu' + 2 * A * (A - 1) * (c ^ 2 + s ^ 2) * hu'
      · simp only [coefsBiquad, protoDen, hβ]
        push_cast
        linear_combination -(8 * Complex.I ^ 2) * e2 - 8 * β * Complex.I * c * S * e1 - 8 * s ^ 2 * C ^ 2 * hI - 2 * (A + 1) * (c ^ 2 - s ^ 2) * hu' - 2 * (A - 1) * (c ^ 2 + s ^ 2) * hu'
  · refine ⟨4 * c ^ 2 * S ^ 2, by simp [hc', hS'], ?_⟩
    have hD : ((1 : ℂ) + 2 * S * C / (2 * Q) + (1 - 2 * S * C / (2 * Q))) * (c ^ 2 - s ^ 2) + -2 * (C ^ 2 - S ^ 2) * (c ^ 2 + s ^ 2) +
        2 * (1 + 2 * S * C / (2 * Q) - (1 - 2 * S * C / (2 * Q))) * s * c * Complex.I = 4 * c ^ 2 * S ^ 2 * ((Complex.I * x) ^ 2 + Complex.I * x / Q + 1) := by
      linear_combination -(4 * Complex.I ^ 2) * e2 - 4 / Q * Complex.I * c * S * e1 - 4 * s ^ 2 * C ^ 2 * hI - 2 * (c ^ 2 - s ^ 2) * hu'
    cases t with
    | passeBas =>
      simp only [coefsBiquad, protoNum, protoDen]
      push_cast
      refine ⟨?_, hD⟩
      linear_combination (-(c ^ 2 - s ^ 2) - (c ^ 2 + s ^ 2)) * hu'
    | passeHaut =>
      simp only [coefsBiquad, protoNum, protoDen]
      push_cast
      refine ⟨?_, hD⟩
      linear_combination -(4 * Complex.I ^ 2) * e2 - 4 * s ^ 2 * C ^ 2 * hI + (-(c ^ 2 - s ^ 2) + (c ^ 2 + s ^ 2)) * hu'
    | passeBande =>
      simp only [coefsBiquad, protoNum, protoDen]
      push_cast
      refine ⟨?_, hD⟩
      linear_combination - 4 / Q * Complex.I * c * S * e1
    | coupeBande =>
      simp only [coefsBiquad, protoNum, protoDen]
      push_cast
      refine ⟨?_, hD⟩
      linear_combination -(4 * Complex.I ^ 2) * e2 - 4 * s ^ 2 * C ^ 2 * hI - 2 * (c ^ 2 - s ^ 2) * hu'
    | resonateur =>
      simp only [coefsBiquad, protoNum, protoDen]
      push_cast
      constructor
      · linear_combination -(4 * Complex.I ^ 2) * e2 - 4 * A / Q * Complex.I * c * S * e1 - 4 * s ^ 2 * C ^ 2 * hI - 2 * (c ^ 2 - s ^ 2) * hu'
      · linear_combination -(4 * Complex.I ^ 2) * e2 - 4 / (A * Q) * Complex.I * c * S * e1 - 4 * s ^ 2 * C ^ 2 * hI - 2 * (c ^ 2 - s ^ 2) * hu'
    | plateauBf => simp at ht
    | plateauHf => simp at ht

/-- **C93 (frequency response).** For every type, the frequency response of `design_biquad` at the digital pulsation `θ` (other than Nyquist) is exactly the one of the
analog prototype at `Ω = tan(θ/2) / tan(πf)`: in particular the critical frequency `f` falls on `Ω = 1`. -/
theorem C93_reponse (s : BiquadSpec) (h0 : 0 < s.f) (h1 : s.f < 1 / 2) (hQ : 0 < s.Q) (θ : ℝ) (hθ : Real.cos (θ / 2) ≠ 0) :
    (designBiquad s).horner Complex.ofRealHom (Complex.exp (θ * Complex.I)) =
      protoNum s.A s.Q (Complex.I * ((Real.tan (θ / 2) / Real.tan (Real.pi * s.f) : ℝ) : ℂ)) s.type /
        protoDen s.A s.Q (Complex.I * ((Real.tan (θ / 2) / Real.tan (Real.pi * s.f) : ℝ) : ℂ)) s.type := by
  classical
  obtain ⟨ha, _, _⟩ := jury_coefs s h0 h1 hQ
  have hpi := Real.pi_pos
  have hS : Real.sin (Real.pi * s.f) ≠ 0 := (Real.sin_pos_of_pos_of_lt_pi (by positivity) (by nlinarith)).ne'
  have hX : coefsSpec s = coefsBiquad (2 * Real.sin (Real.pi * s.f) * Real.cos (Real.pi * s.f)) (Real.cos (Real.pi * s.f) ^ 2 - Real.sin (Real.pi * s.f) ^ 2) s.A
      (2 * Real.sin (Real.pi * s.f) * Real.cos (Real.pi * s.f) / (2 * s.Q)) (Real.sqrt (2 * s.A)) s.type := by
    rw [coefs_eq, mul_assoc 2 Real.pi, Real.sin_two_mul, Real.cos_two_mul']
  obtain ⟨k, hk, e1, e2⟩ := proportion s.A s.Q (Real.cos (θ / 2)) (Real.sin (θ / 2)) (Real.cos (Real.pi * s.f)) (Real.sin (Real.pi * s.f)) (A_pos s) hQ hθ hS
    (by rw [add_comm]; exact Real.sin_sq_add_cos_sq _) (by rw [add_comm]; exact Real.sin_sq_add_cos_sq _) s.type _ hX
    ((Real.tan (θ / 2) / Real.tan (Real.pi * s.f) : ℝ) : ℂ) (by rw [Real.tan_eq_sin_div_cos, Real.tan_eq_sin_div_cos])
  have hz : Complex.exp (θ * Complex.I) = ((Real.cos (θ / 2) : ℂ) + Real.sin (θ / 2) * Complex.I) ^ 2 := by
    rw [Complex.ofReal_cos, Complex.ofReal_sin, ← Complex.exp_mul_I, ← Complex.exp_nat_mul]
    congr 1
    push_cast
    ring
  have hzi : (Complex.exp (θ * Complex.I))⁻¹ = ((Real.cos (θ / 2) : ℂ) - Real.sin (θ / 2) * Complex.I) ^ 2 := by
    have : (Complex.cos ((θ / 2 : ℝ) : ℂ) - Complex.sin ((θ / 2 : ℝ) : ℂ) * Complex.I) = Complex.exp (-((θ / 2 : ℝ) : ℂ) * Complex.I) := by
      rw [Complex.exp_mul_I, Complex.sin_neg, Complex.cos_neg]
      ring
    rw [← Complex.exp_neg, Complex.ofReal_cos, Complex.ofReal_sin, this, ← Complex.exp_nat_mul]
    congr 1
    push_cast
    ring
  unfold designBiquad
  simp only []
  rw [valeur_frat _ _ _ _ _ _ ha.ne' _ (Complex.exp_ne_zero _), hzi, hz, e1, e2, mul_div_mul_left _ _ hk]

/-- At Nyquist. -/
theorem C93_nyquist (s : BiquadSpec) (h0 : 0 < s.f) (h1 : s.f < 1 / 2) (hQ : 0 < s.Q) :
    (designBiquad s).horner Complex.ofRealHom (-1) =
      match s.type with
      | .passeBas | .passeBande => 0
      | .plateauHf => (((10 : ℝ) ^ (s.gain / 20) : ℝ) : ℂ)
      | _ => 1 := by
  classical
  obtain ⟨ha, _, hc⟩ := jury_coefs s h0 h1 hQ
  obtain ⟨hs, hc1, hc2⟩ := trigo_f s.f h0 h1
  have hA := A_pos s
  unfold designBiquad
  simp only []
  rw [valeur_frat _ _ _ _ _ _ ha.ne' _ (by norm_num), ← A_carre]
  have hd : (((coefsSpec s).a0 : ℂ)) * -1 + (coefsSpec s).a1 + (coefsSpec s).a2 * (-1)⁻¹ ≠ 0 := by
    have : (coefsSpec s).a1 - (coefsSpec s).a0 - (coefsSpec s).a2 ≠ 0 := by
      have := (abs_lt.1 hc).2
      intro h
      linarith
    have h2 : (((coefsSpec s).a1 - (coefsSpec s).a0 - (coefsSpec s).a2 : ℝ) : ℂ) ≠ 0 := by exact_mod_cast this
    intro h
    apply h2
    push_cast
    norm_num at h
    linear_combination h
  rw [div_eq_iff hd, coefs_eq]
  cases s.type <;> simp only [coefsBiquad] <;> push_cast <;> ring

/-- Gains at 0 and at the critical frequency. -/
theorem C93_continu (s : BiquadSpec) (h0 : 0 < s.f) (h1 : s.f < 1 / 2) (hQ : 0 < s.Q) :
    (designBiquad s).horner Complex.ofRealHom 1 =
      match s.type with
      | .passeHaut | .passeBande => 0
      | .plateauBf => (((10 : ℝ) ^ (s.gain / 20) : ℝ) : ℂ)
      | _ => 1 := by
  have h := C93_reponse s h0 h1 hQ 0 (by simp)
  have hA : (s.A : ℂ) ≠ 0 := by exact_mod_cast (A_pos s).ne'
  simp only [Complex.ofReal_zero, zero_mul, Complex.exp_zero, zero_div, Real.tan_zero, mul_zero] at h
  rw [h, ← A_carre]
  cases s.type <;> simp [protoNum, protoDen]
  · ring
  · exact (A_pos s).ne'

theorem C93_critique (s : BiquadSpec) (h0 : 0 < s.f) (h1 : s.f < 1 / 2) (hQ : 0 < s.Q) :
    (designBiquad s).horner Complex.ofRealHom (Complex.exp ((2 * Real.pi * s.f : ℝ) * Complex.I)) =
      match s.type with
      | .passeBas => -Complex.I * s.Q
      | .passeHaut => Complex.I * s.Q
      | .passeBande => 1
      | .coupeBande => 0
      | .resonateur => (((10 : ℝ) ^ (s.gain / 20) : ℝ) : ℂ)
      | .plateauBf => protoNum s.A s.Q Complex.I .plateauBf / protoDen s.A s.Q Complex.I .plateauBf
      | .plateauHf => protoNum s.A s.Q Complex.I .plateauHf / protoDen s.A s.Q Complex.I .plateauHf := by
  have hpi := Real.pi_pos
  have hS : Real.sin (Real.pi * s.f) ≠ 0 := (Real.sin_pos_of_pos_of_lt_pi (by positivity) (by nlinarith)).ne'
  have hC : Real.cos (Real.pi * s.f) ≠ 0 := (Real.cos_pos_of_mem_Ioo ⟨by nlinarith, by nlinarith⟩).ne'
  have e : 2 * Real.pi * s.f / 2 = Real.pi * s.f := by ring
  have h := C93_reponse s h0 h1 hQ (2 * Real.pi * s.f) (by rw [e]; exact hC)
  have hA : (s.A : ℂ) ≠ 0 := by exact_mod_cast (A_pos s).ne'
  have hQ' : (s.Q : ℂ) ≠ 0 := by exact_mod_cast hQ.ne'
  have ht : Real.tan (Real.pi * s.f) ≠ 0 := by
    rw [Real.tan_eq_sin_div_cos]
    exact div_ne_zero hS hC
  rw [e, div_self ht, Complex.ofReal_one, mul_one] at h
  rw [h, ← A_carre]
  have hI := Complex.I_sq
  cases s.type <;> simp only [protoNum, protoDen, hI]
  · field_simp
    linear_combination hI
  · field_simp
    linear_combination -hI
  · have : Complex.I / (s.Q : ℂ) ≠ 0 := div_ne_zero Complex.I_ne_zero hQ'
    field_simp
    ring
  · simp
  · have := Complex.I_ne_zero
    push_cast
    field_simp
    ring

/-- **C93 (names).** An unknown name of type is not rejected: it silently designs a low-pass. -/
theorem C93_nom_refute (t : String) (ht : t ∉ ["lp", "pb", "hp", "ph", "bp", "passe-bande", "cb", "notch", "sb", "plateau-bf", "plateau-hf", "res"]) (f Q g : ℝ) :
    designBiquadNom t f Q g = designBiquadNom "lp" f Q g := by
  simp only [List.mem_cons, List.not_mem_nil, or_false, not_or] at ht
  unfold designBiquadNom typeBiquad
  simp [ht]

/-- Non-vacuity: a low-pass at a quarter of the sampling frequency, `Q = 1`, satisfies the hypotheses of the theorems of this section. -/
example : ∃ s : BiquadSpec, 0 < s.f ∧ s.f < 1 / 2 ∧ 0 < s.Q ∧ ((coefsSpec s).b2 ≠ 0 ∨ (coefsSpec s).a2 ≠ 0) ∧ Real.cos ((Real.pi / 3 : ℝ) / 2) ≠ 0 := by
  refine ⟨⟨.passeBas, 1 / 4, 1, 0⟩, by norm_num, by norm_num, by norm_num, Or.inl ?_, ?_⟩
  · simp only [coefsSpec, coefsBiquad]
    rw [show 2 * Real.pi * (1 / 4) = Real.pi / 2 by ring, Real.cos_pi_div_two]
    norm_num
  · rw [show (Real.pi / 3 : ℝ) / 2 = Real.pi / 6 by ring, Real.cos_pi_div_six]
    positivity

end Verif.Rii
