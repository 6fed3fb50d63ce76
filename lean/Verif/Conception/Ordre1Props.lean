/-
C85: first and second order designs (exponential filter, DC blocker, notch, moving average).

Specification: the difference equation satisfied by the output of `filtre_rii(design_…(…))` for every stream and every cutting of it
(`convolution b y n = convolution a x n`, i.e. `∑ b_k y(n-k) = ∑ a_k x(n-k)`), and the value of the rational function at points of the unit circle.
-/
import Verif.Conception.Ordre1
import Verif.Poly.FiltreRii
import Mathlib.Analysis.Real.Pi.Bounds
import Mathlib.Analysis.SpecialFunctions.Trigonometric.Bounds
import Mathlib.Analysis.SpecialFunctions.Complex.Circle
import Mathlib.Analysis.SpecialFunctions.Trigonometric.Series
import Mathlib.Analysis.SpecialFunctions.Trigonometric.DerivHyp
import Mathlib.Algebra.BigOperators.Field

set_option linter.unusedSectionVars false

namespace Verif.Conception

open Verif.FracRat Verif.Filtre Finset

/-! ### Shapes of the rational functions -/

section
variable {K : Type} [Field K] [DecidableEq K]

theorem z_plus (s : K) : FRat.addScal FRat.z s = ⟨Poly.deCoefs [s, 1], Poly.deCoefs [1]⟩ := by
  simp [FRat.addScal, FRat.z, Poly.z, Poly.one, Poly.deCoefs, Poly.mulScal, Poly.add, Poly.versCoefs, ajouteCoefs]

theorem z_fois (s : K) : FRat.mulScal FRat.z s = ⟨Poly.deCoefs [0, s], Poly.deCoefs [1]⟩ := by
  simp [FRat.mulScal, FRat.z, Poly.z, Poly.one, Poly.deCoefs, Poly.mulScal]

theorem mul_un (e : List K) : (Poly.deCoefs e).mul (Poly.deCoefs [1]) = Poly.deCoefs e := by
  simp [Poly.mul, Poly.deCoefs, Poly.versCoefs, produitCoefs, ajoute_nil, boucleProduit, partiel]

theorem div_polys (a b : List K) (hb : b ≠ []) (h : nbNuls a = 0 ∨ nbNuls b = 0) :
    FRat.div ⟨Poly.deCoefs a, Poly.deCoefs [1]⟩ ⟨Poly.deCoefs b, Poly.deCoefs [1]⟩ = ⟨Poly.deCoefs a, Poly.deCoefs b⟩ := by
  have h1 := un_mul b hb
  unfold Poly.one at h1
  unfold FRat.div
  simp only [mul_un, h1]
  have hm : ¬ 0 < min (nbNuls (Poly.deCoefs a).coefs) (nbNuls (Poly.deCoefs b).coefs) := by
    show ¬ 0 < min (nbNuls a) (nbNuls b)
    omega
  unfold FRat.simplifie
  rw [if_neg (by simp [Poly.deCoefs]), if_neg hm]

theorem fois (a b : List K) (r : K) : FRat.mulScal ⟨Poly.deCoefs a, Poly.deCoefs b⟩ r = ⟨Poly.deCoefs (a.map (· * r)), Poly.deCoefs b⟩ := by
  simp [FRat.mulScal, Poly.mulScal, Poly.deCoefs]

theorem lexp_forme (γ : K) (h : γ ≠ 1) : lexpFRat γ = ⟨Poly.deCoefs [0, γ], Poly.deCoefs [-(1 - γ), 1]⟩ := by
  unfold lexpFRat
  rw [z_fois, z_plus, div_polys _ _ (by simp)]
  right
  have : -(1 - γ) ≠ 0 := by
    rw [neg_sub]
    exact sub_ne_zero.2 h
  rw [nbNuls, if_neg this]

theorem bloqueur_forme (r : K) : bloqueurFRat r = ⟨Poly.deCoefs [-r, r], Poly.deCoefs [-r, 1]⟩ := by
  unfold bloqueurFRat
  rw [z_plus, z_plus, div_polys _ _ (by simp) (Or.inl (by simp [nbNuls])), fois]
  simp

theorem quadratique (a b : K) : ((FRat.z.mul FRat.z).sub (FRat.z.mulScal a)).addScal b = ⟨Poly.deCoefs [b, -a, 1], Poly.deCoefs [1]⟩ := by
  simp [FRat.mul, FRat.sub, FRat.add, FRat.neg, FRat.addScal, FRat.mulScal, FRat.z, Poly.z, Poly.one, Poly.deCoefs, Poly.mul, Poly.neg, Poly.add,
    Poly.mulScal, Poly.versCoefs, produitCoefs, ajouteCoefs, partiel, boucleProduit]

theorem notch_forme (r c : K) : notchFRat r c = ⟨Poly.deCoefs [r, -(2 * c) * r, r], Poly.deCoefs [r * r, -(2 * r * c), 1]⟩ := by
  unfold notchFRat
  rw [quadratique, quadratique, div_polys _ _ (by simp) (Or.inl (by simp [nbNuls])), fois]
  simp

/-- Running `filtre_rii` on a quotient of two polynomials of the same length. -/
theorem rii_polys (a b : List K) (hl : a.length = b.length) (hb : 2 ≤ b.length) (h0 : b.reverse.getD 0 0 ≠ 0) (blocs : List (List K)) :
    ∃ s0 s y, filtreRii ⟨Poly.deCoefs a, Poly.deCoefs b⟩ = some s0 ∧
      enchaine (Rii.step (0 : K) (· + ·) (· - ·) (· * ·) (· / ·)) s0 blocs = some (s, y) ∧
      y.length = blocs.flatten.length ∧ ∀ n, n < y.length → convolution b.reverse y n = convolution a.reverse blocs.flatten n := by
  unfold filtreRii
  rw [inv_egal a b hl]
  simp only [versCoefs_deCoefs]
  exact rii_conv a.reverse b.reverse (by simp; rintro rfl; simp at hl; omega) (by simpa using hb) h0 blocs

/-! ### Moving average -/

theorem mg_boucle (c : K) : ∀ (m k : ℕ),
    hornerFRat FRat.zinv (List.replicate m c) ⟨Poly.deCoefs (List.replicate (k + 1) c), Poly.deCoefs (List.replicate k 0 ++ [1])⟩ =
      ⟨Poly.deCoefs (List.replicate (k + m + 1) c), Poly.deCoefs (List.replicate (k + m) 0 ++ [1])⟩ := by
  intro m
  induction m with
  | zero => intro k; rfl
  | succ m ih =>
    intro k
    have h1 : (FRat.mul ⟨Poly.deCoefs (List.replicate (k + 1) c), Poly.deCoefs (List.replicate k 0 ++ [1])⟩ FRat.zinv).add (FRat.cst c) =
        ⟨Poly.deCoefs (List.replicate (k + 1 + 1) c), Poly.deCoefs (List.replicate (k + 1) 0 ++ [1])⟩ := by
      have e1 : (Poly.one : Poly K).mulScal c = Poly.deCoefs [c] := by simp [Poly.one, Poly.mulScal, Poly.deCoefs]
      have e3 : (Poly.deCoefs [c]).mul (Poly.deCoefs (0 :: (List.replicate k 0 ++ [1]))) = Poly.deCoefs (List.replicate (k + 1) 0 ++ [c]) := by
        have : ∀ (b : List K) (res : List K), boucleProduit [c] res.length b res = res ++ b.map (c * ·) := by
          intro b
          induction b with
          | nil => intro res; simp [boucleProduit]
          | cons d b ihb =>
            intro res
            have hf : ajouteCoefs res (partiel [c] res.length d) = res ++ [c * d] := by
              have hp : partiel [c] res.length d = partiel [1] res.length (c * d) := by simp [partiel]
              rw [hp, ajoute_fin]
            rw [boucleProduit, hf]
            have := ihb (res ++ [c * d])
            rw [List.length_append, List.length_singleton] at this
            rw [this, List.append_assoc, List.singleton_append, List.map_cons]
        have h := this (List.replicate k 0 ++ [1]) [c * 0]
        simp only [List.length_singleton] at h
        simp only [Poly.mul, Poly.deCoefs, Poly.versCoefs, produitCoefs, Bool.false_eq_true, if_false, ajoute_nil]
        rw [show partiel [c] 0 0 = [c * 0] by simp [partiel], h]
        simp [List.replicate_succ]
      have e4 : ajouteCoefs (List.replicate (k + 1) c) (List.replicate (k + 1) 0 ++ [c]) = List.replicate (k + 1 + 1) c := by
        unfold ajouteCoefs
        rw [if_neg (by simp), if_neg (by simp)]
        rw [List.take_left' (by simp), List.drop_left' (by simp)]
        rw [List.zipWith_replicate]
        simp [← List.replicate_succ']
      unfold FRat.mul FRat.zinv FRat.add FRat.cst
      simp only [mul_z, e1]
      rw [show (Poly.one : Poly K) = Poly.deCoefs [1] from rfl]
      simp only [mul_un, e3]
      simp only [Poly.add, versCoefs_deCoefs]
      rw [show (Poly.deCoefs (List.replicate (k + 1) c)).coefs = List.replicate (k + 1) c from rfl,
        show (Poly.deCoefs (List.replicate (k + 1) 0 ++ [c])).coefs = List.replicate (k + 1) 0 ++ [c] from rfl, e4]
      rfl
    rw [List.replicate_succ, hornerFRat, h1, ih (k + 1)]
    rw [show k + 1 + m = k + (m + 1) by omega]

/-- **C85.** `design_mg(n)` is exactly the FIR transfer function with `n` coefficients `1/n` (the one built by `FRat::rif`, C31). -/
theorem C85_mg (n : ℕ) (hn : 0 < n) (h0 : (n : K) ≠ 0) : (designMg n : FRat K) = FRat.rif (List.replicate n (1 / (n : K))) := by
  obtain ⟨m, rfl⟩ := Nat.exists_eq_succ_of_ne_zero hn.ne'
  have hc : 1 / ((m + 1 : ℕ) : K) ≠ 0 := one_div_ne_zero h0
  generalize hcd : 1 / ((m + 1 : ℕ) : K) = c at hc
  unfold designMg FRat.hornerF
  simp only [Nat.succ_eq_add_one, hcd]
  have e1 : Poly.hornerF ({ Poly.one with coefs := List.replicate (m + 1) c } : Poly K) FRat.zinv =
      ⟨Poly.deCoefs (List.replicate (m + 1) c), Poly.deCoefs (List.replicate m 0 ++ [1])⟩ := by
    have hr : ({ Poly.one with coefs := List.replicate (m + 1) c } : Poly K).coefs.reverse = c :: List.replicate m c := by
      show (List.replicate (m + 1) c).reverse = _
      rw [List.reverse_replicate, List.replicate_succ]
    have := mg_boucle c m 0
    simp only [zero_add, List.replicate_zero, List.nil_append, List.replicate_one] at this
    unfold Poly.hornerF
    rw [hr, ← this]
    show hornerFRat FRat.zinv (List.replicate m c) (FRat.cst c) = _
    congr 1
    simp [FRat.cst, Poly.one, Poly.mulScal, Poly.deCoefs]
  have e2 : Poly.hornerF (Poly.one : Poly K) FRat.zinv = ⟨Poly.deCoefs [1], Poly.deCoefs [1]⟩ := by
    simp [Poly.hornerF, Poly.one, Poly.deCoefs, hornerFRat, FRat.cst, Poly.mulScal]
  rw [e1, e2]
  unfold FRat.div
  simp only [mul_un]
  unfold FRat.simplifie
  rw [if_neg (by simp [Poly.deCoefs])]
  have hz : nbNuls (Poly.deCoefs (List.replicate (m + 1) c)).coefs = 0 := by
    simp [Poly.deCoefs, List.replicate_succ, nbNuls, hc]
  rw [if_neg (by rw [hz]; omega)]
  unfold FRat.rif
  rw [if_neg (by simp)]
  simp

/-- **C85.** `filtre_rii(design_mg(n))`, `n ≥ 2`: the mean of the last `n` samples, for every stream and every cutting. -/
theorem C85_mg_flux (n : ℕ) (hn : 2 ≤ n) (h0 : (n : K) ≠ 0) (blocs : List (List K)) :
    ∃ s0 s y, filtreRii (designMg n : FRat K) = some s0 ∧
      enchaine (Rii.step (0 : K) (· + ·) (· - ·) (· * ·) (· / ·)) s0 blocs = some (s, y) ∧
      y.length = blocs.flatten.length ∧ ∀ t, t < y.length → y.getD t 0 = moyenne n blocs.flatten t := by
  rw [C85_mg n (by omega) h0, FRat.rif, if_neg (by simp; omega)]
  obtain ⟨s0, s, y, e1, e2, l, g⟩ := rii_polys (List.replicate n (1 / (n : K))).reverse (List.replicate (n - 1) 0 ++ [1]) (by simp; omega)
    (by simp; omega) (by simp) blocs
  refine ⟨s0, s, y, by simpa using e1, e2, l, fun t ht => ?_⟩
  have := g t ht
  rw [List.reverse_reverse, List.reverse_append, List.reverse_replicate, List.reverse_singleton, List.singleton_append] at this
  have h1 : convolution (1 :: List.replicate (n - 1) (0 : K)) y t = y.getD t 0 := by
    unfold convolution
    rw [List.length_cons, sum_range_succ', sum_eq_zero]
    · simp [passe]
    · intro k hk
      rw [List.getD_cons_succ, List.getD_eq_getElem?_getD]
      simp at hk
      simp [List.getElem?_replicate, hk]
  rw [← h1, this]
  unfold convolution moyenne
  rw [List.length_replicate, Finset.sum_div]
  refine sum_congr rfl fun k hk => ?_
  rw [List.getD_eq_getElem?_getD]
  simp at hk
  simp [List.getElem?_replicate, hk]
  ring

end

/-! ### Forgetting factor, cut-off frequency, time constant -/

theorem un_moins_coef (fc : ℝ) : 1 - lexpCoef fc = Real.exp (-(2 * Real.pi * fc)) := by
  unfold lexpCoef
  rw [sub_sub_cancel]
  congr 1
  ring

/-- **C85.** `lexp_coef` / `lexp_fcoupure` and `lexp_tc_vers_coef` / `lexp_coef_vers_tc` are mutual inverses; `γ = 1 - e^{-1/τ}`; the factor is in
`]0, 1[` for every positive cut-off frequency. -/
theorem C85_coef : (∀ fc, lexpFcoupure (lexpCoef fc) = fc) ∧ (∀ γ < 1, lexpCoef (lexpFcoupure γ) = γ) ∧
    (∀ τ, τ ≠ 0 → lexpCoefVersTc (lexpTcVersCoef τ) = τ) ∧ (∀ γ < 1, γ ≠ 0 → lexpTcVersCoef (lexpCoefVersTc γ) = γ) ∧
    (∀ τ, τ ≠ 0 → lexpTcVersCoef τ = 1 - Real.exp (-1 / τ)) ∧ ∀ fc, 0 < fc → 0 < lexpCoef fc ∧ lexpCoef fc < 1 := by
  have hpi := Real.pi_pos
  have a1 : ∀ fc, lexpFcoupure (lexpCoef fc) = fc := by
    intro fc
    unfold lexpFcoupure
    rw [un_moins_coef, Real.log_exp]
    field_simp
  have a2 : ∀ γ < 1, lexpCoef (lexpFcoupure γ) = γ := by
    intro γ h
    have := un_moins_coef (lexpFcoupure γ)
    unfold lexpFcoupure at this ⊢
    rw [show -(2 * Real.pi * (-Real.log (1 - γ) / (2 * Real.pi))) = Real.log (1 - γ) by field_simp, Real.exp_log (by linarith)] at this
    linarith
  refine ⟨a1, a2, ?_, ?_, ?_, ?_⟩
  · intro τ h
    unfold lexpCoefVersTc lexpTcVersCoef
    rw [a1]
    field_simp
  · intro γ h h0
    unfold lexpCoefVersTc lexpTcVersCoef
    have hne : lexpFcoupure γ ≠ 0 := by
      intro e
      have := a2 γ h
      rw [e] at this
      simp [lexpCoef] at this
      exact h0 this.symm
    rw [show 1 / (2 * Real.pi * (1 / (2 * Real.pi * lexpFcoupure γ))) = lexpFcoupure γ by field_simp, a2 γ h]
  · intro τ h
    unfold lexpTcVersCoef lexpCoef
    congr 2
    field_simp
  · intro fc h
    have h1 : Real.exp (-(2 * Real.pi * fc)) < 1 := by
      rw [Real.exp_lt_one_iff]
      have : 0 < 2 * Real.pi * fc := by positivity
      linarith
    have h2 := Real.exp_pos (-(2 * Real.pi * fc))
    have h3 := un_moins_coef fc
    constructor <;> linarith

example : lexpTcVersCoef 1 = 1 - Real.exp (-1) := by
  rw [C85_coef.2.2.2.2.1 1 one_ne_zero, div_one]

theorem C85_frequence (f : ℝ) : frequenceNormalisee f = true ↔ 0 ≤ f ∧ f ≤ 1 / 2 := by
  unfold frequenceNormalisee
  simp only [Bool.not_eq_true', Bool.or_eq_false_iff, decide_eq_false_iff_not, not_lt, gt_iff_lt]
  norm_num

/-! ### Exponential filter -/

/-- **C85.** `filtre_rii(design_lexp(fc))`: `y_n = γ x_n + (1 - γ) y_{n-1}` (zero past) for every stream and every cutting. -/
theorem C85_lexp_flux (fc : ℝ) (blocs : List (List ℝ)) :
    ∃ s0 s y, filtreRii (designLexp fc) = some s0 ∧
      enchaine (Rii.step (0 : ℝ) (· + ·) (· - ·) (· * ·) (· / ·)) s0 blocs = some (s, y) ∧ y.length = blocs.flatten.length ∧
      ∀ n, n < y.length → y.getD n 0 = lexpCoef fc * blocs.flatten.getD n 0 + (1 - lexpCoef fc) * passe y n 1 := by
  have hne : lexpCoef fc ≠ 1 := by
    have h1 := un_moins_coef fc
    have h2 := Real.exp_pos (-(2 * Real.pi * fc))
    intro h
    linarith
  unfold designLexp
  rw [lexp_forme _ hne]
  obtain ⟨s0, s, y, e1, e2, l, g⟩ := rii_polys [0, lexpCoef fc] [-(1 - lexpCoef fc), 1] rfl (by simp) (by simp) blocs
  refine ⟨s0, s, y, e1, e2, l, fun n hn => ?_⟩
  have := g n hn
  simp only [convolution, List.reverse_cons, List.reverse_nil, List.nil_append, List.singleton_append, List.length_cons, List.length_nil,
    sum_range_succ, sum_range_zero, List.getD_cons_zero, List.getD_cons_succ] at this
  simp only [show ∀ x : List ℝ, passe x n 0 = x.getD n 0 from fun x => by simp [passe]] at this
  linarith

/-- **C85.** `design_lexp(γ)` with the forgetting factor computed from a time constant `τ > 0`: the answer to a step of height `c` is
`c (1 - e^{-(n+1)/τ})`. -/
theorem C85_lexp_echelon (τ c : ℝ) (hτ : 0 < τ) (blocs : List (List ℝ)) (hc : ∀ v ∈ blocs.flatten, v = c) :
    ∃ s0 s y, filtreRii (designLexpCoef (lexpTcVersCoef τ)) = some s0 ∧
      enchaine (Rii.step (0 : ℝ) (· + ·) (· - ·) (· * ·) (· / ·)) s0 blocs = some (s, y) ∧ y.length = blocs.flatten.length ∧
      ∀ n, n < y.length → y.getD n 0 = c * (1 - Real.exp (-(n + 1) / τ)) := by
  obtain ⟨s0, s, y, e1, e2, l, g⟩ := C85_lexp_flux (lexpFcoupure (lexpTcVersCoef τ)) blocs
  refine ⟨s0, s, y, e1, e2, l, ?_⟩
  have hγ : lexpTcVersCoef τ = 1 - Real.exp (-1 / τ) := C85_coef.2.2.2.2.1 τ hτ.ne'
  rw [C85_coef.2.1 _ (by rw [hγ]; linarith [Real.exp_pos (-1 / τ)]), hγ] at g
  intro n
  have hx : ∀ n, n < y.length → blocs.flatten.getD n 0 = c := by
    intro n hn
    rw [l] at hn
    rw [List.getD_eq_getElem _ _ hn]
    exact hc _ (List.getElem_mem hn)
  induction n with
  | zero =>
    intro hn
    rw [g 0 hn, hx 0 hn]
    simp [passe]
    ring_nf
  | succ n ih =>
    intro hn
    rw [g (n + 1) hn, hx (n + 1) hn]
    simp only [passe, show (1 ≤ n + 1) = True by simp, if_true, Nat.add_sub_cancel]
    rw [ih (by omega)]
    have he : Real.exp (-((n + 1 : ℕ) + 1 : ℝ) / τ) = Real.exp (-1 / τ) * Real.exp (-((n : ℝ) + 1) / τ) := by
      rw [← Real.exp_add]
      congr 1
      push_cast
      field_simp
      ring
    rw [he]
    ring

/-- Specification: squared gain of a digital transfer function at the normalised frequency `ν`. -/
noncomputable def gainCarre (H : FRat ℝ) (ν : ℝ) : ℝ :=
  Complex.normSq (H.horner Complex.ofRealHom (Complex.exp ((2 * Real.pi * ν : ℝ) * Complex.I)))

theorem horner_polys (a b : List ℝ) (z : ℂ) : (⟨Poly.deCoefs a, Poly.deCoefs b⟩ : FRat ℝ).horner Complex.ofRealHom z =
    valCoefs Complex.ofRealHom a z / valCoefs Complex.ofRealHom b z := by
  unfold FRat.horner
  rw [horner_deCoefs, horner_deCoefs]

theorem normSq_deux (a b ω : ℝ) : Complex.normSq (valCoefs Complex.ofRealHom [a, b] (Complex.exp (ω * Complex.I))) =
    a ^ 2 + b ^ 2 + 2 * a * b * Real.cos ω := by
  simp only [valCoefs_cons, valCoefs_nil, mul_zero, add_zero, Complex.ofRealHom_eq_coe, Complex.exp_mul_I, ← Complex.ofReal_cos, ← Complex.ofReal_sin]
  rw [Complex.normSq_apply]
  simp only [Complex.add_re, Complex.add_im, Complex.mul_re, Complex.mul_im, Complex.ofReal_re, Complex.ofReal_im, Complex.I_re, Complex.I_im]
  linear_combination (b ^ 2) * Real.sin_sq_add_cos_sq ω

theorem gain_lexp (fc ν : ℝ) : gainCarre (designLexp fc) ν =
    lexpCoef fc ^ 2 / (1 + (1 - lexpCoef fc) ^ 2 - 2 * (1 - lexpCoef fc) * Real.cos (2 * Real.pi * ν)) := by
  have hne : lexpCoef fc ≠ 1 := by
    have h1 := un_moins_coef fc
    have h2 := Real.exp_pos (-(2 * Real.pi * fc))
    intro h
    linarith
  unfold gainCarre designLexp
  rw [lexp_forme _ hne, horner_polys, Complex.normSq_div, normSq_deux, normSq_deux]
  congr 1 <;> ring

theorem gain_bloqueur (fc ν : ℝ) : gainCarre (designBloqueurDc fc) ν =
    (1 - lexpCoef fc) ^ 2 * (2 - 2 * Real.cos (2 * Real.pi * ν)) /
      (1 + (1 - lexpCoef fc) ^ 2 - 2 * (1 - lexpCoef fc) * Real.cos (2 * Real.pi * ν)) := by
  unfold gainCarre designBloqueurDc
  rw [bloqueur_forme, horner_polys, Complex.normSq_div, normSq_deux, normSq_deux]
  congr 1 <;> ring

/-- **C85.** Unit gain at DC for the exponential filter, and gain at most 1 at every frequency. -/
theorem C85_lexp_gain (fc : ℝ) (h : 0 < fc) : gainCarre (designLexp fc) 0 = 1 ∧ ∀ ν, gainCarre (designLexp fc) ν ≤ 1 := by
  obtain ⟨h0, h1⟩ := C85_coef.2.2.2.2.2 fc h
  constructor
  · rw [gain_lexp]
    simp only [mul_zero, Real.cos_zero]
    rw [show 1 + (1 - lexpCoef fc) ^ 2 - 2 * (1 - lexpCoef fc) * 1 = lexpCoef fc ^ 2 by ring]
    exact div_self (by positivity)
  · intro ν
    rw [gain_lexp]
    apply div_le_one_of_le₀
    · nlinarith [Real.cos_le_one (2 * Real.pi * ν)]
    · nlinarith [Real.cos_le_one (2 * Real.pi * ν), sq_nonneg (lexpCoef fc)]

theorem cosh_forme (ω : ℝ) : Real.exp (-ω) * (2 * Real.cosh ω) = 1 + Real.exp (-ω) ^ 2 := by
  rw [Real.cosh_eq, show Real.exp (-ω) * (2 * ((Real.exp ω + Real.exp (-ω)) / 2)) = Real.exp (-ω) * Real.exp ω + Real.exp (-ω) ^ 2 by ring,
    ← Real.exp_add]
  simp

/-- The squared gains at the cut-off frequency in closed form. -/
theorem gain_coupure (fc : ℝ) : gainCarre (designLexp fc) fc =
      (Real.cosh (2 * Real.pi * fc) - 1) / (Real.cosh (2 * Real.pi * fc) - Real.cos (2 * Real.pi * fc)) ∧
    gainCarre (designBloqueurDc fc) fc =
      Real.exp (-(2 * Real.pi * fc)) * (1 - Real.cos (2 * Real.pi * fc)) / (Real.cosh (2 * Real.pi * fc) - Real.cos (2 * Real.pi * fc)) := by
  rw [gain_lexp, gain_bloqueur, un_moins_coef, show lexpCoef fc = 1 - Real.exp (-(2 * Real.pi * fc)) by rw [← un_moins_coef]; ring]
  generalize 2 * Real.pi * fc = ω
  have hc := cosh_forme ω
  have hp := Real.exp_pos (-ω)
  generalize Real.exp (-ω) = r at *
  rw [← hc, show (1 - r) ^ 2 = (2 * r) * (Real.cosh ω - 1) by linear_combination -hc,
    show r * (2 * Real.cosh ω) - 2 * r * Real.cos ω = 2 * r * (Real.cosh ω - Real.cos ω) by ring]
  constructor
  · exact mul_div_mul_left _ _ (by positivity)
  · rw [show r ^ 2 * (2 - 2 * Real.cos ω) = 2 * r * (r * (1 - Real.cos ω)) by ring]
    exact mul_div_mul_left _ _ (by positivity)

theorem cosh_minore (x : ℝ) (hx : 0 < x) : 1 + x ^ 2 / 2 < Real.cosh x := by
  have h1 : Real.cosh x = 1 + 2 * Real.sinh (x / 2) ^ 2 := by
    have := Real.cosh_two_mul (x / 2)
    rw [show 2 * (x / 2) = x by ring] at this
    have h2 := Real.cosh_sq (x / 2)
    linarith
  have h2 : x / 2 < Real.sinh (x / 2) := by
    have h3 := Real.sinh_sub_id_strictMono (show (0 : ℝ) < x / 2 by linarith)
    simp only [Real.sinh_zero, sub_zero] at h3
    linarith
  nlinarith

/-- **C85 (cut-off).** "`fc`: cut-off frequency at -3 dB" holds approximately for small frequencies: with `ω = 2π fc ≤ 1`, the squared gain of the
exponential filter at `fc` is in `]1/2, 1/2 + ω²/6]`, and the one of the DC blocker in `[(1 - ω)(1/2 - ω²/6), 1/2[`. -/
theorem C85_coupure_partial (fc : ℝ) (h : 0 < fc) (h1 : 2 * Real.pi * fc ≤ 1) :
    1 / 2 < gainCarre (designLexp fc) fc ∧ gainCarre (designLexp fc) fc ≤ 1 / 2 + (2 * Real.pi * fc) ^ 2 / 6 ∧
    gainCarre (designBloqueurDc fc) fc < 1 / 2 ∧
    (1 - 2 * Real.pi * fc) * (1 / 2 - (2 * Real.pi * fc) ^ 2 / 6) ≤ gainCarre (designBloqueurDc fc) fc := by
  obtain ⟨e1, e2⟩ := gain_coupure fc
  rw [e1, e2]
  have hω : 0 < 2 * Real.pi * fc := by have := Real.pi_pos; positivity
  generalize 2 * Real.pi * fc = ω at *
  clear e1 e2
  have c1 := cosh_minore ω hω
  have c2 := Real.one_sub_sq_div_two_le_cos (x := ω)
  have c3 := Real.cos_bound (x := ω) (by rw [abs_of_pos hω]; exact h1)
  rw [abs_of_pos hω, abs_le] at c3
  have c4 := Real.cosh_le_exp_half_sq ω
  have c5 : Real.exp (ω ^ 2 / 2) ≤ 1 + ω ^ 2 / 2 + ω ^ 4 / 4 := by
    have hb : |ω ^ 2 / 2| ≤ 1 := by
      rw [abs_of_nonneg (by positivity)]
      nlinarith
    have := (abs_le.1 (Real.abs_exp_sub_one_sub_id_le hb)).2
    nlinarith
  have hω2 : ω ^ 4 ≤ ω ^ 2 := pow_le_pow_of_le_one hω.le h1 (by norm_num)
  have hden : 0 < Real.cosh ω - Real.cos ω := by nlinarith [c3.2, mul_pos hω hω]
  have hup : (Real.cosh ω - 1) / (Real.cosh ω - Real.cos ω) ≤ 1 / 2 + ω ^ 2 / 6 := by
    rw [div_le_iff₀ hden]
    have : ω ^ 2 * (1 - 5 / 96 * ω ^ 2) ≤ Real.cosh ω - Real.cos ω := by nlinarith [c3.2]
    have h6 : ω ^ 6 ≤ ω ^ 4 := by nlinarith [mul_nonneg (sq_nonneg ω) (sub_nonneg.2 hω2)]
    nlinarith [mul_le_mul_of_nonneg_left this (show 0 ≤ ω ^ 2 / 6 by positivity), c3.2]
  have hcomp : (1 - Real.cos ω) / (Real.cosh ω - Real.cos ω) = 1 - (Real.cosh ω - 1) / (Real.cosh ω - Real.cos ω) := by
    rw [eq_sub_iff_add_eq, ← add_div, show 1 - Real.cos ω + (Real.cosh ω - 1) = Real.cosh ω - Real.cos ω by ring, div_self hden.ne']
  have hlow : 1 / 2 < (Real.cosh ω - 1) / (Real.cosh ω - Real.cos ω) := by
    rw [lt_div_iff₀ hden]
    linarith
  have hr1 : Real.exp (-ω) < 1 := by
    rw [Real.exp_lt_one_iff]
    linarith
  have hr0 := Real.exp_pos (-ω)
  have hr2 : 1 - ω ≤ Real.exp (-ω) := by linarith [Real.add_one_le_exp (-ω)]
  refine ⟨hlow, hup, ?_, ?_⟩
  · rw [mul_div_assoc, hcomp]
    have : 0 ≤ 1 - (Real.cosh ω - 1) / (Real.cosh ω - Real.cos ω) := by nlinarith
    nlinarith
  · rw [mul_div_assoc, hcomp]
    have : 0 ≤ 1 / 2 - ω ^ 2 / 6 := by nlinarith
    nlinarith

/-- **C85, refuted**: the cut-off is never exactly at half power, and at `fc = 1/2` the exponential filter attenuates its "cut-off" frequency by less
than 2 dB (squared gain above 2/3). -/
theorem C85_coupure_refute : (∀ fc, 0 < fc → gainCarre (designLexp fc) fc ≠ 1 / 2) ∧ 2 / 3 < gainCarre (designLexp (1 / 2)) (1 / 2) := by
  constructor
  · intro fc h
    rw [(gain_coupure fc).1]
    have hω : 0 < 2 * Real.pi * fc := by have := Real.pi_pos; positivity
    generalize 2 * Real.pi * fc = ω at *
    have c1 := cosh_minore ω hω
    have c2 := Real.one_sub_sq_div_two_le_cos (x := ω)
    have hden : 0 < Real.cosh ω - Real.cos ω := by nlinarith [Real.cos_le_one ω, mul_pos hω hω]
    intro e
    rw [div_eq_iff hden.ne'] at e
    linarith
  · rw [(gain_coupure (1 / 2)).1]
    rw [show 2 * Real.pi * (1 / 2) = Real.pi by ring, Real.cos_pi]
    have c1 := cosh_minore Real.pi Real.pi_pos
    have := Real.pi_gt_three
    rw [lt_div_iff₀ (by nlinarith)]
    nlinarith [show (3.14 : ℝ) < Real.pi from Real.pi_gt_d2]

example : ∃ fc : ℝ, 0 < fc ∧ 2 * Real.pi * fc ≤ 1 :=
  ⟨1 / 8, by norm_num, by nlinarith [Real.pi_lt_four]⟩

/-! ### DC blocker -/

/-- **C85.** `filtre_rii(design_bloqueur_dc(fc))`: `y_n = r (x_n - x_{n-1}) + r y_{n-1}` with `r = e^{-2π fc}`. -/
theorem C85_bloqueur_flux (fc : ℝ) (blocs : List (List ℝ)) :
    ∃ s0 s y, filtreRii (designBloqueurDc fc) = some s0 ∧
      enchaine (Rii.step (0 : ℝ) (· + ·) (· - ·) (· * ·) (· / ·)) s0 blocs = some (s, y) ∧ y.length = blocs.flatten.length ∧
      ∀ n, n < y.length → y.getD n 0 = Real.exp (-(2 * Real.pi * fc)) * (blocs.flatten.getD n 0 - passe blocs.flatten n 1) +
        Real.exp (-(2 * Real.pi * fc)) * passe y n 1 := by
  unfold designBloqueurDc
  rw [bloqueur_forme, un_moins_coef]
  generalize Real.exp (-(2 * Real.pi * fc)) = r
  obtain ⟨s0, s, y, e1, e2, l, g⟩ := rii_polys [-r, r] [-r, 1] rfl (by simp) (by simp) blocs
  refine ⟨s0, s, y, e1, e2, l, fun n hn => ?_⟩
  have := g n hn
  simp only [convolution, List.reverse_cons, List.reverse_nil, List.nil_append, List.singleton_append, List.length_cons, List.length_nil,
    sum_range_succ, sum_range_zero, List.getD_cons_zero, List.getD_cons_succ] at this
  simp only [show ∀ x : List ℝ, passe x n 0 = x.getD n 0 from fun x => by simp [passe]] at this
  linarith

/-- **C85.** The DC blocker removes a constant: its answer to the constant `c` is `c r^{n+1}`, `r = e^{-2π fc}`. -/
theorem C85_bloqueur_constante (fc c : ℝ) (blocs : List (List ℝ)) (hc : ∀ v ∈ blocs.flatten, v = c) :
    ∃ s0 s y, filtreRii (designBloqueurDc fc) = some s0 ∧
      enchaine (Rii.step (0 : ℝ) (· + ·) (· - ·) (· * ·) (· / ·)) s0 blocs = some (s, y) ∧ y.length = blocs.flatten.length ∧
      ∀ n, n < y.length → y.getD n 0 = c * Real.exp (-(2 * Real.pi * fc)) ^ (n + 1) := by
  obtain ⟨s0, s, y, e1, e2, l, g⟩ := C85_bloqueur_flux fc blocs
  refine ⟨s0, s, y, e1, e2, l, ?_⟩
  generalize Real.exp (-(2 * Real.pi * fc)) = r at *
  have hx : ∀ n, n < y.length → blocs.flatten.getD n 0 = c := by
    intro n hn
    rw [l] at hn
    rw [List.getD_eq_getElem _ _ hn]
    exact hc _ (List.getElem_mem hn)
  intro n
  induction n with
  | zero =>
    intro hn
    rw [g 0 hn, hx 0 hn]
    simp [passe]
    ring
  | succ n ih =>
    intro hn
    rw [g (n + 1) hn, hx (n + 1) hn]
    simp only [passe, show (1 ≤ n + 1) = True by simp, if_true, Nat.add_sub_cancel]
    rw [ih (by omega), hx n (by omega)]
    ring

/-- **C85.** Gains of the DC blocker: 0 at DC, `2r/(1+r)` (below 1) at the Nyquist frequency. -/
theorem C85_bloqueur_gain (fc : ℝ) (h : 0 < fc) : gainCarre (designBloqueurDc fc) 0 = 0 ∧
    gainCarre (designBloqueurDc fc) (1 / 2) = (2 * Real.exp (-(2 * Real.pi * fc)) / (1 + Real.exp (-(2 * Real.pi * fc)))) ^ 2 ∧
    gainCarre (designBloqueurDc fc) (1 / 2) < 1 := by
  have e : gainCarre (designBloqueurDc fc) (1 / 2) = (2 * Real.exp (-(2 * Real.pi * fc)) / (1 + Real.exp (-(2 * Real.pi * fc)))) ^ 2 := by
    rw [gain_bloqueur, un_moins_coef, show 2 * Real.pi * (1 / 2) = Real.pi by ring, Real.cos_pi, div_pow]
    congr 1 <;> ring
  refine ⟨?_, e, ?_⟩
  · rw [gain_bloqueur]
    simp
  · rw [e]
    have h0 := Real.exp_pos (-(2 * Real.pi * fc))
    have h1 : Real.exp (-(2 * Real.pi * fc)) < 1 := by
      rw [Real.exp_lt_one_iff]
      have := Real.pi_pos
      have : 0 < 2 * Real.pi * fc := by positivity
      linarith
    generalize Real.exp (-(2 * Real.pi * fc)) = r at *
    have : 2 * r / (1 + r) < 1 := by
      rw [div_lt_one (by positivity)]
      linarith
    have h2 : 0 ≤ 2 * r / (1 + r) := by positivity
    nlinarith

/-! ### Notch -/

/-- **C85.** `filtre_rii(design_notch(f0, fc))`: the difference equation of the notch. -/
theorem C85_notch_flux (f0 fc : ℝ) (blocs : List (List ℝ)) :
    ∃ s0 s y, filtreRii (designNotch f0 fc) = some s0 ∧
      enchaine (Rii.step (0 : ℝ) (· + ·) (· - ·) (· * ·) (· / ·)) s0 blocs = some (s, y) ∧ y.length = blocs.flatten.length ∧
      ∀ n, n < y.length → y.getD n 0 =
        Real.exp (-(2 * Real.pi * fc)) * (blocs.flatten.getD n 0 - 2 * Real.cos (2 * Real.pi * f0) * passe blocs.flatten n 1 + passe blocs.flatten n 2) +
        2 * Real.exp (-(2 * Real.pi * fc)) * Real.cos (2 * Real.pi * f0) * passe y n 1 - Real.exp (-(2 * Real.pi * fc)) ^ 2 * passe y n 2 := by
  unfold designNotch
  rw [notch_forme, un_moins_coef]
  generalize Real.exp (-(2 * Real.pi * fc)) = r
  obtain ⟨s0, s, y, e1, e2, l, g⟩ := rii_polys [r, -(2 * Real.cos (2 * Real.pi * f0)) * r, r] [r * r, -(2 * r * Real.cos (2 * Real.pi * f0)), 1] rfl
    (by simp) (by simp) blocs
  refine ⟨s0, s, y, e1, e2, l, fun n hn => ?_⟩
  have := g n hn
  simp only [convolution, List.reverse_cons, List.reverse_nil, List.nil_append, List.singleton_append, List.cons_append, List.length_cons, List.length_nil,
    sum_range_succ, sum_range_zero, List.getD_cons_zero, List.getD_cons_succ] at this
  simp only [show ∀ x : List ℝ, passe x n 0 = x.getD n 0 from fun x => by simp [passe]] at this
  linarith

/-- **C85.** The notch has an exact zero at `±f0`. -/
theorem C85_notch_zero (f0 fc : ℝ) : gainCarre (designNotch f0 fc) f0 = 0 ∧ gainCarre (designNotch f0 fc) (-f0) = 0 := by
  have key : ∀ ω r : ℝ, ∀ c : ℝ, c = Real.cos ω →
      valCoefs Complex.ofRealHom [r, -(2 * c) * r, r] (Complex.exp (ω * Complex.I)) = 0 := by
    intro ω r c hc
    simp only [valCoefs_cons, valCoefs_nil, mul_zero, add_zero, Complex.ofRealHom_eq_coe]
    have h1 : (c : ℂ) = (Complex.exp (ω * Complex.I) + Complex.exp (-(ω * Complex.I))) / 2 := by
      rw [hc, Complex.ofReal_cos, Complex.cos]
      ring_nf
    have h2 : Complex.exp (ω * Complex.I) * Complex.exp (-(ω * Complex.I)) = 1 := by
      rw [← Complex.exp_add, add_neg_cancel, Complex.exp_zero]
    push_cast
    rw [h1]
    linear_combination (-(r : ℂ)) * h2
  unfold gainCarre designNotch
  rw [notch_forme, horner_polys, horner_polys]
  constructor
  · rw [key _ _ _ rfl]
    simp
  · rw [key _ _ _ (by rw [mul_neg, Real.cos_neg])]
    simp

theorem notch_borne (y : ℕ → ℝ) (r Ω M : ℝ) (N : ℕ) (hr : 0 ≤ r) (h0 : |y 0| ≤ r * M) (h1 : |y 1 - 2 * r * Real.cos Ω * y 0| ≤ 3 * r * M ∨ N ≤ 1)
    (hM : 0 ≤ M)
    (hrec : ∀ n, n + 2 < N → y (n + 2) = 2 * r * Real.cos Ω * y (n + 1) - r ^ 2 * y n) (n : ℕ) (hn : n < N) :
    |y n| ≤ (n + 1) * r ^ n * ((r + 3) * M) := by
  set w : ℂ := Complex.exp (Ω * Complex.I) with hw
  set v : ℂ := Complex.exp (-(Ω * Complex.I)) with hv
  have hnw : ‖w‖ = 1 := Complex.norm_exp_ofReal_mul_I Ω
  have hnv : ‖v‖ = 1 := by
    rw [hv, show -((Ω : ℂ) * Complex.I) = ((-Ω : ℝ) : ℂ) * Complex.I by push_cast; ring]
    exact Complex.norm_exp_ofReal_mul_I (-Ω)
  have hc : ((Real.cos Ω : ℝ) : ℂ) = (w + v) / 2 := by
    rw [Complex.ofReal_cos, Complex.cos, hw, hv]
    ring_nf
  have hwv : w * v = 1 := by rw [hw, hv, ← Complex.exp_add, add_neg_cancel, Complex.exp_zero]
  -- p n = y (n+1) - r w y n
  have hp : ∀ n, n + 1 < N → ‖((y (n + 1) : ℝ) : ℂ) - r * w * y n‖ ≤ r ^ (n + 1) * ((r + 3) * M) := by
    intro n
    induction n with
    | zero =>
      intro hN
      have h1' := h1.resolve_right (by omega)
      have e : ((y (0 + 1) : ℝ) : ℂ) - r * w * y 0 = ((y 1 - 2 * r * Real.cos Ω * y 0 : ℝ) : ℂ) + r * v * y 0 := by
        push_cast
        push_cast at hc
        rw [hc]
        ring_nf
      rw [e]
      refine (norm_add_le _ _).trans ?_
      rw [Complex.norm_real, norm_mul, norm_mul, hnv, Complex.norm_real, Complex.norm_real, Real.norm_eq_abs, Real.norm_eq_abs, Real.norm_eq_abs,
        abs_of_nonneg hr]
      have := mul_le_mul_of_nonneg_left h0 hr
      rw [zero_add, pow_one, mul_one]
      nlinarith
    | succ n ih =>
      intro hN
      have e : ((y (n + 1 + 1) : ℝ) : ℂ) - r * w * y (n + 1) = r * v * (((y (n + 1) : ℝ) : ℂ) - r * w * y n) := by
        rw [hrec n (by omega)]
        push_cast
        push_cast at hc
        rw [hc]
        linear_combination ((r : ℂ) ^ 2 * y n) * hwv
      rw [e, norm_mul, norm_mul, hnv, Complex.norm_real, Real.norm_eq_abs, abs_of_nonneg hr, mul_one, pow_succ r (n + 1)]
      have := mul_le_mul_of_nonneg_left (ih (by omega)) hr
      nlinarith
  induction n with
  | zero =>
    simp only [Nat.cast_zero, zero_add, pow_zero, one_mul]
    nlinarith
  | succ n ih =>
    have h2 := hp n hn
    have h3 := ih (by omega)
    have e : ((y (n + 1) : ℝ) : ℂ) = (((y (n + 1) : ℝ) : ℂ) - r * w * y n) + r * w * y n := by ring
    have h4 : |y (n + 1)| ≤ r ^ (n + 1) * ((r + 3) * M) + r * |y n| := by
      rw [← Real.norm_eq_abs, ← Complex.norm_real, e]
      refine (norm_add_le _ _).trans ?_
      refine add_le_add h2 ?_
      rw [norm_mul, norm_mul, hnw, Complex.norm_real, Complex.norm_real, Real.norm_eq_abs, Real.norm_eq_abs, abs_of_nonneg hr, mul_one]
    have h5 := mul_le_mul_of_nonneg_left h3 hr
    push_cast
    calc |y (n + 1)| ≤ r ^ (n + 1) * ((r + 3) * M) + r * ((n + 1) * r ^ n * ((r + 3) * M)) := h4.trans (by linarith)
      _ = _ := by ring

theorem trois_termes (A Ω a b : ℝ) : |A * Real.cos a - 2 * Real.cos Ω * (A * Real.cos b)| ≤ 3 * |A| := by
  have e : A * Real.cos a - 2 * Real.cos Ω * (A * Real.cos b) = A * (Real.cos a - 2 * (Real.cos Ω * Real.cos b)) := by ring
  rw [e, abs_mul, mul_comm 3]
  refine mul_le_mul_of_nonneg_left ?_ (abs_nonneg A)
  have b1 := abs_le.1 (Real.abs_cos_le_one a)
  have b2 : |Real.cos Ω * Real.cos b| ≤ 1 := by
    rw [abs_mul]
    exact mul_le_one₀ (Real.abs_cos_le_one _) (abs_nonneg _) (Real.abs_cos_le_one _)
  have b3 := abs_le.1 b2
  rw [abs_le]
  constructor <;> linarith [b1.1, b1.2, b3.1, b3.2]

theorem recurrence_cos (Ω φ : ℝ) (m : ℕ) :
    Real.cos (Ω * (m + 2 : ℕ) + φ) - 2 * Real.cos Ω * Real.cos (Ω * (m + 1 : ℕ) + φ) + Real.cos (Ω * m + φ) = 0 := by
  have v1 : Ω * (m + 2 : ℕ) + φ = (Ω * (m + 1 : ℕ) + φ) + Ω := by
    push_cast
    ring
  have v2 : Ω * m + φ = (Ω * (m + 1 : ℕ) + φ) - Ω := by
    push_cast
    ring
  rw [v1, v2, Real.cos_add, Real.cos_sub]
  ring

/-- **C85.** The notch rejects its frequency: whatever the amplitude and the phase of a sinusoid of frequency `f0`, the output is bounded by
`(n+1) r^n (r+3) |A|`, `r = e^{-2π fc}` (so it dies out for every `fc > 0`). -/
theorem C85_notch_rejet (f0 fc A φ : ℝ) (blocs : List (List ℝ))
    (hx : ∀ n, n < blocs.flatten.length → blocs.flatten.getD n 0 = A * Real.cos (2 * Real.pi * f0 * n + φ)) :
    ∃ s0 s y, filtreRii (designNotch f0 fc) = some s0 ∧
      enchaine (Rii.step (0 : ℝ) (· + ·) (· - ·) (· * ·) (· / ·)) s0 blocs = some (s, y) ∧ y.length = blocs.flatten.length ∧
      ∀ n : ℕ, n < y.length → |y.getD n 0| ≤ (n + 1) * Real.exp (-(2 * Real.pi * fc)) ^ n * ((Real.exp (-(2 * Real.pi * fc)) + 3) * |A|) := by
  obtain ⟨s0, s, y, e1, e2, l, g⟩ := C85_notch_flux f0 fc blocs
  refine ⟨s0, s, y, e1, e2, l, fun n hn => ?_⟩
  have hr := Real.exp_pos (-(2 * Real.pi * fc))
  generalize Real.exp (-(2 * Real.pi * fc)) = r at *
  rw [← l] at hx
  generalize 2 * Real.pi * f0 = Ω at *
  refine notch_borne (fun n => y.getD n 0) r Ω |A| y.length hr.le ?_ ?_ (abs_nonneg A) ?_ n hn
  · show |y.getD 0 0| ≤ _
    rw [g 0 (by omega), hx 0 (by omega)]
    simp only [passe, show ¬ 1 ≤ 0 by omega, show ¬ 2 ≤ 0 by omega, if_false, mul_zero, sub_zero, add_zero, abs_mul, abs_of_pos hr]
    have := Real.abs_cos_le_one (Ω * (0 : ℕ) + φ)
    have := mul_le_mul_of_nonneg_left this (abs_nonneg A)
    nlinarith
  · by_cases h1 : y.length ≤ 1
    · exact Or.inr h1
    · left
      show |y.getD 1 0 - 2 * r * Real.cos Ω * y.getD 0 0| ≤ _
      rw [g 1 (by omega), hx 1 (by omega)]
      simp only [passe, show ¬ 2 ≤ 1 by omega, if_false, le_refl, if_true, Nat.sub_self, mul_zero, sub_zero, add_zero]
      rw [hx 0 (by omega), add_sub_cancel_right, abs_mul, abs_of_pos hr]
      have := mul_le_mul_of_nonneg_left (trois_termes A Ω (Ω * (1 : ℕ) + φ) (Ω * (0 : ℕ) + φ)) hr.le
      linarith
  · intro m hm
    show y.getD (m + 2) 0 = _
    rw [g (m + 2) hm, hx (m + 2) hm]
    simp only [passe, show 1 ≤ m + 2 by omega, show 2 ≤ m + 2 by omega, if_true, show m + 2 - 1 = m + 1 by omega, Nat.add_sub_cancel]
    rw [hx (m + 1) (by omega), hx m (by omega)]
    have t := recurrence_cos Ω φ m
    generalize Real.cos (Ω * (m + 2 : ℕ) + φ) = c2 at *
    generalize Real.cos (Ω * (m + 1 : ℕ) + φ) = c1 at *
    generalize Real.cos (Ω * m + φ) = c0 at *
    linear_combination (r * A) * t

example : ∀ n : ℕ, n < ([[1, 0], [-1]] : List (List ℝ)).flatten.length →
    ([[1, 0], [-1]] : List (List ℝ)).flatten.getD n 0 = 1 * Real.cos (2 * Real.pi * (1 / 4) * n + 0) := by
  intro n hn
  simp at hn
  have h2 : (n : ℝ) * (Real.pi / 2) = 2 * Real.pi * (1 / 4) * n + 0 := by ring
  rw [← h2]
  match n, hn with
  | 0, _ => simp
  | 1, _ => simp
  | 2, _ => rw [show ((2 : ℕ) : ℝ) * (Real.pi / 2) = Real.pi by push_cast; ring, Real.cos_pi]; simp

end Verif.Conception
