import Verif.Fourier.DelaisFrac

/-!
# C182: fractional delay of real signals (core/src/fourier/fourier.cc:125-231, 632-664)

Exact arithmetic instead of `float`.
-/

namespace Verif.Fourier

open Finset Complex

/-! ## Model -/

/-- `x2`, core/src/fourier/fourier.cc:137-141: pairs of real samples as complex ones. -/
def paquets (x : List ℝ) : List ℂ := (List.range (x.length / 2)).map fun i : ℕ => ⟨x.getD (2 * i) 0, x.getD (2 * i + 1) 0⟩

/-- `X3` at the step `i`, core/src/fourier/fourier.cc:148-170. -/
noncomputable def coefReel (n : ℕ) (Xt : List ℂ) (i : ℕ) : ℂ :=
  (1 / 4) * (Xt.getD (if i = n / 2 then 0 else i) 0 + star (Xt.getD (if 0 < i then n / 2 - i else 0) 0))
    - I * (1 / 4) * (Xt.getD (if i = n / 2 then 0 else i) 0 - star (Xt.getD (if 0 < i then n / 2 - i else 0) 0)) * exp (((-(2 * Real.pi * i) / n : ℝ) : ℂ) * I)

/-- `rtfr_calcule`, core/src/fourier/fourier.cc:129-179: the positive frequencies, the one at half the sampling frequency being stored in the imaginary part of the first element (`none`: access to `Xt(0)` of an empty vector). -/
noncomputable def rtfrCalcule (x : List ℝ) : Option (List ℂ) :=
  if x.length / 2 = 0 then none else
  (fft trigoC (paquets x)).map fun Xt : List ℂ => (List.range (x.length / 2)).map fun i : ℕ =>
    if i = 0 then (⟨(coefReel x.length Xt 0).re, (coefReel x.length Xt (x.length / 2)).re⟩ : ℂ) else coefReel x.length Xt i

/-- `X2(i)`, core/src/fourier/fourier.cc:200-219. -/
noncomputable def coefInverse (X : List ℂ) (i : ℕ) : ℂ :=
  let Xi : ℂ := if i = 0 then ((X.getD 0 0).re : ℂ) else X.getD i 0
  let Xp : ℂ := if i = 0 then ((X.getD 0 0).im : ℂ) else X.getD (X.length - i) 0
  (Xi + star Xp) + I * ((Xi - star Xp) * exp (((2 * Real.pi * i / (2 * X.length : ℕ) : ℝ) : ℂ) * I))

/-- `irtfr_calcule`, core/src/fourier/fourier.cc:185-231. -/
noncomputable def irtfrCalcule (X : List ℂ) : Option (List ℝ) :=
  (ifft trigoC ((List.range X.length).map (coefInverse X))).map fun x2 : List ℂ =>
    (List.range (2 * X.length)).map fun t : ℕ => if t % 2 = 0 then (x2.getD (t / 2) 0).re else (x2.getD (t / 2) 0).im

/-- The modulation of the spectrum, core/src/fourier/fourier.cc:645-660; `rot` is `dphi ^ i` at the step `i` and `dphi ^ (n/2)` after the loop. -/
noncomputable def moduleReel (n : ℕ) (τ : ℝ) (X : List ℂ) : List ℂ :=
  (List.range X.length).map fun i : ℕ =>
    if i = 0 then (⟨(((X.getD 0 0).re : ℂ) * exp (((-τ * 2 * Real.pi / n : ℝ) : ℂ) * I) ^ 0).re, (((X.getD 0 0).im : ℂ) * exp (((-τ * 2 * Real.pi / n : ℝ) : ℂ) * I) ^ (n / 2)).re⟩ : ℂ)
    else X.getD i 0 * exp (((-τ * 2 * Real.pi / n : ℝ) : ℂ) * I) ^ i

/-- `delais_fractionnaire_r`, core/src/fourier/fourier.cc:632-664. -/
noncomputable def delaisFracR (x : List ℝ) (τ : ℝ) : Option (List ℝ) :=
  (padDeuxCotes x).bind fun x2 : List ℝ =>
  (rtfrCalcule x2).bind fun X : List ℂ =>
  (irtfrCalcule (moduleReel (2 * x.length) τ X)).bind fun y : List ℝ =>
  segment y (2 * x.length / 4) x.length

/-- `délais` on real vectors, core/src/fourier/fourier.cc:686-698. -/
noncomputable def delaisR (x : List ℝ) (τ : ℝ) : Option (List ℝ) := if (⌊τ⌋ : ℝ) ≠ τ then delaisFracR x τ else delaisEntier x ⌊τ⌋

/-! ## Proofs -/

/-- The unit `exp(iπa/m)`. -/
noncomputable def zeta (m : ℕ) (a : ℝ) : ℂ := exp (((Real.pi * a / m : ℝ) : ℂ) * I)

theorem zeta_add (m : ℕ) (a b : ℝ) : zeta m (a + b) = zeta m a * zeta m b := by
  unfold zeta
  rw [← Complex.exp_add]
  congr 1
  push_cast
  ring

theorem zeta_star (m : ℕ) (a : ℝ) : star (zeta m a) = zeta m (-a) := by
  unfold zeta
  rw [Complex.star_def, ← Complex.exp_conj, map_mul, conj_ofReal, conj_I]
  congr 1
  push_cast
  ring

theorem zeta_zero (m : ℕ) : zeta m 0 = 1 := by simp [zeta]

theorem zeta_m (m : ℕ) (hm : 0 < m) (t : ℕ) : zeta m (m * t) = (-1) ^ t := by
  have hm' : (m : ℂ) ≠ 0 := by exact_mod_cast hm.ne'
  unfold zeta
  rw [← Complex.exp_pi_mul_I, ← Complex.exp_nat_mul]
  congr 1
  push_cast
  field_simp

theorem zeta_re (m : ℕ) (a : ℝ) : (zeta m a).re = Real.cos (Real.pi * a / m) := Complex.exp_ofReal_mul_I_re _

/-- Synthesis from the positive frequencies. -/
theorem synthese (m : ℕ) (hm : 0 < m) (G : ℕ → ℂ) (t : ℕ) :
    ∑ i ∈ range m, (G i + (-1) ^ t * star (G (m - i))) * zeta m (i * t) = G 0 + (-1) ^ t * star (G m) + ((∑ i ∈ Ico 1 m, 2 * (G i * zeta m (i * t)).re : ℝ) : ℂ) := by
  have h1 : ∑ i ∈ range m, G i * zeta m (i * t) = G 0 + ∑ i ∈ Ico 1 m, G i * zeta m (i * t) := by
    rw [range_eq_Ico, sum_eq_sum_Ico_succ_bot hm]
    simp [zeta_zero]
  have h2 : ∑ i ∈ range m, (-1) ^ t * star (G (m - i)) * zeta m (i * t) = (-1) ^ t * star (G m) + ∑ i ∈ Ico 1 m, star (G i * zeta m (i * t)) := by
    rw [range_eq_Ico, sum_eq_sum_Ico_succ_bot hm]
    congr 1
    · simp [zeta_zero]
    · refine sum_nbij' (fun i => m - i) (fun i => m - i) ?_ ?_ ?_ ?_ ?_
      · intro i hi; have := mem_Ico.1 hi; exact mem_Ico.2 (by omega)
      · intro i hi; have := mem_Ico.1 hi; exact mem_Ico.2 (by omega)
      · intro i hi; have := mem_Ico.1 hi; omega
      · intro i hi; have := mem_Ico.1 hi; omega
      · intro i hi
        have := mem_Ico.1 hi
        rw [star_mul', zeta_star, Nat.cast_sub (by omega), show -(((m : ℝ) - i) * t) = i * t + -(m * t) by ring, zeta_add, ← zeta_star, zeta_m m hm]
        rw [star_pow, star_neg, star_one]
        ring
  simp only [add_mul, sum_add_distrib]
  rw [h1, h2]
  push_cast
  have h3 : ∑ i ∈ Ico 1 m, (2 : ℂ) * ((G i * zeta m (i * t)).re : ℂ) = ∑ i ∈ Ico 1 m, G i * zeta m (i * t) + ∑ i ∈ Ico 1 m, star (G i * zeta m (i * t)) := by
    rw [← sum_add_distrib]
    refine sum_congr rfl fun i _ => ?_
    rw [Complex.star_def, Complex.add_conj]
    push_cast; ring
  rw [h3]
  ring

theorem somme_paire (m : ℕ) (f : ℕ → ℂ) : ∑ t ∈ range (2 * m), f t = ∑ s ∈ range m, (f (2 * s) + f (2 * s + 1)) := by
  induction m with
  | zero => simp
  | succ m ih => rw [show 2 * (m + 1) = 2 * m + 1 + 1 by ring, sum_range_succ, sum_range_succ, ih, sum_range_succ]; ring

/-- The positive frequencies denoted by a packed spectrum: the bins `0` and `m` are real. -/
noncomputable def depaquete (X : List ℂ) (i : ℕ) : ℂ := if i = 0 then ((X.getD 0 0).re : ℂ) else if i = X.length then ((X.getD 0 0).im : ℂ) else X.getD i 0

/-- **The real inverse transform** gives the real signal whose positive frequencies are the ones of the packed spectrum. -/
theorem irtfr_valeur (X : List ℂ) (hm : 0 < X.length) (hb : X.length ≤ 2 ^ 29) :
    ∃ y, irtfrCalcule X = some y ∧ y.length = 2 * X.length ∧ ∀ t, t < 2 * X.length →
      y.getD t 0 = ((X.getD 0 0).re + (-1) ^ t * (X.getD 0 0).im + ∑ i ∈ Ico 1 X.length, 2 * (X.getD i 0 * zeta X.length (i * t)).re) / Real.sqrt X.length := by
  obtain ⟨x2, e, l, g⟩ := C27_ifft ((List.range X.length).map (coefInverse X)) (by simpa using hm) (by simpa using hb)
  simp only [List.length_map, List.length_range] at l g
  refine ⟨_, by rw [irtfrCalcule, e, Option.map_some], by simp, fun t ht => ?_⟩
  have hmC : (X.length : ℂ) ≠ 0 := by exact_mod_cast hm.ne'
  set m := X.length with hmd
  rw [List.getD_eq_getElem _ _ (by simpa using ht), List.getElem_map, List.getElem_range]
  set G := depaquete X with hG
  have hG0 : G 0 = ((X.getD 0 0).re : ℂ) := by rw [hG, depaquete, if_pos rfl]
  have hGm : G m = ((X.getD 0 0).im : ℂ) := by rw [hG, depaquete, if_neg (by omega), if_pos rfl]
  have hGi : ∀ i, 0 < i → i < m → G i = X.getD i 0 := fun i h1 h2 => by rw [hG, depaquete, if_neg (by omega), if_neg (by omega)]
  have hci : ∀ i, i < m → coefInverse X i = (G i + star (G (m - i))) + I * ((G i - star (G (m - i))) * zeta m i) := by
    intro i hi
    have hz : exp (((2 * Real.pi * i / (2 * X.length : ℕ) : ℝ) : ℂ) * I) = zeta m i := by
      unfold zeta
      congr 2
      push_cast
      rw [← hmd]
      field_simp
    unfold coefInverse
    rw [hz]
    by_cases h0 : i = 0
    · subst h0
      simp only [if_true, Nat.sub_zero]
      rw [hG0, hGm]
    · simp only [if_neg h0]
      rw [hGi i (by omega) hi, hGi (m - i) (by omega) (by omega)]
  have hx2 : ∀ s, s < m → x2.getD s 0 = ((∑ i ∈ range m, (G i + star (G (m - i))) * zeta m (i * (2 * s))) + I * ∑ i ∈ range m, (G i - star (G (m - i))) * zeta m (i * (2 * s + 1))) / (Real.sqrt m : ℂ) := by
    intro s hs
    rw [g s hs, TFD, List.length_map, List.length_range]
    congr 1
    rw [mul_sum, ← sum_add_distrib]
    refine sum_congr rfl fun i hi => ?_
    have hi := mem_range.1 hi
    rw [List.getD_eq_getElem _ _ (by simpa using hi), List.getElem_map, List.getElem_range, hci i hi]
    have : exp (1 * (2 * Real.pi * I) * (i * s) / (m : ℂ)) = zeta m (i * (2 * s)) := by
      unfold zeta
      congr 1
      push_cast
      field_simp
    rw [this, show (i : ℝ) * (2 * s + 1) = i * (2 * s) + i by ring, zeta_add]
    ring
  have key : ∀ u : ℕ, ∃ r : ℝ, (∑ i ∈ range m, (G i + (-1) ^ u * star (G (m - i))) * zeta m (i * u)) = (r : ℂ) ∧ r = (X.getD 0 0).re + (-1) ^ u * (X.getD 0 0).im + ∑ i ∈ Ico 1 m, 2 * (X.getD i 0 * zeta m (i * u)).re := by
    intro u
    refine ⟨_, ?_, rfl⟩
    rw [synthese m hm G u, hG0, hGm]
    have : ∑ i ∈ Ico 1 m, 2 * (G i * zeta m (i * u)).re = ∑ i ∈ Ico 1 m, 2 * (X.getD i 0 * zeta m (i * u)).re := by
      refine sum_congr rfl fun i hi => ?_
      have := mem_Ico.1 hi
      rw [hGi i (by omega) this.2]
    rw [this]
    push_cast
    rw [Complex.star_def, conj_ofReal]
  obtain ⟨a, ha, ha'⟩ := key (2 * (t / 2))
  obtain ⟨b, hb, hb'⟩ := key (2 * (t / 2) + 1)
  have h1 : ((-1 : ℂ) ^ (2 * (t / 2))) = 1 := by rw [pow_mul]; simp
  have h2 : ((-1 : ℂ) ^ (2 * (t / 2) + 1)) = -1 := by rw [pow_succ, pow_mul]; simp
  simp only [h1, one_mul] at ha
  simp only [h2] at hb
  have hx := hx2 (t / 2) (by omega)
  have ea : ∑ i ∈ range m, (G i + star (G (m - i))) * zeta m (i * (2 * ((t / 2 : ℕ) : ℝ))) = a := by
    rw [← ha]
    refine sum_congr rfl fun i _ => ?_
    push_cast
    rfl
  have eb : ∑ i ∈ range m, (G i - star (G (m - i))) * zeta m (i * (2 * ((t / 2 : ℕ) : ℝ) + 1)) = b := by
    rw [← hb]
    refine sum_congr rfl fun i _ => ?_
    push_cast
    rw [neg_one_mul, sub_eq_add_neg]
  rw [ea, eb] at hx
  have hre : (x2.getD (t / 2) 0).re = a / Real.sqrt m := by
    rw [hx, Complex.div_ofReal_re]; simp
  have him : (x2.getD (t / 2) 0).im = b / Real.sqrt m := by
    rw [hx, Complex.div_ofReal_im]; simp
  split
  · rename_i h
    rw [hre, ha', show 2 * (t / 2) = t by omega]
  · rename_i h
    rw [him, hb', show 2 * (t / 2) + 1 = t by omega]

/-- **The real direct transform**: the bin `i` is the sum of the samples times `exp(-iπit/m)`, over `2√m`; the bins `0` and `m` are the two parts of the first element. -/
theorem rtfrCalcule_valeur (x : List ℝ) (m : ℕ) (hm : 0 < m) (hx : x.length = 2 * m) (hb : m ≤ 2 ^ 29) :
    ∃ X, rtfrCalcule x = some X ∧ X.length = m ∧ (∀ i, 0 < i → i < m → X.getD i 0 = (∑ t ∈ range (2 * m), (x.getD t 0 : ℂ) * zeta m (-(i * t))) / (2 * Real.sqrt m)) ∧
      (X.getD 0 0).re = (∑ t ∈ range (2 * m), x.getD t 0) / (2 * Real.sqrt m) ∧ (X.getD 0 0).im = (∑ t ∈ range (2 * m), x.getD t 0 * (-1) ^ t) / (2 * Real.sqrt m) := by
  have hmC : (m : ℂ) ≠ 0 := by exact_mod_cast hm.ne'
  have lp : (paquets x).length = m := by simp [paquets, hx]
  obtain ⟨Xt, e, l, g⟩ := C27_fft (paquets x) (by omega) (by omega)
  rw [lp] at l g
  have hdiv : x.length / 2 = m := by omega
  -- the two half spectra
  set E : ℝ → ℂ := fun k => ∑ s ∈ range m, (x.getD (2 * s) 0 : ℂ) * zeta m (-(k * (2 * s))) with hE
  set O : ℝ → ℂ := fun k => ∑ s ∈ range m, (x.getD (2 * s + 1) 0 : ℂ) * zeta m (-(k * (2 * s))) with hO
  have hXt : ∀ k, k < m → Xt.getD k 0 = (E k + I * O k) / (Real.sqrt m : ℂ) := by
    intro k hk
    rw [g k hk, TFD, lp, hE, hO]
    congr 1
    dsimp only
    rw [mul_sum, ← sum_add_distrib]
    refine sum_congr rfl fun s hs => ?_
    have hs := mem_range.1 hs
    have hp : (paquets x).getD s 0 = (x.getD (2 * s) 0 : ℂ) + I * (x.getD (2 * s + 1) 0 : ℂ) := by
      rw [List.getD_eq_getElem _ _ (by omega)]
      simp only [paquets, List.getElem_map, List.getElem_range]
      apply Complex.ext <;> simp
    have hz : exp (-1 * (2 * Real.pi * I) * (s * k) / (m : ℂ)) = zeta m (-(k * (2 * s))) := by
      unfold zeta
      congr 1
      push_cast
      field_simp
    rw [hp, hz]
    ring
  have per : ∀ (k : ℝ) (s : ℕ), zeta m (-((m - k) * (2 * s))) = star (zeta m (-(k * (2 * s)))) := by
    intro k s
    rw [zeta_star, show -((m - k) * (2 * s)) = -(-(k * (2 * s))) + -(m * (2 * s : ℕ)) by push_cast; ring, zeta_add, ← zeta_star m (m * (2 * s : ℕ)), zeta_m m hm, pow_mul]
    simp
  have hEs : ∀ k : ℝ, star (E (m - k)) = E k := by
    intro k
    rw [hE]; dsimp only
    rw [star_sum]
    refine sum_congr rfl fun s _ => ?_
    rw [per, star_mul', star_star, Complex.star_def, conj_ofReal]
  have hOs : ∀ k : ℝ, star (O (m - k)) = O k := by
    intro k
    rw [hO]; dsimp only
    rw [star_sum]
    refine sum_congr rfl fun s _ => ?_
    rw [per, star_mul', star_star, Complex.star_def, conj_ofReal]
  have hE0 : star (E 0) = E 0 := by
    rw [hE]; dsimp only
    rw [star_sum]
    refine sum_congr rfl fun s _ => ?_
    rw [zero_mul, neg_zero, zeta_zero, mul_one, Complex.star_def, conj_ofReal]
  have hO0 : star (O 0) = O 0 := by
    rw [hO]; dsimp only
    rw [star_sum]
    refine sum_congr rfl fun s _ => ?_
    rw [zero_mul, neg_zero, zeta_zero, mul_one, Complex.star_def, conj_ofReal]
  have hEm : E m = E 0 := by
    have := hEs 0
    rw [sub_zero] at this
    rw [← hE0, ← this, star_star]
  have hOm : O m = O 0 := by
    have := hOs 0
    rw [sub_zero] at this
    rw [← hO0, ← this, star_star]
  have hr : (Real.sqrt m : ℂ) ≠ 0 := by
    rw [Ne, ofReal_eq_zero]
    exact (Real.sqrt_pos.2 (by exact_mod_cast hm)).ne'
  have hsr : star (Real.sqrt m : ℂ) = (Real.sqrt m : ℂ) := by rw [Complex.star_def, conj_ofReal]
  have hcoef : ∀ i, i ≤ m → coefReel x.length Xt i = (E i + O i * zeta m (-i)) / (2 * (Real.sqrt m : ℂ)) := by
    intro i hi
    have hz : exp (((-(2 * Real.pi * i) / x.length : ℝ) : ℂ) * I) = zeta m (-i) := by
      unfold zeta
      congr 2
      rw [hx]
      push_cast
      field_simp
    have h1 : Xt.getD (if i = x.length / 2 then 0 else i) 0 = (E i + I * O i) / (Real.sqrt m : ℂ) := by
      rw [hdiv]
      split
      · rename_i h
        rw [hXt 0 hm, h, hEm, hOm, Nat.cast_zero]
      · exact hXt i (by omega)
    have h2 : star (Xt.getD (if 0 < i then x.length / 2 - i else 0) 0) = (E i - I * O i) / (Real.sqrt m : ℂ) := by
      rw [hdiv]
      split
      · rw [hXt (m - i) (by omega), Nat.cast_sub hi, star_div₀, star_add, star_mul', hEs, hOs, hsr, Complex.star_def, conj_I]
        ring
      · rw [hXt 0 hm, show i = 0 by omega, star_div₀, star_add, star_mul', Nat.cast_zero, hE0, hO0, hsr, Complex.star_def, conj_I]
        ring
    rw [coefReel, h1, h2, hz]
    field_simp
    ring_nf
    rw [I_sq]
    ring
  have hsom : ∀ i : ℕ, ∑ t ∈ range (2 * m), (x.getD t 0 : ℂ) * zeta m (-(i * t)) = E i + O i * zeta m (-i) := by
    intro i
    rw [somme_paire]
    rw [hE, hO]
    dsimp only
    rw [sum_mul, ← sum_add_distrib]
    refine sum_congr rfl fun s _ => ?_
    rw [mul_assoc, ← zeta_add]
    push_cast
    congr 3
    ring
  refine ⟨_, by rw [rtfrCalcule, if_neg (by omega), e, Option.map_some], by simp [hdiv], fun i h0 hi => ?_, ?_, ?_⟩
  · rw [List.getD_eq_getElem _ _ (by simpa [hdiv] using hi), List.getElem_map, List.getElem_range, if_neg (by omega), hcoef i (by omega), hsom]
  · rw [List.getD_eq_getElem _ _ (by simpa [hdiv] using hm), List.getElem_map, List.getElem_range, if_pos rfl]
    dsimp only
    rw [hcoef 0 (by omega), ← hsom 0]
    have : (∑ t ∈ range (2 * m), (x.getD t 0 : ℂ) * zeta m (-((0 : ℕ) * t))) / (2 * (Real.sqrt m : ℂ)) = (((∑ t ∈ range (2 * m), x.getD t 0) / (2 * Real.sqrt m) : ℝ) : ℂ) := by
      push_cast
      congr 1
      refine sum_congr rfl fun t _ => ?_
      rw [zero_mul, neg_zero, zeta_zero, mul_one]
    rw [this, ofReal_re]
  · rw [List.getD_eq_getElem _ _ (by simpa [hdiv] using hm), List.getElem_map, List.getElem_range, if_pos rfl]
    dsimp only
    rw [hdiv, hcoef m (by omega), ← hsom m]
    have : (∑ t ∈ range (2 * m), (x.getD t 0 : ℂ) * zeta m (-(m * t))) / (2 * (Real.sqrt m : ℂ)) = (((∑ t ∈ range (2 * m), x.getD t 0 * (-1) ^ t) / (2 * Real.sqrt m) : ℝ) : ℂ) := by
      push_cast
      congr 1
      refine sum_congr rfl fun t _ => ?_
      rw [← zeta_star, zeta_m m hm]
      simp
    rw [this, ofReal_re]

/-- Real part of the kernel: sum over the positive frequencies. -/
theorem noyau_re (m : ℕ) (hm : 0 < m) (a : ℝ) : (noyauDirichlet m a).re = (1 + Real.cos (Real.pi * a) + ∑ i ∈ Ico 1 m, 2 * Real.cos (Real.pi * (i * a) / m)) / (2 * m) := by
  have hm' : (m : ℝ) ≠ 0 := by exact_mod_cast hm.ne'
  unfold noyauDirichlet
  rw [show (2 * (m : ℂ)) = ((2 * m : ℝ) : ℂ) by push_cast; ring, Complex.div_ofReal_re, Complex.re_sum]
  congr 1
  simp only [Complex.exp_ofReal_mul_I_re]
  have e1 : ∑ f ∈ Ico (-(m : ℤ)) m, Real.cos (Real.pi * f * a / m) = ∑ f ∈ Ico (-(m : ℤ)) 0, Real.cos (Real.pi * f * a / m) + ∑ f ∈ Ico 0 (m : ℤ), Real.cos (Real.pi * f * a / m) := by
    rw [← sum_union (Ico_disjoint_Ico_consecutive _ _ _), Ico_union_Ico_eq_Ico (by omega) (by omega)]
  have e2 : ∑ f ∈ Ico 0 (m : ℤ), Real.cos (Real.pi * f * a / m) = 1 + ∑ i ∈ Ico 1 m, Real.cos (Real.pi * (i * a) / m) := by
    have : ∑ f ∈ Ico 0 (m : ℤ), Real.cos (Real.pi * f * a / m) = ∑ i ∈ Ico 0 m, Real.cos (Real.pi * (i * a) / m) := by
      refine sum_nbij' (fun f => f.toNat) (fun i => (i : ℤ)) ?_ ?_ ?_ ?_ ?_
      · intro f hf; have := mem_Ico.1 hf; exact mem_Ico.2 (by omega)
      · intro i hi; have := mem_Ico.1 hi; exact mem_Ico.2 (by omega)
      · intro f hf; have := mem_Ico.1 hf; omega
      · intro i _; simp
      · intro f hf
        have h := mem_Ico.1 hf
        have : ((f.toNat : ℕ) : ℝ) = (f : ℝ) := by
          have : ((f.toNat : ℕ) : ℤ) = f := by omega
          exact_mod_cast congrArg (Int.cast : ℤ → ℝ) this
        rw [this]
        congr 1
        ring
    rw [this, sum_eq_sum_Ico_succ_bot hm]
    simp
  have e3 : ∑ f ∈ Ico (-(m : ℤ)) 0, Real.cos (Real.pi * f * a / m) = Real.cos (Real.pi * a) + ∑ i ∈ Ico 1 m, Real.cos (Real.pi * (i * a) / m) := by
    have : ∑ f ∈ Ico (-(m : ℤ)) 0, Real.cos (Real.pi * f * a / m) = ∑ i ∈ Ico 1 (m + 1), Real.cos (Real.pi * (i * a) / m) := by
      refine sum_nbij' (fun f => (-f).toNat) (fun i => -(i : ℤ)) ?_ ?_ ?_ ?_ ?_
      · intro f hf; have := mem_Ico.1 hf; exact mem_Ico.2 (by omega)
      · intro i hi; have := mem_Ico.1 hi; exact mem_Ico.2 (by omega)
      · intro f hf; have := mem_Ico.1 hf; omega
      · intro i _; simp
      · intro f hf
        have h := mem_Ico.1 hf
        have : (((-f).toNat : ℕ) : ℝ) = -(f : ℝ) := by
          have : (((-f).toNat : ℕ) : ℤ) = -f := by omega
          exact_mod_cast congrArg (Int.cast : ℤ → ℝ) this
        rw [this, ← Real.cos_neg]
        congr 1
        ring
    rw [this, sum_Ico_succ_top (by omega), add_comm]
    congr 2
    field_simp
  rw [e1, e2, e3, ← mul_sum]
  ring

theorem pad_some_r (x : List ℝ) : ∃ x2, padDeuxCotes x = some x2 ∧ x2.length = 2 * x.length ∧ ∀ t, x2.getD t 0 = if 2 * x.length / 4 ≤ t ∧ t < 2 * x.length / 4 + x.length then x.getD (t - 2 * x.length / 4) 0 else 0 := by
  obtain ⟨x2, e, l, g⟩ := ecrit_some (List.replicate (2 * x.length) (0 : ℝ)) x (2 * x.length / 4) (by rw [List.length_replicate]; omega)
  refine ⟨x2, e, by rw [l, List.length_replicate], fun t => ?_⟩
  rw [List.getD_eq_getElem?_getD, g t]
  split
  · rw [← List.getD_eq_getElem?_getD]
  · by_cases ht : t < 2 * x.length
    · rw [List.getElem?_replicate, if_pos ht]; rfl
    · rw [List.getElem?_eq_none (by simp; omega)]; rfl

/-- Modulation between the two real transforms: band-limited interpolation. -/
theorem module_valeur (x : List ℝ) (m : ℕ) (hm : 0 < m) (hx : x.length = 2 * m) (hb : m ≤ 2 ^ 29) (τ : ℝ) :
    ∃ X y, rtfrCalcule x = some X ∧ irtfrCalcule (moduleReel (2 * m) τ X) = some y ∧ y.length = 2 * m ∧
      ∀ t, t < 2 * m → y.getD t 0 = ∑ u ∈ range (2 * m), x.getD u 0 * (noyauDirichlet m (t - u - τ)).re := by
  have hm' : (m : ℝ) ≠ 0 := by exact_mod_cast hm.ne'
  obtain ⟨X, e1, l1, g1, g1r, g1i⟩ := rtfrCalcule_valeur x m hm hx hb
  have lQ : (moduleReel (2 * m) τ X).length = m := by simp [moduleReel, l1]
  obtain ⟨y, e2, l2, g2⟩ := irtfr_valeur (moduleReel (2 * m) τ X) (by omega) (by omega)
  rw [lQ] at l2 g2
  refine ⟨X, y, e1, e2, l2, fun t ht => ?_⟩
  have hd : ∀ i : ℕ, exp (((-τ * 2 * Real.pi / ((2 * m : ℕ) : ℝ) : ℝ) : ℂ) * I) ^ i = zeta m (-(i * τ)) := by
    intro i
    rw [← Complex.exp_nat_mul]
    unfold zeta
    congr 1
    push_cast
    field_simp
  have q0 : (moduleReel (2 * m) τ X).getD 0 0 = ⟨(X.getD 0 0).re, (X.getD 0 0).im * Real.cos (Real.pi * τ)⟩ := by
    rw [List.getD_eq_getElem _ _ (by omega)]
    simp only [moduleReel, List.getElem_map, List.getElem_range, if_true]
    rw [show 2 * m / 2 = m by omega, pow_zero, hd, mul_one, ofReal_re, Complex.re_ofReal_mul, zeta_re]
    congr 2
    rw [← Real.cos_neg]
    congr 1
    field_simp
    try ring
  have qi : ∀ i, 0 < i → i < m → (moduleReel (2 * m) τ X).getD i 0 = X.getD i 0 * zeta m (-(i * τ)) := by
    intro i h0 hi
    rw [List.getD_eq_getElem _ _ (by omega)]
    simp only [moduleReel, List.getElem_map, List.getElem_range]
    rw [if_neg (by omega), hd]
  have hs : Real.sqrt m * Real.sqrt m = m := Real.mul_self_sqrt (by positivity)
  have hsne : Real.sqrt m ≠ 0 := (Real.sqrt_pos.2 (by exact_mod_cast hm)).ne'
  rw [g2 t ht, q0]
  have e3 : ∀ i ∈ Ico 1 m, 2 * ((moduleReel (2 * m) τ X).getD i 0 * zeta m (i * t)).re = (∑ u ∈ range (2 * m), x.getD u 0 * (2 * Real.cos (Real.pi * (i * (t - u - τ)) / m))) / (2 * Real.sqrt m) := by
    intro i hi
    have hi := mem_Ico.1 hi
    rw [qi i (by omega) hi.2, g1 i (by omega) hi.2, div_mul_eq_mul_div, div_mul_eq_mul_div, sum_mul, sum_mul,
      show (2 * (Real.sqrt m : ℂ)) = ((2 * Real.sqrt m : ℝ) : ℂ) by push_cast; ring, Complex.div_ofReal_re, Complex.re_sum, mul_div_assoc', mul_sum]
    congr 1
    refine sum_congr rfl fun u _ => ?_
    rw [mul_assoc, mul_assoc, ← zeta_add, ← zeta_add, Complex.re_ofReal_mul, zeta_re, show (-(↑i * ↑u) + (-(↑i * τ) + (i : ℝ) * t) : ℝ) = i * (t - u - τ) by ring]
    ring
  rw [sum_congr rfl e3, ← sum_div, sum_comm]
  dsimp only
  rw [g1r, g1i]
  have e4 : ∀ u ∈ range (2 * m), x.getD u 0 * (noyauDirichlet m (t - u - τ)).re =
      (x.getD u 0 + (-1) ^ t * (x.getD u 0 * (-1) ^ u * Real.cos (Real.pi * τ)) + ∑ i ∈ Ico 1 m, x.getD u 0 * (2 * Real.cos (Real.pi * (i * (t - u - τ)) / m))) / (2 * m) := by
    intro u _
    rw [noyau_re m hm]
    have hc : Real.cos (Real.pi * (t - u - τ)) = (-1) ^ t * (-1) ^ u * Real.cos (Real.pi * τ) := by
      have h1 : Real.cos (Real.pi * (t - u - τ)) = Real.cos ((((t : ℤ) - u : ℤ) : ℝ) * Real.pi - Real.pi * τ) := by
        congr 1; push_cast; ring
      rw [h1, Real.cos_int_mul_pi_sub, zpow_sub₀ (by norm_num), zpow_natCast, zpow_natCast]
      have : ((-1 : ℝ) ^ u)⁻¹ = (-1) ^ u := by
        rw [← inv_pow]; norm_num
      rw [div_eq_mul_inv, this]
    rw [hc, ← mul_sum (Ico 1 m) (fun i : ℕ => 2 * Real.cos (Real.pi * (i * (t - u - τ)) / m)) (x.getD u 0)]
    ring
  rw [sum_congr rfl e4, ← sum_div, sum_add_distrib, sum_add_distrib, ← mul_sum, ← sum_mul]
  rw [show (2 * (m : ℝ)) = 2 * Real.sqrt m * Real.sqrt m by rw [mul_assoc, hs]]
  field_simp

/-- **C182 (real signals).** The fractional delay of a real signal is the band-limited interpolation with the real part of the kernel, with the same length. -/
theorem C182_reel (x : List ℝ) (τ : ℝ) (hx : 0 < x.length) (hb : x.length ≤ 2 ^ 29) :
    ∃ y, delaisFracR x τ = some y ∧ y.length = x.length ∧ ∀ k, k < x.length → y.getD k 0 = ∑ m ∈ range x.length, x.getD m 0 * (noyauDirichlet x.length (k - m - τ)).re := by
  obtain ⟨x2, e1, l1, g1⟩ := pad_some_r x
  obtain ⟨X, z, e2, e3, l3, g3⟩ := module_valeur x2 x.length hx l1 hb τ
  obtain ⟨y, e4, l4, g4⟩ := segment_some z (2 * x.length / 4) x.length (by omega)
  refine ⟨y, by rw [delaisFracR, e1, Option.bind_some, e2, Option.bind_some, e3, Option.bind_some, e4], l4, fun k hk => ?_⟩
  rw [getD_of_get _ _ _ _ (g4 k hk), g3 _ (by omega)]
  have := somme_pad x.length (2 * x.length / 4) (fun j => ((x2.getD j 0 : ℝ) : ℂ)) (fun j => ((x.getD j 0 : ℝ) : ℂ)) (by omega) (fun t => by
    rw [g1]; split <;> simp) (fun j => (((noyauDirichlet x.length (((2 * x.length / 4 + k : ℕ) : ℝ) - j - τ)).re : ℝ) : ℂ))
  have h2 : (∑ j ∈ range (2 * x.length), x2.getD j 0 * (noyauDirichlet x.length (((2 * x.length / 4 + k : ℕ) : ℝ) - j - τ)).re) =
      ∑ m ∈ range x.length, x.getD m 0 * (noyauDirichlet x.length (((2 * x.length / 4 + k : ℕ) : ℝ) - ((m + 2 * x.length / 4 : ℕ) : ℝ) - τ)).re := by
    exact_mod_cast this
  rw [h2]
  refine sum_congr rfl fun m _ => ?_
  congr 3
  push_cast
  ring

/-- **C182 (the two delays agree).** The delay of a real signal is the real part of the delay of the same signal seen as a complex one. -/
theorem C182_reel_complexe (x : List ℝ) (τ : ℝ) (hx : 0 < x.length) (hb : 2 * x.length ≤ 2 ^ 29) :
    ∃ y z, delaisFracR x τ = some y ∧ delaisFracC (x.map fun r : ℝ => (r : ℂ)) τ = some z ∧ y = z.map re := by
  obtain ⟨y, e1, l1, g1⟩ := C182_reel x τ hx (by omega)
  obtain ⟨z, e2, l2, g2⟩ := C182_complexe (x.map fun r : ℝ => (r : ℂ)) τ (by simpa using hx) (by simpa using hb)
  rw [List.length_map] at l2 g2
  refine ⟨y, z, e1, e2, List.ext_getElem (by simp; omega) fun k h1 h2 => ?_⟩
  have hg := g2 k (by omega)
  have hf := g1 k (by omega)
  rw [List.getD_eq_getElem _ _ (by omega)] at hg hf
  rw [hf, List.getElem_map, hg, Complex.re_sum]
  refine sum_congr rfl fun m hm => ?_
  have hm := mem_range.1 hm
  rw [List.getD_eq_getElem _ _ hm, List.getD_eq_getElem _ _ (by simpa using hm), List.getElem_map, Complex.re_ofReal_mul]

/-- **C182 (agreement with the integer delay, real signals).** -/
theorem C182_reel_entier (x : List ℝ) (d : ℤ) (hd : |d| ≤ x.length) (hx : 0 < x.length) (hb : x.length ≤ 2 ^ 29) (k : ℕ) (hk : k < x.length) :
    ∃ y, delaisFracR x d = some y ∧ y.length = x.length ∧ y.getD k 0 = if 0 ≤ (k : ℤ) - d ∧ (k : ℤ) - d < x.length then x.getD ((k : ℤ) - d).toNat 0 else 0 := by
  obtain ⟨y, e1, l1, g1⟩ := C182_reel x d hx hb
  refine ⟨y, e1, l1, ?_⟩
  rw [g1 k (by omega)]
  have hd' := abs_le.1 hd
  have e : ∀ m ∈ range x.length, x.getD m 0 * (noyauDirichlet x.length (k - m - d)).re = if (k : ℤ) - d = m then x.getD m 0 else 0 := by
    intro m hm
    have hm := mem_range.1 hm
    rw [show ((k : ℝ) - m - d) = (((k : ℤ) - m - d : ℤ) : ℝ) by push_cast; ring, C182_noyau_entier x.length hx]
    by_cases h : (k : ℤ) - d = m
    · rw [if_pos h, if_pos (by rw [show (k : ℤ) - m - d = 0 by omega]; exact dvd_zero _), one_re, mul_one]
    · rw [if_neg h, if_neg, zero_re, mul_zero]
      intro h2
      have := Int.eq_zero_of_abs_lt_dvd h2 (by rw [abs_lt]; constructor <;> omega)
      omega
  rw [sum_congr rfl e]
  by_cases h : 0 ≤ (k : ℤ) - d ∧ (k : ℤ) - d < x.length
  · rw [if_pos h, sum_eq_single ((k : ℤ) - d).toNat]
    · rw [if_pos (by omega)]
    · intro m _ hm; rw [if_neg (by omega)]
    · intro hm; exact absurd (mem_range.2 (by omega)) hm
  · rw [if_neg h]
    refine sum_eq_zero fun m hm => ?_
    have := mem_range.1 hm
    rw [if_neg (by omega)]

theorem delais_r (x : List ℝ) (τ : Int) (hτ : |τ| ≤ x.length) :
    ∃ y, delaisEntier x τ = some y ∧ y.length = x.length ∧ ∀ k, k < x.length →
      y.getD k 0 = if 0 ≤ (k : Int) - τ ∧ (k : Int) - τ < x.length then x.getD ((k : Int) - τ).toNat 0 else 0 := by
  unfold delaisEntier
  by_cases h0 : τ = 0
  · rw [if_pos h0]
    refine ⟨x, rfl, rfl, fun k hk => ?_⟩
    rw [if_pos (by omega)]
    congr 1; omega
  · rw [if_neg h0]
    by_cases hp : 0 < τ
    · rw [abs_of_pos hp] at hτ
      simp only [if_pos hp]
      rw [if_neg (by omega)]
      obtain ⟨s, e1, l1, g1⟩ := segment_some x 0 (x.length - τ.toNat) (by omega)
      obtain ⟨y, e2, l2, g2⟩ := ecritQueue_some (List.replicate x.length (0 : ℝ)) s (by simp; omega)
      rw [List.length_replicate] at l2
      simp only [List.length_replicate, l1] at g2
      refine ⟨y, by simp only [e1, e2], l2, fun k hk => ?_⟩
      by_cases hc : 0 ≤ (k : Int) - τ ∧ (k : Int) - τ < x.length
      · rw [if_pos hc]
        refine getD_of_get _ _ _ _ ?_
        rw [g2 k, if_pos (by omega), g1 _ (by omega)]
        congr 1; omega
      · rw [if_neg hc, List.getD_eq_getElem?_getD, g2 k, if_neg (by omega), List.getElem?_replicate]
        split <;> rfl
    · rw [abs_of_nonpos (by omega)] at hτ
      simp only [if_neg hp]
      rw [if_neg (by omega)]
      obtain ⟨s, e1, l1, g1⟩ := queue_some x (x.length - (-τ).toNat) (by omega)
      obtain ⟨y, e2, l2, g2⟩ := ecrit_some (List.replicate x.length (0 : ℝ)) s 0 (by simp; omega)
      rw [List.length_replicate] at l2
      refine ⟨y, by simp only [e1, e2], l2, fun k hk => ?_⟩
      by_cases hc : 0 ≤ (k : Int) - τ ∧ (k : Int) - τ < x.length
      · rw [if_pos hc]
        refine getD_of_get _ _ _ _ ?_
        rw [g2 k, if_pos (by omega), g1 _ (by omega)]
        congr 1; omega
      · rw [if_neg hc, List.getD_eq_getElem?_getD, g2 k, if_neg (by omega), List.getElem?_replicate]
        split <;> rfl

/-- **C182 (continuity in the delay, real signals).** The delay of a real signal is the band-limited interpolation for whole and fractional delays alike, so every output sample is a continuous function of the delay. -/
theorem C182_reel_delais (x : List ℝ) (τ : ℝ) (hx : 0 < x.length) (hb : x.length ≤ 2 ^ 29) (hτ : |τ| ≤ x.length) :
    ∃ y, delaisR x τ = some y ∧ y.length = x.length ∧ ∀ k, k < x.length → y.getD k 0 = ∑ m ∈ range x.length, x.getD m 0 * (noyauDirichlet x.length (k - m - τ)).re := by
  by_cases h : (⌊τ⌋ : ℝ) = τ
  · have h1 : ((|⌊τ⌋| : ℤ) : ℝ) ≤ x.length := by push_cast; rw [h]; exact hτ
    have h1 : |⌊τ⌋| ≤ (x.length : ℤ) := by exact_mod_cast h1
    obtain ⟨y, e1, l1, g1⟩ := delais_r x ⌊τ⌋ h1
    refine ⟨y, by rw [delaisR, if_neg (not_not.2 h), e1], l1, fun k hk => ?_⟩
    obtain ⟨z, e2, -, g2⟩ := C182_reel_entier x ⌊τ⌋ h1 hx hb k hk
    obtain ⟨z', e3, -, g3⟩ := C182_reel x τ hx hb
    rw [h, e3] at e2
    cases e2
    rw [← g3 k hk, g1 k hk, g2]
  · obtain ⟨y, e, l, g⟩ := C182_reel x τ hx hb
    exact ⟨y, by rw [delaisR, if_pos h, e], l, g⟩

theorem C182_reel_continu (x : List ℝ) (k : ℕ) (hk : k < x.length) (hb : x.length ≤ 2 ^ 29) :
    ContinuousOn (fun τ : ℝ => ((delaisR x τ).getD []).getD k 0) (Set.Icc (-x.length) x.length) := by
  have hx : 0 < x.length := by omega
  have hc : Continuous (fun τ : ℝ => ∑ m ∈ range x.length, x.getD m 0 * (noyauDirichlet x.length (k - m - τ)).re) := by
    refine continuous_finset_sum _ fun m _ => ?_
    unfold noyauDirichlet
    fun_prop
  refine hc.continuousOn.congr fun τ hτ => ?_
  obtain ⟨y, e, -, g⟩ := C182_reel_delais x τ hx hb (abs_le.2 hτ)
  dsimp only
  rw [e, Option.getD_some, g k hk]

example : ∃ y, delaisR [1, 2, 3] (1 / 2) = some y ∧ y.length = 3 := by
  obtain ⟨y, e, l, -⟩ := C182_reel_delais [1, 2, 3] (1 / 2) (by simp) (by norm_num) (by rw [abs_of_pos (by norm_num)]; norm_num)
  exact ⟨y, e, l⟩

theorem module_zero (m : ℕ) (X : List ℂ) : moduleReel (2 * m) 0 X = X := by
  refine List.ext_getElem (by simp [moduleReel]) fun i h1 h2 => ?_
  simp only [moduleReel, List.getElem_map, List.getElem_range]
  split
  · rename_i h
    subst h
    rw [List.getD_eq_getElem _ _ h2]
    apply Complex.ext <;> simp
  · rw [List.getD_eq_getElem _ _ h2]
    simp

/-- **C182 (round trip).** On real signals of even length the two real transforms are inverse of each other. -/
theorem C182_aller_retour (x : List ℝ) (hx : 0 < x.length) (hpair : 2 ∣ x.length) (hb : x.length ≤ 2 ^ 29) : ∃ X, rtfrCalcule x = some X ∧ X.length = x.length / 2 ∧ irtfrCalcule X = some x := by
  obtain ⟨m, hm⟩ := hpair
  obtain ⟨X, y, e1, e2, l2, g2⟩ := module_valeur x m (by omega) hm (by omega) 0
  obtain ⟨X', e3, l3, -⟩ := rtfrCalcule_valeur x m (by omega) hm (by omega)
  rw [e1] at e3; cases e3
  rw [module_zero] at e2
  refine ⟨X, e1, by omega, ?_⟩
  rw [e2, Option.some.injEq]
  refine List.ext_getElem (by omega) fun k h1 h2 => ?_
  have := g2 k (by omega)
  rw [List.getD_eq_getElem _ _ h1] at this
  rw [this, sum_eq_single k]
  · rw [show ((k : ℝ) - k - 0) = ((0 : ℤ) : ℝ) by push_cast; ring, C182_noyau_entier m (by omega), if_pos (dvd_zero _), one_re, mul_one, List.getD_eq_getElem _ _ h2]
  · intro u hu hne
    have hu := mem_range.1 hu
    rw [show ((k : ℝ) - u - 0) = (((k : ℤ) - u : ℤ) : ℝ) by push_cast; ring, C182_noyau_entier m (by omega), if_neg, zero_re, mul_zero]
    intro h3
    have := Int.eq_zero_of_abs_lt_dvd h3 (by rw [abs_lt]; constructor <;> omega)
    omega
  · intro h; exact absurd (mem_range.2 (by omega)) h

/-- Non-vacuity: a signal of two samples delayed by half a sample meets every hypothesis. -/
example : (0 < [1, (2 : ℝ)].length) ∧ (2 ∣ [1, (2 : ℝ)].length) ∧ 2 * [1, (2 : ℝ)].length ≤ 2 ^ 29 ∧ |(1 : ℤ)| ≤ ([1, (2 : ℝ)].length : ℤ) := by simp

/-- **C182 (energy, real signals).**  The delay of a real signal never increases its energy. -/
theorem C182_reel_energie (x y : List ℝ) (τ : ℝ) (hx : 0 < x.length) (hb : 2 * x.length ≤ 2 ^ 29) (h : delaisFracR x τ = some y) :
    ∑ k ∈ range x.length, y.getD k 0 ^ 2 ≤ ∑ k ∈ range x.length, x.getD k 0 ^ 2 := by
  obtain ⟨y', z, e1, e2, e3⟩ := C182_reel_complexe x τ hx hb
  rw [h] at e1
  obtain rfl := Option.some.inj e1
  have := C182_energie (x.map fun r : ℝ => (r : ℂ)) z τ (by simpa using hx) (by simpa using hb) e2
  rw [List.length_map] at this
  have hd : ∀ k, (x.map fun r : ℝ => (r : ℂ)).getD k 0 = ((x.getD k 0 : ℝ) : ℂ) := fun k => by
    simp only [List.getD_eq_getElem?_getD, List.getElem?_map]
    cases x[k]? <;> simp
  have hz : ∀ k, y.getD k 0 = (z.getD k 0).re := fun k => by
    rw [e3]
    simp only [List.getD_eq_getElem?_getD, List.getElem?_map]
    cases z[k]? <;> simp
  calc ∑ k ∈ range x.length, y.getD k 0 ^ 2 ≤ ∑ k ∈ range x.length, ‖z.getD k 0‖ ^ 2 := by
        refine sum_le_sum fun k _ => ?_
        rw [hz, ← sq_abs]
        exact pow_le_pow_left₀ (abs_nonneg _) (Complex.abs_re_le_norm _) 2
    _ ≤ _ := this
    _ = _ := sum_congr rfl fun k _ => by rw [hd, Complex.norm_real, Real.norm_eq_abs, sq_abs]

end Verif.Fourier
