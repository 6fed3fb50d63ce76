/-
C137: cases where the automatic analysis of a filter is wrong.
-/
import Verif.Conception.FiltreAnalyseProps

namespace Verif.Conception

open Verif.Fourier Verif.FracRat Finset

/-- Response of a two-coefficient filter. -/
theorem gain_deux (a b : ℝ) (l : List ℝ) (hl : ∀ k, l.getD k 0 = 0) (f : ℝ) : ‖reponse (a :: b :: l) f‖ ^ 2 = a ^ 2 + b ^ 2 + 2 * a * b * Real.cos (2 * Real.pi * f) := by
  have h1 : reponse (a :: b :: l) f = (a : ℂ) + b * Complex.exp (((-(2 * Real.pi * f) : ℝ) : ℂ) * Complex.I) := by
    unfold reponse
    rw [List.length_cons, List.length_cons, Finset.sum_range_succ', Finset.sum_range_succ']
    rw [Finset.sum_eq_zero]
    · simp only [List.getD_cons_zero, List.getD_cons_succ, Nat.cast_zero, mul_zero, Complex.exp_zero, mul_one, zero_add]
      rw [add_comm]
      congr 3
      push_cast
      ring
    · intro k _
      rw [List.getD_cons_succ, List.getD_cons_succ, hl]
      simp
  have h2 : (a : ℂ) + b * Complex.exp (((-(2 * Real.pi * f) : ℝ) : ℂ) * Complex.I) = ((a + b * Real.cos (2 * Real.pi * f) : ℝ) : ℂ) + ((-(b * Real.sin (2 * Real.pi * f)) : ℝ) : ℂ) * Complex.I := by
    rw [Complex.exp_mul_I, ← Complex.ofReal_cos, ← Complex.ofReal_sin, Real.cos_neg, Real.sin_neg]
    push_cast
    ring
  rw [h1, h2, Complex.sq_norm, Complex.normSq_add_mul_I]
  have := Real.sin_sq_add_cos_sq (2 * Real.pi * f)
  linear_combination b ^ 2 * this

theorem gain_bas (l : List ℝ) (hl : ∀ k, l.getD k 0 = 0) (c f : ℝ) (hc : 0 ≤ c) (h0 : 0 ≤ f) (h1 : f ≤ 1 / 2) : ‖reponse (c :: c :: l) f‖ = 2 * c * Real.cos (Real.pi * f) := by
  have hp := Real.pi_pos
  have hcos : 0 ≤ Real.cos (Real.pi * f) := Real.cos_nonneg_of_mem_Icc ⟨by nlinarith, by nlinarith⟩
  rw [← abs_of_nonneg (norm_nonneg (reponse (c :: c :: l) f)), ← abs_of_nonneg (by positivity : (0 : ℝ) ≤ 2 * c * Real.cos (Real.pi * f)), ← sq_eq_sq_iff_abs_eq_abs, gain_deux c c l hl f,
    show 2 * Real.pi * f = 2 * (Real.pi * f) by ring, Real.cos_two_mul]
  ring

/-- **C137 (type) fails when the gain at the null frequency is not near 0 or 1.**  The low-pass filter `[1/4, 1/4]` (gain `cos(πf)/2`, decreasing) is announced band-pass, and the high-pass filter `[3/4, -1/4]` (gain 1/2 at the null frequency, 1 at
the Nyquist frequency, the squared gain being `5/8 - 3/8 cos(2πf)`, increasing) is announced band-stop. -/
theorem C137_type_refute (sois : List ℝ → Option (List ℝ)) :
    (∃ a, analyseFiltre sois (.rif [1 / 4, 1 / 4]) = some a ∧ a.type = .passeBande ∧ ∀ f, 0 ≤ f → f ≤ 1 / 2 → ‖reponse [1 / 4, 1 / 4] f‖ = Real.cos (Real.pi * f) / 2) ∧
    (∃ a, analyseFiltre sois (.rif [3 / 4, -1 / 4]) = some a ∧ a.type = .coupeBande ∧ ∀ f, ‖reponse [3 / 4, -1 / 4] f‖ ^ 2 = 5 / 8 - 3 / 8 * Real.cos (2 * Real.pi * f)) := by
  have nil : ∀ k, ([] : List ℝ).getD k 0 = 0 := fun k => by simp
  have petit : Real.cos (Real.pi * (4095 / 8192)) < 1 / 100 := by
    rw [show Real.pi * (4095 / 8192) = Real.pi / 2 - Real.pi / 8192 by ring, Real.cos_pi_div_two_sub]
    have h1 : Real.sin (Real.pi / 8192) ≤ Real.pi / 8192 := Real.sin_le (by positivity)
    linarith [Real.pi_lt_d2]
  constructor
  · have hg : ∀ f, 0 ≤ f → f ≤ 1 / 2 → ‖reponse [1 / 4, 1 / 4] f‖ = Real.cos (Real.pi * f) / 2 := by
      intro f h0 h1
      rw [gain_bas [] nil (1 / 4) f (by norm_num) h0 h1]
      ring
    obtain ⟨a, e, et, -⟩ := analyse_some sois [1 / 4, 1 / 4] (by simp) (by simp)
    refine ⟨a, e, ?_, hg⟩
    have g0 : gainAnalyse [1 / 4, 1 / 4] 0 = 1 / 2 := by
      rw [gainAnalyse, hg _ (by norm_num) (by norm_num)]
      simp
    have g1 : gainAnalyse [1 / 4, 1 / 4] 4095 < 0.2 := by
      rw [gainAnalyse, hg _ (by norm_num) (by norm_num)]
      push_cast
      norm_num at petit ⊢
      linarith
    rw [et, g0, classe, if_neg (by norm_num), if_neg (by intro h; norm_num at h), if_neg (by intro h; norm_num at h g1; linarith [h]), if_pos ⟨g1, g1⟩]
  · have hg : ∀ f, ‖reponse [3 / 4, -1 / 4] f‖ ^ 2 = 5 / 8 - 3 / 8 * Real.cos (2 * Real.pi * f) := by
      intro f
      rw [gain_deux _ _ [] nil]
      ring
    obtain ⟨a, e, et, -⟩ := analyse_some sois [3 / 4, -1 / 4] (by simp) (by simp)
    refine ⟨a, e, ?_, hg⟩
    have g0 : gainAnalyse [3 / 4, -1 / 4] 0 = 1 / 2 := by
      rw [gainAnalyse]
      have := hg (((0 : ℕ) : ℝ) / 8192)
      norm_num at this ⊢
      nlinarith [norm_nonneg (reponse [3 / 4, -1 / 4] 0)]
    have g1 : 0.8 < gainAnalyse [3 / 4, -1 / 4] 4095 := by
      rw [gainAnalyse]
      have h1 := hg (((4095 : ℕ) : ℝ) / 8192)
      have hc : Real.cos (2 * Real.pi * (((4095 : ℕ) : ℝ) / 8192)) ≤ -(9 / 10) := by
        rw [show 2 * Real.pi * (((4095 : ℕ) : ℝ) / 8192) = 2 * (Real.pi * (4095 / 8192)) by push_cast; ring, Real.cos_two_mul]
        have h2 : 0 ≤ Real.cos (Real.pi * (4095 / 8192)) := Real.cos_nonneg_of_mem_Icc ⟨by linarith [Real.pi_pos], by linarith [Real.pi_pos]⟩
        nlinarith
      have h3 := norm_nonneg (reponse [3 / 4, -1 / 4] (((4095 : ℕ) : ℝ) / 8192))
      generalize ‖reponse [3 / 4, -1 / 4] (((4095 : ℕ) : ℝ) / 8192)‖ = y at h1 h3 ⊢
      by_contra hy
      norm_num at hy
      nlinarith
    rw [et, g0, classe, if_neg (by norm_num), if_neg (by norm_num), if_pos ⟨by norm_num at g1 ⊢; linarith, by norm_num at g1 ⊢; linarith⟩]

/-- The index of the width, when the magnitudes have more points than the analysis supposes. -/
theorem lobes_largeur (N : ℕ) (db : List EReal) (hN : 0 < N) (hl : N ≤ db.length) (k : ℕ) (hk : k ≤ N) (e : Util.trouvePremier (db.map fun v : EReal => decide (v < (-3 : ℝ))) = k) :
    ∃ l, lobes N .passeBas db = some l ∧ l.i3 = k := by
  unfold lobes
  dsimp only
  rw [if_pos rfl, e, if_pos (by omega), if_pos rfl]
  have hq : queueZ db ((N : ℤ) - (k : ℤ)) = some (db.drop (db.length - (N - k))) := by
    rw [queueZ, if_pos (by omega)]
    congr 3
    omega
  rw [hq, Option.bind_some]
  have hp : ∃ p : ℕ, (if 0 ≤ Util.maxLocal (db.drop (db.length - (N - k))) then Util.maxLocal (db.drop (db.length - (N - k))) + (k : ℤ) else (N : ℤ) - 1) = (p : ℤ) ∧ p < N := by
    rcases Util.C33_max_local (db.drop (db.length - (N - k))) with ⟨e, -⟩ | ⟨j, e, hj, ⟨a, b, c, ha, hb, hc, -⟩, -⟩
    · exact ⟨N - 1, by rw [e]; simp; omega, by omega⟩
    · have := (List.getElem?_eq_some_iff.1 hc).1
      rw [List.length_drop] at this
      exact ⟨j + k, by rw [e]; simp, by omega⟩
  obtain ⟨p, ep, hp⟩ := hp
  have hq2 : queueZ db ((N : ℤ) - (p : ℤ)) = some (db.drop (db.length - (N - p))) := by
    rw [queueZ, if_pos (by omega)]
    congr 3
    omega
  rw [ep, hq2, Option.bind_some, Int.toNat_natCast, List.getElem?_eq_getElem (by omega), Option.map_some]
  exact ⟨_, rfl, rfl⟩

theorem cos_grille (i : ℕ) (hi : i < 8192) : (0 : ℝ) ≤ (i : ℝ) / 16384 ∧ (i : ℝ) / 16384 ≤ 1 / 2 ∧ 0 ≤ Real.cos (Real.pi * ((i : ℝ) / 16384)) := by
  have h1 : (i : ℝ) < 8192 := by exact_mod_cast hi
  have h0 : (0 : ℝ) ≤ i := Nat.cast_nonneg i
  have hp := Real.pi_pos
  exact ⟨by linarith, by linarith, Real.cos_nonneg_of_mem_Icc ⟨by nlinarith, by nlinarith⟩⟩

theorem cos_grille_grand (i : ℕ) (hi : i ≤ 3276) : (10 : ℝ) ^ ((-3 : ℝ) / 20) < Real.cos (Real.pi * ((i : ℝ) / 16384)) := by
  have hk : (i : ℝ) ≤ 3276 := by exact_mod_cast hi
  have h0 : (0 : ℝ) ≤ i := Nat.cast_nonneg i
  have hp := Real.pi_pos
  have h3 : Real.cos (Real.pi / 5) ≤ Real.cos (Real.pi * ((i : ℝ) / 16384)) := Real.cos_le_cos_of_nonneg_of_le_pi (by positivity) (by linarith) (by nlinarith)
  rw [Real.cos_pi_div_five] at h3
  have h5 : (2.2 : ℝ) < Real.sqrt 5 := by rw [Real.lt_sqrt (by norm_num)]; norm_num
  have := seuil3
  norm_num at *
  linarith

/-- The moving average of two samples followed by 16382 null coefficients. -/
noncomputable def moyenneLongue : List ℝ := 1 / 2 :: 1 / 2 :: List.replicate 16382 0

/-- **C137 (widths) fails for more than 8192 coefficients.**  The same two-sample mean with 16382 null coefficients (same response `cos(πf)`): the announced width at -3 dB is larger than 0.39, whereas the gain is already below `10^{-3/20}` at the frequency 1/4. -/
theorem C137_long_refute (sois : List ℝ → Option (List ℝ)) : ∃ a, analyseFiltre sois (.rif moyenneLongue) = some a ∧ a.type = .passeBas ∧ 0.39 < a.largeur ∧
    (∀ f, 0 ≤ f → f ≤ 1 / 2 → ‖reponse moyenneLongue f‖ = Real.cos (Real.pi * f)) ∧ ‖reponse moyenneLongue (1 / 4)‖ < (10 : ℝ) ^ ((-3 : ℝ) / 20) := by
  have hp := Real.pi_pos
  have len : moyenneLongue.length = 16384 := by rw [moyenneLongue, List.length_cons, List.length_cons, List.length_replicate]
  have hg : ∀ f, 0 ≤ f → f ≤ 1 / 2 → ‖reponse moyenneLongue f‖ = Real.cos (Real.pi * f) := by
    intro f h0 h1
    rw [moyenneLongue, gain_bas _ (fun k => by rw [List.getD_eq_getElem?_getD, List.getElem?_replicate]; split_ifs <;> rfl) (1 / 2) f (by norm_num) h0 h1]
    ring
  have s3 : Real.sqrt 2 / 2 < (10 : ℝ) ^ ((-3 : ℝ) / 20) := by
    by_contra hc
    rw [not_lt] at hc
    have h1 : ((10 : ℝ) ^ ((-3 : ℝ) / 20)) ^ 20 = 1 / 1000 := by
      rw [← Real.rpow_natCast, ← Real.rpow_mul (by norm_num)]
      norm_num
    have h2 := pow_le_pow_left₀ (Real.rpow_nonneg (by norm_num) _) hc 20
    rw [h1, show (Real.sqrt 2 / 2) ^ 20 = ((Real.sqrt 2) ^ 2) ^ 10 / 2 ^ 20 by ring, Real.sq_sqrt (by norm_num)] at h2
    norm_num at h2
  have hm : max 4096 (moyenneLongue.length / 2) = 8192 := by rw [len]; norm_num
  obtain ⟨A, e, l, g⟩ := frmagRif_some moyenneLongue 4096 (by rw [hm, len]) (by rw [hm]; norm_num) (by rw [hm]; norm_num)
  rw [hm] at e l g
  have ga : ∀ i, i < 8192 → A.getD i 0 = Real.cos (Real.pi * ((i : ℝ) / 16384)) := by
    intro i hi
    have : (i : ℝ) < 8192 := by exact_mod_cast hi
    have h2 : (i : ℝ) / (2 * ((8192 : ℕ) : ℝ)) = (i : ℝ) / 16384 := by push_cast; norm_num
    rw [g i hi, h2, hg ((i : ℝ) / 16384) (cos_grille i hi).1 (cos_grille i hi).2.1]
  have gb : ∀ i : ℕ, i < 8192 → A[i]? = some (Real.cos (Real.pi * ((i : ℝ) / 16384))) := by
    intro i hi
    rw [← ga i hi, List.getD_eq_getElem?_getD, List.getElem?_eq_getElem (by omega)]
    rfl
  have m1 : Real.cos (Real.pi * (((4095 : ℕ) : ℝ) / 16384)) < 0.8 ∧ 0.2 ≤ Real.cos (Real.pi * (((4095 : ℕ) : ℝ) / 16384)) := by
    constructor
    · rw [show Real.pi * (((4095 : ℕ) : ℝ) / 16384) = Real.pi / 4 - Real.pi / 16384 by push_cast; ring, Real.cos_sub, Real.cos_pi_div_four, Real.sin_pi_div_four]
      have h1 : Real.sin (Real.pi / 16384) ≤ Real.pi / 16384 := Real.sin_le (by positivity)
      have h2 := Real.cos_le_one (Real.pi / 16384)
      have h3 : Real.sqrt 2 < 1.42 := by rw [Real.sqrt_lt' (by norm_num)]; norm_num
      have h4 := Real.sqrt_nonneg 2
      have h5 := Real.pi_lt_d2
      have h6 : Real.sin (Real.pi / 16384) ≤ 1 / 100 := by linarith
      have key : ∀ r c s : ℝ, 0 ≤ r → r < 1.42 → c ≤ 1 → s ≤ 1 / 100 → r / 2 * c + r / 2 * s < 0.8 := by
        intro r c s a1 a2 a3 a4
        have b1 := mul_le_mul_of_nonneg_left a3 (by linarith : (0 : ℝ) ≤ r / 2)
        have b2 := mul_le_mul_of_nonneg_left a4 (by linarith : (0 : ℝ) ≤ r / 2)
        norm_num at a2 ⊢
        linarith
      exact key _ _ _ h4 h3 h2 h6
    · have h1 : Real.cos (Real.pi / 3) ≤ Real.cos (Real.pi * (((4095 : ℕ) : ℝ) / 16384)) := Real.cos_le_cos_of_nonneg_of_le_pi (by positivity) (by linarith) (by push_cast; linarith)
      rw [Real.cos_pi_div_three] at h1
      norm_num at h1 ⊢
      linarith
  have ht : classe (Real.cos (Real.pi * (((0 : ℕ) : ℝ) / 16384))) (Real.cos (Real.pi * (((4095 : ℕ) : ℝ) / 16384))) = .passeBas := by
    rw [show Real.pi * (((0 : ℕ) : ℝ) / 16384) = 0 by simp, Real.cos_zero]
    generalize Real.cos (Real.pi * (((4095 : ℕ) : ℝ) / 16384)) = m at m1
    obtain ⟨m2, m3⟩ := m1
    unfold classe
    rw [if_neg (by intro h; linarith [h.2]), if_neg (by norm_num), if_neg (by intro h; norm_num at h m2; linarith), if_neg (by intro h; linarith [h.1]), if_pos ⟨by norm_num, by linarith⟩]
  have get : ∀ i : ℕ, i < 8192 → (((A.map enDb)).map fun v : EReal => decide (v < (-3 : ℝ)))[i]? = some (decide (Real.cos (Real.pi * ((i : ℝ) / 16384)) < (10 : ℝ) ^ ((-3 : ℝ) / 20))) := by
    intro i hi
    rw [List.getElem?_map, List.getElem?_map, gb i hi, Option.map_some, Option.map_some, decide_eq_decide.2 (db_lt _ _ (cos_grille i hi).2.2)]
  have c4 : Real.cos (Real.pi * (((4096 : ℕ) : ℝ) / 16384)) < (10 : ℝ) ^ ((-3 : ℝ) / 20) := by
    rw [show Real.pi * (((4096 : ℕ) : ℝ) / 16384) = Real.pi / 4 by push_cast; ring, Real.cos_pi_div_four]
    exact s3
  obtain ⟨k, ek, k1, k2⟩ : ∃ k : ℕ, Util.trouvePremier ((A.map enDb).map fun v : EReal => decide (v < (-3 : ℝ))) = k ∧ k ≤ 4096 ∧ 3276 < k := by
    rcases Util.C33_trouve_premier ((A.map enDb).map fun v : EReal => decide (v < (-3 : ℝ))) with ⟨-, h⟩ | ⟨k, ek, h1, h2⟩
    · exfalso
      have := h 4096
      rw [get 4096 (by norm_num)] at this
      exact this (by rw [decide_eq_true c4])
    · refine ⟨k, ek, ?_, ?_⟩
      · by_contra hc
        have := h2 4096 (by omega)
        rw [get 4096 (by norm_num), decide_eq_true c4] at this
        simp at this
      · by_contra hc
        rw [get k (by omega), Option.some.injEq, decide_eq_true_eq] at h1
        exact absurd h1 (not_lt.2 (cos_grille_grand k (by omega)).le)
  obtain ⟨lo, el, e3⟩ := lobes_largeur 4096 (A.map enDb) (by norm_num) (by rw [List.length_map, l]; norm_num) k k1 ek
  refine ⟨⟨.passeBas, typeRif moyenneLongue, ‖(Design.rif moyenneLongue).fratComplexe.horner (id : ℂ → ℂ) 1‖, ‖(Design.rif moyenneLongue).fratComplexe.horner (id : ℂ → ℂ) (-1)‖, indiceFreq lo.i3, indiceFreq lo.i6, lo.attenPremier, indiceFreq lo.premier,
    lo.attenPire, indiceFreq lo.pire, indiceFreq lo.debut⟩, ?_, rfl, ?_, hg, ?_⟩
  · unfold analyseFiltre
    have ef : frmag (.rif moyenneLongue) 4096 = some (grilleFreq 8192, A) := e
    rw [ef]
    simp only [Option.bind_eq_bind, Option.bind_some]
    rw [show repimp sois (.rif moyenneLongue) none = some moyenneLongue from rfl, Option.bind_some, gb 0 (by norm_num), Option.bind_some, gb (4096 - 1) (by norm_num), Option.bind_some]
    rw [show (4096 - 1 : ℕ) = 4095 from rfl, ht, if_neg (by decide), el, Option.bind_some]
  · change 0.39 < indiceFreq lo.i3
    rw [e3, indiceFreq, if_neg (by omega)]
    have : (3277 : ℝ) ≤ k := by exact_mod_cast k2
    push_cast
    norm_num
    rw [lt_div_iff₀ (by norm_num)]
    linarith
  · rw [hg _ (by norm_num) (by norm_num), show Real.pi * (1 / 4) = Real.pi / 4 by ring, Real.cos_pi_div_four]
    exact s3

end Verif.Conception
