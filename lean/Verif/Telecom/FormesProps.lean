/-
C94-C96: constellations (PSK, π/4-QPSK, QAM, ASK) and decisions.

Specification: Euclidean distances between points of the plane (`dist2`, squared), angles, and lists of received samples compared one by one with the
transmitted symbols.
-/
import Verif.Telecom.Formes
import Verif.Telecom.Props
import Verif.Util.Props
import Verif.Reechan.PropsUps

namespace Verif.Telecom

/-! ### The chain with noise, for any constellation -/

theorem d2_sym (p q : ℝ × ℝ) : dist2 p q = dist2 q p := by simp only [dist2]; ring

/-- A decision which tolerates a noise of squared norm below `d / 4` recovers the bits, for any constellation of at least `2^k` points. -/
theorem chaine_bruit (symbs : List (ℝ × ℝ)) (k : ℕ) (hk : 0 < k) (hM : 2 ^ k ≤ symbs.length) (dec : ℝ × ℝ → Option ℕ) (d : ℝ)
    (hdec : ∀ i (h : i < symbs.length) p, 4 * dist2 p symbs[i] < d → dec p = some i) (x : List Bool) :
    ∃ y, genereSymboles symbs k x = some y ∧ y.length = (x.length + k - 1) / k ∧
      ∀ r, List.Forall₂ (fun r y => 4 * dist2 r y < d) r y →
        (r.mapM dec).map (fun s => symdemap s k) = some (x ++ List.replicate (manque x.length k) false) := by
  obtain ⟨s, e, hdm, hl, hlt, _⟩ := C07_aller_retour x k hk
  have gen : ∀ s : List ℕ, (∀ v ∈ s, v < 2 ^ k) → ∃ y, s.mapM (fun i => symbs[i]?) = some y ∧ y.length = s.length ∧
      ∀ r, List.Forall₂ (fun r y => 4 * dist2 r y < d) r y → r.mapM dec = some s := by
    intro s
    induction s with
    | nil =>
      intro _
      refine ⟨[], rfl, rfl, fun r hr => ?_⟩
      cases hr
      rfl
    | cons v s ih =>
      intro hv
      obtain ⟨y, h1, h2, h3⟩ := ih (fun w hw => hv w (by simp [hw]))
      have hvl : v < symbs.length := lt_of_lt_of_le (hv v (by simp)) hM
      refine ⟨symbs[v] :: y, ?_, by simp [h2], fun r hr => ?_⟩
      · rw [List.mapM_cons, h1, List.getElem?_eq_getElem hvl]; rfl
      · cases hr with
        | cons ha hb => rw [List.mapM_cons, hdec v hvl _ ha, h3 _ hb]; rfl
  obtain ⟨y, h1, h2, h3⟩ := gen s hlt
  refine ⟨y, ?_, by rw [h2, hl], fun r hr => ?_⟩
  · simp only [genereSymboles, e]
    exact h1
  · rw [h3 r hr, Option.map_some, hdm]

/-- The generic decision tolerates a noise shorter than half the minimal distance. -/
theorem plusProche_marge (symbs : List (ℝ × ℝ)) (d B : ℝ) (hB : B ≤ 10 ^ 98) (hdB : d ≤ B)
    (hd : ∀ i j (hi : i < symbs.length) (hj : j < symbs.length), i ≠ j → d ≤ dist2 symbs[i] symbs[j])
    (hb : ∀ s ∈ symbs, ∀ t ∈ symbs, dist2 s t ≤ B) (i : ℕ) (hi : i < symbs.length) (p : ℝ × ℝ) (hp : 4 * dist2 p symbs[i] < d) :
    symbolePlusProche symbs p = some i := by
  have h := C40_marge_de_bruit symbs i hi (p.1 - symbs[i].1, p.2 - symbs[i].2) (fun j hj hji => by
      refine lt_of_lt_of_le ?_ (hd i j hi hj (Ne.symm hji))
      exact hp) (by
      intro s hs
      have h1 := hb _ (List.getElem_mem hi) s hs
      simp only [add_sub_cancel]
      simp only [dist2] at h1 hp ⊢
      nlinarith [sq_nonneg ((p.1 - symbs[i].1) - (symbs[i].1 - s.1)), sq_nonneg ((p.2 - symbs[i].2) - (symbs[i].2 - s.2)),
        mul_self_nonneg (p.1 - symbs[i].1), mul_self_nonneg (p.2 - symbs[i].2)])
  simpa using h

/-! ### PSK -/

/-- Specification: the angle of symbol `i` of the `M`-PSK. -/
noncomputable def anglePsk (M i : ℕ) : ℝ := if M = 2 then Real.pi * (1 - i) else (if M = 4 then Real.pi / 4 else 0) + 2 * Real.pi * i / M

theorem psk_longueur (M : ℕ) : (pskConstellation M).length = M := by
  unfold pskConstellation
  split
  · rename_i h; simp [h]
  · simp

theorem psk_elt (M i : ℕ) (h : i < (pskConstellation M).length) : (pskConstellation M)[i] = (Real.cos (anglePsk M i), Real.sin (anglePsk M i)) := by
  have hl := h
  rw [psk_longueur] at hl
  unfold pskConstellation anglePsk
  by_cases hM : M = 2
  · subst hM
    simp only [if_true]
    have : i = 0 ∨ i = 1 := by omega
    rcases this with rfl | rfl <;> simp
  · simp [hM]

theorem d2_angles (a b : ℝ) : dist2 (Real.cos a, Real.sin a) (Real.cos b, Real.sin b) = 4 * Real.sin ((a - b) / 2) ^ 2 := by
  have h1 := Real.sin_sq_add_cos_sq a
  have h2 := Real.sin_sq_add_cos_sq b
  have h3 := Real.cos_sub a b
  have h4 := Real.cos_two_mul ((a - b) / 2)
  have h5 := Real.sin_sq_add_cos_sq ((a - b) / 2)
  rw [mul_div_cancel₀ _ (by norm_num : (2 : ℝ) ≠ 0)] at h4
  simp only [dist2]
  nlinarith

theorem sin_min (x y : ℝ) (h0 : 0 < x) (h1 : x ≤ y) (h2 : y ≤ Real.pi - x) : Real.sin x ≤ Real.sin y := by
  have h := Real.sin_sub_sin y x
  have e1 : 0 ≤ Real.sin ((y - x) / 2) := Real.sin_nonneg_of_nonneg_of_le_pi (by linarith) (by linarith [Real.pi_pos])
  have e2 : 0 ≤ Real.cos ((y + x) / 2) := Real.cos_nonneg_of_mem_Icc ⟨by linarith [Real.pi_pos], by linarith⟩
  nlinarith [mul_nonneg e1 e2]

theorem anglePsk_diff (M : ℕ) (hM : 2 ≤ M) (i j : ℕ) : (anglePsk M i - anglePsk M j) / 2 = Real.pi * ((i : ℝ) - j) / M ∨
    (anglePsk M i - anglePsk M j) / 2 = -(Real.pi * ((i : ℝ) - j) / M) := by
  have hM0 : (M : ℝ) ≠ 0 := by
    have : M ≠ 0 := by omega
    exact_mod_cast this
  unfold anglePsk
  by_cases h : M = 2
  · right
    subst h
    simp only [if_true]
    push_cast
    ring
  · left
    simp only [if_neg h]
    field_simp
    ring

/-- `sin(π m / M)² ≥ sin(π / M)²` for `m` not a multiple of `M`. -/
theorem sin_dist (M : ℕ) (i j : ℕ) (hi : i < M) (hj : j < M) (h : i ≠ j) :
    Real.sin (Real.pi / M) ^ 2 ≤ Real.sin (Real.pi * ((i : ℝ) - j) / M) ^ 2 := by
  have hM : 2 ≤ M := by omega
  have hMr : (0 : ℝ) < M := by exact_mod_cast (by omega : 0 < M)
  have hpi := Real.pi_pos
  wlog hij : j < i generalizing i j with H
  · have := H j i hj hi h.symm (by omega)
    rwa [show Real.pi * ((i : ℝ) - j) / M = -(Real.pi * ((j : ℝ) - i) / M) by ring, Real.sin_neg, neg_sq]
  have h1 : (1 : ℝ) ≤ (i : ℝ) - j := by
    have : (j : ℝ) + 1 ≤ i := by exact_mod_cast hij
    linarith
  have h2 : (i : ℝ) - j ≤ M - 1 := by
    have a : (i : ℝ) + 1 ≤ M := by exact_mod_cast hi
    have b : (0 : ℝ) ≤ j := Nat.cast_nonneg j
    linarith
  have hs : 0 < Real.sin (Real.pi / M) := by
    apply Real.sin_pos_of_pos_of_lt_pi (by positivity)
    rw [div_lt_iff₀ hMr]
    have : (2 : ℝ) ≤ M := by exact_mod_cast hM
    nlinarith
  have hle : Real.sin (Real.pi / M) ≤ Real.sin (Real.pi * ((i : ℝ) - j) / M) := by
    apply sin_min
    · positivity
    · rw [div_le_div_iff_of_pos_right hMr]
      nlinarith
    · rw [show Real.pi - Real.pi / M = Real.pi * (M - 1) / M by field_simp, div_le_div_iff_of_pos_right hMr]
      nlinarith
  exact pow_le_pow_left₀ hs.le hle 2

/-- **C94 (PSK constellation).** For every `M ≥ 2`, `forme_onde_psk(M)` has `M` symbols on the unit circle, any two of them are at least `2 sin(π/M)` apart, and this
distance is attained. -/
theorem C94_constellation (M : ℕ) (hM : 2 ≤ M) : (pskConstellation M).length = M ∧ (∀ s ∈ pskConstellation M, dist2 s (0, 0) = 1) ∧
    (∀ i j (hi : i < (pskConstellation M).length) (hj : j < (pskConstellation M).length), i ≠ j →
      (2 * Real.sin (Real.pi / M)) ^ 2 ≤ dist2 (pskConstellation M)[i] (pskConstellation M)[j]) ∧
    dist2 ((pskConstellation M).getD 0 (0, 0)) ((pskConstellation M).getD 1 (0, 0)) = (2 * Real.sin (Real.pi / M)) ^ 2 := by
  have hl := psk_longueur M
  refine ⟨hl, ?_, ?_, ?_⟩
  · intro s hs
    obtain ⟨i, hi, rfl⟩ := List.getElem_of_mem hs
    rw [psk_elt]
    simp only [dist2, sub_zero]
    have := Real.sin_sq_add_cos_sq (anglePsk M i)
    nlinarith
  · intro i j hi hj hij
    rw [psk_elt, psk_elt, d2_angles, mul_pow]
    have := sin_dist M i j (by omega) (by omega) hij
    rcases anglePsk_diff M hM i j with h | h <;> rw [h]
    · linarith
    · rw [Real.sin_neg, neg_sq]
      linarith
  · have e0 : (pskConstellation M).getD 0 (0, 0) = (pskConstellation M)[0]'(by omega) := by
      rw [List.getD_eq_getElem?_getD, List.getElem?_eq_getElem (by omega), Option.getD_some]
    have e1 : (pskConstellation M).getD 1 (0, 0) = (pskConstellation M)[1]'(by omega) := by
      rw [List.getD_eq_getElem?_getD, List.getElem?_eq_getElem (by omega), Option.getD_some]
    rw [e0, e1, psk_elt, psk_elt, d2_angles, mul_pow]
    rcases anglePsk_diff M hM 0 1 with h | h <;> rw [h] <;> push_cast
    · rw [show Real.pi * (0 - 1) / M = -(Real.pi / M) by ring, Real.sin_neg, neg_sq]
      norm_num
    · rw [show -(Real.pi * (0 - 1) / M) = Real.pi / M by ring]
      norm_num

theorem psk_borne (M : ℕ) : ∀ s ∈ pskConstellation M, ∀ t ∈ pskConstellation M, dist2 s t ≤ 4 := by
  intro s hs t ht
  obtain ⟨i, hi, rfl⟩ := List.getElem_of_mem hs
  obtain ⟨j, hj, rfl⟩ := List.getElem_of_mem ht
  rw [psk_elt, psk_elt, d2_angles]
  nlinarith [Real.sin_sq_le_one ((anglePsk M i - anglePsk M j) / 2)]

theorem psk_decision (M : ℕ) (hM : 2 ≤ M) (i : ℕ) (hi : i < (pskConstellation M).length) (p : ℝ × ℝ)
    (hp : 4 * dist2 p (pskConstellation M)[i] < (2 * Real.sin (Real.pi / M)) ^ 2) : pskPlusProche M p = some i := by
  obtain ⟨_, _, hd, _⟩ := C94_constellation M hM
  have h4 : (2 * Real.sin (Real.pi / M)) ^ 2 ≤ 4 := by nlinarith [Real.sin_sq_le_one (Real.pi / M)]
  have h := plusProche_marge (pskConstellation M) _ 4 (by norm_num) h4 hd (psk_borne M) i hi p hp
  unfold pskPlusProche
  by_cases h2 : M = 2
  · subst h2
    rw [if_pos rfl]
    have : pskConstellation 2 = bpskConstellation := by simp [pskConstellation, bpskConstellation]
    rw [this] at h
    rw [← h, C40_bpsk]
    intro s hs
    have h5 := psk_borne 2 _ (List.getElem_mem hi) s (by rw [this]; exact hs)
    generalize (pskConstellation 2)[i] = q at *
    simp only [dist2] at h5 hp h4 ⊢
    nlinarith [sq_nonneg ((p.1 - q.1) - (q.1 - s.1)), sq_nonneg ((p.2 - q.2) - (q.2 - s.2)), mul_self_nonneg (p.1 - q.1), mul_self_nonneg (p.2 - q.2)]
  · rw [if_neg h2]
    exact h

/-- **C94 (noise).** Any bit stream mapped onto a PSK of any order `M ≥ 2` (power of two or not) and received with an error shorter than `sin(π/M)` on each symbol is
decoded back to the bits, completed by the fewest zeros. -/
theorem C94_bruit (M : ℕ) (hM : 2 ≤ M) (x : List Bool) : ∃ y, genereSymboles (pskConstellation M) (nbBits M) x = some y ∧
    y.length = (x.length + nbBits M - 1) / nbBits M ∧
    ∀ r, List.Forall₂ (fun r y => dist2 r y < Real.sin (Real.pi / M) ^ 2) r y →
      (r.mapM (pskPlusProche M)).map (fun s => symdemap s (nbBits M)) = some (x ++ List.replicate (manque x.length (nbBits M)) false) := by
  obtain ⟨y, h1, h2, h3⟩ := chaine_bruit (pskConstellation M) (nbBits M) (Nat.log_pos (by norm_num) hM)
    (by rw [psk_longueur]; exact Nat.pow_log_le_self 2 (by omega)) (pskPlusProche M) _ (psk_decision M hM) x
  refine ⟨y, h1, h2, fun r hr => h3 r (hr.imp fun a b hab => ?_)⟩
  rw [mul_pow]
  linarith

theorem cos_max (M i j : ℕ) (hi : i < M) (hj : j < M) (h : i ≠ j) (δ : ℝ) (hδ : |δ| < Real.pi / M) :
    Real.cos (δ + 2 * (Real.pi * ((i : ℝ) - j) / M)) < Real.cos δ := by
  have hMr : (0 : ℝ) < M := by exact_mod_cast (by omega : 0 < M)
  have hpi := Real.pi_pos
  wlog hij : j < i generalizing i j δ with H
  · have := H j i hj hi h.symm (-δ) (by rwa [abs_neg]) (by omega)
    rw [Real.cos_neg] at this
    rwa [show -δ + 2 * (Real.pi * ((j : ℝ) - i) / M) = -(δ + 2 * (Real.pi * ((i : ℝ) - j) / M)) by ring, Real.cos_neg] at this
  have h1 : (1 : ℝ) ≤ (i : ℝ) - j := by
    have : (j : ℝ) + 1 ≤ i := by exact_mod_cast hij
    linarith
  have h2 : (i : ℝ) - j ≤ M - 1 := by
    have a : (i : ℝ) + 1 ≤ M := by exact_mod_cast hi
    have b : (0 : ℝ) ≤ j := Nat.cast_nonneg j
    linarith
  have l1 : Real.pi / M ≤ Real.pi * ((i : ℝ) - j) / M := by
    rw [div_le_div_iff_of_pos_right hMr]
    nlinarith
  have l2 : Real.pi * ((i : ℝ) - j) / M ≤ Real.pi - Real.pi / M := by
    rw [show Real.pi - Real.pi / M = Real.pi * (M - 1) / M by field_simp, div_le_div_iff_of_pos_right hMr]
    nlinarith
  have lp : 0 < Real.pi / M := by positivity
  rw [abs_lt] at hδ
  generalize Real.pi * ((i : ℝ) - j) / M = m at *
  have e := Real.cos_sub_cos δ (δ + 2 * m)
  rw [show (δ + (δ + 2 * m)) / 2 = δ + m by ring, show (δ - (δ + 2 * m)) / 2 = -m by ring, Real.sin_neg] at e
  have s1 : 0 < Real.sin (δ + m) := Real.sin_pos_of_pos_of_lt_pi (by linarith) (by linarith)
  have s2 : 0 < Real.sin m := Real.sin_pos_of_pos_of_lt_pi (by linarith) (by linarith)
  nlinarith [mul_pos s1 s2]

/-- **C94 (phase).** The PSK decision only depends on the phase: a sample of any positive amplitude (up to 10^49) whose phase is less than `π/M` away from the phase of
symbol `i` is decided `i`. -/
theorem C94_phase (M : ℕ) (hM : 2 ≤ M) (i : ℕ) (hi : i < M) (ρ φ : ℝ) (h0 : 0 < ρ) (h1 : ρ ≤ 10 ^ 49) (hφ : |φ - anglePsk M i| < Real.pi / M) :
    pskPlusProche M (ρ * Real.cos φ, ρ * Real.sin φ) = some i := by
  have hl := psk_longueur M
  have hdist : ∀ a, dist2 (ρ * Real.cos φ, ρ * Real.sin φ) (Real.cos a, Real.sin a) = ρ ^ 2 + 1 - 2 * ρ * Real.cos (φ - a) := by
    intro a
    simp only [dist2]
    rw [Real.cos_sub]
    have e1 := Real.sin_sq_add_cos_sq φ
    have e2 := Real.sin_sq_add_cos_sq a
    linear_combination ρ ^ 2 * e1 + e2
  have hb : ∀ s ∈ pskConstellation M, dist2 (ρ * Real.cos φ, ρ * Real.sin φ) s < 10 ^ 100 := by
    intro s hs
    obtain ⟨j, hj, rfl⟩ := List.getElem_of_mem hs
    rw [psk_elt, hdist]
    have := Real.neg_one_le_cos (φ - anglePsk M j)
    nlinarith
  have hne : pskConstellation M ≠ [] := by
    intro h
    rw [h] at hl
    simp at hl
    omega
  obtain ⟨j, hj, e, hmin, _⟩ := C40_decision_optimale (pskConstellation M) (ρ * Real.cos φ, ρ * Real.sin φ) hne hb
  have hji : j = i := by
    by_contra hne'
    have h := hmin i (by omega)
    rw [psk_elt, psk_elt, hdist, hdist] at h
    have hlt : Real.cos (φ - anglePsk M j) < Real.cos (φ - anglePsk M i) := by
      rcases anglePsk_diff M hM i j with hd | hd
      · have := cos_max M i j hi (by omega) (Ne.symm hne') _ hφ
        rw [← hd] at this
        rwa [show φ - anglePsk M i + 2 * ((anglePsk M i - anglePsk M j) / 2) = φ - anglePsk M j by ring] at this
      · have := cos_max M j i (by omega) hi hne' _ hφ
        rw [show Real.pi * ((j : ℝ) - i) / M = -(Real.pi * ((i : ℝ) - j) / M) by ring, ← hd] at this
        rwa [show φ - anglePsk M i + 2 * ((anglePsk M i - anglePsk M j) / 2) = φ - anglePsk M j by ring] at this
    nlinarith
  subst hji
  unfold pskPlusProche
  by_cases h2 : M = 2
  · subst h2
    have ec : pskConstellation 2 = bpskConstellation := by simp [pskConstellation, bpskConstellation]
    rw [if_pos rfl, ← e, ec, C40_bpsk]
    rw [← ec]
    exact hb
  · rw [if_neg h2, e]

theorem qpsk_points : pskConstellation 4 = [(Real.sqrt 2 / 2, Real.sqrt 2 / 2), (-(Real.sqrt 2 / 2), Real.sqrt 2 / 2), (-(Real.sqrt 2 / 2), -(Real.sqrt 2 / 2)),
    (Real.sqrt 2 / 2, -(Real.sqrt 2 / 2))] := by
  have a0 : Real.pi / 4 + 2 * Real.pi * 0 / 4 = Real.pi / 4 := by ring
  have a1 : Real.pi / 4 + 2 * Real.pi * 1 / 4 = Real.pi - Real.pi / 4 := by ring
  have a2 : Real.pi / 4 + 2 * Real.pi * 2 / 4 = Real.pi / 4 + Real.pi := by ring
  have a3 : Real.pi / 4 + 2 * Real.pi * 3 / 4 = -(Real.pi / 4) + 2 * Real.pi := by ring
  simp only [pskConstellation, show ¬ (4 = 2) by norm_num, if_false, if_true, List.range, List.range.loop, List.map, Nat.cast_ofNat, Nat.cast_zero, Nat.cast_one, a0, a1, a2, a3,
    Real.cos_pi_sub, Real.sin_pi_sub, Real.cos_add_pi, Real.sin_add_pi, Real.cos_add_two_pi, Real.sin_add_two_pi, Real.cos_neg, Real.sin_neg, Real.cos_pi_div_four,
    Real.sin_pi_div_four]

/-- **C94 (quadrant test).** The quadrant test used for the QPSK family returns, for every sample, a symbol at minimal distance. -/
theorem C94_quadrant (x : ℝ × ℝ) : ∃ h : decodeQPSK x < (pskConstellation 4).length, ∀ j (hj : j < (pskConstellation 4).length),
    dist2 x (pskConstellation 4)[decodeQPSK x] ≤ dist2 x (pskConstellation 4)[j] := by
  have hr : 0 < Real.sqrt 2 / 2 := by positivity
  simp only [qpsk_points]
  unfold decodeQPSK
  have hfin : ∀ j, j < 4 → j = 0 ∨ j = 1 ∨ j = 2 ∨ j = 3 := by intro j hj; omega
  split <;> split <;> refine ⟨by simp, fun j hj => ?_⟩ <;> rcases hfin j (by simpa using hj) with rfl | rfl | rfl | rfl <;>
    simp only [List.getElem_cons_zero, List.getElem_cons_succ, dist2] <;> nlinarith

/-- **C94 (quadrant test, ties).** On the half axis of negative imaginary numbers, equidistant from symbols 2 and 3, the quadrant test and the generic decision differ. -/
theorem C94_quadrant_refute : decodeQPSK (0, -1) = 3 ∧ pskPlusProche 4 (0, -1) = some 2 := by
  constructor
  · norm_num [decodeQPSK]
  · have hs : (Real.sqrt 2) ^ 2 = 2 := Real.sq_sqrt (by norm_num)
    have h0 : 0 < Real.sqrt 2 := by positivity
    have d0 : dist2 ((0, -1) : ℝ × ℝ) (Real.sqrt 2 / 2, Real.sqrt 2 / 2) = 2 + Real.sqrt 2 := by simp only [dist2]; nlinarith
    have d1 : dist2 ((0, -1) : ℝ × ℝ) (-(Real.sqrt 2 / 2), Real.sqrt 2 / 2) = 2 + Real.sqrt 2 := by simp only [dist2]; nlinarith
    have d2 : dist2 ((0, -1) : ℝ × ℝ) (-(Real.sqrt 2 / 2), -(Real.sqrt 2 / 2)) = 2 - Real.sqrt 2 := by simp only [dist2]; nlinarith
    have d3 : dist2 ((0, -1) : ℝ × ℝ) (Real.sqrt 2 / 2, -(Real.sqrt 2 / 2)) = 2 - Real.sqrt 2 := by simp only [dist2]; nlinarith
    have hlt : Real.sqrt 2 < 2 := by nlinarith
    unfold pskPlusProche
    rw [if_neg (by norm_num)]
    unfold symbolePlusProche
    rw [qpsk_points]
    simp only [plusProcheBoucle, d0, d1, d2, d3]
    have c1 : 2 + Real.sqrt 2 < 10 ^ 100 := by linarith
    have c2 : 2 - Real.sqrt 2 < 2 + Real.sqrt 2 := by linarith
    simp only [c1, c2, lt_irrefl, if_true, if_false]
    rfl

/-- Non-vacuity: an 8-PSK and a sample 20 degrees away from symbol 1. -/
example : |Real.pi / 4 + Real.pi / 9 - anglePsk 8 1| < Real.pi / (8 : ℕ) := by
  have := Real.pi_pos
  unfold anglePsk
  norm_num
  rw [show Real.pi / 4 + Real.pi / 9 - 2 * Real.pi / 8 = Real.pi / 9 by ring, abs_of_pos (by positivity)]
  linarith

end Verif.Telecom
