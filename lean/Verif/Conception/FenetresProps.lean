/-
C78: windows without parameter (rectangular, Hann, Hamming, triangular, Blackman) and Kaiser windows.

Specification: `profil`, the text-book shape of each window as a function of the normalised position `t ∈ [-1/2, 1/2]`.
-/
import Verif.Conception.Fenetres
import Verif.Util.Props
import Mathlib.Data.List.GetD
import Mathlib.Analysis.SpecialFunctions.Trigonometric.Bounds
import Mathlib.Analysis.SpecialFunctions.Exponential

namespace Verif.Conception

open Finset

/-- Specification: shape of a window at the normalised position `t`. -/
noncomputable def profil : Fenetre → ℝ → ℝ
  | .hann, t => Real.cos (Real.pi * t) ^ 2
  | .hamming, t => 27 / 50 + 23 / 50 * Real.cos (2 * Real.pi * t)
  | .triangle, t => 1 - 2 * |t|
  | .blackman, t => 21 / 50 + 1 / 2 * Real.cos (2 * Real.pi * t) + 2 / 25 * Real.cos (4 * Real.pi * t)
  | _, _ => 1

/-- Specification: position of sample `k` of an `n`-point grid. -/
noncomputable def position (n : ℕ) (sym : Bool) (k : ℕ) : ℝ :=
  if sym then (if n % 2 = 0 then -1 / 2 + k / ((n : ℝ) - 1) else (k - ((n : ℝ) - 1) / 2) / n)
  else (if n % 2 = 0 then -1 / 2 + k / (n : ℝ) else ((n : ℝ) - 1) / n * (-1 / 2 + k / n))

theorem fenInter_length (n : ℕ) (sym : Bool) : (fenInter n sym).length = n := by
  unfold fenInter; exact (Util.C33_linspace _ _ _).1

theorem tdiv_pair (m : ℕ) : Int.tdiv (-((2 * m : ℕ) : ℤ)) 2 = -(m : ℤ) ∧ Int.tdiv ((2 * m : ℕ) : ℤ) 2 = (m : ℤ) := by
  rw [Int.neg_tdiv]
  have : Int.tdiv ((2 * m : ℕ) : ℤ) 2 = (m : ℤ) := by
    rw [Int.tdiv_eq_ediv_of_nonneg (by positivity)]; push_cast; omega
  exact ⟨by rw [this], this⟩

theorem tdiv_impair (m : ℕ) : Int.tdiv (-((2 * m + 1 : ℕ) : ℤ)) 2 = -(m : ℤ) ∧ Int.tdiv ((2 * m + 1 : ℕ) : ℤ) 2 = (m : ℤ) := by
  rw [Int.neg_tdiv]
  have : Int.tdiv ((2 * m + 1 : ℕ) : ℤ) 2 = (m : ℤ) := by
    rw [Int.tdiv_eq_ediv_of_nonneg (by positivity)]; push_cast; omega
  exact ⟨by rw [this], this⟩

theorem fenInter_get (n : ℕ) (sym : Bool) (k : ℕ) (hk : k < n) : (fenInter n sym)[k]? = some (position n sym k) := by
  unfold fenInter
  simp only
  rw [(Util.C33_linspace _ _ _).2.1 k hk]
  congr 1
  unfold position
  rcases Nat.even_or_odd' n with ⟨m, rfl | rfl⟩
  · have hm : (m : ℝ) ≠ 0 := by
      have : m ≠ 0 := by omega
      exact_mod_cast this
    have h2 : (2 * (m : ℝ) - 1) ≠ 0 := by
      have : (1 : ℝ) ≤ m := by exact_mod_cast Nat.one_le_iff_ne_zero.2 (by omega)
      linarith
    have e0 : 2 * m % 2 = 0 := by omega
    rw [(tdiv_pair m).1, (tdiv_pair m).2, if_pos e0, if_pos e0, if_pos e0]
    cases sym
    · have e1 : Int.tdiv (((2 * m : ℕ) : ℤ) - 1) 2 = (m : ℤ) - 1 := by
        rw [Int.tdiv_eq_ediv_of_nonneg (by push_cast; omega)]; push_cast; omega
      rw [e1]
      simp only [Bool.false_eq_true, if_false]
      push_cast
      have hs : (((m : ℝ) - 1) / (2 * m) - -(m : ℝ) / (2 * m)) / (2 * m - 1) = 1 / (2 * m) := by
        rw [div_eq_iff h2]; field_simp; ring
      rw [hs]
      field_simp
    · simp only [if_true]
      push_cast
      field_simp
      ring
  · have e0 : ¬ (2 * m + 1) % 2 = 0 := by omega
    rw [(tdiv_impair m).1, (tdiv_impair m).2, if_neg e0, if_neg e0, if_neg e0]
    have h2 : (2 * (m : ℝ) + 1) ≠ 0 := by positivity
    rcases Nat.eq_zero_or_pos m with h | h
    · subst h
      have : k = 0 := by omega
      subst this
      cases sym <;> simp
    · have hm : (m : ℝ) ≠ 0 := by
        have : m ≠ 0 := by omega
        exact_mod_cast this
      cases sym
      · simp only [Bool.false_eq_true, if_false]
        push_cast
        have : (2 * (m : ℝ) + 1 - 1) ≠ 0 := by simpa using hm
        field_simp
        ring
      · simp only [if_true]
        push_cast
        have : (2 * (m : ℝ) + 1 - 1) ≠ 0 := by simpa using hm
        field_simp
        ring

/-! ### Positions -/

theorem position_sym (n k : ℕ) (hk : k < n) : position n true (n - 1 - k) = -position n true k := by
  unfold position
  have hn : (n : ℝ) ≠ 0 := by exact_mod_cast (by omega : n ≠ 0)
  simp only [if_true]
  have hc : ((n - 1 - k : ℕ) : ℝ) = (n : ℝ) - 1 - k := by
    rw [Nat.sub_sub, Nat.cast_sub (by omega)]; push_cast; ring
  rw [hc]
  split
  · have h1 : (n : ℝ) - 1 ≠ 0 := by
      have : (2 : ℝ) ≤ n := by exact_mod_cast (by omega : 2 ≤ n)
      linarith
    field_simp; ring
  · field_simp; ring

theorem position_per (n k : ℕ) (hk : k ≤ n) (hn0 : 0 < n) : position n false (n - k) = -position n false k := by
  unfold position
  have hn : (n : ℝ) ≠ 0 := by exact_mod_cast (by omega : n ≠ 0)
  simp only [Bool.false_eq_true, if_false]
  rw [Nat.cast_sub hk]
  split
  · field_simp; ring
  · field_simp; ring

theorem position_croit (n : ℕ) (sym : Bool) (j k : ℕ) (hjk : j ≤ k) (hk : k < n) : position n sym j ≤ position n sym k := by
  unfold position
  have hn : (0 : ℝ) < n := by exact_mod_cast (by omega : 0 < n)
  have h1 : (1 : ℝ) ≤ n := by exact_mod_cast (by omega : 1 ≤ n)
  have hj : (j : ℝ) ≤ k := by exact_mod_cast hjk
  cases sym
  · simp only [Bool.false_eq_true, if_false]
    have : (0 : ℝ) ≤ ((n : ℝ) - 1) / n := div_nonneg (by linarith) hn.le
    split <;> gcongr
  · simp only [if_true]
    split
    · have : (0 : ℝ) ≤ (n : ℝ) - 1 := by linarith
      gcongr
    · gcongr

theorem position_borne (n : ℕ) (sym : Bool) (k : ℕ) (hk : k < n) : |position n sym k| ≤ 1 / 2 := by
  have h0 : -(1 / 2) ≤ position n sym 0 := by
    unfold position
    have hn : (0 : ℝ) < n := by exact_mod_cast (by omega : 0 < n)
    cases sym
    · simp only [Bool.false_eq_true, if_false]
      split
      · norm_num
      · push_cast
        rw [zero_div, add_zero]
        have : ((n : ℝ) - 1) / n ≤ 1 := by rw [div_le_one hn]; linarith
        linarith
    · simp only [if_true]
      split
      · norm_num
      · rw [le_div_iff₀ hn]; push_cast; linarith
  rw [abs_le]
  refine ⟨h0.trans (position_croit n sym 0 k (by omega) hk), ?_⟩
  cases sym
  · rcases Nat.eq_zero_or_pos k with h | h
    · subst h
      unfold position
      have hn : (0 : ℝ) < n := by exact_mod_cast (by omega : 0 < n)
      have h1 : (1 : ℝ) ≤ n := by exact_mod_cast (by omega : 1 ≤ n)
      simp only [Bool.false_eq_true, if_false]
      have : (0 : ℝ) ≤ ((n : ℝ) - 1) / n := div_nonneg (by linarith) hn.le
      push_cast
      split
      · norm_num
      · rw [zero_div]; nlinarith
    · have := position_croit n false 0 (n - k) (by omega) (by omega)
      rw [position_per n k (by omega) (by omega)] at this
      linarith
  · have := position_croit n true 0 (n - 1 - k) (by omega) (by omega)
    rw [position_sym n k hk] at this
    linarith

/-! ### Shapes -/

theorem profil_pair (w : Fenetre) (t : ℝ) : profil w (-t) = profil w t := by
  cases w <;> simp [profil]

theorem profil_zero (w : Fenetre) : profil w 0 = 1 := by
  cases w <;> simp [profil] <;> norm_num

theorem cos4 (t : ℝ) : Real.cos (4 * Real.pi * t) = 2 * Real.cos (2 * Real.pi * t) ^ 2 - 1 := by
  rw [← Real.cos_two_mul]; congr 1; ring

theorem cos2 (t : ℝ) : Real.cos (Real.pi * t) ^ 2 = 1 / 2 + 1 / 2 * Real.cos (2 * Real.pi * t) := by
  rw [Real.cos_sq]
  congr 2; ring_nf

theorem profil_decroit (w : Fenetre) (s t : ℝ) (hs : |s| ≤ |t|) (ht : |t| ≤ 1 / 2) : profil w t ≤ profil w s := by
  have h2 : ∀ u : ℝ, Real.cos (2 * Real.pi * u) = Real.cos (2 * Real.pi * |u|) := fun u => by
    rw [← Real.cos_abs, abs_mul, abs_of_pos (by positivity : (0 : ℝ) < 2 * Real.pi)]
  have hc : Real.cos (2 * Real.pi * t) ≤ Real.cos (2 * Real.pi * s) := by
    rw [h2 t, h2 s]
    apply Real.cos_le_cos_of_nonneg_of_le_pi
    · positivity
    · nlinarith [Real.pi_pos]
    · have := Real.pi_pos; gcongr
  have b1 := Real.neg_one_le_cos (2 * Real.pi * t)
  have b2 := Real.neg_one_le_cos (2 * Real.pi * s)
  cases w with
  | aucune => simp [profil]
  | chebychev => simp [profil]
  | hann => simp only [profil]; rw [cos2, cos2]; linarith
  | hamming => simp only [profil]; linarith
  | triangle => simp only [profil]; linarith
  | blackman =>
    simp only [profil]
    rw [cos4, cos4]
    nlinarith

theorem profil_bornes (w : Fenetre) (t : ℝ) (ht : |t| ≤ 1 / 2) : 0 ≤ profil w t ∧ profil w t ≤ 1 := by
  constructor
  · have := profil_decroit w t (1 / 2) (by rw [abs_of_pos (by norm_num : (0 : ℝ) < 1 / 2)]; exact ht) (by norm_num)
    refine le_trans ?_ this
    have e : Real.cos (2 * Real.pi * (1 / 2)) = -1 := by rw [show 2 * Real.pi * (1 / 2) = Real.pi by ring, Real.cos_pi]
    cases w with
    | aucune => simp [profil]
    | chebychev => simp [profil]
    | hann => simp only [profil]; positivity
    | hamming => simp only [profil]; rw [e]; norm_num
    | triangle => simp only [profil]; norm_num
    | blackman => simp only [profil]; rw [cos4, e]; norm_num
  · rw [← profil_zero w]
    exact profil_decroit w 0 t (by simp) ht

/-! ### The windows of the library -/

theorem fenetre_profil (w : Fenetre) (hw : w ≠ .chebychev) (n : ℕ) (sym : Bool) :
    fenetre w n sym = some ((fenInter n sym).map fun t : ℝ => profil w t) := by
  cases w with
  | chebychev => exact absurd rfl hw
  | aucune =>
    simp only [fenetre, profil]
    congr 1
    refine List.ext_getElem (by simp [fenInter_length]) fun i h1 h2 => by simp
  | hann =>
    simp only [fenetre, profil, hammingGen]
    congr 2
    funext t
    rw [cos2]; norm_num
  | hamming =>
    simp only [fenetre, profil, hammingGen]
    congr 2
    funext t
    norm_num
  | triangle =>
    simp only [fenetre, profil, triangle]
    congr 2
    funext t
    split
    · rename_i h; rw [abs_of_neg h]; ring
    · rename_i h; rw [abs_of_nonneg (not_lt.1 h)]; ring
  | blackman =>
    simp only [fenetre, profil, blackman]
    congr 2
    funext t
    rw [Real.cos_add_pi, show 2 * (2 * Real.pi * t + Real.pi) = 4 * Real.pi * t + 2 * Real.pi by ring, Real.cos_add_two_pi]
    norm_num
    ring

/-- **C78 (shape).**  For every size, every type but Chebyshev, the window has `n` samples, sample `k` being the text-book shape at the
position `k` of the grid. -/
theorem C78_forme (w : Fenetre) (hw : w ≠ .chebychev) (n : ℕ) (sym : Bool) :
    ∃ v, fenetre w n sym = some v ∧ v.length = n ∧ ∀ k, k < n → v.getD k 0 = profil w (position n sym k) := by
  refine ⟨_, fenetre_profil w hw n sym, by simp [fenInter_length], fun k hk => ?_⟩
  rw [List.getD_eq_getElem?_getD, List.getElem?_map, fenInter_get n sym k hk]
  rfl

/-- **C78 (symmetry).**  A window asked for as symmetric is: `w_k = w_{n-1-k}`; asked for as periodic, it is even around `n/2`:
`w_k = w_{n-k}`.  All values are between 0 and 1, and they increase up to the middle. -/
theorem C78_symetrie (w : Fenetre) (hw : w ≠ .chebychev) (n : ℕ) (sym : Bool) :
    ∃ v, fenetre w n sym = some v ∧ v.length = n ∧
      (∀ k, k < n → 0 ≤ v.getD k 0 ∧ v.getD k 0 ≤ 1) ∧
      (sym = true → ∀ k, k < n → v.getD (n - 1 - k) 0 = v.getD k 0) ∧
      (sym = false → ∀ k, 0 < k → k < n → v.getD (n - k) 0 = v.getD k 0) ∧
      (∀ j k, j ≤ k → 2 * k < n → v.getD j 0 ≤ v.getD k 0) ∧
      (sym = true → n % 2 = 1 → v.getD (n / 2) 0 = 1) ∧
      (sym = false → n % 2 = 0 → 0 < n → v.getD (n / 2) 0 = 1) := by
  obtain ⟨v, e, l, g⟩ := C78_forme w hw n sym
  refine ⟨v, e, l, fun k hk => ?_, fun hs k hk => ?_, fun hs k h0 hk => ?_, fun j k hjk hk => ?_, fun hs hn => ?_, fun hs hn h0 => ?_⟩
  · rw [g k hk]; exact profil_bornes w _ (position_borne n sym k hk)
  · subst hs
    rw [g k hk, g _ (by omega), position_sym n k hk, profil_pair]
  · subst hs
    rw [g k hk, g _ (by omega), position_per n k (by omega) (by omega), profil_pair]
  · rw [g k (by omega), g j (by omega)]
    refine profil_decroit w _ _ ?_ (position_borne n sym j (by omega))
    have h1 := position_croit n sym j k hjk (by omega)
    have h2 : position n sym k ≤ 0 := by
      cases sym
      · rcases Nat.eq_zero_or_pos k with h | h
        · subst h
          unfold position
          have hn : (0 : ℝ) < n := by exact_mod_cast (by omega : 0 < n)
          have h1 : (1 : ℝ) ≤ n := by exact_mod_cast (by omega : 1 ≤ n)
          simp only [Bool.false_eq_true, if_false]
          have : (0 : ℝ) ≤ ((n : ℝ) - 1) / n := div_nonneg (by linarith) hn.le
          push_cast
          split
          · norm_num
          · rw [zero_div]; nlinarith
        · have := position_croit n false k (n - k) (by omega) (by omega)
          rw [position_per n k (by omega) (by omega)] at this
          linarith
      · have := position_croit n true k (n - 1 - k) (by omega) (by omega)
        rw [position_sym n k (by omega)] at this
        linarith
    rw [abs_of_nonpos h2, abs_of_nonpos (h1.trans h2)]
    linarith
  · subst hs
    rw [g _ (by omega)]
    have := position_sym n (n / 2) (by omega)
    rw [show n - 1 - n / 2 = n / 2 by omega] at this
    rw [show position n true (n / 2) = 0 by linarith, profil_zero]
  · subst hs
    rw [g _ (by omega)]
    have := position_per n (n / 2) (by omega) h0
    rw [show n - n / 2 = n / 2 by omega] at this
    rw [show position n false (n / 2) = 0 by linarith, profil_zero]

example : ∃ v, fenetre .hann 3 true = some v ∧ v.getD 1 0 = 1 ∧ v.getD 0 0 = v.getD 2 0 := by
  obtain ⟨v, e, _, _, s, _, _, c, _⟩ := C78_symetrie .hann (by decide) 3 true
  exact ⟨v, e, c rfl rfl, s rfl 2 (by norm_num)⟩

/-- **C78 (overlap-add).**  A periodic window of even size overlapped by half with itself sums to a constant: 1 for Hann and the
triangle, 1.08 for Hamming. -/
theorem C78_recouvrement (w : Fenetre) (hw : w = .hann ∨ w = .triangle ∨ w = .hamming) (m k : ℕ) (hk : k < m) :
    ∃ v, fenetre w (2 * m) false = some v ∧ v.getD k 0 + v.getD (k + m) 0 = if w = .hamming then 27 / 25 else 1 := by
  obtain ⟨v, e, l, g⟩ := C78_forme w (by rcases hw with h | h | h <;> subst h <;> decide) (2 * m) false
  refine ⟨v, e, ?_⟩
  rw [g k (by omega), g _ (by omega)]
  have hm : (m : ℝ) ≠ 0 := by exact_mod_cast (by omega : m ≠ 0)
  have hm0 : (0 : ℝ) < m := by exact_mod_cast (by omega : 0 < m)
  have e0 : 2 * m % 2 = 0 := by omega
  have p1 : position (2 * m) false (k + m) = position (2 * m) false k + 1 / 2 := by
    simp only [position, Bool.false_eq_true, if_false, if_pos e0]
    push_cast
    field_simp
    ring
  have p0 : position (2 * m) false k = -1 / 2 + k / (2 * m) := by
    simp only [position, Bool.false_eq_true, if_false, if_pos e0]
    push_cast
    ring
  rw [p1]
  have hc : Real.cos (2 * Real.pi * (position (2 * m) false k + 1 / 2)) = -Real.cos (2 * Real.pi * position (2 * m) false k) := by
    rw [show 2 * Real.pi * (position (2 * m) false k + 1 / 2) = 2 * Real.pi * position (2 * m) false k + Real.pi by ring, Real.cos_add_pi]
  rcases hw with h | h | h <;> subst h
  · simp only [profil]; rw [cos2, cos2, hc]; simp; ring
  · simp only [profil]
    have hk' : (k : ℝ) / (2 * m) ≤ 1 / 2 := by
      rw [div_le_iff₀ (by positivity)]
      have : (k : ℝ) ≤ m := by exact_mod_cast hk.le
      linarith
    have hk0 : (0 : ℝ) ≤ (k : ℝ) / (2 * m) := by positivity
    rw [p0, abs_of_nonpos (by linarith), abs_of_nonneg (by linarith)]
    simp; ring
  · simp only [profil]; rw [hc]; simp; ring

/-- C78, refuted: the Hann window asked for as periodic does not have mean 1/2 when its size is odd (the grid has the step `(n-1)/n²`
instead of `1/n`). -/
theorem C78_periode_impaire_refute : ∃ v, fenetre .hann 3 false = some v ∧ v.getD 0 0 + v.getD 1 0 + v.getD 2 0 ≠ 3 / 2 := by
  obtain ⟨v, e, l, g⟩ := C78_forme .hann (by decide) 3 false
  refine ⟨v, e, ?_⟩
  rw [g 0 (by norm_num), g 1 (by norm_num), g 2 (by norm_num)]
  simp only [profil]
  rw [cos2, cos2, cos2]
  have q0 : position 3 false 0 = -(1 / 3) := by simp [position]; norm_num
  have q1 : position 3 false 1 = -(1 / 9) := by simp [position]; norm_num
  have q2 : position 3 false 2 = 1 / 9 := by simp [position]; norm_num
  rw [q0, q1, q2]
  have c0 : Real.cos (2 * Real.pi * -(1 / 3)) = -(1 / 2) := by
    rw [show 2 * Real.pi * -(1 / 3) = -(Real.pi - Real.pi / 3) by ring, Real.cos_neg, Real.cos_pi_sub, Real.cos_pi_div_three]
  have c1 : Real.cos (2 * Real.pi * -(1 / 9)) = Real.cos (2 * Real.pi * (1 / 9)) := by
    rw [show 2 * Real.pi * -(1 / 9) = -(2 * Real.pi * (1 / 9)) by ring, Real.cos_neg]
  have c2 : 1 / 2 < Real.cos (2 * Real.pi * (1 / 9)) := by
    rw [← Real.cos_pi_div_three]
    apply Real.cos_lt_cos_of_nonneg_of_le_pi
    · positivity
    · linarith [Real.pi_pos]
    · linarith [Real.pi_pos]
  rw [c0, c1]
  intro h
  linarith

/-- C78, refuted: the symmetric Hann, triangular and Blackman windows of 2 points are null (a filter designed with them is null, and its
normalisation divides 0 by 0). -/
theorem C78_deux_points_refute (w : Fenetre) (hw : w = .hann ∨ w = .triangle ∨ w = .blackman) :
    ∃ v, fenetre w 2 true = some v ∧ v.getD 0 0 = 0 ∧ v.getD 1 0 = 0 := by
  obtain ⟨v, e, l, g⟩ := C78_forme w (by rcases hw with h | h | h <;> subst h <;> decide) 2 true
  refine ⟨v, e, ?_⟩
  rw [g 0 (by norm_num), g 1 (by norm_num)]
  have q0 : position 2 true 0 = -(1 / 2) := by simp [position]; norm_num
  have q1 : position 2 true 1 = 1 / 2 := by simp [position]; norm_num
  have ec : Real.cos (2 * Real.pi * (1 / 2)) = -1 := by rw [show 2 * Real.pi * (1 / 2) = Real.pi by ring, Real.cos_pi]
  rw [q0, q1, profil_pair]
  rcases hw with h | h | h <;> subst h
  · simp only [profil]; rw [cos2, ec]; norm_num
  · simp only [profil]; norm_num
  · simp only [profil]; rw [cos4, ec]; norm_num

/-- **C78 (names).**  Every window type is read back from its printed name, and unknown names are rejected. -/
theorem C78_noms (n : ℕ) (sym : Bool) :
    (∀ w, parseFenetre (versChaine w) = some w) ∧
    (∀ nom, nom ∉ tableFen.map Prod.fst → fenetreNom nom n sym = none) := by
  refine ⟨fun w => by cases w <;> decide, fun nom h => ?_⟩
  unfold fenetreNom parseFenetre
  have : tableFen.find? (fun p => p.1 == nom) = none := by
    rw [List.find?_eq_none]
    intro p hp
    have : p.1 ≠ nom := fun e => h (e ▸ List.mem_map_of_mem hp)
    simpa using this
  rw [this]
  rfl

example : fenetreNom "kaiser" 5 true = none := (C78_noms 5 true).2 _ (by decide)

/-! ### Kaiser -/

/-- Specification: modified Bessel function of the first kind and order 0, `I₀(x) = Σ ((x/2)^k / k!)²`. -/
noncomputable def besselI0 (x : ℝ) : ℝ := ∑' k : ℕ, ((x / 2) ^ k / k.factorial) ^ 2

theorem besselI0_somme (x : ℝ) : Summable fun k : ℕ => ((x / 2) ^ k / (k.factorial : ℝ)) ^ 2 := by
  refine Summable.of_nonneg_of_le (fun k => by positivity) (fun k => ?_) (Real.summable_pow_div_factorial ((x / 2) ^ 2))
  rw [div_pow, ← pow_mul, mul_comm k 2, pow_mul]
  have h1 : (1 : ℝ) ≤ k.factorial := by exact_mod_cast Nat.one_le_iff_ne_zero.2 (Nat.factorial_ne_zero k)
  have h2 : (k.factorial : ℝ) ≤ (k.factorial : ℝ) ^ 2 := by nlinarith
  gcongr

theorem besselI0_croit (x y : ℝ) (h : |x| ≤ |y|) : besselI0 x ≤ besselI0 y := by
  unfold besselI0
  refine (besselI0_somme x).tsum_le_tsum (fun k => ?_) (besselI0_somme y)
  apply sq_le_sq.2
  rw [abs_div, abs_div, abs_pow, abs_pow, abs_div, abs_div]
  gcongr

theorem besselI0_un (x : ℝ) : 1 ≤ besselI0 x := by
  have := (besselI0_somme x).le_tsum 0 (fun k _ => by positivity)
  simpa [besselI0] using this

/-- **C78 (Kaiser).**  For every size and every shape parameter `β`, the Kaiser window has `n` samples in `]0, 1]`, is symmetric or even
around `n/2` as asked for, increases up to the middle, and its centre is 1. -/
theorem C78_kaiser (n : ℕ) (β : ℝ) (sym : Bool) :
    ∃ v, kaiser1 besselI0 n β sym = v ∧ v.length = n ∧
      (∀ k, k < n → v.getD k 0 =
        besselI0 (β * Real.pi * Real.sqrt (1 - 4 * position n sym k ^ 2)) / besselI0 (β * Real.pi)) ∧
      (∀ k, k < n → 0 < v.getD k 0 ∧ v.getD k 0 ≤ 1) ∧
      (sym = true → ∀ k, k < n → v.getD (n - 1 - k) 0 = v.getD k 0) ∧
      (sym = false → ∀ k, 0 < k → k < n → v.getD (n - k) 0 = v.getD k 0) ∧
      (sym = true → n % 2 = 1 → v.getD (n / 2) 0 = 1) ∧
      (sym = false → n % 2 = 0 → 0 < n → v.getD (n / 2) 0 = 1) := by
  have g : ∀ k, k < n → (kaiser1 besselI0 n β sym).getD k 0 =
        besselI0 (β * Real.pi * Real.sqrt (1 - 4 * position n sym k ^ 2)) / besselI0 (β * Real.pi) := by
    intro k hk
    unfold kaiser1
    rw [List.getD_eq_getElem?_getD, List.getElem?_map, fenInter_get n sym k hk]
    show besselI0 _ * _ = _
    rw [mul_one_div, show 1 - 2 * position n sym k * (2 * position n sym k) = 1 - 4 * position n sym k ^ 2 by ring]
  have hp : ∀ x, 0 < besselI0 x := fun x => lt_of_lt_of_le one_pos (besselI0_un x)
  have hc : ∀ k, k < n → position n sym k = 0 → (kaiser1 besselI0 n β sym).getD k 0 = 1 := by
    intro k hk h0
    rw [g k hk, h0]
    simp [(hp _).ne']
  refine ⟨_, rfl, by simp [kaiser1, fenInter_length], g, fun k hk => ?_, fun hs k hk => ?_, fun hs k h0 hk => ?_, fun hs hn => ?_, fun hs hn h0 => ?_⟩
  · rw [g k hk]
    refine ⟨div_pos (hp _) (hp _), ?_⟩
    rw [div_le_one (hp _)]
    apply besselI0_croit
    rw [abs_mul]
    apply mul_le_of_le_one_right (abs_nonneg _)
    rw [abs_of_nonneg (Real.sqrt_nonneg _)]
    rw [Real.sqrt_le_one]
    nlinarith [sq_nonneg (position n sym k)]
  · subst hs
    rw [g k hk, g _ (by omega), position_sym n k hk, neg_sq]
  · subst hs
    rw [g k hk, g _ (by omega), position_per n k (by omega) (by omega), neg_sq]
  · subst hs
    refine hc _ (by omega) ?_
    have := position_sym n (n / 2) (by omega)
    rw [show n - 1 - n / 2 = n / 2 by omega] at this
    linarith
  · subst hs
    refine hc _ (by omega) ?_
    have := position_per n (n / 2) (by omega) h0
    rw [show n - n / 2 = n / 2 by omega] at this
    linarith

/-- **C78 (Kaiser parameters).**  For every transition width `df ≠ 0`, the order is a positive odd number not below the documented
`(A - 7.95) / (2.285·2π·df)`, and exceeds it by less than 2 when it is above 0; a null transition width is an error. -/
theorem C78_kaiser_ordre (A df : ℝ) :
    kaiserParam A 0 = none ∧
    (df ≠ 0 → ∃ β n, kaiserParam A df = some (β, n) ∧ 1 ≤ n ∧ n % 2 = 1 ∧ (A - 7.95) / (2.285 * (2 * Real.pi * df)) ≤ n ∧
      (0 < (A - 7.95) / (2.285 * (2 * Real.pi * df)) → (n : ℝ) < (A - 7.95) / (2.285 * (2 * Real.pi * df)) + 2) ∧
      β * Real.pi = if A > 50 then 0.1102 * (A - 8.7)
        else if 21 ≤ A then 0.5842 * (A - 21) ^ (0.4 : ℝ) + 0.07886 * (A - 21) else 0) := by
  refine ⟨by simp [kaiserParam], fun h => ⟨kaiserBeta A / Real.pi, kaiserN A df, by simp [kaiserParam, h], ?_⟩⟩
  set q := (A - 7.95) / (2.285 * (2 * Real.pi * df)) with hq
  have hn : kaiserN A df = (if (if ⌈q⌉ ≤ 0 then 1 else ⌈q⌉) % 2 = 0 then (if ⌈q⌉ ≤ 0 then 1 else ⌈q⌉) + 1 else (if ⌈q⌉ ≤ 0 then 1 else ⌈q⌉)) := rfl
  have h1 : 1 ≤ kaiserN A df ∧ kaiserN A df % 2 = 1 ∧ ⌈q⌉ ≤ kaiserN A df ∧ (0 < ⌈q⌉ → kaiserN A df ≤ ⌈q⌉ + 1) := by
    rw [hn]
    split_ifs <;> omega
  refine ⟨h1.1, h1.2.1, (Int.le_ceil q).trans (by exact_mod_cast h1.2.2.1), fun h0 => ?_, ?_⟩
  · have h2 := h1.2.2.2 (Int.ceil_pos.2 h0)
    have h3 := Int.ceil_lt_add_one q
    have h4 : (kaiserN A df : ℝ) ≤ ⌈q⌉ + 1 := by exact_mod_cast h2
    linarith
  · rw [div_mul_cancel₀ _ Real.pi_ne_zero]
    rfl

end Verif.Conception
