import Verif.Fourier.Corr
import Verif.Fourier.Props

/-!
# C48: correlations computed with FFTs

Specifications: the circular correlation `(1/N) Σ_k x_k conj(y_{(k+n) mod N})` and the linear one `Σ_k x_k conj(y_{k+τ})`, over the `k` for
which both samples exist, as in core/include/tsd/fourier.hpp:432-499.
-/

namespace Verif.Fourier

open Finset Complex

theorem sum_miroir {K : Type} [Field K] (N : Nat) (hN : 0 < N) (f : Nat → K) :
    ∑ k ∈ range N, f ((N - k) % N) = ∑ k ∈ range N, f k := by
  have inv : ∀ k, k < N → (N - (N - k) % N) % N = k := by
    intro k hk
    by_cases h : k = 0
    · subst h; rw [Nat.sub_zero, Nat.mod_self, Nat.sub_zero, Nat.mod_self]
    · rw [Nat.mod_eq_of_lt (by omega : N - k < N), show N - (N - k) = k by omega, Nat.mod_eq_of_lt hk]
  refine sum_nbij' (fun k => (N - k) % N) (fun k => (N - k) % N) ?_ ?_ ?_ ?_ ?_
  · intro k _; exact mem_range.2 (Nat.mod_lt _ hN)
  · intro k _; exact mem_range.2 (Nat.mod_lt _ hN)
  · intro k hk; exact inv k (mem_range.1 hk)
  · intro k hk; exact inv k (mem_range.1 hk)
  · intro k _; rfl

/-- Correlation theorem. -/
theorem dft_correlation {K : Type} [Field K] (ρ : K) (N : Nat) (hN : 0 < N) (h : IsPrimitiveRoot ρ N) (u v : Nat → K) (t : Nat) :
    dft ρ N (fun k => dft ρ N u k * dft ρ⁻¹ N v k) t = N * ∑ a ∈ range N, u a * v ((a + t) % N) := by
  unfold dft
  have e : ∀ k ∈ range N, ρ ^ (t * k) * ((∑ a ∈ range N, ρ ^ (k * a) * u a) * (∑ b ∈ range N, ρ⁻¹ ^ (k * b) * v b)) =
      ∑ a ∈ range N, ∑ b ∈ range N, (ρ ^ (k * (a + t)) * ρ⁻¹ ^ (k * b)) * (u a * v b) := by
    intro k _
    rw [sum_mul_sum, mul_sum]
    refine sum_congr rfl fun a _ => ?_
    rw [mul_sum]
    refine sum_congr rfl fun b _ => ?_
    rw [Nat.mul_add, pow_add, Nat.mul_comm t k]; ring
  rw [sum_congr rfl e, sum_comm, mul_sum]
  refine sum_congr rfl fun a _ => ?_
  rw [sum_comm]
  have e2 : ∀ b ∈ range N, ∑ k ∈ range N, (ρ ^ (k * (a + t)) * ρ⁻¹ ^ (k * b)) * (u a * v b) =
      if b = (a + t) % N then N * (u a * v ((a + t) % N)) else 0 := by
    intro b hb
    rw [← sum_mul, ortho ρ N hN h, Nat.mod_eq_of_lt (mem_range.1 hb)]
    by_cases hc : b = (a + t) % N
    · rw [if_pos hc.symm, if_pos hc, hc]
    · rw [if_neg (fun e => hc e.symm), if_neg hc, zero_mul]
  rw [sum_congr rfl e2, sum_ite_eq', if_pos (mem_range.2 (Nat.mod_lt _ hN))]

theorem reverse_getD {K : Type} [Field K] (x : List K) (i : Nat) (hi : i < x.length) :
    x.reverse.getD i 0 = x.getD (x.length - 1 - i) 0 :=
  getD_of_get _ _ _ _ (List.getElem?_reverse hi)

theorem correlationFreq_some {K : Type} [Field K] (A : Trigo K) (X0 X1 : List K) (h0 : 0 < X0.length) (hl : X1.length = X0.length) :
    ∃ Y, correlationFreq A X0 X1 = some Y ∧ Y.length = X0.length ∧ ∀ k, k < X0.length →
      Y.getD k 0 = X0.getD ((X0.length - k) % X0.length) 0 * A.conj (X1.getD ((X0.length - k) % X0.length) 0) * A.racine X0.length := by
  have ha : X0[0]? = some (X0.getD 0 0) := by
    rw [List.getElem?_eq_getElem (by omega), List.getD_eq_getElem _ _ (by omega)]
  have hb : X1[0]? = some (X1.getD 0 0) := by
    rw [List.getElem?_eq_getElem (by omega), List.getD_eq_getElem _ _ (by omega)]
  obtain ⟨Y1, e1, l1, g1⟩ := ecrit_some (List.replicate X0.length (0 : K)) [X0.getD 0 0 * A.conj (X1.getD 0 0)] 0 (by simp; omega)
  rw [List.length_replicate] at l1
  have hz : Y1.getD 0 0 = X0.getD 0 0 * A.conj (X1.getD 0 0) := by
    rw [List.getD_eq_getElem?_getD, g1 0]; simp
  by_cases h1 : 1 < X0.length
  · obtain ⟨t0, e2, l2, g2⟩ := queue_some X0 (X0.length - 1) (by omega)
    obtain ⟨t1, e3, l3, g3⟩ := queue_some X1 (X0.length - 1) (by omega)
    obtain ⟨p, e4, l4, g4⟩ := produit_some t0.reverse (t1.reverse.map A.conj) (by simp [l2, l3])
    rw [List.length_reverse, l2] at l4
    obtain ⟨Y2, e5, l5, g5⟩ := ecritQueue_some Y1 p (by omega)
    refine ⟨Y2.map (· * A.racine X0.length), ?_, by rw [List.length_map]; omega, ?_⟩
    · unfold correlationFreq
      simp only [ha, hb, Option.bind_eq_bind, Option.bind_some, ne_eq, hl, not_true_eq_false, if_false, e1, if_pos h1, e2, e3, e4, e5]
    · intro k hk
      rw [getD_map _ _ _ (by omega)]
      congr 1
      by_cases hk0 : k = 0
      · subst hk0
        rw [Nat.sub_zero, Nat.mod_self, ← hz]
        exact getD_of_get _ _ _ _ (by rw [g5 0, if_neg (by omega)])
      · rw [Nat.mod_eq_of_lt (by omega : X0.length - k < X0.length)]
        have : Y2.getD k 0 = p.getD (k - 1) 0 := getD_of_get _ _ _ _ (by
          rw [g5 k, if_pos (by omega)]; congr 1; omega)
        rw [this, g4, reverse_getD _ _ (by omega), getD_map _ _ _ (by simp; omega), reverse_getD _ _ (by omega),
          getD_of_get _ _ _ _ (g2 _ (by omega)), getD_of_get _ _ _ _ (g3 _ (by omega))]
        congr 2
        · omega
        · congr 1; omega
  · have hone : X0.length = 1 := by omega
    refine ⟨Y1.map (· * A.racine X0.length), ?_, by rw [List.length_map]; omega, ?_⟩
    · unfold correlationFreq
      simp only [ha, hb, Option.bind_eq_bind, Option.bind_some, ne_eq, hl, not_true_eq_false, if_false, e1, if_neg h1]
    · intro k hk
      have : k = 0 := by omega
      subst this
      rw [getD_map _ _ _ (by omega), hz, Nat.sub_zero, Nat.mod_self]

theorem correlateur_some (p : Plan ℂ) (hp : Valide trigoC p) (x y : List ℂ) (hx : 0 < x.length) (hx2 : x.length ≤ 2 ^ 29)
    (hl : y.length = 0 ∨ y.length = x.length) :
    ∃ p' r, correlateur trigoC p x y = some (p', r) ∧ r.length = x.length ∧ ∀ t, t < x.length →
      r.getD t 0 = ∑ a ∈ range x.length, x.getD a 0 * star ((if y.length = 0 then x else y).getD ((a + t) % x.length) 0) := by
  unfold correlateur
  have hyl : (if y.length = 0 then x else y).length = x.length := by split <;> omega
  generalize (if y.length = 0 then x else y) = y' at hyl ⊢
  obtain ⟨p1, X0, e1, h1, t1⟩ := step_tfd loisC true x.length x p rfl hx hx2 hp
  obtain ⟨p2, X1, e2, h2, t2⟩ := step_tfd loisC true y'.length y' p1 rfl (by omega) (by omega) (.inr ⟨_, h1⟩)
  obtain ⟨Y, e3, l3, g3⟩ := correlationFreq_some trigoC X0 X1 (by rw [t1.1]; exact hx) (by rw [t1.1, t2.1, hyl])
  obtain ⟨p3, r, e4, _, t4⟩ := step_tfd loisC false Y.length Y p2 rfl (by rw [l3, t1.1]; exact hx) (by rw [l3, t1.1]; exact hx2)
    (.inr ⟨_, h2⟩)
  have lY : Y.length = x.length := by rw [l3, t1.1]
  refine ⟨p3, r, ?_, by rw [t4.1, lY], ?_⟩
  · simp only [ne_eq, hyl, not_true_eq_false, if_false, e1, e2, e3, e4]
  · intro t ht
    rw [t4.2 t (by omega), lY]
    have hs : dft (ratio trigoC x.length false) x.length (fun j => Y.getD j 0) t =
        dft (ratio trigoC x.length true) x.length (fun k =>
          dft (ratio trigoC x.length true) x.length (fun j => x.getD j 0) k *
          dft (ratio trigoC x.length true)⁻¹ x.length (fun j => (y'.map star).getD j 0) k) t / trigoC.racine x.length := by
      rw [ratio_not, dft_miroir _ _ hx (ratio_prim loisC _ hx true) _ _ ht]
      set ρ := ratio trigoC x.length true with hρ
      have hρN : ρ ^ x.length = 1 := (ratio_prim loisC _ hx true).pow_eq_one
      unfold dft
      rw [← sum_miroir x.length hx (fun k => ρ ^ (t * k) * _), sum_div]
      refine sum_congr rfl fun k hk => ?_
      have hk := mem_range.1 hk
      have hpow : ρ ^ ((x.length - t) % x.length * k) = ρ ^ (t * ((x.length - k) % x.length)) := by
        have h1 : ∀ b, ρ ^ b = ρ ^ (b % x.length) := fun b => by
          conv_lhs => rw [← Nat.mod_add_div b x.length, pow_add, pow_mul, hρN, one_pow, mul_one]
        rw [h1 (_ * k), h1 (t * _)]
        congr 1
        rw [Nat.mod_mul_mod, Nat.mul_mod_mod]
        have e : ((x.length - t) * k + t * k) % x.length = (t * (x.length - k) + t * k) % x.length := by
          rw [← Nat.add_mul, Nat.sub_add_cancel ht.le, ← Nat.mul_add, Nat.sub_add_cancel hk.le]
          simp
        exact Nat.ModEq.add_right_cancel' (t * k) e
      rw [hpow, mul_div_assoc]
      congr 1
      simp only []
      rw [g3 k (by rw [t1.1]; exact hk), t1.1]
      set k' := (x.length - k) % x.length with hk'
      have hk'l : k' < x.length := Nat.mod_lt _ hx
      have h5 := t1.2 k' hk'l
      have h6 := t2.2 k' (by omega)
      rw [hyl] at h6
      have h7 : star (X1.getD k' 0) = dft ρ⁻¹ x.length (fun j => (y'.map star).getD j 0) k' / trigoC.racine x.length := by
        have h8 := dft_TFD true y' k'
        have h9 := dft_TFD false (y'.map star) k'
        rw [List.length_map, hyl, ratio_not] at h9
        rw [hyl] at h8
        simp only [if_true, Bool.false_eq_true, if_false] at h8 h9
        rw [h6, h8, star_TFD, ← h9]
      rw [show trigoC.conj (X1.getD k' 0) = star (X1.getD k' 0) from rfl, h7, h5, ← hρ]
      have hne := loisC.racine_ne x.length hx
      unfold dft
      field_simp
    rw [hs, dft_correlation _ _ hx (ratio_prim loisC _ hx true), div_div, loisC.racine_carre]
    have hne : (x.length : ℂ) ≠ 0 := by exact_mod_cast hx.ne'
    rw [mul_div_cancel_left₀ _ hne]
    refine sum_congr rfl fun a _ => ?_
    have hlt : (a + t) % x.length < x.length := Nat.mod_lt _ hx
    congr 1
    rw [List.getD_eq_getElem _ _ (by rw [List.length_map]; omega), List.getElem_map, List.getD_eq_getElem _ _ (by omega)]

theorem linspace_length {K : Type} [Field K] (a b : K) (n : Nat) : (linspace a b n).length = n := by simp [linspace]

theorem linspace_pas {K : Type} [Field K] [CharZero K] (a b s : K) (n i : Nat) (hi : i < n) (h : b = a + s * ((n : K) - 1)) :
    (linspace a b n).getD i 0 = a + s * i := by
  unfold linspace
  rw [List.getD_eq_getElem _ _ (by simpa using hi), List.getElem_map, List.getElem_range]
  by_cases h0 : i = 0
  · simp [h0]
  · rw [if_neg h0, h]
    have h1 : (n : K) - 1 ≠ 0 := by
      rw [sub_ne_zero]
      have : n ≠ 1 := by omega
      exact_mod_cast this
    field_simp
    ring

/-- Specification: linear correlation at the (possibly negative) lag `τ`, sum over the `k` for which `x_k` and `y_{k+τ}` exist. -/
noncomputable def corrLineaire (x y : List ℂ) (τ : Int) : ℂ :=
  ∑ k ∈ range x.length, if 0 ≤ (k : Int) + τ ∧ (k : Int) + τ < y.length then x.getD k 0 * star (y.getD ((k : Int) + τ).toNat 0) else 0

/-- C48: `ccorr(x, y)` is the normalised circular correlation at every lag (the auto-correlation when `y` is not given). -/
theorem C48_ccorr (x y : List ℂ) (hx : 0 < x.length) (hx2 : x.length ≤ 2 ^ 29) (hl : y.length = 0 ∨ y.length = x.length) :
    ∃ lags c, ccorr trigoC x y = some (lags, c) ∧ lags.length = x.length ∧ c.length = x.length ∧ ∀ n, n < x.length →
      lags.getD n 0 = n ∧
      c.getD n 0 = 1 / x.length * ∑ k ∈ range x.length, x.getD k 0 * star ((if y = [] then x else y).getD ((k + n) % x.length) 0) := by
  obtain ⟨p', r, e, l, g⟩ := correlateur_some Plan.neuf (.inl rfl) x y hx hx2 hl
  refine ⟨_, _, by simp only [ccorr, e]; rfl, linspace_length _ _ _, by rw [List.length_map, l], fun n hn => ⟨?_, ?_⟩⟩
  · rw [linspace_pas 0 _ 1 _ _ hn (by ring)]; ring
  · rw [getD_map _ _ _ (by omega), g n hn]
    simp only [List.length_eq_zero_iff]
    ring

theorem C48_dimensions (x y : List ℂ) (h1 : y ≠ []) (h2 : y.length ≠ x.length) : ccorr trigoC x y = none := by
  have h3 : ¬ y.length = 0 := by simpa using h1
  simp only [ccorr, correlateur, if_neg h3]
  rw [if_pos (fun e => h2 e.symm)]

theorem xcorrb_some (x y : List ℂ) (m : Nat) (hm : 0 < m) (hx : 0 < x.length) (hx2 : x.length + 2 * m ≤ 2 ^ 29)
    (hl : y.length = 0 ∨ y.length = x.length) :
    ∃ lags c, xcorrb trigoC x y m = some (lags, c) ∧ lags.length = 2 * m - 1 ∧ c.length = 2 * m - 1 ∧ ∀ i, i < 2 * m - 1 →
      lags.getD i 0 = (i : ℂ) - ((m : ℂ) - 1) ∧
      c.getD i 0 = corrLineaire x (if y = [] then x else y) ((i : Int) - ((m : Int) - 1)) / x.length := by
  have hcond : (if y.length = 0 then x else y) = (if y = [] then x else y) := by simp only [List.length_eq_zero_iff]
  have hyl : (if y = [] then x else y).length = x.length := by rw [← hcond]; split <;> omega
  unfold xcorrb
  rw [hcond]
  generalize (if y = [] then x else y) = y' at hyl ⊢
  simp only [if_neg (show ¬ ((m : Int) < 0) by omega), Int.toNat_natCast, Option.bind_eq_bind]
  rw [if_neg (by omega)]
  obtain ⟨x2, e1, l1, g1⟩ := ecrit_some (List.replicate (m + x.length + m) (0 : ℂ)) x m (by simp)
  obtain ⟨y2, e2', l2, g2⟩ := ecrit_some (List.replicate (m + x.length + m) (0 : ℂ)) y' m (by simp; omega)
  have e2 : ecritVue (List.replicate (m + x.length + m) (0 : ℂ)) m x.length y' = some y2 := by
    rw [ecritVue, if_pos (by simp), if_pos hyl, e2']
  rw [List.length_replicate] at l1 l2
  obtain ⟨p', r, e3, l3, g3⟩ := correlateur_some Plan.neuf (.inl rfl) x2 y2 (by omega) (by omega) (.inr (by omega))
  rw [if_neg (show ¬ y2.length = 0 by omega)] at g3
  rw [l1] at l3 g3
  obtain ⟨h, e4, l4, g4⟩ := segment_some r 0 m (by omega)
  obtain ⟨t, e5, l5, g5⟩ := queue_some r (m - 1) (by omega)
  obtain ⟨r1, e6, l6, g6⟩ := ecritQueue_some (List.replicate (2 * m - 1) (0 : ℂ)) (h.map (· / (x.length : ℂ))) (by simp; omega)
  rw [List.length_replicate] at l6
  obtain ⟨r2, e7, l7, g7⟩ := ecrit_some r1 (t.map (· / (x.length : ℂ))) 0 (by simp; omega)
  refine ⟨linspace (-((m : ℂ) - 1)) ((m : ℂ) - 1) (2 * m - 1), r2, ?_, linspace_length _ _ _, by omega, ?_⟩
  · simp only [e1, e2, e3, Option.bind_some, e4, e5, e6, e7]
  intro i hi
  constructor
  · rw [linspace_pas _ _ 1 _ _ hi (by rw [Nat.cast_sub (by omega)]; push_cast; ring)]; ring
  -- the padded vectors
  have hx2 : ∀ j, x2.getD j 0 = if m ≤ j ∧ j < m + x.length then x.getD (j - m) 0 else 0 := by
    intro j
    by_cases hj : m ≤ j ∧ j < m + x.length
    · rw [if_pos hj]; exact getD_of_get _ _ _ _ (by rw [g1 j, if_pos hj])
    · rw [if_neg hj, List.getD_eq_getElem?_getD, g1 j, if_neg hj, List.getElem?_replicate]; split <;> rfl
  have hy2 : ∀ j, y2.getD j 0 = if m ≤ j ∧ j < m + x.length then y'.getD (j - m) 0 else 0 := by
    intro j
    by_cases hj : m ≤ j ∧ j < m + x.length
    · rw [if_pos hj]; exact getD_of_get _ _ _ _ (by rw [g2 j, if_pos (by omega)])
    · rw [if_neg hj, List.getD_eq_getElem?_getD, g2 j, if_neg (by omega), List.getElem?_replicate]; split <;> rfl
  -- no wrap-around
  have hsum : ∀ s, s < m + x.length + m → ∀ τ : Int, (τ = s ∨ τ = (s : Int) - (m + x.length + m : Nat)) → -(m : Int) < τ → τ < m →
      r.getD s 0 = corrLineaire x y' τ := by
    intro s hs τ hτ hτ1 hτ2
    rw [g3 s hs]
    unfold corrLineaire
    rw [sum_range_add, sum_range_add]
    have z1 : ∑ a ∈ range m, x2.getD a 0 * star (y2.getD ((a + s) % (m + x.length + m)) 0) = 0 :=
      sum_eq_zero fun a ha => by
        have := mem_range.1 ha
        rw [hx2 a, if_neg (by omega), zero_mul]
    have z2 : ∑ a ∈ range m, x2.getD (m + x.length + a) 0 * star (y2.getD ((m + x.length + a + s) % (m + x.length + m)) 0) = 0 :=
      sum_eq_zero fun a _ => by
        rw [hx2 _, if_neg (by omega), zero_mul]
    rw [z1, z2, zero_add, add_zero]
    refine sum_congr rfl fun k hk => ?_
    have hk := mem_range.1 hk
    rw [hx2, if_pos (by omega), show m + k - m = k by omega]
    have hmod : (((m + k + s) % (m + x.length + m) : Nat) : Int) = (k : Int) + m + τ := by
      rcases hτ with h | h
      · rw [Nat.mod_eq_of_lt (by omega)]; omega
      · rw [Nat.mod_eq_sub_mod (by omega), Nat.mod_eq_of_lt (by omega)]; omega
    rw [hy2]
    by_cases hc : 0 ≤ (k : Int) + τ ∧ (k : Int) + τ < y'.length
    · rw [if_pos hc, if_pos (by omega)]
      congr 3
      omega
    · rw [if_neg hc, if_neg (by omega), star_zero, mul_zero]
  rcases Nat.lt_or_ge i (m - 1) with hlt | hge
  · have e : r2.getD i 0 = r.getD (m + x.length + m - (m - 1) + i) 0 / x.length := by
      rw [← l3]
      have : r2.getD i 0 = (t.map (· / (x.length : ℂ))).getD i 0 := getD_of_get _ _ _ _ (by
        rw [g7 i, if_pos (by simp; omega), Nat.sub_zero])
      rw [this, getD_map _ _ _ (by omega), getD_of_get _ _ _ _ (g5 i hlt)]
    rw [e, hsum _ (by omega) ((i : Int) - ((m : Int) - 1)) (.inr (by omega)) (by omega) (by omega)]
  · have e : r2.getD i 0 = r.getD (i - (m - 1)) 0 / x.length := by
      have : r2.getD i 0 = (h.map (· / (x.length : ℂ))).getD (i - (m - 1)) 0 := getD_of_get _ _ _ _ (by
        rw [g7 i, if_neg (by simp; omega), g6 i]
        simp only [List.length_replicate, List.length_map, l4]
        rw [if_pos (by omega)]
        congr 1; omega)
      rw [this, getD_map _ _ _ (by omega), getD_of_get _ _ _ _ (g4 _ (by omega)), Nat.zero_add]
    rw [e, hsum _ (by omega) ((i : Int) - ((m : Int) - 1)) (.inl (by omega)) (by omega) (by omega)]

/-- C48: `xcorrb(x, y, m)` returns the `2m - 1` lags `-(m-1) … m-1` and the biased linear correlation `(1/N) Σ_k x_k conj(y_{k+τ})` at
each of them; any number of lags `m ≥ 1`, larger than the signal or not. -/
theorem C48_xcorrb (x y : List ℂ) (m : Nat) (hm : 0 < m) (hx : 0 < x.length) (hx2 : x.length + 2 * m ≤ 2 ^ 29)
    (hl : y = [] ∨ y.length = x.length) :
    ∃ lags c, xcorrb trigoC x y m = some (lags, c) ∧ lags.length = 2 * m - 1 ∧ c.length = 2 * m - 1 ∧ ∀ i, i < 2 * m - 1 →
      lags.getD i 0 = (i : ℂ) - ((m : ℂ) - 1) ∧
      c.getD i 0 = corrLineaire x (if y = [] then x else y) ((i : Int) - ((m : Int) - 1)) / x.length :=
  xcorrb_some x y m hm hx hx2 (by simpa using hl)

/-- C48: a negative `m` means "as many lags as samples". -/
theorem C48_defaut (x y : List ℂ) (m : Int) (hm : m < 0) :
    xcorrb trigoC x y m = xcorrb trigoC x y x.length ∧ xcorr trigoC x y m = xcorr trigoC x y x.length := by
  constructor
  · unfold xcorrb
    simp only [if_pos hm, if_neg (show ¬ ((x.length : Int) < 0) by omega), Int.toNat_natCast]
  · unfold xcorr
    simp only [if_pos hm, if_neg (show ¬ ((x.length : Int) < 0) by omega), Int.toNat_natCast]

theorem quotient_some (x y : List ℂ) (h : x.length = y.length) :
    ∃ z, quotient x y = some z ∧ z.length = x.length ∧ ∀ t, z.getD t 0 = x.getD t 0 / y.getD t 0 := by
  refine ⟨_, by rw [quotient, if_pos h], by simp [h], fun t => ?_⟩
  simp only [List.getD_eq_getElem?_getD, List.getElem?_zipWith]
  by_cases ht : t < x.length
  · rw [List.getElem?_eq_getElem ht, List.getElem?_eq_getElem (by omega)]; simp
  · rw [List.getElem?_eq_none (by omega), List.getElem?_eq_none (by omega)]; simp

/-- `xcorr` for any number of lags: the sum at lag `τ` divided by `N - |τ|` (for `|τ| = N`, the quotient of 0 by 0, which is 0 here and not a number in the code). -/
theorem xcorr_quotient (x y : List ℂ) (m : Nat) (hm : 0 < m) (hx : 0 < x.length) (hx2 : x.length + 2 * m ≤ 2 ^ 29)
    (hl : y = [] ∨ y.length = x.length) :
    ∃ lags c, xcorr trigoC x y m = some (lags, c) ∧ lags.length = 2 * m - 1 ∧ c.length = 2 * m - 1 ∧ ∀ i, i < 2 * m - 1 →
      lags.getD i 0 = (i : ℂ) - ((m : ℂ) - 1) ∧
      c.getD i 0 = corrLineaire x (if y = [] then x else y) ((i : Int) - ((m : Int) - 1)) /
        (((x.length : Int) - |(i : Int) - ((m : Int) - 1)| : Int) : ℂ) := by
  obtain ⟨lags, zb, e, l1, l2, g⟩ := C48_xcorrb x y m hm hx hx2 hl
  have hne : (x.length : ℂ) ≠ 0 := by
    have : x.length ≠ 0 := by omega
    exact_mod_cast this
  unfold xcorr
  simp only [if_neg (show ¬ ((m : Int) < 0) by omega), Int.toNat_natCast, Option.bind_eq_bind, e, Option.bind_some]
  by_cases h1 : 1 < m
  · rw [if_pos h1]
    obtain ⟨h, e2, l3, g3⟩ := segment_some zb 0 (m - 1) (by omega)
    obtain ⟨q1, e4, l4, g4⟩ := quotient_some h ((linspace ((x.length : ℂ) - ((m : ℂ) - 1)) ((x.length : ℂ) - 1) (m - 1)).map
      (· / (x.length : ℂ))) (by rw [l3, List.length_map, linspace_length])
    obtain ⟨z1, e5, l5, g5⟩ := ecrit_some zb q1 0 (by omega)
    obtain ⟨t, e6, l6, g6⟩ := queue_some z1 (m - 1) (by omega)
    obtain ⟨q2, e7, l7, g7⟩ := quotient_some t ((linspace ((x.length : ℂ) - 1) ((x.length : ℂ) - ((m : ℂ) - 1)) (m - 1)).map
      (· / (x.length : ℂ))) (by rw [l6, List.length_map, linspace_length])
    obtain ⟨z2, e8, l8, g8⟩ := ecritQueue_some z1 q2 (by omega)
    refine ⟨lags, z2, by simp only [e2, e4, e5, e6, e7, e8, Option.bind_some], l1, by omega, fun i hi => ⟨(g i hi).1, ?_⟩⟩
    have hc : ((m - 1 : Nat) : ℂ) = (m : ℂ) - 1 := by rw [Nat.cast_sub (by omega)]; simp
    rcases Nat.lt_trichotomy i (m - 1) with hi1 | hi1 | hi1
    · have e9 : z2.getD i 0 = q1.getD i 0 := getD_of_get _ _ _ _ (by
        rw [g8 i, if_neg (by omega), g5 i, if_pos (by omega), Nat.sub_zero])
      rw [e9, g4, getD_map _ _ _ (by rw [linspace_length]; omega),
        linspace_pas _ _ 1 _ _ (by omega) (by rw [hc]; ring), getD_of_get _ _ _ _ (g3 i hi1), Nat.zero_add, (g i hi).2,
        abs_of_neg (by omega)]
      push_cast
      rw [div_div, mul_div_assoc', mul_div_cancel_left₀ _ hne]
      congr 1
      ring
    · have e9 : z2.getD i 0 = zb.getD i 0 := getD_of_get _ _ _ _ (by
        rw [g8 i, if_neg (by omega), g5 i, if_neg (by omega)])
      rw [e9, (g i hi).2]
      congr 1
      rw [show ((i : Int) - ((m : Int) - 1)) = 0 by omega]
      simp
    · have e9 : z2.getD i 0 = q2.getD (i - m) 0 := getD_of_get _ _ _ _ (by
        rw [g8 i, if_pos (by omega)]; congr 1; omega)
      have hb : z1.getD i 0 = zb.getD i 0 := getD_of_get _ _ _ _ (by rw [g5 i, if_neg (by omega)])
      have ht : t.getD (i - m) 0 = zb.getD i 0 := by
        rw [← hb]
        exact getD_of_get _ _ _ _ (by rw [g6 _ (by omega)]; congr 1; omega)
      rw [e9, g7, getD_map _ _ _ (by rw [linspace_length]; omega),
        linspace_pas _ _ (-1) _ _ (by omega) (by rw [hc]; ring), ht, (g i hi).2, abs_of_pos (by omega), Nat.cast_sub (by omega)]
      push_cast
      rw [div_div, mul_div_assoc', mul_div_cancel_left₀ _ hne]
      congr 1
      ring
  · rw [if_neg h1]
    have hm1 : m = 1 := by omega
    subst hm1
    refine ⟨lags, zb, rfl, l1, l2, fun i hi => ⟨(g i hi).1, ?_⟩⟩
    have : i = 0 := by omega
    subst this
    rw [(g 0 hi).2]
    simp

/-- C48: `xcorr(x, y, m)` for at most as many lags as samples is the unbiased linear correlation: the sum at lag `τ` divided by the number
`N - |τ|` of terms of the sum. -/
theorem C48_xcorr (x y : List ℂ) (m : Nat) (hm : 0 < m) (hmx : m ≤ x.length) (hx2 : x.length + 2 * m ≤ 2 ^ 29)
    (hl : y = [] ∨ y.length = x.length) :
    ∃ lags c, xcorr trigoC x y m = some (lags, c) ∧ lags.length = 2 * m - 1 ∧ c.length = 2 * m - 1 ∧ ∀ i, i < 2 * m - 1 →
      lags.getD i 0 = (i : ℂ) - ((m : ℂ) - 1) ∧
      c.getD i 0 = corrLineaire x (if y = [] then x else y) ((i : Int) - ((m : Int) - 1)) /
        (((x.length : Int) - |(i : Int) - ((m : Int) - 1)| : Int) : ℂ) := xcorr_quotient x y m hm (by omega) hx2 hl

/-- C48: beyond the length of the vectors no term remains: the biased correlation, and the unbiased one for `|τ| > N`, are null. -/
theorem C48_grand (x y : List ℂ) (m : Nat) (hm : 0 < m) (hx : 0 < x.length) (hx2 : x.length + 2 * m ≤ 2 ^ 29) (hl : y = [] ∨ y.length = x.length) :
    ∃ lags b c, xcorrb trigoC x y m = some (lags, b) ∧ xcorr trigoC x y m = some (lags, c) ∧ c.length = 2 * m - 1 ∧ ∀ i, i < 2 * m - 1 →
      ((x.length : Int) ≤ |(i : Int) - ((m : Int) - 1)| → b.getD i 0 = 0) ∧ ((x.length : Int) < |(i : Int) - ((m : Int) - 1)| → c.getD i 0 = 0) := by
  obtain ⟨l1, b, e1, a1, -, g1⟩ := C48_xcorrb x y m hm hx hx2 hl
  obtain ⟨l2, c, e2, a2, c2, g2⟩ := xcorr_quotient x y m hm hx hx2 hl
  have hz : ∀ τ : Int, (x.length : Int) ≤ |τ| → corrLineaire x (if y = [] then x else y) τ = 0 := by
    intro τ hτ
    unfold corrLineaire
    refine sum_eq_zero fun k hk => ?_
    have hk := mem_range.1 hk
    have hyl : (if y = [] then x else y).length = x.length := by
      by_cases h : y = []
      · rw [if_pos h]
      · rw [if_neg h]; exact hl.resolve_left h
    rw [if_neg]
    rw [hyl]
    rcases le_abs.1 hτ with h | h <;> omega
  have hll : l1 = l2 := by
    refine List.ext_getElem (by omega) fun i h1 h2 => ?_
    have r1 := (g1 i (by omega)).1
    have r2 := (g2 i (by omega)).1
    rw [List.getD_eq_getElem _ _ h1] at r1
    rw [List.getD_eq_getElem _ _ h2] at r2
    rw [r1, r2]
  subst hll
  refine ⟨l1, b, c, e1, e2, c2, fun i hi => ⟨fun h => ?_, fun h => ?_⟩⟩
  · rw [(g1 i hi).2, hz _ h, zero_div]
  · rw [(g2 i hi).2, hz _ h.le, zero_div]

/-- Non-vacuity of `C48_grand`. -/
example : ∃ lags b c, xcorrb trigoC [1, I] [] 5 = some (lags, b) ∧ xcorr trigoC [1, I] [] 5 = some (lags, c) := by
  obtain ⟨l, b, c, h1, h2, -⟩ := C48_grand [1, I] [] 5 (by norm_num) (by simp) (by norm_num) (.inl rfl)
  exact ⟨l, b, c, h1, h2⟩

/-- C48, refuted for more lags than samples: the divisors of `xcorr` (first half of the lags) contain 0: the correlation at the lag `-N`, which has no term, is divided by 0. -/
theorem C48_grand_refute (n m : Nat) (hn : 0 < n) (hm : n < m) : (0 : ℂ) ∈ (linspace ((n : ℂ) - ((m : ℂ) - 1)) ((n : ℂ) - 1) (m - 1)).map (· / (n : ℂ)) := by
  have hl : (linspace ((n : ℂ) - ((m : ℂ) - 1)) ((n : ℂ) - 1) (m - 1)).length = m - 1 := linspace_length ..
  have hc : ((m - 1 : Nat) : ℂ) = (m : ℂ) - 1 := by rw [Nat.cast_sub (by omega)]; simp
  have h := linspace_pas ((n : ℂ) - ((m : ℂ) - 1)) ((n : ℂ) - 1) 1 (m - 1) (m - 1 - n) (by omega) (by rw [hc]; ring)
  rw [List.mem_map]
  refine ⟨0, ?_, zero_div _⟩
  have h0 : (linspace ((n : ℂ) - ((m : ℂ) - 1)) ((n : ℂ) - 1) (m - 1)).getD (m - 1 - n) 0 = 0 := by
    rw [h, Nat.cast_sub (by omega), hc]
    ring
  rw [List.getD_eq_getElem _ _ (by omega)] at h0
  rw [← h0]
  exact List.getElem_mem _

/-- C48: an empty request of lags is rejected. -/
theorem C48_rejets (x y : List ℂ) : xcorrb trigoC x y 0 = none ∧ xcorr trigoC x y 0 = none := by
  have h0 : xcorrb trigoC x y 0 = none := by unfold xcorrb; simp
  refine ⟨h0, ?_⟩
  unfold xcorr
  simp [h0]

/-- C48, refuted for vectors of different sizes: unlike `ccorr`, `xcorrb` does not reject them; it silently ignores the second vector (the
assignment to the padded copy has no effect) and returns a correlation that is 0 at every lag. -/
theorem C48_tailles_refute (x y : List ℂ) (m : Nat) (hm : 0 < m) (hx : 0 < x.length) (hx2 : x.length + 2 * m ≤ 2 ^ 29)
    (h1 : y ≠ []) (h2 : y.length ≠ x.length) :
    ∃ lags c, xcorrb trigoC x y m = some (lags, c) ∧ c.length = 2 * m - 1 ∧ ∀ i, i < 2 * m - 1 → c.getD i 0 = 0 := by
  have hy0 : ¬ y.length = 0 := by simpa using h1
  unfold xcorrb
  simp only [if_neg (show ¬ ((m : Int) < 0) by omega), Int.toNat_natCast, Option.bind_eq_bind, if_neg hy0]
  rw [if_neg (by omega)]
  obtain ⟨x2, e1, l1, g1⟩ := ecrit_some (List.replicate (m + x.length + m) (0 : ℂ)) x m (by simp)
  have e2 : ecritVue (List.replicate (m + x.length + m) (0 : ℂ)) m x.length y = some (List.replicate (m + x.length + m) 0) := by
    rw [ecritVue, if_pos (by simp), if_neg h2]
  rw [List.length_replicate] at l1
  obtain ⟨p', r, e3, l3, g3⟩ := correlateur_some Plan.neuf (.inl rfl) x2 (List.replicate (m + x.length + m) 0) (by omega) (by omega)
    (.inr (by simp; omega))
  rw [if_neg (by simp; omega)] at g3
  rw [l1] at l3 g3
  have hr : ∀ t, t < m + x.length + m → r.getD t 0 = 0 := by
    intro t ht
    rw [g3 t ht]
    refine sum_eq_zero fun a _ => ?_
    have hz : (List.replicate (m + x.length + m) (0 : ℂ)).getD ((a + t) % (m + x.length + m)) 0 = 0 := by
      rw [List.getD_eq_getElem?_getD, List.getElem?_replicate]
      split <;> rfl
    rw [hz, star_zero, mul_zero]
  obtain ⟨h, e4, l4, g4⟩ := segment_some r 0 m (by omega)
  obtain ⟨t, e5, l5, g5⟩ := queue_some r (m - 1) (by omega)
  obtain ⟨r1, e6, l6, g6⟩ := ecritQueue_some (List.replicate (2 * m - 1) (0 : ℂ)) (h.map (· / (x.length : ℂ))) (by simp; omega)
  rw [List.length_replicate] at l6
  obtain ⟨r2, e7, l7, g7⟩ := ecrit_some r1 (t.map (· / (x.length : ℂ))) 0 (by simp; omega)
  refine ⟨linspace (-((m : ℂ) - 1)) ((m : ℂ) - 1) (2 * m - 1), r2, ?_, by omega, ?_⟩
  · simp only [e1, e2, e3, Option.bind_some, e4, e5, e6, e7]
  intro i hi
  rcases Nat.lt_or_ge i (m - 1) with hlt | hge
  · rw [getD_of_get _ (t.map (· / (x.length : ℂ))) _ i (by rw [g7 i, if_pos (by simp; omega), Nat.sub_zero]), getD_map _ _ _ (by omega),
      getD_of_get _ _ _ _ (g5 i hlt), hr _ (by omega), zero_div]
  · rw [getD_of_get _ (h.map (· / (x.length : ℂ))) _ (i - (m - 1)) (by
        rw [g7 i, if_neg (by simp; omega), g6 i]
        simp only [List.length_replicate, List.length_map, l4]
        rw [if_pos (by omega)]
        congr 1; omega), getD_map _ _ _ (by omega), getD_of_get _ _ _ _ (g4 _ (by omega)), hr _ (by omega), zero_div]

/-- The auto-correlation of `(1, i)` at lags `-1, 0, 1` (specification, by hand). -/
example : corrLineaire [1, I] [1, I] (-1) = I ∧ corrLineaire [1, I] [1, I] 0 = 2 ∧ corrLineaire [1, I] [1, I] 1 = -I := by
  refine ⟨?_, ?_, ?_⟩ <;> (simp [corrLineaire, sum_range_succ]; try ring)

example : ∃ lags c, xcorr trigoC [1, I, 3] [] 3 = some (lags, c) :=
  let ⟨a, b, h, _⟩ := C48_xcorr [1, I, 3] [] 3 (by omega) (by simp) (by norm_num) (.inl rfl)
  ⟨a, b, h⟩

end Verif.Fourier
