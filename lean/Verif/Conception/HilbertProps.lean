/-
C82: Hilbert filter, streaming Hilbert transformer and analytic signal by DFT.
-/
import Verif.Conception.DiffProps
import Verif.Fourier.ReechFreqProps
import Verif.Fourier.SpectreProps

namespace Verif.Conception

open Finset Verif.Fourier

/-! ### Coefficients -/

/-- **C82 (coefficients).**  For an odd number of coefficients and a named window `w` (not Chebyshev's), the Hilbert filter is
`h_k = 2/(πj) sin²(πj/2) w_k` with `j = k - n/2` (0 for `j = 0`); it is antisymmetric, and a constant gives 0.  An even number is rejected. -/
theorem C82_coefficients (n : ℕ) (fen : String) (w : Fenetre) (hw : parseFenetre fen = some w) (hc : w ≠ .chebychev) :
    (n % 2 = 0 → designRifHilbert n fen = none) ∧
    (n % 2 = 1 → ∃ h v, designRifHilbert n fen = some h ∧ h.length = n ∧ fenetre w n true = some v ∧
      (∀ k, k < n → h.getD k 0 = (if k = n / 2 then 0 else
        2 / (((k : ℝ) - (n / 2 : ℕ)) * Real.pi) * Real.sin (((k : ℝ) - (n / 2 : ℕ)) * Real.pi / 2) ^ 2) * v.getD k 0) ∧
      (∀ k, k < n → h.getD (n - 1 - k) 0 = -h.getD k 0) ∧ ∀ (c : ℝ) (t : ℤ), regime h (fun _ => c) t = 0) := by
  refine ⟨fun h => by rw [designRifHilbert, if_neg (by omega)], fun hn => ?_⟩
  obtain ⟨v, e, l, -, hs, -⟩ := C78_symetrie w hc n true
  obtain ⟨h, eh, lh, g⟩ := produit_some ((List.range n).map fun i : ℕ => hilbertIdeal ((i : ℤ) - (n / 2 : ℕ))) v (by simp [l])
  simp only [List.length_map, List.length_range] at lh g
  have g2 : ∀ k, k < n → h.getD k 0 = hilbertIdeal ((k : ℤ) - (n / 2 : ℕ)) * v.getD k 0 := fun k hk => by
    rw [g k hk, List.getD_eq_getElem (List.map _ _) _ (by simpa using hk), List.getElem_map, List.getElem_range]
  have ha : ∀ k, k < n → h.getD (n - 1 - k) 0 = -h.getD k 0 := fun k hk => by
    rw [g2 k hk, g2 _ (by omega), hs rfl k hk, show ((n - 1 - k : ℕ) : ℤ) - (n / 2 : ℕ) = -((k : ℤ) - (n / 2 : ℕ)) by omega]
    unfold hilbertIdeal
    rw [Int.neg_emod_two]
    split
    · simp
    · rw [Int.cast_neg, neg_mul, div_neg]; ring
  refine ⟨h, v, by rw [designRifHilbert, if_pos hn, fenetreNom, hw, Option.bind_some, e, Option.bind_some, eh], lh, e, fun k hk => ?_, ha, ?_⟩
  · rw [g2 k hk]
    congr 1
    unfold hilbertIdeal
    by_cases h0 : k = n / 2
    · subst h0; simp
    · rw [if_neg h0]
      set j : ℤ := (k : ℤ) - (n / 2 : ℕ) with hj
      have ej : (k : ℝ) - (n / 2 : ℕ) = (j : ℝ) := by rw [hj]; push_cast; rfl
      rw [ej]
      by_cases hp : j % 2 = 0
      · rw [if_pos hp]
        obtain ⟨q, hq⟩ : ∃ q, j = 2 * q := ⟨j / 2, by omega⟩
        rw [hq]
        push_cast
        rw [show 2 * (q : ℝ) * Real.pi / 2 = q * Real.pi by ring, Real.sin_int_mul_pi]
        simp
      · rw [if_neg hp]
        obtain ⟨q, hq⟩ : ∃ q, j = 2 * q + 1 := ⟨j / 2, by omega⟩
        have : Real.sin ((j : ℝ) * Real.pi / 2) ^ 2 = 1 := by
          rw [hq]
          push_cast
          rw [show (2 * (q : ℝ) + 1) * Real.pi / 2 = Real.pi / 2 + q * Real.pi by ring, Real.sin_add_int_mul_pi, Real.sin_pi_div_two, mul_one,
            ← zpow_natCast, ← zpow_mul, mul_comm, zpow_mul]
          norm_num
        rw [this, mul_one]
  · intro c t
    unfold regime
    rw [lh, ← Finset.sum_mul]
    have : ∑ i ∈ range n, h.getD i 0 = - ∑ i ∈ range n, h.getD i 0 := by
      conv_lhs => rw [← Finset.sum_range_reflect]
      rw [← Finset.sum_neg_distrib]
      exact Finset.sum_congr rfl fun i hi => ha i (Finset.mem_range.1 hi)
    rw [show ∑ i ∈ range n, h.getD i 0 = 0 by linarith, zero_mul]

example : parseFenetre "hn" = some .hann ∧ 63 % 2 = 1 := by decide

/-! ### Streaming -/

theorem hilbert_enchaine (blocs : List (List ℝ)) : ∀ (s : Hilbert) (s1 : Filtre.Rif ℝ ℝ) (y1 : List ℝ) (s2 : Filtre.Retard ℝ) (y2 : List ℝ),
    (∀ (r : Filtre.Rif ℝ ℝ) x r' y, Filtre.Rif.step (0 : ℝ) (· + ·) (· * ·) r x = some (r', y) → y.length = x.length) →
    (∀ (r : Filtre.Retard ℝ) x r' y, Filtre.Retard.step r x = some (r', y) → y.length = x.length) →
    Filtre.enchaine (Filtre.Rif.step (0 : ℝ) (· + ·) (· * ·)) s.hilbert blocs = some (s1, y1) →
    Filtre.enchaine Filtre.Retard.step s.retard blocs = some (s2, y2) →
    Filtre.enchaine Hilbert.step s blocs = some (⟨s1, s2⟩, List.zipWith (fun a b : ℝ => (⟨a, b⟩ : ℂ)) y2 y1) := by
  induction blocs with
  | nil =>
    intro s s1 y1 s2 y2 _ _ h1 h2
    simp only [Filtre.enchaine, Option.some.injEq, Prod.mk.injEq] at h1 h2
    obtain ⟨rfl, rfl⟩ := h1
    obtain ⟨rfl, rfl⟩ := h2
    rfl
  | cons b bs ih =>
    intro s s1 y1 s2 y2 hl1 hl2 h1 h2
    unfold Filtre.enchaine at h1 h2 ⊢
    cases e1 : Filtre.Rif.step (0 : ℝ) (· + ·) (· * ·) s.hilbert b with
    | none => rw [e1] at h1; simp at h1
    | some p1 =>
      obtain ⟨r1, z1⟩ := p1
      cases e2 : Filtre.Retard.step s.retard b with
      | none => rw [e2] at h2; simp at h2
      | some p2 =>
        obtain ⟨r2, z2⟩ := p2
        rw [e1] at h1
        rw [e2] at h2
        simp only at h1 h2
        cases f1 : Filtre.enchaine (Filtre.Rif.step (0 : ℝ) (· + ·) (· * ·)) r1 bs with
        | none => rw [f1] at h1; simp at h1
        | some q1 =>
          obtain ⟨t1, u1⟩ := q1
          cases f2 : Filtre.enchaine Filtre.Retard.step r2 bs with
          | none => rw [f2] at h2; simp at h2
          | some q2 =>
            obtain ⟨t2, u2⟩ := q2
            rw [f1] at h1
            rw [f2] at h2
            simp only [Option.some.injEq, Prod.mk.injEq] at h1 h2
            obtain ⟨rfl, rfl⟩ := h1
            obtain ⟨rfl, rfl⟩ := h2
            have l1 := hl1 _ _ _ _ e1
            have l2 := hl2 _ _ _ _ e2
            have es : Hilbert.step s b = some (⟨r1, r2⟩, List.zipWith (fun a b : ℝ => (⟨a, b⟩ : ℂ)) z2 z1) := by
              simp only [Hilbert.step, e1, e2, Option.bind_eq_bind, Option.bind_some]
              rw [if_pos ⟨l2, l1⟩]
            rw [es]
            simp only
            rw [ih ⟨r1, r2⟩ t1 u1 t2 u2 hl1 hl2 f1 f2]
            simp only
            rw [List.zipWith_append (by omega)]

theorem boucle_length {S X Y : Type} (f : S → X → Option (S × Y)) (x : List X) : ∀ (s s' : S) (y : List Y),
    Filtre.boucle f s x = some (s', y) → y.length = x.length := by
  induction x with
  | nil => intro s s' y h; simp [Filtre.boucle] at h; rw [h.2]; rfl
  | cons a l ih =>
    intro s s' y h
    unfold Filtre.boucle at h
    cases e : f s a with
    | none => rw [e] at h; simp at h
    | some p =>
      obtain ⟨s1, y1⟩ := p
      rw [e] at h
      simp only at h
      cases e2 : Filtre.boucle f s1 l with
      | none => rw [e2] at h; simp at h
      | some q =>
        obtain ⟨s2, y2⟩ := q
        rw [e2] at h
        simp only [Option.some.injEq, Prod.mk.injEq] at h
        rw [← h.2, List.length_cons, List.length_cons, ih _ _ _ e2]

/-- **C82 (stream).**  Whatever the way the stream is cut into blocks, sample `t` of the output of the Hilbert transformer has as real part the
input delayed by `n/2` samples, and as imaginary part the input filtered by the Hilbert filter. -/
theorem C82_flux (n : ℕ) (hn : n % 2 = 1) (fen : String) (w : Fenetre) (hw : parseFenetre fen = some w) (hc : w ≠ .chebychev)
    (blocs : List (List ℝ)) :
    ∃ h s0 s y, designRifHilbert n fen = some h ∧ Hilbert.init n fen = some s0 ∧ Filtre.enchaine Hilbert.step s0 blocs = some (s, y) ∧
      y.length = blocs.flatten.length ∧
      ∀ t, t < blocs.flatten.length → y.getD t 0 =
        ⟨if n / 2 ≤ t then blocs.flatten.getD (t - n / 2) 0 else 0, Filtre.convolution h blocs.flatten t⟩ := by
  obtain ⟨h, v, e, l, -⟩ := (C82_coefficients n fen w hw hc).2 hn
  obtain ⟨s1, y1, e1, l1, g1⟩ := Filtre.C19_convolution h (by omega) blocs
  obtain ⟨s2, e2⟩ := Filtre.C21_retard (0 : ℝ) (n / 2) blocs
  have hz := hilbert_enchaine blocs { hilbert := Filtre.Rif.init 0 h, retard := Filtre.Retard.init 0 (n / 2) } s1 y1 s2 _ (fun r x r' y hh => by
      unfold Filtre.Rif.step at hh
      split at hh
      · simp at hh
      · exact boucle_length _ _ _ _ _ hh) (fun r x r' y hh => by
      unfold Filtre.Retard.step at hh
      split at hh
      · simp only [Option.some.injEq, Prod.mk.injEq] at hh; rw [hh.2]
      · exact boucle_length _ _ _ _ _ hh) e1 e2
  have l2 : (Filtre.retarde (0 : ℝ) (n / 2) blocs.flatten).length = blocs.flatten.length := by
    rw [Filtre.retarde, List.length_take, List.length_append, List.length_replicate]; omega
  refine ⟨h, _, _, _, e, by rw [Hilbert.init, e]; rfl, hz, by rw [List.length_zipWith, l1, l2, min_self], fun t ht => ?_⟩
  rw [List.getD_eq_getElem _ _ (by rw [List.length_zipWith, l1, l2, min_self]; exact ht), List.getElem_zipWith]
  have hy : y1[t]'(by omega) = Filtre.convolution h blocs.flatten t := by
    have := g1 t (by omega)
    rw [List.getElem?_eq_getElem (by omega)] at this
    exact Option.some.inj this
  rw [hy]
  congr 1
  simp only [Filtre.retarde, List.getElem_take, List.getElem_append, List.length_replicate]
  split
  · rename_i h1; rw [if_neg (by omega), List.getElem_replicate]
  · rename_i h1; rw [if_pos (by omega), List.getD_eq_getElem _ _ (by omega)]

/-! ### By DFT -/

theorem ecritQueue_val {T : Type} (y v : List T) (h : v.length ≤ y.length) : ecritQueue y v = some (y.take (y.length - v.length) ++ v) := by
  unfold ecritQueue ecrit
  rw [if_pos h, if_pos (by omega), List.drop_of_length_le (by omega), List.append_nil]

theorem hilbertTfd_some (x : List ℝ) (hx : 0 < x.length) (hx2 : x.length ≤ 2 ^ 29) :
    ∃ X Y y : List ℂ, hilbertTfd x = some y ∧ X.length = x.length ∧ (∀ k, k < x.length → X.getD k 0 = TFD (-1) (enC x) k) ∧
      Y.length = x.length ∧ (∀ k, k < x.length → Y.getD k 0 = if k < x.length - x.length / 2 then 2 * X.getD k 0 else 0) ∧
      y.length = x.length ∧ (∀ t, t < x.length → y.getD t 0 = TFD 1 Y t) ∧ fft trigoC y = some Y := by
  obtain ⟨X, e, l, g⟩ := C49_rfft x hx hx2
  have hq := ecritQueue_val X (List.replicate (x.length / 2) (0 : ℂ)) (by rw [List.length_replicate]; omega)
  set Z := X.take (X.length - (List.replicate (x.length / 2) (0 : ℂ)).length) ++ List.replicate (x.length / 2) (0 : ℂ) with hZ
  have lZ : Z.length = x.length := by rw [hZ]; simp; omega
  have gZ : ∀ k, k < x.length → Z.getD k 0 = if k < x.length - x.length / 2 then X.getD k 0 else 0 := by
    intro k hk
    rw [List.getD_eq_getElem _ _ (by omega)]
    simp only [hZ, List.getElem_append, List.length_take, List.length_replicate, List.getElem_take, List.getElem_replicate, l]
    have hm : min (x.length - x.length / 2) x.length = x.length - x.length / 2 := by omega
    simp only [hm]
    split
    · rw [List.getD_eq_getElem _ _ (by omega)]
    · rfl
  obtain ⟨y, ey, ly, gy⟩ := C27_ifft (Z.map fun z => 2 * z) (by simpa [lZ] using hx) (by simpa [lZ] using hx2)
  obtain ⟨-, ⟨y', ey', ef⟩⟩ := C27_inverse (Z.map fun z => 2 * z) (by simpa [lZ] using hx) (by simpa [lZ] using hx2)
  rw [ey] at ey'
  obtain rfl := Option.some.inj ey'
  rw [List.length_map, lZ] at ly gy
  refine ⟨X, Z.map fun z => 2 * z, y, ?_, l, g, by simp [lZ], fun k hk => ?_, ly, gy, ef⟩
  · simp only [hilbertTfd, e, Option.bind_eq_bind, Option.bind_some, hq, ey]
  · rw [List.getD_eq_getElem _ _ (by simpa [lZ] using hk), List.getElem_map, ← List.getD_eq_getElem (d := (0 : ℂ)) _ (by omega), gZ k hk]
    split
    · rfl
    · simp

/-- **C82 (spectrum of the analytic signal).**  The spectrum of `hilbert_tfd(x)` is twice that of `x` on the frequencies `0 … ⌈n/2⌉ - 1`
and 0 on the others. -/
theorem C82_tfd_spectre (x : List ℝ) (hx : 0 < x.length) (hx2 : x.length ≤ 2 ^ 29) :
    ∃ y Y, hilbertTfd x = some y ∧ y.length = x.length ∧ fft trigoC y = some Y ∧
      ∀ k, k < x.length → Y.getD k 0 = if k < x.length - x.length / 2 then 2 * TFD (-1) (enC x) k else 0 := by
  obtain ⟨X, Y, y, e, lX, gX, lY, gY, ly, gy, ef⟩ := hilbertTfd_some x hx hx2
  exact ⟨y, Y, e, ly, ef, fun k hk => by rw [gY k hk, gX k hk]⟩

theorem phaseur_star (k t n : ℕ) (hn : 0 < n) (hk : k ≤ n) : star (phaseur k t n) = phaseur (n - k) t n := by
  have h1 : phaseur k t n * phaseur (n - k) t n = 1 := by
    unfold phaseur
    rw [← Complex.exp_add, Complex.exp_eq_one_iff]
    refine ⟨t, ?_⟩
    have : (n : ℂ) ≠ 0 := by exact_mod_cast hn.ne'
    rw [Nat.cast_sub hk]
    field_simp
    push_cast
    ring
  have h2 : star (phaseur k t n) * phaseur k t n = 1 := by
    unfold phaseur
    rw [show (1 * (2 * Real.pi * Complex.I) * ((k : ℂ) * t) / n) = ((2 * Real.pi * (k * t) / n : ℝ) : ℂ) * Complex.I by push_cast; ring]
    change (starRingEnd ℂ) _ * _ = 1
    rw [← Complex.exp_conj, ← Complex.exp_add, map_mul, Complex.conj_ofReal, Complex.conj_I, mul_neg, neg_add_cancel, Complex.exp_zero]
  calc star (phaseur k t n) = star (phaseur k t n) * (phaseur k t n * phaseur (n - k) t n) := by rw [h1, mul_one]
    _ = phaseur (n - k) t n := by rw [← mul_assoc, h2, one_mul]

/-- **C82 (real part).**  The real part of `hilbert_tfd(x)` is not `x`: it is `x` plus its mean value and, for an even number of samples, minus its
component at half the sampling frequency. -/
theorem C82_tfd_reel (x : List ℝ) (hx : 0 < x.length) (hx2 : x.length ≤ 2 ^ 29) :
    ∃ y, hilbertTfd x = some y ∧ y.length = x.length ∧ ∀ t, t < x.length → (y.getD t 0).re =
      x.getD t 0 + (∑ l ∈ range x.length, x.getD l 0) / x.length -
        (if x.length % 2 = 0 then (-1) ^ t * (∑ l ∈ range x.length, (-1) ^ l * x.getD l 0) / x.length else 0) := by
  obtain ⟨X, Y, y, e, lX, gX, lY, gY, ly, gy, -⟩ := hilbertTfd_some x hx hx2
  refine ⟨y, e, ly, fun t ht => ?_⟩
  set n := x.length with hn
  have hn0 : (n : ℂ) ≠ 0 := by exact_mod_cast hx.ne'
  have hr : (Real.sqrt n : ℂ) * (Real.sqrt n : ℂ) = n := by rw [← Complex.ofReal_mul, Real.mul_self_sqrt (by positivity)]; norm_num
  have hr0 : (Real.sqrt n : ℂ) ≠ 0 := fun h => by rw [h, zero_mul] at hr; exact hn0 hr.symm
  let a : ℕ → ℂ := fun k => X.getD k 0 * phaseur k t n
  -- inversion
  have hinv : ∑ k ∈ range n, a k = (x.getD t 0 : ℂ) * (Real.sqrt n : ℂ) := by
    have := TFD_retour (enC x) X (by rw [enC_length]; exact hx) (by rw [enC_length]; exact hx2) (by rw [enC_length]; exact lX)
      (by rw [enC_length]; exact gX) t (by rw [enC_length]; exact ht)
    rw [enC_length, enC_getD, lX] at this
    exact this
  -- output
  have hy : y.getD t 0 * (Real.sqrt n : ℂ) = 2 * ∑ k ∈ range (n - n / 2), a k := by
    rw [gy t ht, TFD_phaseur, lY, div_mul_cancel₀ _ hr0, Finset.mul_sum]
    rw [show n = (n - n / 2) + n / 2 by omega, Finset.sum_range_add, ← show n = (n - n / 2) + n / 2 by omega]
    have hz : ∑ i ∈ range (n / 2), Y.getD (n - n / 2 + i) 0 * phaseur (n - n / 2 + i) t n = 0 := by
      refine Finset.sum_eq_zero fun i hi => ?_
      rw [Finset.mem_range] at hi
      rw [gY _ (by omega), if_neg (by omega), zero_mul]
    rw [hz, add_zero]
    refine Finset.sum_congr rfl fun k hk => ?_
    rw [Finset.mem_range] at hk
    rw [gY k (by omega), if_pos hk]
    ring
  have hsym : ∀ k, 1 ≤ k → k < n → star (a k) = a (n - k) := by
    intro k h1 h2
    show star (X.getD k 0 * phaseur k t n) = X.getD (n - k) 0 * phaseur (n - k) t n
    rw [star_mul', phaseur_star k t n hx (by omega), gX k h2, gX _ (by omega), ← tfd_reel_sym x k h1 h2]
  have ha0 : a 0 = ((∑ l ∈ range n, x.getD l 0 : ℝ) : ℂ) / (Real.sqrt n : ℂ) := by
    show X.getD 0 0 * phaseur 0 t n = _
    rw [gX 0 hx]
    unfold TFD phaseur
    rw [enC_length]
    simp only [enC_getD]
    simp
    rfl
  have hs0 : star (a 0) = a 0 := by
    rw [ha0]
    change (starRingEnd ℂ) _ = _
    rw [map_div₀, Complex.conj_ofReal, Complex.conj_ofReal]
  -- the symmetric sum
  have hmain : ∀ p, p + 1 = n - n / 2 → ∑ k ∈ range (n - n / 2), a k + star (∑ k ∈ range (n - n / 2), a k) =
      a 0 + ∑ k ∈ range n, a k - (if n % 2 = 0 then a (n / 2) else 0) := by
    intro p hp
    have h1 : star (∑ k ∈ range (n - n / 2), a k) = a 0 + ∑ i ∈ range p, a (n - p + i) := by
      rw [star_sum, ← hp, Finset.sum_range_succ', hs0, add_comm]
      congr 1
      rw [← Finset.sum_range_reflect (fun i => a (n - p + i))]
      refine Finset.sum_congr rfl fun j hj => ?_
      rw [Finset.mem_range] at hj
      rw [hsym _ (by omega) (by omega)]
      congr 1
      omega
    have h2 : ∑ k ∈ range n, a k = ∑ k ∈ range (n - p), a k + ∑ i ∈ range p, a (n - p + i) := by
      conv_lhs => rw [show n = (n - p) + p by omega, Finset.sum_range_add]
    rw [h1, h2]
    by_cases hp2 : n % 2 = 0
    · rw [if_pos hp2, show n - p = (n - n / 2) + 1 by omega, Finset.sum_range_succ, show n - n / 2 = n / 2 by omega]
      ring
    · rw [if_neg hp2, show n - p = n - n / 2 by omega]
      ring
  have hre : (((y.getD t 0).re : ℝ) : ℂ) * (Real.sqrt n : ℂ) = a 0 + ∑ k ∈ range n, a k - (if n % 2 = 0 then a (n / 2) else 0) := by
    rw [← hmain (n - n / 2 - 1) (by omega)]
    have h1 : ((2 * (y.getD t 0).re : ℝ) : ℂ) = y.getD t 0 + star (y.getD t 0) := (Complex.add_conj (y.getD t 0)).symm
    have h2 : y.getD t 0 = 2 * (∑ k ∈ range (n - n / 2), a k) / (Real.sqrt n : ℂ) := by rw [← hy, mul_div_cancel_right₀ _ hr0]
    have h3 : star (y.getD t 0) = 2 * star (∑ k ∈ range (n - n / 2), a k) / (Real.sqrt n : ℂ) := by
      rw [h2]
      change (starRingEnd ℂ) _ = 2 * (starRingEnd ℂ) _ / _
      rw [map_div₀, map_mul, Complex.conj_ofReal]
      congr 2
      exact Complex.conj_ofReal 2
    have h5 : y.getD t 0 + star (y.getD t 0) = 2 * (∑ k ∈ range (n - n / 2), a k) / (Real.sqrt n : ℂ) +
        2 * star (∑ k ∈ range (n - n / 2), a k) / (Real.sqrt n : ℂ) := by rw [h3]; congr 1
    rw [h5] at h1
    push_cast at h1
    have h4 : (2 : ℂ) * ((y.getD t 0).re * (Real.sqrt n : ℂ)) =
        2 * (∑ k ∈ range (n - n / 2), a k + star (∑ k ∈ range (n - n / 2), a k)) := by
      rw [← mul_assoc, h1]
      field_simp
    exact mul_left_cancel₀ two_ne_zero h4
  have ham : n % 2 = 0 → a (n / 2) = (-1) ^ t * ((∑ l ∈ range n, (-1) ^ l * x.getD l 0 : ℝ) : ℂ) / (Real.sqrt n : ℂ) := by
    intro hp
    have h2n : ((n / 2 : ℕ) : ℂ) = n / 2 := by
      rw [Nat.cast_div (Nat.dvd_of_mod_eq_zero hp) (by norm_num)]; norm_num
    show X.getD (n / 2) 0 * phaseur (n / 2) t n = _
    rw [gX _ (by omega)]
    unfold TFD phaseur
    rw [enC_length]
    simp only [enC_getD, h2n]
    have e1 : Complex.exp (1 * (2 * Real.pi * Complex.I) * (n / 2 * t) / n) = (-1) ^ t := by
      rw [show (1 * (2 * Real.pi * Complex.I) * ((n : ℂ) / 2 * t) / n) = t * (Real.pi * Complex.I) by field_simp, Complex.exp_nat_mul,
        Complex.exp_pi_mul_I]
    have e2 : ∀ l : ℕ, Complex.exp (-1 * (2 * Real.pi * Complex.I) * (l * (n / 2)) / n) = (-1) ^ l := by
      intro l
      rw [show (-1 * (2 * Real.pi * Complex.I) * ((l : ℂ) * (n / 2)) / n) = l * (-(Real.pi * Complex.I)) by field_simp, Complex.exp_nat_mul,
        Complex.exp_neg, Complex.exp_pi_mul_I]
      norm_num
    rw [e1]
    simp only [← hn, e2]
    rw [div_mul_eq_mul_div, mul_comm]
    push_cast
    congr 2
    exact Finset.sum_congr rfl fun l _ => mul_comm _ _
  have hfin : (((y.getD t 0).re : ℝ) : ℂ) = ((x.getD t 0 + (∑ l ∈ range n, x.getD l 0) / n -
        (if n % 2 = 0 then (-1) ^ t * (∑ l ∈ range n, (-1) ^ l * x.getD l 0) / n else 0) : ℝ) : ℂ) := by
    have hdiv : ∀ z : ℂ, z / (Real.sqrt n : ℂ) / (Real.sqrt n : ℂ) = z / n := fun z => by rw [div_div, hr]
    have h1 : (((y.getD t 0).re : ℝ) : ℂ) = (a 0 + ∑ k ∈ range n, a k - (if n % 2 = 0 then a (n / 2) else 0)) / (Real.sqrt n : ℂ) := by
      rw [← hre, mul_div_cancel_right₀ _ hr0]
    rw [h1, sub_div, add_div, hinv, ha0, hdiv, mul_div_cancel_right₀ _ hr0]
    by_cases hp : n % 2 = 0
    · rw [if_pos hp, if_pos hp, ham hp, hdiv]
      push_cast
      ring
    · rw [if_neg hp, if_neg hp]
      push_cast
      ring
  exact_mod_cast hfin

example : (0 < ([1, 2, 3] : List ℝ).length) := by simp

/-- **C82 (analytic signal).**  With an odd number of samples of null mean, the real part of `hilbert_tfd(x)` is `x`: it is the analytic signal. -/
theorem C82_tfd_analytique (x : List ℝ) (hx : x.length % 2 = 1) (hx2 : x.length ≤ 2 ^ 29) (hm : ∑ l ∈ range x.length, x.getD l 0 = 0) :
    ∃ y Y, hilbertTfd x = some y ∧ y.length = x.length ∧ (∀ t, t < x.length → (y.getD t 0).re = x.getD t 0) ∧
      fft trigoC y = some Y ∧ ∀ k, x.length / 2 < k → k < x.length → Y.getD k 0 = 0 := by
  obtain ⟨y, e, l, g⟩ := C82_tfd_reel x (by omega) hx2
  obtain ⟨y', Y, e', -, ef, gY⟩ := C82_tfd_spectre x (by omega) hx2
  rw [e] at e'
  obtain rfl := Option.some.inj e'
  refine ⟨y, Y, e, l, fun t ht => ?_, ef, fun k h1 h2 => ?_⟩
  · rw [g t ht, hm, if_neg (by omega)]; simp
  · rw [gY k h2, if_neg (by omega)]

example : ([1, -2, 1] : List ℝ).length % 2 = 1 ∧ ∑ l ∈ range 3, ([1, -2, 1] : List ℝ).getD l 0 = 0 := by
  refine ⟨rfl, ?_⟩
  simp [Finset.sum_range_succ]; norm_num

/-- **C82 (analytic signal, refuted in general).**  For a constant, the real part is doubled; for an alternating signal (even number of samples)
it is null: the real part of the "analytic signal" is not the signal. -/
theorem C82_tfd_refute :
    (∃ y, hilbertTfd [1, 1, 1] = some y ∧ (y.getD 0 0).re = 2) ∧ (∃ y, hilbertTfd [1, -1] = some y ∧ (y.getD 0 0).re = 0) := by
  constructor
  · obtain ⟨y, e, l, g⟩ := C82_tfd_reel [1, 1, 1] (by simp) (by norm_num)
    refine ⟨y, e, ?_⟩
    rw [g 0 (by simp)]
    simp [Finset.sum_range_succ]
    norm_num
  · obtain ⟨y, e, l, g⟩ := C82_tfd_reel [1, -1] (by simp) (by norm_num)
    refine ⟨y, e, ?_⟩
    rw [g 0 (by simp)]
    simp [Finset.sum_range_succ]

end Verif.Conception
