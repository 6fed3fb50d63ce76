/-
C74 (Welch periodogram), C75 (real-time spectrum).

Specification: `periodo f x ν = |Σ_m f_m x_m e^{-2πi m ν}|² / n`, the periodogram of the windowed samples at the normalised frequency `ν`.
-/
import Verif.Fourier.Spectre
import Verif.Fourier.GoertzelProps

namespace Verif.Fourier

open Finset Complex

/-- Specification: periodogram of `x` (`n` samples) weighted by the window `f`, at the normalised frequency `ν`. -/
noncomputable def periodo (f : List ℝ) (x : List ℂ) (ν : ℝ) : ℝ :=
  ‖∑ m ∈ range x.length, (f.getD m 0 : ℂ) * x.getD m 0 * exp (-(2 * Real.pi * I) * (m * ν))‖ ^ 2 / x.length

/-- Frequency of element `j` of a shifted spectrum of `n` points. -/
noncomputable def freqDecalee (n j : ℕ) : ℝ := ((j : ℝ) - (n / 2 : ℕ)) / n

/-! ### `fftshift` -/

theorem segment_val {T : Type} (x : List T) (i n : ℕ) (h : i + n ≤ x.length) : segment x i n = some ((x.drop i).take n) := by
  unfold segment; rw [if_pos h]

theorem fftshift_eq {T : Type} (z : T) (X : List T) :
    fftshift z X = some (X.drop (X.length - X.length / 2) ++ X.take (X.length - X.length / 2)) := by
  have key : ∀ a b : ℕ, a + b = X.length → b = X.length / 2 →
      ((segment X 0 a).bind fun h => (ecritQueue (List.replicate X.length z) h).bind fun res => (queue X b).bind fun t => ecrit res 0 t)
        = some (X.drop a ++ X.take a) := by
    intro a b hab hb
    have l1 : (X.take a).length = a := by rw [List.length_take]; omega
    have l2 : (X.drop a).length = b := by rw [List.length_drop]; omega
    have q : queue X b = some (X.drop a) := by
      unfold queue
      rw [if_pos (by omega), segment_val _ _ _ (by omega), show X.length - b = a by omega, List.take_of_length_le (by omega)]
    rw [segment_val _ _ _ (by omega)]
    simp only [List.drop_zero, Option.bind_some, q]
    unfold ecritQueue ecrit
    rw [if_pos (by rw [l1]; simp; omega), if_pos (by rw [l1]; simp; omega)]
    simp only [Option.bind_some, l1, l2, List.length_replicate, List.length_append, List.length_take, List.length_drop]
    rw [if_pos (by omega)]
    simp only [List.take_zero, List.nil_append, Nat.zero_add]
    congr 2
    rw [show X.length - a + a = X.length by omega, List.drop_replicate, Nat.sub_self, List.replicate_zero, List.append_nil,
      List.take_replicate, List.drop_append_of_le_length (by simp; omega), List.drop_replicate,
      show min (X.length - a) X.length - b = 0 by omega, List.replicate_zero, List.nil_append]
  unfold fftshift
  simp only [Option.bind_eq_bind]
  split
  · have := key (X.length / 2) (X.length / 2) (by omega) rfl
    rw [this, show X.length - X.length / 2 = X.length / 2 by omega]
  · have := key (1 + X.length / 2) (X.length / 2) (by omega) rfl
    rw [this, show X.length - X.length / 2 = 1 + X.length / 2 by omega]

theorem shift_getD (X : List ℝ) (j : ℕ) (hj : j < X.length) :
    (X.drop (X.length - X.length / 2) ++ X.take (X.length - X.length / 2)).getD j 0 = X.getD ((j + (X.length - X.length / 2)) % X.length) 0 := by
  rcases Nat.lt_or_ge j (X.length / 2) with h | h
  · rw [List.getD_append _ _ _ _ (by rw [List.length_drop]; omega), Nat.mod_eq_of_lt (by omega),
      List.getD_eq_getElem _ _ (by rw [List.length_drop]; omega), List.getD_eq_getElem _ _ (by omega), List.getElem_drop]
    congr 1; omega
  · rw [List.getD_append_right _ _ _ _ (by rw [List.length_drop]; omega), List.length_drop,
      List.getD_eq_getElem _ _ (by rw [List.length_take]; omega), List.getElem_take, List.getD_eq_getElem _ _ (Nat.mod_lt _ (by omega))]
    congr 1
    rw [Nat.mod_eq_sub_mod (by omega), Nat.mod_eq_of_lt (by omega)]
    omega

/-! ### One windowed transform -/

theorem fenetrage_some (x : List ℂ) (f : List ℝ) (h : x.length = f.length) :
    ∃ xf, fenetrage x f = some xf ∧ xf.length = x.length ∧ ∀ m, xf.getD m 0 = (f.getD m 0 : ℂ) * x.getD m 0 := by
  refine ⟨_, by unfold fenetrage produit; rw [if_pos (by simpa using h)], by simp [h], fun m => ?_⟩
  rcases Nat.lt_or_ge m x.length with hm | hm
  · rw [List.getD_eq_getElem _ _ (by simp; omega), List.getD_eq_getElem _ _ hm, List.getD_eq_getElem _ _ (by omega), List.getElem_zipWith,
      List.getElem_map, mul_comm]
  · rw [List.getD_eq_default _ _ (by simp; omega), List.getD_eq_default x _ hm, mul_zero]

/-- `exp(-2πi m k / n)` depends on `k` modulo `n` only. -/
theorem exp_mod (n m k : ℕ) (k' : ℝ) (hn : 0 < n) (z : ℤ) (h : (k : ℝ) = k' + n * z) :
    exp (-1 * (2 * Real.pi * I) * (m * k) / n) = exp (-(2 * Real.pi * I) * (m * ((k' / n : ℝ) : ℂ))) := by
  rw [exp_eq_exp_iff_exists_int]
  refine ⟨-(m * z), ?_⟩
  have hk : (k : ℂ) = (k' : ℂ) + n * z := by exact_mod_cast congrArg (fun t : ℝ => (t : ℂ)) h
  have hne : (n : ℂ) ≠ 0 := by exact_mod_cast hn.ne'
  rw [hk]; push_cast; field_simp; ring

/-- The shifted power spectrum of a windowed signal is its periodogram at the shifted frequencies. -/
theorem spectre_periodo (f : List ℝ) (x xf X : List ℂ) (hx : 0 < x.length) (lxf : xf.length = x.length)
    (hxf : ∀ m, xf.getD m 0 = (f.getD m 0 : ℂ) * x.getD m 0) (lX : X.length = x.length) (hX : ∀ k, k < x.length → X.getD k 0 = TFD (-1) xf k) :
    ∃ y, fftshift 0 (abs2 X) = some y ∧ y = (List.range x.length).map fun j => periodo f x (freqDecalee x.length j) := by
  refine ⟨_, fftshift_eq _ _, ?_⟩
  have la : (abs2 X).length = x.length := by simp [abs2, lX]
  apply List.ext_getElem
  · simp [la]
  · intro j h1 h2
    have hj : j < x.length := by simpa using h2
    have := shift_getD (abs2 X) j (by omega)
    rw [List.getD_eq_getElem _ _ h1] at this
    rw [this, la, List.getElem_map, List.getElem_range]
    set k := (j + (x.length - x.length / 2)) % x.length with hk
    have hkl : k < x.length := Nat.mod_lt _ hx
    unfold abs2
    rw [List.getD_eq_getElem _ _ (by simp; omega), List.getElem_map]
    have e := hX k hkl
    rw [List.getD_eq_getElem _ _ (by omega)] at e
    rw [e]
    unfold TFD periodo
    rw [norm_div, div_pow, lxf]
    congr 1
    · congr 2
      refine sum_congr rfl fun m _ => ?_
      rw [hxf m]
      congr 1
      unfold freqDecalee
      obtain ⟨z, hz⟩ : ∃ z : ℤ, (k : ℤ) = ((j : ℤ) - (x.length / 2 : ℕ)) + x.length * z := by
        refine ⟨1 - ((j + (x.length - x.length / 2)) / x.length : ℕ), ?_⟩
        have := Nat.mod_add_div (j + (x.length - x.length / 2)) x.length
        rw [← hk] at this
        have h3 : ((k + x.length * ((j + (x.length - x.length / 2)) / x.length) : ℕ) : ℤ) = ((j + (x.length - x.length / 2) : ℕ) : ℤ) := by
          exact_mod_cast this
        rw [Nat.cast_add, Nat.cast_mul] at h3
        rw [mul_sub, mul_one]
        omega
      have hzr : (k : ℝ) = ((j : ℝ) - (x.length / 2 : ℕ)) + x.length * z := by exact_mod_cast congrArg (fun t : ℤ => (t : ℝ)) hz
      exact exp_mod x.length m k _ hx z hzr
    · rw [Complex.norm_real, Real.norm_eq_abs, sq_abs, Real.sq_sqrt (Nat.cast_nonneg _)]

/-- Spectrum (list) of a windowed signal, as specified. -/
noncomputable def spectreDe (f : List ℝ) (x : List ℂ) : List ℝ := (List.range x.length).map fun j => periodo f x (freqDecalee x.length j)

theorem spectreDe_getD (f : List ℝ) (x : List ℂ) (j : ℕ) (hj : j < x.length) :
    (spectreDe f x).getD j 0 = periodo f x (freqDecalee x.length j) := by
  unfold spectreDe
  rw [List.getD_eq_getElem _ _ (by simpa using hj), List.getElem_map, List.getElem_range]

/-- Parseval: the bins of the periodogram add up to the energy of the windowed signal. -/
theorem periodo_parseval (f : List ℝ) (x : List ℂ) (hl : x.length = f.length) (hx : 0 < x.length) (hx2 : x.length ≤ 2 ^ 29) :
    ∑ j ∈ range x.length, periodo f x (freqDecalee x.length j) = ∑ m ∈ range x.length, ‖(f.getD m 0 : ℂ) * x.getD m 0‖ ^ 2 := by
  obtain ⟨xf, -, lxf, hxf⟩ := fenetrage_some x f hl
  obtain ⟨X, eX, lX, hX⟩ := C27_fft xf (by omega) (by omega)
  obtain ⟨y, e1, e2⟩ := spectre_periodo f x xf X hx lxf hxf (by omega) (fun k hk => hX k (by omega))
  rw [fftshift_eq, Option.some.injEq] at e1
  have hs : y.sum = ∑ j ∈ range x.length, periodo f x (freqDecalee x.length j) := by
    rw [e2, ← somme_range]
  have hs2 : y.sum = (abs2 X).sum := by
    rw [← e1, List.sum_append, add_comm, ← List.sum_append, List.take_append_drop]
  have hp := C27_parseval xf xf X X (by omega) (by omega) rfl eX eX
  have hc : ∀ z : ℂ, z * star z = ((‖z‖ ^ 2 : ℝ) : ℂ) := by
    intro z
    show z * (starRingEnd ℂ) z = _
    rw [mul_conj, normSq_eq_norm_sq]
  simp only [hc] at hp
  rw [← ofReal_sum, ← ofReal_sum, ofReal_inj] at hp
  rw [← hs, hs2]
  have : (abs2 X).sum = ∑ k ∈ range xf.length, ‖X.getD k 0‖ ^ 2 := by
    rw [← lX]
    unfold abs2
    rw [← somme_range]
    congr 1
    apply List.ext_getElem
    · simp
    · intro i h1 h2
      simp only [List.getElem_map, List.getElem_range]
      rw [List.getD_eq_getElem _ _ (by simpa using h1)]
  rw [this, hp, lxf]
  refine sum_congr rfl fun m _ => by rw [hxf m]

/-! ### C74 -/

/-- Samples `i … i+N-1`. -/
def extrait (x : List ℂ) (i N : ℕ) : List ℂ := (x.drop i).take N

theorem somme_getD (S p : List ℝ) (h : S.length = p.length) :
    ∃ S', somme S p = some S' ∧ S'.length = S.length ∧ ∀ j, S'.getD j 0 = S.getD j 0 + p.getD j 0 := by
  refine ⟨_, by unfold somme; rw [if_pos h], by simp [h], fun j => ?_⟩
  rcases Nat.lt_or_ge j S.length with hj | hj
  · rw [List.getD_eq_getElem _ _ (by simp; omega), List.getD_eq_getElem _ _ hj, List.getD_eq_getElem _ _ (by omega), List.getElem_zipWith]
  · rw [List.getD_eq_default _ _ (by simp; omega), List.getD_eq_default S _ hj, List.getD_eq_default p _ (by omega), add_zero]

theorem welchSegment_some (x : List ℂ) (f : List ℝ) (N i : ℕ) (S : List ℝ) (hN : 0 < N) (hN2 : N ≤ 2 ^ 29) (hf : f.length = N) (hS : S.length = N)
    (hi : i + N ≤ x.length) : ∃ S', welchSegment x f N i S = some S' ∧ S'.length = N ∧
      ∀ j, j < N → S'.getD j 0 = S.getD j 0 + periodo f (extrait x i N) (freqDecalee N j) := by
  have le : (extrait x i N).length = N := by unfold extrait; rw [List.length_take, List.length_drop]; omega
  obtain ⟨xf, e1, lxf, hxf⟩ := fenetrage_some (extrait x i N) f (by omega)
  obtain ⟨X, eX, lX, hX⟩ := C27_fft xf (by omega) (by omega)
  obtain ⟨y, e2, e3⟩ := spectre_periodo f (extrait x i N) xf X (by omega) lxf hxf (by omega) (fun k hk => hX k (by omega))
  have ly : y.length = N := by rw [e3]; simp [le]
  obtain ⟨S', e4, l4, g4⟩ := somme_getD S y (by omega)
  refine ⟨S', ?_, by omega, fun j hj => ?_⟩
  · unfold welchSegment
    rw [segment_val _ _ _ hi]
    simp only [Option.bind_eq_bind, Option.bind_some]
    rw [show (x.drop i).take N = extrait x i N from rfl, e1]
    simp only [Option.bind_some, eX, e2, e4]
  · rw [g4, e3]
    have := spectreDe_getD f (extrait x i N) j (by omega)
    unfold spectreDe at this
    rw [this, le]

theorem welchBoucle_some (x : List ℂ) (f : List ℝ) (N : ℕ) (hN : 2 ≤ N) (hN2 : N ≤ 2 ^ 29) (hf : f.length = N) :
    ∀ (c i : ℕ) (S : List ℝ), S.length = N → x.length ≤ i + c → ∃ S', welchBoucle x f N (c + 1) i S = some S' ∧ S'.length = N ∧
      ∀ j, j < N → S'.getD j 0 = S.getD j 0 + ∑ k ∈ range c, if i + k * (N / 2) + N < x.length then
        periodo f (extrait x (i + k * (N / 2)) N) (freqDecalee N j) else 0 := by
  intro c
  induction c with
  | zero =>
    intro i S hS hc
    unfold welchBoucle
    rw [if_neg (by omega)]
    exact ⟨S, rfl, hS, fun j _ => by simp⟩
  | succ c ih =>
    intro i S hS hc
    unfold welchBoucle
    split
    · rename_i hi
      obtain ⟨S1, e1, l1, g1⟩ := welchSegment_some x f N i S (by omega) hN2 hf hS (by omega)
      obtain ⟨S2, e2, l2, g2⟩ := ih (i + N / 2) S1 l1 (by omega)
      refine ⟨S2, by rw [e1]; exact e2, l2, fun j hj => ?_⟩
      rw [g2 j hj, g1 j hj, sum_range_succ' _ c, zero_mul, add_zero, if_pos hi, add_assoc, add_comm (periodo _ _ _)]
      congr 2
      refine sum_congr rfl fun k _ => ?_
      rw [show i + N / 2 + k * (N / 2) = i + (k + 1) * (N / 2) by ring]
    · rename_i hi
      refine ⟨S, rfl, hS, fun j _ => ?_⟩
      rw [sum_eq_zero, add_zero]
      intro k _
      rw [if_neg]
      intro h
      have : 0 ≤ k * (N / 2) := Nat.zero_le _
      omega

/-- The starts of the segments that the loop visits: half-overlapping, strictly before the end. -/
theorem welch_somme (L h N c : ℕ) (hh : 0 < h) (hc : L ≤ c) (g : ℕ → ℝ) :
    (∑ k ∈ range c, if 0 + k * h + N < L then g k else 0) = ∑ k ∈ (range L).filter (fun k => k * h + N < L), g k := by
  rw [sum_filter]
  simp only [Nat.zero_add]
  symm
  apply sum_subset (range_subset_range.2 hc)
  intro k _ hk
  rw [if_neg]
  intro h2
  have : k ≤ k * h := Nat.le_mul_of_pos_right _ hh
  apply hk
  rw [mem_range]; omega

/-- **C74 (Welch).**  For every signal, every window of `N ≥ 2` points: the loop ends, and bin `j` is the sum of the periodograms, at the
frequency of the bin, of the half-overlapping segments `x[k·⌊N/2⌋ …]` that end strictly before the last sample; for even `N` this frequency is the
one returned.  (Missing: the segment that ends on the last sample, and the division by the number of segments: see the refutations.) -/
theorem C74_welch_partial (x : List ℂ) (f : List ℝ) (N : ℕ) (hN : 2 ≤ N) (hN2 : N ≤ 2 ^ 29) (hf : f.length = N) (c : ℕ) (hc : x.length < c) :
    ∃ fr S, psdWelch c x N f = some (fr, S) ∧ S.length = N ∧
      (∀ j, j < N → S.getD j 0 =
        ∑ k ∈ (range x.length).filter (fun k => k * (N / 2) + N < x.length), periodo f (extrait x (k * (N / 2)) N) (freqDecalee N j)) ∧
      (N % 2 = 0 → ∀ j, j < N → ∃ ν : ℚ, fr[j]? = some ν ∧ freqDecalee N j = ν) := by
  obtain ⟨c, rfl⟩ : ∃ d, c = d + 1 := ⟨c - 1, by omega⟩
  obtain ⟨S, e, l, g⟩ := welchBoucle_some x f N hN hN2 hf c 0 (List.replicate N 0) (by simp) (by omega)
  refine ⟨psdFreqs N true, S, by unfold psdWelch; simp only [e, Option.bind_eq_bind, Option.bind_some], l, fun j hj => ?_, fun hp j hj => ?_⟩
  · rw [g j hj, List.getD_replicate _ hj, zero_add, ← welch_somme x.length (N / 2) N c (by omega) (by omega)]
    simp only [Nat.zero_add]
  · obtain ⟨m, rfl⟩ : ∃ m, N = 2 * m := ⟨N / 2, by omega⟩
    have hm1 : (1 : ℚ) ≤ m := by exact_mod_cast (by omega : 1 ≤ m)
    refine ⟨((j : ℚ) - m) / (2 * m), ?_, ?_⟩
    · unfold psdFreqs
      simp only [if_true, hp]
      rw [linspace_get _ _ _ _ hj]
      congr 1
      have : (2 * (m : ℚ)) - 1 ≠ 0 := by intro hc; linarith
      push_cast; field_simp; ring
    · unfold freqDecalee
      rw [show 2 * m / 2 = m by omega]
      push_cast; ring

/-- Non-vacuity: with five samples and segments of two, three segments are visited (out of four complete ones). -/
example : (range 5).filter (fun k => k * (2 / 2) + 2 < 5) = {0, 1, 2} := by decide

/-- **C74 refuted (single segment).**  A signal of exactly `N` samples — one full segment — yields a null spectrum. -/
theorem C74_unique_refute (x : List ℂ) (f : List ℝ) (c : ℕ) :
    psdWelch (c + 1) x x.length f = some (psdFreqs x.length true, List.replicate x.length 0) := by
  unfold psdWelch welchBoucle
  rw [if_neg (by omega)]
  rfl

/-- **C74 refuted (`N = 1`).**  The loop does not advance: no number of iterations suffices. -/
theorem C74_infini_refute (x : List ℂ) (a : ℝ) (hx : 2 ≤ x.length) (c : ℕ) : psdWelch c x 1 [a] = none := by
  have : ∀ c (S : List ℝ), S.length = 1 → welchBoucle x [a] 1 c 0 S = none := by
    intro c
    induction c with
    | zero => intro S _; rfl
    | succ c ih =>
      intro S hS
      unfold welchBoucle
      rw [if_pos (by omega)]
      obtain ⟨S1, e1, l1, -⟩ := welchSegment_some x [a] 1 0 S (by omega) (by norm_num) rfl hS (by omega)
      rw [e1]
      exact ih S1 l1
  unfold psdWelch
  rw [this c _ (by simp)]
  rfl

/-- **C74 refuted (average).**  For the constant signal 1 and the rectangular window, every segment has the periodogram `N` at frequency 0; the
value returned is `N` times the number `K` of segments. -/
theorem C74_moyenne_refute (m K c : ℕ) (hm : 0 < m) (hm2 : 2 * m ≤ 2 ^ 29) (hc : m * K + 2 * m < c) :
    ∃ fr S, psdWelch c (List.replicate (m * K + 2 * m) 1) (2 * m) (List.replicate (2 * m) 1) = some (fr, S) ∧ S.getD m 0 = K * (2 * m : ℝ) := by
  obtain ⟨fr, S, e, -, g, -⟩ := C74_welch_partial (List.replicate (m * K + 2 * m) 1) (List.replicate (2 * m) 1) (2 * m) (by omega) hm2 (by simp)
    c (by simpa using hc)
  refine ⟨fr, S, e, ?_⟩
  rw [g m (by omega)]
  have hper : ∀ k, k * (2 * m / 2) + 2 * m < m * K + 2 * m →
      periodo (List.replicate (2 * m) 1) (extrait (List.replicate (m * K + 2 * m) 1) (k * (2 * m / 2)) (2 * m)) (freqDecalee (2 * m) m) = 2 * m := by
    intro k hk
    have he : extrait (List.replicate (m * K + 2 * m) 1) (k * (2 * m / 2)) (2 * m) = List.replicate (2 * m) 1 := by
      unfold extrait
      rw [List.drop_replicate, List.take_replicate]
      congr 1; omega
    rw [he]
    unfold periodo freqDecalee
    rw [show 2 * m / 2 = m by omega, List.length_replicate, sub_self, zero_div]
    have : ∑ i ∈ range (2 * m), (((List.replicate (2 * m) (1 : ℝ)).getD i 0 : ℝ) : ℂ) * (List.replicate (2 * m) (1 : ℂ)).getD i 0 *
        exp (-(2 * Real.pi * I) * (i * ((0 : ℝ) : ℂ))) = ((2 * m : ℝ) : ℂ) := by
      rw [sum_congr rfl (g := fun _ => (1 : ℂ))]
      · simp
      · intro i hi
        rw [List.getD_replicate _ (mem_range.1 hi), List.getD_replicate _ (mem_range.1 hi)]
        simp
    rw [this, norm_real, Real.norm_eq_abs, sq_abs]
    have : (0 : ℝ) < m := by exact_mod_cast hm
    push_cast
    field_simp
  rw [sum_congr rfl (g := fun _ => (2 * m : ℝ))]
  · rw [sum_const, nsmul_eq_mul]
    congr 1
    norm_cast
    rw [show (range (List.replicate (m * K + 2 * m) (1 : ℂ)).length).filter (fun k => k * (2 * m / 2) + 2 * m < (List.replicate (m * K + 2 * m) (1 : ℂ)).length)
      = range K by
        ext k
        rw [mem_filter, mem_range, mem_range, List.length_replicate, show 2 * m / 2 = m by omega, mul_comm k m]
        constructor
        · rintro ⟨-, h⟩
          exact Nat.lt_of_mul_lt_mul_left (a := m) (by omega)
        · intro h
          have h1 : m * k < m * K := Nat.mul_lt_mul_of_pos_left h hm
          have h2 : K ≤ m * K := Nat.le_mul_of_pos_left _ hm
          omega]
    exact card_range K
  · intro k hk
    have := (mem_filter.1 hk).2
    rw [List.length_replicate] at this
    exact hper k this

/-! ### C75 -/

/-- The sum, over the sub-blocks of a block, of the periodograms at bin `j`. -/
noncomputable def periodoBloc (f : List ℝ) (Nf nsubs : ℕ) (x : List ℂ) (j : ℕ) : ℝ :=
  ∑ i ∈ range nsubs, periodo f (extrait x (i * Nf) Nf) (freqDecalee Nf j)

theorem extrait_length (x : List ℂ) (i N : ℕ) (h : i + N ≤ x.length) : (extrait x i N).length = N := by
  unfold extrait; rw [List.length_take, List.length_drop]; omega

theorem plan_spectre (f : List ℝ) (x : List ℂ) (p : Plan ℂ) (hp : Valide trigoC p) (hx : 0 < x.length) (hx2 : x.length ≤ 2 ^ 29) (hf : f.length = x.length) :
    ∃ xf p' X, fenetrage x f = some xf ∧ p.step trigoC xf true = some (p', X) ∧ Valide trigoC p' ∧ fftshift 0 (abs2 X) = some (spectreDe f x) := by
  obtain ⟨xf, e1, lxf, hxf⟩ := fenetrage_some x f hf.symm
  obtain ⟨p', X, e2, hp', t⟩ := step_tfd loisC true xf.length xf p rfl (by omega) (by omega) hp
  obtain ⟨y, e3, e4⟩ := spectre_periodo f x xf X hx lxf hxf (by rw [t.1, lxf]) (fun k hk => by
    rw [t.2 k (by omega), dft_TFD true xf]; rfl)
  exact ⟨xf, p', X, e1, e2, .inr ⟨_, hp'⟩, by rw [e3, e4]; rfl⟩

theorem sousSpectres_some (x : List ℂ) (f : List ℝ) (Nf : ℕ) (hN : 0 < Nf) (hN2 : Nf ≤ 2 ^ 29) (hf : f.length = Nf) :
    ∀ (c i : ℕ) (p : Plan ℂ), Valide trigoC p → (i + c) * Nf ≤ x.length →
      ∃ p', sousSpectres x f Nf c i p = some (p', (List.range c).map fun k => spectreDe f (extrait x ((i + k) * Nf) Nf)) ∧ Valide trigoC p' := by
  intro c
  induction c with
  | zero => intro i p hp _; exact ⟨p, by simp [sousSpectres], hp⟩
  | succ c ih =>
    intro i p hp h
    have hi : i * Nf + Nf ≤ x.length := by
      calc i * Nf + Nf = (i + 1) * Nf := by ring
        _ ≤ (i + (c + 1)) * Nf := Nat.mul_le_mul_right _ (by omega)
        _ ≤ _ := h
    have le := extrait_length x (i * Nf) Nf hi
    obtain ⟨xf, p1, X, e1, e2, hp1, e3⟩ := plan_spectre f (extrait x (i * Nf) Nf) p hp (by omega) (by omega) (by omega)
    obtain ⟨p2, e4, hp2⟩ := ih (i + 1) p1 hp1 (by rw [show i + 1 + c = i + (c + 1) by ring]; exact h)
    refine ⟨p2, ?_, hp2⟩
    unfold sousSpectres
    rw [segment_val _ _ _ hi]
    simp only
    rw [show (x.drop (i * Nf)).take Nf = extrait x (i * Nf) Nf from rfl, e1]
    simp only [Plan.stepDefaut, e2, e3, e4]
    rw [List.range_succ_eq_map]
    simp only [List.map_cons, List.map_map, Nat.add_zero]
    congr 3
    apply List.map_congr_left
    intro k _
    simp only [Function.comp_apply]
    rw [show i + 1 + k = i + (k + 1) by ring]

theorem cumulDirect_some : ∀ (l : List (List ℝ)) (m : List ℝ), (∀ y ∈ l, y.length = m.length) →
    ∃ m', cumulDirect l m = some m' ∧ m'.length = m.length ∧ ∀ j, m'.getD j 0 = m.getD j 0 + (l.map fun y => y.getD j 0).sum := by
  intro l
  induction l with
  | nil => intro m _; exact ⟨m, rfl, rfl, fun j => by simp⟩
  | cons y l ih =>
    intro m h
    obtain ⟨m1, e1, l1, g1⟩ := somme_getD m y (h y List.mem_cons_self).symm
    obtain ⟨m2, e2, l2, g2⟩ := ih m1 (fun z hz => by rw [h z (List.mem_cons_of_mem _ hz), l1])
    refine ⟨m2, by unfold cumulDirect; rw [e1]; exact e2, by omega, fun j => ?_⟩
    rw [g2, g1, List.map_cons, List.sum_cons, add_assoc]

/-- What stays true of a spectrum analyser configured without sweep. -/
structure SpectreInv (c : SpectreConfig) (s : Spectre) : Prop where
  config : s.config = c
  plan : Valide trigoC s.plan
  f : s.f = normalise c.fen
  Nf : s.Nf = c.BS / c.nsubs
  Ns : s.Ns = c.BS / c.nsubs
  mag : s.magMoy.length = c.BS / c.nsubs

/-- The configurations considered: no sweep, sub-blocks that are not empty, window of their size. -/
structure ConfigSimple (c : SpectreConfig) : Prop where
  balayage : c.balayage = false
  subs : 0 < c.nsubs
  taille : 0 < c.BS / c.nsubs
  taille2 : c.BS / c.nsubs ≤ 2 ^ 29
  fen : c.fen.length = c.BS / c.nsubs

theorem cumul_some (c : SpectreConfig) (hc : ConfigSimple c) (s : Spectre) (hs : SpectreInv c s) (x : List ℂ) (hx : x.length = c.BS) :
    ∃ p m, s.cumul x = some (p, m) ∧ Valide trigoC p ∧ m.length = c.BS / c.nsubs ∧ ∀ j, j < c.BS / c.nsubs →
      m.getD j 0 = s.magMoy.getD j 0 + periodoBloc (normalise c.fen) (c.BS / c.nsubs) c.nsubs x j := by
  have lf : (normalise c.fen).length = c.BS / c.nsubs := by unfold normalise; rw [List.length_map, hc.fen]
  have hmul : (0 + c.nsubs) * (c.BS / c.nsubs) ≤ x.length := by rw [hx, Nat.zero_add]; exact Nat.mul_div_le _ _
  unfold Spectre.cumul
  rw [hs.config, hs.f, hs.Nf]
  split
  · obtain ⟨p, e, hp⟩ := sousSpectres_some x (normalise c.fen) (c.BS / c.nsubs) hc.taille hc.taille2 lf c.nsubs 0 s.plan hs.plan hmul
    have hsub : ∀ k, k < c.nsubs → k * (c.BS / c.nsubs) + c.BS / c.nsubs ≤ x.length := by
      intro k hk
      calc k * (c.BS / c.nsubs) + c.BS / c.nsubs = (k + 1) * (c.BS / c.nsubs) := by ring
        _ ≤ (0 + c.nsubs) * (c.BS / c.nsubs) := Nat.mul_le_mul_right _ (by omega)
        _ ≤ _ := hmul
    obtain ⟨m, e2, l2, g2⟩ := cumulDirect_some ((List.range c.nsubs).map fun k => spectreDe (normalise c.fen) (extrait x ((0 + k) * (c.BS / c.nsubs)) (c.BS / c.nsubs)))
      s.magMoy (by
        intro y hy
        obtain ⟨k, hk, rfl⟩ := List.mem_map.1 hy
        have hk := List.mem_range.1 hk
        rw [hs.mag, Nat.zero_add]
        simp [spectreDe, extrait_length x _ _ (hsub k hk)])
    refine ⟨p, m, ?_, hp, by rw [l2, hs.mag], fun j hj => ?_⟩
    · rw [e]
      simp only [hc.balayage, Bool.false_eq_true, if_false, e2, Option.map_some]
    · rw [g2, List.map_map, somme_range]
      unfold periodoBloc
      congr 1
      refine sum_congr rfl fun k hk => ?_
      have := extrait_length x _ _ (hsub k (mem_range.1 hk))
      simp only [Function.comp_apply, Nat.zero_add]
      rw [spectreDe_getD _ _ _ (by omega), this]
  · rename_i h1
    have hn : c.nsubs = 1 := by have := hc.subs; omega
    have hBS : c.BS / c.nsubs = x.length := by rw [hn, Nat.div_one, hx]
    have := hc.taille; have := hc.taille2
    obtain ⟨xf, p, X, e1, e2, hp, e3⟩ := plan_spectre (normalise c.fen) x s.plan hs.plan (by omega) (by omega) (by omega)
    obtain ⟨m, e4, l4, g4⟩ := somme_getD s.magMoy (spectreDe (normalise c.fen) x) (by rw [hs.mag, hBS]; simp [spectreDe])
    refine ⟨p, m, ?_, hp, by rw [l4, hs.mag], fun j hj => ?_⟩
    · simp only [e1, e2, e3, Option.bind_some, e4, Option.map_some]
    · rw [g4, spectreDe_getD _ _ _ (by omega)]
      unfold periodoBloc
      rw [hn, sum_range_one, Nat.zero_mul, Nat.div_one]
      have : extrait x 0 c.BS = x := by unfold extrait; rw [List.drop_zero, List.take_of_length_le (by omega)]
      rw [this, hx]

/-- The averaged spectrum of a group of blocks: bin `j` is the mean power of the sub-blocks at the frequency of bin `j`. -/
noncomputable def spectreGroupe (c : SpectreConfig) (g : List (List ℂ)) : List ℝ :=
  (List.range (c.BS / c.nsubs)).map fun j =>
    (g.map fun x => periodoBloc (normalise c.fen) (c.BS / c.nsubs) c.nsubs x j).sum / ((g.length * c.nsubs * (c.BS / c.nsubs) : ℕ) : ℝ)

theorem step_intermediaire (c : SpectreConfig) (hc : ConfigSimple c) (s : Spectre) (hs : SpectreInv c s) (x : List ℂ) (hx : x.length = c.BS)
    (hn : s.cnt + 1 ≠ c.nmeans) : ∃ s', s.step x = some (s', []) ∧ SpectreInv c s' ∧ s'.cnt = s.cnt + 1 ∧ ∀ j, j < c.BS / c.nsubs →
      s'.magMoy.getD j 0 = s.magMoy.getD j 0 + periodoBloc (normalise c.fen) (c.BS / c.nsubs) c.nsubs x j := by
  obtain ⟨p, m, e, hp, lm, g⟩ := cumul_some c hc s hs x hx
  refine ⟨{ s with plan := p, magMoy := m, cnt := s.cnt + 1 }, ?_, ⟨hs.config, hp, hs.f, hs.Nf, hs.Ns, lm⟩, rfl, g⟩
  unfold Spectre.step
  rw [hs.config, if_neg (by omega), e]
  simp only
  rw [if_neg hn]

theorem step_final (c : SpectreConfig) (hc : ConfigSimple c) (s : Spectre) (hs : SpectreInv c s) (x : List ℂ) (hx : x.length = c.BS)
    (hn : s.cnt + 1 = c.nmeans) : ∃ s', s.step x = some (s', (List.range (c.BS / c.nsubs)).map fun j =>
        (s.magMoy.getD j 0 + periodoBloc (normalise c.fen) (c.BS / c.nsubs) c.nsubs x j) / ((c.nmeans * c.nsubs * (c.BS / c.nsubs) : ℕ) : ℝ)) ∧
      SpectreInv c s' ∧ s'.cnt = 0 ∧ s'.magMoy = List.replicate (c.BS / c.nsubs) 0 := by
  obtain ⟨p, m, e, hp, lm, g⟩ := cumul_some c hc s hs x hx
  refine ⟨{ s with plan := p, magMoy := List.replicate s.Ns 0, cnt := 0 }, ?_, ⟨hs.config, hp, hs.f, hs.Nf, hs.Ns, by simp [hs.Ns]⟩, rfl, by simp [hs.Ns]⟩
  unfold Spectre.step
  rw [hs.config, if_neg (by omega), e]
  simp only
  rw [if_pos hn]
  simp only [hc.balayage, Bool.false_eq_true, if_false, Option.some.injEq, Prod.mk.injEq, true_and]
  rw [hs.Nf]
  apply List.ext_getElem
  · simp [lm]
  · intro j h1 h2
    have hj : j < c.BS / c.nsubs := by simpa using h2
    rw [List.getElem_map, List.getElem_map, List.getElem_range, ← g j hj, List.getD_eq_getElem _ _ (by omega)]

theorem flux_groupe (c : SpectreConfig) (hc : ConfigSimple c) : ∀ (g : List (List ℂ)) (s : Spectre), SpectreInv c s → g ≠ [] →
    s.cnt + g.length = c.nmeans → (∀ x ∈ g, x.length = c.BS) →
    ∃ s', s.flux g = some (s', List.replicate (g.length - 1) [] ++ [(List.range (c.BS / c.nsubs)).map fun j =>
        (s.magMoy.getD j 0 + (g.map fun x => periodoBloc (normalise c.fen) (c.BS / c.nsubs) c.nsubs x j).sum) /
          ((c.nmeans * c.nsubs * (c.BS / c.nsubs) : ℕ) : ℝ)]) ∧
      SpectreInv c s' ∧ s'.cnt = 0 ∧ s'.magMoy = List.replicate (c.BS / c.nsubs) 0 := by
  intro g
  induction g with
  | nil => intro s _ h; exact absurd rfl h
  | cons x g ih =>
    intro s hs _ hn hx
    rcases g with _ | ⟨x2, g⟩
    · obtain ⟨s', e, h1, h2, h3⟩ := step_final c hc s hs x (hx x List.mem_cons_self) (by simpa using hn)
      refine ⟨s', ?_, h1, h2, h3⟩
      unfold Spectre.flux
      rw [e]
      simp [Spectre.flux]
    · obtain ⟨s1, e, h1, h2, h3⟩ := step_intermediaire c hc s hs x (hx x List.mem_cons_self) (by simp at hn; omega)
      obtain ⟨s', e', h4⟩ := ih s1 h1 (by simp) (by simp at hn ⊢; omega) (fun y hy => hx y (List.mem_cons_of_mem _ hy))
      refine ⟨s', ?_, h4⟩
      unfold Spectre.flux
      rw [e]
      simp only [e', Option.some.injEq, Prod.mk.injEq, true_and, List.length_cons, Nat.add_sub_cancel, List.replicate_succ, List.cons_append]
      congr 2
      apply congrArg (· :: [])
      apply List.map_congr_left
      intro j hj
      rw [h3 j (List.mem_range.1 hj), List.map_cons (l := x2 :: g), List.sum_cons, add_assoc]

theorem flux_append (a b : List (List ℂ)) : ∀ (s s1 s2 : Spectre) (ya yb : List (List ℝ)), s.flux a = some (s1, ya) → s1.flux b = some (s2, yb) →
    s.flux (a ++ b) = some (s2, ya ++ yb) := by
  induction a with
  | nil => intro s s1 s2 ya yb h1 h2; unfold Spectre.flux at h1; cases h1; exact h2
  | cons x a ih =>
    intro s s1 s2 ya yb h1 h2
    unfold Spectre.flux at h1
    rw [List.cons_append]
    unfold Spectre.flux
    cases e : s.step x with
    | none => rw [e] at h1; cases h1
    | some q =>
      obtain ⟨s3, y⟩ := q
      rw [e] at h1
      simp only at h1 ⊢
      cases e2 : s3.flux a with
      | none => rw [e2] at h1; cases h1
      | some q =>
        obtain ⟨s4, ys⟩ := q
        rw [e2] at h1
        cases h1
        rw [ih s3 s1 s2 ys yb e2 h2]
        rfl

theorem configure_inv (c : SpectreConfig) (hc : ConfigSimple c) (s : Spectre) (h : Spectre.configure c = some s) :
    SpectreInv c s ∧ s.cnt = 0 ∧ s.magMoy = List.replicate (c.BS / c.nsubs) 0 := by
  unfold Spectre.configure at h
  rw [if_neg hc.subs.ne'] at h
  simp only [Option.bind_eq_bind, hc.balayage, Bool.false_eq_true, if_false, Option.bind_some] at h
  obtain ⟨m, -, h⟩ := Option.bind_eq_some_iff.1 h
  cases h
  exact ⟨⟨rfl, .inr ⟨_, configure_pret _ _ _ _⟩, rfl, rfl, rfl, by simp⟩, rfl, rfl⟩

/-- **C75 (averaging).**  Without sweep, for every window, every number of sub-blocks and every sequence of blocks: the analyser is silent
`nmeans - 1` times, then returns the mean of the periodograms of all the sub-blocks of the last `nmeans` blocks, and starts again; nothing is kept
from one group to the next. -/
theorem C75_moyennes (c : SpectreConfig) (hc : ConfigSimple c) (hm : 0 < c.nmeans) (s : Spectre) (h : Spectre.configure c = some s)
    (gs : List (List (List ℂ))) (hg : ∀ g ∈ gs, g.length = c.nmeans ∧ ∀ x ∈ g, x.length = c.BS) :
    ∃ s', s.flux gs.flatten = some (s', (gs.map fun g => List.replicate (c.nmeans - 1) [] ++ [spectreGroupe c g]).flatten) := by
  have key : ∀ (gs : List (List (List ℂ))) (s : Spectre), (∀ g ∈ gs, g.length = c.nmeans ∧ ∀ x ∈ g, x.length = c.BS) → SpectreInv c s → s.cnt = 0 →
      s.magMoy = List.replicate (c.BS / c.nsubs) 0 →
      ∃ s', s.flux gs.flatten = some (s', (gs.map fun g => List.replicate (c.nmeans - 1) [] ++ [spectreGroupe c g]).flatten) := by
    intro gs
    induction gs with
    | nil => intro s _ _ _ _; exact ⟨s, by simp [Spectre.flux]⟩
    | cons g gs ih =>
      intro s hg hs h0 hmag
      obtain ⟨lg, hx⟩ := hg g List.mem_cons_self
      obtain ⟨s1, e, h1, h2, h3⟩ := flux_groupe c hc g s hs (by rintro rfl; simp at lg; omega) (by omega) hx
      obtain ⟨s2, e2⟩ := ih s1 (fun g' h' => hg g' (List.mem_cons_of_mem _ h')) h1 h2 h3
      refine ⟨s2, ?_⟩
      rw [List.flatten_cons, flux_append _ _ _ _ _ _ _ e e2, List.map_cons, List.flatten_cons]
      congr 3
      rw [lg]
      congr 2
      unfold spectreGroupe
      apply List.map_congr_left
      intro j hj
      rw [hmag, List.getD_replicate _ (List.mem_range.1 hj), zero_add, lg]
  obtain ⟨h1, h2, h3⟩ := configure_inv c hc s h
  exact key gs s hg h1 h2 h3

/-- Non-vacuity: blocks of eight samples, two sub-blocks, two means. -/
example : ∃ c : SpectreConfig, ConfigSimple c ∧ 0 < c.nmeans ∧ (Spectre.configure c).isSome := by
  refine ⟨⟨8, 2, 2, false, 0, 0, 0, [0, 1, 1, 0]⟩, ⟨rfl, ?_, ?_, ?_, ?_⟩, ?_, ?_⟩ <;> simp [Spectre.configure, spectreMasque]

/-- **C75 (window).**  The window used has energy `Nf` whatever the (not null) window chosen. -/
theorem C75_fenetre (f : List ℝ) (h : ∃ v ∈ f, v ≠ 0) : ((normalise f).map fun v => v ^ 2).sum = (f.length : ℝ) := by
  have hpos : 0 < (f.map fun v => v ^ 2).sum := by
    obtain ⟨v, hv, h0⟩ := h
    have h1 : v ^ 2 ≤ (f.map fun v => v ^ 2).sum := List.single_le_sum (by
      intro a ha
      obtain ⟨b, -, rfl⟩ := List.mem_map.1 ha
      positivity) _ (List.mem_map.2 ⟨v, hv, rfl⟩)
    have : 0 < v ^ 2 := by positivity
    linarith
  unfold normalise
  rw [List.map_map]
  have : ((fun v : ℝ => v ^ 2) ∘ fun v => Real.sqrt ((f.length : ℝ) / (f.map fun v => v ^ 2).sum) * v)
      = fun v => ((f.length : ℝ) / (f.map fun v => v ^ 2).sum) * v ^ 2 := by
    funext v
    simp only [Function.comp_apply]
    rw [mul_pow, Real.sq_sqrt (by positivity)]
  rw [this, List.sum_map_mul_left]
  field_simp

/-- **C75 (power).**  The bins of a returned spectrum add up to the mean power of the windowed samples of the group. -/
theorem C75_puissance (c : SpectreConfig) (hc : ConfigSimple c) (g : List (List ℂ)) (hx : ∀ x ∈ g, x.length = c.BS) :
    (spectreGroupe c g).sum =
      (g.map fun x => ∑ i ∈ range c.nsubs, ∑ m ∈ range (c.BS / c.nsubs),
        ‖((normalise c.fen).getD m 0 : ℂ) * x.getD (i * (c.BS / c.nsubs) + m) 0‖ ^ 2).sum / ((g.length * c.nsubs * (c.BS / c.nsubs) : ℕ) : ℝ) := by
  have lf : (normalise c.fen).length = c.BS / c.nsubs := by unfold normalise; rw [List.length_map, hc.fen]
  have hb : ∀ x ∈ g, ∑ j ∈ range (c.BS / c.nsubs), periodoBloc (normalise c.fen) (c.BS / c.nsubs) c.nsubs x j =
      ∑ i ∈ range c.nsubs, ∑ m ∈ range (c.BS / c.nsubs), ‖((normalise c.fen).getD m 0 : ℂ) * x.getD (i * (c.BS / c.nsubs) + m) 0‖ ^ 2 := by
    intro x hxg
    unfold periodoBloc
    rw [sum_comm]
    refine sum_congr rfl fun i hi => ?_
    have hsub : i * (c.BS / c.nsubs) + c.BS / c.nsubs ≤ x.length := by
      calc i * (c.BS / c.nsubs) + c.BS / c.nsubs = (i + 1) * (c.BS / c.nsubs) := by ring
        _ ≤ c.nsubs * (c.BS / c.nsubs) := Nat.mul_le_mul_right _ (by have := mem_range.1 hi; omega)
        _ ≤ c.BS := Nat.mul_div_le _ _
        _ = _ := (hx x hxg).symm
    have le := extrait_length x _ _ hsub
    have hp := periodo_parseval (normalise c.fen) (extrait x (i * (c.BS / c.nsubs)) (c.BS / c.nsubs)) (by omega) (by rw [le]; exact hc.taille)
      (by rw [le]; exact hc.taille2)
    rw [le] at hp
    rw [hp]
    refine sum_congr rfl fun m hm => ?_
    have hm := mem_range.1 hm
    congr 3
    unfold extrait
    rw [List.getD_eq_getElem _ _ (by rw [List.length_take, List.length_drop]; omega), List.getElem_take, List.getElem_drop,
      List.getD_eq_getElem _ _ (by omega)]
  unfold spectreGroupe
  rw [somme_range, ← sum_div]
  congr 1
  have : ∀ l : List (List ℂ), ∑ j ∈ range (c.BS / c.nsubs), (l.map fun x => periodoBloc (normalise c.fen) (c.BS / c.nsubs) c.nsubs x j).sum
      = (l.map fun x => ∑ j ∈ range (c.BS / c.nsubs), periodoBloc (normalise c.fen) (c.BS / c.nsubs) c.nsubs x j).sum := by
    intro l
    induction l with
    | nil => simp
    | cons x l ih => simp only [List.map_cons, List.sum_cons, sum_add_distrib, ih]
  rw [this]
  congr 1
  exact List.map_congr_left hb

theorem spectreDe_un (a : ℂ) : spectreDe [1] [a] = [‖a‖ ^ 2] := by
  simp [spectreDe, periodo, List.range_succ]

theorem normalise_un : normalise [1] = [1] := by simp [normalise]

/-- **C75 refuted (sweep).**  With a sweep over two adjacent bands (no overlap, no mask, one mean, sub-blocks of one point), the spectrum of
each band is divided by the number of bands: `|a|²/2, |b|²/2`, whereas an analyser of the same band alone returns `|a|²`. -/
theorem C75_balayage_refute (a b : ℂ) :
    (∃ s s', Spectre.configure ⟨2, 1, 2, true, 1, 0, 0, [1]⟩ = some s ∧ s.step [a, b] = some (s', [‖a‖ ^ 2 / 2, ‖b‖ ^ 2 / 2])) ∧
    (∃ s s', Spectre.configure ⟨1, 1, 1, false, 1, 0, 0, [1]⟩ = some s ∧ s.step [a] = some (s', [‖a‖ ^ 2])) := by
  constructor
  · obtain ⟨p, e, -⟩ := sousSpectres_some [a, b] [1] 1 (by norm_num) (by norm_num) rfl 2 0 ((Plan.neuf : Plan ℂ).configure trigoC 1 true)
      (.inr ⟨_, configure_pret _ _ _ _⟩) (by simp)
    have e' : sousSpectres [a, b] [1] 1 2 0 ((Plan.neuf : Plan ℂ).configure trigoC 1 true) = some (p, [[‖a‖ ^ 2], [‖b‖ ^ 2]]) := by
      rw [e]
      simp [List.range_succ, extrait, spectreDe_un]
    refine ⟨⟨⟨2, 1, 2, true, 1, 0, 0, [1]⟩, Plan.neuf.configure trigoC 1 true, [1], [0, 0], [1, 1], [1], 0, 1, 2⟩,
      ⟨⟨2, 1, 2, true, 1, 0, 0, [1]⟩, p, [1], [0, 0], [1, 1], [1], 0, 1, 2⟩, ?_, ?_⟩
    · simp [Spectre.configure, spectreMasque, spectreCnt, ajoute, segment, ecrit, normalise_un]
    · simp [Spectre.step, Spectre.cumul, e', cumulBalayage, produit, ajoute, segment, ecrit]
  · obtain ⟨xf, p, X, e1, e2, -, e3⟩ := plan_spectre [1] [a] ((Plan.neuf : Plan ℂ).configure trigoC 1 true)
      (.inr ⟨_, configure_pret _ _ _ _⟩) (by simp) (by norm_num) rfl
    rw [spectreDe_un] at e3
    refine ⟨⟨⟨1, 1, 1, false, 1, 0, 0, [1]⟩, Plan.neuf.configure trigoC 1 true, [1], [0], [], [1], 0, 1, 1⟩,
      ⟨⟨1, 1, 1, false, 1, 0, 0, [1]⟩, p, [1], [0], [], [1], 0, 1, 1⟩, ?_, ?_⟩
    · simp [Spectre.configure, spectreMasque, normalise_un]
    · simp [Spectre.step, Spectre.cumul, e1, e2, e3, somme]

end Verif.Fourier
