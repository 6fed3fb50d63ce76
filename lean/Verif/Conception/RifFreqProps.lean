/-
C81: FIR design by frequency sampling.
-/
import Verif.Conception.HilbertProps
import Verif.Itrp.Interp
import Verif.Util.Props

namespace Verif.Conception

open Finset Verif.Fourier

theorem ecrit_debut (N : ℕ) (v : List ℂ) (h : v.length ≤ N) :
    ecrit (List.replicate N (0 : ℂ)) 0 v = some (v ++ List.replicate (N - v.length) 0) := by
  unfold ecrit
  rw [if_pos (by simpa using h)]
  simp

theorem debut_getD (N : ℕ) (F : List ℝ) (k : ℕ) : (enC F ++ List.replicate N (0 : ℂ)).getD k 0 = (F.getD k 0 : ℂ) := by
  by_cases hk : k < F.length
  · rw [List.getD_append _ _ _ _ (by rw [enC_length]; exact hk), enC_getD]
  · rw [List.getD_append_right _ _ _ _ (by rw [enC_length]; omega), List.getD_eq_default F _ (by omega)]
    simp [List.getD_eq_getElem?_getD, List.getElem?_replicate]
    split <;> simp

theorem somme_sym (p : ℕ) (b : ℕ → ℂ) : ∑ k ∈ range (2 * p + 1), b k = b 0 + ∑ j ∈ range p, (b (j + 1) + b (2 * p - j)) := by
  rw [show 2 * p + 1 = 1 + p + p by omega, Finset.sum_range_add, Finset.sum_range_add, Finset.sum_range_one, Finset.sum_add_distrib, add_assoc]
  congr 2
  · exact Finset.sum_congr rfl fun j _ => by rw [add_comm]
  · rw [← Finset.sum_range_reflect]
    refine Finset.sum_congr rfl fun j hj => ?_
    rw [Finset.mem_range] at hj
    congr 1
    omega

/-- Everything about the coefficients obtained from a template of `p + 1 ≥ 2` points. -/
theorem rifFreqCoefs_some (p : ℕ) (hp : 1 ≤ p) (F : List ℝ) (lF : F.length = p + 1) (h29 : 2 * p + 1 ≤ 2 ^ 29) :
    ∃ g, rifFreqCoefs (2 * p + 1) F = some g ∧ g.length = 2 * p + 1 ∧
      (∀ i, i < 2 * p + 1 → g.getD i 0 = (F.getD 0 0 + 2 * ∑ j ∈ range p, F.getD (j + 1) 0 *
        Real.cos (2 * Real.pi * (j + 1) * ((i : ℝ) - p) / (2 * p + 1))) / (2 * p + 1)) ∧
      ∀ k, k ≤ p → reponse g ((k : ℝ) / (2 * p + 1)) =
        F.getD k 0 * Complex.exp (-(2 * Real.pi * Complex.I) * ((k : ℝ) / (2 * p + 1) : ℝ) * p) := by
  set N := 2 * p + 1 with hN
  have hN0 : (N : ℂ) ≠ 0 := by exact_mod_cast (by omega : N ≠ 0)
  have hr : (Real.sqrt N : ℂ) * (Real.sqrt N : ℂ) = N := by rw [← Complex.ofReal_mul, Real.mul_self_sqrt (by positivity)]; norm_num
  have hr0 : (Real.sqrt N : ℂ) ≠ 0 := fun h => by rw [h, zero_mul] at hr; exact hN0 hr.symm
  have hNr : ((N : ℕ) : ℝ) = 2 * (p : ℝ) + 1 := by rw [hN]; push_cast; ring
  have e1 := ecrit_debut N (enC F) (by rw [enC_length]; omega)
  have l1 : (enC F ++ List.replicate (N - (enC F).length) (0 : ℂ)).length = N := by simp [enC_length]; omega
  obtain ⟨H, e2, l2, z0, -, hk⟩ := csymForcage_some (enC F ++ List.replicate (N - (enC F).length) 0) (by rw [l1]; omega)
  rw [l1] at l2 hk
  have hH : ∀ k, k ≤ p → H.getD k 0 = (F.getD k 0 : ℂ) := by
    intro k hkp
    by_cases h0 : k = 0
    · subst h0; rw [z0, debut_getD]; simp [reC]
    · rw [(hk k (by omega) (by omega)).1, debut_getD]
  have hH2 : ∀ k, 1 ≤ k → k ≤ p → H.getD (N - k) 0 = (F.getD k 0 : ℂ) := by
    intro k h1 hkp
    rw [(hk k h1 (by omega)).2, debut_getD]
    exact Complex.conj_ofReal _
  obtain ⟨h, e3, l3, g3⟩ := C27_ifft H (by omega) (by omega)
  rw [l2] at l3 g3
  have hh : ∀ t, t < N → h.getD t 0 = ((F.getD 0 0 + 2 * ∑ j ∈ range p, F.getD (j + 1) 0 *
        Real.cos (2 * Real.pi * (j + 1) * (t : ℝ) / (2 * p + 1)) : ℝ) : ℂ) / (Real.sqrt N : ℂ) := by
    intro t ht
    rw [g3 t ht, TFD_phaseur, l2]
    congr 1
    rw [hN, somme_sym, ← hN]
    have h0 : H.getD 0 0 * phaseur 0 t N = F.getD 0 0 := by rw [hH 0 (by omega)]; simp [phaseur]
    rw [h0, Complex.ofReal_add, Complex.ofReal_mul, Complex.ofReal_sum, Finset.mul_sum]
    congr 1
    refine Finset.sum_congr rfl fun j hj => ?_
    rw [Finset.mem_range] at hj
    rw [hH (j + 1) (by omega), show 2 * p - j = N - (j + 1) by omega, hH2 (j + 1) (by omega) (by omega),
      ← phaseur_star (j + 1) t N (by omega) (by omega), ← mul_add]
    have hc : phaseur (j + 1) t N + star (phaseur (j + 1) t N) = ((2 * Real.cos (2 * Real.pi * (j + 1) * (t : ℝ) / (2 * p + 1)) : ℝ) : ℂ) := by
      rw [show star (phaseur (j + 1) t N) = (starRingEnd ℂ) (phaseur (j + 1) t N) from rfl, Complex.add_conj]
      congr 2
      unfold phaseur
      rw [show (1 * (2 * Real.pi * Complex.I) * (((j + 1 : ℕ) : ℂ) * t) / (N : ℂ)) =
        ((2 * Real.pi * (j + 1) * (t : ℝ) / (2 * p + 1) : ℝ) : ℂ) * Complex.I by rw [← hNr]; push_cast; ring]
      rw [Complex.exp_ofReal_mul_I_re]
    rw [hc]
    push_cast
    ring
  have e4 := fftshift_eq (0 : ℂ) h
  set hc := h.drop (h.length - h.length / 2) ++ h.take (h.length - h.length / 2) with hhc
  have hM : h.length - h.length / 2 = p + 1 := by omega
  have lc : hc.length = N := by rw [hhc, List.length_append, List.length_drop, List.length_take]; omega
  have gc : ∀ i, i < N → hc.getD i 0 = if i < p then h.getD (p + 1 + i) 0 else h.getD (i - p) 0 := by
    intro i hi
    rw [hhc, hM]
    by_cases hip : i < p
    · rw [if_pos hip, List.getD_append _ _ _ _ (by rw [List.length_drop]; omega), List.getD_eq_getElem _ _ (by rw [List.length_drop]; omega),
        List.getElem_drop, List.getD_eq_getElem _ _ (by omega)]
    · rw [if_neg hip, List.getD_append_right _ _ _ _ (by rw [List.length_drop]; omega), List.length_drop, l3,
        show i - (N - (p + 1)) = i - p by omega, List.getD_eq_getElem _ _ (by rw [List.length_take]; omega), List.getElem_take,
        List.getD_eq_getElem _ _ (by omega)]
  have gv : ∀ i, i < N → hc.getD i 0 = ((F.getD 0 0 + 2 * ∑ j ∈ range p, F.getD (j + 1) 0 *
        Real.cos (2 * Real.pi * (j + 1) * ((i : ℝ) - p) / (2 * p + 1)) : ℝ) : ℂ) / (Real.sqrt N : ℂ) := by
    intro i hi
    rw [gc i hi]
    split
    · rename_i hip
      rw [hh _ (by omega)]
      congr 2
      refine congrArg (fun v : ℝ => F.getD 0 0 + 2 * v) (Finset.sum_congr rfl fun j _ => ?_)
      congr 1
      have : (2 * (p : ℝ) + 1) ≠ 0 := by positivity
      rw [show 2 * Real.pi * ((j : ℝ) + 1) * ((p + 1 + i : ℕ) : ℝ) / (2 * p + 1) =
        2 * Real.pi * (j + 1) * ((i : ℝ) - p) / (2 * p + 1) + ((j + 1 : ℕ) : ℝ) * (2 * Real.pi) by push_cast; field_simp; ring,
        Real.cos_add_nat_mul_two_pi]
    · rename_i hip
      rw [hh _ (by omega), Nat.cast_sub (by omega)]
  have him : ∀ z ∈ hc, z.im = 0 := by
    intro z hz
    obtain ⟨i, hi, rfl⟩ := List.getElem_of_mem hz
    rw [← List.getD_eq_getElem (d := (0 : ℂ)) _ hi, gv i (by omega), ← Complex.ofReal_div]
    exact Complex.ofReal_im _
  have hmax : valeurMax (hc.map fun z => |z.im|) < 1e-3 := by
    have hne : (hc.map fun z => |z.im|) ≠ [] := by
      intro h0
      have := congrArg List.length h0
      simp at this
      rw [this] at lc
      simp at lc
    have := (valeurMax_prop _ hne).1
    rw [List.mem_map] at this
    obtain ⟨z, hz, e⟩ := this
    rw [← e, him z hz]
    norm_num
  refine ⟨hc.map fun z => z.re / Real.sqrt N, ?_, by rw [List.length_map, lc], ?_, ?_⟩
  · simp only [rifFreqCoefs, e1, e2, e3, e4, Option.bind_eq_bind, Option.bind_some]
    rw [if_pos hmax]
  · intro i hi
    rw [List.getD_eq_getElem _ _ (by rw [List.length_map, lc]; exact hi), List.getElem_map, ← List.getD_eq_getElem (d := (0 : ℂ)) _ (by omega),
      gv i hi, ← Complex.ofReal_div, Complex.ofReal_re, div_div, Real.mul_self_sqrt (by positivity), hNr]
  · intro k hkp
    -- direct transform of `h`
    obtain ⟨-, ⟨h', eh', ef⟩⟩ := C27_inverse H (by omega) (by omega)
    rw [e3] at eh'
    obtain rfl := Option.some.inj eh'
    obtain ⟨H', ef', -, gH⟩ := C27_fft h (by omega) (by omega)
    rw [ef] at ef'
    obtain rfl := Option.some.inj ef'
    have hk2 := gH k (by omega)
    rw [hH k hkp] at hk2
    unfold TFD at hk2
    rw [l3] at hk2
    have hwN : ∀ i : ℕ, Complex.exp (-(2 * Real.pi * Complex.I) * ((k : ℝ) / (2 * p + 1) : ℝ) * i) =
        Complex.exp (-1 * (2 * Real.pi * Complex.I) * ((i : ℂ) * k) / N) := by
      intro i
      congr 1
      rw [← hNr]
      push_cast
      ring
    unfold reponse
    rw [List.length_map, lc, hwN p]
    simp only [hwN]
    have hg : ∀ i, i ∈ range N → (((hc.map fun z => z.re / Real.sqrt N).getD i 0 : ℝ) : ℂ) = hc.getD i 0 / (Real.sqrt N : ℂ) := by
      intro i hi
      rw [Finset.mem_range] at hi
      rw [List.getD_eq_getElem _ _ (by rw [List.length_map, lc]; exact hi), List.getElem_map, ← List.getD_eq_getElem (d := (0 : ℂ)) _ (by omega),
        Complex.ofReal_div]
      congr 1
      have hz : (hc.getD i 0).im = 0 := by rw [List.getD_eq_getElem _ _ (by omega)]; exact him _ (List.getElem_mem _)
      exact Complex.ext (Complex.ofReal_re _) (by rw [Complex.ofReal_im, hz])
    rw [Finset.sum_congr rfl fun i hi => by rw [hg i hi]]
    have hs : ∑ i ∈ range N, hc.getD i 0 * Complex.exp (-1 * (2 * Real.pi * Complex.I) * ((i : ℂ) * k) / N) =
        (∑ j ∈ range N, h.getD j 0 * Complex.exp (-1 * (2 * Real.pi * Complex.I) * ((j : ℂ) * k) / N)) *
          Complex.exp (-1 * (2 * Real.pi * Complex.I) * ((p : ℂ) * k) / N) := by
      conv_lhs => rw [show N = p + (p + 1) by omega, Finset.sum_range_add, ← show N = p + (p + 1) by omega]
      conv_rhs => rw [show N = (p + 1) + p by omega, Finset.sum_range_add, ← show N = (p + 1) + p by omega]
      rw [add_mul, add_comm, Finset.sum_mul, Finset.sum_mul]
      congr 1
      · refine Finset.sum_congr rfl fun i hi => ?_
        rw [Finset.mem_range] at hi
        rw [gc _ (by omega), if_neg (by omega), Nat.add_sub_cancel_left, mul_assoc (h.getD i 0), ← Complex.exp_add]
        congr 2
        push_cast
        ring
      · refine Finset.sum_congr rfl fun i hi => ?_
        rw [Finset.mem_range] at hi
        rw [gc _ (by omega), if_pos hi, mul_assoc (h.getD _ 0), ← Complex.exp_add]
        congr 1
        rw [Complex.exp_eq_exp_iff_exists_int]
        refine ⟨k, ?_⟩
        have : (N : ℂ) = 2 * p + 1 := by rw [hN]; push_cast; ring
        have h2 : (2 * (p : ℂ) + 1) ≠ 0 := by rw [← this]; exact hN0
        rw [this]
        push_cast
        field_simp
        ring
    have hdiv : ∀ i, i ∈ range N → hc.getD i 0 / (Real.sqrt N : ℂ) * Complex.exp (-1 * (2 * Real.pi * Complex.I) * ((i : ℂ) * k) / N) =
        hc.getD i 0 * Complex.exp (-1 * (2 * Real.pi * Complex.I) * ((i : ℂ) * k) / N) / (Real.sqrt N : ℂ) := fun i _ => by ring
    rw [Finset.sum_congr rfl hdiv, ← Finset.sum_div, hs, hk2]
    ring

/-- **C81 (sampling points).**  A template of `m ≥ 2` points (`n = 0` or `n = 2m - 1` requested): the filter has `2m - 1` real symmetric
coefficients and its response at each frequency `k / (2m-1)` is exactly the template, but for the delay of `m - 1` samples.  The frequencies are
those of `design_rif_freq_freqs`. -/
theorem C81_points (Nc : ℕ) (f : List ℝ) (hf : 2 ≤ f.length) (hN : Nc = 0 ∨ Nc = 2 * f.length - 1) (h29 : 2 * f.length - 1 ≤ 2 ^ 29) :
    ∃ h, designRifFreq Nc f = some h ∧ h.length = 2 * f.length - 1 ∧ (∀ i, i < h.length → h.getD (h.length - 1 - i) 0 = h.getD i 0) ∧
      ∀ k, k < f.length → (rifFreqFreqs (2 * f.length - 1)).getD k 0 = (k : ℝ) / (2 * f.length - 1) ∧
        reponse h ((k : ℝ) / (2 * f.length - 1)) = f.getD k 0 *
          Complex.exp (-(2 * Real.pi * Complex.I) * ((k : ℝ) / (2 * f.length - 1) : ℝ) * (f.length - 1 : ℕ)) := by
  obtain ⟨p, hp⟩ : ∃ p, f.length = p + 1 := ⟨f.length - 1, by omega⟩
  have hp1 : 1 ≤ p := by omega
  obtain ⟨h, e, l, g, r⟩ := rifFreqCoefs_some p hp1 f hp (by omega)
  have hg : rifFreqGabarit Nc f = some (2 * (f.length : ℤ) - 1, f) := by
    unfold rifFreqGabarit
    have : (if Nc = 0 then 2 * (f.length : ℤ) - 1 else (Nc : ℤ)) = 2 * (f.length : ℤ) - 1 := by split <;> omega
    simp only [this]
    simp
  have hr : (2 * (f.length : ℝ) - 1) = 2 * p + 1 := by rw [hp]; push_cast; ring
  refine ⟨h, ?_, by omega, fun i hi => ?_, fun k hk => ⟨?_, ?_⟩⟩
  · simp only [designRifFreq, hg, Option.bind_some, if_true]
    rw [show (2 * (f.length : ℤ) - 1).toNat = 2 * p + 1 by omega, e]
  · rw [l] at hi ⊢
    rw [g i hi, g _ (by omega)]
    congr 3
    refine Finset.sum_congr rfl fun j _ => ?_
    congr 1
    rw [← Real.cos_neg]
    congr 1
    rw [show 2 * p + 1 - 1 - i = 2 * p - i by omega, Nat.cast_sub (by omega)]
    push_cast
    ring
  · unfold rifFreqFreqs
    rw [show (2 * f.length - 1 + 1) / 2 = f.length by omega]
    obtain ⟨-, h2, -⟩ := Util.C33_linspace (0 : ℝ) (((f.length : ℝ) - 1) / (2 * f.length - 1)) f.length
    rw [List.getD_eq_getElem?_getD, h2 k hk, Option.getD_some]
    have h1 : (f.length : ℝ) - 1 ≠ 0 := by rw [hp]; push_cast; simp; omega
    field_simp
    ring
  · rw [hr, r k (by omega), show f.length - 1 = p by omega]

example : 2 ≤ ([1, 1, 0] : List ℝ).length ∧ (5 = 0 ∨ 5 = 2 * ([1, 1, 0] : List ℝ).length - 1) := by simp

theorem forall2_getD {R : ℝ → ℝ → Prop} {a b : List ℝ} (h : List.Forall₂ R a b) (k : ℕ) (hk : k < a.length) : R (a.getD k 0) (b.getD k 0) := by
  induction h generalizing k with
  | nil => simp at hk
  | cons hr _ ih =>
    cases k with
    | zero => simpa using hr
    | succ k => simpa using ih k (by simpa using hk)

theorem grille (M : ℕ) (hM : 2 ≤ M) (k : ℕ) (hk : k < M) : (Util.linspace 0 (0.5 * (1 - 1 / (M : ℝ))) M).getD k 0 = (k : ℝ) / (2 * M) := by
  obtain ⟨-, h2, -⟩ := Util.C33_linspace (0 : ℝ) (0.5 * (1 - 1 / (M : ℝ))) M
  rw [List.getD_eq_getElem?_getD, h2 k hk, Option.getD_some]
  have h1 : (M : ℝ) - 1 ≠ 0 := by
    have : (2 : ℝ) ≤ M := by exact_mod_cast hM
    linarith
  have h0 : (M : ℝ) ≠ 0 := by exact_mod_cast (by omega : M ≠ 0)
  field_simp
  ring

/-- **C81 (other numbers of coefficients).**  When the number `n ≥ 3` of coefficients asked for is not `2m - 1`, the filter has `n` coefficients
(`n + 1` when `n` is even), symmetric, and its response at `k / n` is (but for the delay) the linear interpolation at the abscissa `k / (2m')`,
`m' = (n+1)/2`, of the template points placed at the abscissas `j / (2m)`. -/
theorem C81_interpole (Nc : ℕ) (f : List ℝ) (hf : 2 ≤ f.length) (hN : 3 ≤ Nc) (hne : Nc ≠ 2 * f.length - 1) (h29 : Nc + 1 ≤ 2 ^ 29) :
    ∃ h xs, ∃ p : ℕ, designRifFreq Nc f = some h ∧ h.length = 2 * p + 1 ∧ h.length = (if Nc % 2 = 0 then Nc + 1 else Nc) ∧
      (∀ i, i < h.length → h.getD (h.length - 1 - i) 0 = h.getD i 0) ∧
      xs.length = f.length ∧ (∀ j, j < f.length → xs.getD j 0 = (j : ℝ) / (2 * f.length)) ∧
      ∀ k, k ≤ p → ∃ v, Itrp.Interpole xs f (Itrp.droite xs f) ((k : ℝ) / (2 * (p + 1))) v ∧
        reponse h ((k : ℝ) / (2 * p + 1)) = v * Complex.exp (-(2 * Real.pi * Complex.I) * ((k : ℝ) / (2 * p + 1) : ℝ) * p) := by
  obtain ⟨p, hp⟩ : ∃ p, (if Nc % 2 = 0 then Nc + 1 else Nc) = 2 * p + 1 := ⟨(if Nc % 2 = 0 then Nc + 1 else Nc) / 2, by split <;> omega⟩
  have hp1 : 1 ≤ p := by split at hp <;> omega
  obtain ⟨lx, -, -⟩ := Util.C33_linspace (0 : ℝ) (0.5 * (1 - 1 / (f.length : ℝ))) f.length
  obtain ⟨lx2, -, -⟩ := Util.C33_linspace (0 : ℝ) (0.5 * (1 - 1 / ((p + 1 : ℕ) : ℝ))) (p + 1)
  have hs : (Util.linspace (0 : ℝ) (0.5 * (1 - 1 / ((p + 1 : ℕ) : ℝ))) (p + 1)).Pairwise (· ≤ ·) := by
    rw [List.pairwise_iff_getElem]
    intro i j hi hj hij
    rw [← List.getD_eq_getElem (d := (0 : ℝ)) _ hi, ← List.getD_eq_getElem (d := (0 : ℝ)) _ hj, grille (p + 1) (by omega) i (by omega),
      grille (p + 1) (by omega) j (by omega)]
    have : (i : ℝ) ≤ j := by exact_mod_cast hij.le
    gcongr
  obtain ⟨F, eF, hF⟩ := Itrp.C56_lineaire (Util.linspace (0 : ℝ) (0.5 * (1 - 1 / (f.length : ℝ))) f.length) f
    (Util.linspace (0 : ℝ) (0.5 * (1 - 1 / ((p + 1 : ℕ) : ℝ))) (p + 1)) lx (by omega) hs
  have lF : F.length = p + 1 := by rw [← hF.length_eq, lx2]
  obtain ⟨h, e, l, g, r⟩ := rifFreqCoefs_some p hp1 F lF (by split at hp <;> omega)
  have hg : rifFreqGabarit Nc f = some (((2 * p + 1 : ℕ) : ℤ), F) := by
    unfold rifFreqGabarit
    have h1 : (if Nc = 0 then 2 * (f.length : ℤ) - 1 else (Nc : ℤ)) = (Nc : ℤ) := by rw [if_neg (by omega)]
    simp only [h1]
    rw [if_pos (by omega)]
    have h2 : (if (Nc : ℤ) % 2 = 0 then (Nc : ℤ) + 1 else Nc) = ((2 * p + 1 : ℕ) : ℤ) := by rw [← hp]; split <;> split <;> omega
    rw [h2, show ((((2 * p + 1 : ℕ) : ℤ) + 1) / 2).toNat = p + 1 by omega, eF]
    rfl
  refine ⟨h, _, p, ?_, l, by omega, fun i hi => ?_, lx, fun j hj => grille f.length hf j hj, fun k hk => ⟨F.getD k 0, ?_, r k hk⟩⟩
  · simp only [designRifFreq, hg, Option.bind_some]
    rw [if_pos (by rw [lF]; push_cast; ring), Int.toNat_natCast, e]
  · rw [l] at hi ⊢
    rw [g i hi, g _ (by omega)]
    congr 3
    refine Finset.sum_congr rfl fun j _ => ?_
    congr 1
    rw [← Real.cos_neg]
    congr 1
    rw [show 2 * p + 1 - 1 - i = 2 * p - i by omega, Nat.cast_sub (by omega)]
    push_cast
    ring
  · have := forall2_getD hF k (by rw [lx2]; omega)
    rw [grille (p + 1) (by omega) k (by omega)] at this
    push_cast at this
    exact this

/-- **C81 (interpolated template, refuted).**  The template points are those of the frequencies `j / (2m-1)`; but they are resampled as if they
were at `j / (2m)`: with the template `(1, 0)` — frequencies 0 and 1/3 — and 5 coefficients, the response at 1/5 has modulus 1/3, whereas the linear
interpolation of the template at this frequency is 2/5. -/
theorem C81_interpole_refute : ∃ h, designRifFreq 5 [1, 0] = some h ∧ h.length = 5 ∧ ‖reponse h (1 / 5)‖ = 1 / 3 ∧
    Itrp.droite [(0 : ℝ), 1 / 3] [1, 0] 0 (1 / 5) = 2 / 5 := by
  obtain ⟨h, xs, p, e, l, l2, -, lx, gx, r⟩ := C81_interpole 5 [1, 0] (by simp) (by norm_num) (by simp) (by norm_num)
  have hp : p = 2 := by rw [l] at l2; norm_num at l2; omega
  subst hp
  refine ⟨h, e, l, ?_, by simp [Itrp.droite]; norm_num⟩
  obtain ⟨v, hv, hr⟩ := r 1 (by norm_num)
  have hr2 : ‖reponse h (1 / 5)‖ = |v| := by
    rw [show (1 / 5 : ℝ) = ((1 : ℕ) : ℝ) / (2 * ((2 : ℕ) : ℝ) + 1) by norm_num, hr, norm_mul]
    have h1 : ‖Complex.exp (-(2 * Real.pi * Complex.I) * (((1 : ℕ) : ℝ) / (2 * ((2 : ℕ) : ℝ) + 1) : ℝ) * (2 : ℕ))‖ = 1 := by
      rw [show -(2 * Real.pi * Complex.I) * (((1 : ℕ) : ℝ) / (2 * ((2 : ℕ) : ℝ) + 1) : ℝ) * (2 : ℕ) =
        ((-(2 * Real.pi * (1 / (2 * 2 + 1)) * 2) : ℝ) : ℂ) * Complex.I by push_cast; ring, Complex.norm_exp_ofReal_mul_I]
    rw [h1, mul_one, Complex.norm_real, Real.norm_eq_abs]
  have hx0 : xs.getD 0 0 = 0 := by rw [gx 0 (by simp)]; simp
  have hx1 : xs.getD 1 0 = 1 / 4 := by rw [gx 1 (by simp)]; norm_num
  have lxs : xs.length = 2 := lx
  have hv3 : v = 1 / 3 := by
    unfold Itrp.Interpole at hv
    rw [lxs, hx0, show 2 - 1 = 1 from rfl, hx1] at hv
    rcases hv with ⟨h, -⟩ | ⟨-, h, -⟩ | ⟨-, -, k, hk, -, -, hv⟩
    · norm_num at h
    · norm_num at h
    · have : k = 0 := by omega
      subst this
      rw [hv]
      unfold Itrp.droite
      rw [hx0, hx1]
      norm_num
  rw [hr2, hv3]
  norm_num

/-- **C81 (one point, refuted).**  A template of one point (a filter of one coefficient, `2·1 - 1`) is rejected. -/
theorem C81_un_point_refute (v : ℝ) : designRifFreq 0 [v] = none ∧ designRifFreq 1 [v] = none := by
  have h : rifFreqCoefs 1 [v] = none := by
    have e : csymForcage trigoC reC [(v : ℂ)] = none := C49_csym_un_refute _
    simp [rifFreqCoefs, ecrit, enC, e]
  constructor <;> simp [designRifFreq, rifFreqGabarit, h]

end Verif.Conception
