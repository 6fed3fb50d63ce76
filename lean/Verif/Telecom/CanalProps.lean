import Verif.Telecom.Canal
import Mathlib.Analysis.SpecialFunctions.Trigonometric.InverseDeriv
import Mathlib.MeasureTheory.Integral.IntervalIntegral.FundThmCalculus

/-!
# C121–C126: base-band transposition, channel simulators, spread spectrum, channel formulas
-/

namespace Verif.Telecom

open Complex

/-! ### C121: base-band transposition -/

/-- Specification: the signal multiplied by `exp(-2πi f t)`. -/
noncomputable def transpose (f : ℝ) (x : List ℂ) : List ℂ := List.zipWith (· * ·) x (porteuse (-f) 0 x.length)

theorem transpose_long (f : ℝ) (x : List ℂ) : (transpose f x).length = x.length := by simp [transpose, porteuse_longueur]

theorem transpose_get (f : ℝ) (x : List ℂ) (t : ℕ) (ht : t < x.length) : (transpose f x).getD t 0 = x.getD t 0 * exp (-(2 * Real.pi * (t * f) : ℝ) * I) := by
  have e : (transpose f x)[t]? = some (x[t] * exp (-(2 * Real.pi * (t * f) : ℝ) * I)) := by
    unfold transpose
    rw [List.getElem?_zipWith, porteuse_re _ _ _ ht, List.getElem?_eq_getElem ht]
    simp only [Option.some.injEq]
    congr 2
    push_cast
    ring
  rw [List.getD_eq_getElem?_getD, e, Option.getD_some, List.getD_eq_getElem?_getD, List.getElem?_eq_getElem ht, Option.getD_some]

theorem transpo_complexe (f : ℝ) (blocs : List (List ℂ)) (k : ℕ) : Filtre.enchaine TranspoBB.step ⟨ohcApres f k, none⟩ blocs = some (⟨ohcApres f (k + blocs.flatten.length), none⟩, List.zipWith (· * ·) blocs.flatten (porteuse f k blocs.flatten.length)) := by
  induction blocs generalizing k with
  | nil => simp [Filtre.enchaine]
  | cons b l ih =>
    simp only [Filtre.enchaine, TranspoBB.step, ohc_apres_step, ih]
    rw [List.flatten_cons, List.length_append, porteuse_append, List.zipWith_append (by rw [porteuse_longueur]), Nat.add_assoc]

/-- **C121 (complex input).**  However the input is cut into blocks, the output is the input multiplied by `exp(-2πi fi t)`, with no discontinuity between the blocks. -/
theorem C121_complexe (fi ratio : ℝ) (blocs : List (List ℂ)) : ∃ s0 s, TranspoBB.cree false fi ratio = some s0 ∧ Filtre.enchaine TranspoBB.step s0 blocs = some (s, transpose fi blocs.flatten) := by
  exact ⟨⟨Signaux.OHC.init.configure (-fi), none⟩, ⟨ohcApres (-fi) (0 + blocs.flatten.length), none⟩, rfl, by rw [ohc_apres_initial, transpo_complexe]; rfl⟩

/-- **C121 (tone).**  A tone of frequency `fi + ν` becomes the tone of frequency `ν`, amplitude and phase unchanged. -/
theorem C121_ton (fi ratio ν : ℝ) (A : ℂ) (N : ℕ) (blocs : List (List ℂ)) (hb : blocs.flatten = (List.range N).map fun t : ℕ => A * exp ((2 * Real.pi * (t * (fi + ν)) : ℝ) * I)) :
    ∃ s0 s, TranspoBB.cree false fi ratio = some s0 ∧ Filtre.enchaine TranspoBB.step s0 blocs = some (s, (List.range N).map fun t : ℕ => A * exp ((2 * Real.pi * (t * ν) : ℝ) * I)) := by
  obtain ⟨s0, s, h1, h2⟩ := C121_complexe fi ratio blocs
  refine ⟨s0, s, h1, ?_⟩
  rw [h2, hb]
  congr 2
  refine List.ext_getElem (by rw [transpose_long]; simp) fun t ht1 ht2 => ?_
  rw [← List.getD_eq_getElem _ 0 ht1, transpose_get _ _ _ (by rwa [transpose_long] at ht1)]
  simp only [List.length_map, List.length_range] at ht2
  rw [List.getD_eq_getElem _ 0 (by simpa using ht2)]
  simp only [List.getElem_map, List.getElem_range]
  rw [mul_assoc, ← Complex.exp_add]
  congr 2
  push_cast
  ring

theorem transpo_reel (f : ℝ) (blocs : List (List ℂ)) (k : ℕ) (r : Filtre.Rif ℂ ℂ) (r' : Filtre.Rif ℂ ℂ) (y : List ℂ) (h : Filtre.enchaine (Filtre.Rif.step (0 : ℂ) (· + ·) (· * ·)) r (melange f k blocs) = some (r', y)) :
    ∃ s, Filtre.enchaine TranspoBB.step ⟨ohcApres f k, some r⟩ blocs = some (s, y) := by
  induction blocs generalizing k r y with
  | nil =>
    simp only [melange, Filtre.enchaine, Option.some.injEq, Prod.mk.injEq] at h
    exact ⟨_, by rw [← h.2]; rfl⟩
  | cons b l ih =>
    rw [melange] at h
    simp only [Filtre.enchaine] at h
    cases e1 : Filtre.Rif.step (0 : ℂ) (· + ·) (· * ·) r (List.zipWith (· * ·) b (porteuse f k b.length)) with
    | none => rw [e1] at h; simp at h
    | some q =>
      obtain ⟨r1, y1⟩ := q
      rw [e1] at h
      simp only at h
      cases e2 : Filtre.enchaine (Filtre.Rif.step (0 : ℂ) (· + ·) (· * ·)) r1 (melange f (k + b.length) l) with
      | none => rw [e2] at h; simp at h
      | some q =>
        obtain ⟨r2, y2⟩ := q
        rw [e2] at h
        simp only [Option.some.injEq, Prod.mk.injEq] at h
        obtain ⟨s, hs⟩ := ih (k + b.length) r1 y2 (by rw [e2, h.1])
        refine ⟨s, ?_⟩
        simp only [Filtre.enchaine, TranspoBB.step, ohc_apres_step, e1, Option.map_some, hs, h.2]

/-- **C121 (real input).**  However the input is cut into blocks, the output is the convolution of the transposed input with the 63 coefficients of the image filter (a symmetric low-pass of cut-off frequency
`fi` when `fi < 1/4`, else `1/2 - fi`), one output sample per input sample. -/
theorem C121_reel (fi ratio : ℝ) : ∃ h, Conception.designRifFen 63 "lp" (if fi < 1 / 4 then fi else 1 / 2 - fi) "hn" 0 = some h ∧ h.length = 63 ∧ ∃ s0, TranspoBB.cree true fi ratio = some s0 ∧
    ∀ blocs : List (List ℂ), ∃ s y, Filtre.enchaine TranspoBB.step s0 blocs = some (s, y) ∧ y.length = blocs.flatten.length ∧
      ∀ t, t < blocs.flatten.length → y[t]? = some (Filtre.convolution (h.map fun v : ℝ => (v : ℂ)) (transpose fi blocs.flatten) t) := by
  obtain ⟨h, e, l, -⟩ := Conception.C80_phase_lineaire_nom 63 (by norm_num) "lp" (by simp [Conception.types]) (fcImage fi) 0 "hn" .hann (by decide) (by decide)
  refine ⟨h, e, l, ⟨Signaux.OHC.init.configure (-fi), some (Filtre.Rif.init 0 (h.map fun v : ℝ => (v : ℂ)))⟩, by rw [TranspoBB.cree, if_pos rfl, e]; rfl, fun blocs => ?_⟩
  obtain ⟨r, y, h1, h2, h3⟩ := Filtre.C19_convolution (h.map fun v : ℝ => (v : ℂ)) (by simp [l]) (melange (-fi) 0 blocs)
  rw [melange_flatten] at h2 h3
  have hl : y.length = blocs.flatten.length := by rw [h2, List.length_zipWith, porteuse_longueur, min_self]
  obtain ⟨s, hs⟩ := transpo_reel (-fi) blocs 0 _ r y h1
  rw [ohc_apres_initial]
  exact ⟨s, y, hs, hl, fun t ht => h3 t (by omega)⟩

/-- **C121 (real carrier).**  A real carrier `A cos(2π fi t + φ)` gives, once the filter is full (`t ≥ 62`), the constant `(A/2) e^{iφ} H(0)` plus the image at `-2 fi`, of amplitude `(A/2) |H(2 fi)|`, where `H` is
the response of the image filter. -/
theorem C121_porteuse (fi ratio A φ : ℝ) (N : ℕ) (blocs : List (List ℂ)) (hb : blocs.flatten = (List.range N).map fun t : ℕ => ((A * Real.cos (2 * Real.pi * (t * fi) + φ) : ℝ) : ℂ)) :
    ∃ h s0 s y, Conception.designRifFen 63 "lp" (if fi < 1 / 4 then fi else 1 / 2 - fi) "hn" 0 = some h ∧ TranspoBB.cree true fi ratio = some s0 ∧ Filtre.enchaine TranspoBB.step s0 blocs = some (s, y) ∧ y.length = N ∧
      ∀ t, 62 ≤ t → t < N → y.getD t 0 = A / 2 * exp (φ * I) * Conception.reponse h 0 + A / 2 * exp (-φ * I) * Conception.reponse h (-2 * fi) * exp ((2 * Real.pi * (t * (-2 * fi)) : ℝ) * I) := by
  obtain ⟨h, e, l, s0, h0, hs⟩ := C121_reel fi ratio
  obtain ⟨s, y, h1, h2, h3⟩ := hs blocs
  have hN : blocs.flatten.length = N := by rw [hb]; simp
  refine ⟨h, s0, s, y, e, h0, h1, by rw [h2, hN], fun t ht1 ht2 => ?_⟩
  rw [List.getD_eq_getElem?_getD, h3 t (by omega), Option.getD_some]
  unfold Filtre.convolution Conception.reponse
  rw [List.length_map, Finset.mul_sum, Finset.mul_sum, Finset.sum_mul, ← Finset.sum_add_distrib]
  refine Finset.sum_congr rfl fun k hk => ?_
  rw [Finset.mem_range, l] at hk
  unfold Filtre.passe
  rw [if_pos (by omega), transpose_get _ _ _ (by omega)]
  have e1 : (h.map fun v : ℝ => (v : ℂ)).getD k 0 = (h.getD k 0 : ℂ) := by
    rw [List.getD_eq_getElem _ _ (by simp; omega), List.getD_eq_getElem _ _ (by omega), List.getElem_map]
  have e2 : blocs.flatten.getD (t - k) 0 = ((A * Real.cos (2 * Real.pi * (((t - k : ℕ) : ℝ) * fi) + φ) : ℝ) : ℂ) := by
    rw [hb, List.getD_eq_getElem _ _ (by simp; omega), List.getElem_map, List.getElem_range]
  rw [e1, e2]
  have e3 : ((A * Real.cos (2 * Real.pi * (((t - k : ℕ) : ℝ) * fi) + φ) : ℝ) : ℂ) = A / 2 * (exp ((2 * Real.pi * (((t - k : ℕ) : ℝ) * fi) + φ : ℝ) * I) + exp (-(2 * Real.pi * (((t - k : ℕ) : ℝ) * fi) + φ : ℝ) * I)) := by
    push_cast [Complex.cos]
    ring
  rw [e3, Nat.cast_sub (by omega)]
  have e4 : ∀ a b c d : ℂ, A / 2 * (exp a + exp b) * exp c = A / 2 * exp (a + c) + A / 2 * exp (b + c) := by
    intro a b c d; rw [Complex.exp_add, Complex.exp_add]; ring
  rw [e4 _ _ _ 0, mul_add]
  have e5 : ((2 * Real.pi * (((t : ℝ) - k) * fi) + φ : ℝ) : ℂ) * I + -(2 * Real.pi * (((t : ℝ) - k) * fi) : ℝ) * I = φ * I := by push_cast; ring
  have e6 : -((2 * Real.pi * (((t : ℝ) - k) * fi) + φ : ℝ) : ℂ) * I + -(2 * Real.pi * (((t : ℝ) - k) * fi) : ℝ) * I = -φ * I + (-(2 * Real.pi * I) * ((-2 * fi : ℝ) : ℂ) * k + (2 * Real.pi * (t * (-2 * fi)) : ℝ) * I) := by push_cast; ring
  rw [e5, e6, Complex.exp_add, Complex.exp_add]
  simp only [Complex.ofReal_zero, mul_zero, zero_mul, Complex.exp_zero, mul_one]
  ring

/-- **C121 (refuted: rate adaptation).**  The requested rate adaptation is ignored: whatever the ratio, the object is the same, and the output of a complex stream has as many samples as the input. -/
theorem C121_ratio_refute (reel : Bool) (fi ratio : ℝ) : TranspoBB.cree reel fi ratio = TranspoBB.cree reel fi 1 ∧
    ∀ blocs : List (List ℂ), ∃ s0 s y, TranspoBB.cree false fi ratio = some s0 ∧ Filtre.enchaine TranspoBB.step s0 blocs = some (s, y) ∧ y.length = blocs.flatten.length := by
  refine ⟨rfl, fun blocs => ?_⟩
  obtain ⟨s0, s, h1, h2⟩ := C121_complexe fi ratio blocs
  exact ⟨s0, s, _, h1, h2, transpose_long _ _⟩

/-- Non-vacuity: a tone cut into two blocks. -/
example : ([[exp ((2 * Real.pi * ((0 : ℕ) * (1 / 4 + 0)) : ℝ) * I)], [exp ((2 * Real.pi * ((1 : ℕ) * (1 / 4 + 0)) : ℝ) * I)]] : List (List ℂ)).flatten = (List.range 2).map fun t : ℕ => 1 * exp ((2 * Real.pi * (t * (1 / 4 + 0)) : ℝ) * I) := by
  simp [List.range_succ]

/-! ### C122: channel simulator -/

/-- Successive calls of the channel simulator: the concatenated outputs. -/
noncomputable def ecpSuite (c : EcpConfig) (tire : ℕ) : Signaux.OHC → List (List (ℂ × ℝ × ℝ)) → Option (List ℂ)
  | _, [] => some []
  | ol, b :: l => (ecpStep c tire ol b).bind fun q : Signaux.OHC × List ℂ => (ecpSuite c tire q.1 l).map fun y : List ℂ => q.2 ++ y

theorem bruit_nul (σ : ℝ) (x : List ℂ) (g : List (ℝ × ℝ)) (hl : x.length = g.length) (hg : ∀ d ∈ g, d = (0, 0)) : bruitAwgn σ x g = x := by
  unfold bruitAwgn
  induction x generalizing g with
  | nil => simp
  | cons z x ih =>
    cases g with
    | nil => simp at hl
    | cons d g =>
      rw [List.zipWith_cons_cons, ih g (by simpa using hl) fun d hd => hg d (List.mem_cons_of_mem _ hd), hg d List.mem_cons_self]
      simp

/-- **C122 (offsets).**  With null draws and no delay, whatever the cut into blocks, the output is the input multiplied by `e^{i(φ + 2π (f/fe) t)}`: frequency and phase offsets are coherent between the blocks. -/
theorem C122_decalages (c : EcpConfig) (hd : c.delai = 0) (tire : ℕ) (blocs : List (List ℂ)) :
    ecpSuite c tire (ecpCree c) (blocs.map fun b : List ℂ => b.map fun z : ℂ => (z, 0, 0)) = some ((List.zipWith (· * ·) blocs.flatten (porteuse (c.freq / c.fe) 0 blocs.flatten.length)).map fun z : ℂ => z * exp (c.phase * I)) := by
  have main : ∀ k, ecpSuite c tire (ohcApres (c.freq / c.fe) k) (blocs.map fun b : List ℂ => b.map fun z : ℂ => (z, 0, 0)) = some ((List.zipWith (· * ·) blocs.flatten (porteuse (c.freq / c.fe) k blocs.flatten.length)).map fun z : ℂ => z * exp (c.phase * I)) := by
    induction blocs with
    | nil => intro k; simp [ecpSuite]
    | cons b l ih =>
      intro k
      have e : (b.map fun z : ℂ => ((z, 0, 0) : ℂ × ℝ × ℝ)).map (fun t : ℂ × ℝ × ℝ => t.1) = b := by rw [List.map_map]; exact List.map_id b
      have hst : ecpStep c tire (ohcApres (c.freq / c.fe) k) (b.map fun z : ℂ => (z, 0, 0)) = some (ohcApres (c.freq / c.fe) (k + b.length), (List.zipWith (· * ·) b (porteuse (c.freq / c.fe) k b.length)).map fun z : ℂ => z * exp (c.phase * I)) := by
        unfold ecpStep
        rw [hd]
        simp only [e, List.length_map, ohc_apres_step, lt_self_iff_false, if_false, Int.toNat_zero, not_lt_zero, List.drop_zero]
        rw [bruit_nul _ _ _ (by simp [porteuse_longueur]) (by intro d hd; simp only [List.map_map, List.mem_map, Function.comp] at hd; obtain ⟨z, -, rfl⟩ := hd; rfl)]
      simp only [List.map_cons, ecpSuite, hst, Option.bind_some, ih, Option.map_some]
      rw [List.flatten_cons, List.length_append, porteuse_append, List.zipWith_append (by rw [porteuse_longueur]), List.map_append]
  rw [ecpCree, ohc_apres_initial]
  exact main 0

/-- **C122 (module).**  With null draws and no delay, the modulus of every sample is unchanged. -/
theorem C122_module (c : EcpConfig) (hd : c.delai = 0) (tire : ℕ) (blocs : List (List ℂ)) :
    ∃ y, ecpSuite c tire (ecpCree c) (blocs.map fun b : List ℂ => b.map fun z : ℂ => (z, 0, 0)) = some y ∧ y.map (fun z : ℂ => ‖z‖) = blocs.flatten.map fun z : ℂ => ‖z‖ := by
  refine ⟨_, C122_decalages c hd tire blocs, ?_⟩
  refine List.ext_getElem (by rw [List.length_map, List.length_map, List.length_zipWith, porteuse_longueur, min_self, List.length_map]) fun t h1 h2 => ?_
  simp only [porteuse, List.getElem_map, List.getElem_zipWith, List.getElem_range, norm_mul]
  rw [Complex.norm_exp_ofReal_mul_I, Complex.norm_exp_ofReal_mul_I, mul_one, mul_one]

/-- **C122 (signal to noise ratio).**  With positive rates, the standard deviation `σ` per component given to the noise of a block of mean power `P` is such that the energy per bit (`P / fbit`) over the noise density (`2 σ² / fe`)
is `10^{(Eb/N0)/10}`. -/
theorem C122_rapport (c : EcpConfig) (hfe : 0 < c.fe) (hfb : 0 < c.fbit) (x : List ℂ) (P : ℝ) (hP : P = (x.map fun z : ℂ => ‖z‖ ^ 2).sum / x.length) (hP0 : 0 < P) :
    (P / c.fbit) / (2 * sigmaEcp c (niveau x) ^ 2 / c.fe) = (10 : ℝ) ^ (c.ebN0 / 10) := by
  have hr : (0 : ℝ) < (10 : ℝ) ^ (c.ebN0 / 10) := Real.rpow_pos_of_pos (by norm_num) _
  unfold sigmaEcp niveau
  rw [← hP, mul_pow, Real.sq_sqrt hP0.le, Real.sq_sqrt (by positivity)]
  generalize (10 : ℝ) ^ (c.ebN0 / 10) = ρ at *
  field_simp
  norm_num

/-- **C122 (noise).**  Without delay, whatever the state of the object, the output of a block is the output that null draws would give plus, on sample `t`, `σ (g_t + i h_t)` where `g_t` and `h_t` are the two draws of that sample and `σ`
the standard deviation of `C122_rapport`. -/
theorem C122_bruit (c : EcpConfig) (hd : c.delai = 0) (tire : ℕ) (ol : Signaux.OHC) (x : List (ℂ × ℝ × ℝ)) :
    ∃ ol' y0 y, ecpStep c tire ol (x.map fun t : ℂ × ℝ × ℝ => (t.1, 0, 0)) = some (ol', y0) ∧ ecpStep c tire ol x = some (ol', y) ∧
      y = List.zipWith (fun (z : ℂ) (t : ℂ × ℝ × ℝ) => z + (sigmaEcp c (niveau (x.map fun t : ℂ × ℝ × ℝ => t.1)) : ℂ) * ((t.2.1 : ℂ) + I * (t.2.2 : ℂ))) y0 x := by
  have e : (x.map fun t : ℂ × ℝ × ℝ => ((t.1, 0, 0) : ℂ × ℝ × ℝ)).map (fun t : ℂ × ℝ × ℝ => t.1) = x.map fun t : ℂ × ℝ × ℝ => t.1 := by rw [List.map_map]; rfl
  have e2 : (x.map fun t : ℂ × ℝ × ℝ => ((t.1, 0, 0) : ℂ × ℝ × ℝ)).map (fun t : ℂ × ℝ × ℝ => t.2) = x.map fun _ : ℂ × ℝ × ℝ => ((0, 0) : ℝ × ℝ) := by rw [List.map_map]; rfl
  have ho : ∀ (r a : ℂ) (n : ℕ), (Signaux.OHC.boucle r n a).2.length = n := by
    intro r a n
    induction n generalizing a with
    | zero => rfl
    | succ n ih => simp only [Signaux.OHC.boucle, List.length_cons, ih]
  have hos : (ol.step x.length).2.length = x.length := ho _ _ _
  unfold ecpStep
  simp only [hd, e, e2, List.length_map, lt_self_iff_false, if_false, Int.toNat_zero, not_lt_zero, List.drop_zero]
  refine ⟨_, _, _, rfl, rfl, ?_⟩
  have hn := bruit_nul (sigmaEcp c (niveau (x.map fun t : ℂ × ℝ × ℝ => t.1))) ((List.zipWith (· * ·) (x.map fun t : ℂ × ℝ × ℝ => t.1) (ol.step x.length).2).map fun z : ℂ => z * exp (c.phase * I)) (x.map fun _ : ℂ × ℝ × ℝ => ((0, 0) : ℝ × ℝ))
    (by simp [hos]) (by intro d hd; rw [List.mem_map] at hd; obtain ⟨z, -, rfl⟩ := hd; rfl)
  rw [hn]
  unfold bruitAwgn
  rw [List.zipWith_map_right]
  congr 1
  funext z t
  apply Complex.ext <;> simp

/-- **C122 (refuted: the result does not depend on the cut into blocks).**  The noise level follows the power of each block: with the same samples and the same draws, the output of the signal (1, 0) sent in one block has a
noise on its second sample, and none when sent in two blocks. -/
theorem C122_decoupe_refute : ∃ c : EcpConfig, c.delai = 0 ∧ 0 < c.fe ∧ 0 < c.fbit ∧ ∃ y y', ecpSuite c 0 (ecpCree c) [[(1, 1, 0), (0, 1, 0)]] = some y ∧ ecpSuite c 0 (ecpCree c) [[(1, 1, 0)], [(0, 1, 0)]] = some y' ∧
    y.getD 1 0 ≠ 0 ∧ y'.getD 1 0 = 0 := by
  refine ⟨⟨0, 0, 0, 0, 1, 1, 1⟩, rfl, one_pos, one_pos, ?_⟩
  have ho : ecpCree ⟨0, 0, 0, 0, 1, 1, 1⟩ = ohcApres 0 0 := by rw [ecpCree, ← ohc_apres_initial]; norm_num
  rw [ho]
  refine ⟨bruitAwgn (sigmaEcp ⟨0, 0, 0, 0, 1, 1, 1⟩ (niveau [1, 0])) [1, 0] [(1, 0), (1, 0)],
    bruitAwgn (sigmaEcp ⟨0, 0, 0, 0, 1, 1, 1⟩ (niveau [1])) [1] [(1, 0)] ++ bruitAwgn (sigmaEcp ⟨0, 0, 0, 0, 1, 1, 1⟩ (niveau [0])) [0] [(1, 0)], ?_, ?_, ?_, ?_⟩
  · simp [ecpSuite, ecpStep, ohc_apres_step, porteuse, List.range_succ]
  · simp [ecpSuite, ecpStep, ohc_apres_step, porteuse, List.range_succ]
  · have hn : 0 < niveau [1, 0] := by unfold niveau; apply Real.sqrt_pos.2; simp
    have hs : 0 < sigmaEcp ⟨0, 0, 0, 0, 1, 1, 1⟩ (niveau [1, 0]) := by unfold sigmaEcp; exact mul_pos hn (Real.sqrt_pos.2 (by norm_num))
    simp only [bruitAwgn, List.zipWith_cons_cons, List.zipWith_nil_left, List.getD_cons_succ, List.getD_cons_zero]
    intro h
    have := congrArg Complex.re h
    simp at this
    exact hs.ne' this
  · have hn : niveau [0] = 0 := by unfold niveau; simp
    simp only [bruitAwgn, List.zipWith_cons_cons, List.zipWith_nil_left, List.cons_append, List.nil_append, List.getD_cons_succ, List.getD_cons_zero, hn, sigmaEcp]
    simp [Complex.ext_iff]

/-- **C122 (refuted: the delay shifts the stream).**  With a delay of `d > 0` samples, the first `d` samples of every block are lost: a stream of any length cut into blocks of `d` samples gives no output at all, and a block of fewer
than `d` samples fails. -/
theorem C122_delai_refute (c : EcpConfig) (d : ℕ) (h0 : 0 < d) (hd : c.delai = d) (tire : ℕ) (ol : Signaux.OHC) (blocs : List (List (ℂ × ℝ × ℝ))) :
    ((∀ b ∈ blocs, b.length = d) → ecpSuite c tire ol blocs = some []) ∧ ∀ b : List (ℂ × ℝ × ℝ), b.length < d → ecpStep c tire ol b = none := by
  have hdd : (if c.delai < 0 then tire else c.delai.toNat) = d := by rw [hd, if_neg (by omega)]; simp
  refine ⟨fun hb => ?_, fun b hb => ?_⟩
  · induction blocs generalizing ol with
    | nil => rfl
    | cons b l ih =>
      have hl : b.length = d := hb b List.mem_cons_self
      have hst : ecpStep c tire ol b = some ((ol.step b.length).1, []) := by
        unfold ecpStep
        simp only [hdd]
        rw [if_neg (by omega)]
        congr 2
        rw [List.drop_eq_nil_iff]
        simp only [bruitAwgn, List.length_zipWith, List.length_map]
        omega
      simp only [ecpSuite, hst, Option.bind_some, ih _ fun b hb' => hb b (List.mem_cons_of_mem _ hb'), Option.map_some, List.append_nil]
  · unfold ecpStep
    simp only [hdd]
    rw [if_pos hb]

end Verif.Telecom
