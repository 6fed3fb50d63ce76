/-
C161: subspace spectrum (MUSIC); automatic number of sources. C162: directions of arrival.
-/
import Verif.Stats.SousEspaceProps
import Verif.Fourier.FreqProps
import Mathlib.Analysis.Matrix.Spectrum
import Mathlib.Data.Fin.Tuple.Sort

namespace Verif.Stats
open Matrix
open scoped ComplexOrder

variable {m n : ℕ}

theorem mapM_tous {A B : Type} (g : A → Option B) (h : A → B) (l : List A) (hg : ∀ a ∈ l, g a = some (h a)) : l.mapM g = some (l.map h) := by
  induction l with
  | nil => rfl
  | cons a l ih =>
    rw [List.mapM_cons, hg a (by simp), ih fun b hb => hg b (by simp [hb])]
    rfl

theorem sousEspace_val (e : Propres m) (Ns : ℕ) (hNs : Ns < m) (Nf : ℕ) (bal : ℕ → ℕ → Option (ℝ × (Fin m → ℂ))) (q : ℕ → ℝ) (v : ℕ → Fin m → ℂ)
    (hb : ∀ i, i < Nf → bal i Nf = some (q i, v i)) : sousEspace e Ns Nf bal = some ((List.range Nf).map fun i => (q i, niveau (partBruit e Ns (v i))), Ns) := by
  unfold sousEspace
  simp only
  rw [if_neg (show ¬ (Ns : ℤ) = -1 by omega), if_neg (by omega), Int.toNat_natCast, mapM_tous _ (fun i : ℕ => (q i, niveau (partBruit e Ns (v i))))]
  · rfl
  · intro i hi
    rw [hb i (List.mem_range.1 hi)]
    rfl

/-- The solver has a result to return for every Hermitian matrix. -/
theorem propres_existe (R : Matrix (Fin m) (Fin m) ℂ) (hR : R.IsHermitian) : ∃ e : Propres m, EstPropres R e := by
  have hmono := Tuple.monotone_sort hR.eigenvalues
  generalize Tuple.sort hR.eigenvalues = σ at hmono
  refine ⟨⟨hR.eigenvalues ∘ σ, fun j => (hR.eigenvectorBasis (σ j)).ofLp⟩, hmono, fun j k => ?_, fun j => ?_⟩
  · have h := (orthonormal_iff_ite.1 hR.eigenvectorBasis.orthonormal) (σ j) (σ k)
    rw [EuclideanSpace.inner_eq_star_dotProduct, dotProduct_comm] at h
    rw [h]
    by_cases hjk : j = k
    · rw [if_pos hjk, if_pos (by rw [hjk])]
    · rw [if_neg hjk, if_neg (fun h => hjk (σ.injective h))]
  · have := hR.mulVec_eigenvectorBasis (σ j)
    exact this

/-- **C161 (spectrum).** For a covariance matrix of `n < m` sources (independent received vectors, positive powers) in a white noise, the level returned for each test vector is the inverse, in decibels, of the
squared distance of this vector to the space of the vectors received from the sources; whatever the choice of the eigenvectors. -/
theorem C161_spectre {A : Matrix (Fin m) (Fin n) ℂ} (hA : ∀ w, A *ᵥ w = 0 → w = 0) (hn : n < m) {p : Fin n → ℝ} (hp : ∀ s, 0 < p s) {σ2 : ℝ} {e : Propres m}
    (he : EstPropres (covSources A p σ2) e) (Nf : ℕ) (bal : ℕ → ℕ → Option (ℝ × (Fin m → ℂ))) (q : ℕ → ℝ) (v : ℕ → Fin m → ℂ) (hb : ∀ i, i < Nf → bal i Nf = some (q i, v i)) :
    ∃ l, sousEspace e n Nf bal = some (l, n) ∧ l.length = Nf ∧ ∀ i, i < Nf → ∃ S, IsLeast {x | ∃ w, x = norme2 (v i - A *ᵥ w)} S ∧ l[i]? = some (q i, niveau S) := by
  refine ⟨_, sousEspace_val e n hn Nf bal q v hb, by simp, fun i hi => ⟨partBruit e n (v i), ⟨?_, ?_⟩, ?_⟩⟩
  · obtain ⟨w, hw⟩ := (C161_distance hA hp he (v i)).2
    exact ⟨w, hw⟩
  · rintro x ⟨w, rfl⟩
    exact (C161_distance hA hp he (v i)).1 w
  · rw [List.getElem?_map, List.getElem?_range hi]
    rfl

theorem niveau_top (S : ℝ) : niveau S = ⊤ ↔ S = 0 := by
  unfold niveau
  split
  · simp_all
  · rename_i h
    exact ⟨fun hc => absurd hc (EReal.coe_ne_top _), fun hc => absurd hc h⟩

/-- **C161 (frequencies).** For `n < m` complex exponentials of distinct frequencies modulo 1 (and of any positive powers) in a white noise, the spectrum over the default sweep is infinite exactly at the
points of the grid that are, modulo 1, one of the frequencies. -/
theorem C161_frequences (f : Fin n → ℝ) (hf : ∀ s t, s ≠ t → ∀ z : ℤ, f s ≠ f t + z) (hn : n < m) {p : Fin n → ℝ} (hp : ∀ s, 0 < p s) {σ2 : ℝ} {e : Propres m}
    (he : EstPropres (covSources (matExpo f m) p σ2) e) (Nf : ℕ) : ∃ l, sousEspace e n Nf (balayageDefaut m) = some (l, n) ∧ l.length = Nf ∧
      ∀ i, i < Nf → ∃ S, l[i]? = some ((i : ℝ) / Nf - 1 / 2, S) ∧ (S = ⊤ ↔ ∃ s, ∃ z : ℤ, (i : ℝ) / Nf - 1 / 2 = f s + z) := by
  refine ⟨_, sousEspace_val e n hn Nf _ (fun i => (i : ℝ) / Nf - 0.5) (fun i => expo ((i : ℝ) / Nf - 0.5) m) (fun i _ => ?_), by simp, fun i hi => ?_⟩
  · unfold balayageDefaut
    simp only
    rw [exponentielle_eq]
    rfl
  · refine ⟨niveau (partBruit e n (expo ((i : ℝ) / Nf - 0.5) m)), ?_, ?_⟩
    · rw [List.getElem?_map, List.getElem?_range hi, Option.map_some]
      norm_num
    · rw [niveau_top, partBruit_nul (expo_independantes f hf hn.le) hp he, expo_image f hn]
      norm_num

/-- **C161 (no source).** With the default number of sources, 0, the spectrum is flat over the default sweep. -/
theorem C161_sans_source (R : Matrix (Fin m) (Fin m) ℂ) (e : Propres m) (he : EstPropres R e) (hm : 0 < m) (Nf : ℕ) : ∃ l, sousEspace e 0 Nf (balayageDefaut m) = some (l, 0) ∧
    l.length = Nf ∧ ∀ x ∈ l, x.2 = ((-(10 * Real.logb 10 m) : ℝ) : EReal) := by
  have h := sousEspace_val e 0 hm Nf (balayageDefaut m) (fun i => (i : ℝ) / Nf - 0.5) (fun i => expo ((i : ℝ) / Nf - 0.5) m) (fun i _ => by
    unfold balayageDefaut
    simp only
    rw [exponentielle_eq]
    rfl)
  refine ⟨_, h, by simp, fun x hx => ?_⟩
  obtain ⟨i, -, rfl⟩ := List.mem_map.1 hx
  have hS : partBruit e 0 (expo ((i : ℝ) / Nf - 0.5) m) = m := by
    have h1 : partBruit e 0 (expo ((i : ℝ) / Nf - 0.5) m) = ∑ j, ‖star (expo ((i : ℝ) / Nf - 0.5) m) ⬝ᵥ e.vec j‖ ^ 2 := by
      unfold partBruit
      apply Finset.sum_congr rfl
      intro j _
      rw [if_pos (by omega)]
    rw [h1, ← parseval he]
    unfold norme2 expo
    simp only [norm_pow, Complex.norm_exp_ofReal_mul_I, one_pow, Finset.sum_const, Finset.card_univ, Fintype.card_fin, nsmul_eq_mul, mul_one]
  simp only [hS]
  unfold niveau
  rw [if_neg (by exact_mod_cast hm.ne'), one_div, Real.logb_inv]
  norm_num

/-! ## Automatic number of sources -/

theorem valeur_bruit {A : Matrix (Fin m) (Fin n) ℂ} (hA : ∀ w, A *ᵥ w = 0 → w = 0) {p : Fin n → ℝ} (hp : ∀ s, 0 < p s) {σ2 : ℝ} {e : Propres m}
    (he : EstPropres (covSources A p σ2) e) (j : Fin m) (hj : j.val < m - n) : e.val j = σ2 := by
  have h := exces he j
  rw [(bruit_ou_signal hA hp he j).1 hj] at h
  simp only [Pi.zero_apply, norm_zero] at h
  have h0 : ∑ s, p s * (0 : ℝ) ^ 2 = 0 := Finset.sum_eq_zero fun s _ => by ring
  rw [h0] at h
  linarith

/-- One source, three antennas: the two criteria. -/
theorem critere_trois {A : Matrix (Fin 3) (Fin 1) ℂ} (hA : ∀ w, A *ᵥ w = 0 → w = 0) {p : Fin 1 → ℝ} (hp : ∀ s, 0 < p s) {σ2 : ℝ} (hσ : 0 < σ2) {e : Propres 3}
    (he : EstPropres (covSources A p σ2) e) : critere e 1 = -18 * Real.log σ2 + 6 * Real.log 2 + 5 / 2 * Real.log 3 ∧ critere e 2 = -6 * Real.log σ2 + 4 * Real.log 3 := by
  have h0 := valeur_bruit hA hp he 0 (by norm_num)
  have h1 := valeur_bruit hA hp he 1 (by norm_num)
  unfold critere
  simp only [Fin.sum_univ_three, h0, h1, abs_of_pos hσ]
  refine ⟨?_, ?_⟩
  · norm_num
    ring
  · norm_num
    ring

/-- **C161 (automatic number of sources, refuted).** The number of sources found depends on the unit of the signal: for every single source received by three antennas, the right number (1) is found when the noise
has power 1 and the wrong one (2) when the noise has power 2 or more, whatever the power of the source. -/
theorem C161_auto_refute {A : Matrix (Fin 3) (Fin 1) ℂ} (hA : ∀ w, A *ᵥ w = 0 → w = 0) {p : Fin 1 → ℝ} (hp : ∀ s, 0 < p s) {σ2 : ℝ} {e : Propres 3}
    (he : EstPropres (covSources A p σ2) e) : (σ2 = 1 → nbSources e = 1) ∧ (2 ≤ σ2 → nbSources e = 2) := by
  have hl2 := Real.log_pos (show (1 : ℝ) < 2 by norm_num)
  have hl3 := Real.log_pos (show (1 : ℝ) < 3 by norm_num)
  have hlist : ((List.range (3 - 1)).map fun i : ℕ => critere e (i + 1)) = [critere e 1, critere e 2] := rfl
  refine ⟨fun h => ?_, fun h => ?_⟩
  · obtain ⟨c1, c2⟩ := critere_trois hA hp (by linarith : 0 < σ2) he
    subst h
    have hlt : ¬ critere e 1 < critere e 2 := by
      rw [c1, c2, Real.log_one]
      have : Real.log 3 ≤ Real.log (2 ^ 2) := Real.log_le_log (by norm_num) (by norm_num)
      rw [Real.log_pow] at this
      push_cast at this
      linarith
    unfold nbSources
    rw [hlist]
    simp [Fourier.indexMax, Fourier.indexMaxDe, hlt]
  · obtain ⟨c1, c2⟩ := critere_trois hA hp (by linarith : 0 < σ2) he
    have hlt : critere e 1 < critere e 2 := by
      rw [c1, c2]
      have : Real.log 2 ≤ Real.log σ2 := Real.log_le_log (by norm_num) h
      linarith
    unfold nbSources
    rw [hlist]
    simp [Fourier.indexMax, Fourier.indexMaxDe, hlt]

/-! ## Directions of arrival -/

/-- **C162 (steering vectors).** For antennas at the positions `2 π d k`, the steering vectors are the test vectors of the sweep at frequency `d cos θ`. -/
theorem C162_steervec (d : ℝ) (angle : Fin n → ℝ) : steervec (fun k : Fin m => 2 * Real.pi * d * k.val) angle = matExpo (fun s => Real.cos (angle s) * d) m := by
  ext k s
  show Complex.exp _ = Complex.exp _ ^ k.val
  rw [← Complex.exp_nat_mul]
  congr 1
  push_cast
  ring

/-- **C162 (unit of the positions, refuted).** The positions are documented in wavelengths; two antennas half a wavelength apart receive a wave at the angle 0 in phase opposition, but the returned vector is not the one
of the sweep (frequency `d cos θ`): the factor `2 π` is missing. -/
theorem C162_unite_refute : ∃ (d θ : ℝ), steervec (fun k : Fin 2 => d * k.val) (fun _ : Fin 1 => θ) ≠ matExpo (fun _ : Fin 1 => Real.cos θ * d) 2 ∧ matExpo (fun _ : Fin 1 => Real.cos θ * d) 2 1 0 = -1 := by
  refine ⟨1 / 2, 0, ?_, ?_⟩
  · intro h
    have h1 := congrFun (congrFun h 1) 0
    have h2 : matExpo (fun _ : Fin 1 => Real.cos 0 * (1 / 2)) 2 1 0 = -1 := by
      show Complex.exp _ ^ 1 = -1
      rw [Real.cos_zero, pow_one, show ((1 * (1 / 2) * 2 * Real.pi : ℝ) : ℂ) = Real.pi by push_cast; ring, Complex.exp_pi_mul_I]
    rw [h2] at h1
    have h3 : Complex.exp (((1 / 2 : ℝ) : ℂ) * Complex.I) = -1 := by
      rw [← h1]
      show _ = Complex.exp _
      congr 1
      simp
    have h4 := congrArg Complex.re h3
    rw [Complex.exp_ofReal_mul_I_re] at h4
    have h5 : 0 < Real.cos (1 / 2) := Real.cos_pos_of_mem_Ioo ⟨by linarith [Real.pi_pos], by linarith [Real.two_le_pi]⟩
    simp at h4
    norm_num at h5
    linarith
  · show Complex.exp _ ^ 1 = -1
    rw [Real.cos_zero, pow_one, show ((1 * (1 / 2) * 2 * Real.pi : ℝ) : ℂ) = Real.pi by push_cast; ring, Complex.exp_pi_mul_I]

/-- **C162 (covariance).** The theoretical covariance matrix is that of sources of power 1 in a white noise of power `10^(SNR/10)`; it is positive definite. -/
theorem C162_covariance (pos : Fin m → ℝ) (angle : Fin n → ℝ) (snr : ℝ) :
    sensorcov pos angle snr = covSources (steervec pos angle) (fun _ => 1) ((10 : ℝ) ^ (snr / 10)) ∧ (sensorcov pos angle snr).PosDef := by
  refine ⟨?_, ?_⟩
  · unfold sensorcov covSources
    have : (Matrix.diagonal fun _ : Fin n => ((1 : ℝ) : ℂ)) = 1 := by
      rw [Complex.ofReal_one]
      exact Matrix.diagonal_one
    rw [this, Matrix.mul_one]
  · unfold sensorcov
    refine Matrix.PosDef.posSemidef_add (Matrix.posSemidef_self_mul_conjTranspose _) ?_
    have h : (0 : ℝ) < (10 : ℝ) ^ (snr / 10) := Real.rpow_pos_of_pos (by norm_num) _
    refine Matrix.PosDef.smul Matrix.PosDef.one ?_
    exact_mod_cast h

/-- **C162 (signal to noise ratio, refuted).** For one source, the ratio of the power of the source to that of the noise on each antenna is, in decibels, the opposite of the requested one. -/
theorem C162_snr_refute (pos : Fin m → ℝ) (θ snr : ℝ) (i : Fin m) : ∃ (S N : ℝ), S = ‖steervec pos (fun _ : Fin 1 => θ) i 0‖ ^ 2 ∧ (sensorcov pos (fun _ : Fin 1 => θ) snr i i) = ((S + N : ℝ) : ℂ) ∧
    10 * Real.logb 10 (S / N) = -snr := by
  have hS : ‖steervec pos (fun _ : Fin 1 => θ) i 0‖ = 1 := Complex.norm_exp_ofReal_mul_I _
  refine ⟨1, (10 : ℝ) ^ (snr / 10), by rw [hS]; norm_num, ?_, ?_⟩
  · unfold sensorcov
    rw [Matrix.add_apply, Matrix.smul_apply, Matrix.one_apply_eq, Matrix.mul_apply, Fin.sum_univ_one, Matrix.conjTranspose_apply, Complex.star_def, Complex.mul_conj, Complex.normSq_eq_norm_sq, hS]
    push_cast
    simp
  · rw [one_div, Real.logb_inv, Real.logb_rpow (by norm_num) (by norm_num)]
    ring

/-- **C162 (spectrum over the angles).** With the right number of sources, and antennas at the positions `2 π d k`, the spectrum over the sweep of `musicdoa_1d` is infinite exactly at the angles of the sweep whose
`d cos φ` is, modulo 1, that of a source. -/
theorem C162_spectre (d : ℝ) (angle : Fin n → ℝ) (ha : ∀ s t, s ≠ t → ∀ z : ℤ, Real.cos (angle s) * d ≠ Real.cos (angle t) * d + z) (hn : n < m) (snr : ℝ) {e : Propres m}
    (he : EstPropres (sensorcov (fun k : Fin m => 2 * Real.pi * d * k.val) angle snr) e) (Nf : ℕ) : ∃ l, sousEspace e n Nf (balayageDoa d m) = some (l, n) ∧ l.length = Nf ∧
      ∀ i, i < Nf → ∃ φ S, l[i]? = some (φ, S) ∧ φ = Real.pi * i / Nf - 1 ∧ (S = ⊤ ↔ ∃ s, ∃ z : ℤ, Real.cos φ * d = Real.cos (angle s) * d + z) := by
  rw [(C162_covariance _ _ _).1, C162_steervec] at he
  refine ⟨_, sousEspace_val e n hn Nf _ (fun i => Real.pi * i / Nf - 1) (fun i => expo (Real.cos (Real.pi * i / Nf - 1) * d) m) (fun i _ => ?_), by simp, fun i hi => ?_⟩
  · unfold balayageDoa
    simp only
    rw [exponentielle_eq]
    rfl
  · refine ⟨Real.pi * i / Nf - 1, niveau (partBruit e n (expo (Real.cos (Real.pi * i / Nf - 1) * d) m)), ?_, rfl, ?_⟩
    · rw [List.getElem?_map, List.getElem?_range hi, Option.map_some]
    · rw [niveau_top, partBruit_nul (expo_independantes _ ha hn.le) (fun _ => one_pos) he, expo_image _ hn]

/-- **C162 (angles found, refuted).** `musicdoa_1d` returns no angle, for every matrix, every spacing and every number of sources requested. -/
theorem C162_angles_refute (hm : 0 < m) (e : Propres m) (d : ℝ) (Ns : ℤ) : musicdoa e d Ns = some [] := by
  unfold musicdoa
  have h := sousEspace_val e 0 hm 1000 (balayageDoa d m) (fun i => Real.pi * i / (1000 : ℕ) - 1) (fun i => expo (Real.cos (Real.pi * i / (1000 : ℕ) - 1) * d) m) (fun i _ => by
    unfold balayageDoa
    simp only
    rw [exponentielle_eq]
    rfl)
  rw [Nat.cast_zero] at h
  rw [h]
  rfl

/-- Non-vacuity: a solver result for the covariance matrix of two exponentials of distinct frequencies received by five antennas. -/
example : ∃ e : Propres 5, EstPropres (covSources (matExpo ![0, 1 / 4] 5) (fun _ => 3) 2) e ∧ ∀ s t : Fin 2, s ≠ t → ∀ z : ℤ, (![0, 1 / 4] : Fin 2 → ℝ) s ≠ (![0, 1 / 4] : Fin 2 → ℝ) t + z := by
  obtain ⟨e, he⟩ := propres_existe (covSources (matExpo ![0, 1 / 4] 5) (fun _ => 3) 2) (by
    unfold covSources
    refine Matrix.IsHermitian.add ?_ ?_
    · refine Matrix.isHermitian_mul_mul_conjTranspose _ ?_
      rw [Matrix.IsHermitian, Matrix.diagonal_conjTranspose]
      congr 1
      ext s
      simp
    · rw [Matrix.IsHermitian, Matrix.conjTranspose_smul, Matrix.conjTranspose_one]
      simp)
  refine ⟨e, he, fun s t hst z h => ?_⟩
  have key : ∀ z : ℤ, (1 / 4 : ℝ) ≠ z := by
    intro z hz
    have : (4 * z : ℤ) = 1 := by
      have : (4 * (z : ℝ)) = 1 := by linarith
      exact_mod_cast this
    omega
  fin_cases s <;> fin_cases t <;> simp at hst h
  · exact key (-z) (by push_cast; linarith)
  · exact key z (by linarith)

end Verif.Stats
