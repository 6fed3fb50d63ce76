/-
C97: linear modulator (shaping filter). C98: frequency modulation.

Specification: the pulse (`impulsion`), zero insertion and convolution (`Reechan.insereZeros`, `Filtre.convolution`), the phase of the samples.
-/
import Verif.Telecom.FormesProps

namespace Verif.Telecom

open Verif.Filtre Verif.Reechan

/-- Specification: the pulse transmitted for one symbol, deduced from the coefficients `h` of the shaping filter: normalised to the energy `R`, completed by zeros to a
multiple of `R` and reversed in time (the interpolator of the library filters by the time-reversed coefficients, see C24). -/
noncomputable def impulsion (h : List ℝ) (R : ℕ) : List ℝ :=
  ((h.map fun v => v * (Real.sqrt R / Real.sqrt (energie h))) ++ List.replicate (complement h.length R) 0).reverse

theorem energie_pos (h : List ℝ) : 0 ≤ energie h := by
  unfold energie
  apply List.sum_nonneg
  intro v hv
  obtain ⟨a, _, rfl⟩ := List.mem_map.1 hv
  exact mul_self_nonneg a

theorem energie_append (a b : List ℝ) : energie (a ++ b) = energie a + energie b := by simp [energie]

theorem energie_reverse (a : List ℝ) : energie a.reverse = energie a := by
  unfold energie
  rw [List.map_reverse, List.sum_reverse]

theorem energie_fois (a : List ℝ) (q : ℝ) : energie (a.map fun v => v * q) = energie a * q ^ 2 := by
  induction a with
  | nil => simp [energie]
  | cons v a ih =>
    have e1 : energie (v :: a) = v * v + energie a := by simp [energie]
    have e2 : energie ((v :: a).map fun v => v * q) = v * q * (v * q) + energie (a.map fun v => v * q) := by simp [energie]
    rw [e1, e2, ih]
    ring

theorem energie_zeros (n : ℕ) : energie (List.replicate n 0) = 0 := by simp [energie]

/-- **C97 (energy).** Whatever the shaping filter (with a non-zero energy) and the oversampling factor `R ≥ 1`, the pulse has the energy `R`, as documented. -/
theorem C97_energie (h : List ℝ) (R : ℕ) (hE : energie h ≠ 0) : energie (impulsion h R) = R := by
  have hp : 0 < energie h := lt_of_le_of_ne (energie_pos h) (Ne.symm hE)
  unfold impulsion
  rw [energie_reverse, energie_append, energie_zeros, add_zero, energie_fois, div_pow, Real.sq_sqrt (Nat.cast_nonneg R), Real.sq_sqrt hp.le, mul_div_cancel₀ _ hE]

theorem enchaine_ups (s : RifUps ℂ ℂ) (blocs : List (List ℂ)) : enchaine EtatForme.step (.ups s) blocs =
    (enchaine (RifUps.step (0 : ℂ) (· + ·) (· * ·)) s blocs).map fun r => (.ups r.1, r.2) := by
  induction blocs generalizing s with
  | nil => rfl
  | cons b blocs ih =>
    simp only [enchaine, EtatForme.step]
    cases h : RifUps.step (0 : ℂ) (· + ·) (· * ·) s b with
    | none => rfl
    | some r =>
      simp only [Option.map_some, ih]
      cases h2 : enchaine (RifUps.step (0 : ℂ) (· + ·) (· * ·)) r.1 blocs with
      | none => rfl
      | some q => rfl

theorem enchaine_ident (blocs : List (List ℂ)) : enchaine EtatForme.step .ident blocs = some (.ident, blocs.flatten) := by
  induction blocs with
  | nil => rfl
  | cons b blocs ih => simp [enchaine, EtatForme.step, ih]

theorem enchaine_mod (m : Modulateur) (blocs : List (List ℂ)) : enchaine (Modulateur.step none) m blocs =
    (enchaine EtatForme.step m.filtre blocs).map fun r => ({ m with filtre := r.1 }, r.2) := by
  induction blocs generalizing m with
  | nil => rfl
  | cons b blocs ih =>
    simp only [enchaine, Modulateur.step]
    cases h : m.filtre.step b with
    | none => rfl
    | some r =>
      simp only [Option.map_some, ih]
      cases h2 : enchaine EtatForme.step r.1 blocs with
      | none => rfl
      | some q => rfl

theorem convolution_un (x : List ℂ) (p : ℕ) (hp : p < x.length) : convolution [(1 : ℂ)] (insereZeros 1 x) p = x[p] := by
  have h := convolution_insere 1 (by norm_num) [(1 : ℂ)] x 1 (by simp) p 0 (by norm_num)
  simp only [Nat.mul_one, Nat.add_zero, Finset.sum_range_one, List.getD_cons_zero, one_mul] at h
  rw [h]
  simp [passe, hp]

/-- The shaping filter, for every cutting of the symbols. -/
theorem forme_flux (t : MiseEnForme) (R : ℕ) (hR : 0 < R) (h : List ℝ) (ht : t.coefs R = some h) (hE : energie h ≠ 0) (blocs : List (List ℂ)) :
    ∃ m0 m y, Modulateur.cree t R = some m0 ∧ enchaine (Modulateur.step none) m0 blocs = some (m, y) ∧ y.length = blocs.flatten.length * R ∧
      ∀ p, p < y.length → y[p]? = some (convolution ((impulsion h R).map fun v : ℝ => (v : ℂ)) (insereZeros R blocs.flatten) p) := by
  by_cases h1 : R = 1
  · subst h1
    have hh : h = [1] := by
      unfold MiseEnForme.coefs at ht
      simpa using ht.symm
    subst hh
    have hi : ((impulsion [1] 1).map fun v : ℝ => (v : ℂ)) = [(1 : ℂ)] := by
      simp [impulsion, energie, complement]
    refine ⟨⟨.ident, 1⟩, ⟨.ident, 1⟩, blocs.flatten, by simp [Modulateur.cree, filtreForme], ?_, by simp, fun p hp => ?_⟩
    · rw [enchaine_mod, enchaine_ident]
      rfl
    · rw [hi, convolution_un _ p hp, List.getElem?_eq_getElem hp]
  · have hne : h ≠ [] := by
      intro h0
      rw [h0] at hE
      simp [energie] at hE
    have hRr : (R : ℝ) ≠ 0 := by exact_mod_cast hR.ne'
    obtain ⟨s0, s, y, e0, e1, hl, hv⟩ := C24_ups_miroir ((normalise h R).map fun v : ℝ => (v : ℂ))
      (by simpa [normalise] using List.length_pos_iff.2 hne) R hR blocs
    refine ⟨⟨.ups s0, R⟩, ⟨.ups s, R⟩, y, ?_, ?_, hl, fun p hp => ?_⟩
    · unfold Modulateur.cree filtreForme
      rw [if_neg h1, ht, Option.bind_some, e0]
      rfl
    · rw [enchaine_mod, enchaine_ups, e1]
      rfl
    · rw [hv p hp]
      congr 2
      unfold impulsion
      rw [List.map_reverse, List.map_append, List.map_replicate]
      simp only [normalise, List.map_map, List.length_map, Complex.ofReal_zero]
      congr 2
      apply List.map_congr_left
      intro v _
      simp only [Function.comp]
      have hRc : (R : ℂ) ≠ 0 := by exact_mod_cast hR.ne'
      push_cast
      field_simp

/-! ### Bits -/

theorem symmap_complete (x : List Bool) (k : ℕ) (hk : 0 < k) : symmap (x ++ List.replicate (manque x.length k) false) k = symmap x k := by
  obtain ⟨s, e, hd, _, hlt, _⟩ := C07_aller_retour x k hk
  rw [e, ← hd, C07_retour_aller s k hk hlt]

theorem symmap_append (a b : List Bool) (k : ℕ) (hk : 0 < k) (ha : a.length % k = 0) (sa sb : List ℕ) (ea : symmap a k = some sa) (eb : symmap b k = some sb) :
    symmap (a ++ b) k = some (sa ++ sb) := by
  obtain ⟨s1, e1, hd1, _, hlt1, _⟩ := C07_aller_retour a k hk
  obtain ⟨s2, e2, hd2, _, hlt2, _⟩ := C07_aller_retour b k hk
  rw [ea] at e1
  rw [eb] at e2
  obtain rfl := Option.some.inj e1
  obtain rfl := Option.some.inj e2
  have hma : manque a.length k = 0 := by simp [manque, ha]
  have hmab : manque (a ++ b).length k = manque b.length k := by
    unfold manque
    rw [List.length_append, Nat.add_mod, ha, Nat.zero_add, Nat.mod_mod]
  rw [hma] at hd1
  rw [← symmap_complete (a ++ b) k hk, hmab]
  have : symdemap (sa ++ sb) k = a ++ b ++ List.replicate (manque b.length k) false := by
    have : symdemap (sa ++ sb) k = symdemap sa k ++ symdemap sb k := by simp [symdemap]
    rw [this, hd1, hd2]
    simp
  rw [← this, C07_retour_aller _ k hk]
  intro v hv
  rcases List.mem_append.1 hv with h | h
  · exact hlt1 v h
  · exact hlt2 v h

theorem genere_some (symbs : List (ℝ × ℝ)) (k : ℕ) (hk : 0 < k) (hM : 2 ^ k ≤ symbs.length) (x : List Bool) :
    ∃ s, symmap x k = some s ∧ genereSymboles symbs k x = some (s.map fun i => symbs.getD i (0, 0)) ∧ s.length = (x.length + k - 1) / k := by
  obtain ⟨s, e, hq1, hl, hlt, hq2⟩ := C07_aller_retour x k hk
  refine ⟨s, e, ?_, hl⟩
  simp only [genereSymboles, e]
  show s.mapM (fun i => symbs[i]?) = _
  clear e hl hq1 hq2
  induction s with
  | nil => rfl
  | cons v s ih =>
    have hv : v < symbs.length := lt_of_lt_of_le (hlt v (by simp)) hM
    rw [List.mapM_cons, ih (fun w hw => hlt w (by simp [hw])), List.getElem?_eq_getElem hv]
    simp [List.getD_eq_getElem?_getD, hv]

/-- Bits cut at multiples of `k`: the modulator receives the same symbols. -/
theorem enchaine_bits (symbs : List (ℝ × ℝ)) (k : ℕ) (hk : 0 < k) (hM : 2 ^ k ≤ symbs.length) (fsk : Option ℝ) (blocs : List (List Bool)) (hb : ∀ b ∈ blocs, b.length % k = 0)
    (m : Modulateur) : ∃ sb : List (List (ℝ × ℝ)), genereSymboles symbs k blocs.flatten = some sb.flatten ∧
      enchaine (Modulateur.stepBits symbs k fsk) m blocs = enchaine (Modulateur.step fsk) m (sb.map (·.map cplx)) := by
  have key : ∃ ss : List (List ℕ), symmap blocs.flatten k = some ss.flatten ∧
      ∀ m, enchaine (Modulateur.stepBits symbs k fsk) m blocs = enchaine (Modulateur.step fsk) m (ss.map fun s => (s.map fun i => symbs.getD i (0, 0)).map cplx) := by
    induction blocs with
    | nil =>
      refine ⟨[], ?_, fun _ => rfl⟩
      simp [symmap, hk]
      omega
    | cons b blocs ih =>
      obtain ⟨ss, h1, h2⟩ := ih (fun c hc => hb c (by simp [hc]))
      obtain ⟨s, e1, e2, _⟩ := genere_some symbs k hk hM b
      refine ⟨s :: ss, ?_, fun m => ?_⟩
      · rw [List.flatten_cons, List.flatten_cons]
        exact symmap_append b blocs.flatten k hk (hb b (by simp)) s _ e1 h1
      · simp only [enchaine, Modulateur.stepBits, e2, List.map_cons, Option.bind_some]
        cases h3 : m.step fsk ((s.map fun i => symbs.getD i (0, 0)).map cplx) with
        | none => rfl
        | some r => simp only [h2 r.1]
  obtain ⟨ss, h1, h2⟩ := key
  refine ⟨ss.map fun s => s.map fun i => symbs.getD i (0, 0), ?_, ?_⟩
  · obtain ⟨s, e1, e2, _⟩ := genere_some symbs k hk hM blocs.flatten
    rw [h1] at e1
    obtain rfl := Option.some.inj e1
    rw [e2]
    rw [← List.map_flatten]
  · rw [h2 m]
    simp only [List.map_map, Function.comp_def]

/-- **C97 (linear modulator).** For every memoryless linear waveform of at least `2^k` symbols, every shaping filter (of non-zero energy), every oversampling factor `R ≥ 1` and
every stream cut into blocks of multiples of `k` bits, the modulator returns `R` samples per symbol: the superposition of the pulses weighted by the symbols. In
particular the signal does not depend on the cutting. -/
theorem C97_modulateur (symbs : List (ℝ × ℝ)) (k : ℕ) (hk : 0 < k) (hM : 2 ^ k ≤ symbs.length) (t : MiseEnForme) (R : ℕ) (hR : 0 < R) (h : List ℝ)
    (ht : t.coefs R = some h) (hE : energie h ≠ 0) (blocs : List (List Bool)) (hb : ∀ b ∈ blocs, b.length % k = 0) :
    ∃ s m0 m y, genereSymboles symbs k blocs.flatten = some s ∧ Modulateur.cree t R = some m0 ∧
      enchaine (Modulateur.stepBits symbs k none) m0 blocs = some (m, y) ∧ y.length = s.length * R ∧
      ∀ p, p < y.length → y[p]? = some (convolution ((impulsion h R).map fun v : ℝ => (v : ℂ)) (insereZeros R (s.map cplx)) p) := by
  obtain ⟨m0, _, _, e0, _⟩ := forme_flux t R hR h ht hE []
  obtain ⟨sb, h1, h2⟩ := enchaine_bits symbs k hk hM none blocs hb m0
  obtain ⟨m0', m, y, e0', e1, hl, hv⟩ := forme_flux t R hR h ht hE (sb.map (·.map cplx))
  rw [e0] at e0'
  obtain rfl := Option.some.inj e0'
  have hf : (sb.map (·.map cplx)).flatten = sb.flatten.map cplx := by rw [List.map_flatten]
  rw [hf] at hl hv
  refine ⟨sb.flatten, m0, m, y, h1, e0, by rw [h2]; exact e1, by rw [hl, List.length_map], hv⟩

theorem flatMap_getElem {A B : Type} (R : ℕ) (f : A → List B) (hf : ∀ a, (f a).length = R) (x : List A) : (x.flatMap f).length = x.length * R ∧
    ∀ m i (hm : m < x.length), i < R → (x.flatMap f)[m * R + i]? = (f x[m])[i]? := by
  induction x with
  | nil => simp
  | cons a x ih =>
    refine ⟨by simp [hf, ih.1, Nat.succ_mul, Nat.add_comm], fun m i hm hi => ?_⟩
    rw [List.flatMap_cons]
    cases m with
    | zero =>
      rw [Nat.zero_mul, Nat.zero_add, List.getElem?_append_left (by rw [hf]; exact hi)]
      rfl
    | succ m =>
      rw [List.getElem?_append_right (by rw [hf, Nat.succ_mul]; omega), hf, List.getElem_cons_succ]
      rw [show (m + 1) * R + i - R = m * R + i by rw [Nat.succ_mul]; omega]
      exact ih.2 m i (by simpa using hm) hi

/-- The filter for one-symbol pulses: each symbol is replaced by the pulse of length `R`. -/
theorem impulsion_courte (g : List ℂ) (R : ℕ) (hR : 0 < R) (hg : g.length = R) (x y : List ℂ) (hl : y.length = x.length * R)
    (hy : ∀ p, p < y.length → y[p]? = some (convolution g (insereZeros R x) p)) : y = x.flatMap fun s => g.map fun v => v * s := by
  obtain ⟨h1, h2⟩ := flatMap_getElem R (fun s : ℂ => g.map fun v => v * s) (fun a => by simp [hg]) x
  apply List.ext_getElem?
  intro p
  by_cases hp : p < y.length
  · rw [hy p hp]
    rw [hl] at hp
    have hm : p / R < x.length := (Nat.div_lt_iff_lt_mul hR).2 hp
    have hpe : p = p / R * R + p % R := by rw [Nat.mul_comm]; exact (Nat.div_add_mod p R).symm
    have hi := Nat.mod_lt p hR
    generalize p / R = m at *
    generalize p % R = i at *
    subst hpe
    rw [convolution_insere R hR g x 1 (by rw [hg, Nat.one_mul]) m i hi, h2 m i hm hi]
    simp [passe, hg, hi, hm]
  · rw [List.getElem?_eq_none (by omega), List.getElem?_eq_none (by rw [h1]; omega)]

/-- **C97 (NRZ).** With the NRZ filter each symbol is held, unchanged, for `R` samples. -/
theorem C97_nrz (symbs : List (ℝ × ℝ)) (k : ℕ) (hk : 0 < k) (hM : 2 ^ k ≤ symbs.length) (R : ℕ) (hR : 0 < R) (blocs : List (List Bool))
    (hb : ∀ b ∈ blocs, b.length % k = 0) : ∃ s m0 m, genereSymboles symbs k blocs.flatten = some s ∧ Modulateur.cree .nrz R = some m0 ∧
      enchaine (Modulateur.stepBits symbs k none) m0 blocs = some (m, s.flatMap fun p => List.replicate R (cplx p)) := by
  have hRr : (R : ℝ) ≠ 0 := by exact_mod_cast hR.ne'
  have ht : MiseEnForme.nrz.coefs R = some (List.replicate R (1 / (R : ℝ))) := by
    unfold MiseEnForme.coefs
    rw [if_neg hR.ne']
    split
    · rename_i h; subst h; simp
    · rfl
  have hen : energie (List.replicate R (1 / (R : ℝ))) = 1 / R := by
    simp only [energie, List.map_replicate, List.sum_replicate, nsmul_eq_mul]
    field_simp
  obtain ⟨s, m0, m, y, h1, h2, h3, h4, h5⟩ := C97_modulateur symbs k hk hM .nrz R hR _ ht (by rw [hen]; exact one_div_ne_zero hRr) blocs hb
  refine ⟨s, m0, m, h1, h2, ?_⟩
  have hi : ((impulsion (List.replicate R (1 / (R : ℝ))) R).map fun v : ℝ => (v : ℂ)) = List.replicate R (1 : ℂ) := by
    unfold impulsion
    have hc : complement R R = 0 := by simp [complement]
    rw [hen, List.map_replicate, List.length_replicate, hc, List.replicate_zero, List.append_nil, List.reverse_replicate, List.map_replicate]
    congr 1
    have : 1 / (R : ℝ) * (Real.sqrt R / Real.sqrt (1 / R)) = 1 := by
      rw [Real.sqrt_div (by norm_num), Real.sqrt_one, div_div_eq_mul_div, div_one, Real.mul_self_sqrt (Nat.cast_nonneg R)]
      field_simp
    rw [this, Complex.ofReal_one]
  rw [hi] at h5
  have e := impulsion_courte _ R hR (by simp) (s.map cplx) y (by rw [h4, List.length_map]) h5
  rw [h3, e, List.flatMap_map]
  simp

/-- **C97 (no filter).** Without filter, each symbol is an impulse of amplitude `√R` at the last of its `R` samples. -/
theorem C97_aucun (symbs : List (ℝ × ℝ)) (k : ℕ) (hk : 0 < k) (hM : 2 ^ k ≤ symbs.length) (R : ℕ) (hR : 0 < R) (blocs : List (List Bool))
    (hb : ∀ b ∈ blocs, b.length % k = 0) : ∃ s m0 m, genereSymboles symbs k blocs.flatten = some s ∧ Modulateur.cree .aucun R = some m0 ∧
      enchaine (Modulateur.stepBits symbs k none) m0 blocs = some (m, s.flatMap fun p => List.replicate (R - 1) 0 ++ [(Real.sqrt R : ℂ) * cplx p]) := by
  have ht : MiseEnForme.aucun.coefs R = some [1] := by
    unfold MiseEnForme.coefs
    rw [if_neg hR.ne']
    split <;> rfl
  have hen : energie [1] = 1 := by simp [energie]
  obtain ⟨s, m0, m, y, h1, h2, h3, h4, h5⟩ := C97_modulateur symbs k hk hM .aucun R hR _ ht (by rw [hen]; norm_num) blocs hb
  refine ⟨s, m0, m, h1, h2, ?_⟩
  have hc : complement 1 R = R - 1 := by
    unfold complement
    rcases Nat.lt_or_ge 1 R with h | h
    · rw [Nat.mod_eq_of_lt h, Nat.mod_eq_of_lt (by omega)]
    · have : R = 1 := by omega
      subst this
      rfl
  have hi : ((impulsion [1] R).map fun v : ℝ => (v : ℂ)) = List.replicate (R - 1) 0 ++ [(Real.sqrt R : ℂ)] := by
    unfold impulsion
    rw [hen]
    simp [hc]
  rw [hi] at h5
  have e := impulsion_courte _ R hR (by simp; omega) (s.map cplx) y (by rw [h4, List.length_map]) h5
  rw [h3, e, List.flatMap_map]
  simp

/-- **C97 (cutting, refuted).** A stream cut in the middle of a symbol is not modulated as a whole: each call completes its last symbol with zeros. -/
theorem C97_decoupe_refute (symbs : List (ℝ × ℝ)) (hM : symbs.length = 4) : ∃ a b ya yb y, genereSymboles symbs 2 a = some ya ∧ genereSymboles symbs 2 b = some yb ∧
    genereSymboles symbs 2 (a ++ b) = some y ∧ (ya ++ yb).length = 2 ∧ y.length = 1 := by
  obtain ⟨s1, _, e1, l1⟩ := genere_some symbs 2 (by norm_num) (by rw [hM]; norm_num) [true]
  obtain ⟨s2, _, e2, l2⟩ := genere_some symbs 2 (by norm_num) (by rw [hM]; norm_num) ([true] ++ [true])
  refine ⟨[true], [true], _, _, _, e1, e1, e2, ?_, ?_⟩
  · simp [l1]
  · simp [l2]

/-- **C97 (flush).** `flush(nech)` returns, for `nech > 0`, the smallest multiple of `osf` samples that is at least `nech`; nothing for `nech ≤ 0`. -/
theorem C97_flush (t : MiseEnForme) (R : ℕ) (hR : 0 < R) (h : List ℝ) (ht : t.coefs R = some h) (hE : energie h ≠ 0) (nech : ℤ) :
    ∃ m0 m y, Modulateur.cree t R = some m0 ∧ m0.flush none nech = some (m, y) ∧ (nech ≤ 0 → y = []) ∧
      (0 < nech → y.length % R = 0 ∧ nech ≤ y.length ∧ (y.length : ℤ) < nech + R) := by
  obtain ⟨m0, m, y, e0, e1, hl, _⟩ := forme_flux t R hR h ht hE [List.replicate ((nech.toNat + R - 1) / R) 0]
  have hosf : m0.osf = R := by
    unfold Modulateur.cree at e0
    cases hf : filtreForme t R with
    | none => rw [hf] at e0; simp at e0
    | some f => rw [hf] at e0; simp at e0; rw [← e0]
  by_cases hn : nech ≤ 0
  · refine ⟨m0, m0, [], e0, by simp [Modulateur.flush, hn], fun _ => rfl, fun h => by omega⟩
  · simp only [enchaine] at e1
    cases hs : Modulateur.step none m0 (List.replicate ((nech.toNat + R - 1) / R) 0) with
    | none => rw [hs] at e1; simp at e1
    | some r =>
      rw [hs] at e1
      simp at e1
      refine ⟨m0, r.1, r.2, e0, ?_, fun h => absurd h hn, fun _ => ?_⟩
      · unfold Modulateur.flush
        rw [if_neg hn, hosf, if_neg hR.ne', hs]
      · have hlr : r.2.length = (nech.toNat + R - 1) / R * R := by
          rw [show r.2 = y by rw [e1], hl]
          simp
        rw [hlr]
        have hd := Nat.div_add_mod (nech.toNat + R - 1) R
        have hm := Nat.mod_lt (nech.toNat + R - 1) hR
        have hc : (nech.toNat + R - 1) / R * R = R * ((nech.toNat + R - 1) / R) := Nat.mul_comm _ _
        refine ⟨Nat.mul_mod_left _ _, ?_, ?_⟩ <;> rw [hc] <;> omega

/-- Non-vacuity: QPSK, NRZ filter, `R = 4`, two blocks of 2 and 4 bits. -/
example : ∃ m y, (Modulateur.cree .nrz 4).bind (fun m0 => enchaine (Modulateur.stepBits (pskConstellation 4) 2 none) m0 [[true, false], [true, true, false, false]]) = some (m, y) ∧
    y.length = 12 := by
  obtain ⟨s, m0, m, h1, h2, h3⟩ := C97_nrz (pskConstellation 4) 2 (by norm_num) (by rw [psk_longueur]; norm_num) 4 (by norm_num) [[true, false], [true, true, false, false]] (by simp)
  obtain ⟨s', _, e, l⟩ := genere_some (pskConstellation 4) 2 (by norm_num) (by rw [psk_longueur]; norm_num) [true, false, true, true, false, false]
  have hs : s.length = 3 := by
    have : genereSymboles (pskConstellation 4) ((2 : ℕ) : ℤ) [true, false, true, true, false, false] = some s := h1
    rw [e] at this
    rw [← Option.some.inj this, List.length_map, l]
    rfl
  refine ⟨m, _, by rw [h2, Option.bind_some, h3], ?_⟩
  rw [(flatMap_getElem 4 _ (fun a => by simp) s).1, hs]

end Verif.Telecom
