import Verif.Telecom.Analogique
import Verif.Conception.HilbertGain
import Verif.Signaux.Props
import Verif.Conception.ChebProps

/-!
# C109: AM modulator; C110: AM demodulator
-/

namespace Verif.Telecom

open Complex

/-- State of the local oscillator of frequency `f` after `k` samples. -/
noncomputable def ohcApres (f : ℝ) (k : ℕ) : Signaux.OHC := ⟨exp ((2 * Real.pi * (k * f) : ℝ) * I), exp (I * (2 * Real.pi * f))⟩

/-- Specification: the carrier `exp(2πi f k)`, samples `k` to `k + n - 1`. -/
noncomputable def porteuse (f : ℝ) (k n : ℕ) : List ℂ := (List.range n).map fun i : ℕ => exp ((2 * Real.pi * (((k + i : ℕ) : ℝ) * f) : ℝ) * I)

theorem ohc_apres_initial (f : ℝ) : Signaux.OHC.init.configure f = ohcApres f 0 := by
  simp [Signaux.OHC.init, Signaux.OHC.configure, ohcApres]

theorem ohc_apres_step (f : ℝ) (k n : ℕ) : (ohcApres f k).step n = (ohcApres f (k + n), porteuse f k n) := by
  have hn : ‖exp ((2 * Real.pi * (k * f) : ℝ) * I)‖ = 1 := norm_exp_ofReal_mul_I _
  unfold Signaux.OHC.step ohcApres porteuse
  simp only [hn, ofReal_one, div_one, Signaux.boucle_eq]
  have e : ∀ i : ℕ, exp ((2 * Real.pi * (k * f) : ℝ) * I) * exp (I * (2 * Real.pi * f)) ^ i = exp ((2 * Real.pi * (((k + i : ℕ) : ℝ) * f) : ℝ) * I) := by
    intro i
    rw [← exp_nat_mul, ← exp_add]
    congr 1
    push_cast
    ring
  simp only [e]

theorem porteuse_longueur (f : ℝ) (k n : ℕ) : (porteuse f k n).length = n := by simp [porteuse]

theorem porteuse_append (f : ℝ) (k n m : ℕ) : porteuse f k (n + m) = porteuse f k n ++ porteuse f (k + n) m := by
  unfold porteuse
  rw [List.range_add, List.map_append, List.map_map]
  congr 1
  apply List.map_congr_left
  intro i _
  simp only [Function.comp]
  rw [Nat.add_assoc]

theorem porteuse_re (f : ℝ) (n i : ℕ) (hi : i < n) : (porteuse f 0 n)[i]? = some (exp ((2 * Real.pi * (i * f) : ℝ) * I)) := by
  rw [porteuse, List.getElem?_map, List.getElem?_range hi, Option.map_some, Nat.zero_add]

/-! ### C109 -/

theorem dsbsc_enchaine (f : ℝ) (blocs : List (List ℝ)) (s : ModAM) (hm : s.mode = .DSBSansPorteuse) (k : ℕ) (ho : s.ol = ohcApres f k) :
    ∃ s', Filtre.enchaine ModAM.step s blocs = some (s', List.zipWith (fun (v : ℝ) (o : ℂ) => v * o.re) blocs.flatten (porteuse f k blocs.flatten.length)) := by
  induction blocs generalizing s k with
  | nil => exact ⟨s, by simp [Filtre.enchaine]⟩
  | cons b l ih =>
    have e : s.step b = some ({ s with ol := ohcApres f (k + b.length) }, List.zipWith (fun (v : ℝ) (o : ℂ) => v * o.re) b (porteuse f k b.length)) := by
      unfold ModAM.step
      rw [hm]
      simp only [ho, ohc_apres_step]
    obtain ⟨s', e'⟩ := ih { s with ol := ohcApres f (k + b.length) } hm (k + b.length) rfl
    refine ⟨s', ?_⟩
    simp only [Filtre.enchaine, e, e']
    rw [List.flatten_cons, List.length_append, porteuse_append, List.zipWith_append (by rw [porteuse_longueur])]

/-- **C109 (suppressed carrier).**  In the suppressed carrier mode the output is the product of the signal by the carrier, `u_k cos(2πfk)`, whatever the cut into blocks. -/
theorem C109_sans_porteuse (indice f : ℝ) (blocs : List (List ℝ)) : ∃ s0 s y, ModAM.cree .DSBSansPorteuse indice f = some s0 ∧ Filtre.enchaine ModAM.step s0 blocs = some (s, y) ∧
    y.length = blocs.flatten.length ∧ ∀ k (hk : k < blocs.flatten.length), y[k]? = some (blocs.flatten[k] * Real.cos (2 * Real.pi * (k * f))) := by
  obtain ⟨s', e⟩ := dsbsc_enchaine f blocs ⟨.DSBSansPorteuse, indice, ohcApres f 0, none⟩ rfl 0 rfl
  refine ⟨_, s', _, by simp [ModAM.cree, ModeAM.estBLU, ohc_apres_initial], e, by simp [porteuse_longueur], fun k hk => ?_⟩
  rw [List.getElem?_zipWith, porteuse_re f _ k hk, List.getElem?_eq_getElem hk]
  simp only [Option.some.injEq]
  rw [exp_ofReal_mul_I_re]

/-- Specification: a block divided by its largest modulus. -/
noncomputable def normaliseAM (b : List ℝ) : List ℝ := b.map fun v : ℝ => v / Conception.valeurMax (b.map fun v : ℝ => |v|)

theorem maxabs_pos (b : List ℝ) (hb : ∃ v ∈ b, v ≠ 0) : 0 < Conception.valeurMax (b.map fun v : ℝ => |v|) := by
  obtain ⟨v, hv, h0⟩ := hb
  have hne : b.map (fun v : ℝ => |v|) ≠ [] := by
    intro h
    rw [List.map_eq_nil_iff] at h
    rw [h] at hv
    exact absurd hv List.not_mem_nil
  exact lt_of_lt_of_le (abs_pos.2 h0) ((Conception.valeurMax_prop _ hne).2 _ (List.mem_map_of_mem hv))

theorem dsb_enchaine (f : ℝ) (blocs : List (List ℝ)) (hb : ∀ b ∈ blocs, b = [] ∨ ∃ v ∈ b, v ≠ 0) (s : ModAM) (hm : s.mode = .DSB) (k : ℕ) (ho : s.ol = ohcApres f k) :
    ∃ s', Filtre.enchaine ModAM.step s blocs = some (s', List.zipWith (fun (v : ℝ) (o : ℂ) => (1 + s.indice * v) * o.re) (blocs.flatMap normaliseAM) (porteuse f k blocs.flatten.length)) := by
  induction blocs generalizing s k with
  | nil => exact ⟨s, by simp [Filtre.enchaine]⟩
  | cons b l ih =>
    have e : s.step b = some ({ s with ol := ohcApres f (k + b.length) }, List.zipWith (fun (v : ℝ) (o : ℂ) => (1 + s.indice * v) * o.re) (normaliseAM b) (porteuse f k b.length)) := by
      unfold ModAM.step
      rw [hm]
      simp only [ho, ohc_apres_step]
      rw [if_neg]
      · congr 2
        unfold normaliseAM
        rw [List.zipWith_map_left]
        congr 1
        funext v o
        rw [mul_div_assoc]
      · rintro ⟨h1, h2⟩
        rcases hb b (by simp) with h | h
        · exact h2 h
        · exact (maxabs_pos b h).ne' h1
    obtain ⟨s', e'⟩ := ih (fun c hc => hb c (by simp [hc])) { s with ol := ohcApres f (k + b.length) } hm (k + b.length) rfl
    refine ⟨s', ?_⟩
    simp only [Filtre.enchaine, e, e']
    rw [List.flatten_cons, List.length_append, porteuse_append, List.flatMap_cons, List.zipWith_append (by rw [porteuse_longueur]; simp [normaliseAM])]

/-- **C109 (double side-band, blocks that are not silent).**  The output is `(1 + m e_k) cos(2πfk)` where `e` is the signal, each block divided by its largest modulus: `|e_k| ≤ 1`, so that with an
index `m` between 0 and 1 the envelope is never negative (no over-modulation), and the carrier has no phase jump between blocks. -/
theorem C109_dsb_partial (indice f : ℝ) (hm0 : 0 ≤ indice) (hm1 : indice ≤ 1) (blocs : List (List ℝ)) (hb : ∀ b ∈ blocs, ∃ v ∈ b, v ≠ 0) :
    ∃ s0 s y, ModAM.cree .DSB indice f = some s0 ∧ Filtre.enchaine ModAM.step s0 blocs = some (s, y) ∧ y.length = blocs.flatten.length ∧
      ∀ k (hk : k < (blocs.flatMap normaliseAM).length), |(blocs.flatMap normaliseAM)[k]| ≤ 1 ∧ 0 ≤ 1 + indice * (blocs.flatMap normaliseAM)[k] ∧
        y[k]? = some ((1 + indice * (blocs.flatMap normaliseAM)[k]) * Real.cos (2 * Real.pi * (k * f))) := by
  obtain ⟨s', e⟩ := dsb_enchaine f blocs (fun b h => Or.inr (hb b h)) ⟨.DSB, indice, ohcApres f 0, none⟩ rfl 0 rfl
  have hl : (blocs.flatMap normaliseAM).length = blocs.flatten.length := by simp [List.length_flatMap, List.length_flatten, normaliseAM]
  refine ⟨_, s', _, by simp [ModAM.cree, ModeAM.estBLU, ohc_apres_initial], e, by simp [porteuse_longueur, hl], fun k hk => ?_⟩
  have habs : |(blocs.flatMap normaliseAM)[k]| ≤ 1 := by
    have hmem := List.getElem_mem hk
    obtain ⟨b, hbm, hv⟩ := List.mem_flatMap.1 hmem
    generalize (blocs.flatMap normaliseAM)[k] = v at *
    obtain ⟨u, hu, rfl⟩ := List.mem_map.1 hv
    have hp := maxabs_pos b (hb b hbm)
    rw [abs_div, abs_of_pos hp, div_le_one hp]
    exact (Conception.valeurMax_prop _ (by intro h; rw [List.map_eq_nil_iff] at h; rw [h] at hu; exact absurd hu List.not_mem_nil)).2 _ (List.mem_map_of_mem hu)
  refine ⟨habs, ?_, ?_⟩
  · have := (abs_le.1 habs).1
    nlinarith
  · rw [List.getElem?_zipWith, porteuse_re f _ k (by omega), List.getElem?_eq_getElem hk]
    simp only [Option.some.injEq]
    rw [exp_ofReal_mul_I_re]

/-- Non-vacuity. -/
example : ∀ b ∈ [[(1 : ℝ), 0], [-3]], ∃ v ∈ b, v ≠ 0 := by simp

/-- **C109 refuted (cut).**  In the double side-band mode the gain depends on the block: the signal `1, 2` modulated at once and in two blocks gives different outputs. -/
theorem C109_decoupe_refute : ∃ s0 s y s' y', ModAM.cree .DSB 1 0 = some s0 ∧ Filtre.enchaine ModAM.step s0 [[1, 2]] = some (s, y) ∧ Filtre.enchaine ModAM.step s0 [[1], [2]] = some (s', y') ∧
    y = [3 / 2, 2] ∧ y' = [2, 2] := by
  obtain ⟨s, e⟩ := dsb_enchaine 0 [[1, 2]] (by intro b hb; right; simp at hb; subst hb; exact ⟨1, by simp, by norm_num⟩) ⟨.DSB, 1, ohcApres 0 0, none⟩ rfl 0 rfl
  obtain ⟨s', e'⟩ := dsb_enchaine 0 [[1], [2]] (by
    intro b hb; right; simp at hb
    rcases hb with rfl | rfl
    · exact ⟨1, by simp, by norm_num⟩
    · exact ⟨2, by simp, by norm_num⟩) ⟨.DSB, 1, ohcApres 0 0, none⟩ rfl 0 rfl
  refine ⟨_, s, _, s', _, by simp [ModAM.cree, ModeAM.estBLU, ohc_apres_initial], e, e', ?_, ?_⟩
  · simp [normaliseAM, porteuse, Conception.valeurMax, List.range_succ]
    norm_num
  · simp [normaliseAM, porteuse, Conception.valeurMax, List.range_succ]
    norm_num

/-- **C109 refuted (silence).**  In the double side-band mode a silent block divides zero by zero: no carrier is produced. -/
theorem C109_silence_refute (indice f : ℝ) (n : ℕ) (hn : 0 < n) : ∃ s0, ModAM.cree .DSB indice f = some s0 ∧ s0.step (List.replicate n 0) = none := by
  refine ⟨_, by simp [ModAM.cree, ModeAM.estBLU, ohc_apres_initial]; rfl, ?_⟩
  have h0 : Conception.valeurMax ((List.replicate n (0 : ℝ)).map fun v : ℝ => |v|) = 0 := by
    have hne : (List.replicate n (0 : ℝ)).map (fun v : ℝ => |v|) ≠ [] := by simp; omega
    have := (Conception.valeurMax_prop _ hne).1
    simp at this
    simpa using this.2
  simp only [ModAM.step, h0]
  rw [if_pos ⟨trivial, by simp; omega⟩]

/-! ### Single side-band -/

theorem hilbert_step_longueur (h h' : Conception.Hilbert) (u : List ℝ) (z : List ℂ) (e : Conception.Hilbert.step h u = some (h', z)) : z.length = u.length := by
  unfold Conception.Hilbert.step at e
  simp only [Option.bind_eq_bind, Option.bind_eq_some_iff] at e
  obtain ⟨a, -, b, -, e⟩ := e
  split at e
  · rename_i hc
    simp only [Option.some.injEq, Prod.mk.injEq] at e
    rw [← e.2, List.length_zipWith, hc.1, hc.2, min_self]
  · cases e

theorem blu_enchaine (f σ : ℝ) (blocs : List (List ℝ)) (s : ModAM) (hm : (s.mode = .USB ∧ σ = 1) ∨ (s.mode = .LSB ∧ σ = -1)) (k : ℕ) (ho : s.ol = ohcApres f k) (h h' : Conception.Hilbert) (z : List ℂ)
    (hh : s.hilbert = some h) (e : Filtre.enchaine Conception.Hilbert.step h blocs = some (h', z)) :
    ∃ s', Filtre.enchaine ModAM.step s blocs = some (s', List.zipWith (fun (z o : ℂ) => z.re * o.re + σ * z.im * o.im) z (porteuse f k z.length)) := by
  induction blocs generalizing s k h z with
  | nil =>
    simp only [Filtre.enchaine, Option.some.injEq, Prod.mk.injEq] at e
    exact ⟨s, by simp [Filtre.enchaine, ← e.2]⟩
  | cons b l ih =>
    simp only [Filtre.enchaine] at e
    cases e1 : Conception.Hilbert.step h b with
    | none => rw [e1] at e; simp at e
    | some q =>
      obtain ⟨h1, z1⟩ := q
      rw [e1] at e
      simp only at e
      cases e2 : Filtre.enchaine Conception.Hilbert.step h1 l with
      | none => rw [e2] at e; simp at e
      | some q =>
        obtain ⟨h2, z2⟩ := q
        rw [e2] at e
        simp only [Option.some.injEq, Prod.mk.injEq] at e
        have es : s.step b = some ({ s with ol := ohcApres f (k + z1.length), hilbert := some h1 }, List.zipWith (fun (z o : ℂ) => z.re * o.re + σ * z.im * o.im) z1 (porteuse f k z1.length)) := by
          unfold ModAM.step
          rcases hm with ⟨hm, rfl⟩ | ⟨hm, rfl⟩ <;> rw [hm] <;> simp only [ho, ohc_apres_step, hh, e1, Option.bind_some, Option.map_some] <;> rfl
        obtain ⟨s', e'⟩ := ih { s with ol := ohcApres f (k + z1.length), hilbert := some h1 } hm (k + z1.length) rfl h1 z2 rfl (by rw [e2, ← e.1])
        refine ⟨s', ?_⟩
        simp only [Filtre.enchaine, es, e']
        rw [← e.2, List.length_append, porteuse_append, List.zipWith_append (by rw [porteuse_longueur])]

/-- Specification: the two side bands of a tone of frequency `ν` around the carrier `f`, at sample `k`, delayed by `D` samples at audio frequency. -/
noncomputable def bandeInferieure (f ν : ℝ) (D k : ℕ) : ℝ := Real.cos (2 * Real.pi * (f - ν) * k + 2 * Real.pi * ν * D)
/-- Same, upper side band. -/
noncomputable def bandeSuperieure (f ν : ℝ) (D k : ℕ) : ℝ := Real.cos (2 * Real.pi * (f + ν) * k - 2 * Real.pi * ν * D)

/-- **C109 refuted (side bands).**  The two single side-band modes are exchanged: for every audio tone `cos(2πνk)`, `0 < ν < 1/2`, and whatever the cut into blocks, once the filter is filled the mode USB
(documented as: upper side band) emits the lower side band with the gain `(1+G)/2` and the upper one with the smaller gain `(1-G)/2`, `G > 0`; the mode LSB does the converse. -/
theorem C109_bandes_refute (indice f ν : ℝ) (h0 : 0 < ν) (h1 : ν < 1 / 2) : ∃ G : ℝ, 0 < G ∧ ∀ (blocs : List (List ℝ)) (N : ℕ), blocs.flatten = ((List.range N).map fun k : ℕ => Real.cos (2 * Real.pi * ν * k)) →
    (∃ s0 s y, ModAM.cree .USB indice f = some s0 ∧ Filtre.enchaine ModAM.step s0 blocs = some (s, y) ∧ y.length = N ∧ ∀ k, 254 ≤ k → k < N →
      y[k]? = some ((1 + G) / 2 * bandeInferieure f ν 127 k + (1 - G) / 2 * bandeSuperieure f ν 127 k)) ∧
    (∃ s0 s y, ModAM.cree .LSB indice f = some s0 ∧ Filtre.enchaine ModAM.step s0 blocs = some (s, y) ∧ y.length = N ∧ ∀ k, 254 ≤ k → k < N →
      y[k]? = some ((1 + G) / 2 * bandeSuperieure f ν 127 k + (1 - G) / 2 * bandeInferieure f ν 127 k)) := by
  obtain ⟨h, eh, hl, hG⟩ := Conception.C82_sinus 255 (by norm_num) (by norm_num) "hn" .hann (by decide) (by decide) (Conception.hann_milieu 255 (by norm_num) (by norm_num))
  have hω1 : 2 * Real.pi * ν < Real.pi := by nlinarith [Real.pi_pos]
  obtain ⟨hGp, hr⟩ := hG (2 * Real.pi * ν) (by have := Real.pi_pos; positivity) hω1
  refine ⟨_, hGp, fun blocs N hb => ?_⟩
  generalize Conception.gainImpair h (2 * Real.pi * ν) = G at *
  obtain ⟨h', s0, s, z, e1, e2, e3, lz, hz⟩ := Conception.C82_flux 255 (by norm_num) "hn" .hann (by decide) (by decide) blocs
  rw [eh, Option.some.injEq] at e1
  subst e1
  have hN : blocs.flatten.length = N := by rw [hb]; simp
  have hzk : ∀ k, 254 ≤ k → k < N → z.getD k 0 = ⟨Real.cos (2 * Real.pi * ν * (k - 127)), G * Real.sin (2 * Real.pi * ν * (k - 127))⟩ := by
    intro k hk hkN
    rw [hz k (by omega)]
    refine Complex.ext ?_ ?_
    · show (if 255 / 2 ≤ k then blocs.flatten.getD (k - 255 / 2) 0 else 0) = Real.cos (2 * Real.pi * ν * (k - 127))
      rw [if_pos (by omega), hb, List.getD_eq_getElem?_getD, List.getElem?_map, List.getElem?_range (by omega), Option.map_some, Option.getD_some, Nat.cast_sub (by omega)]
      norm_num
    · show Filtre.convolution h blocs.flatten k = G * Real.sin (2 * Real.pi * ν * (k - 127))
      have q := hr 0 k
      have q2 := Conception.regime_convolution h (fun u : ℤ => Real.cos (2 * Real.pi * ν * u + 0)) N k (by omega) hkN
      rw [q] at q2
      rw [hb]
      have q3 : (List.range N).map (fun i : ℕ => Real.cos (2 * Real.pi * ν * ((i : ℤ) : ℝ) + 0)) = (List.range N).map fun k : ℕ => Real.cos (2 * Real.pi * ν * k) := by
        apply List.map_congr_left
        intro i _
        rw [add_zero, Int.cast_natCast]
      rw [q3] at q2
      rw [← q2, add_zero]
      norm_num
  have trig : ∀ k : ℕ, Real.cos (2 * Real.pi * ν * (k - 127)) * Real.cos (2 * Real.pi * (k * f)) = 1 / 2 * bandeInferieure f ν 127 k + 1 / 2 * bandeSuperieure f ν 127 k ∧
      Real.sin (2 * Real.pi * ν * (k - 127)) * Real.sin (2 * Real.pi * (k * f)) = 1 / 2 * bandeInferieure f ν 127 k - 1 / 2 * bandeSuperieure f ν 127 k := by
    intro k
    unfold bandeInferieure bandeSuperieure
    rw [show 2 * Real.pi * (f - ν) * k + 2 * Real.pi * ν * (127 : ℕ) = 2 * Real.pi * (k * f) - 2 * Real.pi * ν * (k - 127) by push_cast; ring,
      show 2 * Real.pi * (f + ν) * k - 2 * Real.pi * ν * (127 : ℕ) = 2 * Real.pi * (k * f) + 2 * Real.pi * ν * (k - 127) by push_cast; ring, Real.cos_sub, Real.cos_add]
    constructor <;> ring
  have fin : ∀ (σ : ℝ) (k : ℕ), 254 ≤ k → k < N → (List.zipWith (fun (z o : ℂ) => z.re * o.re + σ * z.im * o.im) z (porteuse f 0 z.length))[k]? =
      some (Real.cos (2 * Real.pi * ν * (k - 127)) * Real.cos (2 * Real.pi * (k * f)) + σ * G * (Real.sin (2 * Real.pi * ν * (k - 127)) * Real.sin (2 * Real.pi * (k * f)))) := by
    intro σ k hk hkN
    rw [List.getElem?_zipWith, porteuse_re f _ k (by omega), List.getElem?_eq_getElem (by omega)]
    have := hzk k hk hkN
    rw [List.getD_eq_getElem _ _ (by omega)] at this
    simp only [Option.some.injEq, this]
    rw [exp_ofReal_mul_I_re, exp_ofReal_mul_I_im]
    ring
  constructor
  · obtain ⟨s', e⟩ := blu_enchaine f 1 blocs ⟨.USB, indice, ohcApres f 0, some s0⟩ (Or.inl ⟨rfl, rfl⟩) 0 rfl s0 s z rfl e3
    refine ⟨_, s', _, by simp [ModAM.cree, ModeAM.estBLU, ohc_apres_initial, e2], e, by rw [List.length_zipWith, porteuse_longueur]; omega, fun k hk hkN => ?_⟩
    rw [fin 1 k hk hkN, (trig k).1, (trig k).2, Option.some.injEq]
    ring
  · obtain ⟨s', e⟩ := blu_enchaine f (-1) blocs ⟨.LSB, indice, ohcApres f 0, some s0⟩ (Or.inr ⟨rfl, rfl⟩) 0 rfl s0 s z rfl e3
    refine ⟨_, s', _, by simp [ModAM.cree, ModeAM.estBLU, ohc_apres_initial, e2], e, by rw [List.length_zipWith, porteuse_longueur]; omega, fun k hk hkN => ?_⟩
    rw [fin (-1) k hk hkN, (trig k).1, (trig k).2, Option.some.injEq]
    ring

end Verif.Telecom
