import Verif.Fourier.Detecteur
import Verif.Fourier.DelaisProps
import Verif.Filtre.Props

/-!
# C112: normalised correlation of the pattern detector (filter mode)
-/

namespace Verif.Fourier

open Finset

/-! ### Specification -/

/-- Sample `i` of the window of `M` samples of `x` that ends at the sample `k` (null before the start). -/
noncomputable def fen (M : ℕ) (x : List ℂ) (k : ℤ) (i : ℕ) : ℂ := ech x (k - ((M : ℤ) - 1) + i)

/-- Correlation of the pattern `h` with the window that ends at `k`: `∑ x_{n+i} h_i*`. -/
noncomputable def correl (h x : List ℂ) (k : ℤ) : ℂ := ∑ i ∈ range h.length, fen h.length x k i * star (h.getD i 0)

/-- Energy of the window of `M` samples that ends at `k`. -/
noncomputable def enFen (M : ℕ) (x : List ℂ) (k : ℤ) : ℝ := ∑ i ∈ range M, ‖fen M x k i‖ ^ 2

/-- Energy of the pattern. -/
noncomputable def enMotif (h : List ℂ) : ℝ := ∑ i ∈ range h.length, ‖h.getD i 0‖ ^ 2

/-- The documented score of the window that ends at `k`, with the two regularisations of the code: correlations below `10⁻⁶` are null, and
the energy is increased by `M 10⁻²⁰`. -/
noncomputable def scoreDet (h x : List ℂ) (k : ℤ) : ℝ :=
  if ‖correl h x k‖ / Real.sqrt (enMotif h) ≤ 1 / 10 ^ 6 then 0
  else ‖correl h x k‖ / Real.sqrt ((enFen h.length x k + h.length / 10 ^ 20) * enMotif h)

/-- The pattern is real, or its imaginary part is not relatively small. -/
def Franc (h : List ℂ) : Prop := (∀ v ∈ h, v.im = 0) ∨ (h.map fun v : ℂ => ‖v‖).sum ≤ 10 ^ 7 * (h.map fun v : ℂ => |v.im|).sum

/-! ### Bounds of the score -/

/-- Energy of what remains when the best multiple of the pattern is removed. -/
theorem projection (h x : List ℂ) (k : ℤ) (hH : 0 < enMotif h) :
    ∑ i ∈ range h.length, ‖fen h.length x k i - correl h x k / (enMotif h : ℂ) * h.getD i 0‖ ^ 2 = enFen h.length x k - ‖correl h x k‖ ^ 2 / enMotif h := by
  set C := correl h x k with hC
  set H := enMotif h with hHd
  have key : ∀ i, ‖fen h.length x k i - C / (H : ℂ) * h.getD i 0‖ ^ 2 =
      ‖fen h.length x k i‖ ^ 2 - 2 / H * ((star C) * (fen h.length x k i * star (h.getD i 0))).re + ‖C‖ ^ 2 / H ^ 2 * ‖h.getD i 0‖ ^ 2 := by
    intro i
    generalize fen h.length x k i = w
    generalize h.getD i 0 = v
    have e1 : ∀ z : ℂ, ‖z‖ ^ 2 = z.re ^ 2 + z.im ^ 2 := by intro z; rw [← Complex.normSq_eq_norm_sq, Complex.normSq_apply]; ring
    rw [e1, e1, e1, e1]
    have hr : (C / (H : ℂ) * v).re = (C.re * v.re - C.im * v.im) / H := by
      rw [Complex.mul_re, Complex.div_ofReal_re, Complex.div_ofReal_im]; ring
    have hi : (C / (H : ℂ) * v).im = (C.re * v.im + C.im * v.re) / H := by
      rw [Complex.mul_im, Complex.div_ofReal_re, Complex.div_ofReal_im]; ring
    rw [Complex.sub_re, Complex.sub_im, hr, hi]
    simp only [RCLike.star_def, Complex.mul_re, Complex.mul_im, Complex.conj_re, Complex.conj_im]
    field_simp
    ring
  rw [sum_congr rfl fun i _ => key i, sum_add_distrib, sum_sub_distrib, ← mul_sum, ← mul_sum, ← Complex.re_sum, ← mul_sum]
  have e2 : ∑ i ∈ range h.length, fen h.length x k i * star (h.getD i 0) = C := hC.symm ▸ rfl
  have e3 : ∑ i ∈ range h.length, ‖h.getD i 0‖ ^ 2 = H := rfl
  have e4 : ((star C) * C).re = ‖C‖ ^ 2 := by
    rw [RCLike.star_def, mul_comm, Complex.mul_conj, Complex.ofReal_re, Complex.normSq_eq_norm_sq]
  rw [e2, e3, e4]
  unfold enFen
  field_simp
  ring

/-- **C112 (bounds).**  The score of every window lies in [0, 1). Without the regularisations it would be at most 1, and equal to 1 exactly when the window is
a multiple of the pattern: `|∑ x h*|² ≤ (∑ |x|²)(∑ |h|²)`, with equality if and only if `x = a h`. -/
theorem C112_bornes (h x : List ℂ) (k : ℤ) (hH : 0 < enMotif h) :
    0 ≤ scoreDet h x k ∧ scoreDet h x k < 1 ∧ ‖correl h x k‖ ^ 2 ≤ enFen h.length x k * enMotif h ∧
      (‖correl h x k‖ ^ 2 = enFen h.length x k * enMotif h ↔ ∃ a : ℂ, ∀ i, i < h.length → fen h.length x k i = a * h.getD i 0) := by
  have hp := projection h x k hH
  have hc : ‖correl h x k‖ ^ 2 ≤ enFen h.length x k * enMotif h := by
    have : 0 ≤ enFen h.length x k - ‖correl h x k‖ ^ 2 / enMotif h := by rw [← hp]; exact sum_nonneg fun _ _ => by positivity
    rw [← div_le_iff₀ hH]; linarith
  refine ⟨?_, ?_, hc, ?_, ?_⟩
  · unfold scoreDet; split
    · exact le_rfl
    · positivity
  · unfold scoreDet; split
    · norm_num
    · rename_i hn
      have hl : 0 < h.length := by
        by_contra h0
        have : h = [] := List.length_eq_zero_iff.1 (by omega)
        rw [this] at hH; simp [enMotif] at hH
      have hlr : (0 : ℝ) < h.length := by exact_mod_cast hl
      have hE : 0 ≤ enFen h.length x k := sum_nonneg fun _ _ => by positivity
      have hpos : 0 < (enFen h.length x k + h.length / 10 ^ 20) * enMotif h := by positivity
      rw [div_lt_one (Real.sqrt_pos.2 hpos)]
      refine Real.lt_sqrt_of_sq_lt (lt_of_le_of_lt hc ?_)
      have : (0 : ℝ) < h.length / 10 ^ 20 := by positivity
      nlinarith
  · intro he
    have h0 : ∑ i ∈ range h.length, ‖fen h.length x k i - correl h x k / (enMotif h : ℂ) * h.getD i 0‖ ^ 2 = 0 := by
      rw [hp, he]; field_simp; ring
    rw [sum_eq_zero_iff_of_nonneg fun _ _ => by positivity] at h0
    refine ⟨correl h x k / (enMotif h : ℂ), fun i hi => ?_⟩
    have := h0 i (mem_range.2 hi)
    rw [sq_eq_zero_iff, norm_eq_zero, sub_eq_zero] at this
    exact this
  · rintro ⟨a, ha⟩
    have e1 : correl h x k = a * (enMotif h : ℂ) := by
      unfold correl enMotif
      rw [Complex.ofReal_sum, mul_sum]
      refine sum_congr rfl fun i hi => ?_
      rw [ha i (mem_range.1 hi), mul_assoc, RCLike.star_def, Complex.mul_conj, Complex.normSq_eq_norm_sq]
    have e2 : enFen h.length x k = ‖a‖ ^ 2 * enMotif h := by
      unfold enFen enMotif
      rw [mul_sum]
      refine sum_congr rfl fun i hi => ?_
      rw [ha i (mem_range.1 hi), norm_mul, mul_pow]
    rw [e1, e2, norm_mul, Complex.norm_real, Real.norm_eq_abs, abs_of_pos hH]
    ring

/-- **C112 (exact copy).**  When the window is `a h`, with `|a| ‖h‖ > 10⁻⁶`, the correlation divided by the energy of the pattern is `a`, and the score is 1 up to the
regularisation of the energy. -/
theorem C112_copie (h x : List ℂ) (k : ℤ) (hH : 0 < enMotif h) (a : ℂ) (ha : ∀ i, i < h.length → fen h.length x k i = a * h.getD i 0) (hs : 1 / 10 ^ 6 < ‖a‖ * Real.sqrt (enMotif h)) :
    correl h x k / (enMotif h : ℂ) = a ∧ scoreDet h x k = Real.sqrt (1 / (1 + h.length / 10 ^ 20 / (‖a‖ ^ 2 * enMotif h))) := by
  have e1 : correl h x k = a * (enMotif h : ℂ) := by
    unfold correl enMotif
    rw [Complex.ofReal_sum, mul_sum]
    refine sum_congr rfl fun i hi => ?_
    rw [ha i (mem_range.1 hi), mul_assoc, RCLike.star_def, Complex.mul_conj, Complex.normSq_eq_norm_sq]
  have e2 : enFen h.length x k = ‖a‖ ^ 2 * enMotif h := by
    unfold enFen enMotif
    rw [mul_sum]
    refine sum_congr rfl fun i hi => ?_
    rw [ha i (mem_range.1 hi), norm_mul, mul_pow]
  have hHc : (enMotif h : ℂ) ≠ 0 := by exact_mod_cast hH.ne'
  refine ⟨by rw [e1, mul_div_cancel_right₀ _ hHc], ?_⟩
  have hsq := Real.mul_self_sqrt hH.le
  have hsp := Real.sqrt_pos.2 hH
  have ha0 : 0 < ‖a‖ := by
    by_contra hc
    have : ‖a‖ = 0 := le_antisymm (not_lt.1 hc) (norm_nonneg _)
    rw [this, zero_mul] at hs; norm_num at hs
  have en : ‖correl h x k‖ = ‖a‖ * enMotif h := by rw [e1, norm_mul, Complex.norm_real, Real.norm_eq_abs, abs_of_pos hH]
  unfold scoreDet
  rw [if_neg, en, e2]
  · rw [← Real.sqrt_sq (show 0 ≤ ‖a‖ * enMotif h by positivity), ← Real.sqrt_div' _ (by positivity)]
    congr 1
    field_simp
  · rw [en, not_le, lt_div_iff₀ hsp]
    have : ‖a‖ * enMotif h = ‖a‖ * Real.sqrt (enMotif h) * Real.sqrt (enMotif h) := by rw [mul_assoc, hsq]
    rw [this]
    exact mul_lt_mul_of_pos_right hs hsp

/-! ### Streams -/

theorem boucle_long {S X Y : Type} (f : S → X → Option (S × Y)) (x : List X) : ∀ (s s' : S) (y : List Y), Filtre.boucle f s x = some (s', y) → y.length = x.length := by
  induction x with
  | nil => intro s s' y h; simp [Filtre.boucle] at h; rw [h.2]; rfl
  | cons a l ih =>
    intro s s' y h
    unfold Filtre.boucle at h
    cases e : f s a with
    | none => rw [e] at h; simp at h
    | some p =>
      obtain ⟨s1, y1⟩ := p
      rw [e] at h
      simp only at h
      cases e2 : Filtre.boucle f s1 l with
      | none => rw [e2] at h; simp at h
      | some q =>
        obtain ⟨s2, y2⟩ := q
        rw [e2] at h
        simp only [Option.some.injEq, Prod.mk.injEq] at h
        rw [← h.2, List.length_cons, List.length_cons, ih s1 s2 y2 e2]

theorem enchaine_cons {S X Y : Type} {f : Filtre.Bloc S X Y} {s s' : S} {b : List X} {l : List (List X)} {y : List Y} (h : Filtre.enchaine f s (b :: l) = some (s', y)) :
    ∃ s1 y1 y2, f s b = some (s1, y1) ∧ Filtre.enchaine f s1 l = some (s', y2) ∧ y = y1 ++ y2 := by
  simp only [Filtre.enchaine] at h
  cases e1 : f s b with
  | none => rw [e1] at h; simp at h
  | some q =>
    obtain ⟨s1, y1⟩ := q
    rw [e1] at h
    simp only at h
    cases e2 : Filtre.enchaine f s1 l with
    | none => rw [e2] at h; simp at h
    | some q =>
      obtain ⟨s2, y2⟩ := q
      rw [e2] at h
      simp only [Option.some.injEq, Prod.mk.injEq] at h
      exact ⟨s1, y1, y2, rfl, by rw [← h.1]; exact e2, h.2.symm⟩

theorem rif_long (r r' : Filtre.Rif ℂ ℂ) (x y : List ℂ) (h : Filtre.Rif.step (0 : ℂ) (· + ·) (· * ·) r x = some (r', y)) : y.length = x.length := by
  unfold Filtre.Rif.step at h
  split at h
  · simp at h
  · exact boucle_long _ _ _ _ _ h

theorem mg_long (g : ℝ → ℝ) (r r' : Filtre.Mg ℝ) (x y : List ℝ) (h : Filtre.Mg.step (· + ·) (· - ·) g r x = some (r', y)) : y.length = x.length := by
  unfold Filtre.Mg.step at h
  split at h
  · simp at h
  · exact boucle_long _ _ _ _ _ h

/-- The loop on the peaks always succeeds for patterns of at least two samples. -/
theorem boucleDet_some (s : Chercheur) (y : List ℝ) (corr : List ℂ) (hM : 2 ≤ s.M) (hy : 2 ≤ y.length) (l : List (Option ℕ)) (hl : none ∈ l → s.picFinal.isSome) :
    ∃ r, boucleDet s y corr l = some r := by
  induction l with
  | nil => exact ⟨_, rfl⟩
  | cons i l ih =>
    have ht : ∃ q, traite s y corr i = some q := by
      cases i with
      | none =>
        obtain ⟨d, hd⟩ := Option.isSome_iff_exists.1 (hl (by simp))
        simp only [traite, hd]
        split <;> exact ⟨_, rfl⟩
      | some i =>
        cases i with
        | zero =>
          simp only [traite]
          rw [if_neg (by omega)]
          split <;> exact ⟨_, rfl⟩
        | succ i =>
          simp only [traite]
          split <;> exact ⟨_, rfl⟩
    obtain ⟨q, hq⟩ := ht
    simp only [boucleDet, hq]
    obtain ⟨r, hr⟩ := ih fun h => hl (by simp [h])
    cases q with
    | inl p => exact ⟨_, rfl⟩
    | inr d =>
      simp only
      rw [if_neg (by omega), hr]
      exact ⟨_, rfl⟩

theorem chercheur_step (s : Chercheur) (corr : List ℂ) (en : List ℝ) (hM : 2 ≤ s.M) (hl : corr.length = en.length) (h2 : 2 ≤ corr.length) :
    ∃ s' d, s.step corr en = some (s', normaliseCorr s.N s.M (seuille corr) en, d) ∧ s'.M = s.M ∧ s'.N = s.N ∧ s'.delais = s.delais ∧ s'.seuil = s.seuil ∧ s'.norme = s.norme := by
  unfold Chercheur.step
  rw [if_neg (by omega)]
  simp only
  obtain ⟨r, hr⟩ := boucleDet_some s (normaliseCorr s.N s.M (seuille corr) en) (seuille corr) hM (by simp [normaliseCorr, seuille]; omega)
    ((if s.picFinal.isSome then [none] else []) ++ (pics s.M s.seuil (normaliseCorr s.N s.M (seuille corr) en)).map some) (by
      intro h
      by_contra hc
      rw [if_neg hc] at h
      simp at h)
  rw [hr]
  exact ⟨_, _, rfl, rfl, rfl, rfl, rfl, rfl⟩

theorem flux_some (xs : List (List ℂ)) (s : DetRif) (M : ℕ) (hM : s.ch.M = M) (h2 : 2 ≤ M) (hb : ∀ b ∈ xs, 2 ≤ b.length) (r' : Filtre.Rif ℂ ℂ) (m' : Filtre.Mg ℝ) (c : List ℂ) (e : List ℝ)
    (hr : Filtre.enchaine (Filtre.Rif.step (0 : ℂ) (· + ·) (· * ·)) s.rif xs = some (r', c))
    (hm : Filtre.enchaine (Filtre.Mg.step (· + ·) (· - ·) (fun a : ℝ => a * (1 / (M : ℝ)))) s.mg (xs.map fun x => x.map fun v : ℂ => ‖v‖ ^ 2) = some (m', e)) :
    ∃ s' d, s.flux xs = some (s', normaliseCorr s.ch.N M (seuille c) e, d) ∧ d.length = xs.length := by
  induction xs generalizing s c e with
  | nil =>
    simp only [Filtre.enchaine, List.map_nil, Option.some.injEq, Prod.mk.injEq] at hr hm
    rw [← hr.2, ← hm.2]
    exact ⟨s, [], rfl, rfl⟩
  | cons x xs ih =>
    obtain ⟨r1, c1, c2, f1, f2, rfl⟩ := enchaine_cons hr
    rw [List.map_cons] at hm
    obtain ⟨m1, e1, e2, g1, g2, rfl⟩ := enchaine_cons hm
    have lc := rif_long _ _ _ _ f1
    have le := mg_long _ _ _ _ _ g1
    rw [List.length_map] at le
    have hx := hb x (by simp)
    obtain ⟨ch', d1, hs, p1, p2, -⟩ := chercheur_step s.ch c1 e1 (by omega) (by omega) (by omega)
    have hstep : s.step x = some (⟨r1, m1, ch'⟩, normaliseCorr s.ch.N M (seuille c1) e1, d1) := by
      unfold DetRif.step
      rw [hM, g1, Option.bind_some]
      simp only
      rw [f1, Option.bind_some]
      simp only
      rw [hs, hM]
      rfl
    obtain ⟨s', d, hf, hd⟩ := ih ⟨r1, m1, ch'⟩ (by rw [← hM]; exact p1) (fun b h => hb b (by simp [h])) c2 e2 f2 g2
    refine ⟨s', d1 :: d, ?_, by simp [hd]⟩
    unfold DetRif.flux
    rw [hstep, Option.bind_some]
    simp only
    rw [hf, Option.map_some]
    simp only [p2]
    congr 3
    unfold normaliseCorr seuille
    rw [List.map_append, List.zipWith_append (by rw [List.length_map]; omega)]

/-! ### Coefficients -/

theorem normeMotif_carre (h : List ℂ) : normeMotif h = Real.sqrt (enMotif h) := by
  unfold normeMotif enMotif
  congr 1
  induction h with
  | nil => simp
  | cons v h ih => rw [List.map_cons, List.sum_cons, ih, List.length_cons, sum_range_succ', List.getD_cons_zero, add_comm]; simp

theorem coefs_franc (h : List ℂ) (r : ℝ) (hr : 0 < r) (hf : Franc h) (hne : 0 < enMotif h) :
    coefsMotif (h.map fun v : ℂ => v / (r : ℂ)) = h.reverse.map fun v : ℂ => (starRingEnd ℂ) v / (r : ℂ) := by
  have e1 : ((h.map fun v : ℂ => v / (r : ℂ)).map fun v : ℂ => |v.im|).sum = (h.map fun v : ℂ => |v.im|).sum / r := by
    rw [List.map_map, div_eq_mul_inv, ← List.sum_map_mul_right]
    congr 1
    apply List.map_congr_left
    intro v _
    simp only [Function.comp, Complex.div_ofReal_im, abs_div, abs_of_pos hr]; ring
  have e2 : ((h.map fun v : ℂ => v / (r : ℂ)).map fun v : ℂ => ‖v‖).sum = (h.map fun v : ℂ => ‖v‖).sum / r := by
    rw [List.map_map, div_eq_mul_inv, ← List.sum_map_mul_right]
    congr 1
    apply List.map_congr_left
    intro v _
    simp only [Function.comp, norm_div, Complex.norm_real, Real.norm_eq_abs, abs_of_pos hr]; ring
  have hS : 0 < (h.map fun v : ℂ => ‖v‖).sum := by
    rcases (List.sum_nonneg (l := h.map fun v : ℂ => ‖v‖) (by simp)).lt_or_eq with h1 | h1
    · exact h1
    · exfalso
      have hz : ∀ v ∈ h, v = 0 := by
        intro v hv
        have := List.single_le_sum (l := h.map fun v : ℂ => ‖v‖) (by simp) ‖v‖ (List.mem_map.2 ⟨v, hv, rfl⟩)
        rw [← h1] at this
        exact norm_le_zero_iff.1 this
      have : enMotif h = 0 := by
        unfold enMotif
        refine sum_eq_zero fun i hi => ?_
        rw [List.getD_eq_getElem _ _ (mem_range.1 hi), hz _ (List.getElem_mem _)]; simp
      linarith
  unfold coefsMotif
  rw [e1, e2, div_div_div_cancel_right₀ hr.ne', ← List.map_reverse, List.map_map, List.map_map]
  split
  · rename_i hlt
    rcases hf with hf | hf
    · apply List.map_congr_left
      intro v hv
      simp only [Function.comp, Complex.div_ofReal_re]
      have := hf v (List.mem_reverse.1 hv)
      have hv' : (starRingEnd ℂ) v = (v.re : ℂ) := by
        apply Complex.ext <;> simp [this]
      rw [hv', Complex.ofReal_div]
    · exfalso
      rw [div_lt_iff₀ hS] at hlt
      norm_num at hlt hf
      linarith
  · apply List.map_congr_left
    intro v _
    simp only [Function.comp, map_div₀, Complex.conj_ofReal]

theorem passe_ech (x : List ℂ) (n k : ℕ) : Filtre.passe x n k = ech x ((n : ℤ) - k) := by
  unfold Filtre.passe ech
  by_cases h : k ≤ n
  · rw [if_pos h, if_pos (by omega)]; congr 1; omega
  · rw [if_neg h, if_neg (by omega)]

theorem convol_correl (h x : List ℂ) (r : ℝ) (k : ℕ) :
    Filtre.convolution (h.reverse.map fun v : ℂ => (starRingEnd ℂ) v / (r : ℂ)) x k = correl h x k / (r : ℂ) := by
  unfold Filtre.convolution correl
  rw [List.length_map, List.length_reverse, ← sum_range_reflect, sum_div]
  refine sum_congr rfl fun i hi => ?_
  have hi := mem_range.1 hi
  rw [List.getD_eq_getElem _ _ (by simp; omega), List.getElem_map, List.getElem_reverse, passe_ech, List.getD_eq_getElem _ _ (by omega)]
  simp only [show h.length - 1 - (h.length - 1 - i) = i by omega, RCLike.star_def]
  unfold fen
  rw [show (k : ℤ) - ((h.length - 1 - i : ℕ) : ℤ) = k - ((h.length : ℤ) - 1) + i by omega]
  ring

theorem moyenne_energie (M : ℕ) (x : List ℂ) (k : ℕ) : Filtre.moyenne M (x.map fun v : ℂ => ‖v‖ ^ 2) k = enFen M x k / M := by
  unfold Filtre.moyenne enFen
  congr 1
  rw [← sum_range_reflect]
  refine sum_congr rfl fun i hi => ?_
  have hi := mem_range.1 hi
  have e : Filtre.passe (x.map fun v : ℂ => ‖v‖ ^ 2) k (M - 1 - i) = ‖Filtre.passe x k (M - 1 - i)‖ ^ 2 := by
    unfold Filtre.passe
    split
    · rw [List.getD_eq_getElem?_getD, List.getElem?_map, List.getD_eq_getElem?_getD]
      cases x[k - (M - 1 - i)]? <;> simp
    · simp
  rw [e, passe_ech]
  unfold fen
  congr 3
  omega

/-- Value of the normalised correlation. -/
theorem valeur_score (h : List ℂ) (x : List ℂ) (k : ℤ) (hM : 0 < h.length) (hH : 0 < enMotif h) (N : ℕ) (hN : 0 < N) (c : ℂ) (hc : c = correl h x k / (Real.sqrt (enMotif h) : ℂ) / (Real.sqrt N : ℂ))
    (hs : (if ‖c‖ ≤ 1 / 10 ^ 6 then (0 : ℂ) else c) = (if ‖correl h x k‖ / Real.sqrt (enMotif h) ≤ 1 / 10 ^ 6 then (0 : ℂ) else c)) :
    Real.sqrt N / Real.sqrt h.length * Real.sqrt (‖if ‖c‖ ≤ 1 / 10 ^ 6 then (0 : ℂ) else c‖ ^ 2 / (enFen h.length x k / h.length + 1 / 10 ^ 20)) = scoreDet h x k := by
  have hMr : (0 : ℝ) < h.length := by exact_mod_cast hM
  have hNr : (0 : ℝ) < N := by exact_mod_cast hN
  have hE : 0 ≤ enFen h.length x k := sum_nonneg fun _ _ => by positivity
  rw [hs]
  unfold scoreDet
  split
  · simp
  · have hcn : ‖c‖ ^ 2 = ‖correl h x k‖ ^ 2 / enMotif h / N := by
      rw [hc, norm_div, norm_div, Complex.norm_real, Complex.norm_real, Real.norm_eq_abs, Real.norm_eq_abs, abs_of_nonneg (Real.sqrt_nonneg _), abs_of_nonneg (Real.sqrt_nonneg _),
        div_pow, div_pow, Real.sq_sqrt hH.le, Real.sq_sqrt hNr.le]
    rw [hcn, ← Real.sqrt_div' _ hMr.le, ← Real.sqrt_mul (by positivity), ← Real.sqrt_sq (norm_nonneg (correl h x k)), ← Real.sqrt_div' _ (by positivity), Real.sqrt_sq (norm_nonneg _)]
    congr 1
    field_simp

/-- **C112 (filter mode).**  For every non-null pattern of at least two samples (real, or with an imaginary part that is not negligible), the detector in filter mode
is created, processes every stream in blocks of at least two samples, and the output is the documented score of the window that ends at each sample, whatever the cutting into blocks. -/
theorem C112_rif (h : List ℂ) (seuil : ℝ) (hM : 2 ≤ h.length) (hH : ∃ v ∈ h, v ≠ 0) (hf : Franc h) (xs : List (List ℂ)) (hb : ∀ b ∈ xs, 2 ≤ b.length) :
    ∃ s0 s y d, DetRif.cree h seuil = some s0 ∧ s0.flux xs = some (s, y, d) ∧ d.length = xs.length ∧ y.length = xs.flatten.length ∧
      ∀ k, k < y.length → y[k]? = some (scoreDet h xs.flatten k) := by
  have hE : 0 < enMotif h := by
    obtain ⟨v, hv, h0⟩ := hH
    obtain ⟨i, hi, rfl⟩ := List.getElem_of_mem hv
    refine sum_pos' (fun _ _ => by positivity) ⟨i, mem_range.2 hi, ?_⟩
    rw [List.getD_eq_getElem _ _ hi]
    have := norm_pos_iff.2 h0
    positivity
  have hr : 0 < normeMotif h := by rw [normeMotif_carre]; exact Real.sqrt_pos.2 hE
  have hcree : DetRif.cree h seuil = some ⟨Filtre.Rif.init 0 (h.reverse.map fun v : ℂ => (starRingEnd ℂ) v / (normeMotif h : ℂ)), Filtre.Mg.init 0 h.length, ⟨h.length, 1, h.length - 1, seuil, normeMotif h, 0, 0, 0, 0, none, 0⟩⟩ := by
    unfold DetRif.cree
    simp only
    rw [if_neg hr.ne', coefs_franc h _ hr hf hE]
  obtain ⟨r', c, hc1, hc2, hc3⟩ := Filtre.C19_convolution (h.reverse.map fun v : ℂ => (starRingEnd ℂ) v / (normeMotif h : ℂ)) (by simp; omega) xs
  obtain ⟨m', e, he1, he2, he3⟩ := Filtre.C23_moyenne h.length (by omega) (xs.map fun x => x.map fun v : ℂ => ‖v‖ ^ 2)
  have hfl : (xs.map fun x => x.map fun v : ℂ => ‖v‖ ^ 2).flatten = xs.flatten.map fun v : ℂ => ‖v‖ ^ 2 := by rw [List.map_flatten]
  rw [hfl] at he2 he3
  rw [List.length_map] at he2
  obtain ⟨s, d, hs, hd⟩ := flux_some xs ⟨Filtre.Rif.init 0 (h.reverse.map fun v : ℂ => (starRingEnd ℂ) v / (normeMotif h : ℂ)), Filtre.Mg.init 0 h.length, ⟨h.length, 1, h.length - 1, seuil, normeMotif h, 0, 0, 0, 0, none, 0⟩⟩ h.length rfl hM hb r' m' c e hc1 he1
  refine ⟨_, s, _, d, hcree, hs, hd, ?_, ?_⟩
  · simp [normaliseCorr, seuille, hc2, he2]
  · intro k hk
    have hk' : k < xs.flatten.length := by simpa [normaliseCorr, seuille, hc2, he2] using hk
    unfold normaliseCorr seuille
    rw [List.getElem?_zipWith, List.getElem?_map, hc3 k (by omega), he3 k (by omega)]
    simp only [Option.map_some]
    rw [convol_correl, moyenne_energie]
    congr 1
    refine valeur_score h xs.flatten k (by omega) hE 1 (by norm_num) _ (by rw [normeMotif_carre]; simp) ?_
    congr 1
    rw [normeMotif_carre, norm_div, Complex.norm_real, Real.norm_eq_abs, abs_of_nonneg (Real.sqrt_nonneg _)]

/-- Non-vacuity. -/
example : (∃ v ∈ ([1, Complex.I] : List ℂ), v ≠ 0) ∧ Franc [1, Complex.I] ∧ Franc [1, 1, -1] := by
  refine ⟨⟨1, by simp, one_ne_zero⟩, Or.inr ?_, Or.inl ?_⟩
  · norm_num
  · intro v hv; simp at hv; rcases hv with rfl | rfl <;> simp

end Verif.Fourier
