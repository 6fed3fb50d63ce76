import Verif.Fourier.CorrProps

/-!
# C49: real FFT and conjugate symmetry; C51: integer delays
-/

namespace Verif.Fourier

open Finset Complex

/-- Real part, as a complex number (`z.imag(0)` keeps it). -/
noncomputable def reC (z : ℂ) : ℂ := (z.re : ℂ)

theorem imagNulle_some (X : List ℂ) (i : Nat) (hi : i < X.length) :
    ∃ Y, imagNulle reC X i = some Y ∧ Y.length = X.length ∧ ∀ t, Y.getD t 0 = if t = i then reC (X.getD i 0) else X.getD t 0 := by
  obtain ⟨Y, e, l, g⟩ := ecrit_some X [reC (X.getD i 0)] i (by simp; omega)
  refine ⟨Y, ?_, l, fun t => ?_⟩
  · simp only [imagNulle, List.getElem?_eq_getElem hi]
    rw [List.getD_eq_getElem _ _ hi] at e
    exact e
  · by_cases h : t = i
    · subst h
      rw [if_pos rfl, List.getD_eq_getElem?_getD, g t]
      simp
    · rw [if_neg h]
      exact getD_of_get _ _ _ _ (by rw [g t, if_neg (by simp; omega)])

theorem csymForcage_some (X : List ℂ) (h : 2 ≤ X.length) :
    ∃ Y, csymForcage trigoC reC X = some Y ∧ Y.length = X.length ∧ Y.getD 0 0 = reC (X.getD 0 0) ∧
      (X.length % 2 = 0 → Y.getD (X.length / 2) 0 = reC (X.getD (X.length / 2) 0)) ∧
      ∀ k, 1 ≤ k → 2 * k < X.length → Y.getD k 0 = X.getD k 0 ∧ Y.getD (X.length - k) 0 = star (X.getD k 0) := by
  obtain ⟨X1, e1, l1, g1⟩ := imagNulle_some X 0 (by omega)
  have hX2 : ∃ X2, csymMilieu trigoC reC X1 = some X2 ∧ X2.length = X.length ∧ X2.getD 0 0 = reC (X.getD 0 0) ∧
      (X.length % 2 = 0 → X2.getD (X.length / 2) 0 = reC (X.getD (X.length / 2) 0)) ∧
      (X.length % 2 = 1 → X2.getD (X.length / 2 + 1) 0 = star (X.getD (X.length / 2) 0)) ∧
      ∀ k, 1 ≤ k → 2 * k < X.length → X2.getD k 0 = X.getD k 0 := by
    unfold csymMilieu
    rw [l1]
    by_cases hp : X.length % 2 = 0
    · rw [if_pos hp]
      obtain ⟨X2, e2, l2, g2⟩ := imagNulle_some X1 (X.length / 2) (by omega)
      refine ⟨X2, e2, by omega, ?_, fun _ => ?_, fun h => by omega, fun k h1 h2 => ?_⟩
      · rw [g2, if_neg (by omega), g1, if_pos rfl]
      · rw [g2, if_pos rfl, g1, if_neg (by omega)]
      · rw [g2, if_neg (by omega), g1, if_neg (by omega)]
    · rw [if_neg hp]
      have hv : X1[X.length / 2]? = some (X.getD (X.length / 2) 0) := by
        have := g1 (X.length / 2)
        rw [if_neg (by omega)] at this
        rw [← this, List.getElem?_eq_getElem (by omega), List.getD_eq_getElem _ _ (by omega)]
      obtain ⟨X2, e2, l2, g2⟩ := ecrit_some X1 [star (X.getD (X.length / 2) 0)] (X.length / 2 + 1) (by simp; omega)
      refine ⟨X2, by rw [hv]; exact e2, by omega, ?_, fun h => by omega, fun h => ?_, fun k h1 h2 => ?_⟩
      · rw [getD_of_get _ X1 _ 0 (by rw [g2 0, if_neg (by omega)]), g1, if_pos rfl]
      · rw [List.getD_eq_getElem?_getD, g2]
        simp
      · rw [getD_of_get _ X1 _ k (by rw [g2 k, if_neg (by omega)]), g1, if_neg (by omega)]
  obtain ⟨X2, e2, l2, g20, g2p, g2i, g2⟩ := hX2
  obtain ⟨s, e3, l3, g3⟩ := segment_some X2 1 (X.length / 2 - 1) (by omega)
  obtain ⟨Y, e4, l4, g4⟩ := ecritQueue_some X2 (s.reverse.map star) (by simp; omega)
  have lsr : (s.reverse.map star).length = X.length / 2 - 1 := by simp [l3]
  refine ⟨Y, ?_, by omega, ?_, fun h => ?_, fun k h1 h2 => ⟨?_, ?_⟩⟩
  · unfold csymForcage
    simp only [Option.bind_eq_bind, e1, Option.bind_some, e2, l2]
    rw [if_neg (by omega), e3]
    exact e4
  · rw [getD_of_get _ X2 _ 0 (by rw [g4 0, if_neg (by omega)]), g20]
  · rw [getD_of_get _ X2 _ _ (by rw [g4 _, if_neg (by omega)]), g2p h]
  · rw [getD_of_get _ X2 _ k (by rw [g4 k, if_neg (by omega)]), g2 k h1 h2]
  · by_cases hk : k < X.length / 2
    · rw [getD_of_get _ (s.reverse.map star) _ (X.length / 2 - 1 - k) (by
        rw [g4 _, if_pos (by omega)]; congr 1; omega), getD_map _ _ _ (by simp; omega), reverse_getD _ _ (by omega),
        getD_of_get _ X2 _ k (by rw [g3 _ (by omega)]; congr 1; omega), g2 k h1 h2]
    · have hk2 : k = X.length / 2 := by omega
      have e : X.length - k = X.length / 2 + 1 := by omega
      rw [e, getD_of_get _ X2 _ (X.length / 2 + 1) (by rw [g4 _, if_neg (by omega)]), g2i (by omega), hk2]

/-- C49: after `csym_forçage`, for every vector of at least 2 elements, the spectrum is conjugate-symmetric (`Y_{n-k} = conj(Y_k)` for all
`k`), its continuous component is real, and the positive frequencies are those of the input. -/
theorem C49_csym (X : List ℂ) (h : 2 ≤ X.length) :
    ∃ Y, csymForcage trigoC reC X = some Y ∧ Y.length = X.length ∧ Y.getD 0 0 = ((X.getD 0 0).re : ℂ) ∧
      (∀ k, 1 ≤ k → k < X.length → Y.getD (X.length - k) 0 = star (Y.getD k 0)) ∧
      (∀ k, 1 ≤ k → 2 * k < X.length → Y.getD k 0 = X.getD k 0) := by
  obtain ⟨Y, e, l, g0, gp, g⟩ := csymForcage_some X h
  refine ⟨Y, e, l, g0, fun k h1 h2 => ?_, fun k h1 h2 => (g k h1 h2).1⟩
  rcases Nat.lt_trichotomy (2 * k) X.length with hk | hk | hk
  · rw [(g k h1 hk).2, (g k h1 hk).1]
  · have e1 : X.length - k = k := by omega
    have e2 : X.length / 2 = k := by omega
    have := gp (by omega)
    rw [e2] at this
    rw [e1, this]
    simp [reC]
  · have h3 := g (X.length - k) (by omega) (by omega)
    rw [show X.length - (X.length - k) = k by omega] at h3
    rw [h3.1, h3.2, star_star]

/-- C49, refuted for one element: `csym_forçage` on a vector of dimension 1 (already symmetric once made real) reads and writes outside of
the vector. -/
theorem C49_csym_un_refute (z : ℂ) : csymForcage trigoC reC [z] = none := by
  simp [csymForcage, csymMilieu, imagNulle, ecrit]

/-! ## Real FFT -/

/-- Real samples as complex numbers (`as_complex`). -/
def enC (x : List ℝ) : List ℂ := x.map fun r : ℝ => (r : ℂ)

theorem enC_length (x : List ℝ) : (enC x).length = x.length := by simp [enC]

theorem enC_star (x : List ℝ) (j : Nat) : star ((enC x).getD j 0) = (enC x).getD j 0 := by
  by_cases h : j < (enC x).length
  · rw [List.getD_eq_getElem _ _ h]
    simp [enC]
  · rw [List.getD_eq_default _ _ (by omega), star_zero]

theorem star_ratio (n k : Nat) (hn : 0 < n) : star (ratio trigoC n true ^ k) = (ratio trigoC n true ^ k)⁻¹ := loisC.conjw n k hn

theorem star_dft (n k : Nat) (hn : 0 < n) (u : Nat → ℂ) :
    star (dft (ratio trigoC n true) n u k) = dft (ratio trigoC n true)⁻¹ n (fun j => star (u j)) k := by
  unfold dft
  rw [star_sum]
  refine sum_congr rfl fun j _ => ?_
  rw [star_mul', star_ratio _ _ hn, inv_pow]

/-- Spectrum of a real signal: conjugate symmetry. -/
theorem tfd_reel_sym (x : List ℝ) (k : Nat) (h1 : 1 ≤ k) (h2 : k < x.length) :
    TFD (-1) (enC x) (x.length - k) = star (TFD (-1) (enC x) k) := by
  rw [star_TFD]
  have hs : (enC x).map star = enC x := by
    unfold enC; rw [List.map_map]; refine List.map_congr_left fun r _ => ?_; simp
  rw [hs]
  have h3 := dft_TFD true (enC x) (x.length - k)
  have h4 := dft_TFD false (enC x) k
  simp only [if_true, Bool.false_eq_true, if_false] at h3 h4
  rw [← h3, ← h4, enC_length, ratio_not, dft_miroir _ _ (by omega) (ratio_prim loisC _ (by omega) true) _ _ h2,
    Nat.mod_eq_of_lt (by omega : x.length - k < x.length)]

theorem rtfrBoucle_some (A : Trigo ℂ) (j : ℂ) (n : Nat) (Xt rotations : List ℂ) (f : Nat → ℂ) (c : Nat) : ∀ (i : Nat) (y : List ℂ),
    (∀ l, i ≤ l → l < i + c → rtfrCoef A j n Xt rotations l = some (f l)) → i + c ≤ y.length →
    ∃ y', rtfrBoucle A j n Xt rotations c i y = some y' ∧ y'.length = y.length ∧
      ∀ t, y'.getD t 0 = if i ≤ t ∧ t < i + c then f t else y.getD t 0 := by
  induction c with
  | zero =>
    intro i y _ _
    exact ⟨y, rfl, rfl, fun t => by rw [if_neg (by omega)]⟩
  | succ c ih =>
    intro i y hf hl
    obtain ⟨y1, e1, l1, g1⟩ := ecrit_some y [f i] i (by simp; omega)
    obtain ⟨y2, e2, l2, g2⟩ := ih (i + 1) y1 (fun l h1 h2 => hf l (by omega) (by omega)) (by omega)
    refine ⟨y2, ?_, by omega, fun t => ?_⟩
    · simp only [rtfrBoucle, hf i (le_refl i) (by omega), e1, e2]
    · rw [g2 t]
      by_cases ht : t = i
      · subst ht
        rw [if_neg (by omega), if_pos (by omega), List.getD_eq_getElem?_getD, g1]
        simp
      · by_cases hc : i + 1 ≤ t ∧ t < i + 1 + c
        · rw [if_pos hc, if_pos (by omega)]
        · rw [if_neg hc, if_neg (by omega)]
          exact getD_of_get _ _ _ _ (by rw [g1 t, if_neg (by simp; omega)])

/-- Invariant of a real plan: never used, or ready for its size. -/
def RValide (p : RPlan ℂ) : Prop := p.n ≤ 0 ∨ ∃ q, p.cplan = some q ∧ Valide trigoC q ∧
  (p.n.toNat % 2 = 0 → p.rotations = tfrRotation trigoC p.n.toNat)

theorem rconfigure_valide (p : RPlan ℂ) (n : Nat) (hn : 0 < n) :
    (p.configure trigoC n).n = n ∧ RValide (p.configure trigoC n) := by
  unfold RPlan.configure
  rw [if_pos hn]
  split
  · exact ⟨rfl, .inr ⟨_, rfl, .inr ⟨_, configure_pret _ _ _ _⟩, fun _ => rfl⟩⟩
  · rename_i h
    exact ⟨rfl, .inr ⟨_, rfl, .inr ⟨_, configure_pret _ _ _ _⟩, fun h2 => absurd h2 (by simpa using h)⟩⟩

theorem rtfr_valeur (x : List ℝ) (m : Nat) (hm : 0 < m) (hx : x.length = 2 * m) (Xt : List ℂ)
    (ht : EstTfd trigoC true (List.zipWith (fun a b => a + I * b) (pairs (enC x)) (impairs (enC x))) Xt) (i : Nat) (hi : i ≤ m) :
    rtfrCoef trigoC I (2 * m) Xt (tfrRotation trigoC (2 * m)) i = some (TFD (-1) (enC x) i) := by
  have lz : (List.zipWith (fun a b => a + I * b) (pairs (enC x)) (impairs (enC x))).length = m := by
    rw [List.length_zipWith, pairs_length, impairs_length, enC_length]; omega
  have lXt : Xt.length = m := by rw [ht.1, lz]
  have hdiv : 2 * m / 2 = m := by omega
  set ρ := ratio trigoC (2 * m) true with hρ
  have hρ2 : ratio trigoC m true = ρ ^ 2 := by
    rw [hρ]; unfold ratio; simp [loisC.carre m hm]
  set E := fun k => dft (ρ ^ 2) m (fun l => (enC x).getD (2 * l) 0) k with hE
  set O := fun k => dft (ρ ^ 2) m (fun l => (enC x).getD (2 * l + 1) 0) k with hO
  have hone : (ρ ^ 2) ^ m = 1 := by
    rw [← hρ2]; exact (ratio_prim loisC m hm true).pow_eq_one
  have hEm : ∀ k, E (m + k) = E k := fun k => dft_decale _ _ hone _ _
  have hOm : ∀ k, O (m + k) = O k := fun k => dft_decale _ _ hone _ _
  have hzl : ∀ l, l < m → (List.zipWith (fun a b => a + I * b) (pairs (enC x)) (impairs (enC x))).getD l 0 =
      (enC x).getD (2 * l) 0 + I * (enC x).getD (2 * l + 1) 0 := by
    intro l hl
    rw [List.getD_eq_getElem _ _ (by omega), List.getElem_zipWith,
      ← getD_of_get _ _ _ _ (pairs_get (enC x) l), ← getD_of_get _ _ _ _ (impairs_get (enC x) l),
      List.getD_eq_getElem _ _ (by rw [pairs_length, enC_length]; omega),
      List.getD_eq_getElem _ _ (by rw [impairs_length, enC_length]; omega)]
  have hX : ∀ k, k < m → Xt.getD k 0 = (E k + I * O k) / trigoC.racine m := by
    intro k hk
    rw [ht.2 k (by omega), lz, hρ2]
    congr 1
    rw [hE, hO]
    simp only [dft]
    rw [mul_sum, ← sum_add_distrib]
    refine sum_congr rfl fun l hl => ?_
    rw [hzl l (mem_range.1 hl)]
    ring
  -- conjugates
  have hstar : ∀ (u : Nat → ℂ), (∀ j, star (u j) = u j) → ∀ k, k < m → star (dft (ρ ^ 2) m u ((m - k) % m)) = dft (ρ ^ 2) m u k := by
    intro u hu k hk
    rw [← hρ2, star_dft _ _ hm]
    have e1 := dft_miroir (ratio trigoC m true)⁻¹ m hm (ratio_prim loisC m hm true).inv u k hk
    rw [inv_inv] at e1
    rw [e1]
    simp only [hu]
  have hsE : ∀ k, k < m → star (E ((m - k) % m)) = E k := hstar _ (fun j => enC_star x _)
  have hsO : ∀ k, k < m → star (O ((m - k) % m)) = O k := hstar _ (fun j => enC_star x _)
  have hsr : star (trigoC.racine m) = trigoC.racine m := conj_ofReal _
  have hX2 : ∀ k, k < m → star (Xt.getD ((m - k) % m) 0) = (E k - I * O k) / trigoC.racine m := by
    intro k hk
    rw [hX _ (Nat.mod_lt _ hm), star_div₀, hsr, star_add, star_mul', hsE k hk, hsO k hk]
    have : star I = -I := conj_I
    rw [this]
    ring
  -- the value
  have h2 := loisC.racine_ne 2 (by omega)
  have h3 := loisC.racine_ne m hm
  have hfin : TFD (-1) (enC x) i = (E i + ρ ^ i * O i) / (trigoC.racine 2 * trigoC.racine m) := by
    have h4 := dft_TFD true (enC x) i
    simp only [if_true] at h4
    rw [← h4, enC_length, hx, loisC.racine_mul, ← hρ, dft_pair]
  have hrot : (tfrRotation trigoC (2 * m))[i]? = some (ρ ^ i) := by
    rw [tfrRotation_get _ _ _ (by omega)]; rfl
  have hget : ∀ k, k < m → Xt[k]? = some (Xt.getD k 0) := by
    intro k hk
    rw [List.getElem?_eq_getElem (by omega), List.getD_eq_getElem _ _ (by omega)]
  have hI : I * I = -1 := I_mul_I
  have key : ∀ e o r : ℂ, 1 / 2 / trigoC.racine 2 * ((e + I * o) / trigoC.racine m + (e - I * o) / trigoC.racine m) -
      I / 2 / trigoC.racine 2 * ((e + I * o) / trigoC.racine m - (e - I * o) / trigoC.racine m) * r =
      (e + r * o) / (trigoC.racine 2 * trigoC.racine m) := by
    intro e o r
    field_simp
    linear_combination (-(2 * o * r)) * hI
  unfold rtfrCoef
  rw [hdiv]
  by_cases him : i = m
  · subst him
    have hE0 := hEm 0
    have hO0 := hOm 0
    rw [Nat.add_zero] at hE0 hO0
    have hs0 := hX2 0 hm
    rw [Nat.sub_zero, Nat.mod_self] at hs0
    rw [if_pos rfl, if_pos hm, Nat.sub_self, hget 0 hm, hrot]
    simp only []
    congr 1
    rw [show trigoC.conj (Xt.getD 0 0) = star (Xt.getD 0 0) from rfl, hs0, hX 0 hm, key, hfin, hE0, hO0]
  · have hlt : i < m := by omega
    have hsi := hX2 i hlt
    have hidx : (if 0 < i then Xt[m - i]? else Xt[0]?) = some (Xt.getD ((m - i) % m) 0) := by
      by_cases h0 : 0 < i
      · rw [if_pos h0, Nat.mod_eq_of_lt (by omega), hget _ (by omega)]
      · have : i = 0 := by omega
        subst this
        rw [if_neg (by omega), Nat.sub_zero, Nat.mod_self, hget 0 hm]
    rw [if_neg him, hidx, hget i hlt, hrot]
    simp only []
    congr 1
    rw [show trigoC.conj (Xt.getD ((m - i) % m) 0) = star (Xt.getD ((m - i) % m) 0) from rfl, hsi, hX i hlt, key, hfin]

theorem rstep_some (p : RPlan ℂ) (hp : RValide p) (x : List ℝ) (hx : 0 < x.length) (hx2 : x.length ≤ 2 ^ 29) :
    ∃ p' y, p.step trigoC reC I (enC x) = some (p', y) ∧ RValide p' ∧ y.length = x.length ∧
      ∀ k, k < x.length → y.getD k 0 = TFD (-1) (enC x) k := by
  unfold RPlan.step
  rw [enC_length]
  have h1 : ∃ p1, (if (x.length : Int) ≠ p.n then p.configure trigoC x.length else p) = p1 ∧ p1.n = x.length ∧ RValide p1 := by
    by_cases h : (x.length : Int) = p.n
    · rw [if_neg (by simpa using h)]; exact ⟨p, rfl, h.symm, hp⟩
    · rw [if_pos h]; exact ⟨_, rfl, rconfigure_valide p _ hx⟩
  obtain ⟨p1, e1, n1, v1⟩ := h1
  simp only [e1]
  rcases v1 with v1 | ⟨q, hq, vq, hr⟩
  · omega
  rw [hq]
  simp only [n1, Int.toNat_natCast] at hr ⊢
  by_cases heven : x.length % 2 = 0
  · rw [if_pos heven]
    obtain ⟨m, hm⟩ : ∃ m, x.length = 2 * m := ⟨x.length / 2, by omega⟩
    have lz : (List.zipWith (fun a b => a + I * b) (pairs (enC x)) (impairs (enC x))).length = m := by
      rw [List.length_zipWith, pairs_length, impairs_length, enC_length]; omega
    obtain ⟨q', Xt, e2, hq', t2⟩ := step_tfd loisC true m _ q lz (by omega) (by omega) vq
    have hcoef : ∀ l, 0 ≤ l → l < 0 + (x.length / 2 + 1) →
        rtfrCoef trigoC I x.length Xt p1.rotations l = some (TFD (-1) (enC x) l) := by
      intro l _ h2
      rw [hr heven, hm]
      exact rtfr_valeur x m (by omega) hm Xt t2 l (by omega)
    obtain ⟨y, e3, l3, g3⟩ := rtfrBoucle_some trigoC I x.length Xt p1.rotations _ (x.length / 2 + 1) 0 (List.replicate x.length 0)
      hcoef (by simp; omega)
    rw [List.length_replicate] at l3
    obtain ⟨Y, e4, l4, g40, g4p, g4⟩ := csymForcage_some y (by omega)
    refine ⟨_, Y, by simp only [Plan.stepDefaut, e2, e3, e4]; rfl, ?_, by omega, ?_⟩
    · exact .inr ⟨q', rfl, .inr ⟨_, hq'⟩, fun _ => by simpa [n1] using hr heven⟩
    · have hy : ∀ k, 2 * k ≤ x.length → y.getD k 0 = TFD (-1) (enC x) k := by
        intro k hk
        rw [g3 k, if_pos (by omega)]
      -- the real bins
      have hreel : ∀ k, k < x.length → star (TFD (-1) (enC x) k) = TFD (-1) (enC x) k → reC (TFD (-1) (enC x) k) = TFD (-1) (enC x) k := by
        intro k _ h
        exact conj_eq_iff_re.1 h
      intro k hk
      by_cases hk0 : k = 0
      · subst hk0
        rw [g40, hy 0 (by omega)]
        refine hreel 0 hk ?_
        rw [star_TFD]
        have hs : (enC x).map star = enC x := by
          unfold enC; rw [List.map_map]; refine List.map_congr_left fun r _ => ?_; simp
        rw [hs]
        simp [TFD]
      · rcases Nat.lt_trichotomy (2 * k) x.length with h | h | h
        · rw [(g4 k (by omega) (by omega)).1, hy k (by omega)]
        · have h5 := g4p (by omega)
          rw [l3, show x.length / 2 = k by omega] at h5
          rw [h5, hy k (by omega)]
          refine hreel k hk ?_
          rw [← tfd_reel_sym x k (by omega) hk, show x.length - k = k by omega]
        · have h5 := (g4 (x.length - k) (by omega) (by omega)).2
          rw [l3, show x.length - (x.length - k) = k by omega, hy _ (by omega)] at h5
          rw [h5, ← tfd_reel_sym x (x.length - k) (by omega) (by omega), show x.length - (x.length - k) = k by omega]
  · rw [if_neg heven]
    obtain ⟨q', y, e2, hq', t2⟩ := step_tfd loisC true x.length (enC x) q (enC_length x) hx hx2 vq
    refine ⟨_, y, by simp only [Plan.stepDefaut, e2]; rfl, ?_, by rw [t2.1, enC_length], ?_⟩
    · exact .inr ⟨q', rfl, .inr ⟨_, hq'⟩, fun h => absurd (by simpa [n1] using h) heven⟩
    · intro k hk
      have h4 := dft_TFD true (enC x) k
      simp only [if_true] at h4
      rw [t2.2 k (by rw [enC_length]; exact hk), h4]

/-- Successive calls of a real plan. -/
noncomputable def RPlan.appels (p : RPlan ℂ) : List (List ℝ) → Option (RPlan ℂ)
  | [] => some p
  | x :: l => match p.step trigoC reC I (enC x) with
    | none => none
    | some (p', _) => p'.appels l

theorem appels_valide (l : List (List ℝ)) : ∀ p, RValide p → (∀ x ∈ l, 0 < x.length ∧ x.length ≤ 2 ^ 29) →
    ∃ p', p.appels l = some p' ∧ RValide p' := by
  induction l with
  | nil => intro p h _; exact ⟨p, rfl, h⟩
  | cons x l ih =>
    intro p h hl
    obtain ⟨h1, h2⟩ := hl x List.mem_cons_self
    obtain ⟨p1, y, e, v, _⟩ := rstep_some p h x h1 h2
    obtain ⟨p', e', v'⟩ := ih p1 v fun z hz => hl z (List.mem_cons_of_mem _ hz)
    exact ⟨p', by rw [RPlan.appels, e]; exact e', v'⟩

/-- C49: `rfft(x)` is the DFT of the real signal, at every bin (negative frequencies included), for every length, odd or even. -/
theorem C49_rfft (x : List ℝ) (hx : 0 < x.length) (hx2 : x.length ≤ 2 ^ 29) :
    ∃ y, rfft trigoC reC I (enC x) = some y ∧ y.length = x.length ∧ ∀ k, k < x.length → y.getD k 0 = TFD (-1) (enC x) k := by
  have hv : RValide (RPlan.creation trigoC ((enC x).length : Int)) := by
    rw [enC_length]
    unfold RPlan.creation
    rw [if_neg (by omega), Int.toNat_natCast]
    exact (rconfigure_valide _ _ hx).2
  obtain ⟨p', y, e, _, l, g⟩ := rstep_some _ hv x hx hx2
  exact ⟨y, by rw [rfft, e]; rfl, l, g⟩

/-- C49: a real plan created for any size (or none) and used on any non-empty signals of any sizes never fails and then gives the DFT of
the next real signal. -/
theorem C49_plan (n0 : Int) (l : List (List ℝ)) (hl : ∀ x ∈ l, 0 < x.length ∧ x.length ≤ 2 ^ 29) (x : List ℝ) (hx : 0 < x.length)
    (hx2 : x.length ≤ 2 ^ 29) :
    ∃ p p' y, (RPlan.creation trigoC n0).appels l = some p ∧ p.step trigoC reC I (enC x) = some (p', y) ∧ y.length = x.length ∧
      ∀ k, k < x.length → y.getD k 0 = TFD (-1) (enC x) k := by
  have hv : RValide (RPlan.creation trigoC n0) := by
    unfold RPlan.creation
    split
    · exact .inl (by simp; omega)
    · by_cases h : 0 < n0.toNat
      · exact (rconfigure_valide _ _ h).2
      · refine .inl ?_
        unfold RPlan.configure
        rw [if_neg h]
        simp; omega
  obtain ⟨p, e, v⟩ := appels_valide l _ hv hl
  obtain ⟨p', y, e', _, l', g⟩ := rstep_some p v x hx hx2
  exact ⟨p, p', y, e, e', l', g⟩

/-- C49: real and complex transforms agree. -/
theorem C49_accord (x : List ℝ) (hx : 0 < x.length) (hx2 : x.length ≤ 2 ^ 29) :
    rfft trigoC reC I (enC x) = fft trigoC (enC x) := by
  obtain ⟨y, e, l, g⟩ := C49_rfft x hx hx2
  obtain ⟨z, e2, l2, g2⟩ := C27_fft (enC x) (by rw [enC_length]; exact hx) (by rw [enC_length]; exact hx2)
  rw [e, e2]
  congr 1
  rw [enC_length] at l2 g2
  exact list_ext_getD _ _ (by omega) fun i hi => by rw [g i (by omega), g2 i (by omega)]

/-! ## Integer delays -/

/-- C51: an integer delay `τ` (positive or negative, at most the length of the signal) shifts the signal: `y_k = x_{k-τ}`, 0 outside, same
length. -/
theorem C51_delais (x : List ℂ) (τ : Int) (hτ : |τ| ≤ x.length) :
    ∃ y, delaisEntier x τ = some y ∧ y.length = x.length ∧ ∀ k, k < x.length →
      y.getD k 0 = if 0 ≤ (k : Int) - τ ∧ (k : Int) - τ < x.length then x.getD ((k : Int) - τ).toNat 0 else 0 := by
  unfold delaisEntier
  by_cases h0 : τ = 0
  · rw [if_pos h0]
    refine ⟨x, rfl, rfl, fun k hk => ?_⟩
    rw [if_pos (by omega)]
    congr 1; omega
  · rw [if_neg h0]
    by_cases hp : 0 < τ
    · rw [abs_of_pos hp] at hτ
      simp only [if_pos hp]
      rw [if_neg (by omega)]
      obtain ⟨s, e1, l1, g1⟩ := segment_some x 0 (x.length - τ.toNat) (by omega)
      obtain ⟨y, e2, l2, g2⟩ := ecritQueue_some (List.replicate x.length (0 : ℂ)) s (by simp; omega)
      rw [List.length_replicate] at l2
      simp only [List.length_replicate, l1] at g2
      refine ⟨y, by simp only [e1, e2], l2, fun k hk => ?_⟩
      by_cases hc : 0 ≤ (k : Int) - τ ∧ (k : Int) - τ < x.length
      · rw [if_pos hc]
        refine getD_of_get _ _ _ _ ?_
        rw [g2 k, if_pos (by omega), g1 _ (by omega)]
        congr 1; omega
      · rw [if_neg hc, List.getD_eq_getElem?_getD, g2 k, if_neg (by omega), List.getElem?_replicate]
        split <;> rfl
    · rw [abs_of_nonpos (by omega)] at hτ
      simp only [if_neg hp]
      rw [if_neg (by omega)]
      obtain ⟨s, e1, l1, g1⟩ := queue_some x (x.length - (-τ).toNat) (by omega)
      obtain ⟨y, e2, l2, g2⟩ := ecrit_some (List.replicate x.length (0 : ℂ)) s 0 (by simp; omega)
      rw [List.length_replicate] at l2
      refine ⟨y, by simp only [e1, e2], l2, fun k hk => ?_⟩
      by_cases hc : 0 ≤ (k : Int) - τ ∧ (k : Int) - τ < x.length
      · rw [if_pos hc]
        refine getD_of_get _ _ _ _ ?_
        rw [g2 k, if_pos (by omega), g1 _ (by omega)]
        congr 1; omega
      · rw [if_neg hc, List.getD_eq_getElem?_getD, g2 k, if_neg (by omega), List.getElem?_replicate]
        split <;> rfl

/-- C51, refuted beyond the length: a delay larger than the signal, for which `y_k = x_{k-τ}` is 0 everywhere, is not computed (negative
segment size). -/
theorem C51_grand_refute (x : List ℂ) (τ : Int) (hτ : (x.length : Int) < |τ|) : delaisEntier x τ = none := by
  unfold delaisEntier
  by_cases hp : 0 < τ
  · rw [abs_of_pos hp] at hτ
    rw [if_neg (by omega)]
    simp only [if_pos hp]
    rw [if_pos (by omega)]
  · rw [abs_of_nonpos (by omega)] at hτ
    rw [if_neg (by omega)]
    simp only [if_neg hp]
    rw [if_pos (by omega)]

example : delaisEntier [1, 2, 3] 1 = some [0, 1, (2 : ℂ)] ∧ delaisEntier [1, 2, 3] (-2) = some [3, 0, (0 : ℂ)] := by
  constructor <;> rfl

example : ∃ p, (RPlan.creation trigoC (-1)).appels [[1, 2, 3, 4], [1, 2, 3], [5, 6]] = some p := by
  obtain ⟨p, _, _, e, _⟩ := C49_plan (-1) [[1, 2, 3, 4], [1, 2, 3], [5, 6]] (by simp) [1] (by simp) (by norm_num)
  exact ⟨p, e⟩

end Verif.Fourier
