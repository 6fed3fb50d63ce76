/-
C80: FIR design by windowing.

Specification: `bande a b k = ∫_a^b cos(2πνk) dν`; the ideal filter that keeps exactly the frequencies of a set of bands has, at time `k`, the
sum of the integrals over the bands and their opposites (`ideal`).
-/
import Verif.Conception.Rif
import Verif.Conception.ChebProps
import Mathlib.Analysis.SpecialFunctions.Integrals.Basic
import Mathlib.Analysis.Real.Pi.Bounds

namespace Verif.Conception

open Finset Verif.Fourier

/-- Specification: contribution of the band `[a, b]` and of its opposite to the impulse response of the ideal filter. -/
noncomputable def bande (a b : ℝ) (k : ℤ) : ℝ := 2 * ∫ ν in a..b, Real.cos (2 * Real.pi * ν * k)

/-- Specification: impulse response, at time `k`, of the ideal filter of each type. -/
noncomputable def ideal (type : String) (fc fc2 : ℝ) (k : ℤ) : ℝ :=
  if type = "lp" ∨ type = "pb" then bande 0 fc k
  else if type = "hp" ∨ type = "ph" then bande fc (1 / 2) k
  else if type = "bp" ∨ type = "pm" then bande fc fc2 k
  else bande 0 fc k + bande fc2 (1 / 2) k

theorem bande_val (a b : ℝ) (k : ℤ) :
    bande a b k = if k = 0 then 2 * (b - a) else (Real.sin (2 * Real.pi * b * k) - Real.sin (2 * Real.pi * a * k)) / (Real.pi * k) := by
  unfold bande
  split
  · rename_i h; subst h; simp
  · rename_i h
    have hk : (k : ℝ) ≠ 0 := by exact_mod_cast h
    have hc : (2 * Real.pi * k : ℝ) ≠ 0 := by have := Real.pi_ne_zero; positivity
    have e : (fun ν : ℝ => Real.cos (2 * Real.pi * ν * k)) = fun ν : ℝ => Real.cos (2 * Real.pi * k * ν) := by
      funext ν; congr 1; ring
    rw [e, intervalIntegral.integral_comp_mul_left (fun x => Real.cos x) hc, integral_cos, smul_eq_mul]
    have := Real.pi_ne_zero
    rw [show 2 * Real.pi * b * k = 2 * Real.pi * k * b by ring, show 2 * Real.pi * a * k = 2 * Real.pi * k * a by ring]
    field_simp

theorem sinc_neg (T f : ℝ) : Divers.sinc T (-f) = Divers.sinc T f := by
  unfold Divers.sinc
  simp only [mul_neg, abs_neg, Real.sin_neg]
  rw [neg_div_neg_eq]

theorem sinc_zero (T : ℝ) : Divers.sinc T 0 = T := by
  unfold Divers.sinc; simp

theorem sinc_val (T : ℝ) (hT : 1 / 10 ^ 7 ≤ Real.pi * T) (k : ℤ) :
    Divers.sinc T k = if k = 0 then T else Real.sin (Real.pi * T * k) / (Real.pi * k) := by
  split
  · rename_i h; subst h; simp [sinc_zero]
  · rename_i h
    unfold Divers.sinc
    rw [if_neg]
    rw [not_lt, abs_mul]
    have h1 : (1 : ℝ) ≤ |(k : ℝ)| := by exact_mod_cast Int.one_le_abs h
    have h0 : (0 : ℝ) < 1 / 10 ^ 7 := by norm_num
    rw [abs_of_nonneg (h0.le.trans hT)]
    nlinarith

theorem coefsSinc_length (n : ℕ) (fc : ℝ) : (coefsSinc n fc).length = n := by simp [coefsSinc]

theorem coefsSinc_get (n : ℕ) (hn : n % 2 = 1) (fc : ℝ) (k : ℕ) (hk : k < n) :
    (coefsSinc n fc).getD k 0 = Divers.sinc (2 * fc) (((k : ℤ) - (n / 2 : ℕ) : ℤ) : ℝ) := by
  rw [List.getD_eq_getElem _ _ (by rw [coefsSinc_length]; exact hk)]
  simp only [coefsSinc, List.getElem_map, List.getElem_range, if_pos hn]

theorem incremente_some (h : List ℝ) (i : ℕ) (hi : i < h.length) :
    ∃ g, incremente h i = some g ∧ g.length = h.length ∧ ∀ k, g.getD k 0 = h.getD k 0 + if k = i then 1 else 0 := by
  refine ⟨h.set i (h[i] + 1), by simp [incremente, List.getElem?_eq_getElem hi], by simp, fun k => ?_⟩
  simp only [List.getD_eq_getElem?_getD, List.getElem?_set]
  split_ifs with h1 h2 h3
  · subst h1; simp [hi]
  · subst h1; exact absurd rfl h2
  · omega
  · simp

theorem porteuse_some (n : ℕ) (hn : n % 2 = 1) (ω : ℝ) :
    ∃ p, porteuse n ω = some p ∧ p.length = n ∧ ∀ k, k < n → p.getD k 0 = Real.cos (ω * (((k : ℤ) - (n / 2 : ℕ) : ℤ) : ℝ)) := by
  obtain ⟨m, rfl⟩ : ∃ m, n = 2 * m + 1 := ⟨n / 2, by omega⟩
  have e1 : (2 * m + 1 - 1) / 2 = m := by omega
  have e2 : (2 * m + 1) / 2 = m := by omega
  refine ⟨_, by simp only [porteuse, Util.intervalleEntier, e1]; rw [if_neg (by omega)]; rfl, by simp; omega, fun k hk => ?_⟩
  rw [e2, List.getD_eq_getElem _ _ (by simp; omega)]
  simp only [List.getElem_map, List.getElem_range]
  congr 3
  ring

theorem porteuse_pair (n : ℕ) (hn : n % 2 = 0) (h0 : 0 < n) (ω : ℝ) : ∃ p, porteuse n ω = some p ∧ p.length = n - 1 := by
  refine ⟨_, by simp only [porteuse, Util.intervalleEntier]; rw [if_neg (by omega)]; rfl, ?_⟩
  simp
  omega

theorem produit_some (x y : List ℝ) (h : x.length = y.length) :
    ∃ z, produit x y = some z ∧ z.length = x.length ∧ ∀ k, k < x.length → z.getD k 0 = x.getD k 0 * y.getD k 0 := by
  refine ⟨List.zipWith (· * ·) x y, by rw [produit, if_pos h], by simp [h], fun k hk => ?_⟩
  rw [List.getD_eq_getElem _ _ (by simp; omega), List.getD_eq_getElem _ _ hk, List.getD_eq_getElem _ _ (by omega), List.getElem_zipWith]

theorem map_getD (f : ℝ → ℝ) (hf : f 0 = 0) (l : List ℝ) (k : ℕ) : (l.map f).getD k 0 = f (l.getD k 0) := by
  conv_lhs => rw [← hf]
  rw [List.getD_map]

/-! ### The prototypes -/

theorem rifHp_some (n : ℕ) (hn : n % 2 = 1) (fc : ℝ) : ∃ h, rifHp n fc = some h ∧ h.length = n ∧
    ∀ k, k < n → h.getD k 0 = (if k = n / 2 then 1 else 0) - Divers.sinc (2 * fc) (((k : ℤ) - (n / 2 : ℕ) : ℤ) : ℝ) := by
  obtain ⟨g, e, l, v⟩ := incremente_some ((coefsSinc n fc).map fun v : ℝ => -v) ((n - 1) / 2) (by simp [coefsSinc_length]; omega)
  refine ⟨g, e, by simpa [coefsSinc_length] using l, fun k hk => ?_⟩
  rw [v k, map_getD _ (by simp), coefsSinc_get n hn fc k hk, show (n - 1) / 2 = n / 2 by omega]
  ring

theorem rifPm_some (n : ℕ) (hn : n % 2 = 1) (fl fh : ℝ) : ∃ h, rifPm n fl fh = some h ∧ h.length = n ∧
    ∀ k, k < n → h.getD k 0 = 2 * Divers.sinc (2 * ((fh - fl) / 2)) (((k : ℤ) - (n / 2 : ℕ) : ℤ) : ℝ) *
      Real.cos (Real.pi * (fh + fl) * (((k : ℤ) - (n / 2 : ℕ) : ℤ) : ℝ)) := by
  obtain ⟨p, e1, l1, v1⟩ := porteuse_some n hn (Real.pi * (fh + fl))
  obtain ⟨z, e2, l2, v2⟩ := produit_some ((coefsSinc n ((fh - fl) / 2)).map fun v : ℝ => 2 * v) p (by simp [coefsSinc_length, l1])
  have lc : ((coefsSinc n ((fh - fl) / 2)).map fun v : ℝ => 2 * v).length = n := by simp [coefsSinc_length]
  refine ⟨z, by rw [rifPm, e1, Option.bind_some, e2], by rw [l2, lc], fun k hk => ?_⟩
  rw [v2 k (by rw [lc]; exact hk), v1 k hk, map_getD _ (by simp), coefsSinc_get n hn _ k hk]

theorem rifSb_some (n : ℕ) (hn : n % 2 = 1) (fl fh : ℝ) : ∃ h, rifSb n fl fh = some h ∧ h.length = n ∧
    ∀ k, k < n → h.getD k 0 = (if k = n / 2 then 1 else 0) - 2 * Divers.sinc (2 * ((fh - fl) / 2)) (((k : ℤ) - (n / 2 : ℕ) : ℤ) : ℝ) *
      Real.cos (Real.pi * (fh + fl) * (((k : ℤ) - (n / 2 : ℕ) : ℤ) : ℝ)) := by
  obtain ⟨p, e1, l1, v1⟩ := porteuse_some n hn (Real.pi * (fh + fl))
  have lc : ((coefsSinc n ((fh - fl) / 2)).map fun v : ℝ => -v).length = n := by simp [coefsSinc_length]
  obtain ⟨z, e2, l2, v2⟩ := produit_some ((coefsSinc n ((fh - fl) / 2)).map fun v : ℝ => -v) (p.map fun v : ℝ => 2 * v) (by
    simp [coefsSinc_length, l1])
  obtain ⟨g, e3, l3, v3⟩ := incremente_some z ((n - 1) / 2) (by omega)
  refine ⟨g, by rw [rifSb, e1, Option.bind_some, e2, Option.bind_some, e3], by omega, fun k hk => ?_⟩
  rw [v3 k, v2 k (by omega), map_getD _ (by simp), map_getD _ (by simp), v1 k hk, coefsSinc_get n hn _ k hk, show (n - 1) / 2 = n / 2 by omega]
  ring

/-- The types accepted by the library. -/
def types : List String := ["lp", "pb", "hp", "ph", "bp", "pm", "sb"]

/-- What the frequencies must satisfy for `sinc` to be out of its threshold zone. -/
def FreqOk (type : String) (fc fc2 : ℝ) : Prop :=
  if type = "bp" ∨ type = "pm" ∨ type = "sb" then 1 / 10 ^ 7 ≤ Real.pi * (fc2 - fc) else 1 / 10 ^ 7 ≤ Real.pi * (2 * fc)

theorem prototype_some (type : String) (ht : type ∈ types) (n : ℕ) (hn : n % 2 = 1) (fc fc2 : ℝ) :
    ∃ h, prototype type n fc fc2 = some h ∧ h.length = n ∧ (∀ k, k < n → h.getD (n - 1 - k) 0 = h.getD k 0) ∧
      (FreqOk type fc fc2 → ∀ k, k < n → h.getD k 0 = ideal type fc fc2 ((k : ℤ) - (n / 2 : ℕ))) := by
  have hpi := Real.pi_pos
  have refl : ∀ k, k < n → (((n - 1 - k : ℕ) : ℤ) - (n / 2 : ℕ)) = -((k : ℤ) - (n / 2 : ℕ)) := fun k hk => by omega
  have cen : ∀ k, k < n → (n - 1 - k = n / 2 ↔ k = n / 2) := fun k hk => by omega
  have cen0 : ∀ k : ℕ, ((k : ℤ) - (n / 2 : ℕ) = 0 ↔ k = n / 2) := fun k => by omega
  have sin_pi : ∀ k : ℤ, Real.sin (2 * Real.pi * (1 / 2) * k) = 0 := fun k => by
    rw [show 2 * Real.pi * (1 / 2) * (k : ℝ) = k * Real.pi by ring, Real.sin_int_mul_pi]
  simp only [types, List.mem_cons, List.mem_nil_iff, or_false] at ht
  have hlp : type = "lp" ∨ type = "pb" →
      ∃ h, prototype type n fc fc2 = some h ∧ h.length = n ∧ (∀ k, k < n → h.getD (n - 1 - k) 0 = h.getD k 0) ∧
      (FreqOk type fc fc2 → ∀ k, k < n → h.getD k 0 = ideal type fc fc2 ((k : ℤ) - (n / 2 : ℕ))) := fun htt => by
    refine ⟨coefsSinc n fc, by simp [prototype, htt], coefsSinc_length _ _, fun k hk => ?_, fun hf k hk => ?_⟩
    · rw [coefsSinc_get n hn fc k hk, coefsSinc_get n hn fc _ (by omega), refl k hk, Int.cast_neg, sinc_neg]
    · have hf' : 1 / 10 ^ 7 ≤ Real.pi * (2 * fc) := by rcases htt with rfl | rfl <;> simpa [FreqOk] using hf
      rw [coefsSinc_get n hn fc k hk, sinc_val _ hf', ideal, if_pos htt, bande_val]
      split
      · ring
      · simp; congr 2; ring
  have hhp : type = "hp" ∨ type = "ph" →
      ∃ h, prototype type n fc fc2 = some h ∧ h.length = n ∧ (∀ k, k < n → h.getD (n - 1 - k) 0 = h.getD k 0) ∧
      (FreqOk type fc fc2 → ∀ k, k < n → h.getD k 0 = ideal type fc fc2 ((k : ℤ) - (n / 2 : ℕ))) := fun htt => by
    obtain ⟨h, e, l, v⟩ := rifHp_some n hn fc
    have e' : prototype type n fc fc2 = some h := by rcases htt with rfl | rfl <;> simpa [prototype] using e
    refine ⟨h, e', l, fun k hk => ?_, fun hf k hk => ?_⟩
    · rw [v k hk, v _ (by omega), refl k hk, Int.cast_neg, sinc_neg]
      simp only [cen k hk]
    · have hf' : 1 / 10 ^ 7 ≤ Real.pi * (2 * fc) := by rcases htt with rfl | rfl <;> simpa [FreqOk] using hf
      have hi : ideal type fc fc2 ((k : ℤ) - (n / 2 : ℕ)) = bande fc (1 / 2) ((k : ℤ) - (n / 2 : ℕ)) := by
        rcases htt with rfl | rfl <;> simp [ideal]
      rw [v k hk, sinc_val _ hf', hi, bande_val, sin_pi]
      simp only [cen0 k]
      split
      · ring
      · rw [show Real.pi * (2 * fc) * (((k : ℤ) - (n / 2 : ℕ) : ℤ) : ℝ) = 2 * Real.pi * fc * (((k : ℤ) - (n / 2 : ℕ) : ℤ) : ℝ) by ring]; ring
  have hprod : ∀ k : ℤ, k ≠ 0 → 2 * (Real.sin (Real.pi * (2 * ((fc2 - fc) / 2)) * k) / (Real.pi * k)) * Real.cos (Real.pi * (fc2 + fc) * k) =
      (Real.sin (2 * Real.pi * fc2 * k) - Real.sin (2 * Real.pi * fc * k)) / (Real.pi * k) := by
    intro k _
    rw [Real.sin_sub_sin]
    rw [show (2 * Real.pi * fc2 * (k : ℝ) - 2 * Real.pi * fc * k) / 2 = Real.pi * (2 * ((fc2 - fc) / 2)) * k by ring,
      show (2 * Real.pi * fc2 * (k : ℝ) + 2 * Real.pi * fc * k) / 2 = Real.pi * (fc2 + fc) * k by ring]
    ring
  have hbp : type = "bp" ∨ type = "pm" →
      ∃ h, prototype type n fc fc2 = some h ∧ h.length = n ∧ (∀ k, k < n → h.getD (n - 1 - k) 0 = h.getD k 0) ∧
      (FreqOk type fc fc2 → ∀ k, k < n → h.getD k 0 = ideal type fc fc2 ((k : ℤ) - (n / 2 : ℕ))) := fun htt => by
    obtain ⟨h, e, l, v⟩ := rifPm_some n hn fc fc2
    have e' : prototype type n fc fc2 = some h := by rcases htt with rfl | rfl <;> simpa [prototype] using e
    refine ⟨h, e', l, fun k hk => ?_, fun hf k hk => ?_⟩
    · rw [v k hk, v _ (by omega), refl k hk, Int.cast_neg, sinc_neg, mul_neg, Real.cos_neg]
    · have hf' : 1 / 10 ^ 7 ≤ Real.pi * (2 * ((fc2 - fc) / 2)) := by
        rw [show 2 * ((fc2 - fc) / 2) = fc2 - fc by ring]
        rcases htt with rfl | rfl <;> simpa [FreqOk] using hf
      have hi : ideal type fc fc2 ((k : ℤ) - (n / 2 : ℕ)) = bande fc fc2 ((k : ℤ) - (n / 2 : ℕ)) := by
        rcases htt with rfl | rfl <;> simp [ideal]
      rw [v k hk, sinc_val _ hf', hi, bande_val]
      split
      · rename_i h0; rw [h0]; simp; ring
      · rename_i h0; exact hprod _ h0
  have hsb : type = "sb" →
      ∃ h, prototype type n fc fc2 = some h ∧ h.length = n ∧ (∀ k, k < n → h.getD (n - 1 - k) 0 = h.getD k 0) ∧
      (FreqOk type fc fc2 → ∀ k, k < n → h.getD k 0 = ideal type fc fc2 ((k : ℤ) - (n / 2 : ℕ))) := fun htt => by
    obtain ⟨h, e, l, v⟩ := rifSb_some n hn fc fc2
    have e' : prototype type n fc fc2 = some h := by subst htt; simpa [prototype] using e
    refine ⟨h, e', l, fun k hk => ?_, fun hf k hk => ?_⟩
    · rw [v k hk, v _ (by omega), refl k hk, Int.cast_neg, sinc_neg, mul_neg, Real.cos_neg]
      simp only [cen k hk]
    · have hf' : 1 / 10 ^ 7 ≤ Real.pi * (2 * ((fc2 - fc) / 2)) := by
        rw [show 2 * ((fc2 - fc) / 2) = fc2 - fc by ring]
        subst htt; simpa [FreqOk] using hf
      have hi : ideal type fc fc2 ((k : ℤ) - (n / 2 : ℕ)) = bande 0 fc ((k : ℤ) - (n / 2 : ℕ)) + bande fc2 (1 / 2) ((k : ℤ) - (n / 2 : ℕ)) := by
        subst htt; simp [ideal]
      rw [v k hk, sinc_val _ hf', hi, bande_val, bande_val, sin_pi]
      by_cases h0 : (k : ℤ) - (n / 2 : ℕ) = 0
      · rw [if_pos h0, if_pos h0, if_pos h0, if_pos ((cen0 k).1 h0), h0]; simp; ring
      · rw [if_neg h0, if_neg h0, if_neg h0, if_neg (fun h => h0 ((cen0 k).2 h)), hprod _ h0]; simp; ring
  rcases ht with h | h | h | h | h | h | h
  · exact hlp (.inl h)
  · exact hlp (.inr h)
  · exact hhp (.inl h)
  · exact hhp (.inr h)
  · exact hbp (.inl h)
  · exact hbp (.inr h)
  · exact hsb h

/-! ### The designs -/

theorem somme_range (l : List ℝ) : l.sum = ∑ j ∈ range l.length, l.getD j 0 := by
  induction l with
  | nil => simp
  | cons a l ih => rw [List.sum_cons, List.length_cons, Finset.sum_range_succ', ih]; simp [add_comm]

theorem rifFenetre_some (type : String) (ht : type ∈ types) (fc fc2 : ℝ) (f : List ℝ) (hn : f.length % 2 = 1) :
    ∃ p h, prototype type f.length fc fc2 = some p ∧ p.length = f.length ∧ rifFenetre type fc f fc2 = some h ∧ h.length = f.length ∧
      (∀ k, k < f.length → h.getD k 0 = if type = "lp" then p.getD k 0 * f.getD k 0 / ∑ j ∈ range f.length, p.getD j 0 * f.getD j 0
        else p.getD k 0 * f.getD k 0) := by
  obtain ⟨p, e, l, -, -⟩ := prototype_some type ht f.length hn fc fc2
  obtain ⟨z, ez, lz, vz⟩ := produit_some p f l
  have hs : z.sum = ∑ j ∈ range f.length, p.getD j 0 * f.getD j 0 := by
    rw [somme_range, lz, l]
    exact Finset.sum_congr rfl fun j hj => vz j (by rw [l]; exact Finset.mem_range.1 hj)
  refine ⟨p, _, e, l, by rw [rifFenetre, e, Option.bind_some, if_pos l, ez, Option.map_some], ?_, fun k hk => ?_⟩
  · split <;> simp [lz, l]
  · split
    · rw [map_getD _ (by simp), vz k (by omega), hs]
    · rw [vz k (by omega)]

/-- **C80 (form).**  For an odd number of coefficients, the filter designed by windowing is the impulse response of the ideal filter of the
requested type, shifted by `n/2` and multiplied by the window; for the type "lp", it is moreover divided by its sum. -/
theorem C80_forme (type : String) (ht : type ∈ types) (fc fc2 : ℝ) (hf : FreqOk type fc fc2) (f : List ℝ) (hn : f.length % 2 = 1) :
    ∃ h, rifFenetre type fc f fc2 = some h ∧ h.length = f.length ∧
      ∀ k, k < f.length → h.getD k 0 =
        if type = "lp" then ideal type fc fc2 ((k : ℤ) - (f.length / 2 : ℕ)) * f.getD k 0 /
          ∑ j ∈ range f.length, ideal type fc fc2 ((j : ℤ) - (f.length / 2 : ℕ)) * f.getD j 0
        else ideal type fc fc2 ((k : ℤ) - (f.length / 2 : ℕ)) * f.getD k 0 := by
  obtain ⟨p, h, e, l, eh, lh, v⟩ := rifFenetre_some type ht fc fc2 f hn
  obtain ⟨p', e', -, -, hv⟩ := prototype_some type ht f.length hn fc fc2
  rw [e] at e'
  obtain rfl := Option.some.inj e'
  refine ⟨h, eh, lh, fun k hk => ?_⟩
  rw [v k hk, hv hf k hk]
  split
  · congr 1
    exact Finset.sum_congr rfl fun j hj => by rw [hv hf j (Finset.mem_range.1 hj)]
  · rfl

example : "lp" ∈ types ∧ FreqOk "lp" (1 / 4) 0 ∧ [(1 : ℝ), 1, 1].length % 2 = 1 := by
  refine ⟨by decide, ?_, rfl⟩
  have := Real.pi_gt_three
  have h : FreqOk "lp" (1 / 4) 0 ↔ 1 / 10 ^ 7 ≤ Real.pi * (2 * (1 / 4)) := by simp [FreqOk]
  rw [h]
  norm_num
  linarith

/-- **C80 (linear phase).**  With a symmetric window of odd length, the coefficients are symmetric. -/
theorem C80_phase_lineaire (type : String) (ht : type ∈ types) (fc fc2 : ℝ) (f : List ℝ) (hn : f.length % 2 = 1)
    (hs : ∀ k, k < f.length → f.getD (f.length - 1 - k) 0 = f.getD k 0) :
    ∃ h, rifFenetre type fc f fc2 = some h ∧ h.length = f.length ∧ ∀ k, k < f.length → h.getD (f.length - 1 - k) 0 = h.getD k 0 := by
  obtain ⟨p, h, e, l, eh, lh, v⟩ := rifFenetre_some type ht fc fc2 f hn
  obtain ⟨p', e', -, hv, -⟩ := prototype_some type ht f.length hn fc fc2
  rw [e] at e'
  obtain rfl := Option.some.inj e'
  refine ⟨h, eh, lh, fun k hk => ?_⟩
  rw [v k hk, v _ (by omega), hv k hk, hs k hk]

/-- **C80 (linear phase, by name).**  The same with any of the named windows (other than Chebyshev's). -/
theorem C80_phase_lineaire_nom (n : ℕ) (hn : n % 2 = 1) (type : String) (ht : type ∈ types) (fc fc2 : ℝ) (fen : String) (w : Fenetre)
    (hw : parseFenetre fen = some w) (hc : w ≠ .chebychev) :
    ∃ h, designRifFen n type fc fen fc2 = some h ∧ h.length = n ∧ ∀ k, k < n → h.getD (n - 1 - k) 0 = h.getD k 0 := by
  obtain ⟨v, e, l, -, hs, -⟩ := C78_symetrie w hc n true
  obtain ⟨h, eh, lh, vh⟩ := C80_phase_lineaire type ht fc fc2 v (by rw [l]; exact hn) (by rw [l]; exact hs rfl)
  rw [l] at lh vh
  exact ⟨h, by rw [designRifFen, fenetreNom, hw, Option.bind_some, e, Option.bind_some, eh], lh, vh⟩

example : parseFenetre "hn" = some .hann := by decide

/-- **C80 (unit gain).**  Whatever the number of coefficients, a filter of type "lp" has a sum of 1 (unit gain at the null frequency), as soon as
the windowed response has a non null sum. -/
theorem C80_gain (fc fc2 : ℝ) (f : List ℝ) (hs : (List.zipWith (· * ·) (coefsSinc f.length fc) f).sum ≠ 0) :
    ∃ h, rifFenetre "lp" fc f fc2 = some h ∧ h.length = f.length ∧ h.sum = 1 := by
  have hl : (coefsSinc f.length fc).length = f.length := coefsSinc_length _ _
  refine ⟨(List.zipWith (· * ·) (coefsSinc f.length fc) f).map fun v : ℝ => v / (List.zipWith (· * ·) (coefsSinc f.length fc) f).sum, ?_, ?_, ?_⟩
  · simp only [rifFenetre, prototype, true_or, if_true, Option.bind_some, produit, if_pos hl, Option.map_some]
  · simp [hl]
  · rw [show (fun v : ℝ => v / (List.zipWith (· * ·) (coefsSinc f.length fc) f).sum) =
      fun v : ℝ => v * ((List.zipWith (· * ·) (coefsSinc f.length fc) f).sum)⁻¹ from funext fun v => div_eq_mul_inv _ _,
      List.sum_map_mul_right, List.map_id']
    exact mul_inv_cancel₀ hs

example : (List.zipWith (· * ·) (coefsSinc [(1 : ℝ)].length (1 / 4)) [1]).sum ≠ 0 := by
  simp [coefsSinc, List.range_succ, sinc_zero]

/-- **C80 (unit gain, refuted for the other name).**  "lp" and "pb" are presented as two names of the same type; but a filter of type "pb" is not
normalised: with one coefficient and a cut-off frequency of 1/8, its gain at the null frequency is 1/4 instead of 1. -/
theorem C80_gain_pb_refute : ∃ h g, designRifFen 1 "pb" (1 / 8) "re" 0 = some h ∧ h.sum = 1 / 4 ∧
    designRifFen 1 "lp" (1 / 8) "re" 0 = some g ∧ g.sum = 1 := by
  refine ⟨[1 / 4], [1], ?_, by simp, ?_, by simp⟩
  · have : parseFenetre "re" = some .aucune := by decide
    simp [designRifFen, fenetreNom, this, fenetre, rifFenetre, prototype, coefsSinc, List.range_succ, sinc_zero, produit]
    norm_num
  · have : parseFenetre "re" = some .aucune := by decide
    simp [designRifFen, fenetreNom, this, fenetre, rifFenetre, prototype, coefsSinc, List.range_succ, sinc_zero, produit]

/-- **C80 (complementarity).**  With the same window (of odd length), the low-pass "pb" and the high-pass filters on the one hand, the band-pass
and the stop-band filters on the other hand, add up to the centre of the window alone — a pure delay when this centre is 1. -/
theorem C80_complement (fc fc2 : ℝ) (f : List ℝ) (hn : f.length % 2 = 1) :
    ∃ b p m s, rifFenetre "pb" fc f fc2 = some b ∧ rifFenetre "hp" fc f fc2 = some p ∧
      rifFenetre "bp" fc f fc2 = some m ∧ rifFenetre "sb" fc f fc2 = some s ∧
      ∀ k, k < f.length → b.getD k 0 + p.getD k 0 = (if k = f.length / 2 then f.getD (f.length / 2) 0 else 0) ∧
        m.getD k 0 + s.getD k 0 = (if k = f.length / 2 then f.getD (f.length / 2) 0 else 0) := by
  obtain ⟨pb, b, e1, l1, eb, lb, vb⟩ := rifFenetre_some "pb" (by decide) fc fc2 f hn
  obtain ⟨pp, p, e2, l2, ep, lp, vp⟩ := rifFenetre_some "hp" (by decide) fc fc2 f hn
  obtain ⟨pm, m, e3, l3, em, lm, vm⟩ := rifFenetre_some "bp" (by decide) fc fc2 f hn
  obtain ⟨ps, s, e4, l4, es, ls, vs⟩ := rifFenetre_some "sb" (by decide) fc fc2 f hn
  obtain ⟨p2, q2, -, w2⟩ := rifHp_some f.length hn fc
  obtain ⟨p3, q3, -, w3⟩ := rifPm_some f.length hn fc fc2
  obtain ⟨p4, q4, -, w4⟩ := rifSb_some f.length hn fc fc2
  have r1 : coefsSinc f.length fc = pb := by simpa [prototype] using e1
  have r2 : p2 = pp := by simpa [prototype, q2] using e2
  have r3 : p3 = pm := by simpa [prototype, q3] using e3
  have r4 : p4 = ps := by simpa [prototype, q4] using e4
  subst r1 r2 r3 r4
  refine ⟨b, p, m, s, eb, ep, em, es, fun k hk => ⟨?_, ?_⟩⟩
  · rw [vb k hk, vp k hk, if_neg (by decide), if_neg (by decide), w2 k hk, coefsSinc_get _ hn fc k hk]
    split
    · rename_i h; rw [← h]; ring
    · ring
  · rw [vm k hk, vs k hk, if_neg (by decide), if_neg (by decide), w3 k hk, w4 k hk]
    split
    · rename_i h; rw [← h]; ring
    · ring

/-- **C80 (rejections).**  An unknown type is rejected, whatever the window; so are the band-pass and the stop-band types for an even (non null)
number of coefficients. -/
theorem C80_rejets (type : String) (fc fc2 : ℝ) (f : List ℝ) :
    (type ∉ types → rifFenetre type fc f fc2 = none) ∧
    (type = "bp" ∨ type = "pm" ∨ type = "sb" → f.length % 2 = 0 → 0 < f.length → rifFenetre type fc f fc2 = none) := by
  refine ⟨fun h => ?_, fun h hn h0 => ?_⟩
  · simp only [types, List.mem_cons, List.mem_nil_iff, or_false, not_or] at h
    simp [rifFenetre, prototype, h]
  · obtain ⟨p, e, l⟩ := porteuse_pair f.length hn h0 (Real.pi * (fc2 + fc))
    have h1 : rifPm f.length fc fc2 = none := by
      rw [rifPm, e, Option.bind_some, produit, if_neg (by simp [coefsSinc_length]; omega)]
    have h2 : rifSb f.length fc fc2 = none := by
      rw [rifSb, e, Option.bind_some, produit, if_neg (by simp [coefsSinc_length]; omega)]
      rfl
    rcases h with rfl | rfl | rfl <;> simp [rifFenetre, prototype, h1, h2]

example : "xx" ∉ types := by decide

/-- **C80 (linear phase, refuted for an even number of coefficients).**  The windows are symmetric, but for an even number of coefficients the
cardinal sine is not centred on the middle of the window: a low-pass filter with two coefficients and a rectangular window is not symmetric. -/
theorem C80_pair_refute : ∃ h, designRifFen 2 "pb" (1 / 4) "re" 0 = some h ∧ h.length = 2 ∧ h.getD 0 0 ≠ h.getD 1 0 := by
  have hp : parseFenetre "re" = some .aucune := by decide
  have h1 : Divers.sinc (2 * (1 / 4)) 1 = 1 / Real.pi := by
    have := sinc_val (2 * (1 / 4)) (by have := Real.pi_gt_three; norm_num; linarith) 1
    rw [if_neg (by norm_num)] at this
    rw [Int.cast_one] at this
    rw [this, show Real.pi * (2 * (1 / 4)) * 1 = Real.pi / 2 by ring, Real.sin_pi_div_two, mul_one]
  refine ⟨[1 / 2, 1 / Real.pi], ?_, rfl, ?_⟩
  · simp only [designRifFen, fenetreNom, hp, fenetre, rifFenetre, prototype, coefsSinc, produit, Option.bind_some]
    simp [List.range_succ, sinc_zero, List.replicate_succ]
    constructor
    · norm_num
    · have := h1; norm_num at this ⊢; exact this
  · have := Real.pi_gt_three
    simp
    intro h
    linarith

end Verif.Conception
