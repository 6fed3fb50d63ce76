import Verif.Filtre.SoisModel
import Verif.Filtre.PropsBlocs
import Verif.Poly.Props
import Mathlib.RingTheory.PowerSeries.Basic
import Mathlib.RingTheory.PowerSeries.Trunc
import Mathlib.Algebra.Polynomial.Eval.Defs
import Mathlib.Data.List.GetD
import Mathlib.Tactic.LinearCombination
import Mathlib.Tactic.NormNum
import Mathlib.Tactic.ComputeDegree

/-!
# Chains of second-order sections realise their transfer function (C138)
-/

namespace Verif.Filtre

open Verif.FracRat Finset

/-! ### Generating series of a signal -/

section serie
variable {T : Type} [Field T]

/-- Generating series of a finite signal. -/
noncomputable def serie (x : List T) : PowerSeries T := PowerSeries.mk fun n => x.getD n 0

/-- `1 + a1 X + a2 X²`. -/
noncomputable def trinome (a0 a1 a2 : T) : Polynomial T := Polynomial.C a0 + Polynomial.C a1 * Polynomial.X + Polynomial.C a2 * Polynomial.X ^ 2

theorem trinome_coe (a0 a1 a2 : T) : ((trinome a0 a1 a2 : Polynomial T) : PowerSeries T) = PowerSeries.C a0 + PowerSeries.C a1 * PowerSeries.X + PowerSeries.C a2 * PowerSeries.X ^ 2 := by
  simp [trinome]

theorem trinome_zero (a0 a1 a2 : T) (F : PowerSeries T) : PowerSeries.coeff 0 ((trinome a0 a1 a2 : PowerSeries T) * F) = a0 * PowerSeries.coeff 0 F := by
  rw [trinome_coe]
  simp

theorem trinome_un (a0 a1 a2 : T) (F : PowerSeries T) : PowerSeries.coeff 1 ((trinome a0 a1 a2 : PowerSeries T) * F) = a0 * PowerSeries.coeff 1 F + a1 * PowerSeries.coeff 0 F := by
  rw [trinome_coe, show (PowerSeries.C a0 + PowerSeries.C a1 * PowerSeries.X + PowerSeries.C a2 * PowerSeries.X ^ 2) * F = PowerSeries.C a0 * F + PowerSeries.X * (PowerSeries.C a1 * F) + PowerSeries.X * (PowerSeries.X * (PowerSeries.C a2 * F)) by ring]
  rw [map_add, map_add, PowerSeries.coeff_C_mul, PowerSeries.coeff_succ_X_mul, PowerSeries.coeff_C_mul, PowerSeries.coeff_succ_X_mul, PowerSeries.coeff_zero_X_mul, add_zero]

theorem trinome_succ (a0 a1 a2 : T) (F : PowerSeries T) (n : ℕ) :
    PowerSeries.coeff (n + 2) ((trinome a0 a1 a2 : PowerSeries T) * F) = a0 * PowerSeries.coeff (n + 2) F + a1 * PowerSeries.coeff (n + 1) F + a2 * PowerSeries.coeff n F := by
  rw [trinome_coe, show (PowerSeries.C a0 + PowerSeries.C a1 * PowerSeries.X + PowerSeries.C a2 * PowerSeries.X ^ 2) * F = PowerSeries.C a0 * F + PowerSeries.X * (PowerSeries.C a1 * F) + PowerSeries.X * (PowerSeries.X * (PowerSeries.C a2 * F)) by ring]
  rw [map_add, map_add, PowerSeries.coeff_C_mul, PowerSeries.coeff_succ_X_mul, PowerSeries.coeff_C_mul, PowerSeries.coeff_succ_X_mul, PowerSeries.coeff_succ_X_mul, PowerSeries.coeff_C_mul]

theorem trinome_degre (a0 a1 a2 : T) : (trinome a0 a1 a2).natDegree ≤ 2 := by
  unfold trinome
  compute_degree

/-- `A y = B x + r` on the samples of the signals, with a transient `r` of degree less than `N`, null if the input starts with 0. -/
def Relie (A B : Polynomial T) (N : ℕ) (x y : List T) : Prop :=
  y.length = x.length ∧ ∃ r : Polynomial T, (r = 0 ∨ r.natDegree < N) ∧ (x.getD 0 0 = 0 → r = 0) ∧ (PowerSeries.X : PowerSeries T) ^ x.length ∣ (A : PowerSeries T) * serie y - (B : PowerSeries T) * serie x - (r : PowerSeries T)

theorem Relie.zero {A B : Polynomial T} {N : ℕ} {x y : List T} (h : Relie A B N x y) (hA : A.coeff 0 = 1) (h0 : x.getD 0 0 = 0) : y.getD 0 0 = 0 := by
  obtain ⟨hl, r, -, hr, hd⟩ := h
  cases y with
  | nil => simp
  | cons v y =>
    rw [hr h0, PowerSeries.X_pow_dvd_iff] at hd
    have := hd 0 (by rw [← hl]; simp)
    simp only [map_sub, PowerSeries.coeff_zero_eq_constantCoeff, map_mul, Polynomial.coe_zero, map_zero] at this
    have e1 : PowerSeries.constantCoeff (A : PowerSeries T) = 1 := by rw [← PowerSeries.coeff_zero_eq_constantCoeff_apply, Polynomial.coeff_coe, hA]
    have e2 : PowerSeries.constantCoeff (serie (v :: y)) = v := by rw [← PowerSeries.coeff_zero_eq_constantCoeff_apply, serie, PowerSeries.coeff_mk]; rfl
    have e3 : PowerSeries.constantCoeff (serie x) = 0 := by rw [← PowerSeries.coeff_zero_eq_constantCoeff_apply, serie, PowerSeries.coeff_mk, h0]
    rw [e1, e2, e3] at this
    simpa using this

/-- Cascade. -/
theorem Relie.compose {A B A' B' : Polynomial T} {N N' : ℕ} {x y w : List T} (h : Relie A B N x y) (h' : Relie A' B' N' y w) (hA : A.coeff 0 = 1) (dA : A.natDegree ≤ N) (dB : B'.natDegree ≤ N') :
    Relie (A * A') (B * B') (N + N') x w := by
  have hz := fun h0 => h.zero hA h0
  obtain ⟨hl, r, dr, hr, hd⟩ := h
  obtain ⟨hl', r', dr', hr', hd'⟩ := h'
  refine ⟨hl'.trans hl, B' * r + A * r', ?_, fun h0 => by rw [hr h0, hr' (hz h0), mul_zero, mul_zero, add_zero], ?_⟩
  · have k1 : B' * r = 0 ∨ (B' * r).natDegree < N + N' := by
      rcases dr with h | h
      · left; rw [h, mul_zero]
      · right
        have := Polynomial.natDegree_mul_le (p := B') (q := r)
        omega
    have k2 : A * r' = 0 ∨ (A * r').natDegree < N + N' := by
      rcases dr' with h | h
      · left; rw [h, mul_zero]
      · right
        have := Polynomial.natDegree_mul_le (p := A) (q := r')
        omega
    rcases k1 with k1 | k1
    · rw [k1, zero_add]; exact k2
    · rcases k2 with k2 | k2
      · rw [k2, add_zero]; exact Or.inr k1
      · right
        exact (Polynomial.natDegree_add_le _ _).trans_lt (max_lt k1 k2)
  · rw [hl] at hd'
    have := dvd_add (Dvd.dvd.mul_left hd (B' : PowerSeries T)) (Dvd.dvd.mul_left hd' (A : PowerSeries T))
    rw [show (B' : PowerSeries T) * ((A : PowerSeries T) * serie y - (B : PowerSeries T) * serie x - (r : PowerSeries T)) + (A : PowerSeries T) * ((A' : PowerSeries T) * serie w - (B' : PowerSeries T) * serie y - (r' : PowerSeries T)) =
      ((A * A' : Polynomial T) : PowerSeries T) * serie w - ((B * B' : Polynomial T) : PowerSeries T) * serie x - ((B' * r + A * r' : Polynomial T) : PowerSeries T) by push_cast; ring] at this
    exact this

/-- The transient of a section: what is needed on the first two samples. -/
theorem relie_trinome (a1 a2 b0 b1 b2 : T) (x y : List T) (hl : y.length = x.length)
    (h : ∀ n, n + 2 < x.length → y.getD (n + 2) 0 + a1 * y.getD (n + 1) 0 + a2 * y.getD n 0 = b0 * x.getD (n + 2) 0 + b1 * x.getD (n + 1) 0 + b2 * x.getD n 0)
    (h0 : x.getD 0 0 = 0 → (y.getD 0 0 = b0 * x.getD 0 0) ∧ (y.getD 1 0 + a1 * y.getD 0 0 = b0 * x.getD 1 0 + b1 * x.getD 0 0)) :
    Relie (trinome 1 a1 a2) (trinome b0 b1 b2) 2 x y := by
  have sc : ∀ (l : List T) n, PowerSeries.coeff n (serie l) = l.getD n 0 := fun l n => by rw [serie, PowerSeries.coeff_mk]
  refine ⟨hl, Polynomial.C (y.getD 0 0 - b0 * x.getD 0 0) + Polynomial.C (y.getD 1 0 + a1 * y.getD 0 0 - (b0 * x.getD 1 0 + b1 * x.getD 0 0)) * Polynomial.X, ?_, ?_, ?_⟩
  · right
    have : (Polynomial.C (y.getD 0 0 - b0 * x.getD 0 0) + Polynomial.C (y.getD 1 0 + a1 * y.getD 0 0 - (b0 * x.getD 1 0 + b1 * x.getD 0 0)) * Polynomial.X : Polynomial T).natDegree ≤ 1 := by compute_degree
    omega
  · intro hx
    obtain ⟨e1, e2⟩ := h0 hx
    rw [e2, sub_self, e1, sub_self]
    simp
  · rw [PowerSeries.X_pow_dvd_iff]
    intro m hm
    rw [map_sub, map_sub, Polynomial.coeff_coe]
    match m with
    | 0 => rw [trinome_zero, trinome_zero, sc, sc]; simp
    | 1 => rw [trinome_un, trinome_un, sc, sc, sc, sc]; simp
    | m + 2 =>
      rw [trinome_succ, trinome_succ, sc, sc, sc, sc, sc, sc, one_mul, h m hm, sub_self, zero_sub, neg_eq_zero]
      rw [Polynomial.coeff_add, Polynomial.coeff_C_mul, Polynomial.coeff_C, Polynomial.coeff_X, if_neg (by omega), if_neg (by omega), mul_zero, add_zero]

/-- A section, in both forms. -/
theorem section_relie (b0 b1 b2 a1 a2 : T) (forme2 : Bool) (x : List T) :
    ∃ s y, Sois.step (· + ·) (· - ·) (· * ·) (⟨0, 0, 0, 0, 0, b0, b1, b2, a1, a2, true, forme2⟩ : Sois T T) x = some (s, y) ∧ Relie (trinome 1 a1 a2) (trinome b0 b1 b2) 2 x y := by
  cases x with
  | nil => exact ⟨_, [], rfl, relie_trinome _ _ _ _ _ _ _ rfl (by intro n hn; simp at hn) (by simp)⟩
  | cons x0 xs =>
    cases forme2 with
    | false =>
      obtain ⟨s', ys, e⟩ := sois_tot1 (x0 :: xs) (⟨x0, x0, x0, x0, x0, b0, b1, b2, a1, a2, false, false⟩ : Sois T T)
      obtain ⟨hl, ho⟩ := sois1_eq _ _ _ _ e
      simp only at ho
      refine ⟨s', ys, e, relie_trinome _ _ _ _ _ _ _ hl ?_ ?_⟩
      · intro n hn
        have := ho (n + 2) hn
        generalize x0 :: xs = X at *
        simp only [List.getD_cons_succ] at this
        rw [this]
        ring
      · intro h0
        simp only [List.getD_cons_zero] at h0
        have q0 := ho 0 (by simp)
        simp only [List.getD_cons_succ, List.getD_cons_zero, zero_add] at q0
        rw [h0] at q0 ⊢
        constructor
        · rw [q0]; simp
        · by_cases h1 : 1 < (x0 :: xs).length
          · have q1 := ho 1 h1
            simp only [List.getD_cons_succ, List.getD_cons_zero] at q1
            rw [q1, h0]
            simp
          · have l1 : (0 :: xs : List T).getD 1 0 = 0 := by rw [List.getD_eq_default _ _ (by simpa using h1)]
            have l2 : ys.getD 1 0 = 0 := by rw [List.getD_eq_default _ _ (by omega)]
            rw [l1, l2, q0]; simp
    | true =>
      obtain ⟨s', ys, e⟩ := sois_tot2 (x0 :: xs) (⟨x0, x0, x0, x0, x0, b0, b1, b2, a1, a2, false, true⟩ : Sois T T)
      obtain ⟨hl, d, ho⟩ := sois2_eq _ _ _ _ e
      simp only at ho
      refine ⟨s', ys, e, relie_trinome _ _ _ _ _ _ _ hl ?_ ?_⟩
      · intro n hn
        obtain ⟨p0, q0⟩ := ho n (by omega)
        obtain ⟨p1, q1⟩ := ho (n + 1) (by omega)
        obtain ⟨p2, q2⟩ := ho (n + 2) (by omega)
        rw [q0, q1, q2]
        generalize x0 :: x0 :: d = D at *
        generalize x0 :: xs = X at *
        linear_combination b0 * p2 + b1 * p1 + b2 * p0
      · intro h0
        simp only [List.getD_cons_zero] at h0
        obtain ⟨p0, q0⟩ := ho 0 (by simp)
        simp only [List.getD_cons_succ, List.getD_cons_zero, zero_add] at p0 q0
        rw [h0] at p0 q0 ⊢
        have d0 : d.getD 0 0 = 0 := by rw [p0]; simp
        rw [d0] at q0
        constructor
        · rw [q0]; simp
        · by_cases h1 : 1 < (x0 :: xs).length
          · obtain ⟨p1, q1⟩ := ho 1 h1
            simp only [List.getD_cons_succ, List.getD_cons_zero] at p1 q1
            rw [h0, d0] at q1
            rw [h0, d0] at p1
            rw [q1, q0, p1]
            simp
          · have l1 : (0 :: xs : List T).getD 1 0 = 0 := by rw [List.getD_eq_default _ _ (by simpa using h1)]
            have l2 : ys.getD 1 0 = 0 := by rw [List.getD_eq_default _ _ (by omega)]
            rw [l1, l2, q0]; simp

/-- The first-order section. -/
theorem fos_relie (b0 b1 a1 : T) (x : List T) :
    ∃ s y, Fos.step (· + ·) (- ·) (· * ·) (⟨b0, b1, a1, 0, 0⟩ : Fos T T) x = some (s, y) ∧ Relie (trinome 1 a1 0) (trinome b0 b1 0) 1 x y := by
  have key : ∀ (x : List T) (u v : T), ∃ s y, boucle (Fos.ech (· + ·) (- ·) (· * ·)) (⟨b0, b1, a1, u, v⟩ : Fos T T) x = some (s, y) ∧ y.length = x.length ∧
      ∀ n, n < x.length → (v :: y).getD (n + 1) 0 + a1 * (v :: y).getD n 0 = b0 * (u :: x).getD (n + 1) 0 + b1 * (u :: x).getD n 0 := by
    intro x
    induction x with
    | nil => intro u v; exact ⟨_, [], rfl, rfl, by simp⟩
    | cons x0 xs ih =>
      intro u v
      obtain ⟨s, y, e, l, g⟩ := ih x0 (-a1 * v + b0 * x0 + b1 * u)
      refine ⟨s, (-a1 * v + b0 * x0 + b1 * u) :: y, ?_, by simp [l], ?_⟩
      · simp only [boucle, Fos.ech, e]
      · intro n hn
        cases n with
        | zero => simp; ring
        | succ n =>
          have := g n (by simpa using hn)
          simpa using this
  obtain ⟨s, y, e, l, g⟩ := key x 0 0
  refine ⟨s, y, e, l, 0, Or.inl rfl, fun _ => rfl, ?_⟩
  have sc : ∀ (l : List T) n, PowerSeries.coeff n (serie l) = l.getD n 0 := fun l n => by rw [serie, PowerSeries.coeff_mk]
  rw [PowerSeries.X_pow_dvd_iff]
  intro m hm
  have := g m hm
  rw [Polynomial.coe_zero, sub_zero, map_sub]
  match m with
  | 0 => rw [trinome_zero, trinome_zero, sc, sc]; simp at this ⊢; rw [this, sub_self]
  | 1 => rw [trinome_un, trinome_un, sc, sc, sc, sc]; simp at this ⊢; rw [this, sub_self]
  | m + 2 => rw [trinome_succ, trinome_succ, sc, sc, sc, sc, sc, sc]; simp at this ⊢; rw [this, sub_self]

end serie

end Verif.Filtre
