import Verif.Fourier.Radix2
import Mathlib.RingTheory.RootsOfUnity.PrimitiveRoots
import Mathlib.Algebra.CharZero.Defs
import Mathlib.Algebra.Field.GeomSum

/-! # Lemmas on the vector helpers and on roots of unity -/

namespace Verif.Fourier

open Finset

section vecteurs
variable {T : Type}

theorem ecrit_some (y v : List T) (i0 : Nat) (h : i0 + v.length ≤ y.length) :
    ∃ y', ecrit y i0 v = some y' ∧ y'.length = y.length ∧
      ∀ t, y'[t]? = if i0 ≤ t ∧ t < i0 + v.length then v[t - i0]? else y[t]? := by
  refine ⟨y.take i0 ++ v ++ y.drop (i0 + v.length), by rw [ecrit, if_pos h], by simp; omega, ?_⟩
  intro t
  by_cases h1 : t < i0
  · rw [if_neg (by omega), List.append_assoc, List.getElem?_append_left (by simp; omega), List.getElem?_take, if_pos h1]
  · by_cases h2 : t < i0 + v.length
    · rw [if_pos (by omega), List.append_assoc, List.getElem?_append_right (by simp; omega),
        List.getElem?_append_left (by simp; omega)]
      congr 1
      simp; omega
    · rw [if_neg (by omega), List.getElem?_append_right (by simp; omega), List.getElem?_drop]
      congr 1
      simp; omega

theorem ecritQueue_some (y v : List T) (h : v.length ≤ y.length) :
    ∃ y', ecritQueue y v = some y' ∧ y'.length = y.length ∧
      ∀ t, y'[t]? = if y.length - v.length ≤ t ∧ t < y.length then v[t - (y.length - v.length)]? else y[t]? := by
  obtain ⟨y', e, l, g⟩ := ecrit_some y v (y.length - v.length) (by omega)
  refine ⟨y', by rw [ecritQueue, if_pos h, e], l, fun t => ?_⟩
  rw [g t]
  simp only [show y.length - v.length + v.length = y.length by omega]

theorem segment_some (x : List T) (i0 n : Nat) (h : i0 + n ≤ x.length) :
    ∃ y, segment x i0 n = some y ∧ y.length = n ∧ ∀ t, t < n → y[t]? = x[i0 + t]? := by
  refine ⟨_, by rw [segment, if_pos h], by simp; omega, fun t ht => ?_⟩
  rw [List.getElem?_take, if_pos ht, List.getElem?_drop]

theorem queue_some (x : List T) (n : Nat) (h : n ≤ x.length) :
    ∃ y, queue x n = some y ∧ y.length = n ∧ ∀ t, t < n → y[t]? = x[x.length - n + t]? := by
  obtain ⟨y, e, l, g⟩ := segment_some x (x.length - n) n (by omega)
  exact ⟨y, by rw [queue, if_pos h, e], l, g⟩

theorem pairs_get : ∀ (x : List T) (i : Nat), (pairs x)[i]? = x[2 * i]?
  | [], i => by simp [pairs]
  | [a], i => by cases i <;> simp [pairs]
  | a :: b :: l, i => by
    cases i with
    | zero => simp [pairs]
    | succ i =>
      rw [pairs, List.getElem?_cons_succ, pairs_get l i, show 2 * (i + 1) = 2 * i + 1 + 1 by ring]; simp

theorem impairs_get : ∀ (x : List T) (i : Nat), (impairs x)[i]? = x[2 * i + 1]?
  | [], i => by simp [impairs]
  | [a], i => by simp [impairs]
  | a :: b :: l, i => by
    cases i with
    | zero => simp [impairs]
    | succ i =>
      rw [impairs, List.getElem?_cons_succ, impairs_get l i, show 2 * (i + 1) + 1 = 2 * i + 1 + 1 + 1 by ring]; simp

end vecteurs

variable {K : Type} [Field K]

theorem getD_of_get (x y : List K) (i j : Nat) (h : x[i]? = y[j]?) : x.getD i 0 = y.getD j 0 := by
  rw [List.getD_eq_getElem?_getD, List.getD_eq_getElem?_getD, h]

theorem produit_some (x y : List K) (h : x.length = y.length) :
    ∃ z, produit x y = some z ∧ z.length = x.length ∧ ∀ t, z.getD t 0 = x.getD t 0 * y.getD t 0 := by
  refine ⟨_, by rw [produit, if_pos h], by simp [h], fun t => ?_⟩
  simp only [List.getD_eq_getElem?_getD, List.getElem?_zipWith]
  by_cases ht : t < x.length
  · rw [List.getElem?_eq_getElem ht, List.getElem?_eq_getElem (by omega)]; simp
  · rw [List.getElem?_eq_none (by omega), List.getElem?_eq_none (by omega)]; simp

theorem somme_some (x y : List K) (h : x.length = y.length) :
    ∃ z, somme x y = some z ∧ z.length = x.length ∧ ∀ t, z.getD t 0 = x.getD t 0 + y.getD t 0 := by
  refine ⟨_, by rw [somme, if_pos h], by simp [h], fun t => ?_⟩
  simp only [List.getD_eq_getElem?_getD, List.getElem?_zipWith]
  by_cases ht : t < x.length
  · rw [List.getElem?_eq_getElem ht, List.getElem?_eq_getElem (by omega)]; simp
  · rw [List.getElem?_eq_none (by omega), List.getElem?_eq_none (by omega)]; simp

theorem getD_map (x : List K) (f : K → K) (i : Nat) (hi : i < x.length) : (x.map f).getD i 0 = f (x.getD i 0) := by
  rw [List.getD_eq_getElem _ _ (by simpa using hi), List.getElem_map, List.getD_eq_getElem _ _ hi]

/-! ### Roots of unity -/

theorem racine_demi (ρ : K) (n : Nat) (hn : 0 < n) (h : IsPrimitiveRoot ρ (2 * n)) : ρ ^ n = -1 := by
  have h1 : (ρ ^ n) ^ 2 = 1 := by rw [← pow_mul, Nat.mul_comm]; exact h.pow_eq_one
  have h2 : ρ ^ n ≠ 1 := fun e => by
    have := Nat.le_of_dvd hn (h.dvd_of_pow_eq_one n e)
    omega
  have h3 : (ρ ^ n - 1) * (ρ ^ n + 1) = 0 := by ring_nf; rw [← pow_mul] at h1; rw [h1]; ring
  rcases mul_eq_zero.1 h3 with h | h
  · exact absurd (sub_eq_zero.1 h) h2
  · exact eq_neg_of_add_eq_zero_left h

theorem pow_ne (ρ : K) (N : Nat) (hN : 0 < N) (h : IsPrimitiveRoot ρ N) (a : Nat) : ρ ^ a ≠ 0 :=
  pow_ne_zero _ (h.ne_zero (by omega))

theorem ortho (ρ : K) (N : Nat) (hN : 0 < N) (h : IsPrimitiveRoot ρ N) (a t : Nat) :
    ∑ i ∈ range N, ρ ^ (i * a) * ρ⁻¹ ^ (i * t) = if a % N = t % N then (N : K) else 0 := by
  have hρ := pow_ne ρ N hN h
  have hterm : ∀ i, ρ ^ (i * a) * ρ⁻¹ ^ (i * t) = (ρ ^ a * (ρ ^ t)⁻¹) ^ i := by
    intro i
    rw [mul_pow, ← pow_mul, inv_pow, inv_pow, ← pow_mul, Nat.mul_comm a i, Nat.mul_comm t i]
  simp only [hterm]
  by_cases hat : a % N = t % N
  · rw [if_pos hat]
    have : ρ ^ a = ρ ^ t := by
      rw [← Nat.mod_add_div a N, ← Nat.mod_add_div t N, pow_add, pow_add, pow_mul, pow_mul, h.pow_eq_one, one_pow, one_pow, hat]
    rw [this, mul_inv_cancel₀ (hρ t)]
    simp
  · rw [if_neg hat]
    have hne : ρ ^ a * (ρ ^ t)⁻¹ ≠ 1 := by
      intro e
      apply hat
      have e2 : ρ ^ a = ρ ^ t := by
        have := congrArg (· * ρ ^ t) e
        simpa [mul_assoc, inv_mul_cancel₀ (hρ t)] using this
      have e3 : ρ ^ (a % N) = ρ ^ (t % N) := by
        have h1 : ∀ b, ρ ^ b = ρ ^ (b % N) := fun b => by
          conv_lhs => rw [← Nat.mod_add_div b N, pow_add, pow_mul, h.pow_eq_one, one_pow, mul_one]
        rw [← h1, ← h1, e2]
      exact h.pow_inj (Nat.mod_lt _ hN) (Nat.mod_lt _ hN) e3
    have hone : (ρ ^ a * (ρ ^ t)⁻¹) ^ N = 1 := by
      rw [mul_pow, inv_pow, ← pow_mul, ← pow_mul, Nat.mul_comm a, Nat.mul_comm t, pow_mul, pow_mul, h.pow_eq_one]
      simp
    rw [geom_sum_eq hne, hone]
    simp

/-- Discrete Fourier sum of ratio `ρ` of a signal given by its samples. -/
def dft (ρ : K) (N : Nat) (u : Nat → K) (i : Nat) : K := ∑ j ∈ range N, ρ ^ (i * j) * u j

theorem dft_inverse (ρ : K) (N : Nat) (hN : 0 < N) (h : IsPrimitiveRoot ρ N) (u : Nat → K) (t : Nat) (ht : t < N) :
    dft ρ⁻¹ N (dft ρ N u) t = N * u t := by
  unfold dft
  have e : ∀ i ∈ range N, ρ⁻¹ ^ (t * i) * ∑ j ∈ range N, ρ ^ (i * j) * u j =
      ∑ j ∈ range N, (ρ ^ (i * j) * ρ⁻¹ ^ (i * t)) * u j := by
    intro i _
    rw [mul_sum]
    refine sum_congr rfl fun j _ => ?_
    rw [Nat.mul_comm t i]; ring
  rw [sum_congr rfl e, sum_comm]
  have e2 : ∀ j ∈ range N, ∑ i ∈ range N, (ρ ^ (i * j) * ρ⁻¹ ^ (i * t)) * u j = if j = t then N * u t else 0 := by
    intro j hj
    rw [← sum_mul, ortho ρ N hN h, Nat.mod_eq_of_lt (mem_range.1 hj), Nat.mod_eq_of_lt ht]
    split
    · rename_i e; rw [e]
    · simp
  rw [sum_congr rfl e2, sum_ite_eq' , if_pos (mem_range.2 ht)]

/-- The convolution theorem: a product of spectra is the spectrum of the circular convolution. -/
theorem dft_convolution (ρ : K) (N : Nat) (hN : 0 < N) (h : IsPrimitiveRoot ρ N) (u v : Nat → K) (t : Nat) (ht : t < N) :
    dft ρ⁻¹ N (fun i => dft ρ N u i * dft ρ N v i) t = N * ∑ a ∈ range N, u a * v ((t + N - a) % N) := by
  unfold dft
  have e : ∀ i ∈ range N, ρ⁻¹ ^ (t * i) * ((∑ a ∈ range N, ρ ^ (i * a) * u a) * ∑ b ∈ range N, ρ ^ (i * b) * v b) =
      ∑ a ∈ range N, ∑ b ∈ range N, (ρ ^ (i * (a + b)) * ρ⁻¹ ^ (i * t)) * (u a * v b) := by
    intro i _
    rw [sum_mul_sum, mul_sum]
    refine sum_congr rfl fun a _ => ?_
    rw [mul_sum]
    refine sum_congr rfl fun b _ => ?_
    rw [Nat.mul_comm t i, Nat.mul_add, pow_add]; ring
  rw [sum_congr rfl e, sum_comm, mul_sum]
  refine sum_congr rfl fun a ha => ?_
  have ha := mem_range.1 ha
  rw [sum_comm]
  have e2 : ∀ b ∈ range N, ∑ i ∈ range N, (ρ ^ (i * (a + b)) * ρ⁻¹ ^ (i * t)) * (u a * v b) =
      if b = (t + N - a) % N then N * (u a * v ((t + N - a) % N)) else 0 := by
    intro b hb
    have hb := mem_range.1 hb
    rw [← sum_mul, ortho ρ N hN h, Nat.mod_eq_of_lt ht]
    have hiff : (a + b) % N = t ↔ b = (t + N - a) % N := by
      by_cases h1 : a ≤ t
      · have e1 : (t + N - a) % N = t - a := by
          rw [show t + N - a = t - a + N by omega, Nat.add_mod_right, Nat.mod_eq_of_lt (by omega)]
        rw [e1]
        by_cases h2 : a + b < N
        · rw [Nat.mod_eq_of_lt h2]; omega
        · rw [Nat.mod_eq_sub_mod (by omega), Nat.mod_eq_of_lt (by omega)]; omega
      · have e1 : (t + N - a) % N = t + N - a := Nat.mod_eq_of_lt (by omega)
        rw [e1]
        by_cases h2 : a + b < N
        · rw [Nat.mod_eq_of_lt h2]; omega
        · rw [Nat.mod_eq_sub_mod (by omega), Nat.mod_eq_of_lt (by omega)]; omega
    by_cases hc : b = (t + N - a) % N
    · rw [if_pos (hiff.2 hc), if_pos hc, ← hc]
    · rw [if_neg (fun e => hc (hiff.1 e)), if_neg hc, zero_mul]
  rw [sum_congr rfl e2, sum_ite_eq', if_pos (mem_range.2 (Nat.mod_lt _ hN))]

theorem dft_congr (ρ : K) (N : Nat) (u v : Nat → K) (i : Nat) (h : ∀ j, j < N → u j = v j) : dft ρ N u i = dft ρ N v i :=
  sum_congr rfl fun j hj => by rw [h j (mem_range.1 hj)]

/-- The inverse transform is the direct one read backwards. -/
theorem dft_miroir (ρ : K) (N : Nat) (hN : 0 < N) (h : IsPrimitiveRoot ρ N) (u : Nat → K) (t : Nat) (ht : t < N) :
    dft ρ⁻¹ N u t = dft ρ N u ((N - t) % N) := by
  refine sum_congr rfl fun j _ => ?_
  congr 1
  have hρ := pow_ne ρ N hN h
  have e : ρ ^ ((N - t) % N * j) = ρ ^ ((N - t) * j) := by
    have h1 : ∀ b, ρ ^ b = ρ ^ (b % N) := fun b => by
      conv_lhs => rw [← Nat.mod_add_div b N, pow_add, pow_mul, h.pow_eq_one, one_pow, mul_one]
    rw [h1 ((N - t) % N * j), h1 ((N - t) * j), Nat.mod_mul_mod]
  rw [e]
  have e2 : ρ ^ ((N - t) * j) * ρ ^ (t * j) = 1 := by
    rw [← pow_add, ← Nat.add_mul, Nat.sub_add_cancel ht.le, pow_mul, h.pow_eq_one, one_pow]
  rw [inv_pow]
  exact (eq_inv_of_mul_eq_one_left e2).symm

end Verif.Fourier
