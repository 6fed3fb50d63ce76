import Verif.Fourier.Tfr
import Mathlib.Algebra.BigOperators.Intervals
import Mathlib.Algebra.BigOperators.Ring.Finset
import Mathlib.Algebra.BigOperators.Field
import Mathlib.Data.List.GetD
import Mathlib.Tactic.Ring
import Mathlib.Tactic.FieldSimp
import Mathlib.Tactic.Linarith
import Mathlib.Tactic.IntervalCases

/-! # The radix-2 passes compute the DFT sum -/

namespace Verif.Fourier

open Finset

variable {K : Type} [Field K]

theorem getD_set (y : List K) (i t : Nat) (v : K) (hi : i < y.length) :
    (y.set i v).getD t 0 = if t = i then v else y.getD t 0 := by
  rw [List.getD_eq_getElem?_getD, List.getElem?_set, List.getD_eq_getElem?_getD]
  by_cases h : i = t
  · subst h; simp [hi]
  · rw [if_neg h, if_neg (Ne.symm h)]

theorem rotationsDepuis_length (w0 : K) (n : Nat) : ∀ r, (rotationsDepuis w0 n r).length = n := by
  induction n with
  | zero => intro r; rfl
  | succ n ih => intro r; simp [rotationsDepuis, ih]

theorem rotationsDepuis_get (w0 : K) (n : Nat) : ∀ r (i : Nat), i < n → (rotationsDepuis w0 n r)[i]? = some (r * w0 ^ i) := by
  induction n with
  | zero => intro r i h; omega
  | succ n ih =>
    intro r i h
    cases i with
    | zero => simp [rotationsDepuis]
    | succ i =>
      simp only [rotationsDepuis, List.getElem?_cons_succ]
      rw [ih _ i (by omega), pow_succ']
      congr 1; ring

theorem tfrRotation_length (A : Trigo K) (n : Nat) : (tfrRotation A n).length = n := rotationsDepuis_length _ _ _

theorem tfrRotation_get (A : Trigo K) (n i : Nat) (h : i < n) : (tfrRotation A n)[i]? = some (A.w n ^ i) := by
  rw [tfrRotation, rotationsDepuis_get _ _ _ _ h, one_mul]

theorem boucleM_eq (pas : Nat) (rot : K) (E : List K) (c : Nat) : ∀ (e xp xp2 : Nat) (out : List K), e + c + pas ≤ E.length →
    xp + c ≤ xp2 → xp2 + c ≤ out.length →
    ∃ out', boucleM pas rot E c e xp xp2 out = some (e + c, xp + c, xp2 + c, out') ∧ out'.length = out.length ∧
      (∀ m, m < c → out'.getD (xp + m) 0 = E.getD (e + m) 0 + rot * E.getD (e + m + pas) 0) ∧
      (∀ m, m < c → out'.getD (xp2 + m) 0 = E.getD (e + m) 0 - rot * E.getD (e + m + pas) 0) ∧
      (∀ t, ¬ (xp ≤ t ∧ t < xp + c) → ¬ (xp2 ≤ t ∧ t < xp2 + c) → out'.getD t 0 = out.getD t 0) := by
  induction c with
  | zero =>
    intro e xp xp2 out _ _ _
    exact ⟨out, rfl, rfl, fun m h => by omega, fun m h => by omega, fun _ _ _ => rfl⟩
  | succ c ih =>
    intro e xp xp2 out he hx hx2
    have hg : E[e + pas]? = some (E.getD (e + pas) 0) := by
      rw [List.getElem?_eq_getElem (by omega), List.getD_eq_getElem _ _ (by omega)]
    have hv : E[e]? = some (E.getD e 0) := by
      rw [List.getElem?_eq_getElem (by omega), List.getD_eq_getElem _ _ (by omega)]
    set v := E.getD e 0 with hvd
    set g := E.getD (e + pas) 0 with hgd
    set out1 := (out.set xp (v + rot * g)).set xp2 (v - rot * g) with h1
    have hl1 : out1.length = out.length := by simp [h1]
    have hd1 : ∀ t, out1.getD t 0 = if t = xp2 then v - rot * g else if t = xp then v + rot * g else out.getD t 0 := by
      intro t
      rw [h1, getD_set _ _ _ _ (by simp; omega), getD_set _ _ _ _ (by omega)]
    obtain ⟨out', e1, l1, a1, b1, f1⟩ := ih (e + 1) (xp + 1) (xp2 + 1) out1 (by omega) (by omega) (by omega)
    refine ⟨out', ?_, l1.trans hl1, ?_, ?_, ?_⟩
    · rw [boucleM, hg, hv]
      simp only
      rw [if_pos ⟨by omega, by omega⟩, e1]
      congr 2
      · omega
      · congr 1
        · omega
        · congr 1; omega
    · intro m hm
      cases m with
      | zero =>
        rw [Nat.add_zero, Nat.add_zero, f1 xp (by omega) (by omega), hd1, if_neg (by omega), if_pos rfl]
      | succ m =>
        have := a1 m (by omega)
        rw [show xp + 1 + m = xp + (m + 1) by omega, show e + 1 + m = e + (m + 1) by omega] at this
        exact this
    · intro m hm
      cases m with
      | zero =>
        rw [Nat.add_zero, Nat.add_zero, f1 xp2 (by omega) (by omega), hd1, if_pos rfl]
      | succ m =>
        have := b1 m (by omega)
        rw [show xp2 + 1 + m = xp2 + (m + 1) by omega, show e + 1 + m = e + (m + 1) by omega] at this
        exact this
    · intro t h1' h2'
      rw [f1 t (by omega) (by omega), hd1, if_neg (by omega), if_neg (by omega)]

theorem boucleK_eq (A : Trigo K) (avant : Bool) (rotations : List K) (pas H : Nat) (E : List K) (ρ : Nat → K)
    (hrot : ∀ k, k * pas < H → ∃ r, rotations[k * pas]? = some r ∧ (if avant then r else A.conj r) = ρ k) (hpas : 0 < pas)
    (c : Nat) : ∀ (k : Nat) (out : List K), (k + c) * pas = H → E.length = 2 * H → out.length = 2 * H →
    ∃ out', boucleK A avant rotations pas E c k (2 * k * pas) (k * pas) (H + k * pas) out = some out' ∧ out'.length = 2 * H ∧
      (∀ j m, k ≤ j → j < k + c → m < pas → out'.getD (j * pas + m) 0 =
          E.getD (2 * j * pas + m) 0 + ρ j * E.getD (2 * j * pas + m + pas) 0) ∧
      (∀ j m, k ≤ j → j < k + c → m < pas → out'.getD (H + j * pas + m) 0 =
          E.getD (2 * j * pas + m) 0 - ρ j * E.getD (2 * j * pas + m + pas) 0) ∧
      (∀ t, t < k * pas → out'.getD t 0 = out.getD t 0 ∧ out'.getD (H + t) 0 = out.getD (H + t) 0) := by
  induction c with
  | zero =>
    intro k out hk hE ho
    exact ⟨out, rfl, ho, fun j m h1 h2 => by omega, fun j m h1 h2 => by omega, fun t _ => ⟨rfl, rfl⟩⟩
  | succ c ih =>
    intro k out hk hE ho
    have hk1 : (k + 1) * pas = k * pas + pas := by ring
    have hk2 : 2 * (k + 1) * pas = 2 * k * pas + pas + pas := by ring
    have hk3 : 2 * k * pas = 2 * (k * pas) := by ring
    have hH : (k + 1) * pas ≤ H := by rw [← hk]; exact Nat.mul_le_mul_right _ (by omega)
    obtain ⟨r, hr, hρ⟩ := hrot k (by omega)
    obtain ⟨o1, e1, l1, a1, b1, f1⟩ := boucleM_eq pas (ρ k) E pas (2 * k * pas) (k * pas) (H + k * pas) out (by omega) (by omega) (by omega)
    obtain ⟨o2, e2, l2, a2, b2, f2⟩ := ih (k + 1) o1 (by rw [← hk]; congr 1; omega) hE (by omega)
    refine ⟨o2, ?_, l2, ?_, ?_, ?_⟩
    · rw [boucleK, hr]
      simp only [hρ, e1]
      rw [← e2, hk1, hk2, Nat.add_assoc H]
    · intro j m h1 h2 hm
      by_cases h : j = k
      · subst h
        rw [(f2 (j * pas + m) (by omega)).1, a1 m hm]
      · exact a2 j m (by omega) (by omega) hm
    · intro j m h1 h2 hm
      by_cases h : j = k
      · subst h
        rw [Nat.add_assoc, (f2 (j * pas + m) (by omega)).2, ← Nat.add_assoc, b1 m hm]
      · exact b2 j m (by omega) (by omega) hm
    · intro t ht
      obtain ⟨g1, g2⟩ := f2 t (by omega)
      rw [g1, g2]
      exact ⟨f1 t (by omega) (by omega), f1 (H + t) (by omega) (by omega)⟩

theorem sum_pair (f : Nat → K) (n : Nat) : ∑ l ∈ range (2 * n), f l = ∑ l ∈ range n, (f (2 * l) + f (2 * l + 1)) := by
  induction n with
  | zero => simp
  | succ n ih =>
    rw [show 2 * (n + 1) = 2 * n + 1 + 1 by ring, sum_range_succ, sum_range_succ, ih, sum_range_succ]
    ring

/-- Contents of the working buffer before pass `n`: the DFTs of size `n` of the `d` decimated signals. -/
def Etape (ρ : K) (x : List K) (n d : Nat) (E : List K) : Prop :=
  E.length = x.length ∧ ∀ k m, k < n → m < d → E.getD (k * d + m) 0 = ∑ l ∈ range n, ρ ^ (d * k * l) * x.getD (m + d * l) 0

theorem etape_succ (A : Trigo K) (avant : Bool) (rotations : List K) (ρ : K) (x : List K) (n pas : Nat)
    (hN : x.length = 2 * (n * pas)) (hpas : 0 < pas) (hhalf : ρ ^ (n * pas) = -1)
    (hrot : ∀ i, i < n * pas → ∃ r, rotations[i]? = some r ∧ (if avant then r else A.conj r) = ρ ^ i)
    (E out : List K) (hE : Etape ρ x n (2 * pas) E) (ho : out.length = x.length) :
    ∃ out', boucleK A avant rotations pas E n 0 0 0 (n * pas) out = some out' ∧ Etape ρ x (2 * n) pas out' := by
  obtain ⟨o, e, l, a, b, -⟩ := boucleK_eq A avant rotations pas (n * pas) E (fun k => ρ ^ (k * pas))
    (fun k hk => hrot (k * pas) hk) hpas n 0 out (by simp) (by rw [hE.1, hN]) (by rw [ho, hN])
  refine ⟨o, by simpa using e, by rw [l, hN], ?_⟩
  intro k m hk hm
  have hsq : ρ ^ (2 * (n * pas)) = 1 := by rw [Nat.mul_comm, pow_mul, hhalf]; ring
  rw [sum_pair]
  have hcomm : ∀ l, m + pas + 2 * pas * l = m + pas * (2 * l + 1) := fun l => by ring
  have hcomm0 : ∀ l, m + 2 * pas * l = m + pas * (2 * l) := fun l => by ring
  by_cases hk2 : k < n
  · have h1 := a k m (by omega) (by omega) hm
    rw [h1, show 2 * k * pas + m = k * (2 * pas) + m by ring, hE.2 k m hk2 (by omega), Nat.add_assoc,
      hE.2 k (m + pas) hk2 (by omega), mul_sum, ← sum_add_distrib]
    refine sum_congr rfl fun l _ => ?_
    rw [hcomm, hcomm0, show pas * k * (2 * l) = 2 * pas * k * l by ring,
      show pas * k * (2 * l + 1) = k * pas + 2 * pas * k * l by ring, pow_add]
    ring
  · obtain ⟨j, rfl⟩ : ∃ j, k = n + j := ⟨k - n, by omega⟩
    have h1 := b j m (by omega) (by omega) hm
    rw [show (n + j) * pas + m = n * pas + j * pas + m by ring, h1, show 2 * j * pas + m = j * (2 * pas) + m by ring,
      hE.2 j m (by omega) (by omega), Nat.add_assoc, hE.2 j (m + pas) (by omega) (by omega), mul_sum, ← sum_sub_distrib]
    refine sum_congr rfl fun l _ => ?_
    rw [hcomm, hcomm0]
    have e1 : ρ ^ (pas * (n + j) * (2 * l)) = ρ ^ (2 * pas * j * l) := by
      rw [show pas * (n + j) * (2 * l) = 2 * (n * pas) * l + 2 * pas * j * l by ring, pow_add, pow_mul, hsq, one_pow, one_mul]
    have e2 : ρ ^ (pas * (n + j) * (2 * l + 1)) = -ρ ^ (j * pas + 2 * pas * j * l) := by
      rw [show pas * (n + j) * (2 * l + 1) = 2 * (n * pas) * l + n * pas + (j * pas + 2 * pas * j * l) by ring, pow_add, pow_add,
        pow_mul, hsq, one_pow, hhalf]
      ring
    rw [e1, e2, pow_add]
    ring

theorem passes_eq (A : Trigo K) (avant : Bool) (rotations : List K) (ρ : K) (x : List K) (k : Nat)
    (hx : x.length = 2 ^ k) (hhalf : 0 < k → ρ ^ (2 ^ (k - 1)) = -1)
    (hrot : ∀ i, i < x.length → ∃ r, rotations[i]? = some r ∧ (if avant then r else A.conj r) = ρ ^ i) (q : Nat) :
    ∀ (s : Nat) (E X scratch : List K), s + q = k → Etape ρ x (2 ^ s) (2 ^ q) E → X.length = x.length → scratch.length = x.length →
      (q = 0 → E = X) →
      ∃ Y, passes A avant rotations x.length (2 ^ s) (decide (q % 2 = 0)) E X scratch = some Y ∧ Etape ρ x (2 ^ k) 1 Y := by
  induction q with
  | zero =>
    intro s E X scratch hs hE _ _ hEX
    have hs : s = k := by omega
    subst hs
    refine ⟨X, ?_, ?_⟩
    · rw [passes, if_neg (by omega)]
    · rw [← hEX rfl]; simpa using hE
  | succ q ih =>
    intro s E X scratch hs hE hX hS _
    have hP := Nat.two_pow_pos s
    have hQ := Nat.two_pow_pos q
    have hN : x.length = 2 * (2 ^ s * 2 ^ q) := by
      rw [hx, ← hs, ← pow_add, ← pow_succ']; congr 1
    have hnp : 2 ^ s * 2 ^ q = 2 ^ (k - 1) := by rw [← pow_add]; congr 1; omega
    have hdiv : x.length / (2 * 2 ^ s) = 2 ^ q := by
      rw [hN, show 2 * (2 ^ s * 2 ^ q) = 2 * 2 ^ s * 2 ^ q by ring]
      exact Nat.mul_div_cancel_left _ (by omega)
    have hlt : 2 ^ s < x.length := by
      rw [hx]; exact Nat.pow_lt_pow_right (by omega) (by omega)
    have hE' : Etape ρ x (2 ^ s) (2 * 2 ^ q) E := by rw [← pow_succ']; exact hE
    have hpos : 0 < k := by omega
    have ho : (if decide ((q + 1) % 2 = 0) = true then scratch else X).length = x.length := by split <;> assumption
    obtain ⟨o, e, hEt⟩ := etape_succ A avant rotations ρ x (2 ^ s) (2 ^ q) hN hQ (by rw [hnp]; exact hhalf hpos)
      (fun i hi => hrot i (by omega)) E _ hE' ho
    have hhalfN : x.length / 2 = 2 ^ s * 2 ^ q := by omega
    rw [passes, if_pos ⟨hlt, hP⟩, hdiv, hhalfN, e]
    simp only
    have hEt' : Etape ρ x (2 ^ (s + 1)) (2 ^ q) o := by rw [pow_succ']; exact hEt
    have hpar : (!decide ((q + 1) % 2 = 0)) = decide (q % 2 = 0) := by
      by_cases h : q % 2 = 0
      · have : ¬ (q + 1) % 2 = 0 := by omega
        simp [h, this]
      · have : (q + 1) % 2 = 0 := by omega
        simp [h, this]
    rw [hpar, ← pow_succ]
    by_cases hb : (q + 1) % 2 = 0
    · rw [if_pos (by simpa using hb)]
      exact ih (s + 1) o X o (by omega) hEt' hX hEt'.1 (fun h => by omega)
    · rw [if_neg (by simpa using hb)]
      exact ih (s + 1) o o scratch (by omega) hEt' hEt'.1 hS (fun _ => rfl)

theorem masque_pair (k : Nat) (hk : k ≤ 30) : decide (2 ^ k &&& 0x55555555 ≠ 0) = decide (k % 2 = 0) := by
  interval_cases k <;> decide

/-- The radix-2 routine computes the (normalised) DFT sum for the ratio `ρ`, whatever the initial contents of its work buffers. -/
theorem tfrRadix2_eq (A : Trigo K) (avant : Bool) (rotations : List K) (ρ : K) (X0 S0 x : List K) (k : Nat)
    (hx : x.length = 2 ^ k) (hk : k ≤ 30) (hhalf : 0 < k → ρ ^ (2 ^ (k - 1)) = -1) (hl : rotations.length = x.length)
    (hrot : ∀ i, i < x.length → ∃ r, rotations[i]? = some r ∧ (if avant then r else A.conj r) = ρ ^ i)
    (h1 : A.racine 1 = 1) (hX0 : X0.length = x.length) (hS0 : S0.length = x.length) :
    ∃ y, tfrRadix2 A avant X0 S0 x rotations = some y ∧ y.length = x.length ∧
      ∀ i, i < x.length → y.getD i 0 = (∑ j ∈ range x.length, ρ ^ (i * j) * x.getD j 0) / A.racine x.length := by
  by_cases hk0 : k = 0
  · subst hk0
    refine ⟨x, ?_, rfl, ?_⟩
    · simp only [tfrRadix2]
      rw [if_neg (by simpa using hl), if_pos (by simpa using hx)]
    · intro i hi
      rw [hx] at hi ⊢
      have : i = 0 := by simpa using hi
      subst this
      simp [h1]
  · have h0 : Etape ρ x (2 ^ 0) (2 ^ k) x := by
      refine ⟨rfl, fun i m hi hm => ?_⟩
      have : i = 0 := by simpa using hi
      subst this
      simp
    obtain ⟨Y, e, hY⟩ := passes_eq A avant rotations ρ x k hx hhalf hrot k 0 x X0 S0 (by omega) h0 hX0 hS0 (fun h => by omega)
    refine ⟨Y.map (· / A.racine x.length), ?_, by rw [List.length_map, hY.1], ?_⟩
    · simp only [tfrRadix2]
      rw [if_neg (by simpa using hl), if_neg (by
        rw [hx]; have : 2 ^ 0 < 2 ^ k := Nat.pow_lt_pow_right (by omega) (by omega)
        omega)]
      have hm : decide (x.length &&& 0x55555555 ≠ 0) = decide (k % 2 = 0) := by rw [hx]; exact masque_pair k hk
      rw [hm]
      rw [pow_zero] at e
      rw [e]
    · intro i hi
      have h2 := hY.2 i 0 (by rw [← hx]; exact hi) (by omega)
      have hlt : i < Y.length := by rw [hY.1]; exact hi
      rw [List.getD_eq_getElem _ _ (by simpa using hlt), List.getElem_map]
      rw [mul_one, Nat.add_zero, List.getD_eq_getElem _ _ hlt] at h2
      rw [h2, ← hx]
      simp

end Verif.Fourier
