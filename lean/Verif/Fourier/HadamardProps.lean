import Verif.Fourier.Hadamard
import Mathlib.Algebra.BigOperators.Intervals
import Mathlib.Algebra.BigOperators.Ring.Finset
import Mathlib.Algebra.BigOperators.Field
import Mathlib.Data.Nat.Bitwise
import Mathlib.Data.Nat.Factorization.Basic
import Mathlib.Data.List.GetD
import Mathlib.Tactic.Ring
import Mathlib.Tactic.FieldSimp
import Mathlib.Tactic.Linarith
import Mathlib.Data.Rat.Defs
import Mathlib.Tactic.NormNum
import Mathlib.Algebra.Order.Ring.Rat

/-! # C26: the Walsh-Hadamard transform -/

namespace Verif.Hadamard

open Finset

/-! ## Specification -/

/-- Entry `(i, j)` of the Hadamard matrix of order `2^k`: `(-1)` to the number of bit positions below `k` set in both indices. -/
def walsh (k i j : Nat) : Int := ∏ b ∈ range k, if i.testBit b ∧ j.testBit b then -1 else 1

/-! ## The matrix -/

theorem walsh_zero (i j : Nat) : walsh 0 i j = 1 := rfl

theorem walsh_succ (k i j : Nat) : walsh (k + 1) i j = walsh k i j * if i.testBit k ∧ j.testBit k then -1 else 1 :=
  prod_range_succ _ _

theorem walsh_symm (k i j : Nat) : walsh k i j = walsh k j i := by
  unfold walsh; simp only [and_comm]

theorem walsh_congr (k i i' j j' : Nat) (hi : i % 2 ^ k = i' % 2 ^ k) (hj : j % 2 ^ k = j' % 2 ^ k) :
    walsh k i j = walsh k i' j' := by
  unfold walsh
  refine prod_congr rfl fun b hb => ?_
  have hb := mem_range.1 hb
  have h1 : ∀ a a' : Nat, a % 2 ^ k = a' % 2 ^ k → a.testBit b = a'.testBit b := by
    intro a a' h
    have := congrArg (fun z => Nat.testBit z b) h
    simpa [Nat.testBit_mod_two_pow, hb] using this
  rw [h1 _ _ hi, h1 _ _ hj]

theorem bit_iff (t s : Nat) : t.testBit s = true ↔ ¬ t % (2 ^ s * 2) < 2 ^ s := by
  rw [Nat.testBit_eq_decide_div_mod_eq, decide_eq_true_iff]
  have h := Nat.mod_mul (x := t) (a := 2 ^ s) (b := 2)
  have h2 := Nat.mod_lt t (Nat.two_pow_pos s)
  rcases Nat.mod_two_eq_zero_or_one (t / 2 ^ s) with e | e <;> rw [e] at h <;> omega

theorem bit_lt (t s : Nat) (h : t < 2 ^ s) : t.testBit s = false := Nat.testBit_lt_two_pow h

theorem walsh_ou (k i j : Nat) : walsh k i j = 1 ∨ walsh k i j = -1 := by
  induction k with
  | zero => left; rfl
  | succ k ih =>
    rw [walsh_succ]
    split <;> rcases ih with h | h <;> rw [h] <;> simp

theorem hadamard_eq (k : Nat) : ∃ M, hadamardMatrice (2 ^ k) = some M ∧ ∀ i j, i < 2 ^ k → j < 2 ^ k → M i j = walsh k i j := by
  induction k with
  | zero =>
    refine ⟨fun _ _ => 1, ?_, fun i j _ _ => rfl⟩
    rw [hadamardMatrice]; simp
  | succ k ih =>
    obtain ⟨M, e, hM⟩ := ih
    have hp := Nat.two_pow_pos k
    have hd : 2 ^ (k + 1) / 2 = 2 ^ k := by rw [pow_succ]; omega
    rw [hadamardMatrice, if_neg (by rw [pow_succ]; omega), if_neg (by rw [pow_succ]; omega), hd, e]
    refine ⟨_, rfl, ?_⟩
    intro i j hi hj
    rw [pow_succ] at hi hj
    rw [walsh_succ]
    simp only [bit_iff, Nat.mod_eq_of_lt hi, Nat.mod_eq_of_lt hj]
    unfold ecritBloc
    by_cases h1 : i < 2 ^ k <;> by_cases h2 : j < 2 ^ k
    · rw [if_neg (by omega), if_neg (by omega), if_neg (by omega), if_pos (by omega), if_neg (by omega),
        mul_one, hM _ _ (by omega) (by omega)]
      rfl
    · rw [if_neg (by omega), if_pos (by omega), if_neg (by omega), mul_one, hM _ _ (by omega) (by omega)]
      refine walsh_congr _ _ _ _ _ rfl ?_
      rw [Nat.mod_eq_sub_mod (by omega : 2 ^ k ≤ j)]
    · rw [if_neg (by omega), if_neg (by omega), if_pos (by omega), if_neg (by omega), mul_one, hM _ _ (by omega) (by omega)]
      refine walsh_congr _ _ _ _ _ ?_ rfl
      rw [Nat.mod_eq_sub_mod (by omega : 2 ^ k ≤ i)]
    · rw [if_pos (by omega), if_pos (by omega), mul_neg_one]
      show -M _ _ = _
      rw [hM _ _ (by omega) (by omega)]
      congr 1
      refine walsh_congr _ _ _ _ _ ?_ ?_
      · rw [Nat.mod_eq_sub_mod (by omega : 2 ^ k ≤ i)]
      · rw [Nat.mod_eq_sub_mod (by omega : 2 ^ k ≤ j)]

theorem walsh_add_bit (k l : Nat) (hl : l < 2 ^ k) : (2 ^ k + l).testBit k = true := by
  rw [bit_iff, Nat.mod_eq_of_lt (by omega)]; omega

theorem walsh_ortho (k i j : Nat) :
    ∑ l ∈ range (2 ^ k), walsh k i l * walsh k l j = if i % 2 ^ k = j % 2 ^ k then 2 ^ k else 0 := by
  induction k with
  | zero => simp [walsh_zero, Nat.mod_one]
  | succ k ih =>
    have e1 : ∀ l ∈ range (2 ^ k), walsh (k + 1) i l * walsh (k + 1) l j = walsh k i l * walsh k l j := by
      intro l hl
      rw [walsh_succ, walsh_succ, bit_lt l k (mem_range.1 hl)]; simp
    have e2 : ∀ l ∈ range (2 ^ k), walsh (k + 1) i (2 ^ k + l) * walsh (k + 1) (2 ^ k + l) j =
        (walsh k i l * walsh k l j) * ((if i.testBit k then -1 else 1) * (if j.testBit k then -1 else 1)) := by
      intro l hl
      rw [walsh_succ, walsh_succ, walsh_add_bit k l (mem_range.1 hl)]
      rw [walsh_congr k i i (2 ^ k + l) l rfl (by simp), walsh_congr k (2 ^ k + l) l j j (by simp) rfl]
      simp only [and_true, true_and]
      ring
    rw [pow_succ, Nat.mul_two, sum_range_add, sum_congr rfl e1, sum_congr rfl e2, ← sum_mul, ih]
    have hm : ∀ a : Nat, a % (2 ^ k + 2 ^ k) = a % 2 ^ k + if a.testBit k then 2 ^ k else 0 := by
      intro a
      rw [← Nat.mul_two]
      have h := Nat.mod_mul (x := a) (a := 2 ^ k) (b := 2)
      rw [h, Nat.testBit_eq_decide_div_mod_eq]
      rcases Nat.mod_two_eq_zero_or_one (a / 2 ^ k) with e | e <;> rw [e] <;> simp
    rw [hm, hm]
    have hi := Nat.mod_lt i (Nat.two_pow_pos k)
    have hj := Nat.mod_lt j (Nat.two_pow_pos k)
    by_cases b1 : i.testBit k <;> by_cases b2 : j.testBit k <;> simp only [b1, b2, if_true, if_false, Bool.false_eq_true]
    · by_cases h : i % 2 ^ k = j % 2 ^ k
      · rw [if_pos h, if_pos (by omega)]; push_cast; ring
      · rw [if_neg h, if_neg (by omega)]; simp
    · rw [if_neg (show ¬ (i % 2 ^ k + 2 ^ k = j % 2 ^ k + 0) by omega)]; ring
    · rw [if_neg (show ¬ (i % 2 ^ k + 0 = j % 2 ^ k + 2 ^ k) by omega)]; ring
    · by_cases h : i % 2 ^ k = j % 2 ^ k
      · rw [if_pos h, if_pos (by omega)]; push_cast; ring
      · rw [if_neg h, if_neg (by omega)]; simp

/-! ## The fast transform -/

variable {K : Type} [Field K]

theorem papillon_some (y : List K) (j h : Nat) (hj : j + h < y.length) :
    papillon y j h = some ((y.set j (y.getD j 0 + y.getD (j + h) 0)).set (j + h) (y.getD j 0 - y.getD (j + h) 0)) := by
  unfold papillon
  rw [List.getElem?_eq_getElem (by omega : j < y.length), List.getElem?_eq_getElem hj,
    List.getD_eq_getElem _ _ (by omega : j < y.length), List.getD_eq_getElem _ _ hj]

theorem getD_set' (y : List K) (i t : Nat) (v : K) (hi : i < y.length) :
    (y.set i v).getD t 0 = if t = i then v else y.getD t 0 := by
  rw [List.getD_eq_getElem?_getD, List.getElem?_set, List.getD_eq_getElem?_getD]
  by_cases h : i = t
  · subst h; simp [hi]
  · rw [if_neg h, if_neg (Ne.symm h)]

theorem boucleJ_eq (h : Nat) (c : Nat) : ∀ (j : Nat) (y : List K), c ≤ h → j + c + h ≤ y.length ∨ c = 0 →
    ∃ y', boucleJ h c j y = some y' ∧ y'.length = y.length ∧ ∀ t, y'.getD t 0 =
      if j ≤ t ∧ t < j + c then y.getD t 0 + y.getD (t + h) 0
      else if j + h ≤ t ∧ t < j + c + h then y.getD (t - h) 0 - y.getD t 0 else y.getD t 0 := by
  induction c with
  | zero =>
    intro j y _ _
    refine ⟨y, rfl, rfl, fun t => ?_⟩
    rw [if_neg (by omega), if_neg (by omega)]
  | succ c ih =>
    intro j y hc hl
    have hl : j + (c + 1) + h ≤ y.length := by rcases hl with h | h <;> omega
    obtain ⟨y', e, h1, h2⟩ := ih (j + 1)
      ((y.set j (y.getD j 0 + y.getD (j + h) 0)).set (j + h) (y.getD j 0 - y.getD (j + h) 0)) (by omega)
      (by left; simp; omega)
    refine ⟨y', by rw [boucleJ, papillon_some y j h (by omega)]; exact e, by simpa using h1, fun t => ?_⟩
    rw [h2 t]
    simp only [getD_set' _ (j + h) _ _ (show j + h < (y.set j _).length by simp; omega),
      getD_set' y j _ _ (by omega : j < y.length)]
    by_cases c1 : t = j
    · subst c1
      rw [if_neg (by omega), if_neg (by omega), if_neg (by omega), if_pos rfl, if_pos (by omega)]
    by_cases c2 : t = j + h
    · subst c2
      rw [if_neg (by omega), if_neg (by omega), if_pos rfl, if_neg (by omega), if_pos (by omega), Nat.add_sub_cancel]
    by_cases c3 : j + 1 ≤ t ∧ t < j + 1 + c
    · rw [if_pos c3, if_neg c2, if_neg c1, if_neg (by omega), if_neg (by omega), if_pos (by omega)]
    rw [if_neg c3, if_neg (by omega : ¬ (j ≤ t ∧ t < j + (c + 1)))]
    by_cases c4 : j + 1 + h ≤ t ∧ t < j + 1 + c + h
    · rw [if_pos c4, if_pos (by omega : j + h ≤ t ∧ t < j + (c + 1) + h), if_neg (by omega), if_neg (by omega), if_neg c2,
        if_neg c1]
    · rw [if_neg c4, if_neg (by omega : ¬ (j + h ≤ t ∧ t < j + (c + 1) + h)), if_neg c2, if_neg c1]

theorem boucleI_eq (h : Nat) (hh : 0 < h) (m : Nat) : ∀ (q : Nat) (y : List K), y.length = (h * 2) * (q + m) →
    ∃ y', boucleI y.length h ((h * 2) * q) y = some y' ∧ y'.length = y.length ∧ ∀ t, t < y.length → y'.getD t 0 =
      if t < (h * 2) * q then y.getD t 0
      else if t % (h * 2) < h then y.getD t 0 + y.getD (t + h) 0 else y.getD (t - h) 0 - y.getD t 0 := by
  induction m with
  | zero =>
    intro q y hy
    refine ⟨y, ?_, rfl, fun t ht => ?_⟩
    · rw [boucleI, if_neg (by rw [hy]; simp)]
    · rw [if_pos (by rw [Nat.add_zero] at hy; omega)]
  | succ m ih =>
    intro q y hy
    have hq : (h * 2) * (q + (m + 1)) = (h * 2) * q + h * 2 + (h * 2) * m := by ring
    obtain ⟨y1, e1, l1, v1⟩ := boucleJ_eq h h ((h * 2) * q) y (le_refl _) (by left; rw [hy, hq]; generalize h * 2 * m = z; omega)
    obtain ⟨y2, e2, l2, v2⟩ := ih (q + 1) y1 (by rw [l1, hy]; congr 1; omega)
    refine ⟨y2, ?_, l2.trans l1, fun t ht => ?_⟩
    · rw [boucleI, if_pos ⟨by rw [hy, hq]; generalize h * 2 * m = z; omega, hh⟩, e1]
      rw [l1] at e2
      have : h * 2 * q + h * 2 = h * 2 * (q + 1) := by ring
      simpa only [this] using e2
    · rw [v2 t (by omega), v1 t, v1 (t + h), v1 (t - h)]
      have e3 : h * 2 * (q + 1) = h * 2 * q + h * 2 := by ring
      rw [e3]
      by_cases c1 : t < h * 2 * q
      · rw [if_pos (by omega), if_neg (by omega), if_neg (by omega), if_pos c1]
      rw [if_neg c1]
      by_cases c2 : t < h * 2 * q + h * 2
      · rw [if_pos c2]
        have hm : t % (h * 2) = t - h * 2 * q := by
          have : t = (t - h * 2 * q) + h * 2 * q := by omega
          conv_lhs => rw [this, Nat.add_mul_mod_self_left]
          exact Nat.mod_eq_of_lt (by omega)
        rw [hm]
        by_cases c3 : t - h * 2 * q < h
        · rw [if_pos c3, if_pos (by omega)]
        · rw [if_neg c3, if_neg (by omega), if_pos (by omega)]
      · rw [if_neg c2]
        split_ifs <;> first | rfl | omega | skip
        all_goals
          exfalso
          rename_i c3 c4 c5
          have hdm := Nat.div_add_mod t (h * 2)
          have h3 : q + 1 ≤ t / (h * 2) := by
            rw [Nat.le_div_iff_mul_le (by omega), Nat.mul_comm]; omega
          have h4 := Nat.mul_le_mul_left (h * 2) h3
          omega

/-- Value of the vector after the levels below `s`. -/
def Partiel (x : List K) (s : Nat) (y : List K) : Prop :=
  y.length = x.length ∧ ∀ t, t < x.length → y.getD t 0 =
    (∑ u ∈ range (2 ^ s), (walsh s t u : K) * x.getD (t / 2 ^ s * 2 ^ s + u) 0) / 2 ^ s

theorem partiel_succ (h2 : (2 : K) ≠ 0) (x : List K) (k s : Nat) (hx : x.length = 2 ^ k) (hs : s < k) (y : List K) (hy : Partiel x s y) :
    ∃ y', boucleI x.length (2 ^ s) 0 y = some y' ∧ Partiel x (s + 1) (y'.map (· / 2)) := by
  have hdiv : (2 ^ s * 2) * (0 + 2 ^ (k - s - 1)) = 2 ^ k := by
    rw [Nat.zero_add, ← pow_succ, ← pow_add]; congr 1; omega
  obtain ⟨y', e, l, v⟩ := boucleI_eq (2 ^ s) (Nat.two_pow_pos s) (2 ^ (k - s - 1)) 0 y (by rw [hy.1, hx, hdiv])
  rw [Nat.mul_zero, hy.1] at e
  refine ⟨y', e, by rw [List.length_map, l, hy.1], fun t ht => ?_⟩
  have hm : (y'.map (· / 2)).getD t 0 = y'.getD t 0 / 2 := by
    rw [List.getD_eq_getElem _ _ (by simp; rw [l, hy.1]; exact ht), List.getElem_map,
      List.getD_eq_getElem _ _ (by rw [l, hy.1]; exact ht)]
  rw [hm, v t (by rw [hy.1]; exact ht), if_neg (by omega)]
  have hP := Nat.two_pow_pos s
  have hdm := Nat.div_add_mod t (2 ^ s * 2)
  set q := t / (2 ^ s * 2) with hq
  set r := t % (2 ^ s * 2) with hr
  have hr2 : r < 2 ^ s * 2 := Nat.mod_lt _ (by omega)
  have hqb : q < 2 ^ (k - s - 1) := by
    rw [hq, Nat.div_lt_iff_lt_mul (by omega)]
    rw [Nat.zero_add, Nat.mul_comm] at hdiv
    omega
  have hb : (2 ^ s * 2) * q + 2 ^ s * 2 ≤ x.length := by
    have : (2 ^ s * 2) * (q + 1) ≤ (2 ^ s * 2) * 2 ^ (k - s - 1) := Nat.mul_le_mul_left _ hqb
    rw [Nat.zero_add] at hdiv
    rw [hx, ← hdiv]; linarith
  have hA : 2 ^ s * 2 * q = (2 * q) * 2 ^ s := by ring
  have hB : 2 ^ s * 2 * q + 2 ^ s = (2 * q + 1) * 2 ^ s := by ring
  have eS : t / 2 ^ (s + 1) * 2 ^ (s + 1) = 2 ^ s * 2 * q := by rw [pow_succ, ← hq, Nat.mul_comm]
  rw [eS]
  have hsum : (∑ u ∈ range (2 ^ (s + 1)), (walsh (s + 1) t u : K) * x.getD (2 ^ s * 2 * q + u) 0) =
      (∑ u ∈ range (2 ^ s), (walsh s t u : K) * x.getD (2 ^ s * 2 * q + u) 0) +
      (if r < 2 ^ s then 1 else -1) * ∑ u ∈ range (2 ^ s), (walsh s t u : K) * x.getD (2 ^ s * 2 * q + 2 ^ s + u) 0 := by
    rw [pow_succ, Nat.mul_two, sum_range_add, mul_sum, ← Nat.mul_two]
    congr 1
    · refine sum_congr rfl fun u hu => ?_
      rw [walsh_succ, bit_lt u s (mem_range.1 hu)]; simp
    · refine sum_congr rfl fun u hu => ?_
      rw [walsh_succ, walsh_add_bit s u (mem_range.1 hu), walsh_congr s t t (2 ^ s + u) u rfl (by simp), Nat.add_assoc]
      by_cases c : r < 2 ^ s
      · have : t.testBit s = false := by
          have h := bit_iff t s
          rw [← hr] at h
          cases hb : t.testBit s
          · rfl
          · exact absurd c (h.1 hb)
        simp [c, this]
      · have : t.testBit s = true := (bit_iff t s).2 (by rw [← hr]; exact c)
        simp [c, this]
  rw [hsum]
  have hpow : (2 : K) ^ (s + 1) = 2 ^ s * 2 := pow_succ _ _
  have hne : (2 : K) ^ s ≠ 0 := pow_ne_zero _ h2
  by_cases c : r < 2 ^ s
  · rw [if_pos c, if_pos c, hy.2 t ht, hy.2 (t + 2 ^ s) (by omega)]
    have d1 : t / 2 ^ s = 2 * q := by
      rw [Nat.div_eq_iff hP]; omega
    have d2 : (t + 2 ^ s) / 2 ^ s = 2 * q + 1 := by rw [Nat.add_div_right _ hP, d1]
    rw [d1, d2, ← hA, ← hB]
    have : ∀ u, walsh s (t + 2 ^ s) u = walsh s t u := fun u => walsh_congr _ _ _ _ _ (by simp) rfl
    simp only [this]
    rw [hpow]
    field_simp
  · rw [if_neg c, if_neg c, hy.2 t ht, hy.2 (t - 2 ^ s) (by omega)]
    have d1 : t / 2 ^ s = 2 * q + 1 := by
      rw [Nat.div_eq_iff hP]; omega
    have d2 : (t - 2 ^ s) / 2 ^ s = 2 * q := by
      rw [Nat.div_eq_iff hP]; omega
    rw [d1, d2, ← hA, ← hB]
    have : ∀ u, walsh s (t - 2 ^ s) u = walsh s t u := fun u => walsh_congr _ _ _ _ _ (by
      rw [← Nat.mod_eq_sub_mod (by omega)]) rfl
    simp only [this]
    rw [hpow]
    field_simp
    ring

theorem niveaux_eq (h2 : (2 : K) ≠ 0) (x : List K) (k : Nat) (hx : x.length = 2 ^ k) (m : Nat) : ∀ (s : Nat) (y : List K),
    s + m = k → Partiel x s y → ∃ y', niveaux x.length (2 ^ s) y = some y' ∧ Partiel x k y' := by
  induction m with
  | zero =>
    intro s y hs hy
    have : s = k := by omega
    subst this
    refine ⟨y, ?_, hy⟩
    rw [niveaux, if_neg (by rw [hx]; omega)]
  | succ m ih =>
    intro s y hs hy
    obtain ⟨y1, e1, p1⟩ := partiel_succ h2 x k s hx (by omega) y hy
    obtain ⟨y2, e2, p2⟩ := ih (s + 1) _ (by omega) p1
    refine ⟨y2, ?_, p2⟩
    rw [niveaux, if_pos ⟨by rw [hx]; exact Nat.pow_lt_pow_right (by omega) (by omega), Nat.two_pow_pos s⟩, e1]
    exact e2

theorem fwht_eq (h2 : (2 : K) ≠ 0) (x : List K) (k : Nat) (hx : x.length = 2 ^ k) :
    ∃ y, fwht x = some y ∧ y.length = x.length ∧
      ∀ i, i < x.length → y.getD i 0 = (∑ j ∈ range x.length, (walsh k i j : K) * x.getD j 0) / (x.length : K) := by
  have h0 : Partiel x 0 x := by
    refine ⟨rfl, fun t _ => ?_⟩
    simp [walsh_zero]
  obtain ⟨y, e, hl, hv⟩ := niveaux_eq h2 x k hx k 0 x (by omega) h0
  refine ⟨y, e, hl, fun i hi => ?_⟩
  rw [hv i hi, hx]
  have : i / 2 ^ k = 0 := Nat.div_eq_of_lt (by omega)
  rw [this]
  simp

/-! ## C26 -/

/-- **C26 (matrix).** For every `k`, `hadamard_matrice(2^k)` terminates and its entry `(i, j)` is `(-1)` to the number of common bits of
`i` and `j`; in particular every entry is `1` or `-1`. -/
theorem C26_matrice (k : Nat) : ∃ M, hadamardMatrice (2 ^ k) = some M ∧
    ∀ i j, i < 2 ^ k → j < 2 ^ k → M i j = walsh k i j ∧ (M i j = 1 ∨ M i j = -1) := by
  obtain ⟨M, e, h⟩ := hadamard_eq k
  exact ⟨M, e, fun i j hi hj => ⟨h i j hi hj, by rw [h i j hi hj]; exact walsh_ou k i j⟩⟩

/-- **C26 (orthogonality).** `H Hᵀ = n I` for the matrix returned for every power of two `n`. -/
theorem C26_orthogonale (k : Nat) : ∃ M, hadamardMatrice (2 ^ k) = some M ∧
    ∀ i j, i < 2 ^ k → j < 2 ^ k → ∑ l ∈ range (2 ^ k), M i l * M j l = if i = j then 2 ^ k else 0 := by
  obtain ⟨M, e, h⟩ := hadamard_eq k
  refine ⟨M, e, fun i j hi hj => ?_⟩
  have := walsh_ortho k i j
  rw [Nat.mod_eq_of_lt hi, Nat.mod_eq_of_lt hj] at this
  rw [← this]
  refine sum_congr rfl fun l hl => ?_
  rw [h i l hi (mem_range.1 hl), h j l hj (mem_range.1 hl), walsh_symm k j l]

/-- **C26 (transform).** On every vector of length `n = 2^k`, `fwht` succeeds and computes `H x / n` with `H` the matrix returned by
`hadamard_matrice(n)`. -/
theorem C26_transformee (h2 : (2 : K) ≠ 0) (x : List K) (k : Nat) (hx : x.length = 2 ^ k) :
    ∃ M y, hadamardMatrice x.length = some M ∧ fwht x = some y ∧ y.length = x.length ∧
      ∀ i, i < x.length → y.getD i 0 = (∑ j ∈ range x.length, (M i j : K) * x.getD j 0) / (x.length : K) := by
  obtain ⟨M, e, h⟩ := hadamard_eq k
  obtain ⟨y, e2, hl, hv⟩ := fwht_eq h2 x k hx
  refine ⟨M, y, by rw [hx]; exact e, e2, hl, fun i hi => ?_⟩
  rw [hv i hi]
  congr 1
  refine sum_congr rfl fun j hj => ?_
  rw [h i j (by omega) (by rw [← hx]; exact mem_range.1 hj)]

/-- **C26 (involution).** Applying `fwht` twice to a vector of length `n = 2^k` divides it by `n`. -/
theorem C26_involution (h2 : (2 : K) ≠ 0) (x : List K) (k : Nat) (hx : x.length = 2 ^ k) :
    ∃ y z, fwht x = some y ∧ fwht y = some z ∧ z = x.map (· / (x.length : K)) := by
  obtain ⟨y, e1, l1, v1⟩ := fwht_eq h2 x k hx
  obtain ⟨z, e2, l2, v2⟩ := fwht_eq h2 y k (l1.trans hx)
  refine ⟨y, z, e1, e2, ?_⟩
  apply List.ext_getElem
  · simp [l2, l1]
  intro i hi hi'
  have hi0 : i < x.length := by omega
  have hz := v2 i (by omega)
  rw [List.getD_eq_getElem _ _ hi] at hz
  rw [hz, List.getElem_map]
  have hn : (x.length : K) ≠ 0 := by rw [hx]; push_cast; exact pow_ne_zero _ h2
  have e : ∑ j ∈ range y.length, (walsh k i j : K) * y.getD j 0 =
      (∑ l ∈ range x.length, ((∑ j ∈ range (2 ^ k), walsh k i j * walsh k j l : Int) : K) * x.getD l 0) / x.length := by
    rw [l1]
    have : ∀ j ∈ range x.length, (walsh k i j : K) * y.getD j 0 =
        (∑ l ∈ range x.length, (walsh k i j : K) * (walsh k j l : K) * x.getD l 0) / x.length := by
      intro j hj
      rw [v1 j (mem_range.1 hj), mul_div_assoc', mul_sum]
      congr 1
      exact sum_congr rfl fun l _ => by ring
    rw [sum_congr rfl this, ← sum_div, sum_comm]
    congr 1
    refine sum_congr rfl fun l _ => ?_
    rw [Int.cast_sum, sum_mul, hx]
    exact sum_congr rfl fun j _ => by push_cast; ring
  rw [e, l1]
  have hs : ∑ l ∈ range x.length, ((∑ j ∈ range (2 ^ k), walsh k i j * walsh k j l : Int) : K) * x.getD l 0 =
      (x.length : K) * x.getD i 0 := by
    rw [sum_eq_single_of_mem i (mem_range.2 hi0)]
    · rw [walsh_ortho, if_pos rfl, hx]; push_cast; ring
    · intro l hl hne
      rw [walsh_ortho, if_neg]
      · simp
      · rw [Nat.mod_eq_of_lt (by omega), Nat.mod_eq_of_lt (by rw [← hx]; exact mem_range.1 hl)]
        exact Ne.symm hne
  rw [hs, List.getD_eq_getElem _ _ hi0]
  field_simp

/-- **C26 (linearity).** -/
theorem C26_lineaire (h2 : (2 : K) ≠ 0) (x x' : List K) (a b : K) (k : Nat) (hx : x.length = 2 ^ k) (hx' : x'.length = 2 ^ k) :
    ∃ y y' z, fwht x = some y ∧ fwht x' = some y' ∧
      fwht (List.zipWith (fun u v => a * u + b * v) x x') = some z ∧ z = List.zipWith (fun u v => a * u + b * v) y y' := by
  obtain ⟨y, e1, l1, v1⟩ := fwht_eq h2 x k hx
  obtain ⟨y', e2, l2, v2⟩ := fwht_eq h2 x' k hx'
  have lw : (List.zipWith (fun u v => a * u + b * v) x x').length = 2 ^ k := by simp [hx, hx']
  obtain ⟨z, e3, l3, v3⟩ := fwht_eq h2 _ k lw
  refine ⟨y, y', z, e1, e2, e3, ?_⟩
  apply List.ext_getElem
  · simp [l3, l1, l2]
  intro i hi hi'
  have hz := v3 i (by omega)
  rw [List.getD_eq_getElem _ _ hi] at hz
  have h1 := v1 i (by omega)
  have h2' := v2 i (by omega)
  rw [List.getD_eq_getElem _ _ (by omega)] at h1 h2'
  rw [hz, List.getElem_zipWith, h1, h2', lw, hx, hx', mul_div_assoc', mul_div_assoc', ← add_div, mul_sum, mul_sum, ← sum_add_distrib]
  congr 1
  refine sum_congr rfl fun j hj => ?_
  have hj := mem_range.1 hj
  rw [List.getD_eq_getElem _ _ (by omega), List.getElem_zipWith, List.getD_eq_getElem _ _ (by omega), List.getD_eq_getElem _ _ (by omega)]
  ring

theorem boucleI_none (h : Nat) (hh : 0 < h) (m : Nat) : ∀ (q : Nat) (y : List K), y.length = (h * 2) * (q + m) + h →
    boucleI y.length h ((h * 2) * q) y = none := by
  induction m with
  | zero =>
    intro q y hy
    rw [Nat.add_zero] at hy
    rw [boucleI, if_pos ⟨by omega, hh⟩]
    have : boucleJ h h (h * 2 * q) y = none := by
      cases h with
      | zero => omega
      | succ h =>
        rw [boucleJ]
        have : papillon y ((h + 1) * 2 * q) (h + 1) = none := by
          unfold papillon
          rw [List.getElem?_eq_none (by omega : y.length ≤ (h + 1) * 2 * q + (h + 1))]
          cases y[(h + 1) * 2 * q]? <;> rfl
        rw [this]
    rw [this]
  | succ m ih =>
    intro q y hy
    have hq : (h * 2) * (q + (m + 1)) = (h * 2) * q + h * 2 + (h * 2) * m := by ring
    obtain ⟨y1, e1, l1, _⟩ := boucleJ_eq h h ((h * 2) * q) y (le_refl _) (by left; rw [hy, hq]; generalize h * 2 * m = z; omega)
    have e2 := ih (q + 1) y1 (by rw [l1, hy]; congr 2; omega)
    rw [boucleI, if_pos ⟨by rw [hy, hq]; generalize h * 2 * m = z; omega, hh⟩, e1]
    rw [l1] at e2
    have : h * 2 * q + h * 2 = h * 2 * (q + 1) := by ring
    simpa only [this] using e2

/-- **C26 (other lengths).** `fwht` rejects (exception) every vector whose length is neither 0 nor a power of two. -/
theorem C26_autres_longueurs (x : List K) (h0 : x.length ≠ 0) (hx : ∀ k, x.length ≠ 2 ^ k) : fwht x = none := by
  obtain ⟨v, m, hm, hn⟩ := Nat.exists_eq_two_pow_mul_odd h0
  obtain ⟨p, hp⟩ := hm
  have hp0 : p ≠ 0 := by
    rintro rfl
    exact hx v (by rw [hn, hp]; simp)
  have key : ∀ (d s : Nat) (y : List K), s + d = v → y.length = x.length → niveaux x.length (2 ^ s) y = none := by
    intro d
    induction d with
    | zero =>
      intro s y hs hy
      have : s = v := by omega
      subst this
      have hP := Nat.two_pow_pos s
      have hlen : y.length = (2 ^ s * 2) * (0 + p) + 2 ^ s := by rw [hy, hn, hp]; ring
      have hlt : 2 ^ s < x.length := by
        rw [← hy, hlen]
        have : 0 < 2 ^ s * 2 * (0 + p) := by positivity
        omega
      rw [niveaux, if_pos ⟨hlt, hP⟩, ← hy]
      have := boucleI_none (2 ^ s) hP p 0 y hlen
      rw [Nat.mul_zero] at this
      rw [this]
    | succ d ih =>
      intro s y hs hy
      have hP := Nat.two_pow_pos s
      have hv : 2 ^ v = 2 ^ s * 2 * 2 ^ d := by rw [← pow_succ, ← pow_add]; congr 1; omega
      obtain ⟨y1, e1, l1, _⟩ := boucleI_eq (2 ^ s) hP (2 ^ d * m) 0 y (by rw [hy, hn, hv]; ring)
      rw [Nat.mul_zero, hy] at e1
      have hm1 : 1 ≤ 2 ^ d * m := Nat.mul_pos (Nat.two_pow_pos d) (by omega)
      have hlt : 2 ^ s < x.length := by
        have : 2 ^ s * 2 * 1 ≤ 2 ^ s * 2 * (2 ^ d * m) := Nat.mul_le_mul_left _ hm1
        rw [hn, hv, Nat.mul_assoc (2 ^ s * 2)]; omega
      rw [niveaux, if_pos ⟨hlt, hP⟩, e1]
      exact ih (s + 1) _ (by omega) (by rw [List.length_map, l1, hy])
  exact key v 0 x (by omega) rfl

/-- The call `hadamard_matrice(0)` never returns. -/
theorem C26_matrice_zero : hadamardMatrice 0 = none := by rw [hadamardMatrice]; simp

example : ([5, 6, 7] : List ℚ).length ≠ 0 ∧ ∀ k, ([5, 6, 7] : List ℚ).length ≠ 2 ^ k := by
  refine ⟨by simp, fun k => ?_⟩
  cases k with
  | zero => simp
  | succ k => simp only [List.length_cons, List.length_nil, pow_succ]; omega

example : fwht ([1, 2, 3, 4] : List ℚ) = some [5/2, -1/2, -1, 0] := by
  simp [fwht, niveaux, boucleI, boucleJ, papillon]; norm_num

end Verif.Hadamard
