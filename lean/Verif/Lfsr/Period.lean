import Verif.Lfsr.Lemmas
import Mathlib.Dynamics.PeriodicPts.Defs
import Mathlib.Data.Nat.Prime.Basic
import Mathlib.Data.Finset.Card
import Mathlib.Data.Finset.Max
import Mathlib.Tactic.NormNum.Prime
/-! Lemmas for the period of the LFSR (GF(2)-linear algebra on `Nat` registers; not claims). -/
namespace Verif.Lfsr

/-- apply the GF(2) matrix whose columns are `M` to the bits of `x` -/
def appl : List Nat → Nat → Nat
  | [], _ => 0
  | m :: M, x => (if x.testBit 0 then m else 0) ^^^ appl M (x >>> 1)

/-- square-and-multiply: `M^m x`, with fuel -/
def powAppl : Nat → List Nat → Nat → Nat → Nat
  | 0, _, _, x => x
  | f + 1, M, m, x =>
    if m = 0 then x
    else powAppl f (M.map (appl M)) (m / 2) (if m % 2 = 1 then appl M x else x)

structure Lin (n : Nat) (G : Nat → Nat) : Prop where
  lt : ∀ x, x < 2 ^ n → G x < 2 ^ n
  add : ∀ x y, x < 2 ^ n → y < 2 ^ n → G (x ^^^ y) = G x ^^^ G y

theorem Lin.zero {n G} (h : Lin n G) : G 0 = 0 := by
  have := h.add 0 0 (Nat.two_pow_pos _) (Nat.two_pow_pos _)
  simpa using this

theorem Lin.iterate {n G} (h : Lin n G) (k : Nat) : Lin n (G^[k]) := by
  induction k with
  | zero => exact ⟨fun x hx => hx, fun x y _ _ => rfl⟩
  | succ k ih =>
    refine ⟨fun x hx => ?_, fun x y hx hy => ?_⟩
    · rw [Function.iterate_succ_apply]; exact ih.lt _ (h.lt x hx)
    · rw [Function.iterate_succ_apply, h.add x y hx hy, ih.add _ _ (h.lt x hx) (h.lt y hy)]
      simp [Function.iterate_succ_apply]

theorem appl_range' {n G} (h : Lin n G) (k : Nat) : ∀ j x, j + k = n → x < 2 ^ k →
    appl ((List.range' j k).map (fun i => G (2 ^ i))) x = G (x <<< j) := by
  induction k with
  | zero =>
    intro j x _ hx
    have : x = 0 := by simpa using hx
    subst this
    simp [appl, h.zero]
  | succ k ih =>
    intro j x hj hx
    rw [List.range'_succ, List.map_cons]
    simp only [appl]
    rw [ih (j + 1) (x >>> 1) (by omega) (by rw [Nat.shiftRight_eq_div_pow]; omega)]
    have hx2 : x <<< j = (if x.testBit 0 then 2 ^ j else 0) ^^^ ((x >>> 1) <<< (j + 1)) := by
      apply Nat.eq_of_testBit_eq
      intro i
      rw [Nat.testBit_xor, Nat.testBit_shiftLeft, Nat.testBit_shiftLeft, Nat.testBit_shiftRight]
      have t1 : (if x.testBit 0 = true then 2 ^ j else 0).testBit i = (x.testBit 0 && decide (i = j)) := by
        by_cases hb : x.testBit 0 = true
        · rw [if_pos hb, hb, Nat.testBit_two_pow]
          simp [eq_comm]
        · simp [hb]
      rw [t1]
      by_cases h1 : i = j
      · subst h1; simp
      · by_cases h2 : i ≥ j + 1
        · have : 1 + (i - (j + 1)) = i - j := by omega
          simp [h1, h2, this, show i ≥ j by omega]
        · simp [h1, h2, show ¬ i ≥ j by omega]
    have hlt1 : (if x.testBit 0 = true then 2 ^ j else 0) < 2 ^ n := by
      split
      · exact Nat.pow_lt_pow_right (by omega) (by omega)
      · exact Nat.two_pow_pos _
    have hlt2 : (x >>> 1) <<< (j + 1) < 2 ^ n := by
      rw [Nat.shiftLeft_eq, Nat.shiftRight_eq_div_pow]
      have : x / 2 ^ 1 < 2 ^ k := by omega
      calc x / 2 ^ 1 * 2 ^ (j + 1) < 2 ^ k * 2 ^ (j + 1) := by
            apply Nat.mul_lt_mul_of_pos_right this; exact Nat.two_pow_pos _
        _ = 2 ^ n := by rw [← Nat.pow_add]; congr 1; omega
    rw [hx2, h.add _ _ hlt1 hlt2]
    congr 1
    split
    · rfl
    · exact h.zero.symm

/-- matrix of a linear map -/
def matrice (n : Nat) (G : Nat → Nat) : List Nat := (List.range' 0 n).map (fun i => G (2 ^ i))

theorem appl_matrice {n G} (h : Lin n G) (x : Nat) (hx : x < 2 ^ n) : appl (matrice n G) x = G x := by
  unfold matrice
  rw [appl_range' h n 0 x (by omega) hx]
  simp

theorem matrice_carre {n G} (h : Lin n G) : (matrice n G).map (appl (matrice n G)) = matrice n (G^[2]) := by
  conv => lhs; arg 2; unfold matrice
  rw [List.map_map]
  unfold matrice
  apply List.map_congr_left
  intro i hi
  simp only [Function.comp]
  have hi' : i < n := by
    simp [List.mem_range'] at hi; omega
  have : G (2 ^ i) < 2 ^ n := h.lt _ (Nat.pow_lt_pow_right (by omega) hi')
  exact appl_matrice h _ this

theorem powAppl_eq {n} (f : Nat) : ∀ G, Lin n G → ∀ m x, m < 2 ^ f → x < 2 ^ n →
    powAppl f (matrice n G) m x = G^[m] x := by
  induction f with
  | zero =>
    intro G h m x hm hx
    have : m = 0 := by simpa using hm
    subst this; rfl
  | succ f ih =>
    intro G h m x hm hx
    unfold powAppl
    by_cases h0 : m = 0
    · subst h0; simp
    · rw [if_neg h0, matrice_carre h]
      have hm2 : m / 2 < 2 ^ f := by omega
      have hx' : (if m % 2 = 1 then appl (matrice n G) x else x) = G^[m % 2] x := by
        rcases Nat.mod_two_eq_zero_or_one m with e | e
        · simp [e]
        · simp [e, appl_matrice h x hx]
      rw [hx', ih _ (h.iterate 2) _ _ hm2 ((h.iterate _).lt x hx)]
      rw [← Function.iterate_mul, ← Function.iterate_add_apply]
      congr 1; omega

theorem xor_lt {n x y : Nat} (hx : x < 2 ^ n) (hy : y < 2 ^ n) : x ^^^ y < 2 ^ n := Nat.xor_lt_two_pow hx hy

theorem regSuivant_lin {n pol : Nat} (h1 : 1 ≤ n) (_h32 : n ≤ 32) : Lin n (regSuivant n pol) := by
  have tb : ∀ x, ∀ k, (regSuivant n pol x).testBit k =
      (x.testBit (k + 1) || (decide (k = n - 1) && xorSum 32 (x &&& pol).testBit)) := by
    intro x k
    unfold regSuivant
    rw [popcount_par, decale_testBit _ _ _ h1]
  refine ⟨?_, ?_⟩
  · intro x hx
    apply Nat.lt_pow_two_of_testBit
    intro k hk
    rw [tb, testBit_ge hx (by omega)]
    simp; omega
  · intro x y hx hy
    apply Nat.eq_of_testBit_eq
    intro k
    rw [Nat.testBit_xor, tb, tb, tb]
    have e : xorSum 32 ((x ^^^ y) &&& pol).testBit
        = (xorSum 32 (x &&& pol).testBit ^^ xorSum 32 (y &&& pol).testBit) := by
      rw [← xorSum_xor]
      apply xorSum_congr
      intro k _
      simp only [Nat.testBit_and, Nat.testBit_xor]
      cases x.testBit k <;> cases y.testBit k <;> cases pol.testBit k <;> rfl
    rw [e, Nat.testBit_xor]
    by_cases hk : k = n - 1
    · rw [testBit_ge hx (by omega), testBit_ge hy (by omega)]
      simp [hk]
    · simp [hk]


/-- prime factors (with multiplicity) of 2^n - 1, n = 0 … 16 -/
def facteurs : List (List Nat) :=
  [[], [], [3], [7], [3, 5], [31], [3, 3, 7], [127], [3, 5, 17], [7, 73], [3, 11, 31], [23, 89],
   [3, 3, 5, 7, 13], [8191], [3, 43, 127], [7, 31, 151], [3, 5, 17, 257]]

theorem facteurs_premiers : ∀ l ∈ facteurs, ∀ q ∈ l, q.Prime := by
  simp only [facteurs, List.mem_cons, List.not_mem_nil, or_false, forall_eq_or_imp, forall_eq]
  norm_num

/-- the polynomial of degree n as a total function -/
def polT (n : Nat) : Nat := (polsPrim[n]?.getD 0) ||| 1

theorem table_ok : ∀ n ≤ 16, 1 ≤ n →
    polynomePrimitifBinaire (n : Nat) = some (polT n) ∧ (polT n).testBit 0 = true ∧ polT n < 2 ^ n ∧
    (facteurs[n]?.getD []).prod = 2 ^ n - 1 ∧
    powAppl 17 (matrice n (regSuivant n (polT n))) (2 ^ n - 1) 1 = 1 ∧
    ∀ q ∈ (facteurs[n]?.getD []), powAppl 17 (matrice n (regSuivant n (polT n))) ((2 ^ n - 1) / q) 1 ≠ 1 := by
  decide +kernel

end Verif.Lfsr
