import Verif.Lfsr.Model
/-! Helper lemmas for the LFSR model (not claims). -/
namespace Verif.Lfsr

/-- XOR of `f k` for `k < n` -/
def xorSum (n : Nat) (f : Nat → Bool) : Bool := (List.range n).foldl (fun s k => s ^^ f k) false

theorem xorSum_succ (n : Nat) (f : Nat → Bool) : xorSum (n + 1) f = (xorSum n f ^^ f n) := by
  simp [xorSum, List.range_succ]

theorem xorSum_congr {n : Nat} {f g : Nat → Bool} (h : ∀ k < n, f k = g k) : xorSum n f = xorSum n g := by
  induction n with
  | zero => rfl
  | succ n ih => rw [xorSum_succ, xorSum_succ, ih (fun k hk => h k (by omega)), h n (by omega)]

theorem xorSum_xor (n : Nat) (f g : Nat → Bool) :
    xorSum n (fun k => f k ^^ g k) = (xorSum n f ^^ xorSum n g) := by
  induction n with
  | zero => rfl
  | succ n ih =>
    rw [xorSum_succ, xorSum_succ, xorSum_succ, ih]
    cases xorSum n f <;> cases xorSum n g <;> cases f n <;> cases g n <;> rfl

theorem xorSum_extend {m n : Nat} (f : Nat → Bool) (h : m ≤ n) (hf : ∀ k, m ≤ k → k < n → f k = false) :
    xorSum n f = xorSum m f := by
  induction n with
  | zero => have : m = 0 := by omega
            subst this; rfl
  | succ n ih =>
    by_cases hm : m = n + 1
    · rw [hm]
    · rw [xorSum_succ, hf n (by omega) (by omega), ih (by omega) (fun k h1 h2 => hf k h1 (by omega))]
      simp

theorem shift_and_one (x k : Nat) : (x >>> k) &&& 1 = (x.testBit k).toNat := by
  have h1 : (x >>> k) &&& 1 = (x >>> k) % 2 := Nat.and_two_pow_sub_one_eq_mod _ 1
  rw [h1, Nat.testBit, Nat.and_comm, h1]
  have := Nat.mod_lt (x >>> k) (show 2 > 0 by omega)
  rcases Nat.mod_two_eq_zero_or_one (x >>> k) with h | h <;> simp [h]

theorem xorBits_eq (x n : Nat) : xorBits x n = (xorSum n x.testBit).toNat := by
  unfold xorBits
  induction n with
  | zero => rfl
  | succ n ih =>
    rw [List.range_succ, List.foldl_append, ih, xorSum_succ]
    simp only [List.foldl_cons, List.foldl_nil, shift_and_one]
    cases xorSum n x.testBit <;> cases x.testBit n <;> rfl

theorem popcount_par (x : Nat) : popcount x &&& 1 = (xorSum 32 x.testBit).toNat := by
  have key : ∀ n, ((List.range n).foldl (fun s k => s + ((x >>> k) &&& 1)) 0) % 2 = (xorSum n x.testBit).toNat := by
    intro n
    induction n with
    | zero => rfl
    | succ n ih =>
      rw [List.range_succ, List.foldl_append, xorSum_succ]
      simp only [List.foldl_cons, List.foldl_nil, shift_and_one]
      simp only [shift_and_one] at ih
      rw [Nat.add_mod, ih]
      cases xorSum n x.testBit <;> cases x.testBit n <;> rfl
  rw [show popcount x &&& 1 = popcount x % 2 from Nat.and_two_pow_sub_one_eq_mod _ 1]
  exact key 32

/-- the register holds `n` successive bits of the sequence `b` starting at time `t` -/
def Fenetre (n : Nat) (b : Nat → Bool) (t reg : Nat) : Prop :=
  ∀ k, reg.testBit k = (decide (k < n) && b (t + k))

theorem decale_testBit (n reg : Nat) (x : Bool) (hn : 1 ≤ n) (k : Nat) :
    ((reg >>> 1) ||| (x.toNat <<< (n - 1))).testBit k =
      (reg.testBit (k + 1) || (decide (k = n - 1) && x)) := by
  rw [Nat.testBit_or, Nat.testBit_shiftRight, Nat.testBit_shiftLeft, Nat.add_comm 1 k]
  congr 1
  by_cases h : k = n - 1
  · subst h; cases x <;> simp
  · by_cases h2 : n - 1 ≤ k
    · have : (x.toNat).testBit (k - (n - 1)) = false := by
        apply Nat.testBit_lt_two_pow
        have h3 := Bool.toNat_le x
        have : 2 ^ 1 ≤ 2 ^ (k - (n - 1)) := Nat.pow_le_pow_right (by omega) (by omega)
        omega
      simp [this, h]
    · simp [h2, h]

theorem fenetre_decale {n t reg : Nat} {b : Nat → Bool} (hn : 1 ≤ n) (h : Fenetre n b t reg) :
    Fenetre n b (t + 1) ((reg >>> 1) ||| ((b (t + n)).toNat <<< (n - 1))) := by
  intro k
  rw [decale_testBit n reg _ hn, h (k + 1)]
  by_cases hk : k = n - 1
  · subst hk
    have e1 : ¬ (n - 1 + 1 < n) := by omega
    have e2 : n - 1 < n := by omega
    have e3 : t + 1 + (n - 1) = t + n := by omega
    simp [e1, e2, e3]
  · by_cases h2 : k + 1 < n
    · have e3 : t + 1 + k = t + (k + 1) := by omega
      simp [hk, h2, e3, show k < n by omega]
    · simp [hk, h2, show ¬ k < n by omega]

theorem fenetre_xor {n t reg pol : Nat} {b : Nat → Bool} (h : Fenetre n b t reg) :
    xorSum n (reg &&& pol).testBit = xorSum n (fun k => pol.testBit k && b (t + k)) := by
  apply xorSum_congr
  intro k hk
  rw [Nat.testBit_and, h k]
  simp [hk, Bool.and_comm]

theorem fenetre_xor32 {n t reg pol : Nat} {b : Nat → Bool} (hn : n ≤ 32) (h : Fenetre n b t reg) :
    xorSum 32 (reg &&& pol).testBit = xorSum n (fun k => pol.testBit k && b (t + k)) := by
  rw [xorSum_extend _ hn, fenetre_xor h]
  intro k hk _
  rw [Nat.testBit_and, h k]
  simp [show ¬ k < n by omega]

theorem fenetre_unique {n t r r' : Nat} {b : Nat → Bool} (h : Fenetre n b t r) (h' : Fenetre n b t r') : r = r' :=
  Nat.eq_of_testBit_eq (fun k => by rw [h k, h' k])

theorem testBit_ge {n reg k : Nat} (h : reg < 2 ^ n) (hk : n ≤ k) : reg.testBit k = false :=
  Nat.testBit_lt_two_pow (Nat.lt_of_lt_of_le h (Nat.pow_le_pow_right (by omega) hk))

theorem regSuivant_inj {n pol r r' : Nat} (h1 : 1 ≤ n) (hp : pol.testBit 0 = true)
    (hr : r < 2 ^ n) (hr' : r' < 2 ^ n) (h : regSuivant n pol r = regSuivant n pol r') : r = r' := by
  have hb : ∀ k, r.testBit (k + 1) = r'.testBit (k + 1) := by
    intro k
    have := congrArg (fun x => x.testBit k) h
    simp only [regSuivant, popcount_par] at this
    rw [decale_testBit _ _ _ h1, decale_testBit _ _ _ h1] at this
    by_cases hk : k = n - 1
    · rw [testBit_ge hr (by omega), testBit_ge hr' (by omega)]
    · simpa [hk] using this
  have hpar : xorSum 32 (r &&& pol).testBit = xorSum 32 (r' &&& pol).testBit := by
    have := congrArg (fun x => x.testBit (n - 1)) h
    simp only [regSuivant, popcount_par] at this
    rw [decale_testBit _ _ _ h1, decale_testBit _ _ _ h1, testBit_ge hr (by omega), testBit_ge hr' (by omega)] at this
    simpa using this
  have split : ∀ m (f : Nat → Bool), xorSum (m + 1) f = (f 0 ^^ xorSum m (fun k => f (k + 1))) := by
    intro m f
    induction m with
    | zero => simp [xorSum]
    | succ m ih => rw [xorSum_succ, ih, xorSum_succ]; simp
  rw [split 31, split 31] at hpar
  have tail : xorSum 31 (fun k => (r &&& pol).testBit (k + 1)) = xorSum 31 (fun k => (r' &&& pol).testBit (k + 1)) := by
    apply xorSum_congr
    intro k _
    simp only [Nat.testBit_and, hb]
  rw [tail] at hpar
  apply Nat.eq_of_testBit_eq
  intro i
  cases i with
  | succ i => exact hb i
  | zero =>
    simp only [Nat.testBit_and, hp, Bool.and_true] at hpar
    revert hpar
    cases r.testBit 0 <;> cases r'.testBit 0 <;> cases xorSum 31 (fun k => (r' &&& pol).testBit (k + 1)) <;> simp

end Verif.Lfsr
