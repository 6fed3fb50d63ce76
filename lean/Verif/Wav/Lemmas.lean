import Verif.Wav.Model
import Mathlib.Tactic.Ring
import Mathlib.Tactic.Linarith
import Mathlib.Tactic.FieldSimp
import Mathlib.Tactic.Positivity
import Mathlib.Tactic.NormNum
import Mathlib.Data.Nat.Log

namespace Wav

theorem le_length (k n : ℕ) : (le k n).length = k := by
  induction k generalizing n with
  | zero => rfl
  | succ k ih => simp [le, ih]

theorem unle_le (k n : ℕ) : unle (le k n) = n % 256 ^ k := by
  induction k generalizing n with
  | zero => simp [le, unle, Nat.mod_one]
  | succ k ih =>
    have e : (UInt8.ofNat n).toNat = n % 256 := by simp [UInt8.toNat_ofNat']
    simp only [le, unle, ih, e]
    rw [pow_succ, mul_comm (256 ^ k) 256, Nat.mod_mul]

theorem champ_append_left (a b : List UInt8) (off len : ℕ) (h : off + len ≤ a.length) :
    champ (a ++ b) off len = champ a off len := by
  unfold champ
  rw [List.drop_append_of_le_length (by omega), List.take_append_of_le_length]
  simp; omega

theorem champ_append_right (a b : List UInt8) (off len : ℕ) (h : a.length ≤ off) :
    champ (a ++ b) off len = champ b (off - a.length) len := by
  unfold champ
  rw [List.drop_append]
  have : List.drop off a = [] := by simp [h]
  rw [this, List.nil_append]

theorem champ_le_append (k n : ℕ) (b : List UInt8) :
    champ (le k n ++ b) 0 k = n % 256 ^ k := by
  unfold champ
  rw [List.drop_zero, List.take_append_of_le_length (by rw [le_length]),
    List.take_of_length_le (by rw [le_length]), unle_le]

theorem champ_le (k n : ℕ) : champ (le k n) 0 k = n % 256 ^ k := by
  simpa using champ_le_append k n []

theorem entete_length (cfg : Config) (a b c d : ℕ) : (entete cfg a b c d).length = 44 := by
  simp [entete, le_length]

/-- Field `j` of a concatenation of little-endian fields. -/
theorem champ_milieu (u v : List UInt8) (k n o : ℕ) (hu : u.length = o) :
    champ (u ++ (le k n ++ v)) o k = n % 256 ^ k := by
  rw [champ_append_right _ _ _ _ (by omega), hu, Nat.sub_self, champ_le_append]

theorem champs13 (a1 a2 a3 a4 a5 a6 a7 a8 a9 a10 a11 a12 a13 : ℕ) (r f : List UInt8)
    (hf : f = le 4 a1 ++ (le 4 a2 ++ (le 4 a3 ++ (le 4 a4 ++ (le 4 a5 ++ (le 2 a6 ++ (le 2 a7 ++
      (le 4 a8 ++ (le 4 a9 ++ (le 2 a10 ++ (le 2 a11 ++ (le 4 a12 ++ (le 4 a13 ++ r))))))))))))) :
    champ f 0 4 = a1 % 256 ^ 4 ∧ champ f 20 2 = a6 % 256 ^ 2 ∧ champ f 22 2 = a7 % 256 ^ 2 ∧
    champ f 24 4 = a8 % 256 ^ 4 ∧ champ f 28 4 = a9 % 256 ^ 4 ∧ champ f 32 2 = a10 % 256 ^ 2 ∧
    champ f 34 2 = a11 % 256 ^ 2 ∧ champ f 36 4 = a12 % 256 ^ 4 ∧
    champ f 40 4 = a13 % 256 ^ 4 := by
  have l20 : (le 4 a1 ++ (le 4 a2 ++ (le 4 a3 ++ (le 4 a4 ++ le 4 a5)))).length = 20 := by
    simp [le_length]
  have l22 : (le 4 a1 ++ (le 4 a2 ++ (le 4 a3 ++ (le 4 a4 ++ (le 4 a5 ++ le 2 a6))))).length
      = 22 := by simp [le_length]
  have l24 : (le 4 a1 ++ (le 4 a2 ++ (le 4 a3 ++ (le 4 a4 ++ (le 4 a5 ++ (le 2 a6 ++
      le 2 a7)))))).length = 24 := by simp [le_length]
  have l28 : (le 4 a1 ++ (le 4 a2 ++ (le 4 a3 ++ (le 4 a4 ++ (le 4 a5 ++ (le 2 a6 ++ (le 2 a7 ++
      le 4 a8))))))).length = 28 := by simp [le_length]
  have l32 : (le 4 a1 ++ (le 4 a2 ++ (le 4 a3 ++ (le 4 a4 ++ (le 4 a5 ++ (le 2 a6 ++ (le 2 a7 ++
      (le 4 a8 ++ le 4 a9)))))))).length = 32 := by simp [le_length]
  have l34 : (le 4 a1 ++ (le 4 a2 ++ (le 4 a3 ++ (le 4 a4 ++ (le 4 a5 ++ (le 2 a6 ++ (le 2 a7 ++
      (le 4 a8 ++ (le 4 a9 ++ le 2 a10))))))))).length = 34 := by simp [le_length]
  have l36 : (le 4 a1 ++ (le 4 a2 ++ (le 4 a3 ++ (le 4 a4 ++ (le 4 a5 ++ (le 2 a6 ++ (le 2 a7 ++
      (le 4 a8 ++ (le 4 a9 ++ (le 2 a10 ++ le 2 a11)))))))))).length = 36 := by simp [le_length]
  have l40 : (le 4 a1 ++ (le 4 a2 ++ (le 4 a3 ++ (le 4 a4 ++ (le 4 a5 ++ (le 2 a6 ++ (le 2 a7 ++
      (le 4 a8 ++ (le 4 a9 ++ (le 2 a10 ++ (le 2 a11 ++ le 4 a12))))))))))).length = 40 := by
    simp [le_length]
  refine ⟨?_, ?_, ?_, ?_, ?_, ?_, ?_, ?_, ?_⟩
  · rw [hf]; exact champ_le_append 4 a1 _
  · rw [← champ_milieu _ (le 2 a7 ++ (le 4 a8 ++ (le 4 a9 ++ (le 2 a10 ++ (le 2 a11 ++ (le 4 a12 ++
      (le 4 a13 ++ r))))))) 2 a6 20 l20, hf]
    simp only [List.append_assoc]
  · rw [← champ_milieu _ (le 4 a8 ++ (le 4 a9 ++ (le 2 a10 ++ (le 2 a11 ++ (le 4 a12 ++
      (le 4 a13 ++ r)))))) 2 a7 22 l22, hf]
    simp only [List.append_assoc]
  · rw [← champ_milieu _ (le 4 a9 ++ (le 2 a10 ++ (le 2 a11 ++ (le 4 a12 ++
      (le 4 a13 ++ r))))) 4 a8 24 l24, hf]
    simp only [List.append_assoc]
  · rw [← champ_milieu _ (le 2 a10 ++ (le 2 a11 ++ (le 4 a12 ++
      (le 4 a13 ++ r)))) 4 a9 28 l28, hf]
    simp only [List.append_assoc]
  · rw [← champ_milieu _ (le 2 a11 ++ (le 4 a12 ++ (le 4 a13 ++ r))) 2 a10 32 l32, hf]
    simp only [List.append_assoc]
  · rw [← champ_milieu _ (le 4 a12 ++ (le 4 a13 ++ r)) 2 a11 34 l34, hf]
    simp only [List.append_assoc]
  · rw [← champ_milieu _ (le 4 a13 ++ r) 4 a12 36 l36, hf]
    simp only [List.append_assoc]
  · rw [← champ_milieu _ r 4 a13 40 l40, hf]
    simp only [List.append_assoc]

/-- Reading of every field of a header. -/
theorem entete_champs (cfg : Config) (a b c d : ℕ) (r : List UInt8) :
    champ (entete cfg a b c d ++ r) 0 4 = 0x46464952 ∧
    champ (entete cfg a b c d ++ r) 20 2 = (if cfg.flottant then 3 else 1) ∧
    champ (entete cfg a b c d ++ r) 22 2 = cfg.ncanaux % 65536 ∧
    champ (entete cfg a b c d ++ r) 24 4 = b % 2 ^ 32 ∧
    champ (entete cfg a b c d ++ r) 28 4 = c % 2 ^ 32 ∧
    champ (entete cfg a b c d ++ r) 32 2 = octetsParEch cfg.flottant ∧
    champ (entete cfg a b c d ++ r) 34 2 = octetsParEch cfg.flottant * 8 ∧
    champ (entete cfg a b c d ++ r) 36 4 = 0x61746164 ∧
    champ (entete cfg a b c d ++ r) 40 4 = d % 2 ^ 32 := by
  have h := champs13 0x46464952 a 0x45564157 0x20746d66 16 (if cfg.flottant then 3 else 1)
    cfg.ncanaux b c (octetsParEch cfg.flottant) (octetsParEch cfg.flottant * 8) 0x61746164 d r
    (entete cfg a b c d ++ r) (by unfold entete; simp only [List.append_assoc])
  obtain ⟨h1, h2, h3, h4, h5, h6, h7, h8, h9⟩ := h
  refine ⟨?_, ?_, ?_, ?_, ?_, ?_, ?_, ?_, ?_⟩
  · rw [h1]; norm_num
  · rw [h2]; cases cfg.flottant <;> rfl
  · rw [h3]; norm_num
  · rw [h4]; norm_num
  · rw [h5]; norm_num
  · rw [h6]; cases cfg.flottant <;> rfl
  · rw [h7]; cases cfg.flottant <;> rfl
  · rw [h8]; norm_num
  · rw [h9]; norm_num

/-! ### Elements -/

/-- Bytes of a list of words. -/
def octetsDe (k : ℕ) (x : List ℕ) : List UInt8 := x.flatMap (le k)

theorem octetsDe_length (k : ℕ) (x : List ℕ) : (octetsDe k x).length = k * x.length := by
  induction x with
  | nil => simp [octetsDe]
  | cons a r ih =>
    have : octetsDe k (a :: r) = le k a ++ octetsDe k r := rfl
    rw [this, List.length_append, le_length, ih, List.length_cons]; ring

theorem octetsDe_append (k : ℕ) (x y : List ℕ) :
    octetsDe k (x ++ y) = octetsDe k x ++ octetsDe k y := by simp [octetsDe]

theorem elements_octetsDe (k : ℕ) (hk : 0 < k) (n : ℕ) (x : List ℕ) (hx : ∀ v ∈ x, v < 256 ^ k) :
    elements k n (octetsDe k x) = x.take n := by
  induction n generalizing x with
  | zero => simp [elements]
  | succ n ih =>
    cases x with
    | nil => simp [elements, octetsDe, hk]
    | cons a r =>
      have e : octetsDe k (a :: r) = le k a ++ octetsDe k r := rfl
      unfold elements
      rw [e, if_neg (by rw [List.length_append, le_length]; omega),
        List.take_append_of_le_length (by rw [le_length]),
        List.take_of_length_le (by rw [le_length]),
        List.drop_append_of_le_length (by rw [le_length]),
        List.drop_of_length_le (by rw [le_length]), List.nil_append,
        unle_le, Nat.mod_eq_of_lt (hx a (by simp)), ih r fun v hv => hx v (by simp [hv])]
      rfl

theorem octetsDe_drop (k n : ℕ) (x : List ℕ) :
    (octetsDe k x).drop (min (octetsDe k x).length (k * n)) = octetsDe k (x.drop n) := by
  rw [octetsDe_length]
  by_cases h : n ≤ x.length
  · have hm : min (k * x.length) (k * n) = (octetsDe k (x.take n)).length := by
      rw [octetsDe_length, List.length_take, Nat.min_eq_left h]
      exact Nat.min_eq_right (Nat.mul_le_mul_left k h)
    conv_lhs => rw [hm, ← List.take_append_drop n x, octetsDe_append]
    rw [List.take_append_drop, List.drop_left]
  · have h1 : x.drop n = [] := by simp; omega
    rw [h1, Nat.min_eq_left (Nat.mul_le_mul_left k (by omega)), List.drop_of_length_le]
    · rfl
    · rw [octetsDe_length]

/-! ### Conversions -/

theorem valF_flotDe (v : BitVec 16) : valF (flotDe v) = some (v.toInt : ℚ) := by
  unfold flotDe
  have hb : v.toInt.natAbs ≤ 2 ^ 15 := by
    have := v.toInt_lt; have := v.le_toInt
    simp only [Nat.add_one_sub_one, Nat.reducePow] at *
    omega
  by_cases h0 : v.toInt.natAbs = 0
  · have : v.toInt = 0 := Int.natAbs_eq_zero.1 h0
    simp [h0, this, valF]
  simp only [h0, if_false]
  set a := v.toInt.natAbs with ha
  set k := Nat.log2 a with hk
  have h1 : 2 ^ k ≤ a := Nat.log2_self_le h0
  have h2 : a < 2 ^ (k + 1) := Nat.lt_log2_self
  have hk15 : k ≤ 15 := by
    by_contra hc
    have : 2 ^ 16 ≤ 2 ^ k := Nat.pow_le_pow_right (by norm_num) (by omega)
    omega
  have hp : 2 ^ k * 2 ^ (23 - k) = 2 ^ 23 := by rw [← pow_add]; congr 1; omega
  have h3 : 2 ^ 23 ≤ a * 2 ^ (23 - k) := by rw [← hp]; exact Nat.mul_le_mul_right _ h1
  have h4 : a * 2 ^ (23 - k) < 2 ^ 24 := by
    have : 2 ^ (k + 1) * 2 ^ (23 - k) = 2 ^ 24 := by rw [← pow_add]; congr 1; omega
    rw [← this]; exact Nat.mul_lt_mul_of_pos_right h2 (by positivity)
  have hs : ((if v.toInt < 0 then 2 ^ 31 else 0 : ℕ)) ≤ 2 ^ 31 := by split <;> norm_num
  set s := (if v.toInt < 0 then 2 ^ 31 else 0 : ℕ) with hsd
  set M := a * 2 ^ (23 - k) with hM
  have hn : (BitVec.ofNat 32 (s + (k + 127) * 2 ^ 23 + (M - 2 ^ 23))).toNat
      = s + (k + 127) * 2 ^ 23 + (M - 2 ^ 23) := by
    rw [BitVec.toNat_ofNat, Nat.mod_eq_of_lt]; omega
  have hss : s = 0 ∨ s = 2 ^ 31 := by rw [hsd]; split <;> simp
  have hm : (s + (k + 127) * 2 ^ 23 + (M - 2 ^ 23)) % 2 ^ 23 = M - 2 ^ 23 := by omega
  have he : (s + (k + 127) * 2 ^ 23 + (M - 2 ^ 23)) / 2 ^ 23 % 256 = k + 127 := by omega
  have hsg : (s + (k + 127) * 2 ^ 23 + (M - 2 ^ 23)) / 2 ^ 31 = 1 ↔ s = 2 ^ 31 := by omega
  unfold valF
  simp only [hn, hm, he, hsg]
  rw [if_neg (by omega), if_neg (by omega)]
  refine congrArg some ?_
  have hq : ((2 ^ 23 + (M - 2 ^ 23) : ℕ) : ℚ) = (a : ℚ) * 2 ^ (23 - k) := by
    have : 2 ^ 23 + (M - 2 ^ 23) = M := by omega
    rw [this, hM]; push_cast; ring
  rw [hq]
  have hz : ((2 : ℚ) ^ (23 - k)) * (2 : ℚ) ^ (((k + 127 : ℕ) : ℤ) - 150) = 1 := by
    rw [← zpow_natCast, ← zpow_add₀ (by norm_num)]
    have : ((23 - k : ℕ) : ℤ) + (((k + 127 : ℕ) : ℤ) - 150) = 0 := by omega
    rw [this, zpow_zero]
  rw [mul_assoc, mul_assoc, hz, mul_one]
  by_cases hv : v.toInt < 0
  · have : s = 2 ^ 31 := by rw [hsd, if_pos hv]
    rw [if_pos this]
    have h : (v.toInt : ℤ) = -(a : ℤ) := by omega
    rw [h]; push_cast; ring
  · have : s ≠ 2 ^ 31 := by rw [hsd, if_neg hv]; norm_num
    rw [if_neg this]
    have h : (v.toInt : ℤ) = (a : ℤ) := by omega
    rw [h]; push_cast; ring

theorem entDe_flotDe (v : BitVec 16) : entDe (flotDe v) = some v := by
  have ht : tronque (v.toInt : ℚ) = v.toInt := by unfold tronque; split <;> simp
  have := v.toInt_lt; have := v.le_toInt
  simp only [Nat.add_one_sub_one, Nat.reducePow] at *
  simp only [entDe, valF_flotDe, ht]
  rw [if_pos (by omega), BitVec.ofInt_toInt]

end Wav
