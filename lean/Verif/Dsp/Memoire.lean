import Mathlib.Data.Nat.Basic
import Mathlib.Data.BitVec
import Mathlib.Algebra.Order.Ring.Nat
import Mathlib.Tactic.Ring
import Mathlib.Tactic.Linarith

/-!
# C200, C201: the configuration structures of the English API, copied byte by byte

The English API (core/include/dsp) converts several of its structures to those of the French API (core/include/tsd) with `memcpy`. The objects are modelled byte by byte: layout of the members according to the
System V ABI (x86-64), little-endian scalars, indeterminate padding. Integers, enumerations and floats are represented by their 32-bit pattern.
-/

namespace Verif.Dsp

/-! ## Objects in memory -/

/-- A member of a structure: size, and alignment of its start. The first member of a nested structure has the alignment of this structure. -/
structure Membre where
  taille : ℕ
  align : ℕ

/-- Bytes of an object, by offset. -/
abbrev Octets := ℕ → ℕ

/-- Next multiple of `a`. -/
def aligne (o a : ℕ) : ℕ := (o + a - 1) / a * a

/-- Offsets of the members. -/
def positions : ℕ → List Membre → List ℕ
  | _, [] => []
  | o, m :: l => aligne o m.align :: positions (aligne o m.align + m.taille) l

/-- End of the last member. -/
def fin : ℕ → List Membre → ℕ
  | o, [] => o
  | o, m :: l => fin (aligne o m.align + m.taille) l

/-- `sizeof`: padded to the strictest alignment. -/
def sizeOf (ms : List Membre) : ℕ := aligne (fin 0 ms) ((ms.map Membre.align).foldr max 1)

/-- A scalar of `n` bytes stored at offset `p`, least significant byte first. -/
def ecrit (mem : Octets) (p n v : ℕ) : Octets := fun i => if p ≤ i ∧ i < p + n then v / 256 ^ (i - p) % 256 else mem i

/-- The scalar of `n` bytes stored at offset `p`. -/
def lit (mem : Octets) (p : ℕ) : ℕ → ℕ
  | 0 => 0
  | n + 1 => mem p + 256 * lit mem (p + 1) n

/-- The object whose members have the values `vs`; the padding bytes are those of `bourrage`. -/
def objet : ℕ → List Membre → List ℕ → Octets → Octets
  | o, m :: ms, v :: vs, bourrage => ecrit (objet (aligne o m.align + m.taille) ms vs bourrage) (aligne o m.align) m.taille v
  | _, _, _, bourrage => bourrage

/-- `memcpy(dst, src, n)`. -/
def memcpy (n : ℕ) (src dst : Octets) : Octets := fun i => if i < n then src i else dst i

/-- A boolean at offset `p`; any other byte than 0 and 1 has no meaning. -/
def litBool (mem : Octets) (p : ℕ) : Option Bool := if mem p = 0 then some false else if mem p = 1 then some true else none

/-- A 32-bit member at offset `p`. -/
def lit32 (mem : Octets) (p : ℕ) : BitVec 32 := BitVec.ofNat 32 (lit mem p 4)

/-- A 64-bit member at offset `p`. -/
def lit64 (mem : Octets) (p : ℕ) : BitVec 64 := BitVec.ofNat 64 (lit mem p 8)

/-- A boolean member. -/
def mBool : Membre := ⟨1, 1⟩

/-- A boolean at the start of a nested structure that also contains 32-bit members. -/
def mBool4 : Membre := ⟨1, 4⟩

/-- An integer, enumeration or float member. -/
def m32 : Membre := ⟨4, 4⟩

/-- A 64-bit integer member. -/
def m64 : Membre := ⟨8, 8⟩

/-! ## Reading back -/

theorem le_aligne (o a : ℕ) (ha : 0 < a) : o ≤ aligne o a := by
  unfold aligne
  have h := Nat.div_add_mod (o + a - 1) a
  have := Nat.mod_lt (o + a - 1) ha
  rw [Nat.mul_comm]
  omega

theorem octet_avant (ms : List Membre) (hms : ∀ m ∈ ms, 0 < m.align) : ∀ (o : ℕ) (vs : List ℕ) (b : Octets) (i : ℕ), i < o → objet o ms vs b i = b i := by
  induction ms with
  | nil => intro o vs b i _; unfold objet; rfl
  | cons m ms ih =>
    intro o vs b i hi
    cases vs with
    | nil => rfl
    | cons v vs =>
      have hle := le_aligne o m.align (hms m (by simp))
      unfold objet ecrit
      rw [if_neg (by omega)]
      exact ih (fun x hx => hms x (by simp [hx])) _ vs b i (by omega)

/-- Each byte of a member of an object is the byte of its value. -/
theorem octet_objet (ms : List Membre) (hms : ∀ m ∈ ms, 0 < m.align) : ∀ (o : ℕ) (vs : List ℕ) (b : Octets) (k p : ℕ) (m : Membre) (v : ℕ), ms[k]? = some m → (positions o ms)[k]? = some p → vs[k]? = some v →
    ∀ j, j < m.taille → objet o ms vs b (p + j) = v / 256 ^ j % 256 := by
  induction ms with
  | nil => intro o vs b k p m v h; simp at h
  | cons m0 ms ih =>
    intro o vs b k p m v hm hp hv j hj
    cases vs with
    | nil => simp at hv
    | cons v0 vs =>
      cases k with
      | zero =>
        simp only [List.getElem?_cons_zero, Option.some.injEq, positions] at hm hp hv
        subst hm hp hv
        unfold objet ecrit
        rw [if_pos (by omega), Nat.add_sub_cancel_left]
      | succ k =>
        simp only [List.getElem?_cons_succ, positions] at hm hp hv
        have hge : aligne o m0.align + m0.taille ≤ p := by
          clear hv hm hj ih
          have : ∀ (l : List Membre), (∀ x ∈ l, 0 < x.align) → ∀ (q k p : ℕ), (positions q l)[k]? = some p → q ≤ p := by
            intro l
            induction l with
            | nil => intro _ q k p h; simp [positions] at h
            | cons a l ihl =>
              intro hl q k p h
              have h1 := le_aligne q a.align (hl a (by simp))
              cases k with
              | zero => simp only [positions, List.getElem?_cons_zero, Option.some.injEq] at h; omega
              | succ k =>
                simp only [positions, List.getElem?_cons_succ] at h
                have := ihl (fun x hx => hl x (by simp [hx])) _ k p h
                omega
          exact this ms (fun x hx => hms x (by simp [hx])) _ k p hp
        unfold objet ecrit
        rw [if_neg (by omega)]
        exact ih (fun x hx => hms x (by simp [hx])) _ vs b k p m v hm hp hv j hj

/-- The bytes of a number determine it. -/
theorem lit_octets (mem : Octets) : ∀ (n p v : ℕ), (∀ j, j < n → mem (p + j) = v / 256 ^ j % 256) → lit mem p n = v % 256 ^ n := by
  intro n
  induction n with
  | zero => intro p v _; simp [lit, Nat.mod_one]
  | succ n ih =>
    intro p v h
    have h0 := h 0 (by omega)
    simp only [Nat.add_zero, pow_zero, Nat.div_one] at h0
    have h1 := ih (p + 1) (v / 256) (fun j hj => by
      have := h (j + 1) (by omega)
      rw [show p + 1 + j = p + (j + 1) by ring, this, Nat.div_div_eq_div_mul, pow_succ, Nat.mul_comm 256])
    rw [lit, h0, h1, pow_succ, Nat.mul_comm (256 ^ n), Nat.mod_mul]

/-- Reading a 32-bit pattern from its four bytes. -/
theorem lit32_octets (mem : Octets) (p : ℕ) (v : BitVec 32) (h : ∀ j, j < 4 → mem (p + j) = v.toNat / 256 ^ j % 256) : lit32 mem p = v := by
  unfold lit32
  rw [lit_octets mem 4 p v.toNat h]
  apply BitVec.eq_of_toNat_eq
  have := v.isLt
  simp only [BitVec.toNat_ofNat]
  omega

theorem lit64_octets (mem : Octets) (p : ℕ) (v : BitVec 64) (h : ∀ j, j < 8 → mem (p + j) = v.toNat / 256 ^ j % 256) : lit64 mem p = v := by
  unfold lit64
  rw [lit_octets mem 8 p v.toNat h]
  apply BitVec.eq_of_toNat_eq
  have := v.isLt
  simp only [BitVec.toNat_ofNat]
  omega

theorem litBool_octet (mem : Octets) (p : ℕ) (b : Bool) (h : mem p = b.toNat) : litBool mem p = some b := by
  unfold litBool
  cases b <;> simp [h]

end Verif.Dsp
