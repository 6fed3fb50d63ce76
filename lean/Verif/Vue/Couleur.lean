/-
C166: colours (core/src/vue/image.cc): conversions, text, mixing.
-/
import Mathlib.Data.Real.Archimedean
import Mathlib.Tactic.Linarith
import Mathlib.Tactic.NormNum
import Mathlib.Tactic.IntervalCases
import Mathlib.Algebra.Order.Floor.Semiring

namespace Verif.Vue

/-! ## Model (exact arithmetic instead of `float`) -/

/-- `Couleur`: four bytes, core/include/tsd/vue/image.hpp:13-16. -/
structure Couleur where
  r : BitVec 8
  g : BitVec 8
  b : BitVec 8
  alpha : BitVec 8

/-- `Couleur::vers_rgba`, core/src/vue/image.cc:105-109. -/
def versRgba (c : Couleur) : BitVec 32 := (c.alpha.setWidth 32 <<< 24) ||| (c.r.setWidth 32 <<< 16) ||| (c.g.setWidth 32 <<< 8) ||| c.b.setWidth 32

/-- `Couleur(int32_t)`, core/src/vue/image.cc:97-103 (arithmetic shifts). -/
def deRgba (x : BitVec 32) : Couleur := ⟨((x.sshiftRight 16) &&& 255#32).setWidth 8, ((x.sshiftRight 8) &&& 255#32).setWidth 8, (x &&& 255#32).setWidth 8, ((x.sshiftRight 24) &&& 255#32).setWidth 8⟩

/-- The loop of `parse_liste_entiers`, core/src/vue/image.cc:27-44; `none`: overflow of the `int`, `some []`: not a list. -/
def parseBoucle : List Char → ℕ → List ℕ → Option (List ℕ)
  | [], current, res => some (res ++ [current])
  | c :: l, current, res =>
    if c.isDigit then (if 10 * current + (c.toNat - '0'.toNat) < 2 ^ 31 then parseBoucle l (10 * current + (c.toNat - '0'.toNat)) res else none)
    else if (c = '.' ∨ c = ',' ∨ c = '/' ∨ c = ':') ∧ l ≠ [] then parseBoucle l 0 (res ++ [current])
    else some []

/-- `parse_liste_entiers`, core/src/vue/image.cc:20-45. -/
def parseListe : List Char → Option (List ℕ)
  | [] => some []
  | c :: l => if c.isDigit then parseBoucle (c :: l) 0 [] else some []

/-- `Couleur(cstring)`, core/src/vue/image.cc:82-95. -/
def deChaine (s : List Char) : Option Couleur :=
  (parseListe s).map fun l : List ℕ =>
    match l with
    | [r, g, b] => ⟨BitVec.ofNat 8 r, BitVec.ofNat 8 g, BitVec.ofNat 8 b, 255#8⟩
    | _ => ⟨0#8, 0#8, 0#8, 255#8⟩

/-- `Couleur::vers_chaine`, core/src/vue/image.cc:77-80. -/
def versChaine (c : Couleur) : List Char := Nat.toDigits 10 c.r.toNat ++ '.' :: (Nat.toDigits 10 c.g.toNat ++ '.' :: Nat.toDigits 10 c.b.toNat)

/-- `clamp(x, 0, 255)` converted to a byte, core/src/vue/image.cc:65-68. -/
noncomputable def octet (x : ℝ) : BitVec 8 := BitVec.ofNat 8 ⌊max 0 (min x 255)⌋₊

/-- `Couleur(float, float, float, float)`, core/src/vue/image.cc:63-69. -/
noncomputable def deReels (r g b a : ℝ) : Couleur := ⟨octet r, octet g, octet b, octet a⟩

/-- `Couleur::mélange`, core/src/vue/image.cc:47-55. -/
noncomputable def melange (a b : Couleur) (α : ℝ) : Couleur :=
  deReels (α * a.r.toNat + (1 - α) * b.r.toNat) (α * a.g.toNat + (1 - α) * b.g.toNat) (α * a.b.toNat + (1 - α) * b.b.toNat) 255

/-- `Couleur::eclaircir`, core/src/vue/image.cc:137-143. -/
noncomputable def eclaircir (c : Couleur) (α : ℝ) : Couleur := deReels (255 - (255 - c.r.toNat) * α) (255 - (255 - c.g.toNat) * α) (255 - (255 - c.b.toNat) * α) 255

/-- `Couleur::assombrir`, core/src/vue/image.cc:145-153. -/
noncomputable def assombrir (c : Couleur) (α : ℝ) : Couleur := deReels (c.r.toNat * α) (c.g.toNat * α) (c.b.toNat * α) 255

/-- `Couleur::lumi`, core/src/vue/image.cc:110-114 (conversion to a byte of a value that must be less than 256). -/
noncomputable def lumi (c : Couleur) : Option (BitVec 8) :=
  let y := 299 / 1000 * (c.r.toNat : ℝ) + 587 / 1000 * (c.g.toNat : ℝ) + 114 / 1000 * (c.b.toNat : ℝ);
  if ⌊y⌋₊ < 256 then some (BitVec.ofNat 8 ⌊y⌋₊) else none

/-! ## Proofs -/

/-- **C166 (32-bit code).** The conversions between a colour and its 32-bit code are inverse of each other. -/
theorem C166_rgba (c : Couleur) (x : BitVec 32) : deRgba (versRgba c) = c ∧ versRgba (deRgba x) = x := by
  constructor
  · obtain ⟨r, g, b, a⟩ := c
    unfold deRgba versRgba
    congr 1
    all_goals
      ext i hi
      interval_cases i <;> simp [BitVec.getElem_sshiftRight]
  · have k8 : ∀ i, i < 8 → (255#32).getLsbD i = true := by decide
    have key : ∀ k, k ≤ 24 → ∀ i, i < 8 → (((x.sshiftRight k) &&& 255#32).setWidth 8).getLsbD i = x.getLsbD (k + i) := by
      intro k hk i hi
      rw [BitVec.getLsbD_setWidth, BitVec.getLsbD_and, k8 i hi, BitVec.getLsbD_sshiftRight]
      simp [hi, show i < 32 by omega, show ¬ 32 ≤ i by omega, show k + i < 32 by omega]
    have h0 : ∀ i, i < 8 → ((x &&& 255#32).setWidth 8).getLsbD i = x.getLsbD i := by
      intro i hi
      rw [BitVec.getLsbD_setWidth, BitVec.getLsbD_and, k8 i hi]
      simp [hi]
    have h1 := key 8 (by norm_num)
    have h2 := key 16 (by norm_num)
    have h3 := key 24 (by norm_num)
    unfold deRgba versRgba
    simp only
    generalize ((x.sshiftRight 24) &&& 255#32).setWidth 8 = a at *
    generalize ((x.sshiftRight 16) &&& 255#32).setWidth 8 = r at *
    generalize ((x.sshiftRight 8) &&& 255#32).setWidth 8 = g at *
    generalize (x &&& 255#32).setWidth 8 = b at *
    apply BitVec.eq_of_getLsbD_eq
    intro i hi
    simp only [BitVec.getLsbD_or, BitVec.getLsbD_shiftLeft, BitVec.getLsbD_setWidth]
    have z : ∀ (v : BitVec 8) (j : ℕ), 8 ≤ j → v.getLsbD j = false := fun v j hj => BitVec.getLsbD_of_ge v j hj
    rcases Nat.lt_or_ge i 8 with h | h
    · simpa [h, hi, show i < 24 by omega, show i < 16 by omega] using h0 i h
    · rcases Nat.lt_or_ge i 16 with h' | h'
      · simp [hi, h', show i < 24 by omega, show ¬ i < 8 by omega, z b i h, show i - 8 < 32 by omega, h1 (i - 8) (by omega), show 8 + (i - 8) = i by omega]
      · rcases Nat.lt_or_ge i 24 with h'' | h''
        · simp [hi, h'', show ¬ i < 8 by omega, show ¬ i < 16 by omega, z b i h, z g (i - 8) (by omega), show i - 16 < 32 by omega, h2 (i - 16) (by omega), show 16 + (i - 16) = i by omega]
        · simp [hi, show ¬ i < 8 by omega, show ¬ i < 16 by omega, show ¬ i < 24 by omega, z b i h, z g (i - 8) (by omega), z r (i - 16) (by omega), show i - 24 < 32 by omega, h3 (i - 24) (by omega),
            show 24 + (i - 24) = i by omega]

/-- Reading digits. -/
theorem parse_chiffres (ds rest : List Char) (hd : ∀ c ∈ ds, c.isDigit = true) (cur : ℕ) (res : List ℕ) (hb : Nat.ofDigitChars 10 ds cur < 2 ^ 31) : parseBoucle (ds ++ rest) cur res = parseBoucle rest (Nat.ofDigitChars 10 ds cur) res := by
  induction ds generalizing cur with
  | nil => simp
  | cons c ds ih =>
    rw [List.cons_append, parseBoucle, if_pos (hd c (by simp))]
    rw [Nat.ofDigitChars_cons] at hb ⊢
    have hle : ∀ (l : List Char) (n : ℕ), n ≤ Nat.ofDigitChars 10 l n := by
      intro l n
      rw [Nat.ofDigitChars_eq_ofDigitChars_zero]
      have : n ≤ 10 ^ l.length * n := Nat.le_mul_of_pos_left _ (by positivity)
      omega
    rw [if_pos (lt_of_le_of_lt (hle ds _) hb)]
    exact ih (fun x hx => hd x (by simp [hx])) _ hb

/-- The text of a list of numbers with a separator. -/
def texteListe (sep : Char) : List ℕ → List Char
  | [] => []
  | [n] => Nat.toDigits 10 n
  | n :: l => Nat.toDigits 10 n ++ sep :: texteListe sep l

theorem parse_nombre (n : ℕ) (hn : n < 2 ^ 31) (rest : List Char) (res : List ℕ) : parseBoucle (Nat.toDigits 10 n ++ rest) 0 res = parseBoucle rest n res := by
  have h := Nat.ofDigitChars_toDigits (b := 10) (n := n) (by norm_num) (by norm_num)
  rw [parse_chiffres _ _ (fun c hc => Nat.isDigit_of_mem_toDigits (by norm_num) (by norm_num) hc) 0 res (by rw [h]; exact hn), h]

theorem texteListe_non_vide (sep : Char) (n : ℕ) (l : List ℕ) : texteListe sep (n :: l) ≠ [] := by
  cases l with
  | nil => exact Nat.toDigits_ne_nil
  | cons m l => simp [texteListe]

theorem parseBoucle_liste (sep : Char) (hs : sep = '.' ∨ sep = ',' ∨ sep = '/' ∨ sep = ':') (n : ℕ) (l : List ℕ) (hl : ∀ m ∈ n :: l, m < 2 ^ 31) (res : List ℕ) : parseBoucle (texteListe sep (n :: l)) 0 res = some (res ++ n :: l) := by
  have hnd : sep.isDigit = false := by rcases hs with rfl | rfl | rfl | rfl <;> rfl
  induction l generalizing n res with
  | nil =>
    have := parse_nombre n (hl n (by simp)) [] res
    rw [List.append_nil] at this
    rw [texteListe, this]
    rfl
  | cons m l ih =>
    rw [texteListe, parse_nombre n (hl n (by simp)), parseBoucle, if_neg (by rw [hnd]; decide), if_pos ⟨hs, texteListe_non_vide sep m l⟩, ih m (fun k hk => hl k (List.mem_cons_of_mem _ hk)), List.append_assoc]
    · rfl
    · simp

/-- **C166 (list of numbers).** Any non-empty list of numbers below `2³¹`, written in decimal with one of the four separators, is read back. -/
theorem C166_liste (sep : Char) (hs : sep = '.' ∨ sep = ',' ∨ sep = '/' ∨ sep = ':') (n : ℕ) (l : List ℕ) (hl : ∀ m ∈ n :: l, m < 2 ^ 31) : parseListe (texteListe sep (n :: l)) = some (n :: l) := by
  have h := parseBoucle_liste sep hs n l hl []
  obtain ⟨c, t, hc⟩ : ∃ c t, Nat.toDigits 10 n = c :: t := List.exists_cons_of_ne_nil Nat.toDigits_ne_nil
  have hd : c.isDigit = true := Nat.isDigit_of_mem_toDigits (b := 10) (n := n) (by norm_num) (by norm_num) (by rw [hc]; simp)
  obtain ⟨t', ht⟩ : ∃ t', texteListe sep (n :: l) = c :: t' := by
    cases l with
    | nil => exact ⟨t, hc⟩
    | cons m l => exact ⟨_, by rw [texteListe, hc]; · rfl
                               · simp⟩
  rw [ht] at h ⊢
  rw [parseListe, if_pos hd]
  exact h

/-- **C166 (text).** The text of an opaque colour gives back the colour. -/
theorem C166_chaine (c : Couleur) (hc : c.alpha = 255#8) : deChaine (versChaine c) = some c := by
  have h := C166_liste '.' (Or.inl rfl) c.r.toNat [c.g.toNat, c.b.toNat] (by
    intro m hm
    have h1 := c.r.isLt
    have h2 := c.g.isLt
    have h3 := c.b.isLt
    simp only [List.mem_cons, List.not_mem_nil, or_false] at hm
    rcases hm with rfl | rfl | rfl <;> omega)
  have e : versChaine c = texteListe '.' [c.r.toNat, c.g.toNat, c.b.toNat] := rfl
  unfold deChaine
  rw [e, h, Option.map_some]
  obtain ⟨r, g, b, a⟩ := c
  simp only at hc
  subst hc
  simp

/-- **C166 (ill-formed texts).** A text that does not begin with a digit, or contains another character than digits and separators before any overflow, gives black. -/
theorem C166_mal_forme (c : Char) (l : List Char) (hc : c.isDigit = false) : deChaine (c :: l) = some ⟨0#8, 0#8, 0#8, 255#8⟩ ∧ deChaine [] = some ⟨0#8, 0#8, 0#8, 255#8⟩ := by
  refine ⟨?_, rfl⟩
  unfold deChaine
  rw [parseListe, if_neg (by rw [hc]; decide)]
  rfl

theorem octet_val (x : ℝ) : ((octet x).toNat : ℝ) = ⌊max 0 (min x 255)⌋₊ := by
  have h : ⌊max 0 (min x 255)⌋₊ < 256 := by
    rw [Nat.floor_lt (by positivity)]
    have : max 0 (min x 255) ≤ 255 := max_le (by norm_num) (min_le_right _ _)
    push_cast
    linarith
  unfold octet
  rw [BitVec.toNat_ofNat, Nat.mod_eq_of_lt h]

theorem octet_entier (k : BitVec 8) : octet (k.toNat : ℝ) = k := by
  have h := k.isLt
  have h' : (k.toNat : ℝ) ≤ 255 := by exact_mod_cast (by omega : k.toNat ≤ 255)
  unfold octet
  rw [min_eq_left h', max_eq_right (by positivity), Nat.floor_natCast]
  simp

/-- The byte is within 1 below a value of the range 0 to 255. -/
theorem octet_proche (x : ℝ) (h0 : 0 ≤ x) (h1 : x ≤ 255) : ((octet x).toNat : ℝ) ≤ x ∧ x < (octet x).toNat + 1 := by
  rw [octet_val, min_eq_left h1, max_eq_right h0]
  exact ⟨Nat.floor_le h0, Nat.lt_floor_add_one x⟩

theorem octet_mono {x y : ℝ} (h : x ≤ y) : (octet x).toNat ≤ (octet y).toNat := by
  have : ((octet x).toNat : ℝ) ≤ (octet y).toNat := by
    rw [octet_val, octet_val]
    exact_mod_cast Nat.floor_mono (max_le_max le_rfl (min_le_min h le_rfl))
  exact_mod_cast this

/-- **C166 (mixing).** Between 0 and 1, each component of the mix is between those of the two colours; the ends give the colours themselves (made opaque). -/
theorem C166_melange (a b : Couleur) (α : ℝ) (h0 : 0 ≤ α) (h1 : α ≤ 1) :
    (∀ f : Couleur → BitVec 8, (f = Couleur.r ∨ f = Couleur.g ∨ f = Couleur.b) → min (f a).toNat (f b).toNat ≤ (f (melange a b α)).toNat ∧ (f (melange a b α)).toNat ≤ max (f a).toNat (f b).toNat) ∧
    melange a b 1 = ⟨a.r, a.g, a.b, 255#8⟩ ∧ melange a b 0 = ⟨b.r, b.g, b.b, 255#8⟩ := by
  have h255 : octet 255 = 255#8 := by
    have := octet_entier 255#8
    simpa using this
  refine ⟨?_, ?_, ?_⟩
  · have key : ∀ x y : BitVec 8, min x.toNat y.toNat ≤ (octet (α * x.toNat + (1 - α) * y.toNat)).toNat ∧ (octet (α * x.toNat + (1 - α) * y.toNat)).toNat ≤ max x.toNat y.toNat := by
      intro x y
      have hx : (0 : ℝ) ≤ x.toNat := Nat.cast_nonneg _
      have hy : (0 : ℝ) ≤ y.toNat := Nat.cast_nonneg _
      rcases le_total x.toNat y.toNat with h | h
      · rw [min_eq_left h, max_eq_right h]
        have h' : (x.toNat : ℝ) ≤ y.toNat := by exact_mod_cast h
        constructor
        · conv_lhs => rw [← octet_entier x]
          exact octet_mono (by nlinarith)
        · conv_rhs => rw [← octet_entier y]
          exact octet_mono (by nlinarith)
      · rw [min_eq_right h, max_eq_left h]
        have h' : (y.toNat : ℝ) ≤ x.toNat := by exact_mod_cast h
        constructor
        · conv_lhs => rw [← octet_entier y]
          exact octet_mono (by nlinarith)
        · conv_rhs => rw [← octet_entier x]
          exact octet_mono (by nlinarith)
    rintro f (rfl | rfl | rfl)
    · exact key _ _
    · exact key _ _
    · exact key _ _
  · unfold melange deReels
    simp only [one_mul, sub_self, zero_mul, add_zero, octet_entier, h255]
  · unfold melange deReels
    simp only [zero_mul, sub_zero, one_mul, zero_add, octet_entier, h255]

/-- **C166 (lighter, darker).** For a ratio of at most 1, `eclaircir` increases each component and `assombrir` decreases it; with 1 the colour is unchanged (and made opaque), with 0 it is white, respectively black. -/
theorem C166_eclaircir (c : Couleur) (α : ℝ) (h1 : α ≤ 1) :
    (∀ f : Couleur → BitVec 8, (f = Couleur.r ∨ f = Couleur.g ∨ f = Couleur.b) → (f c).toNat ≤ (f (eclaircir c α)).toNat ∧ (f (assombrir c α)).toNat ≤ (f c).toNat) ∧
    eclaircir c 1 = ⟨c.r, c.g, c.b, 255#8⟩ ∧ eclaircir c 0 = ⟨255#8, 255#8, 255#8, 255#8⟩ ∧ assombrir c 1 = ⟨c.r, c.g, c.b, 255#8⟩ ∧ assombrir c 0 = ⟨0#8, 0#8, 0#8, 255#8⟩ := by
  have h255 : octet 255 = 255#8 := by
    have := octet_entier 255#8
    simpa using this
  have h000 : octet 0 = 0#8 := by
    have := octet_entier 0#8
    simpa using this
  have key : ∀ x : BitVec 8, x.toNat ≤ (octet (255 - (255 - x.toNat) * α)).toNat ∧ (octet (x.toNat * α)).toNat ≤ x.toNat := by
    intro x
    have hx : (0 : ℝ) ≤ x.toNat := Nat.cast_nonneg _
    have hx' : (x.toNat : ℝ) ≤ 255 := by have := x.isLt; exact_mod_cast (by omega : x.toNat ≤ 255)
    constructor
    · conv_lhs => rw [← octet_entier x]
      exact octet_mono (by nlinarith)
    · conv_rhs => rw [← octet_entier x]
      exact octet_mono (by nlinarith)
  refine ⟨?_, ?_, ?_, ?_, ?_⟩
  · rintro f (rfl | rfl | rfl)
    · exact key _
    · exact key _
    · exact key _
  · unfold eclaircir deReels
    simp only [mul_one, sub_sub_cancel, octet_entier, h255]
  · unfold eclaircir deReels
    simp only [mul_zero, sub_zero, h255]
  · unfold assombrir deReels
    simp only [mul_one, octet_entier, h255]
  · unfold assombrir deReels
    simp only [mul_zero, h000, h255]

/-- **C166 (luminance).** The luminance always fits in a byte, lies between the smallest and the largest component, and is that component for a grey. -/
theorem C166_lumi (c : Couleur) : ∃ y, lumi c = some y ∧ min c.r.toNat (min c.g.toNat c.b.toNat) ≤ y.toNat ∧ y.toNat ≤ max c.r.toNat (max c.g.toNat c.b.toNat) := by
  obtain ⟨m, hm⟩ : ∃ m, m = min c.r.toNat (min c.g.toNat c.b.toNat) := ⟨_, rfl⟩
  obtain ⟨M, hM⟩ : ∃ M, M = max c.r.toNat (max c.g.toNat c.b.toNat) := ⟨_, rfl⟩
  rw [← hm, ← hM]
  have a1 : (m : ℝ) ≤ c.r.toNat := by exact_mod_cast (by omega : m ≤ c.r.toNat)
  have a2 : (m : ℝ) ≤ c.g.toNat := by exact_mod_cast (by omega : m ≤ c.g.toNat)
  have a3 : (m : ℝ) ≤ c.b.toNat := by exact_mod_cast (by omega : m ≤ c.b.toNat)
  have b1 : (c.r.toNat : ℝ) ≤ M := by exact_mod_cast (by omega : c.r.toNat ≤ M)
  have b2 : (c.g.toNat : ℝ) ≤ M := by exact_mod_cast (by omega : c.g.toNat ≤ M)
  have b3 : (c.b.toNat : ℝ) ≤ M := by exact_mod_cast (by omega : c.b.toNat ≤ M)
  have hM' : M < 256 := by have := c.r.isLt; have := c.g.isLt; have := c.b.isLt; omega
  unfold lumi
  simp only
  obtain ⟨y, hy⟩ : ∃ y, y = 299 / 1000 * (c.r.toNat : ℝ) + 587 / 1000 * (c.g.toNat : ℝ) + 114 / 1000 * (c.b.toNat : ℝ) := ⟨_, rfl⟩
  rw [← hy]
  have l1 : (m : ℝ) ≤ y := by rw [hy]; linarith
  have l2 : y ≤ M := by rw [hy]; linarith
  have f1 : m ≤ ⌊y⌋₊ := Nat.le_floor l1
  have f2 : ⌊y⌋₊ ≤ M := by
    have := Nat.floor_mono l2
    rwa [Nat.floor_natCast] at this
  rw [if_pos (by omega)]
  refine ⟨_, rfl, ?_, ?_⟩ <;> rw [BitVec.toNat_ofNat, Nat.mod_eq_of_lt (by omega)] <;> assumption

/-- Non-vacuity. -/
example : deChaine "12.200.7".toList = some ⟨12#8, 200#8, 7#8, 255#8⟩ := by rfl

end Verif.Vue
