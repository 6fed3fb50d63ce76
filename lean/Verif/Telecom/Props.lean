import Verif.Telecom.Model
import Mathlib.Tactic.Ring
import Mathlib.Data.List.Nodup
import Mathlib.Tactic.Linarith
import Mathlib.Algebra.Order.Field.Rat
/-! # Properties C07, C08, C38, C40, C43: mapping, differential coding, Barker codes, decision -/
namespace Verif.Telecom

/-! ## C07 -/

/-- Little-endian value of a list of bits (specification). -/
def valeur : List Bool → Nat
  | []      => 0
  | b :: bs => b.toNat + 2 * valeur bs

/-- Fewest zeros completing `n` to a multiple of `k` (specification). -/
def manque (n k : Nat) : Nat := (k - n % k) % k

private theorem valeur_lt (l : List Bool) : valeur l < 2 ^ l.length := by
  induction l with
  | nil => simp [valeur]
  | cons b l ih =>
    simp only [valeur, List.length_cons, Nat.pow_succ]
    have : b.toNat ≤ 1 := Bool.toNat_le b
    omega

private theorem valeur_append_zeros (l : List Bool) (n : Nat) : valeur (l ++ List.replicate n false) = valeur l := by
  induction l with
  | nil =>
    induction n with
    | zero => rfl
    | succ n ih => simp only [List.nil_append] at ih ⊢; rw [List.replicate_succ]; simp [valeur, ih]
  | cons b l ih => simp [valeur, ih]

private theorem valeur_testBit (l : List Bool) (i : Nat) : (valeur l).testBit i = l[i]?.getD false := by
  induction l generalizing i with
  | nil => simp [valeur]
  | cons b l ih =>
    cases i with
    | zero => cases b <;> simp [valeur, Nat.testBit_zero]
    | succ i =>
      rw [Nat.testBit_succ]
      have : (valeur (b :: l)) / 2 = valeur l := by
        have : b.toNat ≤ 1 := Bool.toNat_le b
        simp only [valeur]; omega
      rw [this, ih]; simp

private theorem symbBoucle_eq (x : List Bool) (k i : Nat) : ∀ d j symb, d = k - j → j ≤ k →
    symbBoucle x k i j symb (2 ^ j) = symb + 2 ^ j * valeur ((x.drop (i * k + j)).take (k - j)) := by
  intro d
  induction d with
  | zero =>
    intro j symb hd hj
    unfold symbBoucle
    have : ¬ (j < k ∧ i * k + j < x.length) := by omega
    rw [dif_neg this, ← hd]
    simp [valeur]
  | succ d ih =>
    intro j symb hd hj
    unfold symbBoucle
    by_cases h : j < k ∧ i * k + j < x.length
    · rw [dif_pos h, ← Nat.pow_succ, ih (j + 1) _ (by omega) (by omega)]
      rw [List.drop_eq_getElem_cons h.2, show k - j = (k - (j + 1)) + 1 by omega, List.take_succ_cons]
      simp only [valeur, Nat.pow_succ, Nat.add_assoc]
      ring
    · rw [dif_neg h]
      by_cases hk : j < k
      · rw [List.drop_eq_nil_of_le (by omega)]
        simp [valeur]
      · omega

private theorem symb_eq (x : List Bool) (k i : Nat) :
    symbBoucle x k i 0 0 1 = valeur ((x.drop (i * k)).take k) := by
  have := symbBoucle_eq x k i k 0 0 (by omega) (by omega)
  simpa using this

private theorem shift_bit (v j : Nat) : (((v >>> j) &&& 1) != 0) = v.testBit j := by
  rw [Nat.testBit, Nat.and_comm]

private theorem demap_valeur (l : List Bool) (k : Nat) (h : l.length ≤ k) :
    (List.range k).map (fun j => ((valeur l >>> j) &&& 1) != 0) = l ++ List.replicate (k - l.length) false := by
  apply List.ext_getElem
  · simp; omega
  · intro i h1 h2
    simp only [List.getElem_map, List.getElem_range, shift_bit, valeur_testBit]
    by_cases hi : i < l.length
    · rw [List.getElem_append_left hi, List.getElem?_eq_getElem hi]; rfl
    · rw [List.getElem_append_right (by omega), List.getElem?_eq_none (by omega)]; simp

private theorem mapping_aux (k : Nat) (hk : 0 < k) : ∀ (m : Nat) (x : List Bool), (x.length + k - 1) / k = m →
    (List.range m).flatMap (fun i => (List.range k).map
      (fun j => ((valeur ((x.drop (i * k)).take k) >>> j) &&& 1) != 0)) =
      x ++ List.replicate (manque x.length k) false := by
  intro m
  induction m with
  | zero =>
    intro x hx
    have hx0 : x.length = 0 := by
      rw [Nat.div_eq_zero_iff] at hx
      omega
    have : x = [] := List.eq_nil_of_length_eq_zero hx0
    subst this
    simp [manque]
  | succ m ih =>
    intro x hx
    rw [List.range_succ_eq_map, List.flatMap_cons, List.flatMap_map]
    have hxl : 0 < x.length := by
      rcases Nat.eq_zero_or_pos x.length with h | h
      · rw [h] at hx
        rw [Nat.div_eq_of_lt (by omega)] at hx
        omega
      · exact h
    have h0 : (List.range k).map (fun j => ((valeur ((x.drop (0 * k)).take k) >>> j) &&& 1) != 0)
        = x.take k ++ List.replicate (k - x.length) false := by
      rw [Nat.zero_mul, List.drop_zero, demap_valeur _ _ (by simp)]
      congr 2
      simp; omega
    rw [h0]
    have hstep : (fun a : Nat => (List.range k).map
        (fun j => ((valeur ((x.drop (a.succ * k)).take k) >>> j) &&& 1) != 0))
        = (fun a : Nat => (List.range k).map
        (fun j => ((valeur (((x.drop k).drop (a * k)).take k) >>> j) &&& 1) != 0)) := by
      funext a
      rw [List.drop_drop, show a.succ * k = k + a * k by rw [Nat.succ_mul]; omega]
    rw [hstep, ih (x.drop k)]
    · by_cases hlt : k ≤ x.length
      · have e1 : k - x.length = 0 := by omega
        have e2 : manque (x.drop k).length k = manque x.length k := by
          unfold manque
          rw [List.length_drop]
          congr 2
          conv => rhs; rw [show x.length = (x.length - k) + k by omega, Nat.add_mod_right]
        rw [e1, e2]
        simp [← List.append_assoc]
      · rw [List.drop_eq_nil_of_le (by omega), List.take_of_length_le (by omega)]
        have e1 : manque ([] : List Bool).length k = 0 := by simp [manque]
        have e2 : manque x.length k = k - x.length := by
          unfold manque
          rw [Nat.mod_eq_of_lt (show x.length < k by omega)]
          exact Nat.mod_eq_of_lt (by omega)
        rw [e1, e2]; simp
    · rw [List.length_drop]
      by_cases hlt : k ≤ x.length
      · have : x.length + k - 1 = (x.length - k + k - 1) + k := by omega
        rw [this, Nat.add_div_right _ hk] at hx
        omega
      · have h1 : (x.length + k - 1) / k = 1 := by
          rw [show x.length + k - 1 = (x.length - 1) + k by omega, Nat.add_div_right _ hk,
            Nat.div_eq_of_lt (by omega)]
        have : x.length - k = 0 := by omega
        rw [this, Nat.div_eq_of_lt (by omega)]
        omega

/-- **C07 (round trip).** Mapping then demapping with any `k ≥ 1` returns the bits followed by the fewest zeros that
complete them to a multiple of `k`; there are ⌈n/k⌉ symbols, each below `2^k`, symbol `i` being the little-endian
value of bits `ik … ik+k-1` of the (zero-completed) stream. -/
theorem C07_aller_retour (x : List Bool) (k : Nat) (hk : 0 < k) :
    ∃ s, symmap x k = some s ∧ symdemap s k = x ++ List.replicate (manque x.length k) false ∧
      s.length = (x.length + k - 1) / k ∧ (∀ v ∈ s, v < 2 ^ k) ∧
      ∀ i, i < s.length → s[i]? = some (valeur ((x.drop (i * k)).take k)) := by
  refine ⟨(List.range ((x.length + k - 1) / k)).map (fun i => symbBoucle x k i 0 0 1), ?_, ?_, ?_, ?_, ?_⟩
  · unfold symmap
    rw [if_neg (by omega)]
    simp
  · unfold symdemap
    rw [List.flatMap_map]
    simp only [symb_eq]
    exact mapping_aux k hk _ x rfl
  · simp
  · intro v hv
    simp only [List.mem_map, List.mem_range] at hv
    obtain ⟨i, _, rfl⟩ := hv
    rw [symb_eq]
    refine lt_of_lt_of_le (valeur_lt _) (Nat.pow_le_pow_right (by omega) ?_)
    simp
  · intro i hi
    simp only [List.length_map, List.length_range] at hi
    simp [hi, symb_eq]

private theorem symdemap_length (s : List Nat) (k : Nat) : (symdemap s k).length = s.length * k := by
  induction s with
  | nil => simp [symdemap]
  | cons v s ih =>
    unfold symdemap at ih ⊢
    rw [List.flatMap_cons, List.length_append, ih]
    simp [Nat.succ_mul, Nat.add_comm]

private theorem valeur_digits (k v : Nat) (h : v < 2 ^ k) :
    valeur ((List.range k).map (fun j => ((v >>> j) &&& 1) != 0)) = v := by
  apply Nat.eq_of_testBit_eq
  intro i
  rw [valeur_testBit]
  by_cases hi : i < k
  · simp [hi, Nat.testBit, Nat.and_comm]
  · simp [hi]
    exact (Nat.testBit_lt_two_pow (lt_of_lt_of_le h (Nat.pow_le_pow_right (by omega) (show k ≤ i by omega))))

/-- **C07 (converse).** Demapping then mapping returns every sequence of `k`-bit symbols unchanged. -/
theorem C07_retour_aller (s : List Nat) (k : Nat) (hk : 0 < k) (hs : ∀ v ∈ s, v < 2 ^ k) :
    symmap (symdemap s k) k = some s := by
  obtain ⟨t, e, _, hl, _, hb⟩ := C07_aller_retour (symdemap s k) k hk
  rw [e]
  congr 1
  have hlen : t.length = s.length := by
    rw [hl, symdemap_length, show s.length * k + k - 1 = (k - 1) + k * s.length by
      rw [Nat.mul_comm]; omega, Nat.add_mul_div_left _ _ hk, Nat.div_eq_of_lt (by omega)]
    omega
  have blocks : ∀ (s : List Nat) i, (∀ v ∈ s, v < 2 ^ k) → i < s.length →
      s[i]? = some (valeur (((symdemap s k).drop (i * k)).take k)) := by
    intro s
    induction s with
    | nil => intro i _ h; simp at h
    | cons v s ih =>
      intro i hs hi
      have hd : symdemap (v :: s) k = (List.range k).map (fun j => ((v >>> j) &&& 1) != 0) ++ symdemap s k := by
        simp [symdemap]
      rw [hd]
      cases i with
      | zero =>
        rw [Nat.zero_mul, List.drop_zero, List.take_left' (by simp), valeur_digits k v (hs v (by simp))]
        rfl
      | succ i =>
        have hdl : ((List.range k).map (fun j => ((v >>> j) &&& 1) != 0)).length = k := by simp
        rw [show (i + 1) * k = k + i * k by rw [Nat.succ_mul]; omega, ← List.drop_drop, List.drop_left' hdl]
        rw [List.getElem?_cons_succ]
        exact ih i (fun v hv => hs v (by simp [hv])) (by simpa using hi)
  apply List.ext_getElem?
  intro i
  by_cases hi : i < t.length
  · rw [hb i hi, blocks s i hs (by omega)]
  · rw [List.getElem?_eq_none (by omega), List.getElem?_eq_none (by omega)]

/-- **C07 (rejection).** Non-positive `k` is rejected. -/
theorem C07_rejet (x : List Bool) (k : Int) (hk : k ≤ 0) : symmap x k = none := by
  simp [symmap, hk]

example : (0 < 3) ∧ (∀ v ∈ [5, 2, 7], v < 2 ^ 3) ∧ symmap [true, false, true, true] 3 = some [5, 1] ∧
    manque 4 3 = 2 := by
  refine ⟨by decide, by decide, ?_, by decide⟩
  simp [symmap, List.range_succ, symb_eq, valeur]

/-! ## C08 -/

private theorem decBoucle_encBoucle (lb p : Bool) (x : List Bool) (n : Nat) (hn : n ≤ x.length) :
    diffDecodeBoucle p n (diffEncodeBoucle lb x) =
      match n with
      | 0 => []
      | m + 1 => (p ^^ lb ^^ x.headD false) :: (x.tail.take m) := by
  induction n generalizing lb p x with
  | zero => simp [diffDecodeBoucle]
  | succ n ih =>
    cases x with
    | nil => simp at hn
    | cons a x =>
      simp only [diffEncodeBoucle, diffDecodeBoucle, List.headD_cons, List.tail_cons]
      rw [ih (lb ^^ a) (lb ^^ a) x (by simpa using hn)]
      simp only [Bool.xor_assoc]
      congr 1
      cases n with
      | zero => simp
      | succ m =>
        cases x with
        | nil => simp at hn
        | cons b x => simp; cases lb <;> cases a <;> cases b <;> rfl

private theorem enc_length (lb : Bool) (x : List Bool) : (diffEncodeBoucle lb x).length = x.length := by
  induction x generalizing lb with
  | nil => rfl
  | cons a x ih => simp [diffEncodeBoucle, ih]

/-- **C08 (exact behaviour).** Decoding an encoded stream of `n + 1` bits gives a spurious leading 0 followed by bits
1 … n-1 of the original: the last bit is lost. -/
theorem C08_comportement_exact (x0 : Bool) (x : List Bool) :
    diffDecode (diffEncode (x0 :: x)) = (false :: x).take x.length := by
  have he : diffEncode (x0 :: x) = x0 :: diffEncodeBoucle x0 x := by simp [diffEncode, diffEncodeBoucle]
  rw [he]
  unfold diffDecode
  simp only [List.length_cons, Nat.add_sub_cancel, enc_length]
  have h := decBoucle_encBoucle false x0 (x0 :: x) x.length (by simp)
  simp only [diffEncodeBoucle, Bool.false_xor] at h
  rw [h]
  cases x with
  | nil => rfl
  | cons a x => simp

/-- The documented decoder (telecom.hpp:466-479): `y_i = x_i ⊕ x_{i-1}`, one bit less than the input. -/
def decodeurDocumente (x : List Bool) : List Bool := List.zipWith (fun a b => a ^^ b) x.tail x

/-- What the documentation promises would indeed be a round trip. -/
theorem C08_spec_aller_retour (x0 : Bool) (x : List Bool) :
    decodeurDocumente (diffEncode (x0 :: x)) = x := by
  have he : diffEncode (x0 :: x) = x0 :: diffEncodeBoucle x0 x := by simp [diffEncode, diffEncodeBoucle]
  rw [he]
  clear he
  unfold decodeurDocumente
  simp only [List.tail_cons]
  induction x generalizing x0 with
  | nil => rfl
  | cons a x ih =>
    simp only [diffEncodeBoucle, List.zipWith_cons_cons, ih]
    cases x0 <;> cases a <;> rfl

/-- **C08 is violated.** The code is not its documentation: no encoded stream whose second-to-last… concretely
`decode(encode(1,1)) = (0)` where `(1)` is promised; and in general the decoder is wrong as soon as
the documented output is not `0` followed by itself shifted. -/
theorem C08_refute : diffDecode (diffEncode [true, true]) = [false] ∧
    decodeurDocumente (diffEncode [true, true]) = [true] ∧
    ∀ x0 x, diffDecode (diffEncode (x0 :: x)) = x ↔ ∀ b ∈ x, b = false := by
  refine ⟨by decide, by decide, ?_⟩
  intro x0 x
  rw [C08_comportement_exact]
  have gen : ∀ (p : Bool) (x : List Bool), (p :: x).take x.length = x ↔ ∀ b ∈ x, b = p := by
    intro p x
    induction x generalizing p with
    | nil => simp
    | cons a x ih =>
      simp only [List.length_cons, List.take_succ_cons, List.cons.injEq, ih, List.mem_cons, forall_eq_or_imp]
      constructor
      · rintro ⟨rfl, h⟩; exact ⟨rfl, h⟩
      · rintro ⟨rfl, h⟩; exact ⟨rfl, h⟩
  exact gen false x

/-- **C08 (what does hold).** Inside the stream the bits are restored, and the decoder ignores a global inversion of
the received stream (180° phase ambiguity). -/
theorem C08_interieur_partial (x0 : Bool) (x : List Bool) :
    (diffDecode (diffEncode (x0 :: x))).tail = x.dropLast ∧
    diffDecode ((diffEncode (x0 :: x)).map (!·)) = diffDecode (diffEncode (x0 :: x)) := by
  constructor
  · rw [C08_comportement_exact]
    cases x with
    | nil => rfl
    | cons a x => simp [List.dropLast_eq_take]
  · have gen : ∀ (n : Nat) (p : Bool) (x : List Bool),
        diffDecodeBoucle (!p) n (x.map (!·)) = diffDecodeBoucle p n x := by
      intro n
      induction n with
      | zero => intro p x; rfl
      | succ n ih =>
        intro p x
        cases x with
        | nil => rfl
        | cons a x =>
          simp only [List.map_cons, diffDecodeBoucle, ih]
          cases p <;> cases a <;> rfl
    have he : diffEncode (x0 :: x) = x0 :: diffEncodeBoucle x0 x := by simp [diffEncode, diffEncodeBoucle]
    rw [he]
    simp only [diffDecode, List.map_cons, List.length_cons, List.length_map]
    have := gen (diffEncodeBoucle x0 x).length x0 (x0 :: diffEncodeBoucle x0 x)
    simpa using this

/-! ## C38 -/

/-- ±1 value of a character. -/
def pm (c : Char) : Int := if c = '1' then 1 else -1

/-- Aperiodic autocorrelation at lag `d` (specification). -/
def autocorr (s : List Int) (d : Nat) : Int := (List.zipWith (· * ·) s (s.drop d)).sum

/-- **C38.** Every code returned by `code_Barker(n)` has `n` bits, peak `n`, and all aperiodic autocorrelation
sidelobes (at every lag `d ≥ 1`, unbounded) of magnitude at most 1; every integer other than
2, 3, 4, 5, 7, 11, 13 is rejected. -/
theorem C38_barker (n : Int) :
    (∀ s, codeBarker n = some s →
      (s.toList.length : Int) = n ∧ autocorr (s.toList.map pm) 0 = n ∧
      ∀ d, 1 ≤ d → -1 ≤ autocorr (s.toList.map pm) d ∧ autocorr (s.toList.map pm) d ≤ 1) ∧
    (codeBarker n = none ↔ n ∉ [2, 3, 4, 5, 7, 11, 13]) := by
  have big : ∀ (l : List Int) d, l.length ≤ d → autocorr l d = 0 := by
    intro l d h
    unfold autocorr
    rw [List.drop_eq_nil_of_le h]; simp
  have fin : ∀ (s : String), s.toList.length ≤ 13 →
      (∀ d < 14, 1 ≤ d → -1 ≤ autocorr (s.toList.map pm) d ∧ autocorr (s.toList.map pm) d ≤ 1) →
      ∀ d, 1 ≤ d → -1 ≤ autocorr (s.toList.map pm) d ∧ autocorr (s.toList.map pm) d ≤ 1 := by
    intro s hs h d hd
    by_cases h14 : d < 14
    · exact h d h14 hd
    · rw [big _ d (by simp at hs ⊢; omega)]; decide
  constructor
  · intro s h
    unfold codeBarker at h
    split at h <;> first
      | (simp only [Option.some.injEq] at h
         subst h
         exact ⟨by decide, by decide, fin _ (by decide) (by decide)⟩)
      | cases h
  · unfold codeBarker
    split <;> simp_all

/-! ## C40 and C43 -/
section
variable {α : Type} [Field α] [LinearOrder α] [IsStrictOrderedRing α]

omit [IsStrictOrderedRing α] in
private theorem boucle_spec (p : α × α) : ∀ (ss : List (α × α)) (i : Nat) (bd : α) (res : Nat),
    (∃ j, ∃ h : j < ss.length, plusProcheBoucle p i bd res ss = i + j ∧ dist2 p ss[j] < bd ∧
      (∀ k (hk : k < ss.length), dist2 p ss[j] ≤ dist2 p ss[k]) ∧
      ∀ k (hk : k < ss.length), k < j → dist2 p ss[j] < dist2 p ss[k]) ∨
    (plusProcheBoucle p i bd res ss = res ∧ ∀ k (hk : k < ss.length), bd ≤ dist2 p ss[k]) := by
  intro ss
  induction ss with
  | nil => intro i bd res; right; exact ⟨rfl, fun k hk => by simp at hk⟩
  | cons s ss ih =>
    intro i bd res
    unfold plusProcheBoucle
    by_cases h : dist2 p s < bd
    · simp only [h, if_true]
      left
      rcases ih (i + 1) (dist2 p s) i with ⟨j, hj, e, h1, h2, h3⟩ | ⟨e, h1⟩
      · refine ⟨j + 1, by simp; omega, by rw [e]; omega, lt_trans h1 h, ?_, ?_⟩
        · intro k hk
          cases k with
          | zero => exact le_of_lt h1
          | succ k => exact h2 k (by simpa using hk)
        · intro k hk hkj
          cases k with
          | zero => exact h1
          | succ k => exact h3 k (by simpa using hk) (by omega)
      · refine ⟨0, by simp, e, h, ?_, ?_⟩
        · intro k hk
          cases k with
          | zero => exact le_refl _
          | succ k => exact h1 k (by simpa using hk)
        · intro k hk hkj; omega
    · simp only [h, if_false]
      rcases ih (i + 1) bd res with ⟨j, hj, e, h1, h2, h3⟩ | ⟨e, h1⟩
      · left
        refine ⟨j + 1, by simp; omega, by rw [e]; omega, h1, ?_, ?_⟩
        · intro k hk
          cases k with
          | zero => exact le_of_lt (lt_of_lt_of_le h1 (not_lt.1 h))
          | succ k => exact h2 k (by simpa using hk)
        · intro k hk hkj
          cases k with
          | zero => exact lt_of_lt_of_le h1 (not_lt.1 h)
          | succ k => exact h3 k (by simpa using hk) (by omega)
      · right
        refine ⟨e, ?_⟩
        intro k hk
        cases k with
        | zero => exact not_lt.1 h
        | succ k => exact h1 k (by simpa using hk)

omit [IsStrictOrderedRing α] in
/-- **C40.** For every non-empty constellation and every sample (squared distances below the code's initial bound
1e100), the decision is a symbol at minimal distance, the first one among ties. -/
theorem C40_decision_optimale (symbs : List (α × α)) (p : α × α) (hne : symbs ≠ [])
    (hb : ∀ s ∈ symbs, dist2 p s < 10 ^ 100) :
    ∃ i, ∃ h : i < symbs.length, symbolePlusProche symbs p = some i ∧
      (∀ j (hj : j < symbs.length), dist2 p symbs[i] ≤ dist2 p symbs[j]) ∧
      ∀ j (hj : j < symbs.length), j < i → dist2 p symbs[i] < dist2 p symbs[j] := by
  rcases boucle_spec p symbs 0 (10 ^ 100) 0 with ⟨j, hj, e, _, h2, h3⟩ | ⟨_, h1⟩
  · refine ⟨j, hj, ?_, h2, h3⟩
    unfold symbolePlusProche
    simp only [e, Nat.zero_add, hj, if_true]
  · exfalso
    have hl : 0 < symbs.length := List.length_pos_iff.2 hne
    exact absurd (h1 0 hl) (not_le.2 (hb _ (List.getElem_mem hl)))

/-- **C40 (noise margin).** A transmitted symbol is recovered whenever the noise is shorter than half its distance to
every other constellation point. -/
theorem C40_marge_de_bruit (symbs : List (α × α)) (i : Nat) (hi : i < symbs.length) (b : α × α)
    (hm : ∀ j (hj : j < symbs.length), j ≠ i → 4 * (b.1 * b.1 + b.2 * b.2) < dist2 symbs[i] symbs[j])
    (hb : ∀ s ∈ symbs, dist2 (symbs[i].1 + b.1, symbs[i].2 + b.2) s < 10 ^ 100) :
    symbolePlusProche symbs (symbs[i].1 + b.1, symbs[i].2 + b.2) = some i := by
  have hne : symbs ≠ [] := by intro h; subst h; simp at hi
  obtain ⟨j, hj, e, h1, h2⟩ := C40_decision_optimale symbs (symbs[i].1 + b.1, symbs[i].2 + b.2) hne hb
  rw [e]
  by_contra hne'
  have hji : j ≠ i := fun h => hne' (by rw [h])
  have hlt := hm j hj hji
  have hle := h1 i hi
  -- d = s_i - s_j ; |d + b|² ≤ |b|² contradicts 4|b|² < |d|²
  generalize hx : symbs[i].1 - symbs[j].1 = x at *
  generalize hy : symbs[i].2 - symbs[j].2 = y at *
  have e1 : dist2 (symbs[i].1 + b.1, symbs[i].2 + b.2) symbs[j] = (x + b.1) * (x + b.1) + (y + b.2) * (y + b.2) := by
    simp only [dist2, ← hx, ← hy]; ring
  have e2 : dist2 (symbs[i].1 + b.1, symbs[i].2 + b.2) symbs[i] = b.1 * b.1 + b.2 * b.2 := by
    simp only [dist2]; ring
  have e3 : dist2 symbs[i] symbs[j] = x * x + y * y := by
    simp only [dist2, hx, hy]
  rw [e1, e2] at hle
  rw [e3] at hlt
  nlinarith [sq_nonneg (x + 2 * b.1), sq_nonneg (y + 2 * b.2)]

/-- **C40 (BPSK).** The sign test used for BPSK is the generic nearest-symbol decision on {-1, +1}. -/
theorem C40_bpsk (p : α × α) (hb : ∀ s ∈ (bpskConstellation : List (α × α)), dist2 p s < 10 ^ 100) :
    symbolePlusProche bpskConstellation p = some (bpskDecision p) := by
  have h0 := hb (-1, 0) (by simp [bpskConstellation])
  unfold symbolePlusProche bpskConstellation bpskDecision
  simp only [plusProcheBoucle, h0, if_true]
  have key : dist2 p (1, 0) < dist2 p (-1, 0) ↔ 0 < p.1 := by
    simp only [dist2]
    constructor
    · intro h; nlinarith
    · intro h; nlinarith
  by_cases hp : 0 < p.1
  · simp [key.2 hp, hp]
  · have hk : ¬ dist2 p (1, 0) < dist2 p (-1, 0) := fun h => hp (key.1 h)
    simp [hp, hk]

/-- **C43.** Modulating any bit stream with a constellation of `2^k` distinct points and deciding without noise
returns the bits, completed by the fewest zeros. -/
theorem C43_chaine_sans_bruit (symbs : List (α × α)) (k : Nat) (hk : 0 < k) (hM : symbs.length = 2 ^ k)
    (hd : symbs.Nodup) (hb : ∀ s ∈ symbs, ∀ t ∈ symbs, dist2 s t < 10 ^ 100) (x : List Bool) :
    ∃ y, genereSymboles symbs k x = some y ∧
      decodeSymboles symbs k y = some (x ++ List.replicate (manque x.length k) false) := by
  obtain ⟨s, e, hdm, _, hlt, _⟩ := C07_aller_retour x k hk
  have dec : ∀ i (hi : i < symbs.length), symbolePlusProche symbs symbs[i] = some i := by
    intro i hi
    have := C40_marge_de_bruit symbs i hi (0, 0) (by
      intro j hj hji
      have hne : symbs[i] ≠ symbs[j] := fun h => hji ((List.Nodup.getElem_inj_iff hd).1 h).symm
      have : symbs[i].1 - symbs[j].1 ≠ 0 ∨ symbs[i].2 - symbs[j].2 ≠ 0 := by
        by_contra hc
        simp only [not_or, not_not] at hc
        exact hne (Prod.ext (sub_eq_zero.1 hc.1) (sub_eq_zero.1 hc.2))
      simp only [dist2]
      rcases this with h | h
      · have := mul_self_pos.2 h
        have := mul_self_nonneg (symbs[i].2 - symbs[j].2)
        linarith
      · have := mul_self_pos.2 h
        have := mul_self_nonneg (symbs[i].1 - symbs[j].1)
        linarith) (by
      intro t ht
      simp only [add_zero]
      exact hb _ (List.getElem_mem hi) t ht)
    simpa using this
  have gen : ∀ s : List Nat, (∀ v ∈ s, v < 2 ^ k) → ∃ y, s.mapM (fun i => symbs[i]?) = some y ∧
      y.mapM (symbolePlusProche symbs) = some s := by
    intro s
    induction s with
    | nil => intro _; exact ⟨[], rfl, rfl⟩
    | cons v s ih =>
      intro hv
      obtain ⟨y, h1, h2⟩ := ih (fun w hw => hv w (by simp [hw]))
      have hvl : v < symbs.length := by rw [hM]; exact hv v (by simp)
      refine ⟨symbs[v] :: y, ?_, ?_⟩
      · rw [List.mapM_cons, h1, List.getElem?_eq_getElem hvl]; rfl
      · rw [List.mapM_cons, h2, dec v hvl]; rfl
  obtain ⟨y, h1, h2⟩ := gen s hlt
  refine ⟨y, ?_, ?_⟩
  · simp only [genereSymboles, e]
    exact h1
  · simp only [decodeSymboles, h2]
    show some (symdemap s k) = _
    rw [hdm]

end

/-- **C43 (hard decision).** A stream of soft bits of any strictly positive amplitudes, positive for 1 and negative for 0, is decided back to the bits;
a null soft bit is decided 0. -/
theorem C43_decision_dure {α : Type} [Field α] [LinearOrder α] [IsStrictOrderedRing α] (bs : List (Bool × α)) (h : ∀ p ∈ bs, 0 < p.2) :
    decodeHard (bs.map fun p => if p.1 then p.2 else -p.2) = bs.map Prod.fst ∧
    ∀ n, decodeHard (List.replicate n (0 : α)) = List.replicate n false := by
  refine ⟨?_, fun n => by simp [decodeHard]⟩
  unfold decodeHard
  rw [List.map_map]
  apply List.map_congr_left
  intro p hp
  have := h p hp
  cases hb : p.1
  · simp [hb]; exact this.le
  · simp [hb, this]

example : (∀ p ∈ [(true, (3 : ℚ)), (false, 1 / 2)], 0 < p.2) ∧ decodeHard [(3 : ℚ), -1 / 2, 0] = [true, false, false] := by
  constructor
  · decide +kernel
  · decide +kernel

/-- QPSK-like constellation over ℚ: the hypotheses of C40 and C43 are satisfiable. -/
def qpskQ : List (ℚ × ℚ) := [(1, 1), (-1, 1), (-1, -1), (1, -1)]

example : qpskQ.length = 2 ^ 2 ∧ qpskQ.Nodup ∧ (∀ s ∈ qpskQ, ∀ t ∈ qpskQ, dist2 s t < 10 ^ 100) ∧
    (∀ j (hj : j < qpskQ.length), j ≠ 0 → 4 * ((1/2 : ℚ) * (1/2) + (1/3) * (1/3)) < dist2 qpskQ[0] qpskQ[j]) := by
  refine ⟨rfl, by decide +kernel, by decide +kernel, ?_⟩
  intro j hj hj0
  simp only [qpskQ, List.length_cons, List.length_nil] at hj
  rcases j with _ | _ | _ | _ | j
  · exact absurd rfl hj0
  all_goals first
    | omega
    | (simp only [qpskQ, dist2]; norm_num)

end Verif.Telecom
