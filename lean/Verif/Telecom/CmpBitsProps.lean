import Verif.Telecom.CmpBits
import Verif.Telecom.Props
import Verif.Fourier.AligneProps

/-!
# C111: comparison of bit streams
-/

namespace Verif.Telecom

open Fourier

/-! ### Specification -/

/-- The compared positions among `n` common bits: all of them, or all but the 50 first and the 50 last when there are more than 100. -/
def fenetreCmp (n : ℕ) : Finset ℕ := if 100 < n then Finset.Ico 50 (n - 50) else Finset.range n

/-- Number of compared positions at which `b1`, advanced by `(-d)⁺`, and `b2`, advanced by `d⁺`, differ. -/
def differences (b1 b2 : List Bool) (d : ℤ) (n : ℕ) : ℕ := ((fenetreCmp n).filter fun k => b1[k + (-d).toNat]? ≠ b2[k + d.toNat]?).card

/-- Number of bits in common with the delay `d`. -/
def communs (b1 b2 : List Bool) (d : ℤ) : ℕ := (min ((b1.length : ℤ) - max 0 (-d)) ((b2.length : ℤ) - max 0 d)).toNat

/-! ### Lemmas -/

/-- Value of a bit. -/
noncomputable def bitR (v : Bool) : ℝ := if v then 1 else 0

theorem bitsC_re (b : List Bool) : (bitsC b).map Complex.re = b.map bitR := by
  unfold bitsC bitR
  rw [List.map_map]
  apply List.map_congr_left
  intro v _
  cases v <;> simp

theorem arrondi_bit (u v : Bool) : (arrondi (bitR u) ≠ arrondi (bitR v)) ↔ u ≠ v := by
  have h0 := arrondi_entier 0
  have h1 := arrondi_entier 1
  push_cast at h0 h1
  cases u <;> cases v <;> simp [bitR, h0, h1]

theorem nbErreurs_bits (a b : List Bool) (h : a.length = b.length) : nbErreurs (a.map bitR) (b.map bitR) = ((Finset.range a.length).filter fun k => a[k]? ≠ b[k]?).card := by
  induction a generalizing b with
  | nil => simp [nbErreurs]
  | cons u a ih =>
    cases b with
    | nil => simp at h
    | cons v b =>
      have ih := ih b (by simpa using h)
      unfold nbErreurs at ih ⊢
      rw [List.map_cons, List.map_cons, List.zipWith_cons_cons, List.sum_cons, ih, Finset.card_filter, Finset.card_filter, List.length_cons, Finset.sum_range_succ']
      simp only [List.getElem?_cons_succ, List.getElem?_cons_zero]
      rw [add_comm]
      congr 1
      by_cases hc : u = v
      · rw [if_neg (by rw [arrondi_bit]; simpa using hc), if_neg (by simpa using hc)]
      · rw [if_pos (by rw [arrondi_bit]; simpa using hc), if_pos (by simpa using hc)]

theorem bords_bits (b : List Bool) : bords (b.map bitR) = (if 100 < b.length then (b.drop 50).take (b.length - 100) else b).map bitR := by
  unfold bords
  rw [List.length_map]
  split
  · rw [← List.map_drop, ← List.map_take]
  · rfl

theorem bords_longueur (b : List Bool) : (bords (b.map bitR)).length = (fenetreCmp b.length).card := by
  rw [bords_bits, List.length_map]
  unfold fenetreCmp
  split
  · rw [List.length_take, List.length_drop, Nat.card_Ico]; omega
  · rw [Finset.card_range]

theorem nbErreurs_bords (a b : List Bool) (h : a.length = b.length) : nbErreurs (bords (a.map bitR)) (bords (b.map bitR)) = ((fenetreCmp a.length).filter fun k => a[k]? ≠ b[k]?).card := by
  rw [bords_bits, bords_bits, ← h]
  unfold fenetreCmp
  split
  · rename_i hn
    rw [nbErreurs_bits _ _ (by simp [h])]
    have hl : ((a.drop 50).take (a.length - 100)).length = a.length - 100 := by rw [List.length_take, List.length_drop]; omega
    rw [hl]
    apply Finset.card_bij (fun k _ => k + 50)
    · intro k hk
      rw [Finset.mem_filter, Finset.mem_range] at hk
      rw [Finset.mem_filter, Finset.mem_Ico]
      obtain ⟨k1, k2⟩ := hk
      rw [List.getElem?_take_of_lt (by omega), List.getElem?_take_of_lt (by omega), List.getElem?_drop, List.getElem?_drop] at k2
      exact ⟨by omega, by rw [Nat.add_comm]; exact k2⟩
    · intro i _ j _ e; omega
    · intro k hk
      rw [Finset.mem_filter, Finset.mem_Ico] at hk
      refine ⟨k - 50, ?_, by omega⟩
      rw [Finset.mem_filter, Finset.mem_range]
      refine ⟨by omega, ?_⟩
      rw [List.getElem?_take_of_lt (by omega), List.getElem?_take_of_lt (by omega), List.getElem?_drop, List.getElem?_drop, show 50 + (k - 50) = k by omega]
      exact hk.2
  · exact nbErreurs_bits a b h

theorem bitsC_sous (b : List Bool) (xa : List ℂ) (i : ℕ) (h : ∀ k, k < xa.length → xa[k]? = (bitsC b)[k + i]?) :
    xa.map Complex.re = ((b.drop i).take xa.length).map bitR := by
  have : xa = (((bitsC b).drop i).take xa.length) := by
    apply List.ext_getElem?
    intro k
    rcases Nat.lt_or_ge k xa.length with hk | hk
    · rw [List.getElem?_take_of_lt hk, List.getElem?_drop, h k hk, Nat.add_comm]
    · rw [List.getElem?_eq_none hk, List.getElem?_eq_none (by rw [List.length_take]; omega)]
  conv_lhs => rw [this]
  rw [List.map_take, List.map_drop, bitsC_re, List.map_take, List.map_drop]

/-- **C111 (count).**  Whenever the comparison succeeds, with the reported shift `d`, the two returned streams are the common parts of the
inputs, the late one being advanced by `|d|` bits; the reported number of errors is exactly the number of positions of the
compared window where they differ, and the reported rate is this number divided by the size of the window (not a number when there is nothing to compare). -/
theorem C111_compte (b1 b2 : List Bool) (r : CmpBitsRes) (h : cmpBits b1 b2 = some r) :
    r.b0 = ((b1.drop (-r.decalage).toNat).take (communs b1 b2 r.decalage)).map bitR ∧
    r.b1 = ((b2.drop r.decalage.toNat).take (communs b1 b2 r.decalage)).map bitR ∧
    r.nerr = differences b1 b2 r.decalage (communs b1 b2 r.decalage) ∧
    r.ber = (if communs b1 b2 r.decalage = 0 then none else some ((r.nerr : ℝ) / (fenetreCmp (communs b1 b2 r.decalage)).card)) ∧
    (communs b1 b2 r.decalage : ℤ) = min ((b1.length : ℤ) - max 0 (-r.decalage)) ((b2.length : ℤ) - max 0 r.decalage) ∧ r.decPhase = 0 := by
  unfold cmpBits at h
  obtain ⟨⟨xa, ya, d, s⟩, e, rfl⟩ := Option.map_eq_some_iff.1 h
  obtain ⟨f1, f2, f3⟩ := C73_forme _ _ _ _ _ _ e
  have l1 : (bitsC b1).length = b1.length := by simp [bitsC]
  have l2 : (bitsC b2).length = b2.length := by simp [bitsC]
  rw [l1, l2] at f2
  have hc : communs b1 b2 d = xa.length := by unfold communs; omega
  have e1 := bitsC_sous b1 xa _ (fun k hk => (f3 k hk).1)
  have e2 := bitsC_sous b2 ya _ (fun k hk => (f3 k (by omega)).2)
  simp only [hc]
  have la : ((b1.drop (-d).toNat).take xa.length).length = xa.length := by rw [List.length_take, List.length_drop]; omega
  have lb : ((b2.drop d.toNat).take xa.length).length = xa.length := by rw [List.length_take, List.length_drop]; omega
  rw [← f1] at e2
  refine ⟨e1, e2, ?_, ?_, f2, trivial⟩
  · rw [e1, e2, nbErreurs_bords _ _ (by omega), la]
    unfold differences
    congr 1
    apply Finset.filter_congr
    intro k hk
    have hk' : k < xa.length := by
      unfold fenetreCmp at hk
      split at hk
      · rw [Finset.mem_Ico] at hk; omega
      · exact Finset.mem_range.1 hk
    rw [List.getElem?_take_of_lt hk', List.getElem?_take_of_lt hk', List.getElem?_drop, List.getElem?_drop, Nat.add_comm k, Nat.add_comm k]
  · rw [e2, List.length_map, lb, bords_longueur, lb]

theorem bitsC_nonnul (b : List Bool) (h : true ∈ b) : ∃ v ∈ bitsC b, v ≠ 0 := ⟨1, by unfold bitsC; exact List.mem_map.2 ⟨true, h, by simp⟩, one_ne_zero⟩

theorem bitsC_nul (b : List Bool) (h : true ∉ b) : ∀ v ∈ bitsC b, v = 0 := by
  intro v hv
  unfold bitsC at hv
  obtain ⟨u, hu, rfl⟩ := List.mem_map.1 hv
  cases u
  · simp
  · exact absurd hu h

/-- **C111 (success).**  Two streams that both contain a one are always compared. -/
theorem C111_succes (b1 b2 : List Bool) (h1 : true ∈ b1) (h2 : true ∈ b2) (hb : 3 * 2 ^ Nat.clog 2 (max b1.length b2.length) ≤ 2 ^ 29) :
    ∃ r, cmpBits b1 b2 = some r := by
  obtain ⟨xa, ya, d, s, L, e, -⟩ := C73_succes (bitsC b1) (bitsC b2) (bitsC_nonnul b1 h1) (bitsC_nonnul b2 h2) (by simpa [bitsC] using hb)
  unfold cmpBits
  rw [e]
  exact ⟨_, rfl⟩

/-- **C111 refuted (streams without a one).**  When one of the streams has no one in it — for instance two identical streams of
zeros — the comparison fails unless the first one is long enough for an arbitrary shift: it fails for 5 bits, and for every size that is not within one of a power of two. -/
theorem C111_zeros_refute (b1 b2 : List Bool) (h : true ∉ b1 ∨ true ∉ b2) (h0 : 0 < max b1.length b2.length)
    (hb : 3 * 2 ^ Nat.clog 2 (max b1.length b2.length) ≤ 2 ^ 29) :
    (cmpBits b1 b2).isSome ↔ 2 ^ Nat.clog 2 (max b1.length b2.length) ≤ b1.length + 1 := by
  have l1 : (bitsC b1).length = b1.length := by simp [bitsC]
  have l2 : (bitsC b2).length = b2.length := by simp [bitsC]
  have := C73_silence (bitsC b1) (bitsC b2) (h.imp (bitsC_nul b1) (bitsC_nul b2)) (by rw [l1, l2]; exact h0) (by rw [l1, l2]; exact hb)
  rw [l1, l2] at this
  unfold cmpBits
  rw [Option.isSome_map]
  exact this

theorem clog5 : 2 ^ Nat.clog 2 5 = 8 := by
  have h1 : Nat.clog 2 5 ≤ 3 := by rw [Nat.clog_le_iff_le_pow (by norm_num)]; norm_num
  have h2 : 2 < Nat.clog 2 5 := by rw [Nat.lt_clog_iff_pow_lt (by norm_num)]; norm_num
  rw [show Nat.clog 2 5 = 3 by omega]; norm_num

/-- Witness: five zeros compared with themselves. -/
example : (cmpBits (List.replicate 5 false) (List.replicate 5 false)).isSome = false := by
  have := C111_zeros_refute (List.replicate 5 false) (List.replicate 5 false) (by simp) (by simp) (by simp [clog5])
  rw [List.length_replicate, max_self, clog5] at this
  by_contra h
  have := this.1 (by rwa [Bool.not_eq_false] at h)
  omega

theorem ech_bits_shift (b : List Bool) (p : ℕ) (q : ℕ) (k : ℤ) : ech (bitsC (List.replicate p false ++ b ++ List.replicate q false)) k = ech (bitsC b) (k - p) := by
  have e : bitsC (List.replicate p false ++ b ++ List.replicate q false) = (List.replicate p (0 : ℂ) ++ bitsC b) ++ List.replicate q 0 := by simp [bitsC]
  rw [e, ech_pad, ech_append, List.length_replicate]
  have : ech (List.replicate p (0 : ℂ)) k = 0 := by
    have := ech_pad [] p k
    rw [List.nil_append] at this
    rw [this]
    unfold ech; split <;> simp
  rw [this, zero_add]

theorem differences_zero (b1 b2 : List Bool) (d : ℤ) (h : ∀ k : ℕ, k < communs b1 b2 d → b1[k + (-d).toNat]? = b2[k + d.toNat]?) : differences b1 b2 d (communs b1 b2 d) = 0 := by
  unfold differences
  rw [Finset.card_eq_zero, Finset.filter_eq_empty_iff]
  intro k hk
  have hk' : k < communs b1 b2 d := by
    unfold fenetreCmp at hk
    split at hk
    · rw [Finset.mem_Ico] at hk; omega
    · exact Finset.mem_range.1 hk
  simpa using h k hk'

theorem cmp_exact (b1 b2 : List Bool) (d : ℤ) (h1 : true ∈ b1) (hd : ∀ k : ℤ, ech (bitsC b2) k = ech (bitsC b1) (k - d))
    (hb : 3 * 2 ^ Nat.clog 2 (max b1.length b2.length) ≤ 2 ^ 29) : ∃ r, cmpBits b1 b2 = some r ∧ r.decalage = d ∧ r.nerr = 0 := by
  obtain ⟨xa, ya, s, e, e'⟩ := C73_exact (bitsC b1) (bitsC b2) d 1 one_ne_zero (bitsC_nonnul b1 h1) (fun k => by rw [hd, one_mul]) (by simpa [bitsC] using hb)
  unfold cmpBits
  rw [e]
  refine ⟨_, rfl, rfl, ?_⟩
  have he : ya = xa := by rw [e']; simp
  show nbErreurs (bords (xa.map Complex.re)) (bords (ya.map Complex.re)) = 0
  rw [he]
  unfold nbErreurs
  rw [List.zipWith_self]
  simp

/-- **C111 (delayed copies).**  A stream (with a one) compared with itself preceded by `p` zeros and followed by `q` zeros, in either order,
gives no error and the shift `±p`; in particular (`p = q = 0`) with itself. -/
theorem C111_exact (b : List Bool) (p q : ℕ) (h1 : true ∈ b) (hb : 3 * 2 ^ Nat.clog 2 (p + b.length + q) ≤ 2 ^ 29) :
    (∃ r, cmpBits b (List.replicate p false ++ b ++ List.replicate q false) = some r ∧ r.decalage = p ∧ r.nerr = 0 ∧ r.ber = some 0) ∧
    (∃ r, cmpBits (List.replicate p false ++ b ++ List.replicate q false) b = some r ∧ r.decalage = -p ∧ r.nerr = 0 ∧ r.ber = some 0) := by
  set c := List.replicate p false ++ b ++ List.replicate q false with hc
  have lc : c.length = p + b.length + q := by simp [hc]; omega
  have h0 : 0 < b.length := List.length_pos_of_mem h1
  have hcm : true ∈ c := by rw [hc]; simp [h1]
  have fen : ∀ n : ℕ, 0 < n → 0 < (fenetreCmp n).card := by
    intro n hn; unfold fenetreCmp
    split
    · rw [Nat.card_Ico]; omega
    · rw [Finset.card_range]; omega
  constructor
  · obtain ⟨r, e1, e2, e3⟩ := cmp_exact b c p h1 (fun k => ech_bits_shift b p q k) (by rw [lc, max_eq_right (by omega)]; exact hb)
    refine ⟨r, e1, e2, e3, ?_⟩
    obtain ⟨-, -, -, hber, hcm, -⟩ := C111_compte b c r e1
    rw [hber, e3, e2, if_neg (by rw [e2] at hcm; omega)]
    simp
  · obtain ⟨r, e1, e2, e3⟩ := cmp_exact c b (-p) hcm (fun k => by rw [ech_bits_shift]; congr 1; ring) (by rw [lc, max_eq_left (by omega)]; exact hb)
    refine ⟨r, e1, e2, e3, ?_⟩
    obtain ⟨-, -, -, hber, hcm, -⟩ := C111_compte c b r e1
    rw [hber, e3, e2, if_neg (by rw [e2] at hcm; omega)]
    simp

/-- Non-vacuity: the example of the documentation. -/
example : ∃ r, cmpBits [false, true, false, false, false, true] [true, false, false, false, true] = some r ∧ r.decalage = -1 ∧ r.nerr = 0 ∧ r.ber = some 0 := by
  have h : 2 ^ Nat.clog 2 6 = 8 := by
    have h1 : Nat.clog 2 6 ≤ 3 := by rw [Nat.clog_le_iff_le_pow (by norm_num)]; norm_num
    have h2 : 2 < Nat.clog 2 6 := by rw [Nat.lt_clog_iff_pow_lt (by norm_num)]; norm_num
    rw [show Nat.clog 2 6 = 3 by omega]; norm_num
  have := (C111_exact [true, false, false, false, true] 1 0 (by simp) (by simp [h])).2
  simpa using this

/-! ### Best shift -/

theorem ech_impulsion (n : ℕ) (k : ℤ) : ech (bitsC (true :: List.replicate n false)) k = if k = 0 then 1 else 0 := by
  unfold ech bitsC
  rcases lt_or_ge k 0 with h | h
  · rw [if_neg (by omega), if_neg (by omega)]
  · rw [if_pos h]
    obtain ⟨j, rfl⟩ := Int.eq_ofNat_of_zero_le h
    rw [Int.toNat_natCast]
    cases j with
    | zero => simp
    | succ j =>
      rw [if_neg (by omega)]
      simp [List.getD_eq_getElem?_getD, List.getElem?_replicate]
      split <;> simp

theorem inter_impulsion (n N : ℕ) (hN : 0 < N) (y : ℤ → ℂ) (τ : ℤ) : inter N (ech (bitsC (true :: List.replicate n false))) y τ = star (y τ) := by
  unfold inter
  rw [Finset.sum_eq_single (0 : ℤ)]
  · rw [ech_impulsion, if_pos rfl, one_mul, zero_add]
  · intro k _ hk; rw [ech_impulsion, if_neg hk, zero_mul]
  · intro h; exact absurd (Finset.mem_Ico.2 ⟨le_refl _, by omega⟩) h

/-- The bits 1 1 1 0 0 0. -/
theorem ech_marche (τ : ℤ) : ech (bitsC [true, true, true, false, false, false]) τ = if 0 ≤ τ ∧ τ < 3 then 1 else 0 := by
  unfold ech bitsC
  rcases lt_or_ge τ 0 with h | h
  · rw [if_neg (by omega), if_neg (by omega)]
  · rw [if_pos h]
    obtain ⟨j, rfl⟩ := Int.eq_ofNat_of_zero_le h
    rw [Int.toNat_natCast]
    rcases j with _ | _ | _ | _ | _ | _ | j
    · simp
    · simp
    · simp
    · simp
    · simp
    · simp
    · rw [if_neg (by omega)]; simp

/-- **C111 refuted (smallest number of errors).**  The shift is not the one with the fewest errors: comparing 1000 with 111000 finds
the shift 1 and one error, whereas the first stream is found without error two bits later in the second one. -/
theorem C111_minimum_refute : ∃ r, cmpBits [true, false, false, false] [true, true, true, false, false, false] = some r ∧ r.decalage = 1 ∧ r.nerr = 1 ∧
    differences [true, false, false, false] [true, true, true, false, false, false] 2 4 = 0 := by
  have hlog : 2 ^ Nat.clog 2 6 = 8 := by
    have h1 : Nat.clog 2 6 ≤ 3 := by rw [Nat.clog_le_iff_le_pow (by norm_num)]; norm_num
    have h2 : 2 < Nat.clog 2 6 := by rw [Nat.lt_clog_iff_pow_lt (by norm_num)]; norm_num
    rw [show Nat.clog 2 6 = 3 by omega]; norm_num
  set x := bitsC [true, false, false, false] with hx
  set y := bitsC [true, true, true, false, false, false] with hy
  have lx : x.length = 4 := by simp [hx, bitsC]
  have ly : y.length = 6 := by simp [hy, bitsC]
  have hpad : padZeros x y true = some (x ++ List.replicate 4 0, y ++ List.replicate 2 0) := by
    unfold padZeros
    simp [lx, ly, hlog]
  obtain ⟨cn, lcn, hg, h1, -⟩ := estim_forme (x ++ List.replicate 4 0) (y ++ List.replicate 2 0) 8 (by simp [lx, ly]) (by norm_num) (by norm_num)
  have ex : ech (x ++ List.replicate 4 0) = ech x := by ext k; exact ech_pad x _ k
  have ey : ech (y ++ List.replicate 2 0) = ech y := by ext k; exact ech_pad y _ k
  rw [ex, ey] at hg
  have hD : 0 < Real.sqrt (energie 8 (ech x)) * Real.sqrt (energie 8 (ech y)) + ((8 : ℕ) : ℝ) / 10 ^ 50 := by positivity
  generalize Real.sqrt (energie 8 (ech x)) * Real.sqrt (energie 8 (ech y)) + ((8 : ℕ) : ℝ) / 10 ^ 50 = D at hg hD
  have hv : ∀ i, i < 15 → cn.getD i 0 = if 7 ≤ i ∧ i < 10 then 1 / D else 0 := by
    intro i hi
    rw [hg i (by omega), show x = bitsC (true :: List.replicate 3 false) by simp [hx, List.replicate], inter_impulsion 3 8 (by norm_num), hy, ech_marche]
    by_cases hc : 7 ≤ i ∧ i < 10
    · rw [if_pos (by omega), if_pos hc, star_one, norm_one]
    · rw [if_neg (by omega), if_neg hc, star_zero, norm_zero, zero_div]
  have hpos : 0 < 1 / D := by positivity
  have hi : indexMax cn = 7 := by
    have hsp := indexMax_spec cn (by omega)
    rw [lcn] at hsp
    rcases lt_trichotomy (indexMax cn) 7 with h | h | h
    · have := indexMax_max cn 7 (by omega)
      rw [hv 7 (by omega), hv _ (by omega), if_pos (by omega), if_neg (by omega)] at this
      linarith
    · exact h
    · have := indexMax_premier cn 7 h
      rw [hv 7 (by omega), hv _ (by omega), if_pos (by omega)] at this
      split at this <;> linarith
  have hq : qintLoc (cn.getD (indexMax cn - 1) 0) (cn.getD (indexMax cn) 0) (cn.getD (indexMax cn + 1) 0) = some (1 / 2) := by
    rw [hi, hv 7 (by omega), hv (7 - 1) (by omega), hv (7 + 1) (by omega), if_neg (by omega), if_pos (by omega), if_pos (by omega)]
    unfold qintLoc
    rw [if_neg (by intro h; linarith), Option.some.injEq]
    field_simp
    ring
  have he := h1 (by rw [hi, lcn]; omega) _ hq (by rw [abs_of_nonneg] <;> norm_num)
  have ha : arrondi ((indexMax cn : ℝ) - (((8 : ℕ) : ℝ) - 1) + 1 / 2) = 1 := by
    rw [hi]; norm_num [arrondi]
  obtain ⟨q, hqd⟩ := decale_some x y 1 (by omega) (by omega)
  have hal : aligneEntier x y = some ((Fourier.tronque q).1, (Fourier.tronque q).2, 1, cn.getD (indexMax cn) 0) := by
    unfold aligneEntier
    simp only [hpad, he, Option.bind_some, ha, hqd, Option.map_some]
  have hr : ∃ r, cmpBits [true, false, false, false] [true, true, true, false, false, false] = some r ∧ r.decalage = 1 := by
    unfold cmpBits
    rw [← hx, ← hy, hal]
    exact ⟨_, rfl, rfl⟩
  obtain ⟨r, e1, e2⟩ := hr
  refine ⟨r, e1, e2, ?_, by decide⟩
  rw [(C111_compte _ _ r e1).2.2.1, e2]
  decide

/-! ### M-PSK phase ambiguity -/

theorem boucle_psk (bs0 bs1 : List Bool) (k : ℕ) (ls : List ℕ) (b : CmpBitsRes) (res : Option CmpBitsRes) (h : boucleCmpPsk bs0 bs1 k ls (some b) = some res) :
    ∃ r : CmpBitsRes, res = some r ∧ ((r = b ∧ ∀ l ∈ ls, ∃ bs r', tournePsk bs1 k l = some bs ∧ cmpBits bs0 bs = some r' ∧ b.nerr ≤ r'.nerr) ∨
      ∃ (i l : ℕ) (bs : List Bool) (r0 : CmpBitsRes), ls[i]? = some l ∧ tournePsk bs1 k l = some bs ∧ cmpBits bs0 bs = some r0 ∧ r = { r0 with decPhase := l } ∧ r0.nerr < b.nerr ∧
        (∀ (j l' : ℕ), ls[j]? = some l' → ∃ (bs' : List Bool) (r' : CmpBitsRes), tournePsk bs1 k l' = some bs' ∧ cmpBits bs0 bs' = some r' ∧ r0.nerr ≤ r'.nerr ∧ (j < i → r0.nerr < r'.nerr))) := by
  induction ls generalizing b with
  | nil =>
    simp only [boucleCmpPsk, Option.some.injEq] at h
    exact ⟨b, h.symm, .inl ⟨rfl, by simp⟩⟩
  | cons l ls ih =>
    simp only [boucleCmpPsk, Option.bind_eq_some_iff] at h
    obtain ⟨bs, e1, r1, e2, h⟩ := h
    split at h
    · rename_i hlt
      obtain ⟨r, hr, h'⟩ := ih _ h
      refine ⟨r, hr, .inr ?_⟩
      rcases h' with ⟨rfl, h'⟩ | ⟨i, l', bs', r0, f1, f2, f3, f4, f5, f6⟩
      · refine ⟨0, l, bs, r1, rfl, e1, e2, rfl, hlt, fun j l' hj => ?_⟩
        cases j with
        | zero =>
          rw [List.getElem?_cons_zero, Option.some.injEq] at hj
          subst hj
          exact ⟨bs, r1, e1, e2, le_rfl, by omega⟩
        | succ j =>
          rw [List.getElem?_cons_succ] at hj
          obtain ⟨bs', r', g1, g2, g3⟩ := h' l' (List.mem_of_getElem? hj)
          exact ⟨bs', r', g1, g2, g3, by omega⟩
      · refine ⟨i + 1, l', bs', r0, by rw [List.getElem?_cons_succ]; exact f1, f2, f3, f4, lt_trans f5 hlt, fun j l'' hj => ?_⟩
        cases j with
        | zero =>
          rw [List.getElem?_cons_zero, Option.some.injEq] at hj
          subst hj
          exact ⟨bs, r1, e1, e2, le_of_lt f5, fun _ => f5⟩
        | succ j =>
          rw [List.getElem?_cons_succ] at hj
          obtain ⟨bs'', r'', g1, g2, g3, g4⟩ := f6 j l'' hj
          exact ⟨bs'', r'', g1, g2, g3, fun hji => g4 (by omega)⟩
    · rename_i hge
      obtain ⟨r, hr, h'⟩ := ih _ h
      refine ⟨r, hr, ?_⟩
      rcases h' with ⟨rfl, h'⟩ | ⟨i, l', bs', r0, f1, f2, f3, f4, f5, f6⟩
      · left
        refine ⟨rfl, fun l' hl => ?_⟩
        rcases List.mem_cons.1 hl with rfl | hl
        · exact ⟨bs, r1, e1, e2, by omega⟩
        · exact h' l' hl
      · right
        refine ⟨i + 1, l', bs', r0, by rw [List.getElem?_cons_succ]; exact f1, f2, f3, f4, f5, fun j l'' hj => ?_⟩
        cases j with
        | zero =>
          rw [List.getElem?_cons_zero, Option.some.injEq] at hj
          subst hj
          exact ⟨bs, r1, e1, e2, by omega, by omega⟩
        | succ j =>
          rw [List.getElem?_cons_succ] at hj
          obtain ⟨bs'', r'', g1, g2, g3, g4⟩ := f6 j l'' hj
          exact ⟨bs'', r'', g1, g2, g3, fun hji => g4 (by omega)⟩

/-- **C111 (phase ambiguity).**  When the comparison with phase ambiguity succeeds, its result is the comparison of the first stream with the
second one rotated by the reported phase `p`; no rotation gives fewer errors, and `p` is the first rotation with that number of errors. -/
theorem C111_psk (bs0 bs1 : List Bool) (k : ℕ) (r : CmpBitsRes) (h : cmpBitsPsk bs0 bs1 k = some r) :
    ∃ bs r0, r.decPhase < 2 ^ k ∧ tournePsk bs1 k r.decPhase = some bs ∧ cmpBits bs0 bs = some r0 ∧ r = { r0 with decPhase := r.decPhase } ∧
      ∀ l, l < 2 ^ k → ∃ bs' r', tournePsk bs1 k l = some bs' ∧ cmpBits bs0 bs' = some r' ∧ r.nerr ≤ r'.nerr ∧ (l < r.decPhase → r.nerr < r'.nerr) := by
  unfold cmpBitsPsk at h
  obtain ⟨res, e, hres⟩ := Option.bind_eq_some_iff.1 h
  have hr : List.range (2 ^ k) = 0 :: (List.range (2 ^ k - 1)).map (· + 1) := by
    have : 2 ^ k = (2 ^ k - 1) + 1 := by have := Nat.two_pow_pos k; omega
    conv_lhs => rw [this, List.range_succ_eq_map]
  have hidx : ∀ l, l < 2 ^ k → 0 < l → ((List.range (2 ^ k - 1)).map (· + 1))[l - 1]? = some l := by
    intro l hl h0
    rw [List.getElem?_map, List.getElem?_range (by omega), Option.map_some]; congr 1; omega
  rw [hr] at e
  simp only [boucleCmpPsk, Option.bind_eq_some_iff] at e
  obtain ⟨bs, e1, r1, e2, e⟩ := e
  obtain ⟨r', hr', h'⟩ := boucle_psk _ _ _ _ _ _ e
  obtain rfl : r' = r := by rw [hr'] at hres; simpa using hres
  rcases h' with ⟨rfl, h'⟩ | ⟨i, l, bs', r0, f1, f2, f3, f4, f5, f6⟩
  · refine ⟨bs, r1, Nat.two_pow_pos k, e1, e2, rfl, fun l hl => ?_⟩
    rcases Nat.eq_zero_or_pos l with rfl | h0
    · exact ⟨bs, r1, e1, e2, le_rfl, fun h => absurd h (lt_irrefl _)⟩
    · obtain ⟨bs', r', g1, g2, g3⟩ := h' l (List.mem_of_getElem? (hidx l hl h0))
      exact ⟨bs', r', g1, g2, g3, fun h => absurd h (Nat.not_lt_zero _)⟩
  · have hl : i < 2 ^ k - 1 ∧ l = i + 1 := by
      rw [List.getElem?_map] at f1
      rcases Nat.lt_or_ge i (2 ^ k - 1) with hi | hi
      · rw [List.getElem?_range hi, Option.map_some, Option.some.injEq] at f1
        exact ⟨hi, f1.symm⟩
      · rw [List.getElem?_eq_none (by simpa using hi)] at f1; simp at f1
    subst f4
    refine ⟨bs', r0, by show l < 2 ^ k; omega, f2, f3, rfl, fun l' hl' => ?_⟩
    rcases Nat.eq_zero_or_pos l' with rfl | h0
    · exact ⟨bs, r1, e1, e2, le_of_lt f5, fun _ => f5⟩
    · obtain ⟨bs'', r'', g1, g2, g3, g4⟩ := f6 (l' - 1) l' (hidx l' hl' h0)
      refine ⟨bs'', r'', g1, g2, g3, fun h => g4 ?_⟩
      have : l' < l := h
      omega

theorem boucle_psk_some (bs0 bs1 : List Bool) (k : ℕ) (ls : List ℕ) (b : CmpBitsRes) (h : ∀ l ∈ ls, ∃ bs r, tournePsk bs1 k l = some bs ∧ cmpBits bs0 bs = some r) :
    ∃ r, boucleCmpPsk bs0 bs1 k ls (some b) = some (some r) := by
  induction ls generalizing b with
  | nil => exact ⟨b, rfl⟩
  | cons l ls ih =>
    obtain ⟨bs, r, e1, e2⟩ := h l (by simp)
    simp only [boucleCmpPsk, e1, e2, Option.bind_some]
    split
    · exact ih _ fun l' hl' => h l' (by simp [hl'])
    · exact ih _ fun l' hl' => h l' (by simp [hl'])

theorem cmp_psk_some (bs0 bs1 : List Bool) (k : ℕ) (h : ∀ l, l < 2 ^ k → ∃ bs r, tournePsk bs1 k l = some bs ∧ cmpBits bs0 bs = some r) : ∃ r, cmpBitsPsk bs0 bs1 k = some r := by
  unfold cmpBitsPsk
  have hr : List.range (2 ^ k) = 0 :: (List.range (2 ^ k - 1)).map (· + 1) := by
    have : 2 ^ k = (2 ^ k - 1) + 1 := by have := Nat.two_pow_pos k; omega
    conv_lhs => rw [this, List.range_succ_eq_map]
  rw [hr]
  obtain ⟨bs, r, e1, e2⟩ := h 0 (Nat.two_pow_pos k)
  simp only [boucleCmpPsk, e1, e2, Option.bind_some]
  obtain ⟨r', e'⟩ := boucle_psk_some bs0 bs1 k ((List.range (2 ^ k - 1)).map (· + 1)) { r with decPhase := 0 } (by
    intro l hl
    obtain ⟨i, hi, rfl⟩ := List.mem_map.1 hl
    exact h _ (by rw [List.mem_range] at hi; omega))
  rw [e']
  exact ⟨r', rfl⟩

theorem symdemap_long (s : List ℕ) (k : ℕ) : (symdemap s k).length = s.length * k := by
  induction s with
  | nil => simp [symdemap]
  | cons v s ih =>
    unfold symdemap at ih ⊢
    rw [List.flatMap_cons, List.length_append, ih, List.length_map, List.length_range, List.length_cons]; ring

theorem tournePsk_longueur (bs : List Bool) (k l : ℕ) (hk : 0 < k) (c : List Bool) (h : tournePsk bs k l = some c) : c.length = (bs.length + k - 1) / k * k := by
  unfold tournePsk at h
  obtain ⟨s, e, -, hl, -⟩ := C07_aller_retour bs k hk
  rw [e, Option.map_some, Option.some.injEq] at h
  rw [← h, symdemap_long, List.length_map, hl]

/-- A sequence of symbols with two different values contains a one after every rotation. -/
theorem tourne_un (s : List ℕ) (k l : ℕ) (hs : ∀ v ∈ s, v < 2 ^ k) (h : ∃ u ∈ s, ∃ v ∈ s, u ≠ v) : true ∈ symdemap (s.map fun v : ℕ => (v + l) % 2 ^ k) k := by
  obtain ⟨u, hu, v, hv, huv⟩ := h
  have hp := Nat.two_pow_pos k
  have : ∃ w ∈ s, (w + l) % 2 ^ k ≠ 0 := by
    by_contra hc
    push Not at hc
    have h1 := hc u hu
    have h2 := hc v hv
    have h3 : (u + l) % 2 ^ k = (v + l) % 2 ^ k := by rw [h1, h2]
    have h4 : u % 2 ^ k = v % 2 ^ k := Nat.ModEq.add_right_cancel' l h3
    rw [Nat.mod_eq_of_lt (hs u hu), Nat.mod_eq_of_lt (hs v hv)] at h4
    exact huv h4
  obtain ⟨w, hw, h0⟩ := this
  have hlt := Nat.mod_lt (w + l) hp
  have hbit : ∃ j, j < k ∧ Nat.testBit ((w + l) % 2 ^ k) j = true := by
    by_contra hc
    push Not at hc
    apply h0
    apply Nat.eq_of_testBit_eq
    intro j
    rw [Nat.zero_testBit]
    rcases Nat.lt_or_ge j k with hj | hj
    · simpa using hc j hj
    · exact Nat.testBit_lt_two_pow (lt_of_lt_of_le hlt (Nat.pow_le_pow_right (by norm_num) hj))
  obtain ⟨j, hj, hb⟩ := hbit
  unfold symdemap
  rw [List.mem_flatMap]
  refine ⟨(w + l) % 2 ^ k, List.mem_map.2 ⟨w, hw, rfl⟩, List.mem_map.2 ⟨j, List.mem_range.2 hj, ?_⟩⟩
  rw [Nat.testBit] at hb
  rw [Nat.and_comm]
  exact hb

/-- **C111 (phase ambiguity removed).**  Let the symbols of the received stream be those of the emitted one rotated by any constant phase; if at least two
different symbols are emitted, the comparison succeeds without error. -/
theorem C111_psk_exact (s : List ℕ) (k m : ℕ) (hk : 0 < k) (hs : ∀ v ∈ s, v < 2 ^ k) (h2 : ∃ u ∈ s, ∃ v ∈ s, u ≠ v) (hb : 3 * 2 ^ Nat.clog 2 (s.length * k) ≤ 2 ^ 29) :
    ∃ r, cmpBitsPsk (symdemap s k) (symdemap (s.map fun v : ℕ => (v + m) % 2 ^ k) k) k = some r ∧ r.nerr = 0 := by
  have hp := Nat.two_pow_pos k
  set t := s.map fun v : ℕ => (v + m) % 2 ^ k with ht
  have htb : ∀ v ∈ t, v < 2 ^ k := by
    intro v hv; obtain ⟨u, -, rfl⟩ := List.mem_map.1 hv; exact Nat.mod_lt _ hp
  have htour : ∀ l, tournePsk (symdemap t k) k l = some (symdemap (s.map fun v : ℕ => (v + (m + l)) % 2 ^ k) k) := by
    intro l
    unfold tournePsk
    rw [C07_retour_aller t k hk htb, Option.map_some, ht, List.map_map]
    congr 2
    apply List.map_congr_left
    intro v _
    simp [Nat.add_assoc]
  have h1 : true ∈ symdemap s k := by
    have := tourne_un s k 0 hs h2
    rwa [show (s.map fun v : ℕ => (v + 0) % 2 ^ k) = s by
      conv_rhs => rw [← List.map_id s]
      apply List.map_congr_left
      intro v hv
      rw [Nat.add_zero, Nat.mod_eq_of_lt (hs v hv)]; rfl] at this
  have hlen : ∀ l, (symdemap (s.map fun v : ℕ => (v + l) % 2 ^ k) k).length = s.length * k := by intro l; rw [symdemap_long, List.length_map]
  obtain ⟨r, hr⟩ := cmp_psk_some (symdemap s k) (symdemap t k) k (fun l _ => by
    obtain ⟨r, e⟩ := C111_succes (symdemap s k) _ h1 (tourne_un s k (m + l) hs h2) (by rw [hlen, symdemap_long, max_self]; exact hb)
    exact ⟨_, r, htour l, e⟩)
  refine ⟨r, hr, ?_⟩
  obtain ⟨-, -, -, -, -, -, hmin⟩ := C111_psk _ _ _ _ hr
  obtain ⟨bs', r', g1, g2, g3, -⟩ := hmin ((2 ^ k - m % 2 ^ k) % 2 ^ k) (Nat.mod_lt _ hp)
  rw [htour, Option.some.injEq] at g1
  have e0 : (s.map fun v : ℕ => (v + (m + (2 ^ k - m % 2 ^ k) % 2 ^ k)) % 2 ^ k) = s := by
    conv_rhs => rw [← List.map_id s]
    apply List.map_congr_left
    intro v hv
    have hv' := hs v hv
    have : (m + (2 ^ k - m % 2 ^ k) % 2 ^ k) % 2 ^ k = 0 := by
      have hm := Nat.mod_lt m hp
      rw [Nat.add_mod_mod, ← Nat.mod_add_mod, Nat.add_sub_cancel' hm.le, Nat.mod_self]
    rw [Nat.add_mod, this, Nat.add_zero, Nat.mod_mod, Nat.mod_eq_of_lt hv']; rfl
  rw [e0] at g1
  obtain ⟨⟨r0, q1, -, q2, -⟩, -⟩ := C111_exact (symdemap s k) 0 0 h1 (by rw [symdemap_long]; simpa using hb)
  rw [← g1] at g2
  simp only [List.replicate_zero, List.nil_append, List.append_nil] at q1
  rw [q1, Option.some.injEq] at g2
  rw [← g2] at g3
  omega

/-- Non-vacuity: QPSK symbols rotated by a quarter turn. -/
example : ∃ r, cmpBitsPsk [true, false, true, true, false, true] [false, true, false, false, true, true] 2 = some r ∧ r.nerr = 0 := by
  have h : 2 ^ Nat.clog 2 6 = 8 := by
    have h1 : Nat.clog 2 6 ≤ 3 := by rw [Nat.clog_le_iff_le_pow (by norm_num)]; norm_num
    have h2 : 2 < Nat.clog 2 6 := by rw [Nat.lt_clog_iff_pow_lt (by norm_num)]; norm_num
    rw [show Nat.clog 2 6 = 3 by omega]; norm_num
  exact C111_psk_exact [1, 3, 2] 2 1 (by norm_num) (by decide) ⟨1, by simp, 3, by simp, by norm_num⟩ (by norm_num [h])

/-- **C111 refuted (constant symbols).**  When a single symbol is received, one of the rotations is a stream of zeros, and the whole comparison
fails (unless the first stream is almost a power of two long), even when both streams are identical. -/
theorem C111_constant_refute (bs0 : List Bool) (k s m : ℕ) (hk : 0 < k) (hs : s < 2 ^ k) (hm : 0 < m) (hl : bs0.length ≤ m * k) (hn : bs0.length + 1 < 2 ^ Nat.clog 2 (m * k))
    (hb : 3 * 2 ^ Nat.clog 2 (m * k) ≤ 2 ^ 29) : cmpBitsPsk bs0 (symdemap (List.replicate m s) k) k = none := by
  by_contra hc
  obtain ⟨r, hr⟩ := Option.ne_none_iff_exists'.1 hc
  have hp := Nat.two_pow_pos k
  obtain ⟨-, -, -, -, -, -, hmin⟩ := C111_psk _ _ _ _ hr
  obtain ⟨bs', r', g1, g2, -⟩ := hmin ((2 ^ k - s) % 2 ^ k) (Nat.mod_lt _ hp)
  unfold tournePsk at g1
  rw [C07_retour_aller _ k hk (by intro v hv; rw [List.eq_of_mem_replicate hv]; exact hs), Option.map_some, Option.some.injEq, List.map_replicate, Nat.add_mod_mod,
    Nat.add_sub_cancel' hs.le, Nat.mod_self] at g1
  have hlen : bs'.length = m * k := by rw [← g1, symdemap_long, List.length_replicate]
  have hz : true ∉ bs' := by
    rw [← g1]
    unfold symdemap
    rw [List.mem_flatMap]
    rintro ⟨v, hv, h⟩
    rw [List.eq_of_mem_replicate hv] at h
    simp at h
  have hmk : 0 < m * k := Nat.mul_pos hm hk
  have := (C111_zeros_refute bs0 bs' (.inr hz) (by rw [hlen]; omega) (by rw [hlen, max_eq_right hl]; exact hb)).1 (by rw [g2]; rfl)
  rw [hlen, max_eq_right hl] at this
  omega

/-- Witness: five BPSK ones compared with themselves. -/
example : cmpBitsPsk (List.replicate 5 true) (List.replicate 5 true) 1 = none :=
  C111_constant_refute (List.replicate 5 true) 1 1 5 (by norm_num) (by norm_num) (by norm_num) (by simp) (by simp [clog5]) (by norm_num [clog5])

end Verif.Telecom
