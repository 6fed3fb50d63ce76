import Verif.Reechan.Props
import Verif.Util.Props

/-! # Property C24 (interpolator) and C25 (polyphase form) -/

namespace Verif.Reechan
open Verif.Filtre

/-! ## Interpolator -/

/-- Output `i` of the interpolator for an input history. -/
def outU {T C : Type} (zero : T) (add : T → T → T) (mul : T → C → T) (zeroC : C) (d : List C) (R i : Nat) (h : List T) : T :=
  accu add mul (fun t => (derniers zero (d.length / R) h).getD t zero) (fun t => d.getD ((R - 1 - i) + t * R) zeroC) (d.length / R) zero

/-- State of the interpolator after input history `h`; `d` = the completed coefficients. -/
def RifUps.Rep {T C : Type} (zero : T) (d : List C) (R : Nat) (s : RifUps T C) (h : List T) : Prop :=
  s.K = d.length ∧ s.coefs = d ∧ s.R = R ∧ s.fen.length = d.length / R ∧ s.index < d.length / R ∧
  tourne s.fen s.index = derniers zero (d.length / R) h

theorem RifUps.rep_ech {T C : Type} (zero : T) (add : T → T → T) (mul : T → C → T) (zeroC : C) (d : List C) (R : Nat) (hR : 0 < R)
    (hd : d.length % R = 0) (s : RifUps T C) (h : List T) (x : T) (hr : RifUps.Rep zero d R s h) :
    ∃ s', RifUps.ech zero add mul s x = some (s', (List.range R).map (fun i => outU zero add mul zeroC d R i (h ++ [x]))) ∧
      RifUps.Rep zero d R s' (h ++ [x]) := by
  obtain ⟨hK, hc, hRR, hf, hi, ht⟩ := hr
  have hL : 0 < d.length / R := by omega
  have hmul : d.length / R * R = d.length := Nat.div_mul_cancel (Nat.dvd_of_mod_eq_zero hd)
  have htour : tourne (s.fen.set s.index x) ((s.index + 1) % (d.length / R)) = derniers zero (d.length / R) (h ++ [x]) := by
    conv_lhs => rw [← hf]
    rw [tourne_set _ _ _ (by omega), ht, ← derniers_snoc _ _ _ _ hL]
  have hlt : (s.index + 1) % (d.length / R) < d.length / R := Nat.mod_lt _ hL
  have hbr : ∀ i, i < R → RifUps.branche zero add mul (s.fen.set s.index x) d ((s.index + 1) % (d.length / R)) d.length R i =
      some (outU zero add mul zeroC d R i (h ++ [x])) := by
    intro i hiR
    have hk : ∀ t, t < (s.fen.set s.index x).length → d[(R - 1 - i) + t * R]? = some (d.getD ((R - 1 - i) + t * R) zeroC) := by
      intro t ht'
      apply lit_getD
      have ht'' : t < d.length / R := by simpa [hf] using ht'
      have : (t + 1) * R ≤ d.length / R * R := Nat.mul_le_mul_right R ht''
      rw [Nat.add_mul] at this
      omega
    obtain ⟨s1, ci, r, e1, e2, e3⟩ := macPas_deux zero add mul R (R - 1 - i) (s.fen.set s.index x) d _
      ((s.index + 1) % (d.length / R)) (by simp only [List.length_set, hf]; omega) hk
    simp only [List.length_set, hf, htour] at e1 e2 e3
    unfold RifUps.branche
    simp only [e1, e2, e3, outU]
  refine ⟨⟨s.fen.set s.index x, d, (s.index + 1) % (d.length / R), d.length, R⟩, ?_, rfl, rfl, rfl, by simp [hf], hlt, htour⟩
  unfold RifUps.ech
  rw [hK, hRR, hc, if_neg (by omega), if_pos (by omega)]
  have hm : (List.range R).mapM (fun i => RifUps.branche zero add mul (s.fen.set s.index x) d ((s.index + 1) % (d.length / R)) d.length R i) =
      some ((List.range R).map (fun i => outU zero add mul zeroC d R i (h ++ [x]))) := by
    refine (Util.mapM_range _ _ _).2 ⟨by simp, fun k hk => ?_⟩
    rw [hbr k hk, List.getElem?_map, List.getElem?_range hk]
    rfl
  simp only [hm]

/-- The completed coefficients. -/
def coefsUps {C : Type} (zeroC : C) (fois : C → C) (c : List C) (R : Nat) : List C :=
  c.map fois ++ List.replicate (complement c.length R) zeroC

theorem complement_eq (n R : Nat) (hR : 0 < R) : complement n R = if n % R ≠ 0 then R - n % R else 0 := by
  have := Nat.mod_lt n hR
  unfold complement
  split
  · rw [Nat.mod_eq_of_lt (by omega)]
  · rename_i h; rw [not_not.1 h, Nat.sub_zero, Nat.mod_self]

theorem complement_mod (n R : Nat) (hR : 0 < R) : (n + complement n R) % R = 0 := by
  have := Nat.mod_lt n hR
  rw [complement_eq n R hR]
  split
  · rw [← Nat.mod_add_mod, show n % R + (R - n % R) = R by omega, Nat.mod_self]
  · rename_i h; simpa using h

theorem RifUps.init_eq {T C : Type} (zero : T) (zeroC : C) (fois : C → C) (c : List C) (R : Nat) (hR : 0 < R) :
    RifUps.init zero zeroC fois c R = some ⟨List.replicate ((coefsUps zeroC fois c R).length / R) zero, coefsUps zeroC fois c R, 0,
      (coefsUps zeroC fois c R).length, R⟩ := by
  have hm := complement_mod c.length R hR
  have e : (if (c.map fois).length % R ≠ 0 then c.map fois ++ List.replicate (R - (c.map fois).length % R) zeroC else c.map fois)
      = coefsUps zeroC fois c R := by
    unfold coefsUps
    rw [complement_eq _ _ hR, List.length_map]
    split <;> simp
  unfold RifUps.init
  rw [if_neg (by omega)]
  simp only [e]
  rw [if_pos (by simpa [coefsUps] using hm)]

theorem ups_valeur {T C : Type} (zero : T) (add : T → T → T) (mul : T → C → T) (zeroC : C) (fois : C → C) (c : List C)
    (hc : 0 < c.length) (R : Nat) (hR : 0 < R) :
    ∃ s0, RifUps.init zero zeroC fois c R = some s0 ∧ ∀ blocs : List (List T), ∃ s,
      enchaine (RifUps.step zero add mul) s0 blocs =
        some (s, sorties (fun h => (List.range R).map (fun i => outU zero add mul zeroC (coefsUps zeroC fois c R) R i h)) [] blocs.flatten) := by
  have hm : (coefsUps zeroC fois c R).length % R = 0 := by
    simpa [coefsUps] using complement_mod c.length R hR
  have hpos : 0 < (coefsUps zeroC fois c R).length / R := by
    apply Nat.div_pos _ hR
    apply Nat.le_of_dvd _ (Nat.dvd_of_mod_eq_zero hm)
    simp [coefsUps]; omega
  refine ⟨_, RifUps.init_eq zero zeroC fois c R hR, fun blocs => ?_⟩
  generalize hd : coefsUps zeroC fois c R = d at hm hpos
  obtain ⟨s, e, _⟩ := enchaine_hist (RifUps.step zero add mul) (RifUps.Rep zero d R)
    (fun h => (List.range R).map (fun i => outU zero add mul zeroC d R i h))
    (fun s h x hr => by
      obtain ⟨s', e, r⟩ := boucleL_hist _ (RifUps.Rep zero d R) (fun h => (List.range R).map (fun i => outU zero add mul zeroC d R i h))
        (fun s h x hr => RifUps.rep_ech zero add mul zeroC d R hR hm s h x hr) x s h hr
      refine ⟨s', ?_, r⟩
      unfold RifUps.step
      rw [if_neg, e]
      rw [hr.1]
      intro h0
      rw [h0] at hpos
      simp at hpos)
    blocs ⟨List.replicate (d.length / R) zero, d, 0, d.length, R⟩ []
    ⟨rfl, rfl, rfl, by simp, hpos, by simp [tourne, derniers]⟩
  exact ⟨s, e⟩

/-- **C24 (interpolator, cutting).** The output does not depend on how the stream is cut into blocks (no algebra: also for floats), and has
R samples per input sample. -/
theorem C24_ups_blocs {T C : Type} (zero : T) (add : T → T → T) (mul : T → C → T) (zeroC : C) (fois : C → C) (c : List C)
    (hc : 0 < c.length) (R : Nat) (hR : 0 < R) (blocs : List (List T)) :
    ∃ s0 s s' y, RifUps.init zero zeroC fois c R = some s0 ∧ enchaine (RifUps.step zero add mul) s0 blocs = some (s, y) ∧
      RifUps.step zero add mul s0 blocs.flatten = some (s', y) ∧ y.length = blocs.flatten.length * R := by
  obtain ⟨s0, e0, h⟩ := ups_valeur zero add mul zeroC fois c hc R hR
  obtain ⟨s, e⟩ := h blocs
  obtain ⟨s', e'⟩ := h [blocs.flatten]
  simp only [List.flatten_cons, List.flatten_nil, List.append_nil, enchaine] at e'
  refine ⟨s0, s, ?_⟩
  cases h : RifUps.step zero add mul s0 blocs.flatten with
  | none => rw [h] at e'; simp at e'
  | some p =>
    rw [h] at e'
    simp only [Option.some.injEq, Prod.mk.injEq] at e'
    exact ⟨p.1, _, e0, e, by rw [← e'.2], (sorties_fois R _ _).1⟩

/-! Reindexing of the convolution with a zero-stuffed signal. -/

theorem somme_blocs {A : Type} [AddCommMonoid A] (R : Nat) (f : Nat → A) : ∀ L,
    ∑ k ∈ Finset.range (L * R), f k = ∑ u ∈ Finset.range L, ∑ r ∈ Finset.range R, f (u * R + r) := by
  intro L
  induction L with
  | zero => simp
  | succ L ih => rw [Nat.add_mul, Nat.one_mul, Finset.sum_range_add, ih, Finset.sum_range_succ]

theorem insereZeros_getD {A : Type} [Zero A] (R : Nat) (x : List A) (hR : 0 < R) (k : Nat) :
    (insereZeros R x).getD k 0 = if k % R = 0 then x.getD (k / R) 0 else 0 := by
  unfold insereZeros
  by_cases hk : k < x.length * R
  · rw [List.getD_eq_getElem?_getD, List.getElem?_map, List.getElem?_range hk]; rfl
  · rw [List.getD_eq_getElem?_getD, List.getElem?_eq_none (by simpa using hk)]
    split
    · rw [List.getD_eq_getElem?_getD, List.getElem?_eq_none]
      exact (Nat.le_div_iff_mul_le hR).2 (by omega)
    · rfl

theorem passe_insere {A : Type} [Zero A] (R : Nat) (hR : 0 < R) (x : List A) (m i u r : Nat) (hi : i < R) (hr : r < R) :
    passe (insereZeros R x) (m * R + i) (u * R + r) = if r = i then passe x m u else 0 := by
  unfold passe
  by_cases he : r = i
  · subst he
    rw [if_pos rfl]
    by_cases hu : u ≤ m
    · rw [if_pos (by have := Nat.mul_le_mul_right R hu; omega), if_pos hu, insereZeros_getD _ _ hR]
      have : m * R + r - (u * R + r) = (m - u) * R := by rw [Nat.add_sub_add_right, Nat.sub_mul]
      rw [this, Nat.mul_mod_left, if_pos rfl, Nat.mul_div_cancel _ hR]
    · rw [if_neg, if_neg hu]
      have : (m + 1) * R ≤ u * R := Nat.mul_le_mul_right R (by omega)
      rw [Nat.add_mul] at this
      omega
  · rw [if_neg he]
    split
    · rename_i hle
      rw [insereZeros_getD _ _ hR, if_neg]
      intro h0
      have h1 : (u * R + r) % R = (m * R + i) % R := by
        obtain ⟨q, hq⟩ := Nat.dvd_of_mod_eq_zero h0
        rw [show m * R + i = u * R + r + R * q by omega, Nat.add_mul_mod_self_left]
      rw [Nat.mul_add_mod_of_lt' u r R hr, Nat.mul_add_mod_of_lt' m i R hi] at h1
      exact he h1
    · rfl
where
  Nat.mul_add_mod_of_lt' (u r R : Nat) (hr : r < R) : (u * R + r) % R = r := by
    rw [Nat.add_comm, Nat.add_mul_mod_self_right, Nat.mod_eq_of_lt hr]

theorem convolution_insere {A : Type} [CommSemiring A] (R : Nat) (hR : 0 < R) (d x : List A) (L : Nat) (hd : d.length = L * R)
    (m i : Nat) (hi : i < R) :
    convolution d (insereZeros R x) (m * R + i) = ∑ u ∈ Finset.range L, d.getD (u * R + i) 0 * passe x m u := by
  unfold convolution
  rw [hd, somme_blocs]
  refine Finset.sum_congr rfl fun u _ => ?_
  rw [Finset.sum_eq_single i]
  · rw [passe_insere R hR x m i u i hi hi, if_pos rfl]
  · intro r hr hne
    rw [passe_insere R hR x m i u r hi (Finset.mem_range.1 hr), if_neg hne, mul_zero]
  · intro h; exact absurd (Finset.mem_range.2 hi) h

/-- **C24 (interpolator, any filter).** Whatever the cutting, the polyphase interpolator equals zero insertion followed by full-rate filtering by
the time-reversed completed coefficients (R c, then zeros up to a multiple of R). -/
theorem C24_ups_miroir {A : Type} [CommSemiring A] (c : List A) (hc : 0 < c.length) (R : Nat) (hR : 0 < R) (blocs : List (List A)) :
    ∃ s0 s y, RifUps.init (0 : A) 0 (fun a => (R : A) * a) c R = some s0 ∧
      enchaine (RifUps.step (0 : A) (· + ·) (· * ·)) s0 blocs = some (s, y) ∧ y.length = blocs.flatten.length * R ∧
      ∀ p, p < y.length → y[p]? =
        some (convolution (c.map ((R : A) * ·) ++ List.replicate (complement c.length R) 0).reverse (insereZeros R blocs.flatten) p) := by
  obtain ⟨s0, e0, h⟩ := ups_valeur (0 : A) (· + ·) (· * ·) 0 (fun a => (R : A) * a) c hc R hR
  obtain ⟨s, e⟩ := h blocs
  obtain ⟨h1, h2⟩ := sorties_fois R (fun i h => outU (0 : A) (· + ·) (· * ·) 0 (coefsUps 0 (fun a => (R : A) * a) c R) R i h) blocs.flatten
  refine ⟨s0, s, _, e0, e, h1, fun p hp => ?_⟩
  rw [h1] at hp
  have hm : p / R < blocs.flatten.length := (Nat.div_lt_iff_lt_mul hR).2 hp
  have hpe : p = p / R * R + p % R := by rw [Nat.mul_comm]; exact (Nat.div_add_mod p R).symm
  have hiR := Nat.mod_lt p hR
  generalize p / R = m at *
  generalize p % R = i at *
  subst hpe
  rw [h2 m i hm hiR]
  change some (outU 0 (· + ·) (· * ·) 0 (coefsUps 0 (fun a => (R : A) * a) c R) R i _) =
    some (convolution (coefsUps 0 (fun a => (R : A) * a) c R).reverse _ _)
  have hmod : (coefsUps (0 : A) (fun a => (R : A) * a) c R).length % R = 0 := by
    simpa [coefsUps] using complement_mod c.length R hR
  generalize coefsUps (0 : A) (fun a => (R : A) * a) c R = d at hmod
  have hL : d.length = d.length / R * R := (Nat.div_mul_cancel (Nat.dvd_of_mod_eq_zero hmod)).symm
  rw [convolution_insere R hR _ _ (d.length / R) (by simpa using hL) m i hiR]
  congr 1
  unfold outU
  rw [accu_somme, zero_add, ← Finset.sum_range_reflect]
  refine Finset.sum_congr rfl fun u hu => ?_
  have hu := Finset.mem_range.1 hu
  have hb : u * R + i < d.length := by
    have := Nat.mul_le_mul_right R (show u + 1 ≤ d.length / R from hu)
    rw [Nat.add_mul] at this
    omega
  rw [derniers_passe _ _ _ _ hm hu, getD_reverse _ _ hb, mul_comm]
  congr 2
  have e1 : (d.length / R - 1 - u) * R + (u * R + R) = d.length := by
    rw [show (d.length / R - 1 - u) * R + (u * R + R) = ((d.length / R - 1 - u) + (u + 1)) * R by ring,
      show d.length / R - 1 - u + (u + 1) = d.length / R by omega, ← hL]
  omega

theorem convolution_retard {A : Type} [CommSemiring A] (q : Nat) (c x : List A) (p : Nat) :
    convolution (List.replicate q 0 ++ c) x p = if p < q then 0 else convolution c x (p - q) := by
  unfold convolution
  rw [List.length_append, List.length_replicate, Finset.sum_range_add]
  have h1 : ∑ k ∈ Finset.range q, (List.replicate q (0 : A) ++ c).getD k 0 * passe x p k = 0 := by
    apply Finset.sum_eq_zero
    intro k hk
    rw [List.getD_eq_getElem?_getD, List.getElem?_append_left (by simpa using hk), List.getElem?_replicate,
      if_pos (Finset.mem_range.1 hk), Option.getD_some, zero_mul]
  rw [h1, zero_add]
  have h2 : ∀ k, (List.replicate q (0 : A) ++ c).getD (q + k) 0 = c.getD k 0 := by
    intro k
    rw [List.getD_eq_getElem?_getD, List.getElem?_append_right (by simp), List.length_replicate, Nat.add_sub_cancel_left,
      ← List.getD_eq_getElem?_getD]
  simp only [h2]
  split
  · rename_i hp
    apply Finset.sum_eq_zero
    intro k _
    rw [passe, if_neg (by omega), mul_zero]
  · rename_i hp
    refine Finset.sum_congr rfl fun k _ => ?_
    congr 1
    unfold passe
    by_cases hk : k ≤ p - q
    · rw [if_pos (by omega), if_pos hk]; congr 1; omega
    · rw [if_neg (by omega), if_neg hk]

/-- **C24 (interpolator), partial:** for a symmetric filter the interpolator equals zero insertion followed by full-rate filtering by `R c`, delayed by the
number of zeros that complete the filter length to a multiple of `R`.  Missing: non-symmetric filters (`C24_ups_refute`). -/
theorem C24_ups_partial {A : Type} [CommSemiring A] (c : List A) (hc : 0 < c.length) (hsym : c.reverse = c) (R : Nat) (hR : 0 < R)
    (blocs : List (List A)) :
    ∃ s0 s y, RifUps.init (0 : A) 0 (fun a => (R : A) * a) c R = some s0 ∧
      enchaine (RifUps.step (0 : A) (· + ·) (· * ·)) s0 blocs = some (s, y) ∧ y.length = blocs.flatten.length * R ∧
      ∀ p, p < y.length → y[p]? = some (if p < complement c.length R then 0 else
        convolution (c.map ((R : A) * ·)) (insereZeros R blocs.flatten) (p - complement c.length R)) := by
  obtain ⟨s0, s, y, h1, h2, h3, h4⟩ := C24_ups_miroir c hc R hR blocs
  refine ⟨s0, s, y, h1, h2, h3, fun p hp => ?_⟩
  rw [h4 p hp, List.reverse_append, List.reverse_replicate, ← List.map_reverse, hsym, convolution_retard]

example : ([1, 2, 1] : List Int).reverse = [1, 2, 1] ∧ complement 3 2 = 1 ∧
    ((RifUps.init (0 : Int) 0 (fun a => 2 * a) [1, 2, 1] 2).bind fun s0 =>
      (enchaine (RifUps.step (0 : Int) (· + ·) (· * ·)) s0 [[1], [], [5, 7]]).map Prod.snd) = some [0, 2, 4, 12, 20, 24] := by
  decide

/-- **C24 refuted for a non-symmetric filter:** R = 1 and coefficients (1, 0) — the identity — delay by one sample. -/
theorem C24_ups_refute :
    ((RifUps.init (0 : Int) 0 (fun a => 1 * a) [1, 0] 1).bind fun s0 =>
      (enchaine (RifUps.step (0 : Int) (· + ·) (· * ·)) s0 [[5, 7]]).map Prod.snd) = some [0, 5] ∧
    (List.range 2).map (convolution [1, 0] (insereZeros 1 [5, 7])) = ([5, 7] : List Int) := by decide

/-- An interpolator without coefficients is rejected at the first call. -/
theorem C24_ups_sans_coefs {T C : Type} (zero : T) (add : T → T → T) (mul : T → C → T) (zeroC : C) (fois : C → C) (R : Nat) (hR : 0 < R)
    (x : List T) : (RifUps.init zero zeroC fois [] R).bind (fun s0 => RifUps.step zero add mul s0 x) = none := by
  have hc : complement 0 R = 0 := by simp [complement]
  rw [RifUps.init_eq _ _ _ _ _ hR]
  simp [RifUps.step, coefsUps, hc]

/-- **C24 (announced delay).** `filtre_rif_ups_délais` is the delay of the interpolator for a symmetric filter: the impulse response applied to the
zero-stuffed signal is symmetric about that delay (twice the delay is used to stay in the integers). -/
theorem C24_ups_delai {A : Type} [CommSemiring A] (c : List A) (hc : 0 < c.length) (hsym : c.reverse = c) (R : Nat) (hR : 0 < R) (k j : Nat)
    (hkj : k + j = delaisUps2 c.length R) :
    (c.map ((R : A) * ·) ++ List.replicate (complement c.length R) 0).reverse.getD k 0 =
      (c.map ((R : A) * ·) ++ List.replicate (complement c.length R) 0).reverse.getD j 0 := by
  have hd : delaisUps2 c.length R = (c.length - 1) + 2 * complement c.length R := by
    rw [complement_eq _ _ hR]; rfl
  rw [List.reverse_append, List.reverse_replicate, ← List.map_reverse, hsym]
  generalize complement c.length R = q at *
  generalize hc' : c.map ((R : A) * ·) = c'
  have hl : c'.length = c.length := by rw [← hc']; simp
  have hs : c'.reverse = c' := by rw [← hc', ← List.map_reverse, hsym]
  rw [← hl] at hd hc hkj
  have key : ∀ k j, k + j = c'.length - 1 + 2 * q → q ≤ k →
      (List.replicate q (0 : A) ++ c').getD k 0 = (List.replicate q (0 : A) ++ c').getD j 0 := by
    intro k j h1 h2
    rw [List.getD_eq_getElem?_getD, List.getD_eq_getElem?_getD, List.getElem?_append_right (by simpa using h2), List.length_replicate]
    by_cases hj : j < q
    · rw [List.getElem?_append_left (by simpa using hj), List.getElem?_replicate, if_pos hj, List.getElem?_eq_none (by omega)]
      rfl
    · rw [List.getElem?_append_right (by simpa using hj), List.length_replicate, ← List.getD_eq_getElem?_getD, ← List.getD_eq_getElem?_getD]
      have h3 : j - q = c'.length - 1 - (k - q) := by omega
      have h4 : k - q < c'.length := by omega
      rw [h3, ← getD_reverse _ _ h4, hs]
  rw [hd] at hkj
  by_cases hk : q ≤ k
  · exact key k j hkj hk
  · exact (key j k (by omega) (by omega)).symm

example : 1 + 3 = delaisUps2 3 2 := by decide

/-! ## C25: polyphase form -/

/-- **C25.** `iforme_polyphase(forme_polyphase(x, M))` is `x` completed with the fewest zeros up to a multiple of `M`; branch `i` of the polyphase
form holds the samples `x(i + M j)`. -/
theorem C25_polyphase {T : Type} (zero : T) (x : List T) (hx : x ≠ []) (M : Nat) (hM : 0 < M) :
    ∃ X, formePolyphase zero x M = some X ∧ X.rows = M ∧ X.cols = (x.length + complement x.length M) / M ∧
      iformePolyphase X = some (x ++ List.replicate (complement x.length M) zero) ∧
      ∀ i j, i < X.rows → j < X.cols → X.elt i j = some (x.getD (i + M * j) zero) := by
  have hl : x.length ≠ 0 := fun h => hx (List.length_eq_zero_iff.1 h)
  have hm := complement_mod x.length M hM
  have e : (if x.length % M ≠ 0 then x ++ List.replicate (M - x.length % M) zero else x) =
      x ++ List.replicate (complement x.length M) zero := by
    rw [complement_eq _ _ hM]; split <;> simp
  have hdiv : M * ((x.length + complement x.length M) / M) = x.length + complement x.length M :=
    Nat.mul_div_cancel' (Nat.dvd_of_mod_eq_zero hm)
  refine ⟨⟨M, (x.length + complement x.length M) / M, x ++ List.replicate (complement x.length M) zero⟩, ?_, rfl, rfl, ?_, ?_⟩
  · unfold formePolyphase
    rw [if_neg (by omega), if_neg hl]
    simp only [e]
    rw [if_pos (by simpa using hdiv)]
    simp
  · unfold iformePolyphase
    rw [if_pos]
    simp only [List.length_append, List.length_replicate]
    rw [Nat.mul_comm]; exact hdiv
  · intro i j hi hj
    simp only at hi hj
    unfold Mat.elt
    rw [if_pos ⟨hi, hj⟩]
    simp only
    have hb : i + j * M < x.length + complement x.length M := by
      have := Nat.mul_le_mul_right M (show j + 1 ≤ _ from hj)
      rw [Nat.mul_comm _ M, Nat.mul_comm ((x.length + complement x.length M) / M) M, hdiv, Nat.mul_add] at this
      rw [Nat.mul_comm j M]
      omega
    rw [Nat.mul_comm M j]
    by_cases h : i + j * M < x.length
    · rw [List.getElem?_append_left h, lit_getD zero _ _ h]
    · rw [List.getElem?_append_right (by omega), List.getElem?_replicate, if_pos (by omega), List.getD_eq_getElem?_getD,
        List.getElem?_eq_none (by omega)]
      rfl

example : ([1, 2, 3, 4, 5] : List Int) ≠ [] ∧
    ((formePolyphase 0 [1, 2, 3, 4, 5] 2).bind iformePolyphase) = some ([1, 2, 3, 4, 5, 0] : List Int) := by decide

/-- The empty signal has an empty polyphase form; `M = 0` is a division by zero. -/
theorem C25_vide {T : Type} (zero : T) (M : Nat) (hM : 0 < M) :
    (formePolyphase zero ([] : List T) M).bind iformePolyphase = some [] ∧ ∀ x : List T, formePolyphase zero x 0 = none := by
  refine ⟨?_, fun x => by simp [formePolyphase]⟩
  unfold formePolyphase
  rw [if_neg (by omega)]
  simp [iformePolyphase]

end Verif.Reechan
