import Verif.Reechan.PropsUps
import Mathlib.Data.BitVec

/-! # Property C39: CIC filters -/

namespace Verif.Reechan
open Verif.Filtre

section
variable {A : Type} [AddCommGroup A]

/-- Difference with the sample `R` earlier (zero past). -/
def dr (R : Nat) (x : List A) : List A := (List.range x.length).map fun n => passe x n 0 - passe x n R

/-- Keep one sample in `R`. -/
def sd (R : Nat) (x : List A) : List A := (List.range (x.length / R)).map fun m => x.getD (m * R) 0

/-- Integration. -/
def integre (x : List A) : List A := Util.cumsum 0 (· + ·) x

theorem ext_getD (x y : List A) (hl : x.length = y.length) (h : ∀ n, n < x.length → x.getD n 0 = y.getD n 0) : x = y := by
  apply List.ext_getElem hl
  intro n h1 h2
  have := h n h1
  rwa [List.getD_eq_getElem _ _ h1, List.getD_eq_getElem _ _ h2] at this

theorem map_getD (f : Nat → A) (n k : Nat) : ((List.range n).map f).getD k 0 = if k < n then f k else 0 := by
  rw [List.getD_eq_getElem?_getD]
  split
  · rename_i h; rw [List.getElem?_map, List.getElem?_range h]; rfl
  · rename_i h; rw [List.getElem?_eq_none (by simpa using h)]; rfl

theorem integre_length (x : List A) : (integre x).length = x.length := (Util.C33_cumsum x).1

theorem integre_getD (x : List A) (n : Nat) (hn : n < x.length) :
    (integre x).getD n 0 = ∑ k ∈ Finset.range (n + 1), x.getD k 0 := by
  rw [List.getD_eq_getElem?_getD, integre, (Util.C33_cumsum x).2 n hn]; rfl

theorem dr_length (R : Nat) (x : List A) : (dr R x).length = x.length := by simp [dr]

theorem dr_getD (R : Nat) (x : List A) (n : Nat) (hn : n < x.length) : (dr R x).getD n 0 = passe x n 0 - passe x n R := by
  rw [dr, map_getD, if_pos hn]

theorem boxcar_length (R : Nat) (x : List A) : (boxcar R x).length = x.length := by simp [boxcar]

/-- Differencing the integral gives the boxcar. -/
theorem dr_integre (R : Nat) (x : List A) : dr R (integre x) = boxcar R x := by
  apply ext_getD _ _ (by rw [dr_length, integre_length, boxcar_length])
  intro n hn'
  have hn : n < x.length := by simpa [dr_length, integre_length] using hn'
  rw [dr_getD _ _ _ (by rw [integre_length]; exact hn), boxcar, map_getD, if_pos hn]
  clear * - hn
  induction R with
  | zero => simp
  | succ R ih =>
    rw [Finset.sum_range_succ, ← ih]
    have : passe (integre x) n R - passe (integre x) n (R + 1) = passe x n R := by
      unfold passe
      by_cases h1 : R + 1 ≤ n
      · rw [if_pos (by omega), if_pos h1, if_pos (by omega), integre_getD _ _ (by omega), integre_getD _ _ (by omega),
          show n - R + 1 = (n - (R + 1) + 1) + 1 by omega, Finset.sum_range_succ, show n - (R + 1) + 1 = n - R by omega]
        abel
      · by_cases h2 : R ≤ n
        · rw [if_pos h2, if_neg h1, if_pos h2, integre_getD _ _ (by omega), show n - R = 0 by omega]
          simp
        · rw [if_neg h2, if_neg h1, if_neg h2, sub_zero]
    rw [← this]; abel

theorem somme_passe (R : Nat) (x : List A) (n : Nat) :
    ∑ k ∈ Finset.range (n + 1), passe x k R = if R ≤ n then ∑ j ∈ Finset.range (n - R + 1), x.getD j 0 else 0 := by
  induction n with
  | zero =>
    rw [Finset.sum_range_one, passe]
    by_cases h : R ≤ 0
    · rw [if_pos h, if_pos h]; simp
    · rw [if_neg h, if_neg h]
  | succ n ih =>
    rw [Finset.sum_range_succ, ih, passe]
    by_cases h : R ≤ n
    · rw [if_pos h, if_pos (by omega), if_pos (by omega), show n + 1 - R + 1 = (n - R + 1) + 1 by omega,
        Finset.sum_range_succ _ (n - R + 1), show n + 1 - R = n - R + 1 by omega]
    · by_cases h2 : R ≤ n + 1
      · rw [if_neg h, if_pos h2, if_pos h2, show n + 1 - R = 0 by omega]; simp
      · rw [if_neg h, if_neg h2, if_neg h2, add_zero]

/-- Integration and differencing commute. -/
theorem dr_commute (R : Nat) : Function.Commute (dr R : List A → List A) integre := by
  intro x
  apply ext_getD _ _ (by simp only [dr_length, integre_length])
  intro n hn
  have hn : n < x.length := by simpa [dr_length, integre_length] using hn
  rw [dr_getD _ _ _ (by rw [integre_length]; exact hn), integre_getD _ _ (by rw [dr_length]; exact hn)]
  have e : ∑ k ∈ Finset.range (n + 1), (dr R x).getD k 0 = ∑ k ∈ Finset.range (n + 1), (passe x k 0 - passe x k R) := by
    refine Finset.sum_congr rfl fun k hk => ?_
    rw [dr_getD _ _ _ (by have := Finset.mem_range.1 hk; omega)]
  rw [e, Finset.sum_sub_distrib, somme_passe R]
  have e2 : ∑ k ∈ Finset.range (n + 1), passe x k 0 = (integre x).getD n 0 := by
    rw [integre_getD _ _ hn]; refine Finset.sum_congr rfl fun k _ => ?_
    simp [passe]
  rw [e2]
  unfold passe
  rw [if_pos (Nat.zero_le n), Nat.sub_zero]
  congr 1
  by_cases h : R ≤ n
  · rw [if_pos h, if_pos h, integre_getD _ _ (by omega)]
  · rw [if_neg h, if_neg h]

theorem dr_integre_iter (R N : Nat) (x : List A) : (dr R)^[N] (integre^[N] x) = (boxcar R)^[N] x := by
  have h := (dr_commute (A := A) R).comp_iterate N
  have h2 : (dr R ∘ integre : List A → List A) = boxcar R := funext fun x => dr_integre R x
  rw [h2] at h
  exact (congrFun h x).symm

omit [AddCommGroup A] in
theorem iter_length {f : List A → List A} (hf : ∀ x, (f x).length = x.length) (N : Nat) (x : List A) : (f^[N] x).length = x.length := by
  induction N generalizing x with
  | zero => rfl
  | succ N ih => rw [Function.iterate_succ_apply, ih, hf]

theorem peigne_eq (x : List A) : peigne (· - ·) 0 x = some (dr 1 x) := by
  unfold peigne Util.diff
  rw [if_neg (by simp)]
  congr 1
  apply ext_getD _ _ (by simp [dr_length])
  intro n hn
  have hn : n < x.length := by simpa using hn
  rw [dr_getD _ _ _ hn, List.getD_eq_getElem?_getD, List.getElem?_zipWith, List.tail_cons, List.getElem?_dropLast,
    if_pos (by simpa using hn), List.getElem?_eq_getElem hn]
  cases n with
  | zero => simp [passe, List.getElem?_eq_getElem hn]
  | succ n =>
    rw [List.getElem?_cons_succ, List.getElem?_eq_getElem (by omega)]
    simp only [Option.getD_some]
    unfold passe
    rw [if_pos (by omega), if_pos (by omega), Nat.sub_zero, List.getD_eq_getElem _ _ hn, Nat.add_sub_cancel,
      List.getD_eq_getElem _ _ (by omega)]

theorem sd_dr (R : Nat) (hR : 0 < R) (u : List A) : dr 1 (sd R u) = sd R (dr R u) := by
  apply ext_getD _ _ (by simp [dr_length, sd])
  intro m hm
  have hm : m < u.length / R := by simpa [dr_length, sd] using hm
  have hb : ∀ m, m < u.length / R → m * R < u.length := by
    intro m hm
    have h1 : (m + 1) * R ≤ u.length := (Nat.le_div_iff_mul_le hR).1 hm
    rw [Nat.add_mul] at h1; omega
  rw [dr_getD _ _ _ (by simpa [sd] using hm)]
  have e : ∀ k, (sd R u).getD k 0 = if k < u.length / R then u.getD (k * R) 0 else 0 := fun k => map_getD _ _ _
  conv_rhs => rw [sd, map_getD, dr_length, if_pos hm, dr_getD _ _ _ (hb m hm)]
  unfold passe
  rw [e, e]
  simp only [Nat.zero_le, if_true, Nat.sub_zero]
  rw [if_pos hm]
  congr 1
  by_cases h1 : 1 ≤ m
  · rw [if_pos h1, if_pos (by omega), if_pos, Nat.sub_mul, Nat.one_mul]
    calc R = 1 * R := by ring
      _ ≤ m * R := Nat.mul_le_mul_right R h1
  · rw [if_neg h1, if_neg]
    have : m = 0 := by omega
    subst this; omega

theorem sousech_eq (R : Nat) (hR : 0 < R) (u : List A) : Util.sousech u R = some (sd R u) := by
  obtain ⟨y, e, hl, h⟩ := Util.C33_sousech u R hR
  rw [e]
  congr 1
  apply ext_getD _ _ (by simp [hl, sd])
  intro m hm
  rw [sd, map_getD, if_pos (by omega), List.getD_eq_getElem?_getD, h m (by omega), ← List.getD_eq_getElem?_getD]

theorem peignesD_eq (N R : Nat) (hR : 0 < R) (u : List A) (hu : 0 < u.length / R) :
    ∃ mem, mem.length = N ∧ peignesD (· - ·) (List.replicate N 0) (sd R u) = some (mem, sd R ((dr R)^[N] u)) := by
  induction N generalizing u with
  | zero => exact ⟨[], rfl, rfl⟩
  | succ N ih =>
    obtain ⟨mem, hl, e⟩ := ih (dr R u) (by rw [dr_length]; exact hu)
    have hlen : (sd R u).length = u.length / R := by simp [sd]
    have ha : ∃ d, Util.acces (sd R u) (((sd R u).length : Int) - 1) = some d := by
      unfold Util.acces
      rw [if_neg (by omega), List.getElem?_eq_getElem (by omega)]
      exact ⟨_, rfl⟩
    obtain ⟨d, hd⟩ := ha
    refine ⟨d :: mem, by simp [hl], ?_⟩
    rw [List.replicate_succ, peignesD, hd, peigne_eq, sd_dr R hR]
    simp only [e, Function.iterate_succ_apply]

end

/-- **C39 (decimator, first block), partial:** on the first block after configuration the CIC decimator of order `N` and ratio `R` outputs the samples
of index 0, R, 2R, … of the `N`-fold `R`-long boxcar of the input — in every commutative group, hence also in wrapping machine integers.
Missing: the following blocks, for which it is false (`C39_blocs_refute`), and the final float gain. -/
theorem C39_decim_partial {A : Type} [AddCommGroup A] (N R : Nat) (hR : 0 < R) (x : List A) (hx : R ≤ x.length) :
    ∃ mem, mem.length = N ∧ cicDecim 0 (· + ·) (· - ·) R (List.replicate N 0) x =
      some (mem, (List.range (x.length / R)).map fun m => ((boxcar R)^[N] x).getD (m * R) 0) := by
  have hl : (integre^[N] x).length = x.length := iter_length integre_length N x
  obtain ⟨mem, h1, h2⟩ := peignesD_eq N R hR (integre^[N] x) (by rw [hl]; exact Nat.div_pos hx hR)
  refine ⟨mem, h1, ?_⟩
  unfold cicDecim
  rw [List.length_replicate]
  change (match Util.sousech (integre^[N] x) R with | none => none | some xd => peignesD _ _ xd) = _
  rw [sousech_eq R hR]
  simp only [h2, dr_integre_iter]
  rw [sd, iter_length (boxcar_length R)]

example : (2 : Nat) ≤ ([1, 2, 3, 4, 5] : List Int).length ∧
    (cicDecim (0 : Int) (· + ·) (· - ·) 2 (List.replicate 2 0) [1, 2, 3, 4, 5]).map Prod.snd = some [1, 8] ∧
    (boxcar 2)^[2] ([1, 2, 3, 4, 5] : List Int) = [1, 4, 8, 12, 16] := by decide

/-- The same with 32-bit wrapping integers, as a non-trivial instance (200 + 100 overflows nothing, 2^31 + 2^31 wraps). -/
example : (cicDecim (0 : BitVec 32) (· + ·) (· - ·) 2 (List.replicate 1 0) [0x80000000#32, 0x80000000#32, 5#32, 7#32]).map Prod.snd
    = some [0x80000000#32, 0x80000005#32] := by decide

/-- **C39 refuted for a stream cut into blocks of a multiple of R:** the integrators restart from zero at each block. -/
theorem C39_blocs_refute :
    (enchaine (cicDecim (0 : Int) (· + ·) (· - ·) 1) [0] [[1], [1]]).map Prod.snd = some [1, 0] ∧
    (cicDecim (0 : Int) (· + ·) (· - ·) 1 [0] [1, 1]).map Prod.snd = some [1, 1] := by decide

/-- **C39 refuted for blocks shorter than R:** they read index -1 (order at least one). -/
theorem C39_bloc_court_refute {A : Type} (zero : A) (add sub : A → A → A) (R : Nat) (mem x : List A) (hm : mem ≠ []) (hx : x.length < R) :
    cicDecim zero add sub R mem x = none := by
  have hcs : ∀ y : List A, (Util.cumsum zero add y).length = y.length := by
    have : ∀ (y : List A) c, (Util.cumsumDe add c y).length = y.length := by
      intro y
      induction y with
      | nil => intro c; rfl
      | cons v y ih => intro c; simp [Util.cumsumDe, ih]
    exact fun y => this y zero
  have hl : ∀ N (x : List A), ((Util.cumsum zero add)^[N] x).length = x.length := by
    intro N
    induction N with
    | zero => intro x; rfl
    | succ N ih => intro x; rw [Function.iterate_succ_apply, ih, hcs]
  cases mem with
  | nil => exact absurd rfl hm
  | cons m ms =>
    unfold cicDecim Util.sousech
    rw [if_neg (by omega), hl, Nat.div_eq_of_lt hx]
    rfl

section
variable {A : Type} [AddCommGroup A]

theorem insere_dr (R : Nat) (hR : 0 < R) (x : List A) : insereZeros R (dr 1 x) = dr R (insereZeros R x) := by
  have hlen : ∀ x : List A, (insereZeros R x).length = x.length * R := by intro x; simp [insereZeros]
  apply ext_getD _ _ (by rw [hlen, dr_length, dr_length, hlen])
  intro k hk
  rw [hlen, dr_length] at hk
  rw [dr_getD _ _ _ (by rw [hlen]; exact hk), insereZeros_getD _ _ hR]
  have hm : k / R < x.length := (Nat.div_lt_iff_lt_mul hR).2 hk
  have hpe : k = k / R * R + k % R := by rw [Nat.mul_comm]; exact (Nat.div_add_mod k R).symm
  have hi := Nat.mod_lt k hR
  have p0 := passe_insere R hR x (k / R) (k % R) 0 0 hi hR
  have p1 := passe_insere R hR x (k / R) (k % R) 1 0 hi hR
  rw [← hpe] at p0 p1
  simp only [Nat.zero_mul, Nat.one_mul, Nat.add_zero] at p0 p1
  rw [p0, p1]
  by_cases h : k % R = 0
  · rw [if_pos h, if_pos h.symm, if_pos h.symm, dr_getD _ _ _ hm]
  · rw [if_neg h, if_neg (fun e => h e.symm), if_neg (fun e => h e.symm), sub_zero]

theorem surech_eq (R : Nat) (hR : 0 < R) (x : List A) : Util.surech 0 x R = insereZeros R x := by
  obtain ⟨h1, h2⟩ := Util.C33_surech (0 : A) x R hR
  apply ext_getD _ _ (by simp [h1, insereZeros])
  intro k hk
  rw [h1] at hk
  rw [insereZeros_getD _ _ hR, List.getD_eq_getElem?_getD, h2 k hk]
  split
  · rw [List.getD_eq_getElem?_getD]
  · rfl

theorem peignesI_eq (x0 : List A) (N : Nat) : ∀ (x : List A), x.length = x0.length → 0 < x.length →
    ∃ mem, mem.length = N ∧ peignesI (· - ·) x0 (List.replicate N 0) x = some (mem, (dr 1)^[N] x) := by
  induction N with
  | zero => intro x _ _; exact ⟨[], rfl, rfl⟩
  | succ N ih =>
    intro x hl hp
    obtain ⟨mem, h1, e⟩ := ih (dr 1 x) (by rw [dr_length]; exact hl) (by rw [dr_length]; exact hp)
    have ha : ∃ d, Util.acces x0 ((x.length : Int) - 1) = some d := by
      unfold Util.acces
      rw [if_neg (by omega), List.getElem?_eq_getElem (by omega)]
      exact ⟨_, rfl⟩
    obtain ⟨d, hd⟩ := ha
    refine ⟨d :: mem, by simp [h1], ?_⟩
    rw [List.replicate_succ, peignesI, hd, peigne_eq]
    simp only [e, Function.iterate_succ_apply]

end

/-- **C39 (interpolator, first block), partial:** on the first block the CIC interpolator outputs the `N`-fold `R`-long boxcar of the zero-stuffed input.
Missing: the following blocks (`C39_interp_blocs_refute`) and the final float gain. -/
theorem C39_interp_partial {A : Type} [AddCommGroup A] (N R : Nat) (hR : 0 < R) (x : List A) (hx : x ≠ []) :
    ∃ mem, mem.length = N ∧ cicInterp 0 (· + ·) (· - ·) R (List.replicate N 0) x =
      some (mem, (boxcar R)^[N] (insereZeros R x)) := by
  obtain ⟨mem, h1, h2⟩ := peignesI_eq x N x rfl (List.length_pos_iff.2 hx)
  refine ⟨mem, h1, ?_⟩
  have h3 : insereZeros R ((dr 1)^[N] x) = (dr R)^[N] (insereZeros R x) := by
    have hs : Function.Semiconj (insereZeros R : List A → List A) (dr 1) (dr R) := fun x => insere_dr R hR x
    exact (hs.iterate_right N) x
  unfold cicInterp
  rw [List.length_replicate, h2]
  simp only
  rw [surech_eq R hR, h3]
  change some (mem, integre^[N] ((dr R)^[N] (insereZeros R x))) = _
  rw [← dr_integre_iter R N]
  have hc := ((dr_commute (A := A) R).iterate_iterate N N) (insereZeros R x)
  rw [hc]

example : (cicInterp (0 : Int) (· + ·) (· - ·) 3 (List.replicate 2 0) [1, 2]).map Prod.snd = some [1, 2, 3, 4, 5, 6] := by decide

/-- **C39 refuted for the interpolator cut into blocks.** -/
theorem C39_interp_blocs_refute :
    (enchaine (cicInterp (0 : Int) (· + ·) (· - ·) 1) [0] [[1], [1]]).map Prod.snd = some [1, 0] ∧
    (cicInterp (0 : Int) (· + ·) (· - ·) 1 [0] [1, 1]).map Prod.snd = some [1, 1] := by decide

end Verif.Reechan
