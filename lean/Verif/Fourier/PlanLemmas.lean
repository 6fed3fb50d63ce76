import Verif.Fourier.Lemmas
import Mathlib.Tactic.FieldSimp

/-! # The plans compute the DFT for every size -/

namespace Verif.Fourier

open Finset

variable {K : Type} [Field K]

/-- Laws of the trigonometric constants (satisfied by the complex numbers). -/
structure Lois (A : Trigo K) : Prop where
  prim : ∀ n, 0 < n → IsPrimitiveRoot (A.w n) n
  carre : ∀ n, 0 < n → A.w (2 * n) ^ 2 = A.w n
  conjw : ∀ n i, 0 < n → A.conj (A.w n ^ i) = (A.w n ^ i)⁻¹
  racine_un : A.racine 1 = 1
  racine_mul : ∀ a b, A.racine (a * b) = A.racine a * A.racine b
  racine_carre : ∀ n, A.racine n * A.racine n = (n : K)
  racine_ne : ∀ n, 0 < n → A.racine n ≠ 0
  conjc : ∀ n d, 0 < n → A.conj (A.chirp n d) = (A.chirp n d)⁻¹
  chirp : ∀ n (k j : Nat), 0 < n → A.chirp n k * A.chirp n j * (A.chirp n ((k : Int) - j))⁻¹ = A.w n ^ (k * j)
  pp2 : ∀ m, 0 < m → ∃ k, A.pp2 m = 2 ^ k ∧ m ≤ 2 ^ k ∧ 2 ^ k < 2 * m

/-- Ratio of the direct (`avant`) or inverse transform of size `n`. -/
def ratio (A : Trigo K) (n : Nat) (avant : Bool) : K := if avant then A.w n else (A.w n)⁻¹

/-- `y` is the normalised DFT of `x`. -/
def EstTfd (A : Trigo K) (avant : Bool) (x y : List K) : Prop :=
  y.length = x.length ∧ ∀ i, i < x.length →
    y.getD i 0 = dft (ratio A x.length avant) x.length (fun j => x.getD j 0) i / A.racine x.length

theorem ratio_prim {A : Trigo K} (L : Lois A) (n : Nat) (hn : 0 < n) (avant : Bool) : IsPrimitiveRoot (ratio A n avant) n := by
  unfold ratio
  cases avant
  · exact (L.prim n hn).inv
  · exact L.prim n hn

theorem ratio_not (A : Trigo K) (n : Nat) : ratio A n false = (ratio A n true)⁻¹ := rfl

theorem rot_ratio {A : Trigo K} (L : Lois A) (n i : Nat) (hn : 0 < n) (avant : Bool) :
    (if avant then A.w n ^ i else A.conj (A.w n ^ i)) = ratio A n avant ^ i := by
  cases avant
  · simp [ratio, L.conjw n i hn]
  · simp [ratio]

theorem radix2_tfd {A : Trigo K} (L : Lois A) (avant : Bool) (X0 S0 x : List K) (k : Nat) (hx : x.length = 2 ^ k) (hk : k ≤ 30)
    (hX0 : X0.length = x.length) (hS0 : S0.length = x.length) :
    ∃ y, tfrRadix2 A avant X0 S0 x (tfrRotation A x.length) = some y ∧ EstTfd A avant x y := by
  have hn : 0 < x.length := by rw [hx]; exact Nat.two_pow_pos k
  obtain ⟨y, e, l, g⟩ := tfrRadix2_eq A avant (tfrRotation A x.length) (ratio A x.length avant) X0 S0 x k hx hk
    (fun h => by
      refine racine_demi _ _ (Nat.two_pow_pos _) ?_
      rw [← pow_succ', show k - 1 + 1 = k by omega, ← hx]
      exact ratio_prim L _ hn avant)
    (tfrRotation_length A _)
    (fun i hi => ⟨_, tfrRotation_get A _ i hi, rot_ratio L _ _ hn avant⟩) L.racine_un hX0 hS0
  exact ⟨y, e, l, g⟩

/-! ### Odd sizes -/

omit [Field K] in
theorem chirpVec_length (A : Trigo K) (n : Nat) : (chirpVec A n).length = 2 * n - 1 := by simp [chirpVec]

theorem chirpVec_get (A : Trigo K) (n i : Nat) (h : i < 2 * n - 1) :
    (chirpVec A n).getD i 0 = A.chirp n ((i : Int) - ((n : Int) - 1)) := by
  unfold chirpVec
  rw [List.getD_eq_getElem _ _ (by simpa using h), List.getElem_map, List.getElem_range]

theorem czt_tfd {A : Trigo K} (L : Lois A) [CharZero K] (x : List K) (hn : 0 < x.length) (hn2 : x.length ≤ 2 ^ 29) :
    ∃ y, tfrCzt A x (A.pp2 (2 * x.length - 1)) (tfrRotation A (A.pp2 (2 * x.length - 1))) (chirpVec A x.length) = some y ∧
      EstTfd A true x y := by
  obtain ⟨k, hpk, hk1, hk2⟩ := L.pp2 (2 * x.length - 1) (by omega)
  set n := x.length with hnd
  set N := A.pp2 (2 * n - 1) with hN
  have hNpos : 0 < N := by rw [hpk]; exact Nat.two_pow_pos k
  have hk30 : k ≤ 30 := by
    by_contra hc
    have : 2 ^ 31 ≤ 2 ^ k := Nat.pow_le_pow_right (by omega) (by omega)
    omega
  obtain ⟨ct, e1, l1, g1⟩ := queue_some (chirpVec A n) n (by rw [chirpVec_length]; omega)
  obtain ⟨xc, e2, l2, g2⟩ := produit_some x ct (by omega)
  obtain ⟨xp, e3, l3, g3⟩ := ecrit_some (List.replicate N (0 : K)) xc 0 (by simp; omega)
  obtain ⟨icp, e4, l4, g4⟩ := ecrit_some (List.replicate N (0 : K)) ((chirpVec A n).map A.conj) 0
    (by simp [chirpVec_length]; omega)
  rw [List.length_replicate] at l3 l4
  have hrep : (List.replicate N (0 : K)).length = N := by simp
  obtain ⟨Xp, e5, t5⟩ := radix2_tfd L true (List.replicate N 0) (List.replicate N 0) xp k (by rw [l3, hpk]) hk30 (by simp [l3]) (by simp [l3])
  obtain ⟨Xc, e6, t6⟩ := radix2_tfd L true (List.replicate N 0) (List.replicate N 0) icp k (by rw [l4, hpk]) hk30 (by simp [l4]) (by simp [l4])
  obtain ⟨P, e7, l7, g7⟩ := produit_some Xp Xc (by rw [t5.1, t6.1, l3, l4])
  have lP : P.length = N := by rw [l7, t5.1, l3]
  obtain ⟨y2, e8, t8⟩ := radix2_tfd L false (List.replicate N 0) (List.replicate N 0) P k (by rw [lP, hpk]) hk30 (by simp [lP]) (by simp [lP])
  rw [l3] at e5; rw [l4] at e6; rw [lP] at e8
  obtain ⟨s, e9, l9, g9⟩ := segment_some y2 (n - 1) n (by rw [t8.1, lP]; omega)
  obtain ⟨r, e10, l10, g10⟩ := produit_some s ct (by omega)
  refine ⟨r.map (· * (A.racine N / A.racine n)), ?_, ?_⟩
  · unfold tfrCzt
    simp only [← hnd, e1, e2, e3, e4, chirpVec_length, Option.bind_eq_bind, Option.bind_some, ne_eq, not_true_eq_false, if_false,
      e5, e6, e7, e8, e9, e10]
  · refine ⟨by rw [List.length_map, l10, l9], ?_⟩
    rw [← hnd]
    intro i hi
    have hct : ∀ j, j < n → ct.getD j 0 = A.chirp n j := by
      intro j hj
      rw [getD_of_get _ _ _ _ (g1 j hj), chirpVec_length, chirpVec_get A n _ (by omega)]
      congr 1
      omega
    have hxp : ∀ j, xp.getD j 0 = if j < n then x.getD j 0 * A.chirp n j else 0 := by
      intro j
      by_cases hj : j < n
      · rw [if_pos hj, ← hct j hj, ← g2 j]
        refine getD_of_get _ _ _ _ ?_
        rw [g3 j, if_pos (by omega), Nat.sub_zero]
      · rw [if_neg hj, List.getD_eq_getElem?_getD, g3 j, if_neg (by omega), List.getElem?_replicate]
        split <;> rfl
    have hic : ∀ j, j < 2 * n - 1 → icp.getD j 0 = (A.chirp n ((j : Int) - ((n : Int) - 1)))⁻¹ := by
      intro j hj
      rw [← L.conjc n _ (by omega), ← chirpVec_get A n j hj,
        ← getD_map (chirpVec A n) A.conj j (by rw [chirpVec_length]; exact hj)]
      refine getD_of_get _ _ _ _ ?_
      rw [g4 j, if_pos (by simp [chirpVec_length]; omega), Nat.sub_zero]
    have hsq := L.racine_carre N
    have hne := L.racine_ne N hNpos
    have hy2 : y2.getD (n - 1 + i) 0 = (∑ a ∈ range n, x.getD a 0 * A.chirp n a * (A.chirp n ((i : Int) - a))⁻¹) / A.racine N := by
      rw [t8.2 _ (by rw [lP]; omega), lP]
      have hcg : dft (ratio A N false) N (fun j => P.getD j 0) (n - 1 + i) =
          dft (ratio A N false) N (fun j => (dft (ratio A N true) N (fun j => xp.getD j 0) j *
            dft (ratio A N true) N (fun j => icp.getD j 0) j)) (n - 1 + i) / (N : K) := by
        unfold dft
        rw [sum_div]
        refine sum_congr rfl fun j hj => ?_
        have hj := mem_range.1 hj
        simp only []
        rw [g7 j]
        have h5 := t5.2 j (by rw [l3]; exact hj)
        have h6 := t6.2 j (by rw [l4]; exact hj)
        rw [l3] at h5
        rw [l4] at h6
        rw [h5, h6, ← hsq]
        unfold dft
        field_simp
      rw [hcg, ratio_not, dft_convolution _ _ hNpos (ratio_prim L N hNpos true) _ _ _ (by omega)]
      have hNK : (N : K) ≠ 0 := by exact_mod_cast hNpos.ne'
      have hsub : ∑ a ∈ range N, xp.getD a 0 * icp.getD ((n - 1 + i + N - a) % N) 0 =
          ∑ a ∈ range n, x.getD a 0 * A.chirp n a * (A.chirp n ((i : Int) - a))⁻¹ := by
        rw [← sum_subset (range_subset_range.2 (by omega : n ≤ N))]
        · refine sum_congr rfl fun a ha => ?_
          have ha := mem_range.1 ha
          have hm : (n - 1 + i + N - a) % N = n - 1 + i - a := by
            rw [show n - 1 + i + N - a = n - 1 + i - a + N by omega, Nat.add_mod_right, Nat.mod_eq_of_lt (by omega)]
          rw [hxp a, if_pos ha, hm, hic _ (by omega)]
          congr 3
          omega
        · intro a _ ha
          rw [hxp a, if_neg (by simpa using ha), zero_mul]
      rw [hsub]
      field_simp
    rw [getD_map _ _ _ (by omega), g10 i, getD_of_get _ _ _ _ (g9 i hi), hy2, hct i hi]
    have hfin : (∑ a ∈ range n, x.getD a 0 * A.chirp n a * (A.chirp n ((i : Int) - a))⁻¹) * A.chirp n i =
        dft (ratio A n true) n (fun j => x.getD j 0) i := by
      unfold dft
      rw [sum_mul]
      refine sum_congr rfl fun a _ => ?_
      have := L.chirp n i a hn
      unfold ratio
      rw [if_pos rfl, ← this]
      ring
    rw [← hfin]
    have hne2 := L.racine_ne n hn
    field_simp

theorem tfr2itfr_impair (z : K) (X : List K) (hodd : X.length % 2 = 1) :
    ∃ Y, tfr2itfr z X = some Y ∧ Y.length = X.length ∧ ∀ t, t < X.length → Y.getD t 0 = X.getD ((X.length - t) % X.length) 0 := by
  set n := X.length with hn
  have hx0 : X[0]? = some (X.getD 0 0) := by
    rw [List.getElem?_eq_getElem (by omega), List.getD_eq_getElem _ _ (by omega)]
  obtain ⟨Y1, e1, l1, g1⟩ := ecrit_some (List.replicate n z) [X.getD 0 0] 0 (by simp; omega)
  rw [List.length_replicate] at l1
  obtain ⟨t, e2, l2, g2⟩ := queue_some X (n / 2) (by omega)
  obtain ⟨Y2, e3, l3, g3⟩ := ecrit_some Y1 t.reverse 1 (by simp; omega)
  obtain ⟨s, e4, l4, g4⟩ := segment_some X 1 (n / 2) (by omega)
  obtain ⟨Y3, e5, l5, g5⟩ := ecritQueue_some Y2 s.reverse (by simp; omega)
  refine ⟨Y3, ?_, by omega, ?_⟩
  · unfold tfr2itfr
    simp only [← hn, hx0, e1, Option.bind_eq_bind, Option.bind_some, if_neg (show ¬ n % 2 = 0 by omega), e2, e3, e4, e5]
  · intro i hi
    refine getD_of_get _ _ _ _ ?_
    rw [g5 i]
    simp only [List.length_reverse, l3, l1, l4]
    by_cases h1 : n - n / 2 ≤ i
    · rw [if_pos (by omega), List.getElem?_reverse (by omega), g4 _ (by omega), Nat.mod_eq_of_lt (by omega)]
      congr 1; omega
    · rw [if_neg (by omega), g3 i]
      simp only [List.length_reverse, l2]
      by_cases h2 : 1 ≤ i
      · rw [if_pos (by omega), List.getElem?_reverse (by omega), g2 _ (by omega), Nat.mod_eq_of_lt (by omega)]
        congr 1; omega
      · have : i = 0 := by omega
        subst this
        rw [if_neg (by omega), g1 0]
        simp only [List.length_cons, List.length_nil]
        rw [if_pos (by omega), Nat.sub_zero, Nat.sub_zero, Nat.mod_self, hx0]
        rfl

/-! ### Even sizes -/

theorem recombine_some {A : Trigo K} (L : Lois A) (avant : Bool) (E O : List K) (n m : Nat) (hm : 0 < m)
    (hx : n = 2 * m) (lE : E.length = m) (lO : O.length = m) :
    ∃ y, recombine A avant (tfrRotation A n) E O n = some y ∧ y.length = n ∧
      ∀ j, j < m → y.getD j 0 = (E.getD j 0 + ratio A n avant ^ j * O.getD j 0) * (1 / A.racine 2) ∧
        y.getD (m + j) 0 = (E.getD j 0 + ratio A n avant ^ (m + j) * O.getD j 0) * (1 / A.racine 2) := by
  have hdiv : n / 2 = m := by omega
  have hxpos : 0 < n := by omega
  obtain ⟨rh, e1, l1, g1⟩ := segment_some (tfrRotation A n) 0 m (by rw [tfrRotation_length]; omega)
  obtain ⟨rt, e2, l2, g2⟩ := queue_some (tfrRotation A n) m (by rw [tfrRotation_length]; omega)
  have hrh2 : ∀ j, j < m → (if avant then rh else rh.map A.conj).getD j 0 = ratio A n avant ^ j := by
    intro j hj
    have hr : rh.getD j 0 = A.w n ^ j := by
      rw [List.getD_eq_getElem?_getD, g1 j hj, Nat.zero_add, tfrRotation_get A _ j (by omega)]; rfl
    rw [← rot_ratio L n j hxpos avant]
    cases avant
    · simp only [Bool.false_eq_true, if_false]; rw [getD_map _ _ _ (by omega), hr]
    · simpa using hr
  have hrt2 : ∀ j, j < m → (if avant then rt else rt.map A.conj).getD j 0 = ratio A n avant ^ (m + j) := by
    intro j hj
    have hr : rt.getD j 0 = A.w n ^ (m + j) := by
      rw [List.getD_eq_getElem?_getD, g2 j hj, tfrRotation_length, show n - m + j = m + j by omega,
        tfrRotation_get A _ (m + j) (by omega)]; rfl
    rw [← rot_ratio L n (m + j) hxpos avant]
    cases avant
    · simp only [Bool.false_eq_true, if_false]; rw [getD_map _ _ _ (by omega), hr]
    · simpa using hr
  have lrh : (if avant then rh else rh.map A.conj).length = m := by split <;> simp [l1]
  have lrt : (if avant then rt else rt.map A.conj).length = m := by split <;> simp [l2]
  have e0 : ∀ rh' rt', rh' = (if avant then rh else rh.map A.conj) → rt' = (if avant then rt else rt.map A.conj) →
      recombine A avant (tfrRotation A n) E O n = (do
        let ph ← produit rh' O
        let pt ← produit rt' O
        let h ← somme E ph
        let t ← somme E pt
        let y ← ecrit (List.replicate n 0) 0 h
        let y ← ecritQueue y t
        some (y.map (· * (1 / A.racine 2)))) := by
    intro rh' rt' h1 h2
    unfold recombine
    simp only [hdiv, e1, e2, Option.bind_eq_bind, Option.bind_some, h1, h2]
  generalize (if avant then rh else rh.map A.conj) = rh' at *
  generalize (if avant then rt else rt.map A.conj) = rt' at *
  obtain ⟨ph, e3, l3, g3⟩ := produit_some rh' O (by omega)
  obtain ⟨pt, e4, l4, g4⟩ := produit_some rt' O (by omega)
  obtain ⟨h, e5, l5, g5⟩ := somme_some E ph (by omega)
  obtain ⟨t, e6, l6, g6⟩ := somme_some E pt (by omega)
  obtain ⟨y1, e7, l7, g7⟩ := ecrit_some (List.replicate n (0 : K)) h 0 (by simp; omega)
  rw [List.length_replicate] at l7
  obtain ⟨y2, e8, l8, g8⟩ := ecritQueue_some y1 t (by omega)
  refine ⟨y2.map (· * (1 / A.racine 2)), ?_, by rw [List.length_map]; omega, ?_⟩
  · rw [e0 rh' rt' rfl rfl]
    simp only [e3, e4, e5, e6, e7, e8, Option.bind_eq_bind, Option.bind_some]
  · intro j hj
    constructor
    · rw [getD_map _ _ _ (by omega), ← hrh2 j hj, ← g3 j, ← g5 j]
      congr 1
      refine getD_of_get _ _ _ _ ?_
      rw [g8 j, if_neg (by omega), g7 j, if_pos (by omega), Nat.sub_zero]
    · rw [getD_map _ _ _ (by omega), ← hrt2 j hj, ← g4 j, ← g6 j]
      congr 1
      refine getD_of_get _ _ _ _ ?_
      rw [g8 (m + j), if_pos (by omega)]
      congr 1; omega

theorem dft_pair (ρ : K) (m : Nat) (u : Nat → K) (i : Nat) :
    dft ρ (2 * m) u i = dft (ρ ^ 2) m (fun l => u (2 * l)) i + ρ ^ i * dft (ρ ^ 2) m (fun l => u (2 * l + 1)) i := by
  unfold dft
  rw [sum_pair, sum_add_distrib, mul_sum]
  congr 1
  · refine sum_congr rfl fun l _ => ?_
    rw [← pow_mul]; congr 2; ring
  · refine sum_congr rfl fun l _ => ?_
    rw [← pow_mul, ← mul_assoc, ← pow_add]; congr 2; ring

theorem dft_decale (ρ : K) (m : Nat) (hρ : ρ ^ m = 1) (u : Nat → K) (i : Nat) : dft ρ m u (m + i) = dft ρ m u i := by
  unfold dft
  refine sum_congr rfl fun l _ => ?_
  rw [Nat.add_mul, pow_add, pow_mul, hρ, one_pow, one_mul]

theorem recombine_tfd {A : Trigo K} (L : Lois A) (avant : Bool) (x E O : List K) (m : Nat) (hm : 0 < m)
    (hx : x.length = 2 * m) (hE : EstTfd A avant (pairs x) E) (hO : EstTfd A avant (impairs x) O) :
    ∃ y, recombine A avant (tfrRotation A x.length) E O x.length = some y ∧ EstTfd A avant x y := by
  have lp : (pairs x).length = m := by rw [pairs_length]; omega
  have li : (impairs x).length = m := by rw [impairs_length]; omega
  have lE : E.length = m := by rw [hE.1, lp]
  have lO : O.length = m := by rw [hO.1, li]
  obtain ⟨y, e, l, g⟩ := recombine_some L avant E O x.length m hm hx lE lO
  refine ⟨y, e, l, ?_⟩
  have hρ2 : ratio A m avant = ratio A x.length avant ^ 2 := by
    rw [hx]
    unfold ratio
    cases avant
    · simp [L.carre m hm]
    · simp [L.carre m hm]
  have hprim : IsPrimitiveRoot (ratio A x.length avant) (2 * m) := by rw [← hx]; exact ratio_prim L _ (by omega) avant
  have hone : (ratio A x.length avant ^ 2) ^ m = 1 := by rw [← pow_mul]; exact hprim.pow_eq_one
  have hEv : ∀ j, j < m → E.getD j 0 = dft (ratio A x.length avant ^ 2) m (fun l => x.getD (2 * l) 0) j / A.racine m := by
    intro j hj
    rw [hE.2 j (by omega), lp, hρ2]
    congr 1
    exact dft_congr _ _ _ _ _ fun l _ => getD_of_get _ _ _ _ (pairs_get x l)
  have hOv : ∀ j, j < m → O.getD j 0 = dft (ratio A x.length avant ^ 2) m (fun l => x.getD (2 * l + 1) 0) j / A.racine m := by
    intro j hj
    rw [hO.2 j (by omega), li, hρ2]
    congr 1
    exact dft_congr _ _ _ _ _ fun l _ => getD_of_get _ _ _ _ (impairs_get x l)
  have hr2 : A.racine x.length = A.racine 2 * A.racine m := by rw [hx, L.racine_mul]
  have hn2 := L.racine_ne 2 (by omega)
  have hnm := L.racine_ne m hm
  intro i hi
  have hdp : dft (ratio A x.length avant) x.length (fun j => x.getD j 0) i =
      dft (ratio A x.length avant ^ 2) m (fun l => x.getD (2 * l) 0) i +
      ratio A x.length avant ^ i * dft (ratio A x.length avant ^ 2) m (fun l => x.getD (2 * l + 1) 0) i := by
    conv_lhs => arg 2; rw [hx]
    exact dft_pair _ _ _ _
  rw [hdp, hr2]
  by_cases hlt : i < m
  · rw [(g i hlt).1, hEv i hlt, hOv i hlt]
    field_simp
  · obtain ⟨j, rfl⟩ : ∃ j, i = m + j := ⟨i - m, by omega⟩
    have hj : j < m := by omega
    rw [(g j hj).2, hEv j hj, hOv j hj, dft_decale _ _ hone, dft_decale _ _ hone]
    field_simp

/-! ### Plans -/

/-- A plan correctly configured for the size `m`. -/
inductive Pret (A : Trigo K) : Nat → Plan K → Prop
  | puissance (m : Nat) (av : Bool) (chirp : List K) (sous : Option (Plan K)) : m &&& (m - 1) = 0 →
      Pret A m (.mk m m av (tfrRotation A m) chirp sous)
  | impair (m : Nat) (av : Bool) (sous : Option (Plan K)) : m &&& (m - 1) ≠ 0 → m % 2 = 1 →
      Pret A m (.mk m (A.pp2 (2 * m - 1)) av (tfrRotation A (A.pp2 (2 * m - 1))) (chirpVec A m) sous)
  | pair (m : Nat) (av : Bool) (chirp : List K) (q : Plan K) : m &&& (m - 1) ≠ 0 → m % 2 = 0 → 0 < m → Pret A (m / 2) q →
      Pret A m (.mk m m av (tfrRotation A m) chirp (some q))

/-- size of a plan -/
def Plan.taille : Plan K → Int
  | .mk n _ _ _ _ _ => n

/-- A plan not configured yet, or configured for some size. -/
def Valide (A : Trigo K) (p : Plan K) : Prop := p.taille = -1 ∨ ∃ m, Pret A m p

theorem Pret.taille {A : Trigo K} {m : Nat} {p : Plan K} (h : Pret A m p) : p.taille = m := by
  cases h <;> rfl

theorem configure_pret (A : Trigo K) (avant : Bool) : ∀ n (p : Plan K), Pret A n (p.configure A n avant) := by
  intro n
  induction n using Nat.strong_induction_on with
  | _ n ih =>
    intro p
    obtain ⟨a, b, c, d, ch, s⟩ := p
    rw [Plan.configure]
    by_cases h1 : n &&& (n - 1) = 0
    · rw [if_neg (by simpa using h1)]
      exact .puissance n avant ch s h1
    · rw [if_pos h1]
      by_cases h2 : n % 2 = 0 ∧ 0 < n
      · rw [if_pos h2]
        exact .pair n avant ch _ h1 h2.1 h2.2 (ih (n / 2) (by omega) _)
      · rw [if_neg h2]
        refine .impair n avant s h1 ?_
        rcases Nat.eq_zero_or_pos n with h0 | h0
        · subst h0; exact absurd (by decide) h1
        · omega

theorem puissance_de_2 (n : Nat) (h0 : 0 < n) (h : n &&& (n - 1) = 0) : ∃ k, n = 2 ^ k :=
  (Nat.and_sub_one_eq_zero_iff_isPowerOfTwo (by omega)).1 h

theorem pp2_ne {A : Trigo K} (L : Lois A) (m : Nat) (h : m % 2 = 1) (hm : m &&& (m - 1) ≠ 0) : A.pp2 (2 * m - 1) ≠ m := by
  obtain ⟨k, e, h1, h2⟩ := L.pp2 (2 * m - 1) (by omega)
  rw [e]
  intro hc
  by_cases hm1 : m = 1
  · subst hm1; exact hm (by decide)
  · omega

theorem step_tfd {A : Trigo K} (L : Lois A) [CharZero K] (avant : Bool) : ∀ n (x : List K) (p : Plan K), x.length = n → 0 < n →
    n ≤ 2 ^ 29 → Valide A p → ∃ p' y, p.step A x avant = some (p', y) ∧ Pret A n p' ∧ EstTfd A avant x y := by
  intro n
  induction n using Nat.strong_induction_on with
  | _ n ih =>
    intro x p hx hn hn2 hv
    unfold Plan.step
    rw [if_neg (by omega)]
    have hp : Pret A n (p.assure A x.length) := by
      obtain ⟨a, b, c, d, ch, s⟩ := p
      rw [Plan.assure]
      by_cases ha : a = (x.length : Int)
      · rw [if_neg (by simpa using ha)]
        rcases hv with h | ⟨m, h⟩
        · have : a = -1 := h
          omega
        · have ht := h.taille
          have : a = (m : Int) := ht
          have : m = n := by omega
          rw [← this]; exact h
      · rw [if_pos ha, hx]
        exact configure_pret A c n _
    generalize p.assure A x.length = p1 at hp
    cases hp with
    | puissance _ av ch s hpow =>
      obtain ⟨k, hk⟩ := puissance_de_2 n hn hpow
      have hk30 : k ≤ 30 := by
        by_contra hc
        have : 2 ^ 31 ≤ 2 ^ k := Nat.pow_le_pow_right (by omega) (by omega)
        omega
      obtain ⟨y, ey, ty⟩ := radix2_tfd L avant (List.replicate n 0) (List.replicate n 0) x k (by omega) hk30 (by simp [hx]) (by simp [hx])
      rw [hx] at ey
      refine ⟨_, y, ?_, .puissance n av ch s hpow, ty⟩
      simp only [ne_eq, not_true_eq_false, if_false, Int.toNat_natCast, hpow, if_true, ey]
    | impair _ av s hpow hodd =>
      obtain ⟨y, ey, ty⟩ := czt_tfd L x (by omega) (by omega)
      rw [hx] at ey
      have hne : ((A.pp2 (2 * n - 1) : Nat) : Int) ≠ (n : Int) := by
        have := pp2_ne L n hodd hpow
        exact_mod_cast this
      dsimp only
      rw [if_pos hne]
      simp only [Int.toNat_natCast, ey]
      cases avant with
      | true => exact ⟨_, y, rfl, .impair n av s hpow hodd, ty⟩
      | false =>
        obtain ⟨Y, eY, lY, gY⟩ := tfr2itfr_impair 0 y (by rw [ty.1, hx]; exact hodd)
        simp only [Bool.false_eq_true, if_false, eY]
        refine ⟨_, Y, rfl, .impair n av s hpow hodd, by rw [lY, ty.1], ?_⟩
        intro i hi
        rw [gY i (by rw [ty.1]; exact hi), ty.1, ty.2 _ (Nat.mod_lt _ (by omega)), ratio_not,
          dft_miroir _ _ (by omega) (ratio_prim L _ (by omega) true) _ _ hi]
    | pair _ av ch q hpow heven hpos hq =>
      dsimp only
      rw [if_neg (by simp)]
      simp only [Int.toNat_natCast]
      rw [if_neg hpow]
      have h1n : 1 < n := by
        by_contra hc
        have : n = 1 := by omega
        subst this
        omega
      rw [if_pos (by omega)]
      obtain ⟨q1, E, e2, hq1, hE⟩ := ih (n / 2) (by omega) (pairs x) q (by rw [pairs_length]; omega) (by omega) (by omega)
        (.inr ⟨_, hq⟩)
      obtain ⟨q2, O, e3, hq2, hO⟩ := ih (n / 2) (by omega) (impairs x) q1 (by rw [impairs_length]; omega) (by omega) (by omega)
        (.inr ⟨_, hq1⟩)
      obtain ⟨y, ey, ty⟩ := recombine_tfd L avant x E O (n / 2) (by omega) (by omega) hE hO
      simp only [e2, e3]
      rw [hx] at ey
      rw [hx, ey]
      exact ⟨_, y, rfl, .pair n av ch q2 hpow heven hpos hq2, ty⟩

end Verif.Fourier
