/-
C131: equiripple design.

Specification: `Ampl h ν`, the amplitude of the frequency response of a filter with linear phase, and `MoindresCarres lsq`, what is expected of the least-squares solver of the linear algebra library.
-/
import Verif.Conception.AmplitudeProps
import Verif.Conception.ChebProps
import Mathlib.Analysis.InnerProductSpace.Projection.Minimal
import Mathlib.Analysis.InnerProductSpace.PiL2
import Mathlib.Tactic.IntervalCases

namespace Verif.Conception

open Finset Verif.Fourier

/-- Specification: amplitude of the response of a symmetric filter (the response without its linear phase). -/
noncomputable def Ampl (h : List ℝ) (ν : ℝ) : ℝ := (Complex.exp (Complex.I * (Real.pi * ν * ((h.length : ℝ) - 1) : ℝ)) * reponse h ν).re

/-- Specification: symmetric coefficients. -/
def Symetrique (h : List ℝ) : Prop := ∀ k, k < h.length → h.getD (h.length - 1 - k) 0 = h.getD k 0

/-- Component `i` of the residue of a linear system. -/
noncomputable def ecart (A : List (List ℝ)) (b x : List ℝ) (i : ℕ) : ℝ := (matvec A x).getD i 0 - b.getD i 0

/-- Specification of the least-squares solver: on every system with as many equations as values (at least one), it returns a vector that minimises the sum of the squares of the residues. -/
def MoindresCarres (lsq : List (List ℝ) → List ℝ → Option (List ℝ)) : Prop :=
  ∀ (A : List (List ℝ)) (b : List ℝ) (m : ℕ), b ≠ [] → (∀ l ∈ A, l.length = m) → A.length = b.length →
    ∃ x, lsq A b = some x ∧ x.length = m ∧ ∀ x' : List ℝ, x'.length = m → ∑ i ∈ range b.length, ecart A b x i ^ 2 ≤ ∑ i ∈ range b.length, ecart A b x' i ^ 2

/-! ### Lemmas on lists -/

theorem matvec_length (A : List (List ℝ)) (x : List ℝ) : (matvec A x).length = A.length := by simp [matvec]

theorem matvec_getD (A : List (List ℝ)) (x : List ℝ) (i : ℕ) (hi : i < A.length) : (matvec A x).getD i 0 = (List.zipWith (fun a b : ℝ => a * b) A[i] x).sum := by
  rw [matvec, List.getD_eq_getElem?_getD, List.getElem?_map, List.getElem?_eq_getElem hi]
  rfl

theorem getD_zipWith (f : ℝ → ℝ → ℝ) (a b : List ℝ) (n : ℕ) (la : a.length = n) (lb : b.length = n) (i : ℕ) (hi : i < n) :
    (List.zipWith f a b).getD i 0 = f (a.getD i 0) (b.getD i 0) := by
  rw [List.getD_eq_getElem?_getD, List.getElem?_zipWith, List.getElem?_eq_getElem (by omega), List.getElem?_eq_getElem (by omega),
    List.getD_eq_getElem?_getD, List.getD_eq_getElem?_getD, List.getElem?_eq_getElem (by omega), List.getElem?_eq_getElem (by omega)]
  rfl

theorem zip_somme (c : ℕ → ℝ) (g : List ℝ) (n : ℕ) (hg : g.length = n) :
    (List.zipWith (fun a b : ℝ => a * b) ((List.range n).map c) g).sum = ∑ k ∈ range n, c k * g.getD k 0 := by
  subst hg
  induction g generalizing c with
  | nil => simp
  | cons a g ih =>
    rw [List.length_cons, List.range_succ_eq_map, List.map_cons, List.map_map, List.zipWith_cons_cons, List.sum_cons, ih, Finset.sum_range_succ']
    simp [add_comm]

theorem valeurMin_prop (l : List ℝ) (hl : l ≠ []) : valeurMin l ∈ l ∧ ∀ x ∈ l, valeurMin l ≤ x := by
  have key : ∀ (l : List ℝ) (v : ℝ), (l.foldl min v = v ∨ l.foldl min v ∈ l) ∧ l.foldl min v ≤ v ∧ ∀ x ∈ l, l.foldl min v ≤ x := by
    intro l
    induction l with
    | nil => intro v; simp
    | cons a l ih =>
      intro v
      obtain ⟨h1, h2, h3⟩ := ih (min v a)
      refine ⟨?_, h2.trans (min_le_left v a), fun x hx => ?_⟩
      · rcases h1 with h1 | h1
        · rw [List.foldl_cons, h1]
          rcases min_choice v a with h | h <;> simp [h]
        · right; simp [h1]
      · rcases List.mem_cons.1 hx with rfl | hx
        · exact h2.trans (min_le_right v x)
        · exact h3 x hx
  cases l with
  | nil => exact absurd rfl hl
  | cons v l =>
    obtain ⟨h1, h2, h3⟩ := key l v
    refine ⟨?_, fun x hx => ?_⟩
    · rcases h1 with h1 | h1
      · simp [valeurMin, h1]
      · simp [valeurMin, h1]
    · rcases List.mem_cons.1 hx with rfl | hx
      · exact h2
      · exact h3 x hx

/-! ### The iteration -/

section
variable (A : List (List ℝ)) (b w : List ℝ) (m : ℕ)

/-- `x` minimises the sum of the squares weighted by the squares of `p`. -/
def Optimal (p x : List ℝ) : Prop := x.length = m ∧ ∀ x' : List ℝ, x'.length = m →
  ∑ i ∈ range b.length, p.getD i 0 ^ 2 * ecart A b x i ^ 2 ≤ ∑ i ∈ range b.length, p.getD i 0 ^ 2 * ecart A b x' i ^ 2

/-- The weights are positive. -/
def PoidsPos (p : List ℝ) : Prop := p.length = b.length ∧ ∀ i, i < b.length → 0 < p.getD i 0

theorem erreur_length (hA : A.length = b.length) (hw : w.length = b.length) (x : List ℝ) : (erreurLsi A b w x).length = b.length := by
  simp [erreurLsi, matvec_length, hA, hw]

theorem erreur_getD (hA : A.length = b.length) (hw : w.length = b.length) (x : List ℝ) (i : ℕ) (hi : i < b.length) :
    (erreurLsi A b w x).getD i 0 = |ecart A b x i| * w.getD i 0 := by
  unfold erreurLsi
  rw [getD_zipWith _ _ _ b.length (by simp [matvec_length, hA]) hw i hi, getD_zipWith _ _ _ b.length (by rw [matvec_length, hA]) rfl i hi]
  rfl

/-- Scaled system: its residue is the scaled residue. -/
theorem ecart_echelle (hA : A.length = b.length) (p : List ℝ) (hp : p.length = b.length) (x : List ℝ) (i : ℕ) (hi : i < b.length) :
    ecart (List.zipWith (fun (q : ℝ) (l : List ℝ) => l.map fun v : ℝ => q * v) p A) (List.zipWith (fun u v : ℝ => u * v) b p) x i = p.getD i 0 * ecart A b x i := by
  unfold ecart
  rw [matvec_getD _ _ _ (by simp; omega), matvec_getD _ _ _ (by omega), getD_zipWith _ _ _ b.length rfl hp i hi, List.getElem_zipWith]
  have : ∀ (q : ℝ) (l g : List ℝ), (List.zipWith (fun a b : ℝ => a * b) (l.map fun v : ℝ => q * v) g).sum = q * (List.zipWith (fun a b : ℝ => a * b) l g).sum := by
    intro q l
    induction l with
    | nil => simp
    | cons a l ih =>
      intro g
      cases g with
      | nil => simp
      | cons c g => simp only [List.map_cons, List.zipWith_cons_cons, List.sum_cons, ih]; ring
  rw [this, List.getD_eq_getElem?_getD (l := p), List.getElem?_eq_getElem (by omega), Option.getD_some]
  ring

theorem poids_nouveaux (hb : b ≠ []) (hA : A.length = b.length) (hw : w.length = b.length) (x p : List ℝ) (hp : PoidsPos b p) :
    PoidsPos b (poidsLsi p (erreurLsi A b w x) (valeurMax (erreurLsi A b w x)) (valeurMin (erreurLsi A b w x))) := by
  have lE := erreur_length A b w hA hw x
  have hE : erreurLsi A b w x ≠ [] := by
    intro h; rw [h] at lE; exact hb (List.length_eq_zero_iff.1 (by simpa using lE.symm))
  set Ea := erreurLsi A b w x
  obtain ⟨m1, m2⟩ := valeurMin_prop Ea hE
  have hle : valeurMin Ea ≤ valeurMax Ea := (valeurMax_prop Ea hE).2 _ m1
  refine ⟨by simp [poidsLsi, hp.1, lE], fun i hi => ?_⟩
  unfold poidsLsi
  rw [getD_zipWith _ _ _ b.length hp.1 lE i hi]
  have h1 : valeurMin Ea ≤ Ea.getD i 0 := m2 _ (by
    rw [List.getD_eq_getElem?_getD, List.getElem?_eq_getElem (by omega)]
    exact List.getElem_mem _)
  have h2 : 0 ≤ 0.5 / (valeurMax Ea - valeurMin Ea) * (Ea.getD i 0 - valeurMin Ea) := by
    apply mul_nonneg
    · apply div_nonneg (by norm_num); linarith
    · linarith
  have := hp.2 i hi
  exact mul_pos this (by linarith)

theorem poids_norme (hb : b ≠ []) (p : List ℝ) (hp : PoidsPos b p) : 0 < p.sum ∧ PoidsPos b (p.map fun v : ℝ => v / p.sum) := by
  have h0 : 0 < p.sum := by
    rw [somme_range, hp.1]
    apply Finset.sum_pos
    · intro i hi; exact hp.2 i (Finset.mem_range.1 hi)
    · rw [Finset.nonempty_range_iff]; intro h; exact hb (List.length_eq_zero_iff.1 h)
  refine ⟨h0, by simp [hp.1], fun i hi => ?_⟩
  have := hp.2 i hi
  have hl : i < p.length := by rw [hp.1]; exact hi
  rw [List.getD_eq_getElem?_getD, List.getElem?_eq_getElem hl, Option.getD_some] at this
  rw [List.getD_eq_getElem?_getD, List.getElem?_map, List.getElem?_eq_getElem hl]
  exact div_pos this h0

theorem optimal_nouveau (lsq : List (List ℝ) → List ℝ → Option (List ℝ)) (hl : MoindresCarres lsq) (hb : b ≠ []) (hA : A.length = b.length) (hm : ∀ l ∈ A, l.length = m) (p : List ℝ) (hp : p.length = b.length) :
    ∃ x, lsq (List.zipWith (fun (q : ℝ) (l : List ℝ) => l.map fun v : ℝ => q * v) p A) (List.zipWith (fun u v : ℝ => u * v) b p) = some x ∧ Optimal A b m p x := by
  obtain ⟨x, e, l, g⟩ := hl (List.zipWith (fun (q : ℝ) (l : List ℝ) => l.map fun v : ℝ => q * v) p A) (List.zipWith (fun u v : ℝ => u * v) b p) m (by
    intro h
    have := congrArg List.length h
    rw [List.length_zipWith, hp, min_self] at this
    exact hb (List.length_eq_zero_iff.1 this)) (by
    intro r hr
    rw [List.mem_iff_getElem] at hr
    obtain ⟨i, hi, rfl⟩ := hr
    rw [List.getElem_zipWith, List.length_map]
    exact hm _ (List.getElem_mem _)) (by simp [hA, hp])
  refine ⟨x, e, l, fun x' hx' => ?_⟩
  have := g x' hx'
  rw [List.length_zipWith, hp, min_self] at this
  have conv : ∀ y : List ℝ, ∑ i ∈ range b.length, ecart (List.zipWith (fun (q : ℝ) (l : List ℝ) => l.map fun v : ℝ => q * v) p A) (List.zipWith (fun u v : ℝ => u * v) b p) y i ^ 2 =
      ∑ i ∈ range b.length, p.getD i 0 ^ 2 * ecart A b y i ^ 2 := fun y => Finset.sum_congr rfl fun i hi => by
    rw [ecart_echelle A b hA p hp y i (Finset.mem_range.1 hi), mul_pow]
  rwa [conv, conv] at this

/-- Every result of the loop is a weighted least-squares solution, with positive weights. -/
theorem boucle_optimal (lsq : List (List ℝ) → List ℝ → Option (List ℝ)) (hl : MoindresCarres lsq) (hb : b ≠ []) (hA : A.length = b.length) (hw : w.length = b.length) (hm : ∀ l ∈ A, l.length = m) (k : ℕ)
    (x p : List ℝ) (hp : PoidsPos b p) (hx : Optimal A b m p x) (y : List ℝ) (h : boucleLsi lsq A b w k x p = some y) : ∃ q, PoidsPos b q ∧ Optimal A b m q y := by
  induction k generalizing x p with
  | zero => simp only [boucleLsi, Option.some.injEq] at h; subst h; exact ⟨p, hp, hx⟩
  | succ k ih =>
    unfold boucleLsi at h
    dsimp only at h
    split_ifs at h with h1 h2 h3
    · simp only [Option.some.injEq] at h; subst h; exact ⟨p, hp, hx⟩
    · obtain ⟨-, hp2⟩ := poids_norme b hb _ (poids_nouveaux A b w hb hA hw x p hp)
      obtain ⟨x', e, o⟩ := optimal_nouveau A b m lsq hl hb hA hm _ hp2.1
      rw [e, Option.bind_some] at h
      exact ih x' _ hp2 o h

/-- When no vector satisfies all the equations of positive weight, the loop returns. -/
theorem boucle_total (lsq : List (List ℝ) → List ℝ → Option (List ℝ)) (hl : MoindresCarres lsq) (hb : b ≠ []) (hA : A.length = b.length) (hw : w.length = b.length) 
    (hm : ∀ l ∈ A, l.length = m) (hne : ∀ x : List ℝ, x.length = m → ∃ i, i < b.length ∧ 0 < w.getD i 0 ∧ ecart A b x i ≠ 0) (k : ℕ)
    (x p : List ℝ) (hp : PoidsPos b p) (hx : x.length = m) : ∃ y, boucleLsi lsq A b w k x p = some y := by
  induction k generalizing x p with
  | zero => exact ⟨x, rfl⟩
  | succ k ih =>
    unfold boucleLsi
    dsimp only
    have h1 : ¬ valeurMax (erreurLsi A b w x) = 0 := by
      obtain ⟨i, hi, hwi, hne⟩ := hne x hx
      have lE := erreur_length A b w hA hw x
      have hE : erreurLsi A b w x ≠ [] := by
        intro h; rw [h] at lE; exact hb (List.length_eq_zero_iff.1 (by simpa using lE.symm))
      have := (valeurMax_prop _ hE).2 ((erreurLsi A b w x).getD i 0) (by
        rw [List.getD_eq_getElem?_getD, List.getElem?_eq_getElem (by omega)]
        exact List.getElem_mem _)
      rw [erreur_getD A b w hA hw x i hi] at this
      have h3 := mul_pos (abs_pos.2 hne) hwi
      linarith
    rw [if_neg h1]
    split_ifs with h2 h3
    · exact ⟨x, rfl⟩
    · exact absurd h3 (poids_norme b hb _ (poids_nouveaux A b w hb hA hw x p hp)).1.ne'
    · obtain ⟨-, hp2⟩ := poids_norme b hb _ (poids_nouveaux A b w hb hA hw x p hp)
      obtain ⟨x', e, o⟩ := optimal_nouveau A b m lsq hl hb hA hm _ hp2.1
      rw [e, Option.bind_some]
      exact ih x' _ hp2 o.1

theorem poids_un (hb : b ≠ []) : PoidsPos b (List.replicate b.length 1) := by
  refine ⟨by simp, fun i hi => ?_⟩
  simp [List.getElem?_replicate, hi]

theorem optimal_un (x : List ℝ) (hl : x.length = m) (h : ∀ x' : List ℝ, x'.length = m → ∑ i ∈ range b.length, ecart A b x i ^ 2 ≤ ∑ i ∈ range b.length, ecart A b x' i ^ 2) :
    Optimal A b m (List.replicate b.length 1) x := by
  refine ⟨hl, fun x' hx' => ?_⟩
  have conv : ∀ y : List ℝ, ∑ i ∈ range b.length, (List.replicate b.length (1 : ℝ)).getD i 0 ^ 2 * ecart A b y i ^ 2 = ∑ i ∈ range b.length, ecart A b y i ^ 2 :=
    fun y => Finset.sum_congr rfl fun i hi => by
      rw [List.getD_eq_getElem?_getD, List.getElem?_replicate, if_pos (Finset.mem_range.1 hi)]
      simp
  rw [conv, conv]
  exact h x' hx'

/-- A weighted least-squares solution cannot be beaten everywhere. -/
theorem optimal_minimax (hb : b ≠ []) (w : List ℝ) (hw0 : ∀ i, i < b.length → 0 < w.getD i 0) (q x x' : List ℝ) (hq : PoidsPos b q) (hx : Optimal A b m q x) (hx' : x'.length = m)
    (ε : ℝ) (hε : ∀ i, i < b.length → ε ≤ |ecart A b x i| * w.getD i 0) : ∃ i, i < b.length ∧ ε ≤ |ecart A b x' i| * w.getD i 0 := by
  by_contra hcon
  push Not at hcon
  have h0 : 0 < b.length := List.length_pos_iff.2 hb
  have hlt : ∑ i ∈ range b.length, q.getD i 0 ^ 2 * ecart A b x' i ^ 2 < ∑ i ∈ range b.length, q.getD i 0 ^ 2 * ecart A b x i ^ 2 := by
    apply Finset.sum_lt_sum_of_nonempty ⟨0, Finset.mem_range.2 h0⟩
    intro i hi
    rw [Finset.mem_range] at hi
    have h1 : |ecart A b x' i| * w.getD i 0 < |ecart A b x i| * w.getD i 0 := (hcon i hi).trans_le (hε i hi)
    have h2 : |ecart A b x' i| < |ecart A b x i| := lt_of_mul_lt_mul_right h1 (hw0 i hi).le
    exact mul_lt_mul_of_pos_left (sq_lt_sq.2 h2) (by have := hq.2 i hi; positivity)
  exact absurd (hx.2 x' hx') (not_le.2 hlt)

end

/-! ### From the solution to the filter -/

theorem coefsEq_some (nc : ℕ) (x : List ℝ) (hx : x.length = (nc + 1) / 2) : ∃ h, coefsEq nc x = some h ∧ h.length = nc ∧
    ∀ k, k < nc → h.getD k 0 = x.getD (if k < (nc + 1) / 2 then k else nc - 1 - k) 0 := by
  set q := nc / 2 with hq
  have lt : (x.take q).length = q := by rw [List.length_take, hx]; omega
  have e1 : ecrit (List.replicate nc (0 : ℝ)) 0 (x.take q) = some (x.take q ++ List.replicate (nc - q) 0) := by
    rw [ecrit, if_pos (by simp [lt]; omega), lt]
    simp
  have e2 : ecritQueue (x.take q ++ List.replicate (nc - q) 0) (x.take q).reverse = some (x.take q ++ List.replicate (nc - q - q) 0 ++ (x.take q).reverse) := by
    have ll : (x.take q ++ List.replicate (nc - q) (0 : ℝ)).length = nc := by rw [List.length_append, lt, List.length_replicate]; omega
    rw [ecritQueue, if_pos (by rw [ll, List.length_reverse, lt]; omega), ecrit, if_pos (by rw [ll, List.length_reverse, lt]; omega), ll, List.length_reverse, lt, List.drop_eq_nil_of_le (by rw [ll]; omega),
      List.append_nil, List.take_append, lt, List.take_of_length_le (by rw [lt]; omega), List.take_replicate, min_eq_left (by omega)]
  have gt : ∀ k, k < q → (x.take q)[k]? = some (x.getD k 0) := by
    intro k hk
    rw [List.getElem?_take_of_lt hk, List.getD_eq_getElem?_getD, List.getElem?_eq_getElem (by omega)]
    rfl
  have gr : ∀ k, k < q → (x.take q).reverse[k]? = some (x.getD (q - 1 - k) 0) := by
    intro k hk
    rw [List.getElem?_reverse (by omega), lt, gt _ (by omega)]
  by_cases hp : nc % 2 = 1
  · have hxq : x[q]? = some (x.getD q 0) := by
      rw [List.getD_eq_getElem?_getD, List.getElem?_eq_getElem (by omega)]; rfl
    refine ⟨_, by rw [coefsEq, if_pos (by omega)]; simp only [← hq, e1, e2, Option.bind_eq_bind, Option.bind_some, if_pos hp, hxq]; rfl, ?_, fun k hk => ?_⟩
    · rw [List.length_set, List.length_append, List.length_append, List.length_reverse, lt, List.length_replicate]; omega
    · rw [List.getD_eq_getElem?_getD, List.getElem?_set]
      have ll : (x.take q ++ List.replicate (nc - q - q) (0 : ℝ)).length = q + 1 := by rw [List.length_append, lt, List.length_replicate]; omega
      by_cases h1 : q = k
      · subst h1
        rw [if_pos rfl, if_pos (by rw [List.length_append, ll, List.length_reverse, lt]; omega), if_pos (by omega)]
        rfl
      · rw [if_neg h1]
        by_cases h3 : k < (nc + 1) / 2
        · rw [if_pos h3, List.getElem?_append_left (by omega), List.getElem?_append_left (by omega), gt k (by omega)]; rfl
        · rw [if_neg h3, List.getElem?_append_right (by omega), ll, gr _ (by omega)]
          simp only [Option.getD_some]
          congr 1; omega
  · refine ⟨_, by rw [coefsEq, if_pos (by omega)]; simp only [← hq, e1, e2, Option.bind_eq_bind, Option.bind_some, if_neg hp]; rfl, ?_, fun k hk => ?_⟩
    · rw [List.length_append, List.length_append, List.length_reverse, lt, List.length_replicate]; omega
    · rw [List.getD_eq_getElem?_getD]
      have ll : (x.take q ++ List.replicate (nc - q - q) (0 : ℝ)).length = q := by rw [List.length_append, lt, List.length_replicate]; omega
      split_ifs with h3
      · rw [List.getElem?_append_left (by omega), List.getElem?_append_left (by omega), gt k (by omega)]; rfl
      · rw [List.getElem?_append_right (by omega), ll, gr _ (by omega)]
        simp only [Option.getD_some]
        congr 1; omega

theorem Ampl_sym (h : List ℝ) (hs : Symetrique h) (ν : ℝ) : Ampl h ν = rifampImpl h (2 * Real.pi * ν) (if h.length % 2 = 0 then 2 else 1) := by
  rw [Ampl, amplitude_sym h hs, Complex.ofReal_re]

theorem rifampImpl_sym (h : List ℝ) (ω : ℝ) : rifampImpl h ω (if h.length % 2 = 0 then 2 else 1) =
    (∑ k ∈ range (h.length / 2), h.getD k 0 * 2 * Real.cos (ω * (0.5 * ((h.length : ℝ) - 1) - (k : ℝ)))) + if h.length % 2 = 1 then h.getD (h.length / 2) 0 else 0 := by
  unfold rifampImpl
  simp only [somme_liste]
  by_cases hp : h.length % 2 = 0
  · simp [hp]
  · simp [hp, show h.length % 2 = 1 by omega]

/-- A row of the system computes the amplitude of the filter. -/
theorem ligne_amplitude (nc n i : ℕ) (hn : 0 < n) (h x : List ℝ) (lh : h.length = nc) (hs : Symetrique h) (lx : x.length = (nc + 1) / 2) (hx : ∀ k, k < (nc + 1) / 2 → x.getD k 0 = h.getD k 0) :
    (List.zipWith (fun a b : ℝ => a * b) (ligneEq nc n i) x).sum = Ampl h ((i : ℝ) / (2 * n)) := by
  have hn0 : (n : ℝ) ≠ 0 := by exact_mod_cast hn.ne'
  rw [Ampl_sym h hs, rifampImpl_sym, lh, ligneEq]
  rw [zip_somme _ _ _ lx]
  have hcos : ∀ k : ℕ, Real.cos ((i : ℝ) * Real.pi / n * ((k : ℝ) - ((nc : ℝ) - 1) / 2)) = Real.cos (2 * Real.pi * ((i : ℝ) / (2 * n)) * (0.5 * ((nc : ℝ) - 1) - (k : ℝ))) := by
    intro k
    rw [← Real.cos_neg]
    congr 1
    field_simp
    ring
  by_cases hp : nc % 2 = 1
  · rw [show (nc + 1) / 2 = nc / 2 + 1 by omega, Finset.sum_range_succ, if_pos hp, if_pos (by omega), one_mul, hx (nc / 2) (by omega)]
    congr 1
    refine Finset.sum_congr rfl fun k hk => ?_
    rw [Finset.mem_range] at hk
    rw [if_neg (by omega), hx k (by omega), hcos]
    ring
  · rw [show (nc + 1) / 2 = nc / 2 by omega, if_neg hp, add_zero]
    refine Finset.sum_congr rfl fun k hk => ?_
    rw [Finset.mem_range] at hk
    rw [if_neg (by omega), hx k (by omega), hcos]
    ring

/-- The system of the design. -/
noncomputable def systeme (nc n : ℕ) : List (List ℝ) := (List.range n).map fun i : ℕ => ligneEq nc n i

theorem systeme_lignes (nc n : ℕ) : ∀ l ∈ systeme nc n, l.length = (nc + 1) / 2 := by
  intro l hl
  simp only [systeme, List.mem_map] at hl
  obtain ⟨i, -, rfl⟩ := hl
  simp [ligneEq]

theorem ecart_systeme (nc : ℕ) (D : List ℝ) (h x : List ℝ) (lh : h.length = nc) (hs : Symetrique h) (lx : x.length = (nc + 1) / 2) (hx : ∀ k, k < (nc + 1) / 2 → x.getD k 0 = h.getD k 0) (i : ℕ) (hi : i < D.length) :
    ecart (systeme nc D.length) D x i = Ampl h ((i : ℝ) / (2 * D.length)) - D.getD i 0 := by
  unfold ecart
  rw [matvec_getD _ _ _ (by simp [systeme, hi])]
  have : (systeme nc D.length)[i]'(by simp [systeme, hi]) = ligneEq nc D.length i := by simp [systeme]
  rw [this, ligne_amplitude nc D.length i (by omega) h x lh hs lx hx]

/-- The filter of a solution. -/
theorem filtre_solution (nc : ℕ) (x : List ℝ) (lx : x.length = (nc + 1) / 2) : ∃ h, coefsEq nc x = some h ∧ h.length = nc ∧ Symetrique h ∧ ∀ k, k < (nc + 1) / 2 → x.getD k 0 = h.getD k 0 := by
  obtain ⟨h, e, l, g⟩ := coefsEq_some nc x lx
  refine ⟨h, e, l, fun k hk => ?_, fun k hk => ?_⟩
  · rw [l] at hk ⊢
    rw [g k hk, g _ (by omega)]
    congr 1
    split_ifs <;> omega
  · by_cases h0 : k < nc
    · rw [g k h0, if_pos hk]
    · omega

/-- The solution of a filter. -/
theorem solution_filtre (h : List ℝ) : ∃ x : List ℝ, x.length = (h.length + 1) / 2 ∧ ∀ k, k < (h.length + 1) / 2 → x.getD k 0 = h.getD k 0 := by
  refine ⟨h.take ((h.length + 1) / 2), by rw [List.length_take]; omega, fun k hk => ?_⟩
  rw [List.getD_eq_getElem?_getD, List.getElem?_take_of_lt hk, ← List.getD_eq_getElem?_getD]

/-- **C131 (best weighted filter).**  Let `lsq` be a least-squares solver.  For every number of coefficients, every template `D` on the frequencies `i/(2n)` and all positive weights `W`: if the design
returns `h`, then `h` has `nc` symmetric coefficients (linear phase), and no other symmetric filter of `nc` coefficients has all its weighted errors below the smallest weighted error of `h`. -/
theorem C131_minimax (lsq : List (List ℝ) → List ℝ → Option (List ℝ)) (hl : MoindresCarres lsq) (nc : ℕ) (D W : List ℝ) (hD : D ≠ []) (hW : ∀ i, i < D.length → 0 < W.getD i 0) (h : List ℝ)
    (hd : designRifEq lsq nc D W = some h) : h.length = nc ∧ Symetrique h ∧
      ∀ h' : List ℝ, h'.length = nc → Symetrique h' → ∀ ε : ℝ, (∀ i, i < D.length → ε ≤ |Ampl h ((i : ℝ) / (2 * D.length)) - D.getD i 0| * W.getD i 0) →
        ∃ i, i < D.length ∧ ε ≤ |Ampl h' ((i : ℝ) / (2 * D.length)) - D.getD i 0| * W.getD i 0 := by
  unfold designRifEq lsi at hd
  split_ifs at hd with h1 h2
  · have hA : (systeme nc D.length).length = D.length := by simp [systeme]
    obtain ⟨x0, e0, l0, g0⟩ := hl (systeme nc D.length) D ((nc + 1) / 2) hD (systeme_lignes nc D.length) hA
    change ((lsq (systeme nc D.length) D).bind _).bind _ = _ at hd
    rw [e0, Option.bind_some, Option.bind_eq_some_iff] at hd
    obtain ⟨x, ex, hx⟩ := hd
    obtain ⟨q, hq, ho⟩ := boucle_optimal (systeme nc D.length) D W ((nc + 1) / 2) lsq hl hD hA h1 (systeme_lignes nc D.length) 100 x0 _ (poids_un D hD) (optimal_un _ D _ x0 l0 g0) x ex
    obtain ⟨h2, e2, l2, s2, g2⟩ := filtre_solution nc x ho.1
    rw [e2, Option.some.injEq] at hx
    subst hx
    refine ⟨l2, s2, fun h' l' s' ε hε => ?_⟩
    obtain ⟨x', lx', gx'⟩ := solution_filtre h'
    rw [l'] at lx' gx'
    obtain ⟨i, hi, hmm⟩ := optimal_minimax (systeme nc D.length) D ((nc + 1) / 2) hD W hW q x x' hq ho lx' ε (fun i hi => by
      rw [ecart_systeme nc D h2 x l2 s2 ho.1 g2 i hi]; exact hε i hi)
    refine ⟨i, hi, ?_⟩
    rwa [ecart_systeme nc D h' x' l' s' lx' gx' i hi] at hmm
  · simp at hd

/-- **C131 (equiripple implies near optimality).**  If all the weighted errors of the filter obtained are within the relative gap `δ` of the greatest one `E`, then the greatest weighted error of
every other symmetric filter with as many coefficients is at least `(1 - δ) E`. -/
theorem C131_quasi_optimal (lsq : List (List ℝ) → List ℝ → Option (List ℝ)) (hl : MoindresCarres lsq) (nc : ℕ) (D W : List ℝ) (hD : D ≠ []) (hW : ∀ i, i < D.length → 0 < W.getD i 0) (h : List ℝ)
    (hd : designRifEq lsq nc D W = some h) (E δ : ℝ) (hE : ∀ i, i < D.length → (1 - δ) * E ≤ |Ampl h ((i : ℝ) / (2 * D.length)) - D.getD i 0| * W.getD i 0) (h' : List ℝ) (l' : h'.length = nc) (s' : Symetrique h') :
    ∃ i, i < D.length ∧ (1 - δ) * E ≤ |Ampl h' ((i : ℝ) / (2 * D.length)) - D.getD i 0| * W.getD i 0 :=
  (C131_minimax lsq hl nc D W hD hW h hd).2.2 h' l' s' _ hE

/-- **C131 (the design returns).**  When no symmetric filter with `nc` coefficients meets the template exactly at all the frequencies of positive weight, the design returns a filter. -/
theorem C131_total (lsq : List (List ℝ) → List ℝ → Option (List ℝ)) (hl : MoindresCarres lsq) (nc : ℕ) (D W : List ℝ) (hD : D ≠ []) (lW : W.length = D.length)
    (hne : ∀ h : List ℝ, h.length = nc → Symetrique h → ∃ i, i < D.length ∧ 0 < W.getD i 0 ∧ Ampl h ((i : ℝ) / (2 * D.length)) ≠ D.getD i 0) : ∃ h, designRifEq lsq nc D W = some h := by
  have hA : (systeme nc D.length).length = D.length := by simp [systeme]
  obtain ⟨x0, e0, l0, g0⟩ := hl (systeme nc D.length) D ((nc + 1) / 2) hD (systeme_lignes nc D.length) hA
  obtain ⟨y, ey⟩ := boucle_total (systeme nc D.length) D W ((nc + 1) / 2) lsq hl hD hA lW (systeme_lignes nc D.length) (fun x lx => by
    obtain ⟨h, -, l, s, g⟩ := filtre_solution nc x lx
    obtain ⟨i, hi, hwi, hh⟩ := hne h l s
    exact ⟨i, hi, hwi, by rw [ecart_systeme nc D h x l s lx g i hi, sub_ne_zero]; exact hh⟩) 100 x0 _ (poids_un D hD) l0
  obtain ⟨q, -, ho⟩ := boucle_optimal (systeme nc D.length) D W ((nc + 1) / 2) lsq hl hD hA lW (systeme_lignes nc D.length) 100 x0 _ (poids_un D hD) (optimal_un _ D _ x0 l0 g0) y ey
  obtain ⟨h, e2, -⟩ := filtre_solution nc y ho.1
  refine ⟨h, ?_⟩
  rw [designRifEq, if_pos lW, lsi, if_pos ⟨by simpa [systeme] using hA, lW⟩]
  change ((lsq (systeme nc D.length) D).bind _).bind _ = _
  rw [e0, Option.bind_some]
  change (boucleLsi lsq (systeme nc D.length) D W 100 x0 _).bind _ = _
  rw [ey, Option.bind_some, e2]

/-- **C131 (refuted: an attainable template).**  When a symmetric filter with `nc` coefficients meets the template exactly (for instance the template 1 everywhere, met by the identity), the design does
not return it: the maximal error is 0, the loop computes `0 / 0`.  (Exact arithmetic: with `float` numbers, it depends on the rounding errors of the solver.) -/
theorem C131_exact_refute (lsq : List (List ℝ) → List ℝ → Option (List ℝ)) (hl : MoindresCarres lsq) (nc : ℕ) (D W : List ℝ) (hD : D ≠ []) (h : List ℝ) (lh : h.length = nc) (hs : Symetrique h)
    (hh : ∀ i, i < D.length → Ampl h ((i : ℝ) / (2 * D.length)) = D.getD i 0) : designRifEq lsq nc D W = none := by
  have hA : (systeme nc D.length).length = D.length := by simp [systeme]
  obtain ⟨x0, e0, l0, g0⟩ := hl (systeme nc D.length) D ((nc + 1) / 2) hD (systeme_lignes nc D.length) hA
  obtain ⟨x', lx', gx'⟩ := solution_filtre h
  rw [lh] at lx' gx'
  have hz : ∀ i, i < D.length → ecart (systeme nc D.length) D x0 i = 0 := by
    have h1 := g0 x' lx'
    have h2 : ∑ i ∈ range D.length, ecart (systeme nc D.length) D x' i ^ 2 = 0 := Finset.sum_eq_zero fun i hi => by
      rw [Finset.mem_range] at hi
      rw [ecart_systeme nc D h x' lh hs lx' gx' i hi, hh i hi]; simp
    rw [h2] at h1
    have h3 := (Finset.sum_eq_zero_iff_of_nonneg (fun i _ => sq_nonneg _)).1 (le_antisymm h1 (Finset.sum_nonneg fun i _ => sq_nonneg _))
    intro i hi
    exact pow_eq_zero_iff (two_ne_zero) |>.1 (h3 i (Finset.mem_range.2 hi))
  unfold designRifEq lsi
  split_ifs with h1 h2
  · change ((lsq (systeme nc D.length) D).bind _).bind _ = _
    rw [e0, Option.bind_some]
    change (boucleLsi lsq (systeme nc D.length) D W 100 x0 _).bind _ = _
    rw [boucleLsi]
    have hE : erreurLsi (systeme nc D.length) D W x0 ≠ [] := by
      intro h; have := erreur_length (systeme nc D.length) D W hA h1 x0; rw [h] at this; exact hD (List.length_eq_zero_iff.1 (by simpa using this.symm))
    have hmax : valeurMax (erreurLsi (systeme nc D.length) D W x0) = 0 := by
      obtain ⟨m1, -⟩ := valeurMax_prop _ hE
      rw [List.mem_iff_getElem] at m1
      obtain ⟨i, hi, e⟩ := m1
      rw [← e]
      have lE := erreur_length (systeme nc D.length) D W hA h1 x0
      have := erreur_getD (systeme nc D.length) D W hA h1 x0 i (by omega)
      rw [List.getD_eq_getElem?_getD, List.getElem?_eq_getElem hi, Option.getD_some, hz i (by omega)] at this
      rw [this]; simp
    dsimp only
    rw [if_pos hmax]
    rfl
  · rfl
  · rfl

/-- The iteration of the design, as documented (IRLS): `xs t`, `ps t` are the successive solutions and weights; the loop goes on as long as the relative gap between the greatest and the smallest
weighted errors is at least `10⁻⁵`; the weight of each equation is multiplied by an affine function of its error, `1` for the smallest error and `3/2` for the greatest one, and the weights are divided by
their sum. -/
def Irls (lsq : List (List ℝ) → List ℝ → Option (List ℝ)) (A : List (List ℝ)) (b w : List ℝ) (xs ps : ℕ → List ℝ) (j : ℕ) : Prop :=
  ∀ t, t < j → ∃ emax emin, (∃ i, i < b.length ∧ emax = |ecart A b (xs t) i| * w.getD i 0) ∧ (∃ i, i < b.length ∧ emin = |ecart A b (xs t) i| * w.getD i 0) ∧
    (∀ i, i < b.length → emin ≤ |ecart A b (xs t) i| * w.getD i 0 ∧ |ecart A b (xs t) i| * w.getD i 0 ≤ emax) ∧ emax ≠ 0 ∧ 1 / 10 ^ 5 ≤ (emax - emin) / emax ∧
    (∃ s : ℝ, ∀ i, i < b.length → (ps (t + 1)).getD i 0 * s = (ps t).getD i 0 * (1 + (|ecart A b (xs t) i| * w.getD i 0 - emin) / (2 * (emax - emin)))) ∧
    ∑ i ∈ range b.length, (ps (t + 1)).getD i 0 = 1 ∧
    lsq (List.zipWith (fun (q : ℝ) (l : List ℝ) => l.map fun v : ℝ => q * v) (ps (t + 1)) A) (List.zipWith (fun u v : ℝ => u * v) b (ps (t + 1))) = some (xs (t + 1))

theorem boucle_irls (lsq : List (List ℝ) → List ℝ → Option (List ℝ)) (A : List (List ℝ)) (b w : List ℝ) (hb : b ≠ []) (hA : A.length = b.length) (hw : w.length = b.length) (k : ℕ)
    (x p : List ℝ) (hp : p.length = b.length) (y : List ℝ) (h : boucleLsi lsq A b w k x p = some y) :
    ∃ xs ps j, j ≤ k ∧ xs 0 = x ∧ ps 0 = p ∧ xs j = y ∧ Irls lsq A b w xs ps j ∧
      (j < k → ∃ emax, emax ≠ 0 ∧ (∃ i, i < b.length ∧ emax = |ecart A b y i| * w.getD i 0) ∧ ∀ i, i < b.length → |ecart A b y i| * w.getD i 0 ≤ emax ∧ (emax - |ecart A b y i| * w.getD i 0) / emax < 1 / 10 ^ 5 ∨ emax < 0) := by
  induction k generalizing x p with
  | zero => simp only [boucleLsi, Option.some.injEq] at h; subst h; exact ⟨fun _ => x, fun _ => p, 0, le_rfl, rfl, rfl, rfl, fun t ht => by omega, fun h => by omega⟩
  | succ k ih =>
    have lE := erreur_length A b w hA hw x
    have hE : erreurLsi A b w x ≠ [] := by
      intro h; rw [h] at lE; exact hb (List.length_eq_zero_iff.1 (by simpa using lE.symm))
    have hmem : ∀ v ∈ erreurLsi A b w x, ∃ i, i < b.length ∧ v = |ecart A b x i| * w.getD i 0 := by
      intro v hv
      rw [List.mem_iff_getElem] at hv
      obtain ⟨i, hi, e⟩ := hv
      refine ⟨i, by omega, ?_⟩
      rw [← erreur_getD A b w hA hw x i (by omega), List.getD_eq_getElem?_getD, List.getElem?_eq_getElem hi, Option.getD_some, e]
    have hmem2 : ∀ i, i < b.length → |ecart A b x i| * w.getD i 0 ∈ erreurLsi A b w x := by
      intro i hi
      rw [← erreur_getD A b w hA hw x i hi, List.getD_eq_getElem?_getD, List.getElem?_eq_getElem (by omega)]
      exact List.getElem_mem _
    obtain ⟨n1, n2⟩ := valeurMin_prop _ hE
    obtain ⟨x1, x2⟩ := valeurMax_prop _ hE
    have e5 : (1e-5 : ℝ) = 1 / 10 ^ 5 := by norm_num
    unfold boucleLsi at h
    dsimp only at h
    split_ifs at h with h1 h2 h3
    · simp only [Option.some.injEq] at h; subst h
      refine ⟨fun _ => x, fun _ => p, 0, by omega, rfl, rfl, rfl, fun t ht => by omega, fun _ => ⟨_, h1, hmem _ x1, fun i hi => ?_⟩⟩
      have hi2 := hmem2 i hi
      rcases lt_or_ge (valeurMax (erreurLsi A b w x)) 0 with hneg | hpos
      · right; exact hneg
      · left
        have hpos : 0 < valeurMax (erreurLsi A b w x) := lt_of_le_of_ne hpos (Ne.symm h1)
        refine ⟨x2 _ hi2, ?_⟩
        have : (valeurMax (erreurLsi A b w x) - |ecart A b x i| * w.getD i 0) / valeurMax (erreurLsi A b w x) ≤ (valeurMax (erreurLsi A b w x) - valeurMin (erreurLsi A b w x)) / valeurMax (erreurLsi A b w x) := by
          apply div_le_div_of_nonneg_right _ hpos.le
          have := n2 _ hi2
          linarith
        rw [e5] at h2
        exact this.trans_lt h2
    · rw [Option.bind_eq_some_iff] at h
      obtain ⟨x', ex', hy⟩ := h
      set Ea := erreurLsi A b w x with hEa
      set p1 := poidsLsi p Ea (valeurMax Ea) (valeurMin Ea) with hp1
      have lp1 : p1.length = b.length := by rw [hp1, poidsLsi, List.length_zipWith, hp, lE, min_self]
      have lp2 : (p1.map fun v : ℝ => v / p1.sum).length = b.length := by rw [List.length_map, lp1]
      have gp2 : ∀ i, i < b.length → (p1.map fun v : ℝ => v / p1.sum).getD i 0 = p1.getD i 0 / p1.sum := by
        intro i hi
        rw [List.getD_eq_getElem?_getD, List.getElem?_map, List.getElem?_eq_getElem (by omega), List.getD_eq_getElem?_getD, List.getElem?_eq_getElem (by omega)]
        rfl
      obtain ⟨xs, ps, j, hj, a1, a2, a3, a4, a5⟩ := ih x' _ lp2 hy
      refine ⟨fun t => if t = 0 then x else xs (t - 1), fun t => if t = 0 then p else ps (t - 1), j + 1, by omega, by simp, by simp, by simp [a3], fun t ht => ?_, fun hk => a5 (by omega)⟩
      rcases Nat.eq_zero_or_pos t with rfl | ht0
      · refine ⟨valeurMax Ea, valeurMin Ea, ?_⟩
        simp only [if_true, Nat.zero_add, one_ne_zero, if_false, Nat.sub_self, a1, a2]
        refine ⟨hmem _ x1, hmem _ n1, fun i hi => ⟨n2 _ (hmem2 i hi), x2 _ (hmem2 i hi)⟩, h1, by rw [e5] at h2; exact not_lt.1 h2, ⟨p1.sum, fun i hi => ?_⟩, ?_, ex'⟩
        · rw [gp2 i hi, div_mul_cancel₀ _ h3, hp1, poidsLsi, getD_zipWith _ _ _ b.length hp lE i hi, hEa, erreur_getD A b w hA hw x i hi]
          rw [← hEa]
          by_cases hd : valeurMax Ea - valeurMin Ea = 0
          · rw [hd]; simp
          · field_simp
            ring
        · rw [Finset.sum_congr rfl fun i hi => gp2 i (Finset.mem_range.1 hi), ← Finset.sum_div, ← lp1, ← somme_range]
          exact div_self h3
      · obtain ⟨u, rfl⟩ : ∃ u, t = u + 1 := ⟨t - 1, by omega⟩
        have := a4 u (by omega)
        simpa using this

/-- **C131 (iteration).**  The filter returned is the last one of an iteratively reweighted least-squares sequence that starts from the plain least-squares solution; either the relative gap of its weighted
errors is below `10⁻⁵`, or the 100 iterations are done. -/
theorem C131_iteration (lsq : List (List ℝ) → List ℝ → Option (List ℝ)) (nc : ℕ) (D W : List ℝ) (hD : D ≠ []) (hW : ∀ i, i < D.length → 0 < W.getD i 0) (h : List ℝ) (hd : designRifEq lsq nc D W = some h) :
    ∃ (xs ps : ℕ → List ℝ) (j : ℕ), j ≤ 100 ∧ lsq (systeme nc D.length) D = some (xs 0) ∧ ps 0 = List.replicate D.length 1 ∧ Irls lsq (systeme nc D.length) D W xs ps j ∧ coefsEq nc (xs j) = some h ∧
      (j < 100 → ∃ emax, 0 < emax ∧ (∃ i, i < D.length ∧ emax = |ecart (systeme nc D.length) D (xs j) i| * W.getD i 0) ∧
        ∀ i, i < D.length → |ecart (systeme nc D.length) D (xs j) i| * W.getD i 0 ≤ emax ∧ (1 - 1 / 10 ^ 5) * emax ≤ |ecart (systeme nc D.length) D (xs j) i| * W.getD i 0) := by
  unfold designRifEq lsi at hd
  split_ifs at hd with h1 h2
  · have hA : (systeme nc D.length).length = D.length := by simp [systeme]
    change ((lsq (systeme nc D.length) D).bind _).bind _ = _ at hd
    rw [Option.bind_eq_some_iff] at hd
    obtain ⟨x, ex, hx⟩ := hd
    rw [Option.bind_eq_some_iff] at ex
    obtain ⟨x0, e0, ex⟩ := ex
    obtain ⟨xs, ps, j, hj, a1, a2, a3, a4, a5⟩ := boucle_irls lsq (systeme nc D.length) D W hD hA h1 100 x0 _ (by simp) x ex
    refine ⟨xs, ps, j, hj, by rw [a1]; exact e0, a2, a4, by rw [a3]; exact hx, fun hlt => ?_⟩
    obtain ⟨emax, b1, ⟨i0, hi0, b2⟩, b3⟩ := a5 hlt
    have hpos : 0 < emax := by
      refine lt_of_le_of_ne ?_ (Ne.symm b1)
      rw [b2]
      exact mul_nonneg (abs_nonneg _) (hW i0 hi0).le
    rw [a3]
    refine ⟨emax, hpos, ⟨i0, hi0, b2⟩, fun i hi => ?_⟩
    rcases b3 i hi with ⟨c1, c2⟩ | c
    · refine ⟨c1, ?_⟩
      rw [div_lt_iff₀ hpos] at c2
      linarith
    · exact absurd c (not_lt.2 hpos.le)
  · simp at hd

/-! ### The hypotheses are satisfied -/

theorem ecart_somme (A : List (List ℝ)) (b x : List ℝ) (m : ℕ) (hm : ∀ l ∈ A, l.length = m) (hx : x.length = m) (i : ℕ) (hi : i < A.length) :
    ecart A b x i = ∑ k ∈ range m, (A.getD i []).getD k 0 * x.getD k 0 - b.getD i 0 := by
  rw [ecart, matvec_getD A x i hi, List.getD_eq_getElem?_getD (l := A), List.getElem?_eq_getElem hi, Option.getD_some]
  have hl : A[i].length = m := hm _ (List.getElem_mem _)
  rw [← zip_somme _ x m hx]
  congr 3
  apply List.ext_getElem?
  intro k
  by_cases hk : k < m
  · rw [List.getElem?_map, List.getElem?_range hk, Option.map_some, List.getD_eq_getElem?_getD, List.getElem?_eq_getElem (by omega), Option.getD_some]
  · rw [List.getElem?_eq_none (by omega), List.getElem?_eq_none (by simp; omega)]

/-- A least-squares solver exists. -/
theorem moindres_carres_existe : ∃ lsq, MoindresCarres lsq := by
  classical
  have key : ∀ (A : List (List ℝ)) (b : List ℝ) (m : ℕ), (∀ l ∈ A, l.length = m) → A.length = b.length → ∃ x : List ℝ, x.length = m ∧
      ∀ x' : List ℝ, x'.length = m → ∑ i ∈ range b.length, ecart A b x i ^ 2 ≤ ∑ i ∈ range b.length, ecart A b x' i ^ 2 := by
    intro A b m hm hA
    let M : Matrix (Fin b.length) (Fin m) ℝ := fun i k => (A.getD i []).getD k 0
    let f : (Fin m → ℝ) →ₗ[ℝ] EuclideanSpace ℝ (Fin b.length) := (WithLp.linearEquiv 2 ℝ (Fin b.length → ℝ)).symm.toLinearMap.comp (Matrix.mulVecLin M)
    let u : EuclideanSpace ℝ (Fin b.length) := WithLp.toLp 2 fun i => b.getD i 0
    obtain ⟨v, hv, hmin⟩ := Submodule.exists_norm_eq_iInf_of_complete_subspace (LinearMap.range f) (LinearMap.range f).complete_of_finiteDimensional u
    obtain ⟨c, rfl⟩ := hv
    have lien : ∀ c : Fin m → ℝ, ∑ i ∈ range b.length, ecart A b (List.ofFn c) i ^ 2 = ‖u - f c‖ ^ 2 := by
      intro c
      rw [EuclideanSpace.norm_sq_eq, ← Fin.sum_univ_eq_sum_range (fun i => ecart A b (List.ofFn c) i ^ 2)]
      refine Finset.sum_congr rfl fun i _ => ?_
      have hi : (i : ℕ) < A.length := by rw [hA]; exact i.2
      rw [ecart_somme A b _ m hm (by simp) i hi, Real.norm_eq_abs, sq_abs, ← Fin.sum_univ_eq_sum_range (fun k => (A.getD i []).getD k 0 * (List.ofFn c).getD k 0)]
      have : (u - f c) i = b.getD i 0 - ∑ k : Fin m, (A.getD i []).getD k 0 * c k := rfl
      rw [this]
      have h2 : ∀ k : Fin m, (List.ofFn c).getD k 0 = c k := fun k => by simp
      simp only [h2]
      ring
    refine ⟨List.ofFn c, by simp, fun x' hx' => ?_⟩
    have hx2 : x' = List.ofFn fun k : Fin m => x'.getD k 0 := by
      apply List.ext_getElem (by simp [hx'])
      intro k h1 h2
      simp [h1]
    rw [hx2, lien, lien, hmin]
    have hle : (⨅ w : LinearMap.range f, ‖u - w‖) ≤ ‖u - f fun k : Fin m => x'.getD k 0‖ :=
      ciInf_le (⟨0, by rintro _ ⟨w, rfl⟩; exact norm_nonneg _⟩ : BddBelow (Set.range fun w : LinearMap.range f => ‖u - w‖)) (⟨_, LinearMap.mem_range_self f _⟩ : LinearMap.range f)
    have h0 : 0 ≤ (⨅ w : LinearMap.range f, ‖u - w‖) := Real.iInf_nonneg fun _ => norm_nonneg _
    exact pow_le_pow_left₀ h0 hle 2
  refine ⟨fun A b => if h : ∃ x : List ℝ, x.length = (A.getD 0 []).length ∧
      ∀ x' : List ℝ, x'.length = (A.getD 0 []).length → ∑ i ∈ range b.length, ecart A b x i ^ 2 ≤ ∑ i ∈ range b.length, ecart A b x' i ^ 2 then some h.choose else none, ?_⟩
  intro A b m hb hm hA
  have h0 : (A.getD 0 []).length = m := by
    cases A with
    | nil => exact absurd (List.length_eq_zero_iff.1 hA.symm) hb
    | cons l A => exact hm l (by simp)
  have h := key A b m hm hA
  rw [← h0] at h
  rw [← h0]
  exact ⟨h.choose, dif_pos h, h.choose_spec⟩

/-- A template that a filter with one coefficient does not meet. -/
example : ∃ lsq h, MoindresCarres lsq ∧ designRifEq lsq 1 [1, 0] [1, 1] = some h ∧ h.length = 1 ∧ Symetrique h := by
  obtain ⟨lsq, hl⟩ := moindres_carres_existe
  have hW : ∀ i, i < ([1, 0] : List ℝ).length → 0 < ([1, 1] : List ℝ).getD i 0 := by
    intro i hi
    simp at hi
    interval_cases i <;> simp
  obtain ⟨h, e⟩ := C131_total lsq hl 1 [1, 0] [1, 1] (by simp) (by simp) (by
    intro h lh hs
    have hA : ∀ ν, Ampl h ν = h.getD 0 0 := by
      intro ν
      rw [Ampl_sym h hs, rifampImpl_sym, lh]
      simp
    by_cases h0 : h.getD 0 0 = 1
    · exact ⟨1, by simp, by simp, by rw [hA, h0]; simp⟩
    · exact ⟨0, by simp, by simp, by rw [hA]; simpa using h0⟩)
  obtain ⟨l, s, -⟩ := C131_minimax lsq hl 1 [1, 0] [1, 1] (by simp) hW h e
  exact ⟨lsq, h, hl, e, l, s⟩

/-- The constant template is attainable (identity filter), hence not returned. -/
example : ∃ lsq, MoindresCarres lsq ∧ designRifEq lsq 1 [1, 1, 1] [1, 1, 1] = none := by
  obtain ⟨lsq, hl⟩ := moindres_carres_existe
  refine ⟨lsq, hl, C131_exact_refute lsq hl 1 [1, 1, 1] [1, 1, 1] (by simp) [1] rfl ?_ fun i hi => ?_⟩
  · intro k hk
    simp at hk
    subst hk
    simp
  · have hs : Symetrique [1] := by
      intro k hk
      simp at hk
      subst hk
      simp
    rw [Ampl_sym _ hs, rifampImpl_sym]
    simp at hi
    interval_cases i <;> simp

end Verif.Conception
