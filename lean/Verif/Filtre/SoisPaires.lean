import Verif.Filtre.SoisProps
import Mathlib.Data.List.Perm.Basic
import Mathlib.Data.List.Nodup
import Mathlib.Data.List.Range

/-!
# Pairing of the conjugate roots by `filtre_sois` (C138)
-/

namespace Verif.Filtre

open Verif.FracRat Finset

/-- Non-real part of a root: the root itself, or 0 for a real one. -/
noncomputable def nonReel (a : ℂ) : ℂ := if a.im = 0 then 0 else a

theorem paire_reelle (a b : ℂ) : |(-(b + a)).im| + |(b * a).im| = 0 ↔ nonReel b = (starRingEnd ℂ) (nonReel a) := by
  have e : |(-(b + a)).im| + |(b * a).im| = 0 ↔ (-(b + a)).im = 0 ∧ (b * a).im = 0 := by
    constructor
    · intro h
      have h1 := abs_nonneg (-(b + a)).im
      have h2 := abs_nonneg (b * a).im
      exact ⟨abs_eq_zero.1 (by linarith), abs_eq_zero.1 (by linarith)⟩
    · rintro ⟨h1, h2⟩
      rw [h1, h2]; simp
  rw [e]
  simp only [Complex.neg_im, Complex.add_im, Complex.mul_im]
  unfold nonReel
  constructor
  · rintro ⟨h1, h2⟩
    have hb : b.im = -a.im := by linarith
    by_cases ha : a.im = 0
    · rw [if_pos (by rw [hb, ha, neg_zero]), if_pos ha]; simp
    · rw [if_neg (by rw [hb]; simpa using ha), if_neg ha]
      have : a.im * (b.re - a.re) = 0 := by rw [hb] at h2; linarith
      have : b.re = a.re := by
        rcases mul_eq_zero.1 this with h | h
        · exact absurd h ha
        · linarith
      apply Complex.ext <;> simp [this, hb]
  · intro h
    split_ifs at h with h1 h2 h2
    · rw [h1, h2]; simp
    · exfalso
      have := congrArg Complex.im h
      simp at this
      exact h2 this
    · exfalso
      rw [h] at h1
      simp at h1
    · have q1 := congrArg Complex.im h
      have q2 := congrArg Complex.re h
      simp at q1 q2
      rw [q1, q2]
      constructor <;> ring

theorem ecart_nul (z p : List ℂ) (k j : ℕ) : ecartPaire z p k j = 0 ↔
    nonReel (z.getD j 0) = (starRingEnd ℂ) (nonReel (z.getD k 0)) ∧ nonReel (p.getD j 0) = (starRingEnd ℂ) (nonReel (p.getD k 0)) := by
  rw [← paire_reelle, ← paire_reelle]
  unfold ecartPaire
  have h1 := abs_nonneg (-(z.getD j 0 + z.getD k 0)).im
  have h2 := abs_nonneg (z.getD j 0 * z.getD k 0).im
  have h3 := abs_nonneg (-(p.getD j 0 + p.getD k 0)).im
  have h4 := abs_nonneg (p.getD j 0 * p.getD k 0).im
  constructor
  · intro h
    exact ⟨by linarith, by linarith⟩
  · rintro ⟨a, b⟩
    linarith

theorem ecart_nonneg (z p : List ℂ) (k j : ℕ) : 0 ≤ ecartPaire z p k j := by unfold ecartPaire; positivity

theorem ecart_symm (z p : List ℂ) (k j : ℕ) : ecartPaire z p k j = ecartPaire z p j k := by
  unfold ecartPaire
  rw [add_comm (z.getD j 0), add_comm (p.getD j 0), mul_comm (z.getD j 0), mul_comm (p.getD j 0)]

theorem ecart_trans (z p : List ℂ) (k m j i : ℕ) (h1 : ecartPaire z p k m = 0) (h2 : ecartPaire z p k j = 0) (h3 : ecartPaire z p j i = 0) : ecartPaire z p m i = 0 := by
  rw [ecart_nul] at *
  constructor
  · rw [h1.1, h3.1, h2.1]
  · rw [h1.2, h3.2, h2.2]

theorem meilleure_spec (z p : List ℂ) (k : ℕ) (l : List ℕ) : ∀ b : ℝ × ℕ, (meilleurePaire z p k l b).1 ≤ b.1 ∧ (∀ j ∈ l, (meilleurePaire z p k l b).1 ≤ ecartPaire z p k j) ∧
    (meilleurePaire z p k l b = b ∨ ((meilleurePaire z p k l b).2 ∈ l ∧ (meilleurePaire z p k l b).1 = ecartPaire z p k (meilleurePaire z p k l b).2)) := by
  induction l with
  | nil => intro b; exact ⟨le_rfl, by simp, Or.inl rfl⟩
  | cons j l ih =>
    intro b
    rw [meilleurePaire]
    by_cases h : ecartPaire z p k j < b.1
    · rw [if_pos h]
      obtain ⟨h1, h2, h3⟩ := ih (ecartPaire z p k j, j)
      refine ⟨h1.trans h.le, ?_, Or.inr ?_⟩
      · intro i hi
        rcases List.mem_cons.1 hi with rfl | hi
        · exact h1
        · exact h2 i hi
      · rcases h3 with h3 | ⟨h3, h4⟩
        · rw [h3]; exact ⟨by simp, rfl⟩
        · exact ⟨List.mem_cons_of_mem _ h3, h4⟩
    · rw [if_neg h]
      obtain ⟨h1, h2, h3⟩ := ih b
      refine ⟨h1, ?_, ?_⟩
      · intro i hi
        rcases List.mem_cons.1 hi with rfl | hi
        · exact h1.trans (not_lt.1 h)
        · exact h2 i hi
      · rcases h3 with h3 | ⟨h3, h4⟩
        · exact Or.inl h3
        · exact Or.inr ⟨List.mem_cons_of_mem _ h3, h4⟩

/-- The chosen index, when an exact partner exists. -/
theorem meilleure_exacte (z p : List ℂ) (k : ℕ) (l : List ℕ) (d : ℕ) (h : ∃ j ∈ l, ecartPaire z p k j = 0) :
    (meilleurePaire z p k l (1e9, d)).1 = 0 ∧ (meilleurePaire z p k l (1e9, d)).2 ∈ l ∧ ecartPaire z p k (meilleurePaire z p k l (1e9, d)).2 = 0 := by
  obtain ⟨j, hj, ej⟩ := h
  obtain ⟨-, h2, h3⟩ := meilleure_spec z p k l (1e9, d)
  have h4 := h2 j hj
  rw [ej] at h4
  rcases h3 with h3 | ⟨h3, h5⟩
  · rw [h3] at h4
    norm_num at h4
  · have h6 := ecart_nonneg z p k (meilleurePaire z p k l (1e9, d)).2
    exact ⟨le_antisymm h4 (by rw [h5]; exact h6), h3, le_antisymm (by rw [← h5]; exact h4) h6⟩

section
variable {T : Type} [Zero T]

/-- The indices of a list of pairs. -/
def indices (P : List (ℕ × ℕ)) : List ℕ := P.flatMap fun q : ℕ × ℕ => [q.1, q.2]

/-- A successful pairing uses every index once, with small imaginary parts. -/
theorem paires_some (φ : ℝ → T) (forme2 : Bool) (z p : List ℂ) (m : ℕ) : ∀ (pool : List ℕ) (S : List (Sois T T)) (rest : List ℕ), sectionsPaires φ forme2 z p m pool = some (S, rest) →
    ∃ P : List (ℕ × ℕ), P.length = m ∧ S = P.map (fun q : ℕ × ℕ => sectionPaire φ forme2 z p q.1 q.2) ∧ pool.Perm (indices P ++ rest) ∧ ∀ q ∈ P, ecartPaire z p q.1 q.2 ≤ 1e-5 := by
  induction m with
  | zero =>
    intro pool S rest h
    simp only [sectionsPaires, Option.some.injEq, Prod.mk.injEq] at h
    exact ⟨[], rfl, by simp [← h.1], by simp [indices, h.2], by simp⟩
  | succ m ih =>
    intro pool S rest h
    cases pool with
    | nil => simp [sectionsPaires] at h
    | cons k l =>
      simp only [sectionsPaires] at h
      split_ifs at h with hb
      rw [Option.map_eq_some_iff] at h
      obtain ⟨⟨S', rest'⟩, e, h⟩ := h
      simp only [Prod.mk.injEq] at h
      obtain ⟨rfl, rfl⟩ := h
      obtain ⟨P, h1, h2, h3, h4⟩ := ih _ _ _ e
      obtain ⟨-, -, h6⟩ := meilleure_spec z p k l (1e9, l.headD 0)
      generalize meilleurePaire z p k l (1e9, l.headD 0) = b at *
      have hm : b.2 ∈ l ∧ b.1 = ecartPaire z p k b.2 := by
        rcases h6 with h6 | h6
        · rw [h6] at hb
          norm_num at hb
        · exact h6
      refine ⟨(k, b.2) :: P, by simp [h1], by simp [h2], ?_, ?_⟩
      · have := List.perm_cons_erase hm.1
        have h7 : (k :: l).Perm (k :: b.2 :: (indices P ++ rest')) := List.Perm.cons k (this.trans (List.Perm.cons _ h3))
        simpa [indices] using h7
      · intro q hq
        rcases List.mem_cons.1 hq with rfl | hq
        · rw [← hm.2]; exact not_lt.1 hb
        · exact h4 q hq

/-- Pairs of conjugate indices in a set of indices. -/
def Jumele (z p : List ℂ) (pool : List ℕ) (σ : ℕ → ℕ) : Prop := ∀ i ∈ pool, σ i ∈ pool ∧ σ i ≠ i ∧ σ (σ i) = i ∧ ecartPaire z p i (σ i) = 0

/-- When the roots are paired, the greedy loop succeeds with exact pairs. -/
theorem paires_exactes (φ : ℝ → T) (forme2 : Bool) (z p : List ℂ) (m : ℕ) : ∀ (pool : List ℕ) (σ : ℕ → ℕ), pool.Nodup → pool.length = 2 * m → Jumele z p pool σ →
    ∃ P : List (ℕ × ℕ), sectionsPaires φ forme2 z p m pool = some (P.map (fun q : ℕ × ℕ => sectionPaire φ forme2 z p q.1 q.2), []) ∧ P.length = m ∧ pool.Perm (indices P) ∧ ∀ q ∈ P, ecartPaire z p q.1 q.2 = 0 := by
  induction m with
  | zero =>
    intro pool σ hn hl hJ
    have : pool = [] := List.length_eq_zero_iff.1 (by omega)
    subst this
    exact ⟨[], rfl, rfl, by simp [indices], by simp⟩
  | succ m ih =>
    intro pool σ hn hl hJ
    cases pool with
    | nil => simp at hl
    | cons k l =>
      obtain ⟨s1, s2, s3, s4⟩ := hJ k (by simp)
      have hk : k ∉ l := (List.nodup_cons.1 hn).1
      have hn' := (List.nodup_cons.1 hn).2
      have hmem : σ k ∈ l := by
        rcases List.mem_cons.1 s1 with h | h
        · exact absurd h s2
        · exact h
      obtain ⟨e1, e2, e3⟩ := meilleure_exacte z p k l (l.headD 0) ⟨σ k, hmem, s4⟩
      simp only [sectionsPaires]
      generalize meilleurePaire z p k l (1e9, l.headD 0) = b at *
      rw [e1, if_neg (by norm_num)]
      obtain ⟨b1, j⟩ := b
      simp only at e1 e2 e3 ⊢
      have hjk : j ≠ k := fun h => hk (h ▸ e2)
      have hl2 : (l.erase j).length = 2 * m := by
        rw [List.length_erase_of_mem e2]
        simp only [List.length_cons] at hl
        omega
      have mem : ∀ i, i ∈ l.erase j ↔ i ≠ j ∧ i ∈ l := fun i => List.Nodup.mem_erase_iff hn'
      have key : ∃ σ', Jumele z p (l.erase j) σ' := by
        by_cases hj : j = σ k
        · refine ⟨σ, fun i hi => ?_⟩
          obtain ⟨i1, i2⟩ := (mem i).1 hi
          obtain ⟨a1, a2, a3, a4⟩ := hJ i (List.mem_cons_of_mem _ i2)
          refine ⟨(mem _).2 ⟨?_, ?_⟩, a2, a3, a4⟩
          · intro h
            rw [h, hj, s3] at a3
            exact hk (a3 ▸ i2)
          · rcases List.mem_cons.1 a1 with h | h
            · exfalso
              rw [h] at a3
              exact i1 (by rw [hj, a3])
            · exact h
        · obtain ⟨a1, a2, a3, a4⟩ := hJ j (List.mem_cons_of_mem _ e2)
          have n1 : σ j ≠ k := by intro h; rw [h] at a3; exact hj a3.symm
          have n2 : σ j ≠ σ k := by
            intro h
            have : j = k := by rw [← a3, h, s3]
            exact hjk this
          have m1 : σ j ∈ l := by
            rcases List.mem_cons.1 a1 with h | h
            · exact absurd h n1
            · exact h
          refine ⟨fun i => if i = σ k then σ j else if i = σ j then σ k else σ i, fun i hi => ?_⟩
          obtain ⟨i1, i2⟩ := (mem i).1 hi
          have t := ecart_trans z p k (σ k) j (σ j) s4 e3 a4
          by_cases c1 : i = σ k
          · subst c1
            simp only [if_true]
            rw [if_neg n2]
            exact ⟨(mem _).2 ⟨a2, m1⟩, n2, rfl, t⟩
          · by_cases c2 : i = σ j
            · subst c2
              simp only [if_neg n2, if_true]
              exact ⟨(mem _).2 ⟨fun h => hj h.symm, hmem⟩, n2.symm, trivial, by rw [ecart_symm]; exact t⟩
            · simp only [if_neg c1, if_neg c2]
              obtain ⟨d1, d2, d3, d4⟩ := hJ i (List.mem_cons_of_mem _ i2)
              have f1 : σ i ≠ σ k := by
                intro h
                have : i = k := by rw [← d3, h, s3]
                exact hk (this ▸ i2)
              have f2 : σ i ≠ σ j := by
                intro h
                have : i = j := by rw [← d3, h, a3]
                exact i1 this
              rw [if_neg f1, if_neg f2]
              refine ⟨(mem _).2 ⟨?_, ?_⟩, d2, d3, d4⟩
              · intro h
                rw [h] at d3
                exact c2 d3.symm
              · rcases List.mem_cons.1 d1 with h | h
                · exfalso
                  rw [h] at d3
                  exact c1 d3.symm
                · exact h
      obtain ⟨σ', hσ'⟩ := key
      obtain ⟨P, h1, h2, h3, h4⟩ := ih (l.erase j) σ' (hn'.erase j) hl2 hσ'
      refine ⟨(k, j) :: P, by rw [h1]; rfl, by simp [h2], ?_, ?_⟩
      · have h7 : (k :: l).Perm (k :: j :: indices P) := List.Perm.cons k ((List.perm_cons_erase e2).trans (List.Perm.cons _ h3))
        simpa [indices] using h7
      · intro q hq
        rcases List.mem_cons.1 hq with rfl | hq
        · exact e3
        · exact h4 q hq

/-- Odd number of roots: one alone (`f`), the others in distinct pairs around it. -/
structure JumeleSauf (z p : List ℂ) (pool : List ℕ) (σ : ℕ → ℕ) (f : ℕ) : Prop where
  seul : f ∈ pool
  jumeau : ∀ i ∈ pool, i ≠ f → σ i ∈ pool ∧ σ i ≠ f ∧ σ i ≠ i ∧ σ (σ i) = i ∧ ecartPaire z p i (σ i) = 0
  unique : ∀ i ∈ pool, i ≠ f → ∀ j ∈ pool, j ≠ i → ecartPaire z p i j = 0 → j = σ i
  autour : ∀ i ∈ pool, f < i → σ i < f

theorem paires_exactes_impair (φ : ℝ → T) (forme2 : Bool) (z p : List ℂ) (σ : ℕ → ℕ) (f : ℕ) (m : ℕ) : ∀ (pool : List ℕ), pool.Pairwise (· < ·) → pool.length = 2 * m + 1 → JumeleSauf z p pool σ f →
    ∃ P : List (ℕ × ℕ), sectionsPaires φ forme2 z p m pool = some (P.map (fun q : ℕ × ℕ => sectionPaire φ forme2 z p q.1 q.2), [f]) ∧ P.length = m ∧ pool.Perm (indices P ++ [f]) ∧ ∀ q ∈ P, ecartPaire z p q.1 q.2 = 0 := by
  induction m with
  | zero =>
    intro pool hn hl hJ
    obtain ⟨a, ha⟩ := List.length_eq_one_iff.1 (by omega : pool.length = 1)
    subst ha
    have := hJ.seul
    simp only [List.mem_singleton] at this
    subst this
    exact ⟨[], rfl, rfl, by simp [indices], by simp⟩
  | succ m ih =>
    intro pool hn hl hJ
    cases pool with
    | nil => simp at hl
    | cons k l =>
      have hlt : ∀ i ∈ l, k < i := (List.pairwise_cons.1 hn).1
      have hp := (List.pairwise_cons.1 hn).2
      have hn' : l.Nodup := hp.imp (fun h => Nat.ne_of_lt h)
      have hk : k ∉ l := fun h => lt_irrefl k (hlt k h)
      have hkf : k ≠ f := by
        intro h
        cases l with
        | nil => simp at hl
        | cons a l =>
          have h1 := hlt a (by simp)
          have h2 := hJ.autour a (by simp) (by omega)
          obtain ⟨h3, -⟩ := hJ.jumeau a (by simp) (by omega)
          rcases List.mem_cons.1 h3 with h4 | h4
          · omega
          · have := hlt _ h4
            omega
      obtain ⟨s1, s0, s2, s3, s4⟩ := hJ.jumeau k (by simp) hkf
      have hmem : σ k ∈ l := by
        rcases List.mem_cons.1 s1 with h | h
        · exact absurd h s2
        · exact h
      obtain ⟨e1, e2, e3⟩ := meilleure_exacte z p k l (l.headD 0) ⟨σ k, hmem, s4⟩
      simp only [sectionsPaires]
      generalize meilleurePaire z p k l (1e9, l.headD 0) = b at *
      rw [e1, if_neg (by norm_num)]
      obtain ⟨b1, j⟩ := b
      simp only at e1 e2 e3 ⊢
      have hjk : j ≠ k := fun h => hk (h ▸ e2)
      have hj : j = σ k := hJ.unique k (by simp) hkf j (List.mem_cons_of_mem _ e2) hjk e3
      have hl2 : (l.erase j).length = 2 * m + 1 := by
        rw [List.length_erase_of_mem e2]
        simp only [List.length_cons] at hl
        omega
      have mem : ∀ i, i ∈ l.erase j ↔ i ≠ j ∧ i ∈ l := fun i => List.Nodup.mem_erase_iff hn'
      have hJ' : JumeleSauf z p (l.erase j) σ f := by
        refine ⟨?_, ?_, ?_, ?_⟩
        · refine (mem f).2 ⟨by rw [hj]; exact s0.symm, ?_⟩
          rcases List.mem_cons.1 hJ.seul with h | h
          · exact absurd h.symm hkf
          · exact h
        · intro i hi hif
          obtain ⟨i1, i2⟩ := (mem i).1 hi
          obtain ⟨a1, a0, a2, a3, a4⟩ := hJ.jumeau i (List.mem_cons_of_mem _ i2) hif
          refine ⟨(mem _).2 ⟨?_, ?_⟩, a0, a2, a3, a4⟩
          · intro h
            rw [h, hj, s3] at a3
            exact hk (a3 ▸ i2)
          · rcases List.mem_cons.1 a1 with h | h
            · exfalso
              rw [h] at a3
              exact i1 (by rw [hj, a3])
            · exact h
        · intro i hi hif q hq
          exact hJ.unique i (List.mem_cons_of_mem _ ((mem i).1 hi).2) hif q (List.mem_cons_of_mem _ ((mem q).1 hq).2)
        · intro i hi
          exact hJ.autour i (List.mem_cons_of_mem _ ((mem i).1 hi).2)
      obtain ⟨P, h1, h2, h3, h4⟩ := ih (l.erase j) (hp.sublist List.erase_sublist) hl2 hJ'
      refine ⟨(k, j) :: P, by rw [h1]; rfl, by simp [h2], ?_, ?_⟩
      · have h7 : (k :: l).Perm (k :: j :: (indices P ++ [f])) := List.Perm.cons k ((List.perm_cons_erase e2).trans (List.Perm.cons _ h3))
        simpa [indices] using h7
      · intro q hq
        rcases List.mem_cons.1 hq with rfl | hq
        · exact e3
        · exact h4 q hq

end

end Verif.Filtre
