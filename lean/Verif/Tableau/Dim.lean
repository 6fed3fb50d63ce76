/-
C37  Tensor dimension algebra (`NTenseurDim`, core/src/tableau.cc:72-143).
Dimensions are lists of naturals (the C++ type is `vector<int>`; overflow of the product is not
modelled).
-/
import Mathlib.Algebra.BigOperators.Group.List.Basic
import Mathlib.Tactic.Ring

namespace Tableau

/-- `NTenseurDim::total`.  core/src/tableau.cc:104-112 -/
def total (d : List ℕ) : ℕ := if d.isEmpty then 0 else d.foldl (· * ·) 1

/-- `operator *`: concatenation, special case for an empty left operand.
core/src/tableau.cc:90-102 -/
def concat (d1 d2 : List ℕ) : List ℕ := if d1.isEmpty then d2 else d1 ++ d2

/-- The loop of `operator ==` from index `i` on, for `k` remaining indices.
core/src/tableau.cc:124-140 -/
def egalBoucle (d1 d2 : List ℕ) : ℕ → ℕ → Bool
  | 0, _ => true
  | k + 1, i =>
    if d2.length ≤ i then
      if d1.getD i 0 ≠ 1 then false else egalBoucle d1 d2 k (i + 1)
    else if d1.length ≤ i then
      if d2.getD i 0 ≠ 1 then false else egalBoucle d1 d2 k (i + 1)
    else if d1.getD i 0 ≠ d2.getD i 0 then false
    else egalBoucle d1 d2 k (i + 1)

/-- `operator ==`.  core/src/tableau.cc:114-143 -/
def egal (d1 d2 : List ℕ) : Bool :=
  if d1.length = 0 ∧ 1 ≤ d2.length ∧ d2.getD 0 0 ≠ 0 then false
  else if d2.length = 0 ∧ 1 ≤ d1.length ∧ d1.getD 0 0 ≠ 0 then false
  else egalBoucle d1 d2 (max d1.length d2.length) 0

/-! ### Specification -/

/-- Extent along axis `i`: 1 beyond the last one. -/
def etendue (d : List ℕ) (i : ℕ) : ℕ := d.getD i 1

/-! ### Proofs -/

theorem egalBoucle_iff (d1 d2 : List ℕ) (k i : ℕ) (h : i + k = max d1.length d2.length) :
    egalBoucle d1 d2 k i = true ↔ ∀ j, i ≤ j → etendue d1 j = etendue d2 j := by
  induction k generalizing i with
  | zero =>
    simp only [egalBoucle, true_iff]
    intro j hj
    have h1 : d1.length ≤ j := by omega
    have h2 : d2.length ≤ j := by omega
    simp [etendue, List.getD_eq_getElem?_getD, List.getElem?_eq_none h1, List.getElem?_eq_none h2]
  | succ k ih =>
    have key : ∀ P : Prop, (etendue d1 i = etendue d2 i ↔ P) →
        ((P ∧ ∀ j, i + 1 ≤ j → etendue d1 j = etendue d2 j) ↔
          ∀ j, i ≤ j → etendue d1 j = etendue d2 j) := by
      intro P hP
      constructor
      · rintro ⟨h1, h2⟩ j hj
        rcases Nat.eq_or_lt_of_le hj with rfl | hj
        · exact hP.2 h1
        · exact h2 j hj
      · intro h; exact ⟨hP.1 (h i (le_refl i)), fun j hj => h j (by omega)⟩
    unfold egalBoucle
    have hi := ih (i + 1) (by omega)
    split
    · rename_i h2
      have e2 : etendue d2 i = 1 := by
        simp [etendue, List.getD_eq_getElem?_getD, List.getElem?_eq_none h2]
      have h1 : i < d1.length := by omega
      have e1 : etendue d1 i = d1.getD i 0 := by
        simp [etendue, List.getD_eq_getElem?_getD, List.getElem?_eq_getElem h1]
      rw [← key (d1.getD i 0 = 1) (by rw [e1, e2]), ← hi]
      by_cases hc : d1.getD i 0 = 1
      · simp only [hc, ne_eq, not_true, if_false, true_and]
      · simp only [hc, ne_eq, not_false_iff, if_true, false_and, Bool.false_eq_true]
    · rename_i h2
      split
      · rename_i h1
        have e1 : etendue d1 i = 1 := by
          simp [etendue, List.getD_eq_getElem?_getD, List.getElem?_eq_none h1]
        have h2 : i < d2.length := by omega
        have e2 : etendue d2 i = d2.getD i 0 := by
          simp [etendue, List.getD_eq_getElem?_getD, List.getElem?_eq_getElem h2]
        rw [← key (d2.getD i 0 = 1) (by rw [e1, e2]; exact eq_comm), ← hi]
        by_cases hc : d2.getD i 0 = 1
        · simp only [hc, ne_eq, not_true, if_false, true_and]
        · simp only [hc, ne_eq, not_false_iff, if_true, false_and, Bool.false_eq_true]
      · rename_i h1
        have e1 : etendue d1 i = d1.getD i 0 := by
          simp [etendue, List.getD_eq_getElem?_getD,
            List.getElem?_eq_getElem (show i < d1.length by omega)]
        have e2 : etendue d2 i = d2.getD i 0 := by
          simp [etendue, List.getD_eq_getElem?_getD,
            List.getElem?_eq_getElem (show i < d2.length by omega)]
        rw [← key (d1.getD i 0 = d2.getD i 0) (by rw [e1, e2]), ← hi]
        by_cases hc : d1.getD i 0 = d2.getD i 0
        · simp only [hc, ne_eq, not_true, if_false, true_and]
        · simp only [hc, ne_eq, not_false_iff, if_true, false_and, Bool.false_eq_true]

/-- **C37 (equality).**  Two dimension lists are equal exactly when both or none are empty and they
have the same extent along every axis: trailing ones are ignored. -/
theorem C37_egal (d1 d2 : List ℕ) :
    egal d1 d2 = true ↔ ((d1 = [] ↔ d2 = []) ∧ ∀ i, etendue d1 i = etendue d2 i) := by
  have hb := egalBoucle_iff d1 d2 (max d1.length d2.length) 0 (by omega)
  simp only [Nat.zero_le, true_implies] at hb
  unfold egal
  cases d1 with
  | nil =>
    cases d2 with
    | nil => simpa using hb
    | cons a r =>
      simp only [List.length_nil, List.length_cons, List.getD_cons_zero]
      by_cases ha : a = 0
      · subst ha
        rw [if_neg (by simp), if_neg (by simp)]
        simp only [List.length_nil, List.length_cons] at hb
        rw [hb]
        constructor
        · intro h; have := h 0; simp [etendue] at this
        · rintro ⟨h, -⟩; simp at h
      · rw [if_pos (by simp [ha])]
        simp
  | cons b q =>
    cases d2 with
    | nil =>
      simp only [List.length_nil, List.length_cons, List.getD_cons_zero]
      by_cases ha : b = 0
      · subst ha
        rw [if_neg (by simp), if_neg (by simp)]
        simp only [List.length_nil, List.length_cons] at hb
        rw [hb]
        constructor
        · intro h; have := h 0; simp [etendue] at this
        · rintro ⟨h, -⟩; simp at h
      · rw [if_neg (by simp), if_pos (by simp [ha])]
        simp
    | cons a r =>
      rw [if_neg (by simp), if_neg (by simp), hb]
      simp

/-- **C37 (equivalence relation).** -/
theorem C37_equivalence :
    (∀ d, egal d d = true) ∧ (∀ d1 d2, egal d1 d2 = true → egal d2 d1 = true) ∧
    (∀ d1 d2 d3, egal d1 d2 = true → egal d2 d3 = true → egal d1 d3 = true) := by
  refine ⟨fun d => (C37_egal d d).2 ⟨Iff.rfl, fun _ => rfl⟩, ?_, ?_⟩
  · intro d1 d2 h
    obtain ⟨h1, h2⟩ := (C37_egal _ _).1 h
    exact (C37_egal _ _).2 ⟨h1.symm, fun i => (h2 i).symm⟩
  · intro d1 d2 d3 h h'
    obtain ⟨h1, h2⟩ := (C37_egal _ _).1 h
    obtain ⟨h3, h4⟩ := (C37_egal _ _).1 h'
    exact (C37_egal _ _).2 ⟨h1.trans h3, fun i => (h2 i).trans (h4 i)⟩

/-- **C37 (trailing ones).** -/
theorem C37_uns (d : List ℕ) (k : ℕ) (hd : d ≠ []) : egal (d ++ List.replicate k 1) d = true := by
  refine (C37_egal _ _).2 ⟨by simp [hd], ?_⟩
  intro i
  unfold etendue
  rw [List.getD_eq_getElem?_getD, List.getD_eq_getElem?_getD, List.getElem?_append]
  split
  · rfl
  · rename_i h
    rw [List.getElem?_eq_none (l := d) (by omega), List.getElem?_replicate]
    split <;> rfl

theorem foldl_prod (d : List ℕ) (a : ℕ) : d.foldl (· * ·) a = a * d.prod := by
  induction d generalizing a with
  | nil => simp
  | cons b r ih => simp only [List.foldl_cons, ih, List.prod_cons]; ring

theorem total_eq (d : List ℕ) (hd : d ≠ []) : total d = d.prod := by
  unfold total
  rw [if_neg (by simpa using hd), foldl_prod, one_mul]

/-- The product is determined by the extents. -/
theorem prod_etendue (d1 d2 : List ℕ) (h : ∀ i, etendue d1 i = etendue d2 i) :
    d1.prod = d2.prod := by
  induction d1 generalizing d2 with
  | nil =>
    induction d2 with
    | nil => rfl
    | cons a r ih =>
      have h0 := h 0
      have : a = 1 := by simpa [etendue] using h0.symm
      rw [List.prod_cons, this, one_mul]
      apply ih
      intro i; simpa [etendue] using h (i + 1)
  | cons b q ih =>
    cases d2 with
    | nil =>
      have : b = 1 := by simpa [etendue] using h 0
      rw [List.prod_cons, this, one_mul]
      refine ih [] ?_
      intro i; simpa [etendue] using h (i + 1)
    | cons a r =>
      have : b = a := by simpa [etendue] using h 0
      rw [List.prod_cons, List.prod_cons, this, ih r]
      intro i; simpa [etendue] using h (i + 1)

/-- **C37 (total).**  Equal dimensions have the same number of elements. -/
theorem C37_total_invariant (d1 d2 : List ℕ) (h : egal d1 d2 = true) : total d1 = total d2 := by
  obtain ⟨h1, h2⟩ := (C37_egal _ _).1 h
  by_cases hd : d1 = []
  · rw [hd, h1.1 hd]
  · rw [total_eq _ hd, total_eq _ (fun h => hd (h1.2 h)), prod_etendue d1 d2 h2]

/-- **C37 (concatenation, partial).**  The number of elements is multiplicative, for non-empty
dimension lists.  Missing: the empty list, for which it is false. -/
theorem C37_total_concat_partial (d1 d2 : List ℕ) (h1 : d1 ≠ []) (h2 : d2 ≠ []) :
    total (concat d1 d2) = total d1 * total d2 := by
  unfold concat
  rw [if_neg (by simpa using h1), total_eq _ (by simp [h1]), total_eq _ h1, total_eq _ h2,
    List.prod_append]

/-- **C37 refuted (empty list).**  The empty dimension counts 0 elements but is neutral for the
concatenation. -/
theorem C37_vide_refute : total (concat [3] []) = 3 ∧ total [3] * total [] = 0 ∧
    total (concat [] [3]) = 3 := by decide

/-- **C37 refuted (congruence).**  Concatenation does not respect the equality: `[2]` and `[2,1]`
are equal, `[2]*[3]` and `[2,1]*[3]` are not. -/
theorem C37_congruence_refute : egal [2] [2, 1] = true ∧
    egal (concat [2] [3]) (concat [2, 1] [3]) = false := by decide

end Tableau
