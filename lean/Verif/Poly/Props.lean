import Verif.Poly.Model
import Mathlib.Algebra.BigOperators.Intervals
import Mathlib.Algebra.BigOperators.Ring.Finset
import Mathlib.Data.List.GetD
import Mathlib.Tactic.Ring
import Mathlib.Tactic.FieldSimp
import Mathlib.Tactic.NormNum
import Mathlib.Tactic.LinearCombination
import Mathlib.Data.Rat.Defs
import Mathlib.Algebra.Ring.Rat
import Mathlib.Algebra.Field.Rat

/-!
# Polynomials and rational functions: operations and evaluation (C30, C31)

Everything is stated for coefficients in any field `K` and evaluation points in any field `L` with a conversion `φ : K →+* L`.
-/

namespace Verif.FracRat

open Finset

variable {K L : Type} [Field K] [Field L]

/-! ## Specification -/

/-- Value at `x` of the polynomial of coefficients `c`: `Σ c_k x^k`. -/
def valCoefs (φ : K →+* L) (c : List K) (x : L) : L := ∑ k ∈ range c.length, φ (c.getD k 0) * x ^ k

/-- Value at `x` of the polynomial of roots `r` and leading coefficient `m`: `m Π (x - r_k)`. -/
def valRacines (φ : K →+* L) (m : K) (r : List K) (x : L) : L := φ m * (r.map fun c => x - φ c).prod

/-- Value of a polynomial, in either representation. -/
def Poly.val (φ : K →+* L) (p : Poly K) (x : L) : L := if p.racines then valRacines φ p.mlt p.coefs x else valCoefs φ p.coefs x

/-! ## Values of coefficient lists -/

theorem valCoefs_nil (φ : K →+* L) (x : L) : valCoefs φ [] x = 0 := rfl

theorem valCoefs_cons (φ : K →+* L) (c : K) (l : List K) (x : L) : valCoefs φ (c :: l) x = φ c + x * valCoefs φ l x := by
  unfold valCoefs
  rw [List.length_cons, sum_range_succ', mul_sum]
  simp only [List.getD_cons_succ, List.getD_cons_zero, pow_zero, mul_one]
  rw [add_comm]
  congr 1
  exact sum_congr rfl fun k _ => by ring

theorem valCoefs_append (φ : K →+* L) (a b : List K) (x : L) : valCoefs φ (a ++ b) x = valCoefs φ a x + x ^ a.length * valCoefs φ b x := by
  induction a with
  | nil => simp [valCoefs_nil]
  | cons c a ih => rw [List.cons_append, valCoefs_cons, valCoefs_cons, ih, List.length_cons]; ring

theorem valCoefs_zipWith (φ : K →+* L) (a : List K) : ∀ (b : List K) (x : L), a.length = b.length →
    valCoefs φ (List.zipWith (· + ·) a b) x = valCoefs φ a x + valCoefs φ b x := by
  induction a with
  | nil => intro b x h; cases b with
    | nil => simp [valCoefs_nil]
    | cons => simp at h
  | cons c a ih => intro b x h; cases b with
    | nil => simp at h
    | cons d b =>
      rw [List.zipWith_cons_cons, valCoefs_cons, valCoefs_cons, valCoefs_cons, ih b x (by simpa using h), map_add]
      ring

theorem valCoefs_map (φ : K →+* L) (a : List K) (s : K) (x : L) : valCoefs φ (a.map (· * s)) x = valCoefs φ a x * φ s := by
  induction a with
  | nil => simp [valCoefs_nil]
  | cons c a ih => rw [List.map_cons, valCoefs_cons, valCoefs_cons, ih, map_mul]; ring

theorem valCoefs_neg (φ : K →+* L) (a : List K) (x : L) : valCoefs φ (a.map (- ·)) x = - valCoefs φ a x := by
  induction a with
  | nil => simp [valCoefs_nil]
  | cons c a ih => rw [List.map_cons, valCoefs_cons, valCoefs_cons, ih, map_neg]; ring

theorem valCoefs_zeros (φ : K →+* L) (k : Nat) (x : L) : valCoefs φ (List.replicate k 0) x = 0 := by
  induction k with
  | zero => rfl
  | succ k ih => rw [List.replicate_succ, valCoefs_cons, ih, map_zero]; ring

theorem valCoefs_decale (φ : K →+* L) (k : Nat) (a : List K) (x : L) : valCoefs φ (List.replicate k 0 ++ a) x = x ^ k * valCoefs φ a x := by
  rw [valCoefs_append, valCoefs_zeros, List.length_replicate, zero_add]

theorem valCoefs_partiel (φ : K →+* L) (a : List K) (k : Nat) (c : K) (x : L) :
    valCoefs φ (partiel a k c) x = x ^ k * valCoefs φ a x * φ c := by
  rw [partiel, valCoefs_decale, valCoefs_map]; ring

theorem val_prefixe (φ : K →+* L) (a b : List K) (x : L) (h : b.length ≤ a.length) :
    valCoefs φ (List.zipWith (· + ·) (a.take b.length) b ++ a.drop b.length) x = valCoefs φ a x + valCoefs φ b x := by
  have hl : (a.take b.length).length = b.length := by rw [List.length_take]; omega
  rw [valCoefs_append, valCoefs_zipWith _ _ _ _ hl, List.length_zipWith, hl, Nat.min_self]
  conv_rhs => rw [← List.take_append_drop b.length a, valCoefs_append, hl]
  ring

theorem valCoefs_ajoute (φ : K →+* L) (a b : List K) (x : L) :
    valCoefs φ (ajouteCoefs a b) x = valCoefs φ a x + valCoefs φ b x := by
  unfold ajouteCoefs
  split
  · rename_i h; exact valCoefs_zipWith φ a b x h
  · split
    · rename_i h; exact val_prefixe φ a b x h.le
    · rename_i h h'; rw [val_prefixe φ b a x (by omega), add_comm]

theorem valCoefs_boucle (φ : K →+* L) (a : List K) (x : L) (b : List K) : ∀ (k : Nat) (res : List K),
    valCoefs φ (boucleProduit a k b res) x = valCoefs φ res x + x ^ k * (valCoefs φ a x * valCoefs φ b x) := by
  induction b with
  | nil => intro k res; rw [boucleProduit, valCoefs_nil]; ring
  | cons c b ih => intro k res; rw [boucleProduit, ih, valCoefs_ajoute, valCoefs_partiel, valCoefs_cons, pow_succ]; ring

theorem valCoefs_racines (φ : K →+* L) (x : L) (r : List K) : ∀ res : List K,
    valCoefs φ (boucleRacines r res) x = valCoefs φ res x * (r.map fun c => x - φ c).prod := by
  induction r with
  | nil => intro res; rw [boucleRacines]; simp
  | cons c r ih =>
    intro res
    rw [boucleRacines, ih, valCoefs_boucle, List.map_cons, List.prod_cons, valCoefs_cons, valCoefs_cons, valCoefs_nil,
      map_neg, map_one]
    ring

theorem hornerCoefs_val (φ : K →+* L) (x : L) (l : List K) : ∀ res : L,
    hornerCoefs φ x l res = valCoefs φ l.reverse x + x ^ l.length * res := by
  induction l with
  | nil => intro res; simp [hornerCoefs, valCoefs_nil]
  | cons c l ih =>
    intro res
    rw [hornerCoefs, ih, List.reverse_cons, valCoefs_append, valCoefs_cons, valCoefs_nil, List.length_reverse, List.length_cons]
    ring

theorem hornerRacines_val (φ : K →+* L) (x : L) (l : List K) : ∀ res : L,
    hornerRacines φ x l res = res * (l.map fun c => x - φ c).prod := by
  induction l with
  | nil => intro res; simp [hornerRacines]
  | cons c l ih => intro res; rw [hornerRacines, ih, List.map_cons, List.prod_cons]; ring

/-! ## C30: polynomials -/

/-- C30: `horner(x)` is `Σ c_k x^k` (coefficients) or `m Π (x - r_k)` (roots), whatever the number of coefficients (0 included). -/
theorem C30_horner (φ : K →+* L) (p : Poly K) (x : L) : p.horner φ x = p.val φ x := by
  unfold Poly.horner Poly.val
  split
  · exact hornerRacines_val φ x _ _
  · split
    · rename_i h
      rw [List.reverse_eq_nil_iff.1 h, valCoefs_nil]
    · rename_i c l h
      have : p.coefs = l.reverse ++ [c] := by rw [← List.reverse_reverse p.coefs, h, List.reverse_cons]
      rw [hornerCoefs_val, this, valCoefs_append, List.length_reverse, valCoefs_cons, valCoefs_nil]
      ring

theorem horner_deCoefs (φ : K →+* L) (c : List K) (x : L) : (Poly.deCoefs c).horner φ x = valCoefs φ c x := by
  rw [C30_horner]; rfl

theorem versCoefs_racines (p : Poly K) : p.versCoefs.racines = false := by
  unfold Poly.versCoefs
  split
  · rfl
  · simp_all

theorem valCoefs_versCoefs (φ : K →+* L) (p : Poly K) (x : L) : valCoefs φ p.versCoefs.coefs x = p.horner φ x := by
  rw [C30_horner]
  unfold Poly.versCoefs Poly.val
  split
  · show valCoefs φ ((boucleRacines p.coefs [1]).map (· * p.mlt)) x = _
    rw [valCoefs_map, valCoefs_racines, valCoefs_cons, valCoefs_nil, map_one]
    unfold valRacines
    ring
  · rfl

/-- C30: conversion from roots to coefficients does not change the polynomial, and `get_coefs` returns the `c_k` of `p(x) = Σ c_k x^k`. -/
theorem C30_coefs (φ : K →+* L) (p : Poly K) (x : L) :
    p.versCoefs.racines = false ∧ p.versCoefs.horner φ x = p.horner φ x ∧ valCoefs φ p.getCoefs x = p.horner φ x := by
  refine ⟨versCoefs_racines p, ?_, valCoefs_versCoefs φ p x⟩
  rw [C30_horner, Poly.val, versCoefs_racines, if_neg (by simp), valCoefs_versCoefs]

/-- C30: sums evaluate to sums (operands in any mode). -/
theorem C30_somme (φ : K →+* L) (p q : Poly K) (x : L) : (p.add q).horner φ x = p.horner φ x + q.horner φ x := by
  rw [Poly.add, horner_deCoefs, valCoefs_ajoute, valCoefs_versCoefs, valCoefs_versCoefs]

/-- C30: negation. -/
theorem C30_oppose (φ : K →+* L) (p : Poly K) (x : L) : p.neg.horner φ x = - p.horner φ x := by
  rw [C30_horner, C30_horner]
  unfold Poly.neg Poly.val
  cases h : p.racines
  · simp only [Bool.false_eq_true, if_false]
    exact valCoefs_neg φ _ x
  · simp only [if_true]
    unfold valRacines
    rw [map_neg]
    ring

/-- C30: difference. -/
theorem C30_difference (φ : K →+* L) (p q : Poly K) (x : L) : (p.sub q).horner φ x = p.horner φ x - q.horner φ x := by
  rw [Poly.sub, C30_somme, C30_oppose, sub_eq_add_neg]

/-- C30: product, sum and difference with a scalar. -/
theorem C30_scalaire (φ : K →+* L) (p : Poly K) (s : K) (x : L) :
    (p.mulScal s).horner φ x = p.horner φ x * φ s ∧ (p.addScal s).horner φ x = p.horner φ x + φ s ∧
      (p.subScal s).horner φ x = p.horner φ x - φ s := by
  have hadd : ∀ s, (p.addScal s).horner φ x = p.horner φ x + φ s := by
    intro s
    rw [← valCoefs_versCoefs φ p x]
    have hr := versCoefs_racines p
    unfold Poly.addScal
    split
    · rename_i h
      rw [C30_horner, Poly.val, h]
      simp only [hr, Bool.false_eq_true, if_false]
      rw [valCoefs_cons, valCoefs_nil, zero_add]
      ring
    · rename_i c l h
      rw [C30_horner, Poly.val, h]
      simp only [hr, Bool.false_eq_true, if_false]
      rw [valCoefs_cons, valCoefs_cons, map_add]
      ring
  refine ⟨?_, hadd s, ?_⟩
  · rw [C30_horner φ p]
    unfold Poly.mulScal Poly.val
    split
    · rw [C30_horner, Poly.val]
      simp only [if_true]
      unfold valRacines
      rw [map_mul]
      ring
    · rw [horner_deCoefs, valCoefs_map]
  · rw [Poly.subScal, hadd, map_neg, sub_eq_add_neg]

theorem produitCoefs_val (φ : K →+* L) (r : Bool) (a b : List K) (x : L) (h : r = false ∨ b ≠ []) :
    (produitCoefs r a b).horner φ x = valCoefs φ a x * valCoefs φ b x + if r then 1 else 0 := by
  cases b with
  | nil =>
    rcases h with h | h
    · subst h
      rw [produitCoefs, C30_horner, Poly.val]
      simp [valCoefs_nil]
    · simp at h
  | cons c b =>
    rw [produitCoefs, horner_deCoefs, valCoefs_boucle, valCoefs_ajoute, valCoefs_partiel, valCoefs_cons, valCoefs_versCoefs, C30_horner,
      Poly.val]
    cases r
    · simp [valCoefs_nil]; ring
    · simp [valRacines]; ring

/-- C30: products evaluate to products, except for a product of a polynomial in root mode by a polynomial in coefficient mode. -/
theorem C30_produit (φ : K →+* L) (p q : Poly K) (x : L) (h : p.racines = true → q.racines = true) :
    (p.mul q).horner φ x = p.horner φ x * q.horner φ x := by
  unfold Poly.mul
  cases hp : p.racines
  · rw [if_neg (by simp), produitCoefs_val φ _ _ _ _ (.inl rfl), valCoefs_versCoefs, C30_horner φ p, Poly.val, hp]
    simp
  · rw [if_pos rfl, if_pos (h hp), C30_horner, C30_horner, C30_horner, Poly.val, Poly.val, Poly.val, hp, h hp]
    simp only [if_true]
    unfold valRacines
    rw [map_mul, List.map_append, List.prod_append]
    ring

/-- C30, refuted for the remaining case: the product of a polynomial given by its roots by a polynomial given by (at least one of) its
coefficients is always wrong, by exactly 1. -/
theorem C30_produit_mixte_refute (φ : K →+* L) (p q : Poly K) (x : L) (hp : p.racines = true) (hq : q.racines = false) (hn : q.coefs ≠ []) :
    (p.mul q).horner φ x = p.horner φ x * q.horner φ x + 1 ∧ (p.mul q).horner φ x ≠ p.horner φ x * q.horner φ x := by
  have h1 : (p.mul q).horner φ x = p.horner φ x * q.horner φ x + 1 := by
    unfold Poly.mul
    rw [if_pos hp, if_neg (by simp [hq]), produitCoefs_val φ _ _ _ _ (.inr hn), valCoefs_versCoefs, C30_horner φ q, Poly.val, hq]
    simp
  refine ⟨h1, ?_⟩
  rw [h1]
  intro h
  exact one_ne_zero (add_left_cancel (h.trans (add_zero _).symm))

theorem bouclePuissance_val (φ : K →+* L) (p : Poly K) (x : L) (e : Nat) : ∀ res : Poly K, res.racines = false →
    (bouclePuissance p e res).horner φ x = res.horner φ x * p.horner φ x ^ e := by
  induction e with
  | zero => intro res _; rw [bouclePuissance]; ring
  | succ e ih =>
    intro res hr
    rw [bouclePuissance, ih, C30_produit φ res p x (by simp [hr])]
    · ring
    · unfold Poly.mul
      rw [hr, if_neg (by simp)]
      unfold produitCoefs
      split <;> rfl

theorem duplique_val (φ : K →+* L) (r : List K) (x : L) (e : Nat) : ∀ res : List K,
    ((dupliqueRacines r e res).map fun c => x - φ c).prod = (res.map fun c => x - φ c).prod * (r.map fun c => x - φ c).prod ^ e := by
  induction e with
  | zero => intro res; rw [dupliqueRacines]; ring
  | succ e ih => intro res; rw [dupliqueRacines, ih, List.map_append, List.prod_append]; ring

theorem horner_one (φ : K →+* L) (x : L) : (Poly.one : Poly K).horner φ x = 1 := by
  rw [Poly.one, horner_deCoefs, valCoefs_cons, valCoefs_nil, map_one]; ring

theorem horner_z (φ : K →+* L) (x : L) : (Poly.z : Poly K).horner φ x = x := by
  rw [Poly.z, horner_deCoefs, valCoefs_cons, valCoefs_cons, valCoefs_nil, map_one, map_zero]; ring

/-- C30: powers, in both modes, exponent 0 included. -/
theorem C30_puissance (φ : K →+* L) (p : Poly K) (e : Nat) (x : L) : (p.pow e).horner φ x = p.horner φ x ^ e := by
  unfold Poly.pow
  split
  · rename_i h; subst h; rw [horner_one, pow_zero]
  · rename_i h
    cases hp : p.racines
    · rw [if_neg (by simp), bouclePuissance_val φ p x e _ rfl, horner_one, one_mul]
    · rw [if_pos rfl, C30_horner, C30_horner, Poly.val, Poly.val, hp]
      simp only [if_true]
      unfold valRacines
      obtain ⟨k, rfl⟩ := Nat.exists_eq_succ_of_ne_zero h
      rw [duplique_val, Nat.succ_eq_add_one, Nat.add_sub_cancel, map_pow]
      ring

/-- C30: `p << i` is `x^i p(x)` in coefficient mode. -/
theorem C30_decalage (φ : K →+* L) (p : Poly K) (hp : p.racines = false) (i : Nat) (x : L) :
    (p.decale i).horner φ x = x ^ i * p.horner φ x := by
  rw [Poly.decale, horner_deCoefs, valCoefs_decale, C30_horner φ p, Poly.val, hp]
  simp

/-- C30, refuted in root mode: the roots are taken for coefficients (`(x - 3) << 1` is not `x (x - 3)`). -/
theorem C30_decalage_racines_refute : ∃ (p : Poly ℚ) (x : ℚ), (p.decale 1).horner (RingHom.id ℚ) x ≠ x ^ 1 * p.horner (RingHom.id ℚ) x := by
  refine ⟨Poly.deRacines [3], 1, ?_⟩
  simp [Poly.decale, Poly.deRacines, Poly.horner, Poly.deCoefs, hornerCoefs, hornerRacines]
  norm_num

example : ((Poly.deCoefs [1, 2, 3] : Poly ℚ).mul (Poly.deRacines [1, 2])).horner (RingHom.id ℚ) 3 = (1 + 2 * 3 + 3 * 9) * (2 * 1) := by
  rw [C30_produit _ _ _ _ (by simp [Poly.deCoefs])]
  simp [Poly.deRacines, Poly.horner, Poly.deCoefs, hornerCoefs, hornerRacines]
  norm_num

/-! ## C31: rational functions -/

/-- The case excluded from products: left factor in root mode, right factor in coefficient mode. -/
def Compatible (p q : Poly K) : Prop := p.racines = true → q.racines = true

/-- C31: the value of `f * g` is the product of the values (0 denominators included, with the convention `a / 0 = 0`). -/
theorem C31_produit (φ : K →+* L) (f g : FRat K) (x : L) (hn : Compatible f.numer g.numer) (hd : Compatible f.denom g.denom) :
    (f.mul g).horner φ x = f.horner φ x * g.horner φ x := by
  unfold FRat.horner FRat.mul
  simp only []
  rw [C30_produit φ _ _ x hn, C30_produit φ _ _ x hd, mul_div_mul_comm]

/-- C31: sum, where the denominators do not vanish. -/
theorem C31_somme (φ : K →+* L) (f g : FRat K) (x : L) (h1 : Compatible f.numer g.denom) (h2 : Compatible g.numer f.denom)
    (h3 : Compatible f.denom g.denom) (hf : f.denom.horner φ x ≠ 0) (hg : g.denom.horner φ x ≠ 0) :
    (f.add g).horner φ x = f.horner φ x + g.horner φ x := by
  unfold FRat.horner FRat.add
  simp only []
  rw [C30_somme, C30_produit φ _ _ x h1, C30_produit φ _ _ x h2, C30_produit φ _ _ x h3]
  field_simp

/-- C31: scalar operations, negation, inverse, development. -/
theorem C31_scalaire (φ : K →+* L) (f : FRat K) (s : K) (x : L) :
    (f.mulScal s).horner φ x = f.horner φ x * φ s ∧ (f.neg).horner φ x = - f.horner φ x ∧ (f.inv).horner φ x = (f.horner φ x)⁻¹ ∧
      f.developpe.horner φ x = f.horner φ x ∧ (f.denom.horner φ x ≠ 0 → (f.addScal s).horner φ x = f.horner φ x + φ s) := by
  refine ⟨?_, ?_, ?_, ?_, ?_⟩
  · unfold FRat.horner FRat.mulScal
    simp only []
    rw [(C30_scalaire φ _ s x).1]
    ring
  · unfold FRat.horner FRat.neg
    simp only []
    rw [C30_oppose, neg_div]
  · unfold FRat.horner FRat.inv
    simp only []
    rw [inv_div]
  · unfold FRat.horner FRat.developpe
    simp only []
    rw [(C30_coefs φ _ x).2.1, (C30_coefs φ _ x).2.1]
  · intro h
    unfold FRat.horner FRat.addScal
    simp only []
    rw [C30_somme, (C30_scalaire φ _ s x).1]
    field_simp

/-- C31: difference. -/
theorem C31_difference (φ : K →+* L) (f g : FRat K) (x : L) (h1 : Compatible f.numer g.denom) (h2 : Compatible g.numer f.denom)
    (h3 : Compatible f.denom g.denom) (hf : f.denom.horner φ x ≠ 0) (hg : g.denom.horner φ x ≠ 0) :
    (f.sub g).horner φ x = f.horner φ x - g.horner φ x := by
  unfold FRat.sub
  rw [C31_somme φ f g.neg x h1 _ h3 hf hg, (C31_scalaire φ g 0 x).2.1, sub_eq_add_neg]
  intro h
  refine h2 ?_
  simp only [FRat.neg, Poly.neg] at h
  split at h <;> simp_all

theorem nbNuls_val [DecidableEq K] (φ : K →+* L) (x : L) (l : List K) : ∀ m, m ≤ nbNuls l → valCoefs φ l x = x ^ m * valCoefs φ (l.drop m) x := by
  induction l with
  | nil => intro m hm; simp [nbNuls] at hm; subst hm; simp
  | cons c l ih =>
    intro m hm
    cases m with
    | zero => simp
    | succ m =>
      rw [nbNuls] at hm
      split at hm
      · rename_i h
        rw [valCoefs_cons, h, map_zero, ih m (by omega), List.drop_succ_cons]
        ring
      · omega

theorem nbNuls_racines [DecidableEq K] (φ : K →+* L) (x : L) (l : List K) : ∀ m, m ≤ nbNuls l →
    (l.map fun c => x - φ c).prod = x ^ m * ((l.drop m).map fun c => x - φ c).prod := by
  induction l with
  | nil => intro m hm; simp [nbNuls] at hm; subst hm; simp
  | cons c l ih =>
    intro m hm
    cases m with
    | zero => simp
    | succ m =>
      rw [nbNuls] at hm
      split at hm
      · rename_i h
        rw [List.map_cons, List.prod_cons, h, map_zero, ih m (by omega), List.drop_succ_cons]
        ring
      · omega

/-- C31: removing the common powers of `z` does not change the value (elsewhere than at 0). -/
theorem C31_simplifie [DecidableEq K] (φ : K →+* L) (f : FRat K) (x : L) (hx : x ≠ 0) : f.simplifie.horner φ x = f.horner φ x := by
  unfold FRat.simplifie
  split
  · rfl
  · rename_i hn
    simp only []
    split
    · have hnum : f.numer.val φ x = x ^ min (nbNuls f.numer.coefs) (nbNuls f.denom.coefs) *
          Poly.val φ { f.numer with coefs := f.numer.coefs.drop (min (nbNuls f.numer.coefs) (nbNuls f.denom.coefs)) } x := by
        unfold Poly.val
        simp only [hn, Bool.false_eq_true, if_false]
        exact nbNuls_val φ x _ _ (Nat.min_le_left _ _)
      have hden : f.denom.val φ x = x ^ min (nbNuls f.numer.coefs) (nbNuls f.denom.coefs) *
          Poly.val φ { f.denom with coefs := f.denom.coefs.drop (min (nbNuls f.numer.coefs) (nbNuls f.denom.coefs)) } x := by
        unfold Poly.val
        split
        · unfold valRacines
          simp only []
          rw [nbNuls_racines φ x _ _ (Nat.min_le_right (nbNuls f.numer.coefs) _)]
          ring
        · exact nbNuls_val φ x _ _ (Nat.min_le_right _ _)
      unfold FRat.horner
      rw [C30_horner, C30_horner, C30_horner, C30_horner, hnum, hden, mul_div_mul_left _ _ (pow_ne_zero _ hx)]
    · rfl

/-- C31: quotient. -/
theorem C31_quotient [DecidableEq K] (φ : K →+* L) (f g : FRat K) (x : L) (hx : x ≠ 0) (h1 : Compatible f.numer g.denom)
    (h2 : Compatible f.denom g.numer) : (f.div g).horner φ x = f.horner φ x / g.horner φ x := by
  rw [FRat.div, C31_simplifie φ _ x hx]
  unfold FRat.horner
  simp only []
  rw [C30_produit φ _ _ x h1, C30_produit φ _ _ x h2, div_div_div_eq]

theorem mul_racines (p : Poly K) (q : Poly K) (h : p.racines = q.racines) : (p.mul q).racines = p.racines := by
  unfold Poly.mul
  cases hp : p.racines
  · rw [if_neg (by simp)]
    unfold produitCoefs
    split <;> rfl
  · rw [if_pos rfl, if_pos (by rw [← h, hp])]

/-- C31: powers. -/
theorem C31_puissance (φ : K →+* L) (f : FRat K) (n : Nat) (x : L) : (f.pow n).horner φ x = f.horner φ x ^ n := by
  have : ∀ n, (f.pow (n + 1)).horner φ x = f.horner φ x ^ (n + 1) ∧ (f.pow (n + 1)).numer.racines = f.numer.racines ∧
      (f.pow (n + 1)).denom.racines = f.denom.racines := by
    intro n
    induction n with
    | zero => simp [FRat.pow]
    | succ n ih =>
      obtain ⟨e, a, b⟩ := ih
      refine ⟨?_, ?_, ?_⟩
      · rw [FRat.pow, C31_produit φ _ _ x (by intro h; rw [← a]; exact h) (by intro h; rw [← b]; exact h), e]; ring
      · rw [FRat.pow, FRat.mul]; simp only []; rw [mul_racines _ _ a, a]
      · rw [FRat.pow, FRat.mul]; simp only []; rw [mul_racines _ _ b, b]
  cases n with
  | zero => rw [FRat.pow, FRat.un, FRat.horner]; simp [horner_one]
  | succ n => exact (this n).1

/-- C31: the elementary fractions. -/
theorem C31_monomes (φ : K →+* L) (x : L) (a : K) : (FRat.z : FRat K).horner φ x = x ∧ (FRat.zinv : FRat K).horner φ x = x⁻¹ ∧
    (FRat.cst a).horner φ x = φ a := by
  refine ⟨?_, ?_, ?_⟩
  · simp [FRat.z, FRat.horner, horner_one, horner_z]
  · simp [FRat.zinv, FRat.horner, horner_one, horner_z]
  · simp [FRat.cst, FRat.horner, horner_one, (C30_scalaire φ _ a x).1]

/-- Specification: transfer function `Σ a_k z^{-k}` of the FIR filter of coefficients `a`. -/
def rep (φ : K →+* L) (a : List K) (z : L) : L := ∑ k ∈ range a.length, φ (a.getD k 0) * (z⁻¹) ^ k

theorem rep_eq (φ : K →+* L) (a : List K) (z : L) : rep φ a z = valCoefs φ a z⁻¹ := rfl

/-- Reversing the coefficients. -/
theorem val_reverse (φ : K →+* L) (a : List K) (z : L) (hz : z ≠ 0) : z * valCoefs φ a.reverse z = z ^ a.length * rep φ a z := by
  rw [rep_eq]
  induction a with
  | nil => simp [valCoefs_nil]
  | cons c a ih =>
    rw [List.reverse_cons, valCoefs_append, mul_add, ih, valCoefs_cons, valCoefs_cons, valCoefs_nil, List.length_reverse, List.length_cons,
      pow_succ]
    field_simp
    ring

/-- C31: `rif(a)` evaluates to `a_0 + a_1 z^{-1} + … `, for any number `≥ 1` of coefficients. -/
theorem C31_rif (φ : K →+* L) (a : List K) (ha : a ≠ []) (z : L) (hz : z ≠ 0) : (FRat.rif a).horner φ z = rep φ a z := by
  have hl : 0 < a.length := List.length_pos_iff.2 ha
  rw [FRat.rif, if_neg ha, FRat.horner]
  simp only []
  rw [horner_deCoefs, horner_deCoefs, valCoefs_decale, valCoefs_cons, valCoefs_nil, map_one, mul_zero, add_zero, mul_one]
  have h := val_reverse φ a z hz
  obtain ⟨k, hk⟩ : ∃ k, a.length = k + 1 := ⟨a.length - 1, by omega⟩
  rw [hk, pow_succ] at h
  rw [hk, Nat.add_sub_cancel]
  have hzk : z ^ k ≠ 0 := pow_ne_zero _ hz
  field_simp
  refine mul_left_cancel₀ hz ?_
  rw [h]
  ring

/-- C31: `coefs_rif` gives back the coefficients. -/
theorem C31_rif_aller_retour [DecidableEq K] (a : List K) (ha : a ≠ []) : (FRat.rif a).coefsRif = some a := by
  have h : (FRat.rif a).estRif = some true := by
    rw [FRat.rif, if_neg ha, FRat.estRif]
    simp only [Poly.deCoefs, List.reverse_append, List.reverse_cons, List.reverse_nil, List.nil_append, List.cons_append]
    simp
  rw [FRat.coefsRif, h, FRat.rif, if_neg ha]
  simp [Poly.deCoefs]

/-- C31: when a fraction in coefficient form, with as many coefficients in both parts, is recognised as a FIR filter, the returned coefficients
are those of a filter with the same transfer function. -/
theorem C31_coefs_rif [DecidableEq K] (φ : K →+* L) (f : FRat K) (hn : f.numer.racines = false) (hd : f.denom.racines = false)
    (hl : f.numer.coefs.length = f.denom.coefs.length) (a : List K) (ha : f.coefsRif = some a) (z : L) (hz : z ≠ 0) :
    f.horner φ z = rep φ a z := by
  have hr : f.estRif = some true ∧ a = f.numer.coefs.reverse := by
    unfold FRat.coefsRif at ha
    split at ha
    · rename_i h; exact ⟨h, (Option.some.inj ha).symm⟩
    · cases ha
  obtain ⟨h1, rfl⟩ := hr
  unfold FRat.estRif at h1
  split at h1
  · cases h1
  · rename_i c l h
    simp only [Option.some.injEq, Bool.and_eq_true, decide_eq_true_eq, List.all_eq_true] at h1
    obtain ⟨rfl, h2⟩ := h1
    have hlz : l = List.replicate l.length 0 := List.eq_replicate_iff.2 ⟨rfl, fun b hb => h2 b hb⟩
    have hden : f.denom.coefs = List.replicate l.length 0 ++ [1] := by
      rw [← List.reverse_reverse f.denom.coefs, h, List.reverse_cons]
      congr 1
      conv_lhs => rw [hlz]
      rw [List.reverse_replicate]
    have h3 := C31_rif φ f.numer.coefs.reverse (by
      intro h0
      rw [List.reverse_eq_nil_iff] at h0
      rw [h0, hden] at hl
      simp at hl) z hz
    rw [← h3, FRat.rif, if_neg]
    · unfold FRat.horner
      simp only []
      rw [List.reverse_reverse, List.length_reverse, hl, hden, C30_horner, C30_horner, C30_horner, C30_horner]
      unfold Poly.val
      simp [hn, hd, hden, Poly.deCoefs]
    · intro h0
      rw [List.reverse_eq_nil_iff] at h0
      rw [h0, hden] at hl
      simp at hl

/-- C31: substitution of `z` by `1/z`, when the numbers of coefficients of numerator and denominator differ by at most one. -/
theorem C31_inversion (φ : K →+* L) (f : FRat K) (z : L) (hz : z ≠ 0) (h1 : f.numer.versCoefs.coefs.length ≤ f.denom.versCoefs.coefs.length + 1)
    (h2 : f.denom.versCoefs.coefs.length ≤ f.numer.versCoefs.coefs.length + 1) : f.evalInvZ.horner φ z = f.horner φ z⁻¹ := by
  have hf : f.horner φ z⁻¹ = rep φ f.numer.versCoefs.coefs z / rep φ f.denom.versCoefs.coefs z := by
    rw [FRat.horner, rep_eq, rep_eq, valCoefs_versCoefs, valCoefs_versCoefs]
  have ha := val_reverse φ f.numer.versCoefs.coefs z hz
  have hb := val_reverse φ f.denom.versCoefs.coefs z hz
  rw [hf]
  unfold FRat.evalInvZ
  simp only []
  generalize f.numer.versCoefs.coefs = a at *
  generalize f.denom.versCoefs.coefs = b at *
  have hcan : ∀ (u v : L) (k : Nat), z ^ (k + 1) * u / (z ^ (k + 1) * v) = u / v :=
    fun u v k => mul_div_mul_left _ _ (pow_ne_zero _ hz)
  have hmul : ∀ u v : L, u / v = (z * u) / (z * v) := fun u v => (mul_div_mul_left _ _ hz).symm
  split
  · rename_i h
    rw [show a.length - b.length = 1 by omega, FRat.horner]
    simp only []
    rw [C30_puissance, pow_one, C30_produit φ _ _ z (by simp [Poly.deCoefs]), horner_z, horner_deCoefs, horner_deCoefs, hmul, ha,
      show z * (valCoefs φ b.reverse z * z) = z * (z * valCoefs φ b.reverse z) by ring, hb,
      show a.length = b.length + 1 by omega, ← mul_assoc, ← pow_succ', hcan]
  · split
    · rename_i h
      rw [show b.length - a.length = 1 by omega, FRat.horner]
      simp only []
      rw [C30_puissance, pow_one, C30_produit φ _ _ z (by simp [Poly.deCoefs]), horner_z, horner_deCoefs, horner_deCoefs, hmul, hb,
        show z * (valCoefs φ a.reverse z * z) = z * (z * valCoefs φ a.reverse z) by ring, ha,
        show b.length = a.length + 1 by omega, ← mul_assoc, ← pow_succ', hcan]
    · rw [FRat.horner]
      simp only []
      rw [horner_deCoefs, horner_deCoefs, hmul, ha, hb, show a.length = b.length by omega,
        mul_div_mul_left _ _ (pow_ne_zero _ hz)]

/-- C31: `rii(a, b)` evaluates to the transfer function `(Σ a_k z^{-k}) / (Σ b_k z^{-k})` of its difference equation, when the numbers of
coefficients differ by at most one. -/
theorem C31_rii (φ : K →+* L) (a b : List K) (ha : a ≠ []) (hb : b ≠ []) (h1 : a.length ≤ b.length + 1) (h2 : b.length ≤ a.length + 1)
    (z : L) (hz : z ≠ 0) : (FRat.rii a b).horner φ z = rep φ a z / rep φ b z := by
  rw [FRat.rii, if_neg (by simp [ha, hb]), C31_inversion φ ⟨Poly.deCoefs a, Poly.deCoefs b⟩ z hz h1 h2, FRat.horner]
  simp only []
  rw [horner_deCoefs, horner_deCoefs, rep_eq, rep_eq]

/-- C31, refuted when they differ by two or more (`*` binds tighter than `^`): the exact result raises the whole numerator to the power
`L - K`. -/
theorem C31_rii_exact (φ : K →+* L) (a b : List K) (ha : a ≠ []) (h : a.length < b.length) (z : L) :
    (FRat.rii a b).horner φ z = (valCoefs φ a.reverse z * z) ^ (b.length - a.length) / valCoefs φ b.reverse z := by
  have hb : b ≠ [] := by rintro rfl; simp at h
  rw [FRat.rii, if_neg (by simp [ha, hb]), FRat.evalInvZ]
  simp only [Poly.versCoefs, Poly.deCoefs, Bool.false_eq_true, if_false]
  rw [if_neg (by omega), if_pos h, FRat.horner]
  simp only []
  rw [C30_puissance, C30_produit φ _ _ z (by simp), horner_z]
  exact congrArg₂ (· / ·) (congrArg (fun u => (u * z) ^ (b.length - a.length)) (horner_deCoefs φ _ z)) (horner_deCoefs φ _ z)

/-- C31, refuted on the all-pole filter `y_n = 2 x_n - y_{n-1} - y_{n-2}`: at `z = 1` the transfer function is `2/3`, the result is `4/3`. -/
theorem C31_rii_refute : (FRat.rii [2] [1, 1, 1] : FRat ℚ).horner (RingHom.id ℚ) 1 = 4 / 3 ∧
    rep (RingHom.id ℚ) [2] 1 / rep (RingHom.id ℚ) [1, 1, 1] 1 = (2 / 3 : ℚ) := by
  refine ⟨?_, ?_⟩
  · rw [C31_rii_exact _ _ _ (by simp) (by simp)]
    simp [valCoefs, sum_range_succ]
    norm_num
  · simp [rep, sum_range_succ]
    norm_num

/-- C31, refuted: `coefs_rif` forgets pure delays: `z^{-1}` is recognised as a FIR filter, but its coefficients are returned as those of the
identity. -/
theorem C31_coefs_rif_refute : (FRat.zinv : FRat ℚ).coefsRif = some [1] ∧ (FRat.zinv : FRat ℚ).horner (RingHom.id ℚ) 2 ≠ rep (RingHom.id ℚ) [1] 2 := by
  refine ⟨?_, ?_⟩
  · simp [FRat.coefsRif, FRat.estRif, FRat.zinv, Poly.z, Poly.one, Poly.deCoefs]
  · rw [(C31_monomes _ _ 0).2.1]
    simp [rep]

/-- C31: positive powers of `z`; negative ones are not built (access outside of the coefficients). -/
theorem C31_zPower (φ : K →+* L) (n : Int) (x : L) :
    (0 ≤ n → ∃ f : FRat K, FRat.zPower n = some f ∧ f.horner φ x = x ^ n.toNat) ∧ (n < 0 → (FRat.zPower n : Option (FRat K)) = none) := by
  refine ⟨fun h => ?_, fun h => ?_⟩
  · unfold FRat.zPower
    split
    · rename_i h0; subst h0
      refine ⟨_, rfl, ?_⟩
      simp [FRat.un, FRat.horner, horner_one]
    · rw [if_pos (by omega)]
      refine ⟨_, rfl, ?_⟩
      rw [FRat.horner]
      simp only []
      rw [horner_deCoefs, horner_deCoefs, valCoefs_decale, valCoefs_cons, valCoefs_nil]
      simp
  · unfold FRat.zPower
    rw [if_neg (by omega), if_neg (by omega)]

example : (FRat.rii [1, 2] [1, 3, 5] : FRat ℚ).horner (RingHom.id ℚ) 2 = (1 + 2 / 2) / (1 + 3 / 2 + 5 / 4) := by
  rw [C31_rii _ _ _ (by simp) (by simp) (by simp) (by simp) _ (by norm_num)]
  simp [rep, sum_range_succ]
  norm_num

end Verif.FracRat
