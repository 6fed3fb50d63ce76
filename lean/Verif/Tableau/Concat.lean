import Verif.Tableau.Model
import Mathlib.Tactic.Linarith
import Mathlib.Tactic.Ring

/-!
# C199: concatenation of matrices (core/include/tsd/tsd.hpp:155-181)

On the memory model of C36. `block` is the one of `float` matrices (for the other types it throws, C198).
-/

namespace Tableau

variable {α : Type}

/-! ## Model -/

/-- The node of the result: `TabT(n, m)`, core/include/tsd/tableau.hpp:594-600; its memory is not initialised (`indet`). -/
def resultat (e : Etat α) (n m : ℕ) : Noeud := { ref := false, bloc := false, r := n, c := m, tampon := e.tampons.length, base := 0, ld := n }

/-- `vconcat` of two matrices, bound to `x`, core/include/tsd/tsd.hpp:157-167: the arguments of `block` are (first row, number of rows, first column, number of columns). -/
def vconcatMat (e : Etat α) (x : ℕ) (a b : Noeud) (indet : List α) : Except Faute (Etat α) :=
  if a.c ≠ b.c then .error .exception else
  let e1 := alloue e x a.c (a.r + b.r) indet
  let c := resultat e a.c (a.r + b.r)
  match (if 0 < a.r then affecteVue e1 (noeudBlock c 0 0 a.r a.c) a else .ok e1) with
  | .error f => .error f
  | .ok e2 => if 0 < b.r then affecteVue e2 (noeudBlock c a.r 0 b.r a.c) b else .ok e2

/-- `hconcat` of two matrices, bound to `x`, core/include/tsd/tsd.hpp:171-181. -/
def hconcatMat (e : Etat α) (x : ℕ) (a b : Noeud) (indet : List α) : Except Faute (Etat α) :=
  if a.r ≠ b.r then .error .exception else
  let e1 := alloue e x (a.c + b.c) a.r indet
  let c := resultat e (a.c + b.c) a.r
  match (if 0 < a.c then affecteVue e1 (noeudBlock c 0 0 a.r a.c) a else .ok e1) with
  | .error f => .error f
  | .ok e2 => if 0 < b.c then affecteVue e2 (noeudBlock c 0 a.c b.r b.c) b else .ok e2

/-! ## Proofs -/

theorem lisBloc_alloue (e : Etat α) (x r c : ℕ) (vs : List α) (t k n : ℕ) (w : List α) (h : lisBloc e t k n = .ok w) : lisBloc (alloue e x r c vs) t k n = .ok w := by
  have ht : t < e.tampons.length := by
    by_contra hc
    simp [lisBloc, List.getElem?_eq_none (not_lt.1 hc)] at h
  simp only [lisBloc, alloue, lie, List.getElem?_append_left ht] at h ⊢
  exact h

theorem lisCols_alloue (e : Etat α) (x r c : ℕ) (vs : List α) (s : Noeud) : ∀ (k j : ℕ) (w : List α), lisCols e s k j = .ok w → lisCols (alloue e x r c vs) s k j = .ok w
  | 0, j, w, h => h
  | k + 1, j, w, h => by
    rw [lisCols] at h ⊢
    cases h1 : lisBloc e s.tampon (s.base + j * s.ld) s.r with
    | error f => rw [h1] at h; cases h
    | ok v =>
      rw [h1] at h
      rw [lisBloc_alloue e x r c vs _ _ _ v h1]
      cases h2 : lisCols e s k (j + 1) with
      | error f => rw [h2] at h; cases h
      | ok w' =>
        rw [h2] at h
        rw [lisCols_alloue e x r c vs s k (j + 1) w' h2]
        exact h

theorem lisNoeud_alloue (e : Etat α) (x r c : ℕ) (vs : List α) (s : Noeud) (w : List α) (h : lisNoeud e s = .ok w) : lisNoeud (alloue e x r c vs) s = .ok w := by
  unfold lisNoeud at h ⊢
  split
  · rename_i hb; rw [if_pos hb] at h; exact lisCols_alloue e x r c vs s _ _ w h
  · rename_i hb; rw [if_neg hb] at h; exact lisBloc_alloue e x r c vs _ _ _ w h

theorem affecteVue_sans (e : Etat α) (d s : Noeud) (w : List α) (h : lisNoeud e s = .ok w) (hd : d.r ≠ s.r) : affecteVue e d s = .ok e := by
  unfold affecteVue memesDims
  rw [if_neg (by simp [hd]), h]

theorem alloue_valeur (e : Etat α) (x n m : ℕ) (vs : List α) (hl : vs.length = n * m) : (alloue e x n m vs).vars x = some (resultat e n m) ∧ valeur (alloue e x n m vs) x = .ok vs := by
  constructor
  · simp [alloue, lie, resultat]
  · simp [valeur, alloue, lie, noeud, lisNoeud, lisBloc, hl]
    exact List.take_of_length_le hl.le

/-- Specification: the matrix `m` (in column order, `r` rows) has its entries given by `f`. -/
def EstMatrice (m : List α) (r c : ℕ) (f : ℕ → ℕ → Option α) : Prop := m.length = r * c ∧ ∀ i j, i < r → j < c → m[i + j * r]? = f i j

/-- **C199, violated: vertical concatenation.** Whatever the two (readable, non-empty, `float`) matrices with the same number of columns, the result has the dimensions of the transpose of the expected one and contains
what was in the memory before: no element of `a` or `b` is copied. With different numbers of columns the call throws, as documented. -/
theorem C199_vconcat_refute (e : Etat α) (x : ℕ) (a b : Noeud) (va vb indet : List α) (ha : lisNoeud e a = .ok va) (hb : lisNoeud e b = .ok vb) (ra : 0 < a.r) (rb : 0 < b.r) (hi : indet.length = a.c * (a.r + b.r)) :
    (a.c ≠ b.c → vconcatMat e x a b indet = .error .exception) ∧
    (a.c = b.c → ∃ e', vconcatMat e x a b indet = .ok e' ∧ (∃ n, e'.vars x = some n ∧ n.r = a.c ∧ n.c = a.r + b.r) ∧ valeur e' x = .ok indet) := by
  constructor
  · intro h
    rw [vconcatMat, if_pos h]
  · intro h
    obtain ⟨h1, h2⟩ := alloue_valeur e x a.c (a.r + b.r) indet hi
    refine ⟨alloue e x a.c (a.r + b.r) indet, ?_, ⟨_, h1, rfl, rfl⟩, h2⟩
    rw [vconcatMat, if_neg (not_not.2 h)]
    dsimp only
    rw [if_pos ra, affecteVue_sans _ _ _ va (lisNoeud_alloue e x _ _ _ a va ha) (by simp [noeudBlock]; omega)]
    dsimp only
    rw [if_pos rb, affecteVue_sans _ _ _ vb (lisNoeud_alloue e x _ _ _ b vb hb) (by simp [noeudBlock]; omega)]

theorem memcpy_dehors (e : Etat α) (td kd ts ks n : ℕ) (l : List α) (hl : e.tampons[td]? = some (some l)) (h : l.length < kd + n) : memcpy e td kd ts ks n = .error .indefini := by
  unfold memcpy
  split
  · rfl
  · cases h1 : lisBloc e ts ks n with
    | error f =>
      unfold lisBloc at h1
      split at h1
      · split at h1
        · cases h1
        · cases h1; rfl
      · cases h1; rfl
    | ok vs =>
      have hv : vs.length = n := by
        unfold lisBloc at h1
        split at h1
        · split at h1
          · cases h1
            rw [List.length_take, List.length_drop]
            omega
          · cases h1
        · cases h1
      simp only [ecritBloc, hl, hv]
      rw [if_neg (by omega)]

/-- **C199, violated: horizontal concatenation.** Whatever the two (readable, non-empty, `float`) matrices with the same number of rows: if `a` is square the call writes out of the memory of the result; otherwise the
result has the dimensions of the transpose of the expected one and contains what was in the memory before. -/
theorem C199_hconcat_refute (e : Etat α) (x : ℕ) (a b : Noeud) (va vb indet : List α) (ha : lisNoeud e a = .ok va) (hb : lisNoeud e b = .ok vb) (ra : 0 < a.r) (ca : 0 < a.c) (cb : 0 < b.c) (hi : indet.length = (a.c + b.c) * a.r) :
    (a.r ≠ b.r → hconcatMat e x a b indet = .error .exception) ∧
    (a.r = b.r → a.c = a.r → hconcatMat e x a b indet = .error .indefini) ∧
    (a.r = b.r → a.c ≠ a.r → ∃ e', hconcatMat e x a b indet = .ok e' ∧ (∃ n, e'.vars x = some n ∧ n.r = a.c + b.c ∧ n.c = a.r) ∧ valeur e' x = .ok indet) := by
  have hA : affecteVue (alloue e x (a.c + b.c) a.r indet) (noeudBlock (resultat e (a.c + b.c) a.r) 0 0 a.r a.c) a = .ok (alloue e x (a.c + b.c) a.r indet) :=
    affecteVue_sans _ _ _ va (lisNoeud_alloue e x _ _ _ a va ha) (by simp [noeudBlock]; omega)
  refine ⟨fun h => by rw [hconcatMat, if_pos h], fun h hs => ?_, fun h hs => ?_⟩
  · rw [hconcatMat, if_neg (not_not.2 h)]
    dsimp only
    rw [if_pos ca, hA]
    dsimp only
    rw [if_pos cb]
    unfold affecteVue
    rw [if_pos (by simp [noeudBlock, memesDims]; omega)]
    unfold copieNoeud
    rw [if_neg (by simp [noeudBlock])]
    obtain ⟨k, hk⟩ : ∃ k, (noeudBlock (resultat e (a.c + b.c) a.r) 0 a.c b.r b.c).c = k + 1 := ⟨b.c - 1, by simp [noeudBlock]; omega⟩
    rw [hk, copieCols, memcpy_dehors _ _ _ _ _ _ indet (by simp [noeudBlock, resultat, alloue, lie])]
    simp only [noeudBlock, resultat, hi, h]
    rw [Nat.mul_comm]
    omega
  · obtain ⟨h1, h2⟩ := alloue_valeur e x (a.c + b.c) a.r indet hi
    refine ⟨alloue e x (a.c + b.c) a.r indet, ?_, ⟨_, h1, rfl, rfl⟩, h2⟩
    rw [hconcatMat, if_neg (not_not.2 h)]
    dsimp only
    rw [if_pos ca, hA]
    dsimp only
    rw [if_pos cb, affecteVue_sans _ _ _ vb (lisNoeud_alloue e x _ _ _ b vb hb) (by simp [noeudBlock]; omega)]

/-- **C199 (consequence).** The vertical concatenation of two matrices is not their concatenation: whatever the expected matrix `f`, there is a previous content of the memory for which the result is not `f`. -/
theorem C199_contenu_refute (e : Etat α) (x : ℕ) (a b : Noeud) (va vb : List α) (ha : lisNoeud e a = .ok va) (hb : lisNoeud e b = .ok vb) (ra : 0 < a.r) (rb : 0 < b.r) (hc : a.c = b.c) (c0 : 0 < a.c) (p q : α) (hpq : p ≠ q) (f : ℕ → ℕ → α) :
    ∃ indet : List α, indet.length = a.c * (a.r + b.r) ∧ ∃ e' w, vconcatMat e x a b indet = .ok e' ∧ valeur e' x = .ok w ∧ ¬ EstMatrice w (a.r + b.r) a.c (fun i j => some (f i j)) := by
  classical
  let v := if f 0 0 = p then q else p
  have hv : v ≠ f 0 0 := by
    by_cases h : f 0 0 = p
    · simp only [v, if_pos h]; rw [h]; exact hpq.symm
    · simp only [v, if_neg h]; exact fun h' => h h'.symm
  have hl : (List.replicate (a.c * (a.r + b.r)) v).length = a.c * (a.r + b.r) := List.length_replicate
  obtain ⟨e', h1, -, h2⟩ := (C199_vconcat_refute e x a b va vb _ ha hb ra rb hl).2 hc
  refine ⟨_, hl, e', _, h1, h2, fun hm => ?_⟩
  have := hm.2 0 0 (by omega) c0
  rw [Nat.zero_mul, Nat.add_zero, List.getElem?_replicate, if_pos (Nat.mul_pos c0 (by omega))] at this
  exact hv (Option.some.inj this)

/-- Non-vacuity: two matrices of 2 rows and 3 columns. -/
example : ∃ (e : Etat ℕ) (a b : Noeud) (va vb : List ℕ), lisNoeud e a = .ok va ∧ lisNoeud e b = .ok vb ∧ a.r = 2 ∧ a.c = 3 ∧ b.r = 2 ∧ b.c = 3 :=
  ⟨alloue (alloue ⟨[], fun _ => none⟩ 0 2 3 [1, 2, 3, 4, 5, 6]) 1 2 3 [7, 8, 9, 10, 11, 12], ⟨false, false, 2, 3, 0, 0, 2⟩, ⟨false, false, 2, 3, 1, 0, 2⟩, _, _, rfl, rfl, rfl, rfl, rfl, rfl⟩

end Tableau
