import Verif.Filtre.Model
import Mathlib.Algebra.BigOperators.Group.List.Basic
import Mathlib.Tactic.Linarith

namespace Verif.Filtre

/-! ### Loops and blocks -/

theorem boucle_append {S X Y : Type} (f : S → X → Option (S × Y)) (s : S) (a b : List X) :
    boucle f s (a ++ b) =
      match boucle f s a with
      | none => none
      | some (s', ya) =>
        match boucle f s' b with
        | none => none
        | some (s'', yb) => some (s'', ya ++ yb) := by
  induction a generalizing s with
  | nil =>
    simp only [List.nil_append, boucle]
    cases boucle f s b <;> rfl
  | cons x a ih =>
    simp only [List.cons_append, boucle]
    cases f s x with
    | none => rfl
    | some p =>
      obtain ⟨s1, y⟩ := p
      simp only [ih]
      cases boucle f s1 a with
      | none => rfl
      | some q =>
        obtain ⟨s2, ya⟩ := q
        simp only
        cases boucle f s2 b <;> rfl

/-- Two consecutive blocks give the same result as their concatenation. -/
def Decoupable {S X Y : Type} (f : Bloc S X Y) (I : S → Prop) : Prop :=
  (∀ s, I s → f s [] = some (s, [])) ∧
  (∀ s a s' y, I s → f s a = some (s', y) → I s') ∧
  ∀ s a b, I s → f s (a ++ b) =
      match f s a with
      | none => none
      | some (s', ya) =>
        match f s' b with
        | none => none
        | some (s'', yb) => some (s'', ya ++ yb)

theorem enchaine_eq {S X Y : Type} (f : Bloc S X Y) (I : S → Prop) (hf : Decoupable f I) (bs : List (List X)) :
    ∀ s, I s → enchaine f s bs = f s bs.flatten := by
  induction bs with
  | nil => intro s hs; simp [enchaine, hf.1 s hs]
  | cons b bs ih =>
    intro s hs
    simp only [enchaine, List.flatten_cons, hf.2.2 s b bs.flatten hs]
    cases h : f s b with
    | none => rfl
    | some p =>
      obtain ⟨s', y⟩ := p
      simp only [ih s' (hf.2.1 s b s' y hs h)]
      cases f s' bs.flatten <;> rfl

theorem boucle_decoupable {S X Y : Type} (f : S → X → Option (S × Y)) : Decoupable (boucle f) (fun _ => True) :=
  ⟨fun _ _ => rfl, fun _ _ _ _ _ _ => trivial, fun s a b _ => boucle_append f s a b⟩

/-! ### Circular windows -/

/-- A circular buffer read from position `i`. -/
def tourne {T : Type} (w : List T) (i : Nat) : List T := w.drop i ++ w.take i

theorem tourne_length {T : Type} (w : List T) (i : Nat) : (tourne w i).length = w.length := by
  simp [tourne]; omega

theorem tourne_getElem? {T : Type} (w : List T) (i j : Nat) (hi : i ≤ w.length) (hj : j < w.length) :
    (tourne w i)[j]? = w[(i + j) % w.length]? := by
  unfold tourne
  by_cases h : i + j < w.length
  · rw [Nat.mod_eq_of_lt h, List.getElem?_append_left (by simp; omega), List.getElem?_drop]
  · rw [List.getElem?_append_right (by simp; omega), List.length_drop, List.getElem?_take]
    have : (i + j) % w.length = i + j - w.length := by
      rw [Nat.mod_eq_sub_mod (by omega), Nat.mod_eq_of_lt (by omega)]
    rw [this, if_pos (by omega)]
    congr 1; omega

/-- Replacing the oldest element and advancing drops the oldest and appends the new one. -/
theorem tourne_set {T : Type} (w : List T) (i : Nat) (x : T) (hi : i < w.length) :
    tourne (w.set i x) ((i + 1) % w.length) = (tourne w i).tail ++ [x] := by
  by_cases h : i + 1 < w.length
  · rw [Nat.mod_eq_of_lt h]
    unfold tourne
    rw [List.drop_set, if_pos (by omega), List.take_set]
    have h1 : (w.drop i ++ w.take i).tail = w.drop (i + 1) ++ w.take i := by
      rw [List.drop_eq_getElem_cons hi]; rfl
    rw [h1, List.append_assoc]
    congr 1
    rw [List.take_succ_eq_append_getElem hi, List.set_append_right _ _ (by simp)]
    simp [Nat.min_eq_left hi.le]
  · have hl : i + 1 = w.length := by omega
    rw [hl, Nat.mod_self]
    unfold tourne
    simp only [List.drop_zero, List.take_zero, List.append_nil]
    rw [List.drop_eq_getElem_cons hi, List.cons_append, List.tail_cons, List.drop_of_length_le (by omega), List.nil_append]
    conv_lhs => rw [← List.take_append_drop i w]
    rw [List.set_append_right _ _ (by simp), List.drop_eq_getElem_cons hi, List.drop_of_length_le (by omega)]
    simp [Nat.min_eq_left hi.le]

/-- Stepping backwards: the new element comes first and the oldest (last) is dropped. -/
theorem tourne_set_back {T : Type} (w : List T) (i : Nat) (x : T) (hi : i < w.length) :
    tourne (w.set ((i + w.length - 1) % w.length) x) ((i + w.length - 1) % w.length) = x :: (tourne w i).dropLast := by
  have hw : 0 < w.length := by omega
  apply List.ext_getElem?
  intro j
  have hi' : (i + w.length - 1) % w.length < w.length := Nat.mod_lt _ hw
  by_cases hj : j < w.length
  · rw [tourne_getElem? _ _ _ (by simp; omega) (by simpa using hj)]
    simp only [List.length_set]
    cases j with
    | zero =>
      rw [Nat.add_zero, Nat.mod_mod, List.getElem?_set_self hi']
      simp
    | succ j =>
      have e : ((i + w.length - 1) % w.length + (j + 1)) % w.length = (i + j) % w.length := by
        rw [Nat.mod_add_mod]
        have : i + w.length - 1 + (j + 1) = i + j + w.length := by omega
        rw [this, Nat.add_mod_right]
      rw [e, List.getElem?_set_ne, List.getElem?_cons_succ, List.getElem?_dropLast, if_pos (by rw [tourne_length]; omega),
        tourne_getElem? _ _ _ hi.le (by omega)]
      rw [← e]
      intro hc
      have : ((i + w.length - 1) % w.length + (j + 1)) % w.length = (i + w.length - 1) % w.length := hc.symm
      generalize (i + w.length - 1) % w.length = r at *
      by_cases hr : r + (j + 1) < w.length
      · rw [Nat.mod_eq_of_lt hr] at this; omega
      · rw [Nat.mod_eq_sub_mod (by omega), Nat.mod_eq_of_lt (by omega)] at this; omega
  · rw [List.getElem?_eq_none (by rw [tourne_length]; simp; omega),
      List.getElem?_eq_none (by simp [tourne_length]; omega)]

/-! ### Multiply-accumulate loops -/

/-- Pure left-to-right multiply-accumulate. -/
def mac {T C : Type} (op : T → T → T) (mul : T → C → T) : T → List T → List C → T
  | s, v :: vs, c :: cs => mac op mul (op s (mul v c)) vs cs
  | s, _, _ => s

theorem mac_append {T C : Type} (op : T → T → T) (mul : T → C → T) (a b : List T) (c d : List C) (s : T)
    (h : a.length = c.length) : mac op mul s (a ++ b) (c ++ d) = mac op mul (mac op mul s a c) b d := by
  induction a generalizing c s with
  | nil => cases c with
    | nil => rfl
    | cons => simp at h
  | cons x a ih => cases c with
    | nil => simp at h
    | cons y c => simp only [List.cons_append, mac]; exact ih _ _ (by simpa using h)

theorem macDesc_eq {T C : Type} (add : T → T → T) (mul : T → C → T) (fen : List T) (coefs : List C) (n fi ci : Nat) (s : T)
    (hf : fi + n ≤ fen.length) (hc : ci ≤ coefs.length) (hn : n ≤ ci) :
    macDesc add mul fen coefs n fi ci s =
      some (mac add mul s ((fen.drop fi).take n) ((coefs.take ci).reverse.take n), ci - n) := by
  induction n generalizing fi ci s with
  | zero => simp [macDesc, mac]
  | succ n ih =>
    cases ci with
    | zero => omega
    | succ ci =>
      unfold macDesc
      have h1 : fi < fen.length := by omega
      have h2 : ci < coefs.length := by omega
      rw [List.getElem?_eq_getElem h1]
      simp only
      rw [List.getElem?_eq_getElem h2]
      simp only
      rw [ih (fi + 1) ci _ (by omega) (by omega) (by omega)]
      rw [List.drop_eq_getElem_cons h1, List.take_succ_cons, List.take_succ_eq_append_getElem h2, List.reverse_append]
      simp only [List.reverse_singleton, List.singleton_append, List.take_succ_cons, mac]
      congr 2
      omega

theorem macAsc_eq {T C : Type} (sub : T → T → T) (mul : T → C → T) (w : List T) (den : List C) (n wi di : Nat) (s : T)
    (hw : wi + n ≤ w.length) (hd : di + n ≤ den.length) :
    macAsc sub mul w den n wi di s =
      some (mac sub mul s ((w.drop wi).take n) ((den.drop di).take n), di + n) := by
  induction n generalizing wi di s with
  | zero => simp [macAsc, mac]
  | succ n ih =>
    unfold macAsc
    have h1 : wi < w.length := by omega
    have h2 : di < den.length := by omega
    rw [List.getElem?_eq_getElem h1, List.getElem?_eq_getElem h2]
    simp only
    rw [ih (wi + 1) (di + 1) _ (by omega) (by omega)]
    rw [List.drop_eq_getElem_cons h1, List.take_succ_cons, List.drop_eq_getElem_cons h2, List.take_succ_cons]
    simp only [mac]
    congr 2
    omega

/-- The two loops of the FIR together: the whole circular window against the reversed coefficients. -/
theorem macDesc_deux {T C : Type} (add : T → T → T) (mul : T → C → T) (fen : List T) (coefs : List C) (index : Nat) (zero : T)
    (hl : fen.length = coefs.length) (hi : index ≤ fen.length) :
    ∃ s1 ci r, macDesc add mul fen coefs (coefs.length - index) index coefs.length zero = some (s1, ci) ∧
      macDesc add mul fen coefs (coefs.length - (coefs.length - index)) 0 ci s1 = some r ∧
      r.1 = mac add mul zero (tourne fen index) coefs.reverse := by
  refine ⟨_, _, _, macDesc_eq add mul fen coefs _ _ _ _ (by omega) (by omega) (by omega),
    macDesc_eq add mul fen coefs _ _ _ _ (by omega) (by omega) (by omega), ?_⟩
  have e1 : coefs.length - (coefs.length - index) = index := by omega
  simp only [e1, List.drop_zero, List.take_length]
  have h1 : (fen.drop index).take (coefs.length - index) = fen.drop index := List.take_of_length_le (by simp; omega)
  have h2 : ((coefs.take index).reverse).take index = (coefs.take index).reverse := List.take_of_length_le (by simp)
  rw [h1, h2]
  have h3 : coefs.reverse = coefs.reverse.take (coefs.length - index) ++ (coefs.take index).reverse := by
    conv_lhs => rw [← List.take_append_drop (coefs.length - index) coefs.reverse]
    congr 1
    rw [List.drop_reverse]
    congr 2
  unfold tourne
  conv_rhs => rw [h3]
  rw [mac_append _ _ _ _ _ _ _ (by simp; omega)]

/-! ### History windows -/

/-- The last `K` samples of a history, oldest first, completed by zeros in front. -/
def derniers {T : Type} (zero : T) (K : Nat) (h : List T) : List T := (List.replicate K zero ++ h).drop h.length

theorem derniers_length {T : Type} (zero : T) (K : Nat) (h : List T) : (derniers zero K h).length = K := by
  simp [derniers]

theorem derniers_snoc {T : Type} (zero : T) (K : Nat) (h : List T) (x : T) (hK : 0 < K) :
    derniers zero K (h ++ [x]) = (derniers zero K h).tail ++ [x] := by
  unfold derniers
  rw [← List.append_assoc, List.length_append, List.length_singleton, ← List.drop_one, List.drop_drop,
    List.drop_append_of_le_length (by simp; omega)]

theorem derniers_getElem? {T : Type} (zero : T) (K : Nat) (h : List T) (j : Nat) (hj : j < K) :
    (derniers zero K h)[j]? = some (if K ≤ h.length + j then h.getD (h.length + j - K) zero else zero) := by
  unfold derniers
  rw [List.getElem?_drop]
  split
  · rename_i hk
    rw [List.getElem?_append_right (by simpa using hk), List.length_replicate]
    rw [List.getD_eq_getElem?_getD, List.getElem?_eq_getElem (by omega)]
    rfl
  · rw [List.getElem?_append_left (by simp; omega), List.getElem?_replicate, if_pos (by omega)]

end Verif.Filtre
