import Verif.Reechan.Model
import Verif.Filtre.Props
import Mathlib.Data.List.GetD

/-! Auxiliary lemmas for the polyphase filters. -/

namespace Verif.Reechan
open Verif.Filtre

/-! ### Loops with a variable number of outputs -/

/-- Outputs of a loop whose outputs at each sample are a function of the input history. -/
def sorties {X Y : Type} (out : List X → List Y) : List X → List X → List Y
  | _, [] => []
  | h, x :: xs => out (h ++ [x]) ++ sorties out (h ++ [x]) xs

theorem sorties_append {X Y : Type} (out : List X → List Y) (a b : List X) : ∀ h,
    sorties out h (a ++ b) = sorties out h a ++ sorties out (h ++ a) b := by
  induction a with
  | nil => intro h; simp [sorties]
  | cons x a ih => intro h; simp [sorties, ih, List.append_assoc]

theorem sorties_snoc {X Y : Type} (out : List X → List Y) (a : List X) (v : X) :
    sorties out [] (a ++ [v]) = sorties out [] a ++ out (a ++ [v]) := by
  rw [sorties_append]; simp [sorties]

theorem boucleL_hist {S X Y : Type} (f : S → X → Option (S × List Y)) (Rep : S → List X → Prop) (out : List X → List Y)
    (hstep : ∀ s h x, Rep s h → ∃ s', f s x = some (s', out (h ++ [x])) ∧ Rep s' (h ++ [x]))
    (xs : List X) : ∀ s h, Rep s h → ∃ s', boucleL f s xs = some (s', sorties out h xs) ∧ Rep s' (h ++ xs) := by
  induction xs with
  | nil => intro s h hr; exact ⟨s, rfl, by simpa using hr⟩
  | cons x xs ih =>
    intro s h hr
    obtain ⟨s1, e1, r1⟩ := hstep s h x hr
    obtain ⟨s2, e2, r2⟩ := ih s1 (h ++ [x]) r1
    exact ⟨s2, by simp [boucleL, e1, e2, sorties], by simpa using r2⟩

theorem enchaine_hist {S X Y : Type} (f : Bloc S X Y) (Rep : S → List X → Prop) (out : List X → List Y)
    (hf : ∀ s h x, Rep s h → ∃ s', f s x = some (s', sorties out h x) ∧ Rep s' (h ++ x))
    (bs : List (List X)) : ∀ s h, Rep s h → ∃ s', enchaine f s bs = some (s', sorties out h bs.flatten) ∧ Rep s' (h ++ bs.flatten) := by
  induction bs with
  | nil => intro s h hr; exact ⟨s, rfl, by simpa using hr⟩
  | cons b bs ih =>
    intro s h hr
    obtain ⟨s1, e1, r1⟩ := hf s h b hr
    obtain ⟨s2, e2, r2⟩ := ih s1 (h ++ b) r1
    refine ⟨s2, ?_, by simpa using r2⟩
    simp only [enchaine, e1, e2, List.flatten_cons, sorties_append]

/-- One output every `R` samples. -/
theorem sorties_un_sur {X Y : Type} (R : Nat) (hR : 0 < R) (F : List X → Y) (x : List X) :
    sorties (fun h => if h.length % R = 0 then [F h] else []) [] x =
      (List.range (x.length / R)).map (fun m => F (x.take ((m + 1) * R))) := by
  induction x using List.reverseRecOn with
  | nil => simp [sorties]
  | append_singleton x v ih =>
    rw [sorties_snoc, ih, List.length_append, List.length_singleton]
    have hold : (List.range (x.length / R)).map (fun m => F (x.take ((m + 1) * R))) =
        (List.range (x.length / R)).map (fun m => F ((x ++ [v]).take ((m + 1) * R))) := by
      apply List.map_congr_left
      intro m hm
      have hm := List.mem_range.1 hm
      have : (m + 1) * R ≤ x.length := (Nat.le_div_iff_mul_le hR).1 hm
      rw [List.take_append_of_le_length this]
    rw [hold, Nat.succ_div]
    by_cases hd : (x.length + 1) % R = 0
    · rw [if_pos hd, if_pos (Nat.dvd_of_mod_eq_zero hd), List.range_succ, List.map_append]
      congr 1
      simp only [List.map_cons, List.map_nil, List.cons.injEq, and_true]
      congr 1
      have h1 : (x.length + 1) / R = x.length / R + 1 := by rw [Nat.succ_div, if_pos (Nat.dvd_of_mod_eq_zero hd)]
      have h2 : (x.length / R + 1) * R = x.length + 1 := by rw [← h1]; exact Nat.div_mul_cancel (Nat.dvd_of_mod_eq_zero hd)
      rw [h2, List.take_of_length_le (by simp)]
    · rw [if_neg hd, if_neg (fun h => hd (Nat.mod_eq_zero_of_dvd h)), List.append_nil, Nat.add_zero]

theorem sorties_un_sur_length {X Y : Type} (R : Nat) (hR : 0 < R) (F : List X → Y) (x : List X) (h : List X) :
    (sorties (fun h => if h.length % R = 0 then [F h] else []) h x).length = (x.length + h.length % R) / R := by
  have e := sorties_append (fun h => if h.length % R = 0 then [F h] else []) h x []
  have e := congrArg List.length e
  rw [List.length_append, sorties_un_sur R hR, sorties_un_sur R hR, List.nil_append] at e
  simp only [List.length_map, List.length_range, List.length_append] at e
  have h1 : h.length + x.length = (x.length + h.length % R) + R * (h.length / R) := by
    have := Nat.mod_add_div h.length R; omega
  rw [h1, Nat.add_mul_div_left _ _ hR] at e
  omega

/-- `R` outputs for every sample. -/
theorem sorties_fois {X Y : Type} (R : Nat) (G : Nat → List X → Y) (x : List X) :
    (sorties (fun h => (List.range R).map (fun i => G i h)) [] x).length = x.length * R ∧
    ∀ m i, m < x.length → i < R →
      (sorties (fun h => (List.range R).map (fun i => G i h)) [] x)[m * R + i]? = some (G i (x.take (m + 1))) := by
  induction x using List.reverseRecOn with
  | nil => simp [sorties]
  | append_singleton x v ih =>
    rw [sorties_snoc]
    refine ⟨by simp [ih.1, Nat.add_mul], fun m i hm hi => ?_⟩
    have hm : m ≤ x.length := by simpa [Nat.lt_succ_iff] using hm
    by_cases hlt : m < x.length
    · have hb : m * R + i < x.length * R := by
        calc m * R + i < m * R + R := by omega
          _ = (m + 1) * R := by ring
          _ ≤ x.length * R := Nat.mul_le_mul_right R hlt
      rw [List.getElem?_append_left (by rw [ih.1]; exact hb), ih.2 m i hlt hi, List.take_append_of_le_length (by omega)]
    · have : m = x.length := by omega
      subst this
      rw [List.getElem?_append_right (by rw [ih.1]; omega), ih.1, Nat.add_sub_cancel_left, List.getElem?_map,
        List.getElem?_range hi, List.take_of_length_le (by simp)]
      rfl

/-! ### Multiply-accumulate with strides -/

/-- `s + g 0 * k 0 + … + g (n-1) * k (n-1)`, from the left. -/
def accu {T C : Type} (add : T → T → T) (mul : T → C → T) (g : Nat → T) (k : Nat → C) (n : Nat) (s : T) : T :=
  (List.range n).foldl (fun s t => add s (mul (g t) (k t))) s

theorem accu_plus {T C : Type} (add : T → T → T) (mul : T → C → T) (g : Nat → T) (k : Nat → C) (n m : Nat) (s : T) :
    accu add mul g k (n + m) s = accu add mul (fun t => g (n + t)) (fun t => k (n + t)) m (accu add mul g k n s) := by
  simp [accu, List.range_add, List.foldl_append, List.foldl_map]

theorem accu_congr {T C : Type} (add : T → T → T) (mul : T → C → T) (g g' : Nat → T) (k k' : Nat → C) (n : Nat) (s : T)
    (hg : ∀ t, t < n → g t = g' t) (hk : ∀ t, t < n → k t = k' t) : accu add mul g k n s = accu add mul g' k' n s := by
  induction n with
  | zero => rfl
  | succ n ih =>
    have := ih (fun t ht => hg t (by omega)) (fun t ht => hk t (by omega))
    unfold accu at *
    rw [List.range_succ, List.foldl_append, List.foldl_append, this]
    simp [hg n (by omega), hk n (by omega)]

theorem accu_somme {A : Type} [CommSemiring A] (g k : Nat → A) (n : Nat) (s : A) :
    accu (· + ·) (· * ·) g k n s = s + ∑ t ∈ Finset.range n, g t * k t := by
  induction n with
  | zero => simp [accu]
  | succ n ih =>
    unfold accu at *
    rw [List.range_succ, List.foldl_append, ih, Finset.sum_range_succ]
    simp [add_assoc]

theorem macPas_eq {T C : Type} (add : T → T → T) (mul : T → C → T) (dw dc : Nat) (w : List T) (c : List C)
    (n wi ci : Nat) (s : T) (g : Nat → T) (k : Nat → C)
    (hg : ∀ t, t < n → w[wi + t * dw]? = some (g t)) (hk : ∀ t, t < n → c[ci + t * dc]? = some (k t)) :
    macPas add mul dw dc w c n wi ci s = some (accu add mul g k n s, ci + n * dc) := by
  induction n generalizing wi ci s g k with
  | zero => simp [macPas, accu]
  | succ n ih =>
    have h0 := hg 0 (by omega)
    have k0 := hk 0 (by omega)
    simp only [Nat.zero_mul, Nat.add_zero] at h0 k0
    simp only [macPas, h0, k0]
    rw [ih (wi + dw) (ci + dc) _ (fun t => g (1 + t)) (fun t => k (1 + t))]
    · rw [Nat.add_comm n 1, accu_plus]
      simp only [Option.some.injEq, Prod.mk.injEq]
      refine ⟨?_, by ring⟩
      simp [accu]
    · intro t ht; rw [← hg (1 + t) (by omega)]; congr 1; ring
    · intro t ht; rw [← hk (1 + t) (by omega)]; congr 1; ring

/-- Reading a circular window in two stretches. -/
theorem tourne_lit {T : Type} (zero : T) (w : List T) (i j : Nat) (hi : i ≤ w.length) (hj : j < w.length) :
    w[(i + j) % w.length]? = some ((tourne w i).getD j zero) := by
  rw [← tourne_getElem? w i j hi hj, List.getD_eq_getElem?_getD, List.getElem?_eq_getElem (by rw [tourne_length]; exact hj)]
  rfl

theorem lit_getD {T : Type} (zero : T) (w : List T) (i : Nat) (hi : i < w.length) : w[i]? = some (w.getD i zero) := by
  rw [List.getD_eq_getElem?_getD, List.getElem?_eq_getElem hi]; rfl

/-- The two stretches of a circular window read with step 1, coefficients with step `dc` from `c0`. -/
theorem macPas_deux {T C : Type} (zero : T) (add : T → T → T) (mul : T → C → T) (dc c0 : Nat) (w : List T) (c : List C)
    (k : Nat → C) (index : Nat) (hi : index ≤ w.length) (hk : ∀ t, t < w.length → c[c0 + t * dc]? = some (k t)) :
    ∃ s1 ci r, macPas add mul 1 dc w c (w.length - index) index c0 zero = some (s1, ci) ∧
      macPas add mul 1 dc w c (w.length - (w.length - index)) 0 ci s1 = some r ∧
      r.1 = accu add mul (fun t => (tourne w index).getD t zero) k w.length zero := by
  have hlen : w.length = (w.length - index) + index := by omega
  have e1 := macPas_eq add mul 1 dc w c (w.length - index) index c0 zero (fun t => (tourne w index).getD t zero) k
    (fun t ht => by
      rw [Nat.mul_one, ← tourne_lit zero w index t hi (by omega), Nat.mod_eq_of_lt (by omega)])
    (fun t ht => hk t (by omega))
  have e2 := macPas_eq add mul 1 dc w c index 0 (c0 + (w.length - index) * dc)
    (accu add mul (fun t => (tourne w index).getD t zero) k (w.length - index) zero)
    (fun t => (tourne w index).getD ((w.length - index) + t) zero) (fun t => k ((w.length - index) + t))
    (fun t ht => by
      rw [Nat.mul_one, Nat.zero_add, ← tourne_lit zero w index _ hi (by omega)]
      congr 1
      rw [show index + (w.length - index + t) = t + w.length by omega, Nat.add_mod_right, Nat.mod_eq_of_lt (by omega)])
    (fun t ht => by
      rw [← hk (w.length - index + t) (by omega)]; congr 1; ring)
  have hi2 : w.length - (w.length - index) = index := by omega
  rw [hi2]
  refine ⟨_, _, _, e1, e2, ?_⟩
  conv_rhs => rw [hlen]
  rw [accu_plus]

/-- The same with step 2 in both, as in the half-band filter. -/
theorem macPas_deux2 {T C : Type} (zero : T) (add : T → T → T) (mul : T → C → T) (w : List T) (c : List C)
    (k : Nat → C) (index : Nat) (hi : index ≤ w.length) (hk : ∀ t, 2 * t < w.length → c[t * 2]? = some (k t)) :
    ∃ s1 ci r, macPas add mul 2 2 w c ((w.length - index + 1) / 2) index 0 zero = some (s1, ci) ∧
      macPas add mul 2 2 w c ((w.length - (w.length - index) - (2 * ((w.length - index + 1) / 2) - (w.length - index)) + 1) / 2)
        (2 * ((w.length - index + 1) / 2) - (w.length - index)) ci s1 = some r ∧
      r.1 = accu add mul (fun t => (tourne w index).getD (2 * t) zero) k ((w.length + 1) / 2) zero := by
  have e1 := macPas_eq add mul 2 2 w c ((w.length - index + 1) / 2) index 0 zero (fun t => (tourne w index).getD (2 * t) zero) k
    (fun t ht => by
      rw [← tourne_lit zero w index (2 * t) hi (by omega), Nat.mod_eq_of_lt (by omega), Nat.mul_comm])
    (fun t ht => by rw [Nat.zero_add]; exact hk t (by omega))
  set n1 := (w.length - index + 1) / 2 with hn1
  set n2 := (w.length - (w.length - index) - (2 * n1 - (w.length - index)) + 1) / 2 with hn2
  have e2 := macPas_eq add mul 2 2 w c n2 (2 * n1 - (w.length - index)) (0 + n1 * 2)
    (accu add mul (fun t => (tourne w index).getD (2 * t) zero) k n1 zero)
    (fun t => (tourne w index).getD (2 * (n1 + t)) zero) (fun t => k (n1 + t))
    (fun t ht => by
      rw [← tourne_lit zero w index _ hi (by omega)]
      congr 1
      rw [show index + 2 * (n1 + t) = (2 * n1 - (w.length - index) + t * 2) + w.length by omega, Nat.add_mod_right,
        Nat.mod_eq_of_lt (by omega)])
    (fun t ht => by
      rw [← hk (n1 + t) (by omega)]; congr 1; ring)
  refine ⟨_, _, _, e1, e2, ?_⟩
  have : (w.length + 1) / 2 = n1 + n2 := by omega
  rw [this, accu_plus]

end Verif.Reechan
