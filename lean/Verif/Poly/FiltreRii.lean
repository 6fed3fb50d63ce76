import Verif.Poly.Props
import Verif.Filtre.Props

/-!
# Recursive filter built from a rational function (C52)
-/

namespace Verif.FracRat

open Verif.Filtre Finset

variable {K : Type} [Field K]

/-- `filtre_rii(h)`, constructor `FiltreRII(h)`, core/src/filtrage/filtre-rt.cc:185-194, 285-289. -/
def filtreRii (h : FRat K) : Option (Rii K K) :=
  Rii.init 0 h.evalInvZ.numer.versCoefs.coefs h.evalInvZ.denom.versCoefs.coefs

theorem ajoute_nil (l : List K) : ajouteCoefs [] l = l := by
  unfold ajouteCoefs
  cases l with
  | nil => rfl
  | cons c l => simp

theorem ajoute_fin (res : List K) (c : K) : ajouteCoefs res (partiel [1] res.length c) = res ++ [c] := by
  have hz : ∀ r : List K, List.zipWith (· + ·) (List.replicate r.length 0) r = r := by
    intro r
    induction r with
    | nil => rfl
    | cons d r ih => rw [List.length_cons, List.replicate_succ, List.zipWith_cons_cons, ih, zero_add]
  unfold ajouteCoefs partiel
  rw [if_neg (by simp), if_neg (by simp)]
  rw [List.take_left' (by simp), List.drop_left' (by simp), hz]
  simp

theorem boucle_un (b : List K) : ∀ res : List K, boucleProduit [1] res.length b res = res ++ b := by
  induction b with
  | nil => intro res; simp [boucleProduit]
  | cons c b ih =>
    intro res
    rw [boucleProduit, ajoute_fin]
    have := ih (res ++ [c])
    rw [List.length_append, List.length_singleton] at this
    rw [this, List.append_assoc, List.singleton_append]

/-- `1 * e`. -/
theorem un_mul (e : List K) (he : e ≠ []) : Poly.one.mul (Poly.deCoefs e) = Poly.deCoefs e := by
  cases e with
  | nil => simp at he
  | cons c e =>
    have h := boucle_un e [c]
    simp only [List.length_singleton, List.singleton_append] at h
    simp only [Poly.mul, Poly.one, Poly.deCoefs, Poly.versCoefs, produitCoefs, Bool.false_eq_true, if_false, ajoute_nil]
    rw [show partiel [1] 0 c = [c] by simp [partiel], h]

/-- `e * z`. -/
theorem mul_z (e : List K) : (Poly.deCoefs e).mul Poly.z = Poly.deCoefs (0 :: e) := by
  simp only [Poly.mul, Poly.z, Poly.deCoefs, Poly.versCoefs, produitCoefs, Bool.false_eq_true, if_false, ajoute_nil, boucleProduit]
  congr 1
  unfold partiel ajouteCoefs
  rw [if_neg (by simp), if_neg (by simp)]
  have hz : ∀ r : List K, ∀ d, List.zipWith (· + ·) ((d :: r).take r.length) (r.map (· * (0 : K))) ++ (d :: r).drop r.length = d :: r := by
    intro r
    induction r with
    | nil => intro d; simp
    | cons c r ih =>
      intro d
      rw [List.length_cons, List.take_succ_cons, List.map_cons, List.zipWith_cons_cons, List.drop_succ_cons, List.cons_append, ih c, mul_zero,
        add_zero]
  have := hz e 0
  simpa using this

theorem pow_un (e : List K) (he : e ≠ []) : (Poly.deCoefs e).pow 1 = Poly.deCoefs e := by
  unfold Poly.pow
  rw [if_neg (by simp), if_neg (by simp [Poly.deCoefs]), bouclePuissance, bouclePuissance, un_mul e he]

theorem versCoefs_deCoefs (e : List K) : (Poly.deCoefs e).versCoefs = Poly.deCoefs e := by
  simp [Poly.versCoefs, Poly.deCoefs]

/-- `eval_inv_z` on coefficients. -/
theorem inv_egal (a b : List K) (h : a.length = b.length) :
    FRat.evalInvZ ⟨Poly.deCoefs a, Poly.deCoefs b⟩ = ⟨Poly.deCoefs a.reverse, Poly.deCoefs b.reverse⟩ := by
  unfold FRat.evalInvZ
  simp only [versCoefs_deCoefs]
  show (if b.length < a.length then _ else if a.length < b.length then _ else _) = _
  rw [if_neg (by omega), if_neg (by omega)]
  rfl

theorem inv_plus (a b : List K) (h : a.length = b.length + 1) :
    FRat.evalInvZ ⟨Poly.deCoefs a, Poly.deCoefs b⟩ = ⟨Poly.deCoefs a.reverse, Poly.deCoefs (0 :: b.reverse)⟩ := by
  unfold FRat.evalInvZ
  simp only [versCoefs_deCoefs]
  show (if b.length < a.length then (⟨Poly.deCoefs a.reverse, ((Poly.deCoefs b.reverse).mul Poly.z).pow (a.length - b.length)⟩ : FRat K)
    else _) = _
  rw [if_pos (by omega), show a.length - b.length = 1 by omega, mul_z, pow_un _ (by simp)]

theorem inv_moins (a b : List K) (h : b.length = a.length + 1) :
    FRat.evalInvZ ⟨Poly.deCoefs a, Poly.deCoefs b⟩ = ⟨Poly.deCoefs (0 :: a.reverse), Poly.deCoefs b.reverse⟩ := by
  unfold FRat.evalInvZ
  simp only [versCoefs_deCoefs]
  show (if b.length < a.length then _ else if a.length < b.length then
    (⟨((Poly.deCoefs a.reverse).mul Poly.z).pow (b.length - a.length), Poly.deCoefs b.reverse⟩ : FRat K) else _) = _
  rw [if_neg (by omega), if_pos (by omega), show b.length - a.length = 1 by omega, mul_z, pow_un _ (by simp)]

theorem conv_zero (c x : List K) (n : Nat) : convolution (c ++ [0]) x n = convolution c x n := by
  unfold convolution
  rw [List.length_append, List.length_singleton, sum_range_succ]
  rw [List.getD_append_right _ _ _ _ (le_refl _), Nat.sub_self, List.getD_cons_zero, zero_mul, add_zero]
  exact sum_congr rfl fun k hk => by rw [List.getD_append _ _ _ _ (mem_range.1 hk)]

/-- The filter on the coefficients it is given. -/
theorem rii_conv (a b : List K) (ha : a ≠ []) (hb : 2 ≤ b.length) (h0 : b.getD 0 0 ≠ 0) (blocs : List (List K)) :
    ∃ s0 s y, Rii.init 0 a b = some s0 ∧ enchaine (Rii.step (0 : K) (· + ·) (· - ·) (· * ·) (· / ·)) s0 blocs = some (s, y) ∧
      y.length = blocs.flatten.length ∧ ∀ n, n < y.length → convolution b y n = convolution a blocs.flatten n := by
  cases b with
  | nil => simp at hb
  | cons b0 b =>
    simp only [List.length_cons] at hb
    obtain ⟨s0, s, y, e1, e2, l, g⟩ := C20_equation a b0 b (List.length_pos_iff.2 ha) (by omega) (by simpa using h0) blocs
    refine ⟨s0, s, y, e1, e2, l, fun n hn => ?_⟩
    have := g n hn
    unfold convolution at *
    rw [List.length_cons, sum_range_succ']
    simp only [List.getD_cons_succ, List.getD_cons_zero]
    rw [show passe y n 0 = y.getD n 0 by simp [passe], this]
    ring

/-- **C52.** `filtre_rii(FRat::rii(a, b))` runs the difference equation `∑ b_k y(n-k) = ∑ a_k x(n-k)` at every time, for every cutting of every
stream, when the numbers of coefficients of `a` and `b` differ by at most one (and are not both 1). -/
theorem C52_rii (a b : List K) (ha : a ≠ []) (hb : b ≠ []) (h0 : b.getD 0 0 ≠ 0) (h1 : a.length ≤ b.length + 1) (h2 : b.length ≤ a.length + 1)
    (h3 : 2 ≤ a.length ∨ 2 ≤ b.length) (blocs : List (List K)) :
    ∃ s0 s y, filtreRii (FRat.rii a b) = some s0 ∧
      enchaine (Rii.step (0 : K) (· + ·) (· - ·) (· * ·) (· / ·)) s0 blocs = some (s, y) ∧
      y.length = blocs.flatten.length ∧ ∀ n, n < y.length → convolution b y n = convolution a blocs.flatten n := by
  have hb1 : 0 < b.length := List.length_pos_iff.2 hb
  rw [filtreRii, FRat.rii, if_neg (by simp [ha, hb])]
  rcases Nat.lt_trichotomy a.length b.length with h | h | h
  · rw [inv_moins a b (by omega), inv_egal _ _ (by simp; omega)]
    simp only [versCoefs_deCoefs, List.reverse_cons, List.reverse_reverse]
    obtain ⟨s0, s, y, e1, e2, l, g⟩ := rii_conv (a ++ [0]) b (by simp) (by omega) h0 blocs
    exact ⟨s0, s, y, e1, e2, l, fun n hn => by rw [g n hn, conv_zero]⟩
  · rw [inv_egal a b h, inv_egal _ _ (by simpa using h)]
    simp only [versCoefs_deCoefs, List.reverse_reverse]
    exact rii_conv a b ha (by omega) h0 blocs
  · rw [inv_plus a b (by omega), inv_egal _ _ (by simp; omega)]
    simp only [versCoefs_deCoefs, List.reverse_cons, List.reverse_reverse]
    obtain ⟨s0, s, y, e1, e2, l, g⟩ := rii_conv a (b ++ [0]) ha (by simp; omega) (by rwa [List.getD_append _ _ _ _ hb1]) blocs
    exact ⟨s0, s, y, e1, e2, l, fun n hn => by rw [← g n hn, conv_zero]⟩

/-- **C52, refuted** when they differ by two or more: the filter built for `y_n + y_{n-1} + y_{n-2} = 2 x_n` answers 4 instead of 2 to the first
sample of an impulse. -/
theorem C52_rii_refute : ∃ s0 s y, filtreRii (FRat.rii [2] [1, 1, 1] : FRat ℚ) = some s0 ∧
    enchaine (Rii.step (0 : ℚ) (· + ·) (· - ·) (· * ·) (· / ·)) s0 [[1]] = some (s, y) ∧ y.getD 0 0 = 4 ∧
      convolution [1, 1, 1] y 0 ≠ convolution [2] [1] 0 := by
  have hp : ((Poly.deCoefs [0, 2] : Poly ℚ).pow 2) = Poly.deCoefs [0, 0, 4] := by
    simp [Poly.pow, Poly.deCoefs, bouclePuissance, Poly.mul, Poly.one, produitCoefs, Poly.versCoefs, ajouteCoefs, partiel, boucleProduit]
    norm_num
  have he : (FRat.rii [2] [1, 1, 1] : FRat ℚ).evalInvZ = ⟨Poly.deCoefs [4, 0, 0], Poly.deCoefs [1, 1, 1]⟩ := by
    have h1 : (FRat.rii [2] [1, 1, 1] : FRat ℚ) = ⟨Poly.deCoefs [0, 0, 4], Poly.deCoefs [1, 1, 1]⟩ := by
      rw [FRat.rii, if_neg (by simp), FRat.evalInvZ]
      simp only [versCoefs_deCoefs]
      show (⟨((Poly.deCoefs [2]).mul Poly.z).pow 2, Poly.deCoefs [1, 1, 1]⟩ : FRat ℚ) = _
      rw [mul_z, hp]
    rw [h1, inv_egal _ _ (by simp)]
    rfl
  obtain ⟨s0, s, y, e1, e2, l, g⟩ := rii_conv ([4, 0, 0] : List ℚ) [1, 1, 1] (by simp) (by simp) (by simp) [[1]]
  have h0 := g 0 (by rw [l]; simp)
  have hy : y.getD 0 0 = 4 := by
    have : convolution [4, 0, 0] [[(1 : ℚ)]].flatten 0 = 4 := by simp [convolution, passe]
    rw [this] at h0
    simpa [convolution, passe, sum_range_succ] using h0
  refine ⟨s0, s, y, ?_, e2, hy, ?_⟩
  · rw [filtreRii, he]
    exact e1
  · rw [h0]
    simp [convolution, passe]

/-- **C52, refuted** for pure gains: a filter with a one-coefficient denominator computes `… % 0` (undefined behaviour) on the first sample. -/
theorem C52_gain_refute (g x : K) : ∃ s0, filtreRii (FRat.rii [g] [1]) = some s0 ∧
    Rii.step (0 : K) (· + ·) (· - ·) (· * ·) (· / ·) s0 [x] = none := by
  have he : (FRat.rii [g] [1]).evalInvZ = ⟨Poly.deCoefs [g], Poly.deCoefs [1]⟩ := by
    rw [FRat.rii, if_neg (by simp), inv_egal _ _ (by simp), inv_egal _ _ (by simp)]
    rfl
  refine ⟨_, by rw [filtreRii, he]; rfl, ?_⟩
  simp [Rii.step, Rii.echX, Rii.echY, Poly.versCoefs, Poly.deCoefs, macAsc, macDesc, boucle]

example : ∃ s0, filtreRii (FRat.rii [1, 2] [1, 3, 5] : FRat ℚ) = some s0 :=
  let ⟨s0, _, _, h, _⟩ := C52_rii ([1, 2] : List ℚ) [1, 3, 5] (by simp) (by simp) (by simp) (by simp) (by simp) (by simp) []
  ⟨s0, h⟩

end Verif.FracRat
