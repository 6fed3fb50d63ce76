import Verif.Fourier.Tod
import Mathlib.Tactic.Ring
import Mathlib.Tactic.Linarith
import Mathlib.Tactic.FieldSimp
import Mathlib.Algebra.BigOperators.Group.List.Basic

/-!
# C127: the wavelet transform and its inverse
-/

namespace Verif.Tod

open FracRat

/-! ### Loops of assignments -/

theorem affecte_append (x : List ℝ) (l m : List (ℕ × (List ℝ → Option ℝ))) : affecte x (l ++ m) = (affecte x l).bind fun y : List ℝ => affecte y m := by
  induction l generalizing x with
  | nil => rfl
  | cons a l ih =>
    simp only [List.cons_append, affecte]
    cases a.2 x with
    | none => rfl
    | some v =>
      simp only [Option.bind_some]
      split
      · exact ih _
      · rfl

/-- A loop of assignments to distinct cells. -/
theorem affecte_range (m : ℕ) (cible : ℕ → ℕ) (expr : ℕ → List ℝ → Option ℝ) (x : List ℝ) (v : ℕ → ℝ) (hc : ∀ i < m, cible i < x.length) (hd : ∀ i < m, ∀ i' < m, cible i = cible i' → i = i')
    (he : ∀ i < m, ∀ y : List ℝ, y.length = x.length → (∀ i' < i, y[cible i']? = some (v i')) → (∀ k, (∀ i' < i, cible i' ≠ k) → y[k]? = x[k]?) → expr i y = some (v i)) :
    ∃ y, affecte x ((List.range m).map fun i : ℕ => (cible i, expr i)) = some y ∧ y.length = x.length ∧ (∀ i < m, y[cible i]? = some (v i)) ∧ ∀ k, (∀ i < m, cible i ≠ k) → y[k]? = x[k]? := by
  induction m with
  | zero => exact ⟨x, rfl, rfl, fun i hi => absurd hi (by omega), fun k _ => rfl⟩
  | succ m ih =>
    obtain ⟨y, h1, h2, h3, h4⟩ := ih (fun i hi => hc i (by omega)) (fun i hi i' hi' => hd i (by omega) i' (by omega)) fun i hi => he i (by omega)
    have hv := he m (by omega) y h2 h3 h4
    have hk : cible m < y.length := by rw [h2]; exact hc m (by omega)
    refine ⟨y.set (cible m) (v m), ?_, by rw [List.length_set, h2], fun i hi => ?_, fun k hk' => ?_⟩
    · rw [List.range_succ, List.map_append, affecte_append, h1, Option.bind_some]
      simp only [List.map_cons, List.map_nil, affecte, hv, Option.bind_some, hk, if_true]
    · rcases Nat.lt_succ_iff_lt_or_eq.1 hi with h | h
      · rw [List.getElem?_set_ne (fun e => by have := hd m (by omega) i (by omega) e; omega)]
        exact h3 i h
      · rw [h, List.getElem?_set_self hk]
    · rw [List.getElem?_set_ne (hk' m (by omega))]
      exact h4 k fun i hi => hk' i (by omega)

theorem mapM_lire (x : List ℝ) (m : ℕ) (f : ℕ → ℕ) (h : ∀ i < m, f i < x.length) : ((List.range m).mapM fun i : ℕ => x[f i]?) = some ((List.range m).map fun i : ℕ => x.getD (f i) 0) := by
  induction m with
  | zero => rfl
  | succ m ih =>
    rw [List.range_succ, List.mapM_append, ih fun i hi => h i (by omega), List.map_append]
    simp [List.getD_eq_getElem?_getD, List.getElem?_eq_getElem (h m (by omega))]

theorem lire_getD (x : List ℝ) (k : ℕ) (h : k < x.length) : x[k]? = some (x.getD k 0) := by
  rw [List.getD_eq_getElem?_getD, List.getElem?_eq_getElem h]; rfl

theorem getD_lire {x : List ℝ} {k : ℕ} {v : ℝ} (h : x[k]? = some v) : x.getD k 0 = v := by
  rw [List.getD_eq_getElem?_getD, h]; rfl

/-- **C127 (separation).**  `split` puts the even elements first, then the odd ones, and leaves what follows unchanged. -/
theorem split_spec (x : List ℝ) (n : ℕ) (hn : n ≤ x.length) : ∃ y, split x n = some y ∧ y.length = x.length ∧ (∀ j, 2 * j < n → y[j]? = x[2 * j]?) ∧ (∀ j, 2 * j + 1 < n → y[(n + 1) / 2 + j]? = x[2 * j + 1]?) ∧
    ∀ k, n ≤ k → y[k]? = x[k]? := by
  unfold split
  rw [mapM_lire x _ _ (fun i hi => by omega), Option.bind_some, affecte_append]
  set half := (n + 1) / 2 with hhalf
  set mx := (if n % 2 = 0 then half else half - 1) with hmx
  have hmx' : mx = n / 2 := by rw [hmx]; split <;> omega
  obtain ⟨y, h1, h2, h3, h4⟩ := affecte_range mx (fun i => n - (i + 1)) (fun i y => y[n - 2 * (i + 1) + 1 - (if n % 2 = 0 then 0 else 1)]?) x (fun i => x.getD (2 * (n / 2 - 1 - i) + 1) 0)
    (fun i hi => by omega) (fun i hi i' hi' h => by omega) (by
      intro i hi y hy _ h4
      have e : n - 2 * (i + 1) + 1 - (if n % 2 = 0 then 0 else 1) = 2 * (n / 2 - 1 - i) + 1 := by split <;> omega
      simp only [e]
      rw [h4 _ fun i' hi' => by omega]
      exact lire_getD _ _ (by omega))
  rw [h1, Option.bind_some]
  obtain ⟨w, g1, g2, g3, g4⟩ := affecte_range half (fun i => i) (fun i _ => ((List.range half).map fun i : ℕ => x.getD (2 * i) 0)[i]?) y (fun i => x.getD (2 * i) 0)
    (fun i hi => by omega) (fun i hi i' hi' h => h) (by
      intro i hi y hy _ _
      rw [List.getElem?_map, List.getElem?_range hi]; rfl)
  refine ⟨w, g1, by omega, fun j hj => ?_, fun j hj => ?_, fun k hk => ?_⟩
  · rw [g3 j (by omega), lire_getD x _ (by omega)]
  · rw [g4 _ fun i hi => by omega]
    have := h3 (n / 2 - 1 - j) (by omega)
    rw [show n - (n / 2 - 1 - j + 1) = half + j by omega] at this
    rw [this, lire_getD x _ (by omega)]
    congr 3; omega
  · rw [g4 _ fun i hi => by omega, h4 _ fun i hi => by omega]

/-- Value of place `2 i` after the second loop of `merge` (a place is even, then its half is read, …). -/
def fusion (f : ℕ → ℝ) (i : ℕ) : ℝ := if _h : 0 < i ∧ i % 2 = 0 then fusion f (i / 2) else f i
termination_by i
decreasing_by omega

/-- What `merge` returns: the odd places receive the second half; place `2 i` receives the *new* value of place `i`. -/
theorem merge_spec (x : List ℝ) (n : ℕ) (hn : n ≤ x.length) : ∃ y, merge x n = some y ∧ y.length = x.length ∧ (∀ j, 2 * j + 1 < n → y[2 * j + 1]? = x[(n + 1) / 2 + j]?) ∧ (∀ j, 2 * j < n → y[2 * j]? = if j = 0 then x[0]? else y[j]?) ∧
    ∀ k, n ≤ k → y[k]? = x[k]? := by
  unfold merge
  rw [affecte_append]
  set half := (n + 1) / 2 with hhalf
  set mx := (if n % 2 = 0 then half else half - 1) with hmx
  have hmx' : mx = n / 2 := by rw [hmx]; split <;> omega
  obtain ⟨y, h1, h2, h3, h4⟩ := affecte_range mx (fun i => 2 * i + 1) (fun i y => y[i + half]?) x (fun i => x.getD (half + i) 0)
    (fun i hi => by omega) (fun i hi i' hi' h => by omega) (by
      intro i hi y hy h3 h4
      rw [h4 _ fun i' hi' => by omega, Nat.add_comm, lire_getD x _ (by omega)])
  rw [h1, Option.bind_some]
  -- the second loop writes y(2i) from the current y(i)
  have hv0 : fusion (fun i => y.getD i 0) 0 = y.getD 0 0 := by rw [fusion]; simp
  have hv : ∀ i, 0 < i → fusion (fun i => y.getD i 0) i = if i % 2 = 0 then fusion (fun i => y.getD i 0) (i / 2) else y.getD i 0 := by
    intro i hi
    rw [fusion]
    by_cases h : i % 2 = 0
    · rw [dif_pos ⟨hi, h⟩, if_pos h]
    · rw [dif_neg fun h' => h h'.2, if_neg h]
  generalize fusion (fun i => y.getD i 0) = v at hv0 hv
  obtain ⟨w, g1, g2, g3, g4⟩ := affecte_range half (fun i => 2 * i) (fun i y => y[i]?) y v
    (fun i hi => by omega) (fun i hi i' hi' h => by omega) (by
      intro i hi u hu k3 k4
      rcases Nat.eq_zero_or_pos i with h0 | h0
      · subst h0
        rw [k4 0 fun i' hi' => by omega, hv0]
        exact lire_getD _ _ (by omega)
      · rw [hv i h0]
        split
        · rename_i hp
          have := k3 (i / 2) (by omega)
          rwa [show 2 * (i / 2) = i by omega] at this
        · rename_i hp
          rw [k4 i fun i' hi' => by omega]
          exact lire_getD _ _ (by omega))
  refine ⟨w, g1, by omega, fun j hj => ?_, fun j hj => ?_, fun k hk => ?_⟩
  · rw [g4 _ fun i hi => by omega]
    have := h3 j (by omega)
    rw [this, lire_getD x _ (by omega)]
  · have hj' := g3 j (by omega)
    rw [hj']
    split
    · rename_i h0
      subst h0
      rw [hv0, ← lire_getD y _ (by omega), h4 0 fun i hi => by omega]
    · rename_i h0
      rw [hv j (by omega)]
      split
      · rename_i hp
        have := g3 (j / 2) (by omega)
        rw [show 2 * (j / 2) = j by omega] at this
        rw [this]
      · rename_i hp
        rw [g4 j fun i hi => by omega]
        exact (lire_getD _ _ (by omega)).symm
  · rw [g4 _ fun i hi => by omega, h4 _ fun i hi => by omega]


/-! ### Lifting stages -/

/-- Sum of the coefficients `c` times the values of `f` from the position `p`, those outside `[0, half)` being skipped. -/
def valLift (half : ℕ) (f : ℕ → ℝ) : List ℝ → ℤ → ℝ
  | [], _ => 0
  | c :: l, p => (if 0 ≤ p ∧ p < half then c * f p.toNat else 0) + valLift half f l (p + 1)

theorem sommeLift_eq (half idxi : ℕ) (x : List ℝ) (f : ℕ → ℝ) (h : ∀ k < half, x[idxi + k]? = some (f k)) (c : List ℝ) (p : ℤ) : sommeLift half idxi x c p = some (valLift half f c p) := by
  induction c generalizing p with
  | nil => rfl
  | cons c l ih =>
    simp only [sommeLift, valLift, ih]
    split
    · rename_i hp
      rw [h p.toNat (by omega)]
      rfl
    · rw [zero_add]

theorem valLift_congr (half : ℕ) (f g : ℕ → ℝ) (h : ∀ k < half, f k = g k) (c : List ℝ) (p : ℤ) : valLift half f c p = valLift half g c p := by
  induction c generalizing p with
  | nil => rfl
  | cons c l ih =>
    simp only [valLift, ih]
    split
    · rename_i hp
      rw [h p.toNat (by omega)]
    · rfl

/-- The two halves of a vector: `s` for the first `half` places and `d` for the `half` following ones. -/
def Moities (x : List ℝ) (half : ℕ) (q : (ℕ → ℝ) × (ℕ → ℝ)) : Prop := 2 * half ≤ x.length ∧ (∀ k < half, x[k]? = some (q.1 k)) ∧ ∀ k < half, x[half + k]? = some (q.2 k)

/-- A lifting stage on the two halves. -/
def etagePur (signe : ℝ) (half : ℕ) (q : (ℕ → ℝ) × (ℕ → ℝ)) (e : LiftElem) : (ℕ → ℝ) × (ℕ → ℝ) :=
  if e.predict then (q.1, fun j => q.2 j + signe * valLift half q.1 e.poly.poly.coefs (j + e.poly.n0))
  else (fun j => q.1 j + signe * valLift half q.2 e.poly.poly.coefs (j + e.poly.n0), q.2)

theorem etage_spec (signe : ℝ) (half : ℕ) (x : List ℝ) (e : LiftElem) (q : (ℕ → ℝ) × (ℕ → ℝ)) (hx : Moities x half q) :
    ∃ y, etage signe half x e = some y ∧ y.length = x.length ∧ Moities y half (etagePur signe half q e) ∧ ∀ k, 2 * half ≤ k → y[k]? = x[k]? := by
  obtain ⟨hl, hs, hd⟩ := hx
  unfold etage etagePur
  cases e.predict with
  | true =>
    simp only [if_true]
    obtain ⟨y, h1, h2, h3, h4⟩ := affecte_range half (fun j => half + j) (fun j y => (y[half + j]?).bind fun v : ℝ => (sommeLift half 0 y e.poly.poly.coefs (j + e.poly.n0)).map fun s : ℝ => v + signe * s) x
      (fun j => q.2 j + signe * valLift half q.1 e.poly.poly.coefs (j + e.poly.n0)) (fun i hi => by omega) (fun i hi i' hi' h => by omega) (by
        intro i hi y hy k3 k4
        rw [k4 _ fun i' hi' => by omega, hd i hi, Option.bind_some, sommeLift_eq half 0 y q.1 fun k hk => by rw [k4 _ fun i' hi' => by omega, Nat.zero_add, hs k hk]]
        rfl)
    refine ⟨y, h1, h2, ⟨by omega, fun k hk => ?_, fun k hk => h3 k hk⟩, fun k hk => h4 k fun i hi => by omega⟩
    rw [h4 k fun i hi => by omega, hs k hk]
  | false =>
    simp only [Bool.false_eq_true, if_false]
    obtain ⟨y, h1, h2, h3, h4⟩ := affecte_range half (fun j => 0 + j) (fun j y => (y[0 + j]?).bind fun v : ℝ => (sommeLift half half y e.poly.poly.coefs (j + e.poly.n0)).map fun s : ℝ => v + signe * s) x
      (fun j => q.1 j + signe * valLift half q.2 e.poly.poly.coefs (j + e.poly.n0)) (fun i hi => by omega) (fun i hi i' hi' h => by omega) (by
        intro i hi y hy k3 k4
        rw [k4 _ fun i' hi' => by omega, Nat.zero_add, hs i hi, Option.bind_some, sommeLift_eq half half y q.2 fun k hk => by rw [k4 _ fun i' hi' => by omega, hd k hk]]
        rfl)
    refine ⟨y, h1, h2, ⟨by omega, fun k hk => ?_, fun k hk => ?_⟩, fun k hk => h4 k fun i hi => by omega⟩
    · have := h3 k hk
      rwa [Nat.zero_add] at this
    · rw [h4 _ fun i hi => by omega, hd k hk]

theorem etages_spec (signe : ℝ) (half : ℕ) (l : List LiftElem) (x : List ℝ) (q : (ℕ → ℝ) × (ℕ → ℝ)) (hx : Moities x half q) :
    ∃ y, etages signe half x l = some y ∧ y.length = x.length ∧ Moities y half (l.foldl (etagePur signe half) q) ∧ ∀ k, 2 * half ≤ k → y[k]? = x[k]? := by
  induction l generalizing x q with
  | nil => exact ⟨x, rfl, rfl, hx, fun k _ => rfl⟩
  | cons e l ih =>
    obtain ⟨y, h1, h2, h3, h4⟩ := etage_spec signe half x e q hx
    obtain ⟨z, g1, g2, g3, g4⟩ := ih y _ h3
    exact ⟨z, by rw [etages, h1, Option.bind_some, g1], by omega, g3, fun k hk => by rw [g4 k hk, h4 k hk]⟩

theorem etagePur_inverse (half : ℕ) (q : (ℕ → ℝ) × (ℕ → ℝ)) (e : LiftElem) : etagePur (-1) half (etagePur 1 half q e) e = q := by
  unfold etagePur
  cases e.predict with
  | true => simp only [if_true]; ext j <;> simp
  | false => simp only [Bool.false_eq_true, if_false]; ext j <;> simp

theorem etagesPur_inverse (half : ℕ) (l : List LiftElem) (q : (ℕ → ℝ) × (ℕ → ℝ)) : l.reverse.foldl (etagePur (-1) half) (l.foldl (etagePur 1 half) q) = q := by
  induction l generalizing q with
  | nil => rfl
  | cons e l ih => rw [List.foldl_cons, List.reverse_cons, List.foldl_append, ih, List.foldl_cons, List.foldl_nil, etagePur_inverse]

theorem moities_de (x : List ℝ) (half : ℕ) (h : 2 * half ≤ x.length) : Moities x half (fun k => x.getD k 0, fun k => x.getD (half + k) 0) :=
  ⟨h, fun k hk => lire_getD _ _ (by omega), fun k hk => lire_getD _ _ (by omega)⟩

theorem moities_unique (x y : List ℝ) (half : ℕ) (q : (ℕ → ℝ) × (ℕ → ℝ)) (hx : Moities x half q) (hy : Moities y half q) (ht : ∀ k, 2 * half ≤ k → y[k]? = x[k]?) : y = x := by
  refine List.ext_getElem? fun k => ?_
  by_cases h1 : k < half
  · rw [hx.2.1 k h1, hy.2.1 k h1]
  · by_cases h2 : k < 2 * half
    · have a := hx.2.2 (k - half) (by omega)
      have b := hy.2.2 (k - half) (by omega)
      rw [show half + (k - half) = k by omega] at a b
      rw [a, b]
    · exact ht k (by omega)

/-- **C127 (the stages are undone).**  Whatever the stages and the vector, the stages of the inverse transform, run in the reverse order, undo those of the direct transform exactly. -/
theorem C127_etages (half : ℕ) (l : List LiftElem) (x : List ℝ) (h : 2 * half ≤ x.length) : ((etages 1 half x l).bind fun y : List ℝ => etages (-1) half y l.reverse) = some x := by
  obtain ⟨y, h1, h2, h3, h4⟩ := etages_spec 1 half l x _ (moities_de x half h)
  obtain ⟨z, g1, g2, g3, g4⟩ := etages_spec (-1) half l.reverse y _ h3
  rw [etagesPur_inverse] at g3
  rw [h1, Option.bind_some, g1, moities_unique x z half _ (moities_de x half h) g3 fun k hk => by rw [g4 k hk, h4 k hk]]

/-- **C127 (what a step followed by its inverse returns).**  For every wavelet, every vector of at least `n` samples: the elements of odd place and the first one come back, and place `2 j` (`j ≥ 1`) receives the value of place `j`. -/
theorem C127_pas (w : Lift) (x : List ℝ) (n : ℕ) (hn : n ≤ x.length) : ∃ c y, liftStep w x n = some c ∧ iliftStep w c n = some y ∧ y.length = x.length ∧ (∀ j, 2 * j + 1 < n → y[2 * j + 1]? = x[2 * j + 1]?) ∧
    (∀ j, 2 * j < n → y[2 * j]? = if j = 0 then x[0]? else y[j]?) ∧ ∀ k, n ≤ k → y[k]? = x[k]? := by
  obtain ⟨u, a1, a2, a3, a4, a5⟩ := split_spec x n hn
  have hh : 2 * (n / 2) ≤ u.length := by omega
  have hi := C127_etages (n / 2) w.etapes u hh
  rw [Option.bind_eq_some_iff] at hi
  obtain ⟨c, hc1, hc2⟩ := hi
  obtain ⟨y, b1, b2, b3, b4, b5⟩ := merge_spec u n (by omega)
  refine ⟨c, y, by rw [liftStep, a1, Option.bind_some, hc1], by rw [iliftStep, hc2, Option.bind_some, b1], by omega, fun j hj => ?_, fun j hj => ?_, fun k hk => ?_⟩
  · rw [b3 j hj, a4 j hj]
  · rw [b4 j hj]
    split
    · exact a3 0 (by omega)
    · rfl
  · rw [b5 k hk, a5 k hk]

/-- **C127 (pairs).**  A step on 2 samples (or fewer) is undone by its inverse, for every wavelet. -/
theorem C127_paire (w : Lift) (x : List ℝ) (n : ℕ) (hn : n ≤ x.length) (h2 : n ≤ 2) : ((liftStep w x n).bind fun c : List ℝ => iliftStep w c n) = some x := by
  obtain ⟨c, y, h1, h2', h3, h4, h5, h6⟩ := C127_pas w x n hn
  rw [h1, Option.bind_some, h2']
  congr 1
  refine List.ext_getElem? fun k => ?_
  by_cases hk : n ≤ k
  · exact h6 k hk
  · rcases (show k = 0 ∨ k = 1 by omega) with rfl | rfl
    · exact h5 0 (by omega)
    · exact h4 0 (by omega)

/-! ### The loops -/

theorem liftStep_long (w : Lift) (x : List ℝ) (n : ℕ) (hn : n ≤ x.length) : ∃ y, liftStep w x n = some y ∧ y.length = x.length := by
  obtain ⟨u, a1, a2, -⟩ := split_spec x n hn
  obtain ⟨y, h1, h2, -⟩ := etages_spec 1 (n / 2) w.etapes u _ (moities_de u (n / 2) (by omega))
  exact ⟨y, by rw [liftStep, a1, Option.bind_some, h1], by omega⟩

theorem iliftStep_long (w : Lift) (x : List ℝ) (n : ℕ) (hn : n ≤ x.length) : ∃ y, iliftStep w x n = some y ∧ y.length = x.length ∧ (3 ≤ n → y[2]? = y[1]?) := by
  obtain ⟨u, h1, h2, -⟩ := etages_spec (-1) (n / 2) w.etapes.reverse x _ (moities_de x (n / 2) (by omega))
  obtain ⟨y, b1, b2, b3, b4, b5⟩ := merge_spec u n (by omega)
  exact ⟨y, by rw [iliftStep, h1, Option.bind_some, b1], by omega, fun h => b4 1 (by omega)⟩

theorem boucleDwt_long (w : Lift) (last : ℕ) (hl : 0 < last) (f n : ℕ) (x : List ℝ) (hn : n ≤ x.length) (hf : n < f) : ∃ y, boucleDwt w last f n x = some y ∧ y.length = x.length := by
  induction f generalizing n x with
  | zero => omega
  | succ f ih =>
    unfold boucleDwt
    split
    · exact ⟨x, rfl, rfl⟩
    · obtain ⟨y, h1, h2⟩ := liftStep_long w x n hn
      obtain ⟨z, g1, g2⟩ := ih (n / 2) y (by omega) (by omega)
      exact ⟨z, by rw [h1, Option.bind_some, g1], by omega⟩

theorem boucleIwt_long (w : Lift) (N f n k : ℕ) (hn : 0 < n) (hk : n * 2 ^ k = N) (x : List ℝ) (hx : x.length = N) (hf : N + 1 < f + n) : ∃ y, boucleIwt w N f n x = some y ∧ y.length = N ∧ (3 ≤ N → y[2]? = y[1]?) := by
  induction f generalizing n k x with
  | zero =>
    have : n * 1 ≤ n * 2 ^ k := Nat.mul_le_mul_left _ Nat.one_le_two_pow
    omega
  | succ f ih =>
    have hle : n * 1 ≤ n * 2 ^ k := Nat.mul_le_mul_left _ Nat.one_le_two_pow
    unfold boucleIwt
    rw [if_neg (by omega)]
    obtain ⟨y, h1, h2, h3⟩ := iliftStep_long w x n (by omega)
    rw [h1, Option.bind_some]
    cases k with
    | zero =>
      cases f with
      | zero => omega
      | succ f =>
        unfold boucleIwt
        rw [if_pos (by omega)]
        exact ⟨y, rfl, by omega, fun h => h3 (by omega)⟩
    | succ k => exact ih (2 * n) k (by omega) (by rw [← hk]; ring) y (by omega) (by omega)

/-- **C127 (refuted: the inverse transform restores the signal).**  For every wavelet, every depth and every signal of `N ≥ 3` samples (`N` a multiple of `2^(depth-1)`), both transforms succeed and the result has equal samples 1 and 2: a signal
whose samples 1 and 2 differ is never restored. -/
theorem C127_inverse_refute (w : Lift) (x : List ℝ) (m d : ℕ) (hm : 0 < m) (hN : x.length = m * 2 ^ d) (h3 : 3 ≤ x.length) :
    ∃ c y, dwt w x (d + 1) = some c ∧ iwt w c (d + 1) = some y ∧ y[2]? = y[1]? ∧ (x[2]? ≠ x[1]? → y ≠ x) := by
  have hq : x.length / 2 ^ d = m := by rw [hN]; exact Nat.mul_div_cancel _ (by positivity)
  obtain ⟨c, h1, h2⟩ := boucleDwt_long w m hm (x.length + 2) x.length x le_rfl (by omega)
  obtain ⟨y, g1, g2, g3⟩ := boucleIwt_long w x.length (x.length + 2) m d hm hN.symm c h2 (by omega)
  refine ⟨c, y, ?_, ?_, g3 h3, fun hne e => hne (e ▸ g3 h3)⟩
  · rw [dwt, if_neg (by omega), Nat.add_sub_cancel, hq, h1]
  · rw [iwt, if_neg (by omega), Nat.add_sub_cancel, h2, hq, g1]

/-- **C127 (refuted: every depth is accepted).**  A depth such that `2^(depth-1)` exceeds the number of samples (or 0) never returns, in both transforms. -/
theorem C127_profondeur_refute (w : Lift) (x : List ℝ) (d : ℕ) (h : x.length < 2 ^ d) : dwt w x (d + 1) = none ∧ iwt w x (d + 1) = none ∧ dwt w x 0 = none ∧ iwt w x 0 = none := by
  have hq : x.length / 2 ^ d = 0 := Nat.div_eq_of_lt h
  have h1 : ∀ f n x, boucleDwt w 0 f n x = none := by
    intro f
    induction f with
    | zero => intro n x; rfl
    | succ f ih =>
      intro n x
      unfold boucleDwt
      rw [if_neg (by omega)]
      cases liftStep w x n with
      | none => rfl
      | some y => rw [Option.bind_some, ih]
  have h2 : ∀ f N x, boucleIwt w N f 0 x = none := by
    intro f
    induction f with
    | zero => intro N x; rfl
    | succ f ih =>
      intro N x
      unfold boucleIwt
      rw [if_neg (by omega)]
      cases iliftStep w x 0 with
      | none => rfl
      | some y => rw [Option.bind_some, Nat.mul_zero, ih]
  refine ⟨?_, ?_, rfl, rfl⟩
  · rw [dwt, if_neg (by omega), Nat.add_sub_cancel, hq, h1]
  · rw [iwt, if_neg (by omega), Nat.add_sub_cancel, hq, h2]

/-- **C127 (success).**  With a depth such that `2^(depth-1)` is at most the number of samples, the direct transform succeeds and keeps the number of samples. -/
theorem C127_longueur (w : Lift) (x : List ℝ) (d : ℕ) (h : 2 ^ d ≤ x.length) : ∃ c, dwt w x (d + 1) = some c ∧ c.length = x.length := by
  obtain ⟨c, h1, h2⟩ := boucleDwt_long w (x.length / 2 ^ d) (Nat.div_pos h (by positivity)) (x.length + 2) x.length x le_rfl (by omega)
  exact ⟨c, by rw [dwt, if_neg (by omega), Nat.add_sub_cancel, h1], h2⟩

end Verif.Tod
