import Verif.Vue.Axes
import Mathlib.Tactic.Linarith

/-!
# C186: the graduations of a linear axis (core/src/vue/axes.cc:129-140, 653-962)

Exact arithmetic instead of `float` / `double`. Not modelled: manual graduations, forced spacing (`ecart_pixel`), logarithmic mode, minor graduations.
-/

namespace Verif.Axes

open Real

/-! ## Model -/

/-- `tic_ok`, core/src/vue/axes.cc:129-133. -/
def ticOk (a : Axe) (v : ℝ) : Prop := ∃ y, valeurVersPixel a v = some y ∧ 5 ≤ y ∧ y < a.dim - 5

/-- `tic_ok_souple`, core/src/vue/axes.cc:135-139. -/
def ticOkSouple (a : Axe) (v : ℝ) : Prop := ∃ y, valeurVersPixel a v = some y ∧ 0 ≤ y ∧ y < a.dim

/-- A loop `tantque(cond(tk)) { ...; tk += pas; }` whose body appends `f tk` to the result: the final list `l` of the loop started at `tk`. -/
inductive Boucle (cond : ℝ → Prop) (pas : ℝ) (f : ℝ → List ℝ) : ℝ → List ℝ → Prop
  | fin (tk : ℝ) : ¬ cond tk → Boucle cond pas f tk []
  | suite (tk : ℝ) (l : List ℝ) : cond tk → Boucle cond pas f (tk + pas) l → Boucle cond pas f tk (f tk ++ l)

open Classical in
/-- Result of the body of the loops when only the value itself is a candidate, core/src/vue/axes.cc:918-919, 934-935. -/
noncomputable def corps (a : Axe) (tk : ℝ) : List ℝ := if ticOk a tk then [tk] else []

open Classical in
/-- Body of the loop of the axes that contain zero, core/src/vue/axes.cc:887-890. -/
noncomputable def corpsZero (a : Axe) (tk : ℝ) : List ℝ := (if ticOk a tk then [tk] else []) ++ if tk ≠ 0 ∧ ticOk a (-tk) then [-tk] else []

open Classical in
/-- First major graduation of an axis of positive values, core/src/vue/axes.cc:908-911. -/
noncomputable def premierPositif (a : Axe) (tic : ℝ) : ℝ := if ticOk a (tic * ⌈a.vmin / tic⌉) then tic * ⌈a.vmin / tic⌉ else tic * ⌈a.vmin / tic⌉ + tic

/-- The major graduations for the step `tic`, core/src/vue/axes.cc:807, 880-941. -/
def Majeurs (a : Axe) (tic : ℝ) (l : List ℝ) : Prop :=
  if a.vmin ≤ 0 ∧ 0 ≤ a.vmax then Boucle (fun tk => tk < max (-a.vmin) a.vmax) tic (corpsZero a) 0 l
  else if 0 ≤ a.vmin then Boucle (ticOkSouple a) tic (corps a) (premierPositif a tic) l
  else Boucle (ticOkSouple a) (-tic) (corps a) (-tic * ⌈-a.vmax / tic⌉) l

/-- The search of a step, core/src/vue/axes.cc:730-790, 948-962 (`goto essai`), `p` being the minimal spacing in pixels (0.8f is read as 4/5). -/
inductive Essais (a : Axe) : ℝ → List ℝ → Prop
  | retenu (p : ℝ) (l : List ℝ) : Majeurs a (calculeTic ((a.vmax - a.vmin) / a.dim * p)) l → (1 < l.length ∨ ¬ 1 < p ∨ ⌊p * (4 / 5)⌋ < 2) → Essais a p l
  | reessai (p : ℝ) (l l' : List ℝ) : Majeurs a (calculeTic ((a.vmax - a.vmin) / a.dim * p)) l → l.length ≤ 1 → 1 < p → 2 ≤ ⌊p * (4 / 5)⌋ → Essais a ⌊p * (4 / 5)⌋ l' → Essais a p l'

/-! ## Proofs -/

theorem Boucle.unique {cond : ℝ → Prop} {pas : ℝ} {f : ℝ → List ℝ} {tk : ℝ} {l l' : List ℝ} (h : Boucle cond pas f tk l) (h' : Boucle cond pas f tk l') : l = l' := by
  induction h generalizing l' with
  | fin tk hc => cases h' with
    | fin => rfl
    | suite _ l2 h1 => exact absurd h1 hc
  | suite tk l hc _ ih => cases h' with
    | fin _ h1 => exact absurd hc h1
    | suite _ l2 h1 h2 => rw [ih h2]

theorem majeurs_unique (a : Axe) (tic : ℝ) (l l' : List ℝ) (h : Majeurs a tic l) (h' : Majeurs a tic l') : l = l' := by
  unfold Majeurs at h h'
  split at h
  · rename_i h1; rw [if_pos h1] at h'; exact h.unique h'
  · rename_i h1
    rw [if_neg h1] at h'
    split at h
    · rename_i h2; rw [if_pos h2] at h'; exact h.unique h'
    · rename_i h2; rw [if_neg h2] at h'; exact h.unique h'

/-- The loop runs over `N` values if the condition holds on them and fails on the next one. -/
theorem boucle_liste (cond : ℝ → Prop) (pas : ℝ) (f : ℝ → List ℝ) (N : ℕ) : ∀ t0 : ℝ, (∀ j : ℕ, j < N → cond (t0 + j * pas)) → ¬ cond (t0 + N * pas) →
    Boucle cond pas f t0 ((List.range N).flatMap fun j : ℕ => f (t0 + j * pas)) := by
  induction N with
  | zero => intro t0 _ h; simpa using Boucle.fin t0 (by simpa using h)
  | succ N ih =>
    intro t0 h1 h2
    have h3 := ih (t0 + pas) (fun j hj => by
      have := h1 (j + 1) (by omega)
      rw [show t0 + pas + j * pas = t0 + ((j + 1 : ℕ) : ℝ) * pas by push_cast; ring]; exact this) (by
      rw [show t0 + pas + N * pas = t0 + ((N + 1 : ℕ) : ℝ) * pas by push_cast; ring]; exact h2)
    have h4 := Boucle.suite t0 _ (by simpa using h1 0 (by omega)) h3
    rw [List.range_succ_eq_map, List.flatMap_cons, List.flatMap_map]
    convert h4 using 2
    · simp
    · refine List.flatMap_congr fun j _ => ?_
      congr 1
      push_cast
      ring

/-- The loop ends as soon as the condition fails somewhere. -/
theorem boucle_fin (cond : ℝ → Prop) (pas : ℝ) (f : ℝ → List ℝ) (t0 : ℝ) (h : ∃ N : ℕ, ¬ cond (t0 + N * pas)) :
    ∃ N : ℕ, (∀ j : ℕ, j < N → cond (t0 + j * pas)) ∧ ¬ cond (t0 + N * pas) ∧ Boucle cond pas f t0 ((List.range N).flatMap fun j : ℕ => f (t0 + j * pas)) := by
  classical
  refine ⟨Nat.find h, fun j hj => not_not.1 (Nat.find_min h hj), Nat.find_spec h, ?_⟩
  exact boucle_liste _ _ _ _ _ (fun j hj => not_not.1 (Nat.find_min h hj)) (Nat.find_spec h)

/-- The shape of a linear axis. -/
structure Lineaire (a : Axe) : Prop where
  lin : a.log = false
  ordre : a.vmin < a.vmax
  dim : 0 < a.dim
  zero : a.zero = (a.vmax + a.vmin) / 2
  ppl : a.ppl = a.dim / (a.vmax - a.vmin)

theorem configure_lineaire (vertical : Bool) (vmin vmax : ℝ) (dim : ℤ) (h : vmin < vmax) (hd : 0 < dim) (a : Axe) (ha : configure vertical false vmin vmax dim = some a) :
    Lineaire a ∧ a.vmin = vmin ∧ a.vmax = vmax ∧ a.dim = dim ∧ a.vertical = vertical := by
  unfold configure at ha
  rw [if_neg (not_lt.2 h.le)] at ha
  simp only [Bool.false_eq_true, if_false, if_neg (show vmax - vmin ≠ 0 by linarith)] at ha
  cases ha
  exact ⟨⟨rfl, h, hd, rfl, rfl⟩, rfl, rfl, rfl, rfl⟩

/-- Distance to the centre, in pixels. -/
noncomputable def ecart (a : Axe) (v : ℝ) : ℝ := (v - a.zero) * a.ppl

theorem ecart_forme (a : Axe) (h : Lineaire a) (v : ℝ) : ecart a v = a.dim * ((v - a.vmin) / (a.vmax - a.vmin) - 1 / 2) := by
  have : a.vmax - a.vmin ≠ 0 := by linarith [h.ordre]
  rw [ecart, h.zero, h.ppl]
  field_simp
  ring

theorem ecart_mono (a : Axe) (h : Lineaire a) {v w : ℝ} : ecart a v ≤ ecart a w ↔ v ≤ w := by
  have hp : 0 < a.ppl := by
    rw [h.ppl]
    have : (0 : ℝ) < a.dim := by exact_mod_cast h.dim
    have := h.ordre
    exact div_pos ‹_› (by linarith)
  unfold ecart
  rw [mul_le_mul_iff_left₀ hp, sub_le_sub_iff_right]

theorem ecart_vmin (a : Axe) (h : Lineaire a) : ecart a a.vmin = -(a.dim / 2 : ℝ) := by rw [ecart_forme a h]; simp; ring

theorem ecart_vmax (a : Axe) (h : Lineaire a) : ecart a a.vmax = (a.dim / 2 : ℝ) := by
  have : a.vmax - a.vmin ≠ 0 := by linarith [h.ordre]
  rw [ecart_forme a h, div_self this]; ring

theorem pixel_lin (a : Axe) (h : Lineaire a) (v : ℝ) : valeurVersPixel a v = some (a.dim / 2 + if a.vertical then -tronque (ecart a v) else tronque (ecart a v)) := by
  rw [valeurVersPixel, h.lin]; simp [ecart]

theorem tronque_mono {x y : ℝ} (h : x ≤ y) : tronque x ≤ tronque y := by
  unfold tronque
  split_ifs with h1 h2 h2
  · exact Int.floor_le_floor h
  · exact absurd (h1.trans h) h2
  · have h3 : ⌈x⌉ ≤ 0 := Int.ceil_le.2 (by push_cast; linarith)
    exact h3.trans (Int.floor_nonneg.2 h2)
  · exact Int.ceil_le_ceil h

theorem tronque_neg (x : ℝ) : tronque (-x) = -tronque x := by
  unfold tronque
  split_ifs with h1 h2 h2
  · have : x = 0 := by linarith
    rw [this]; simp
  · rw [Int.floor_neg]
  · rw [Int.ceil_neg]
  · linarith

/-- Truncation of the bounds: strictly inside, the truncation is strictly inside. -/
theorem tronque_demi (d : ℤ) (hd : 0 < d) (x : ℝ) : (x ≤ d / 2 → tronque x ≤ d / 2) ∧ (x < d / 2 → tronque x ≤ (d - 1) / 2) ∧ (-(d / 2 : ℝ) ≤ x → -(d / 2) ≤ tronque x) ∧ (-(d / 2 : ℝ) < x → -((d - 1) / 2) ≤ tronque x) := by
  have hd' : (0 : ℝ) < d := by exact_mod_cast hd
  have A : ∀ x : ℝ, x ≤ d / 2 → tronque x ≤ d / 2 := by
    intro x hx
    refine (tronque_mono hx).trans ?_
    rw [tronque, if_pos (by positivity)]
    rcases demi d with ⟨h1, h2⟩ | ⟨h1, h2⟩
    · rw [← h1, Int.floor_intCast]
    · rw [show (d / 2 : ℝ) = ((d / 2 : ℤ) : ℝ) + 1 / 2 by linarith, Int.floor_intCast_add]
      norm_num
  have B : ∀ x : ℝ, x < d / 2 → tronque x ≤ (d - 1) / 2 := by
    intro x hx
    by_cases h0 : 0 ≤ x
    · rw [tronque, if_pos h0]
      rcases demi d with ⟨h1, h2⟩ | ⟨h1, h2⟩
      · have : ⌊x⌋ < d / 2 := by rw [Int.floor_lt]; rw [h1]; exact hx
        omega
      · have : ⌊x⌋ < d / 2 + 1 := by rw [Int.floor_lt]; push_cast; rw [h1]; linarith
        omega
    · rw [tronque, if_neg h0]
      have : ⌈x⌉ ≤ 0 := Int.ceil_le.2 (by push_cast; linarith)
      omega
  refine ⟨A x, B x, fun h => ?_, fun h => ?_⟩
  · have := A (-x) (by linarith)
    rw [tronque_neg] at this; omega
  · have := B (-x) (by linarith)
    rw [tronque_neg] at this; omega

theorem tronque_bord (d : ℤ) (hd : 0 < d) : d / 2 ≤ tronque (d / 2 : ℝ) ∧ (d % 2 = 0 → tronque (d / 2 : ℝ) = d / 2) := by
  have hd' : (0 : ℝ) < d := by exact_mod_cast hd
  rw [tronque, if_pos (by positivity)]
  rcases demi d with ⟨h1, h2⟩ | ⟨h1, h2⟩
  · rw [← h1, Int.floor_intCast]
    exact ⟨le_rfl, fun _ => rfl⟩
  · refine ⟨?_, fun h => by omega⟩
    rw [Int.le_floor, h1]; linarith

/-- A shown graduation is strictly between the bounds. -/
theorem ticOk_dedans (a : Axe) (h : Lineaire a) (v : ℝ) (hv : ticOk a v) : a.vmin < v ∧ v < a.vmax := by
  obtain ⟨y, e, h1, h2⟩ := hv
  rw [pixel_lin a h, Option.some.injEq] at e
  have hd := h.dim
  have t1 := tronque_demi a.dim hd (ecart a a.vmin)
  have m1 : v ≤ a.vmin → tronque (ecart a v) ≤ -(a.dim / 2) := by
    intro hle
    have := tronque_mono ((ecart_mono a h).2 hle)
    rw [ecart_vmin a h, tronque_neg] at this
    have h3 := (tronque_bord a.dim hd).1
    omega
  have m2 : a.vmax ≤ v → a.dim / 2 ≤ tronque (ecart a v) := by
    intro hle
    have := tronque_mono ((ecart_mono a h).2 hle)
    rw [ecart_vmax a h] at this
    have h3 := (tronque_bord a.dim hd).1
    omega
  constructor
  · by_contra hc
    have := m1 (not_lt.1 hc)
    cases hv : a.vertical <;> rw [hv] at e <;> simp only [Bool.false_eq_true, if_true, if_false] at e <;> omega
  · by_contra hc
    have := m2 (not_lt.1 hc)
    cases hv : a.vertical <;> rw [hv] at e <;> simp only [Bool.false_eq_true, if_true, if_false] at e <;> omega

/-- A value between the bounds (the upper one excluded on an horizontal axis, the lower one on a vertical axis) is on the figure. -/
theorem souple_dedans (a : Axe) (h : Lineaire a) (v : ℝ) (h1 : a.vmin ≤ v) (h2 : v ≤ a.vmax) (h3 : a.dim % 2 = 0 → if a.vertical then a.vmin < v else v < a.vmax) : ticOkSouple a v := by
  have e1 : -(a.dim / 2 : ℝ) ≤ ecart a v := by rw [← ecart_vmin a h]; exact (ecart_mono a h).2 h1
  have e2 : ecart a v ≤ a.dim / 2 := by rw [← ecart_vmax a h]; exact (ecart_mono a h).2 h2
  obtain ⟨t1, t2, t3, t4⟩ := tronque_demi a.dim h.dim (ecart a v)
  have hd := h.dim
  refine ⟨_, pixel_lin a h v, ?_⟩
  rcases Int.emod_two_eq_zero_or_one a.dim with hp | hp
  swap
  · have := t1 e2
    have := t3 e1
    cases hv : a.vertical <;> simp only [Bool.false_eq_true, if_true, if_false] <;> omega
  specialize h3 hp
  cases hv : a.vertical
  · rw [hv] at h3
    simp only [Bool.false_eq_true, if_false] at h3 ⊢
    have := t2 (by rw [← ecart_vmax a h]; exact lt_of_not_ge fun hc => absurd ((ecart_mono a h).1 hc) (not_le.2 h3))
    have := t3 e1
    omega
  · rw [hv] at h3
    simp only [if_true] at h3 ⊢
    have := t4 (by rw [← ecart_vmin a h]; exact lt_of_not_ge fun hc => absurd ((ecart_mono a h).1 hc) (not_le.2 h3))
    have := t1 e2
    omega

/-- Far from the bounds, nothing is on the figure. -/
theorem souple_borne (a : Axe) (h : Lineaire a) (v : ℝ) (hv : ticOkSouple a v) : a.vmin - 2 * (a.vmax - a.vmin) ≤ v ∧ v ≤ a.vmax + 2 * (a.vmax - a.vmin) := by
  obtain ⟨y, e, h1, h2⟩ := hv
  rw [pixel_lin a h, Option.some.injEq] at e
  have hd' : (1 : ℝ) ≤ a.dim := by exact_mod_cast h.dim
  have ho := h.ordre
  have hd := h.dim
  have hpos : 0 < a.vmax - a.vmin := by linarith
  have hb : |(tronque (ecart a v) : ℝ)| ≤ a.dim := by
    have : |tronque (ecart a v)| ≤ a.dim := by
      rw [abs_le]
      cases hv : a.vertical <;> rw [hv] at e <;> simp only [Bool.false_eq_true, if_true, if_false] at e <;> omega
    exact_mod_cast this
  have h3 := abs_lt.1 (tronque_err (ecart a v))
  have h4 := abs_le.1 hb
  have h5 : |ecart a v| ≤ 2 * a.dim := by rw [abs_le]; constructor <;> linarith
  rw [ecart_forme a h, abs_mul, abs_of_pos (by linarith), mul_comm] at h5
  have h6 := abs_le.1 (le_of_mul_le_mul_right h5 (by linarith))
  constructor
  · have : -(3 / 2) ≤ (v - a.vmin) / (a.vmax - a.vmin) := by linarith [h6.1]
    rw [le_div_iff₀ hpos] at this
    linarith
  · have : (v - a.vmin) / (a.vmax - a.vmin) ≤ 5 / 2 := by linarith [h6.2]
    rw [div_le_iff₀ hpos] at this
    linarith

theorem mem_corps (a : Axe) (t v : ℝ) : v ∈ corps a t ↔ v = t ∧ ticOk a v := by
  classical
  unfold corps
  split
  · rw [List.mem_singleton]; constructor
    · rintro rfl; exact ⟨rfl, by assumption⟩
    · exact fun h => h.1
  · constructor
    · intro h; exact absurd h (by simp)
    · rintro ⟨rfl, h⟩; exact absurd h (by assumption)

theorem mem_corpsZero (a : Axe) (t v : ℝ) : v ∈ corpsZero a t ↔ (v = t ∨ t ≠ 0 ∧ v = -t) ∧ ticOk a v := by
  classical
  unfold corpsZero
  rw [List.mem_append]
  constructor
  · rintro (h | h)
    · split at h
      · rw [List.mem_singleton] at h; subst h; exact ⟨.inl rfl, by assumption⟩
      · exact absurd h (by simp)
    · split at h
      · rename_i h2
        rw [List.mem_singleton] at h; subst h; exact ⟨.inr ⟨h2.1, rfl⟩, h2.2⟩
      · exact absurd h (by simp)
  · rintro ⟨rfl | ⟨h1, rfl⟩, h⟩
    · left; rw [if_pos h]; simp
    · right; rw [if_pos ⟨h1, h⟩]; simp

/-- **C186 (major graduations).** On a linear axis, with a step `tic`, the loops end and the major graduations are, without repetition, exactly the multiples of the step that are shown at least 5 pixels away from the ends; except on an horizontal axis of negative values and even dimension whose upper bound is itself a multiple of the step. -/
theorem C186_majeurs (vertical : Bool) (vmin vmax : ℝ) (dim : ℤ) (h : vmin < vmax) (hd : 0 < dim) (a : Axe) (ha : configure vertical false vmin vmax dim = some a) (tic : ℝ) (ht : 0 < tic)
    (hex : ¬ (vertical = false ∧ dim % 2 = 0 ∧ vmax < 0 ∧ ∃ k : ℤ, vmax = k * tic)) :
    ∃ l, Majeurs a tic l ∧ l.Nodup ∧ ∀ v, v ∈ l ↔ (∃ k : ℤ, v = k * tic) ∧ ticOk a v := by
  classical
  obtain ⟨hL, hm, hM, hdim, hvert⟩ := configure_lineaire vertical vmin vmax dim h hd a ha
  have ho := hL.ordre
  rw [← hvert, ← hM, ← hdim] at hex
  unfold Majeurs
  by_cases hz : a.vmin ≤ 0 ∧ 0 ≤ a.vmax
  · simp only [if_pos hz]
    obtain ⟨N, h1, h2, h3⟩ := boucle_fin (fun tk => tk < max (-a.vmin) a.vmax) tic (corpsZero a) 0 (by
      obtain ⟨N, hN⟩ := exists_nat_ge (max (-a.vmin) a.vmax / tic)
      exact ⟨N, by rw [div_le_iff₀ ht] at hN; push Not; linarith⟩)
    refine ⟨_, h3, ?_, fun v => ?_⟩
    · rw [List.nodup_flatMap]
      refine ⟨fun j _ => ?_, ?_⟩
      · unfold corpsZero
        split_ifs with c1 c2 c3
        · simp only [List.cons_append, List.nil_append, List.nodup_cons, List.mem_singleton, List.not_mem_nil, not_false_eq_true, List.nodup_nil, and_true]
          intro e
          apply c2.1
          linarith
        all_goals simp
      · refine List.Pairwise.imp_of_mem ?_ (List.pairwise_lt_range (n := N))
        intro i j _ _ hij
        rw [Function.onFun, List.disjoint_iff_ne]
        intro x hx y hy hxy
        subst hxy
        rw [mem_corpsZero] at hx hy
        have hij' : (i : ℝ) < j := by exact_mod_cast hij
        have hi0 : (0 : ℝ) ≤ i := by positivity
        have : 0 ≤ (i : ℝ) * tic := by positivity
        have : (i : ℝ) * tic < j * tic := mul_lt_mul_of_pos_right hij' ht
        rcases hx.1 with e1 | ⟨_, e1⟩ <;> rcases hy.1 with e2 | ⟨_, e2⟩ <;> linarith
    · rw [List.mem_flatMap]
      constructor
      · rintro ⟨j, _, hv⟩
        rw [mem_corpsZero] at hv
        refine ⟨?_, hv.2⟩
        rcases hv.1 with e | ⟨_, e⟩
        · exact ⟨j, by rw [e]; push_cast; ring⟩
        · exact ⟨-j, by rw [e]; push_cast; ring⟩
      · rintro ⟨⟨k, hk⟩, hv⟩
        obtain ⟨d1, d2⟩ := ticOk_dedans a hL v hv
        have habs : |v| < max (-a.vmin) a.vmax := by
          rw [abs_lt]
          constructor
          · have := le_max_left (-a.vmin) a.vmax; linarith
          · have := le_max_right (-a.vmin) a.vmax; linarith
        refine ⟨k.natAbs, ?_, ?_⟩
        · rw [List.mem_range]
          by_contra hc
          apply h2
          rw [zero_add]
          refine lt_of_le_of_lt ?_ habs
          rw [hk, abs_mul, abs_of_pos ht]
          refine mul_le_mul_of_nonneg_right ?_ ht.le
          rw [← Int.cast_abs]
          have h5 : (N : ℤ) ≤ |k| := by rw [Int.abs_eq_natAbs]; omega
          exact_mod_cast h5
        · rw [mem_corpsZero]
          refine ⟨?_, hv⟩
          rw [zero_add, hk]
          rcases Int.natAbs_eq k with e | e
          · left
            have e' : ((k : ℤ) : ℝ) = (((k.natAbs : ℕ) : ℤ) : ℝ) := congrArg _ e
            rw [e', Int.cast_natCast]
          · by_cases h0 : k = 0
            · left; rw [h0]; simp
            · right
              refine ⟨?_, ?_⟩
              · refine mul_ne_zero ?_ ht.ne'
                have : k.natAbs ≠ 0 := by omega
                exact_mod_cast this
              · have e' : ((k : ℤ) : ℝ) = ((-((k.natAbs : ℕ) : ℤ) : ℤ) : ℝ) := congrArg _ e
                rw [e', Int.cast_neg, Int.cast_natCast, neg_mul]
  · simp only [if_neg hz]
    -- one-sided loops
    have general : ∀ (pas t1 : ℝ) (k1 : ℤ) (s : ℤ), (s = 1 ∨ s = -1) → pas = s * tic → t1 = k1 * tic →
        (∀ v, ticOk a v → ∀ k : ℤ, v = k * tic → 0 ≤ s * (k - k1)) →
        (∀ v, ticOk a v → ∀ k : ℤ, v = k * tic → ∀ j : ℤ, 0 ≤ j → j ≤ s * (k - k1) → ticOkSouple a (t1 + j * pas)) →
        ∃ l, Boucle (ticOkSouple a) pas (corps a) t1 l ∧ l.Nodup ∧ ∀ v, v ∈ l ↔ (∃ k : ℤ, v = k * tic) ∧ ticOk a v := by
      intro pas t1 k1 s hs hpas ht1 hge hso
      obtain ⟨N, h1, h2, h3⟩ := boucle_fin (ticOkSouple a) pas (corps a) t1 (by
        obtain ⟨N, hN⟩ := exists_nat_gt ((|t1| + |a.vmin| + |a.vmax| + 2 * (a.vmax - a.vmin)) / tic)
        refine ⟨N, fun hc => ?_⟩
        rw [div_lt_iff₀ ht] at hN
        obtain ⟨b1, b2⟩ := souple_borne a hL _ hc
        have a1 := abs_le.1 (le_refl |t1|)
        have a2 := abs_le.1 (le_refl |a.vmin|)
        have a3 := abs_le.1 (le_refl |a.vmax|)
        rcases hs with rfl | rfl
        · rw [hpas] at b1 b2; push_cast at b1 b2; nlinarith [a1.1, a2.1, a3.2, abs_nonneg a.vmin]
        · rw [hpas] at b1 b2; push_cast at b1 b2; nlinarith [a1.2, a2.1, a3.2, abs_nonneg a.vmax])
      refine ⟨_, h3, ?_, fun v => ?_⟩
      · rw [List.nodup_flatMap]
        refine ⟨fun j _ => ?_, ?_⟩
        · unfold corps; split_ifs <;> simp
        · refine List.Pairwise.imp_of_mem ?_ (List.pairwise_lt_range (n := N))
          intro i j _ _ hij
          rw [Function.onFun, List.disjoint_iff_ne]
          intro x hx y hy hxy
          subst hxy
          rw [mem_corps] at hx hy
          have hij' : (i : ℝ) < j := by exact_mod_cast hij
          have : (i : ℝ) * tic < j * tic := mul_lt_mul_of_pos_right hij' ht
          have e := hx.1.symm.trans hy.1
          rcases hs with rfl | rfl <;> rw [hpas] at e <;> push_cast at e <;> linarith
      · rw [List.mem_flatMap]
        constructor
        · rintro ⟨j, _, hv⟩
          rw [mem_corps] at hv
          exact ⟨⟨k1 + s * j, by rw [hv.1, ht1, hpas]; push_cast; ring⟩, hv.2⟩
        · rintro ⟨⟨k, hk⟩, hv⟩
          have hge' := hge v hv k hk
          obtain ⟨j, hj⟩ := Int.eq_ofNat_of_zero_le hge'
          have hkj : k = k1 + s * j := by rcases hs with rfl | rfl <;> omega
          refine ⟨j, ?_, ?_⟩
          · rw [List.mem_range]
            by_contra hc
            apply h2
            have := hso v hv k hk N (by omega) (by omega)
            simpa using this
          · rw [mem_corps]
            refine ⟨?_, hv⟩
            rw [hk, ht1, hpas, hkj]; push_cast; ring
    by_cases hp : 0 ≤ a.vmin
    · simp only [if_pos hp]
      have c1 : a.vmin ≤ tic * ⌈a.vmin / tic⌉ := by
        have := Int.le_ceil (a.vmin / tic)
        rw [div_le_iff₀ ht] at this; linarith
      -- every shown multiple is at or after the first one
      have hfirst : ∀ v, ticOk a v → ∀ k : ℤ, v = k * tic → ⌈a.vmin / tic⌉ ≤ k := by
        intro v hv k hk
        obtain ⟨d1, _⟩ := ticOk_dedans a hL v hv
        rw [Int.ceil_le, div_le_iff₀ ht]; linarith
      have hsuite : ∀ (k1 : ℤ), ⌈a.vmin / tic⌉ ≤ k1 → (a.vertical = true → a.vmin < k1 * tic ∨ ticOk a (k1 * tic)) → ∀ v, ticOk a v → ∀ k : ℤ, v = k * tic → ∀ j : ℤ, 0 ≤ j → j ≤ 1 * (k - k1) → ticOkSouple a (k1 * tic + j * (tic)) := by
        intro k1 hk1 hst v hv k hk j hj0 hjk
        obtain ⟨d1, d2⟩ := ticOk_dedans a hL v hv
        have hk1' : ((⌈a.vmin / tic⌉ : ℤ) : ℝ) ≤ k1 := by exact_mod_cast hk1
        have g1 : a.vmin ≤ k1 * tic := by nlinarith
        have g2 : (j : ℝ) ≤ k - k1 := by
          have : j ≤ k - k1 := by omega
          exact_mod_cast this
        have g3 : (0 : ℝ) ≤ j := by exact_mod_cast hj0
        have g4 : k1 * tic + j * tic ≤ v := by rw [hk]; nlinarith
        refine souple_dedans a hL _ (by nlinarith) (by linarith) (fun hpar => ?_)
        cases hvt : a.vertical
        · simp only [Bool.false_eq_true, if_false]; linarith
        · simp only [if_true]
          have g5 : a.vmin < k1 * tic := by
            rcases hst hvt with g | g
            · exact g
            · exact (ticOk_dedans a hL _ g).1
          nlinarith
      unfold premierPositif
      by_cases h0 : ticOk a (tic * ⌈a.vmin / tic⌉)
      · rw [if_pos h0]
        refine general tic _ ⌈a.vmin / tic⌉ 1 (.inl rfl) (by push_cast; ring) (by ring) (fun v hv k hk => by have := hfirst v hv k hk; omega) ?_
        have := hsuite ⌈a.vmin / tic⌉ le_rfl (fun _ => .inr (by rw [mul_comm]; exact h0))
        rw [mul_comm tic]
        exact this
      · rw [if_neg h0]
        refine general tic _ (⌈a.vmin / tic⌉ + 1) 1 (.inl rfl) (by push_cast; ring) (by push_cast; ring) (fun v hv k hk => ?_) ?_
        · have := hfirst v hv k hk
          have hne : k ≠ ⌈a.vmin / tic⌉ := by
            rintro rfl
            apply h0
            rw [mul_comm, ← hk]; exact hv
          omega
        · have := hsuite (⌈a.vmin / tic⌉ + 1) (by omega) (fun _ => .inl (by push_cast; nlinarith))
          rw [show tic * (⌈a.vmin / tic⌉ : ℝ) + tic = ((⌈a.vmin / tic⌉ + 1 : ℤ) : ℝ) * tic by push_cast; ring]
          exact this
    · simp only [if_neg hp]
      have hneg : a.vmax < 0 := by
        by_contra hc
        exact hz ⟨le_of_not_ge hp, not_lt.1 hc⟩
      have c1 : -tic * ⌈-a.vmax / tic⌉ ≤ a.vmax := by
        have := Int.le_ceil (-a.vmax / tic)
        rw [div_le_iff₀ ht] at this; linarith
      refine general (-tic) _ (-⌈-a.vmax / tic⌉) (-1) (.inr rfl) (by push_cast; ring) (by push_cast; ring) (fun v hv k hk => ?_) (fun v hv k hk j hj0 hjk => ?_)
      · obtain ⟨_, d2⟩ := ticOk_dedans a hL v hv
        have : ⌈-a.vmax / tic⌉ ≤ -k := by
          rw [Int.ceil_le, div_le_iff₀ ht]; push_cast; linarith
        omega
      · obtain ⟨d1, d2⟩ := ticOk_dedans a hL v hv
        have g2 : (j : ℝ) ≤ -(k : ℝ) - ⌈-a.vmax / tic⌉ := by
          have : j ≤ -k - ⌈-a.vmax / tic⌉ := by omega
          exact_mod_cast this
        have g3 : (0 : ℝ) ≤ j := by exact_mod_cast hj0
        have g4 : v ≤ -tic * ⌈-a.vmax / tic⌉ + j * -tic := by rw [hk]; nlinarith
        refine souple_dedans a hL _ (by linarith) (by nlinarith) (fun hpar => ?_)
        cases hvt : a.vertical
        · simp only [Bool.false_eq_true, if_false]
          have : -tic * ⌈-a.vmax / tic⌉ < a.vmax := by
            refine lt_of_le_of_ne c1 fun hc => hex ⟨hvt, hpar, hneg, -⌈-a.vmax / tic⌉, ?_⟩
            push_cast; linarith
          nlinarith
        · simp only [if_true]; linarith

/-- **C186 (refuted in the remaining case).** On an horizontal axis of negative values and even dimension whose upper bound is a multiple of the step, there is no major graduation at all. -/
theorem C186_vide_refute (vmin vmax : ℝ) (dim : ℤ) (h : vmin < vmax) (hd : 0 < dim) (hp : dim % 2 = 0) (hneg : vmax < 0) (a : Axe) (ha : configure false false vmin vmax dim = some a) (tic : ℝ) (ht : 0 < tic)
    (k : ℤ) (hk : vmax = k * tic) : Majeurs a tic [] := by
  obtain ⟨hL, hm, hM, hdim, hvert⟩ := configure_lineaire false vmin vmax dim h hd a ha
  unfold Majeurs
  rw [hM, hm, if_neg (by intro h2; linarith [h2.2]), if_neg (by intro h2; linarith)]
  have e : -tic * ⌈-vmax / tic⌉ = vmax := by
    have : -vmax / tic = ((-k : ℤ) : ℝ) := by rw [hk]; push_cast; field_simp
    rw [this, Int.ceil_intCast, hk]; push_cast; ring
  rw [e]
  refine Boucle.fin _ ?_
  rintro ⟨y, e2, h1, h2⟩
  have hb := (tronque_bord dim hd).2 hp
  rw [pixel_lin a hL, hvert, ← hM, ecart_vmax a hL, hdim, hb, Option.some.injEq] at e2
  simp only [Bool.false_eq_true, if_false] at e2
  omega

/-- The loops always end. -/
theorem majeurs_existe (vertical : Bool) (vmin vmax : ℝ) (dim : ℤ) (h : vmin < vmax) (hd : 0 < dim) (a : Axe) (ha : configure vertical false vmin vmax dim = some a) (tic : ℝ) (ht : 0 < tic) : ∃ l, Majeurs a tic l := by
  by_cases hex : vertical = false ∧ dim % 2 = 0 ∧ vmax < 0 ∧ ∃ k : ℤ, vmax = k * tic
  · obtain ⟨rfl, h1, h2, k, h3⟩ := hex
    exact ⟨[], C186_vide_refute vmin vmax dim h hd h1 h2 a ha tic ht k h3⟩
  · obtain ⟨l, hl, -⟩ := C186_majeurs vertical vmin vmax dim h hd a ha tic ht hex
    exact ⟨l, hl⟩

/-- **C186 (the search ends).** The search of a step ends, and its result is the set of major graduations of a simple step. -/
theorem C186_essais (vertical : Bool) (vmin vmax : ℝ) (dim : ℤ) (h : vmin < vmax) (hd : 0 < dim) (a : Axe) (ha : configure vertical false vmin vmax dim = some a) (p : ℝ) (hp : 0 < p) :
    (∃ l, Essais a p l) ∧ ∀ l, Essais a p l → ∃ q, 0 < q ∧ q ≤ p ∧ Simple (calculeTic ((vmax - vmin) / dim * q)) ∧ Majeurs a (calculeTic ((vmax - vmin) / dim * q)) l := by
  obtain ⟨hL, hm, hM, hdim, hvert⟩ := configure_lineaire vertical vmin vmax dim h hd a ha
  have hd' : (0 : ℝ) < dim := by exact_mod_cast hd
  have hpos : 0 < vmax - vmin := by linarith
  have hq : ∀ q : ℝ, 0 < q → 0 < (vmax - vmin) / dim * q := fun q hq => by positivity
  constructor
  · have key : ∀ n : ℕ, ∀ p : ℝ, 0 < p → p < n / 2 → ∃ l, Essais a p l := by
      intro n
      induction n with
      | zero => intro p h1 h2; push_cast at h2; linarith
      | succ n ih =>
        intro p h1 h2
        obtain ⟨l, hl⟩ := majeurs_existe vertical vmin vmax dim h hd a ha _ (simple_pos _ (C185_tic _ (hq p h1)).1.1)
        rw [← hM, ← hm, ← hdim] at hl
        by_cases hs : 1 < l.length ∨ ¬ 1 < p ∨ ⌊p * (4 / 5)⌋ < 2
        · exact ⟨l, .retenu p l hl hs⟩
        · push Not at hs
          have h3 : ((2 : ℤ) : ℝ) ≤ ⌊p * (4 / 5)⌋ := by exact_mod_cast hs.2.2
          push_cast at h3
          have h4 : (⌊p * (4 / 5)⌋ : ℝ) ≤ p * (4 / 5) := Int.floor_le _
          have h5 : (⌊p * (4 / 5)⌋ : ℝ) < n / 2 := by push_cast at h2; linarith
          obtain ⟨l', hl'⟩ := ih _ (by linarith) h5
          exact ⟨l', .reessai p l l' hl hs.1 hs.2.1 hs.2.2 hl'⟩
    obtain ⟨n, hn⟩ := exists_nat_gt (2 * p)
    exact key n p hp (by linarith)
  · intro l hl
    induction hl with
    | retenu p l h1 _ =>
      rw [hM, hm, hdim] at h1
      exact ⟨p, hp, le_rfl, (C185_tic _ (hq p hp)).1.1, h1⟩
    | reessai p l l' _ _ h3 h4 _ ih =>
      have h5 : ((2 : ℤ) : ℝ) ≤ ⌊p * (4 / 5)⌋ := by exact_mod_cast h4
      push_cast at h5
      obtain ⟨q, a1, a2, a3⟩ := ih (by linarith)
      exact ⟨q, a1, by linarith [Int.floor_le (p * (4 / 5))], a3⟩

/-- A simple step at most `10^j` divides `10^j`. -/
theorem simple_divise (j : ℤ) (r : ℝ) (hr : Simple r) (hle : r ≤ (10 : ℝ) ^ j) : ∃ n : ℤ, (10 : ℝ) ^ j = n * r := by
  obtain ⟨c, k, hc, rfl⟩ := hr
  have hk : (0 : ℝ) < 10 ^ k := by positivity
  have hc1 : 1 ≤ c := by rcases hc with rfl | rfl | rfl | rfl <;> norm_num
  have hkj : k ≤ j := by
    by_contra hlt
    have : (10 : ℝ) ^ j < 10 ^ k := zpow_lt_zpow_right₀ (by norm_num) (by omega)
    nlinarith
  obtain ⟨m, hm⟩ := Int.eq_ofNat_of_zero_le (show 0 ≤ j - k by omega)
  have hj : (10 : ℝ) ^ j = 10 ^ m * 10 ^ k := by
    rw [show j = m + k by omega, zpow_add₀ (by norm_num), zpow_natCast]
  rcases Nat.eq_zero_or_pos m with h0 | h0
  · subst h0
    rw [hj, pow_zero, one_mul] at hle ⊢
    have : c ≤ 1 := by
      by_contra h2
      nlinarith [not_le.1 h2]
    exact ⟨1, by rw [le_antisymm this hc1]; push_cast; ring⟩
  · obtain ⟨m', rfl⟩ := Nat.exists_eq_succ_of_ne_zero h0.ne'
    rw [hj, Nat.succ_eq_add_one, pow_succ]
    rcases hc with rfl | rfl | rfl | rfl
    · exact ⟨10 ^ m' * 10, by push_cast; ring⟩
    · exact ⟨10 ^ m' * 5, by push_cast; ring⟩
    · exact ⟨10 ^ m' * 4, by push_cast; ring⟩
    · exact ⟨10 ^ m' * 2, by push_cast; ring⟩

/-- **C186 (an axis without any graduation).** An horizontal axis from any `vmin` to a negative power of ten `-10^j`, of even dimension, gets no graduation, however the search goes (if the minimal spacing is at most `10^j`). -/
theorem C186_negatif_refute (j : ℤ) (vmin : ℝ) (hv : vmin < -(10 : ℝ) ^ j) (dim : ℤ) (hd : 0 < dim) (hp : dim % 2 = 0) (a : Axe) (ha : configure false false vmin (-(10 : ℝ) ^ j) dim = some a)
    (p : ℝ) (hp0 : 0 < p) (hpj : (-(10 : ℝ) ^ j - vmin) / dim * p ≤ (10 : ℝ) ^ j) (l : List ℝ) (hl : Essais a p l) : l = [] := by
  obtain ⟨q, hq0, hqp, hs, hM⟩ := (C186_essais false vmin _ dim hv hd a ha p hp0).2 l hl
  have hd' : (0 : ℝ) < dim := by exact_mod_cast hd
  have hpos : 0 < -(10 : ℝ) ^ j - vmin := by linarith
  have hj : (0 : ℝ) < 10 ^ j := by positivity
  have h1 : (-(10 : ℝ) ^ j - vmin) / dim * q ≤ (10 : ℝ) ^ j := le_trans (mul_le_mul_of_nonneg_left hqp (by positivity)) hpj
  have h2 := (C185_tic ((-(10 : ℝ) ^ j - vmin) / dim * q) (by positivity)).2 (show (10 : ℝ) ^ j ∈ _ from ⟨⟨1, j, .inl rfl, by ring⟩, h1⟩)
  obtain ⟨n, hn⟩ := simple_divise j _ hs h2
  exact majeurs_unique a _ _ _ hM (C186_vide_refute vmin _ dim hv hd hp (by linarith) a ha _ (simple_pos _ hs) (-n) (by push_cast; linarith))

/-- Non-vacuity: the horizontal axis from -10 to -1 over 600 pixels, with at least 50 pixels between graduations, has no graduation; the graduation -5 could have been shown. -/
example : ∃ a, configure false false (-10) (-(10 : ℝ) ^ (0 : ℤ)) 600 = some a ∧ (-(10 : ℝ) ^ (0 : ℤ) - (-10)) / (600 : ℤ) * 50 ≤ (10 : ℝ) ^ (0 : ℤ) ∧ ticOk a (-5) := by
  obtain ⟨a, ha, -⟩ := configure_some false false (-10) (-(10 : ℝ) ^ (0 : ℤ)) 600 (by norm_num) (by simp)
  obtain ⟨hL, hm, hM, hdim, hvert⟩ := configure_lineaire false _ _ 600 (by norm_num) (by norm_num) a ha
  refine ⟨a, ha, by norm_num, ?_⟩
  have e : tronque (ecart a (-5)) = 33 := by
    rw [ecart_forme a hL, hm, hM, hdim]
    norm_num [tronque]
    try (rw [Int.floor_eq_iff]; norm_num)
  refine ⟨_, pixel_lin a hL _, ?_⟩
  rw [hvert, hdim, e]
  simp

end Verif.Axes
