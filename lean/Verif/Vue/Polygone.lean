import Mathlib.Data.Rat.Floor
import Mathlib.Data.List.Basic
import Mathlib.Data.List.Sort
import Mathlib.Algebra.Order.Floor.Ring
import Mathlib.Algebra.Ring.Parity
import Mathlib.Tactic.Linarith
import Mathlib.Tactic.FieldSimp
import Mathlib.Tactic.Ring

/-!
# C215: filling of a polygon (`rempli_polygone`, core/src/vue/canva.cc:27-92)

Exact arithmetic instead of `float` for the crossings.
-/

namespace Verif.Polygone

/-! ## Model -/

/-- `Point`, core/include/tsd/vue/image.hpp:24-60. -/
structure Pt where
  x : ℤ
  y : ℤ

/-- The edges: each point with the previous one (the last one for the first), core/src/vue/canva.cc:38-42. -/
def aretesDe (prec : Pt) : List Pt → List (Pt × Pt)
  | [] => []
  | p :: t => (p, prec) :: aretesDe p t

/-- All the edges, core/src/vue/canva.cc:38-42. -/
def aretes (pts : List Pt) : List (Pt × Pt) :=
  match pts.getLast? with
  | none => []
  | some d => aretesDe d pts

/-- The test of crossing of the horizontal line `y`, core/src/vue/canva.cc:46-47. -/
def croise (y : ℤ) (e : Pt × Pt) : Bool := (decide (e.1.y < y) && decide (e.2.y ≥ y)) || (decide (e.1.y ≥ y) && decide (e.2.y < y))

/-- Conversion of a number to `entier` (towards zero), core/src/vue/canva.cc:51. -/
def tronque (q : ℚ) : ℤ := if 0 ≤ q then ⌊q⌋ else ⌈q⌉

/-- Abscissa of the crossing, core/src/vue/canva.cc:51-52. -/
def abscisse (y : ℤ) (e : Pt × Pt) : ℤ := tronque ((e.1.x : ℚ) + ((y - e.1.y : ℤ) : ℚ) * ((e.2.x - e.1.x : ℤ) : ℚ) / ((e.2.y - e.1.y : ℤ) : ℚ))

/-- `abscisses`, core/src/vue/canva.cc:36-55. -/
def abscisses (y : ℤ) (pts : List Pt) : List ℤ := ((aretes pts).filter (croise y)).map (abscisse y)

/-- The sort, core/src/vue/canva.cc:59-70: `g` is the part before the index (reversed), the list is the part from the index on; at most `fuel` turns (`none`: not finished). -/
def tri : ℕ → List ℤ → List ℤ → Option (List ℤ)
  | _, g, [] => some g.reverse
  | _, g, [a] => some (g.reverse ++ [a])
  | 0, _, _ :: _ :: _ => none
  | fuel + 1, g, a :: b :: t =>
    if a > b then
      match g with
      | [] => tri fuel [] (b :: a :: t)
      | c :: g' => tri fuel g' (c :: b :: a :: t)
    else tri fuel (a :: g) (b :: t)

/-- The segments of a line, core/src/vue/canva.cc:73-90 (`none`: access beyond the end of the list). -/
def segments (sx : ℤ) : List ℤ → Option (List (ℤ × ℤ))
  | [] => some []
  | [_] => none
  | x0 :: x1 :: t =>
    if x0 ≥ sx then some []
    else if x1 > 0 then (segments sx t).map (fun (l : List (ℤ × ℤ)) => (max x0 0, min x1 (sx - 1)) :: l)
    else segments sx t

/-- One line, core/src/vue/canva.cc:34-91, the sort being given `fuel` turns. -/
def ligne (fuel : ℕ) (pts : List Pt) (sx y : ℤ) : Option (List (ℤ × ℤ)) := (tri fuel [] (abscisses y pts)).bind (segments sx)

/-- `rempli_polygone`, core/src/vue/canva.cc:27-92: the horizontal segments drawn, line by line. -/
def rempli (fuel : ℕ) (pts : List Pt) (sx : ℤ) (sy : ℕ) : Option (List (List (ℤ × ℤ))) :=
  (List.range sy).mapM (fun (y : ℕ) => ligne fuel pts sx y)

/-! ## Specification -/

/-- The edge crosses the line `y`: one of its ends is strictly above the line, and the other one is not. -/
def Coupe (y : ℤ) (e : Pt × Pt) : Prop := ¬ (e.1.y < y ↔ e.2.y < y)

/-- The abscissa at which the edge crosses the line `y`. -/
def croisement (y : ℤ) (e : Pt × Pt) : ℚ := (e.1.x : ℚ) + ((y : ℚ) - e.1.y) / ((e.2.y : ℚ) - e.1.y) * ((e.2.x : ℚ) - e.1.x)

open Classical in
/-- Number of edges crossed on the left of the pixel `(x, y)`. -/
noncomputable def aGauche (pts : List Pt) (x y : ℤ) : ℕ := (aretes pts).countP (fun (e : Pt × Pt) => decide (Coupe y e ∧ croisement y e < x))

/-- The pixel `x` is drawn by one of the segments. -/
def Allume (l : List (ℤ × ℤ)) (x : ℤ) : Prop := ∃ s ∈ l, s.1 ≤ x ∧ x ≤ s.2

/-! ## Crossings -/

theorem croise_iff (y : ℤ) (e : Pt × Pt) : croise y e = true ↔ Coupe y e := by
  simp only [croise, Coupe, Bool.or_eq_true, Bool.and_eq_true, decide_eq_true_eq]
  by_cases h1 : e.1.y < y <;> by_cases h2 : e.2.y < y <;> simp [h1, h2] <;> omega

theorem coupe_ne {y : ℤ} {e : Pt × Pt} (h : Coupe y e) : e.1.y ≠ e.2.y := by
  intro h'; apply h; rw [h']

theorem abscisse_eq (y : ℤ) (e : Pt × Pt) : abscisse y e = tronque (croisement y e) := by
  simp only [abscisse, croisement]
  congr 1
  push_cast
  ring

/-- The crossing does not depend on the orientation of the edge. -/
theorem C215_oriente (y : ℤ) (e : Pt × Pt) (h : Coupe y e) : croisement y (e.2, e.1) = croisement y e ∧ abscisse y (e.2, e.1) = abscisse y e := by
  have hne : ((e.2.y : ℚ) - e.1.y) ≠ 0 := by
    intro h0
    apply coupe_ne h
    have : (e.2.y : ℚ) = e.1.y := by linarith
    exact_mod_cast this.symm
  have hne2 : ((e.1.y : ℚ) - e.2.y) ≠ 0 := by intro h0; apply hne; linarith
  have e1 : croisement y (e.2, e.1) = croisement y e := by
    simp only [croisement]
    have : ((e.1.y : ℚ) - e.2.y) = -((e.2.y : ℚ) - e.1.y) := by ring
    rw [this]
    field_simp
    ring
  exact ⟨e1, by rw [abscisse_eq, abscisse_eq, e1]⟩

/-- Comparison of a truncated crossing with a pixel that is not on it. -/
theorem tronque_lt (q : ℚ) (x : ℤ) (hx : 0 ≤ x) (hne : tronque q ≠ x) : tronque q < x ↔ q < x := by
  unfold tronque at *
  split_ifs at * with h
  · exact Int.floor_lt
  · have h1 : ⌈q⌉ ≤ 0 := Int.ceil_le.mpr (by push_cast; linarith)
    have hxq : (0 : ℚ) ≤ x := by exact_mod_cast hx
    constructor
    · intro _; linarith
    · intro _; omega

/-! ## Parity of the number of crossings -/

/-- Number of crossings from the end `prec` on: its parity says on which side of the line the path ends. -/
theorem parite_de (y : ℤ) (pts : List Pt) : ∀ (prec d : Pt), (prec :: pts).getLast? = some d →
    (((aretesDe prec pts).filter (croise y)).length % 2 = 0 ↔ (prec.y < y ↔ d.y < y)) := by
  induction pts with
  | nil =>
    intro prec d h
    obtain rfl : prec = d := by simpa using h
    simp [aretesDe]
  | cons p t ih =>
    intro prec d h
    have h' : (p :: t).getLast? = some d := by simpa [List.getLast?_cons_cons] using h
    have := ih p d h'
    simp only [aretesDe, List.filter_cons]
    by_cases hc : croise y (p, prec) = true
    · rw [if_pos hc, List.length_cons]
      have hc' := (croise_iff y (p, prec)).mp hc
      simp only [Coupe] at hc'
      by_cases h1 : p.y < y <;> by_cases h2 : prec.y < y <;> by_cases h3 : d.y < y <;> simp [h1, h2, h3] at this hc' ⊢ <;> omega
    · rw [if_neg hc]
      have hc' : ¬ Coupe y (p, prec) := fun h => hc ((croise_iff y (p, prec)).mpr h)
      simp only [Coupe, not_not] at hc'
      rw [this]
      simp only [hc']

theorem abscisses_longueur_pair (y : ℤ) (pts : List Pt) : (abscisses y pts).length % 2 = 0 := by
  simp only [abscisses, List.length_map, aretes]
  cases h : pts.getLast? with
  | none => simp
  | some d =>
    simp only
    have hne : pts ≠ [] := by intro h'; rw [h'] at h; simp at h
    obtain ⟨p, t, rfl⟩ := List.exists_cons_of_ne_nil hne
    rw [parite_de y (p :: t) d d (by rw [List.getLast?_cons_cons]; exact h)]

/-! ## The sort -/

/-- Number of inversions. -/
def inversions : List ℤ → ℕ
  | [] => 0
  | a :: t => t.countP (fun (b : ℤ) => decide (b < a)) + inversions t

theorem inversions_echange (l : List ℤ) (a b : ℤ) (t : List ℤ) (h : a > b) : inversions (l ++ a :: b :: t) = inversions (l ++ b :: a :: t) + 1 := by
  induction l with
  | nil =>
    have h1 : ¬ a < b := by omega
    simp only [List.nil_append, inversions, List.countP_cons, h, h1, decide_true, decide_false, if_true]
    simp
    omega
  | cons c l ih =>
    simp only [List.cons_append, inversions]
    rw [ih]
    have : (l ++ a :: b :: t).countP (fun (b : ℤ) => decide (b < c)) = (l ++ b :: a :: t).countP (fun (b : ℤ) => decide (b < c)) :=
      List.Perm.countP_eq _ (List.Perm.append_left _ (List.Perm.swap _ _ _))
    omega

/-- The loop ends, with a sorted permutation. -/
theorem tri_correct : ∀ (fuel : ℕ) (g l : List ℤ), 2 * inversions (g.reverse ++ l) + l.length ≤ fuel → (g.reverse ++ l.take 1).Pairwise (· ≤ ·) →
    ∃ r, tri fuel g l = some r ∧ r.Pairwise (· ≤ ·) ∧ r.Perm (g.reverse ++ l) := by
  intro fuel
  induction fuel with
  | zero =>
    intro g l hf hg
    match l, hf, hg with
    | [], _, hg => exact ⟨g.reverse, by simp [tri], by simpa using hg, by simp⟩
    | a :: t, hf, _ => simp at hf
  | succ fuel ih =>
    intro g l hf hg
    match l, hf, hg with
    | [], _, hg => exact ⟨g.reverse, by simp [tri], by simpa using hg, by simp⟩
    | [a], _, hg => exact ⟨g.reverse ++ [a], by simp [tri], by simpa using hg, List.Perm.refl _⟩
    | a :: b :: t, hf, hg =>
      simp only [tri]
      have hg' : (g.reverse ++ [a]).Pairwise (· ≤ ·) := by simpa using hg
      split_ifs with hab
      · have hi := inversions_echange g.reverse a b t hab
        cases g with
        | nil =>
          simp only [List.reverse_nil, List.nil_append] at hi hf ⊢
          obtain ⟨r, h1, h2, h3⟩ := ih [] (b :: a :: t) (by simp only [List.reverse_nil, List.nil_append, List.length_cons] at hf ⊢; omega) (by simp)
          exact ⟨r, h1, h2, h3.trans (List.Perm.swap _ _ _)⟩
        | cons c g' =>
          simp only
          have e : (c :: g').reverse ++ b :: a :: t = g'.reverse ++ c :: b :: a :: t := by simp
          have e' : (c :: g').reverse ++ a :: b :: t = g'.reverse ++ c :: a :: b :: t := by simp
          rw [e, e'] at hi
          rw [e'] at hf ⊢
          obtain ⟨r, h1, h2, h3⟩ := ih g' (c :: b :: a :: t) (by simp only [List.length_cons] at hf ⊢; omega) (by
            have : ((c :: g').reverse ++ [a]) = (g'.reverse ++ [c]) ++ [a] := by simp
            rw [this] at hg'
            simpa using (List.pairwise_append.mp hg').1)
          refine ⟨r, h1, h2, h3.trans ?_⟩
          exact List.Perm.append_left _ (List.Perm.cons _ (List.Perm.swap _ _ _))
      · have e : (a :: g).reverse ++ b :: t = g.reverse ++ a :: b :: t := by simp
        obtain ⟨r, h1, h2, h3⟩ := ih (a :: g) (b :: t) (by rw [e]; simp only [List.length_cons] at hf ⊢; omega) (by
          have e2 : (a :: g).reverse ++ (b :: t).take 1 = (g.reverse ++ [a]) ++ [b] := by simp
          rw [e2, List.pairwise_append]
          refine ⟨hg', by simp, ?_⟩
          intro u hu v hv
          obtain rfl : v = b := by simpa using hv
          rcases List.mem_append.mp hu with hu | hu
          · have := (List.pairwise_append.mp hg').2.2 u hu a (by simp)
            omega
          · obtain rfl : u = a := by simpa using hu
            omega)
        exact ⟨r, h1, h2, by rw [e] at h3; exact h3⟩

theorem inversions_borne (l : List ℤ) : inversions l ≤ l.length * l.length := by
  induction l with
  | nil => simp [inversions]
  | cons a t ih =>
    have h1 : t.countP (fun (b : ℤ) => decide (b < a)) ≤ t.length := List.countP_le_length
    simp only [inversions, List.length_cons]
    nlinarith

/-- **C215** (the sort): after at most `2 k² + k` turns the loop over `k` crossings ends, and they are sorted. -/
theorem C215_tri (l : List ℤ) (fuel : ℕ) (hf : 2 * (l.length * l.length) + l.length ≤ fuel) : ∃ r, tri fuel [] l = some r ∧ r.Pairwise (· ≤ ·) ∧ r.Perm l := by
  have := inversions_borne l
  obtain ⟨r, h1, h2, h3⟩ := tri_correct fuel [] l (by simp; omega) (by
    cases l <;> simp)
  exact ⟨r, h1, h2, by simpa using h3⟩

/-! ## Filling of a line -/

theorem segments_correct (sx : ℤ) (hsx : 0 < sx) : ∀ (n : ℕ) (l : List ℤ), l.length = 2 * n → l.Pairwise (· ≤ ·) →
    ∃ r, segments sx l = some r ∧ (∀ s ∈ r, 0 ≤ s.1 ∧ s.1 ≤ s.2 ∧ s.2 < sx) ∧
      (∀ x, 0 ≤ x → x < sx → x ∉ l → (Allume r x ↔ l.countP (fun (a : ℤ) => decide (a < x)) % 2 = 1)) ∧
      (∀ x, 0 < x → x < sx → x ∈ l → Allume r x) := by
  intro n
  induction n with
  | zero =>
    intro l hl _
    obtain rfl : l = [] := List.length_eq_zero_iff.mp (by omega)
    exact ⟨[], rfl, by simp, by simp [Allume], by simp⟩
  | succ n ih =>
    intro l hl hs
    match l, hl, hs with
    | [], hl, _ => simp at hl
    | [_], hl, _ => simp only [List.length_cons, List.length_nil] at hl; omega
    | x0 :: x1 :: t, hl, hs =>
      rw [List.pairwise_cons, List.pairwise_cons] at hs
      obtain ⟨hs0, hs1, hst⟩ := hs
      have h01 : x0 ≤ x1 := hs0 x1 (by simp)
      have hlt : t.length = 2 * n := by simp only [List.length_cons] at hl; omega
      obtain ⟨r, hr, hr1, hr2, hr3⟩ := ih t hlt hst
      have hzero : ∀ x, x ≤ x1 → t.countP (fun (a : ℤ) => decide (a < x)) = 0 := by
        intro x hx
        rw [List.countP_eq_zero]
        intro a ha
        have := hs1 a ha
        simp; omega
      simp only [segments]
      by_cases h1 : x0 ≥ sx
      · rw [if_pos h1]
        refine ⟨[], rfl, by simp, ?_, ?_⟩
        · intro x _ hx2 _
          have : (x0 :: x1 :: t).countP (fun (a : ℤ) => decide (a < x)) = 0 := by
            rw [List.countP_eq_zero]
            intro a ha
            rcases List.mem_cons.mp ha with rfl | ha
            · simp; omega
            · have := hs0 a ha
              simp; omega
          rw [this]; simp [Allume]
        · intro x _ hx2 hx3
          exfalso
          rcases List.mem_cons.mp hx3 with rfl | ha
          · omega
          · have := hs0 x ha; omega
      · rw [if_neg h1]
        by_cases h2 : x1 > 0
        · rw [if_pos h2, hr]
          refine ⟨(max x0 0, min x1 (sx - 1)) :: r, rfl, ?_, ?_, ?_⟩
          · intro s hs'
            rcases List.mem_cons.mp hs' with rfl | hs'
            · simp only; omega
            · exact hr1 s hs'
          · intro x hx1 hx2 hx3
            have n0 : x ≠ x0 := fun e => hx3 (by simp [e])
            have n1 : x ≠ x1 := fun e => hx3 (by simp [e])
            have nt : x ∉ t := fun e => hx3 (by simp [e])
            have hal : Allume ((max x0 0, min x1 (sx - 1)) :: r) x ↔ ((x0 ≤ x ∧ x ≤ x1) ∨ Allume r x) := by
              simp only [Allume, List.mem_cons, exists_eq_or_imp]
              constructor
              · rintro (⟨a, b⟩ | h)
                · left; omega
                · exact Or.inr h
              · rintro (⟨a, b⟩ | h)
                · left; omega
                · exact Or.inr h
            rw [hal, hr2 x hx1 hx2 nt]
            simp only [List.countP_cons]
            by_cases c0 : x0 < x
            · by_cases c1 : x1 < x
              · simp only [c0, c1, decide_true, if_true]
                constructor
                · rintro (h | h) <;> omega
                · intro h; right; omega
              · have := hzero x (by omega)
                simp only [c0, c1, decide_true, decide_false, if_true, this]
                constructor
                · intro _; rfl
                · intro _; left; omega
            · have c1 : ¬ x1 < x := by omega
              have := hzero x (by omega)
              simp only [c0, c1, decide_false, this]
              constructor
              · rintro (h | h) <;> omega
              · intro h; simp at h
          · intro x hx1 hx2 hx3
            rcases List.mem_cons.mp hx3 with rfl | hx3
            · exact ⟨_, List.mem_cons_self, by simp only; omega, by simp only; omega⟩
            · rcases List.mem_cons.mp hx3 with rfl | hx3
              · exact ⟨_, List.mem_cons_self, by simp only; omega, by simp only; omega⟩
              · obtain ⟨s, hs', h⟩ := hr3 x hx1 hx2 hx3
                exact ⟨s, List.mem_cons_of_mem _ hs', h⟩
        · rw [if_neg h2, hr]
          refine ⟨r, rfl, hr1, ?_, ?_⟩
          · intro x hx1 hx2 hx3
            have n1 : x ≠ x1 := fun e => hx3 (by simp [e])
            have nt : x ∉ t := fun e => hx3 (by simp [e])
            rw [hr2 x hx1 hx2 nt]
            simp only [List.countP_cons]
            have c0 : x0 < x := by omega
            have c1 : x1 < x := by omega
            simp only [c0, c1, decide_true, if_true]
            omega
          · intro x hx1 hx2 hx3
            rcases List.mem_cons.mp hx3 with rfl | hx3
            · omega
            · rcases List.mem_cons.mp hx3 with rfl | hx3
              · omega
              · exact hr3 x hx1 hx2 hx3

/-- Number of turns that suffices for any line of the polygon. -/
def tours (pts : List Pt) : ℕ := 2 * (pts.length * pts.length) + pts.length

theorem aretesDe_longueur (pts : List Pt) : ∀ d, (aretesDe d pts).length = pts.length := by
  induction pts with
  | nil => intro d; rfl
  | cons p t ih => intro d; simp [aretesDe, ih]

theorem aretes_longueur (pts : List Pt) : (aretes pts).length = pts.length := by
  unfold aretes
  cases h : pts.getLast? with
  | none => rw [List.getLast?_eq_none_iff] at h; simp [h]
  | some d => exact aretesDe_longueur pts d

theorem abscisses_longueur (y : ℤ) (pts : List Pt) : (abscisses y pts).length ≤ pts.length := by
  simp only [abscisses, List.length_map]
  exact (List.length_filter_le _ _).trans (aretes_longueur pts).le

theorem compte_gauche (pts : List Pt) (x y : ℤ) (hx : 0 ≤ x) (hne : x ∉ abscisses y pts) :
    (abscisses y pts).countP (fun (a : ℤ) => decide (a < x)) = aGauche pts x y := by
  classical
  have hne' : ∀ e ∈ aretes pts, croise y e = true → abscisse y e ≠ x := by
    intro e he hc h
    apply hne
    simp only [abscisses, List.mem_map, List.mem_filter]
    exact ⟨e, ⟨he, hc⟩, h⟩
  simp only [abscisses, aGauche, List.countP_map, List.countP_filter]
  apply List.countP_congr
  intro e he
  simp only [Function.comp_apply, Bool.and_eq_true, decide_eq_true_eq]
  constructor
  · rintro ⟨h1, h2⟩
    refine ⟨(croise_iff y e).mp h2, ?_⟩
    have := hne' e he h2
    rw [abscisse_eq] at h1 this
    exact (tronque_lt _ _ hx this).mp h1
  · rintro ⟨h1, h2⟩
    have hc := (croise_iff y e).mpr h1
    have := hne' e he hc
    rw [abscisse_eq] at this ⊢
    exact ⟨(tronque_lt _ _ hx this).mpr h2, hc⟩

/-- One line. -/
theorem ligne_correcte (pts : List Pt) (sx y : ℤ) (hsx : 0 < sx) (fuel : ℕ) (hf : tours pts ≤ fuel) :
    ∃ r, ligne fuel pts sx y = some r ∧ (∀ s ∈ r, 0 ≤ s.1 ∧ s.1 ≤ s.2 ∧ s.2 < sx) ∧
      (∀ x, 0 ≤ x → x < sx → x ∉ abscisses y pts → (Allume r x ↔ Odd (aGauche pts x y))) ∧
      (∀ x, 0 < x → x < sx → x ∈ abscisses y pts → Allume r x) := by
  have hl := abscisses_longueur y pts
  have hq : (abscisses y pts).length * (abscisses y pts).length ≤ pts.length * pts.length := Nat.mul_le_mul hl hl
  obtain ⟨a, h1, h2, h3⟩ := C215_tri (abscisses y pts) fuel (by unfold tours at hf; omega)
  have hp := abscisses_longueur_pair y pts
  obtain ⟨r, k1, k2, k3, k4⟩ := segments_correct sx hsx ((abscisses y pts).length / 2) a (by rw [h3.length_eq]; omega) h2
  refine ⟨r, by simp [ligne, h1, k1], k2, ?_, ?_⟩
  · intro x hx1 hx2 hx3
    rw [k3 x hx1 hx2 (fun h => hx3 (h3.mem_iff.mp h)), h3.countP_eq, compte_gauche pts x y hx1 hx3, Nat.odd_iff]
  · intro x hx1 hx2 hx3
    exact k4 x hx1 hx2 (h3.mem_iff.mpr hx3)

theorem mapM_some {α β : Type} (f : α → Option β) (l : List α) (h : ∀ a ∈ l, ∃ b, f a = some b) :
    ∃ r, l.mapM f = some r ∧ r.length = l.length ∧ ∀ (i : ℕ) (a : α) (b : β), l[i]? = some a → r[i]? = some b → f a = some b := by
  induction l with
  | nil => exact ⟨[], rfl, rfl, by simp⟩
  | cons a t ih =>
    obtain ⟨b, hb⟩ := h a (by simp)
    obtain ⟨r, h1, h2, h3⟩ := ih (fun a ha => h a (by simp [ha]))
    refine ⟨b :: r, by simp [List.mapM_cons, hb, h1], by simp [h2], ?_⟩
    intro i u v hu hv
    cases i with
    | zero => simp only [List.getElem?_cons_zero, Option.some.injEq] at hu hv; rw [← hu, ← hv]; exact hb
    | succ i => exact h3 i u v (by simpa using hu) (by simpa using hv)

/-- **C215** (filling of a polygon): for any list of points (the polygon may be concave or cross itself) and any image, the algorithm ends without access outside its lists; it only draws segments inside the image, from left to right; a pixel that is not on a (truncated) crossing is drawn exactly when an odd number of edges are crossed on its left (even-odd rule); a pixel on a crossing is drawn, except possibly in column 0. -/
theorem C215_rempli (pts : List Pt) (sx : ℤ) (hsx : 0 < sx) (sy : ℕ) (fuel : ℕ) (hf : tours pts ≤ fuel) :
    ∃ r, rempli fuel pts sx sy = some r ∧ r.length = sy ∧
      ∀ (y : ℕ) (l : List (ℤ × ℤ)), r[y]? = some l →
        (∀ s ∈ l, 0 ≤ s.1 ∧ s.1 ≤ s.2 ∧ s.2 < sx) ∧
        (∀ x : ℤ, 0 ≤ x → x < sx → (∀ e ∈ aretes pts, Coupe y e → tronque (croisement y e) ≠ x) → (Allume l x ↔ Odd (aGauche pts x y))) ∧
        (∀ x : ℤ, 0 < x → x < sx → (∃ e ∈ aretes pts, Coupe y e ∧ tronque (croisement y e) = x) → Allume l x) := by
  obtain ⟨r, h1, h2, h3⟩ := mapM_some (fun (y : ℕ) => ligne fuel pts sx y) (List.range sy) (by
    intro y _
    obtain ⟨l, hl, _⟩ := ligne_correcte pts sx y hsx fuel hf
    exact ⟨l, hl⟩)
  refine ⟨r, h1, by simpa using h2, ?_⟩
  intro y l hl
  have hy : y < sy := by
    by_contra h
    rw [List.getElem?_eq_none (by simp at h2; omega)] at hl
    simp at hl
  have h4 := h3 y y l (by simp [hy]) hl
  obtain ⟨l', k1, k2, k3, k4⟩ := ligne_correcte pts sx y hsx fuel hf
  obtain rfl : l = l' := by
    have : some l = some l' := h4.symm.trans k1
    simpa using this
  refine ⟨k2, ?_, ?_⟩
  · intro x hx1 hx2 hx3
    apply k3 x hx1 hx2
    intro hm
    simp only [abscisses, List.mem_map, List.mem_filter] at hm
    obtain ⟨e, ⟨he, hc⟩, ha⟩ := hm
    rw [abscisse_eq] at ha
    exact hx3 e he ((croise_iff _ _).mp hc) ha
  · rintro x hx1 hx2 ⟨e, he, hc, ha⟩
    apply k4 x hx1 hx2
    simp only [abscisses, List.mem_map, List.mem_filter]
    exact ⟨e, ⟨he, (croise_iff _ _).mpr hc⟩, by rw [abscisse_eq]; exact ha⟩

/-- A polygon in the image: the square (1,1)-(4,4). -/
example : rempli 100 [⟨1, 1⟩, ⟨4, 1⟩, ⟨4, 4⟩, ⟨1, 4⟩] 6 6 = some [[], [], [(1, 4)], [(1, 4)], [(1, 4)], []] := by decide +kernel

/-- **C215** (top row and column 0): the first row of a polygon is never drawn, whereas the last one is; a polygon limited by the column 0 on its right does not light that column. -/
theorem C215_bord_refute :
    rempli 100 [⟨1, 1⟩, ⟨4, 1⟩, ⟨4, 4⟩, ⟨1, 4⟩] 6 6 = some [[], [], [(1, 4)], [(1, 4)], [(1, 4)], []] ∧
    rempli 100 [⟨-3, 0⟩, ⟨0, 0⟩, ⟨0, 2⟩, ⟨-3, 2⟩] 4 3 = some [[], [], []] := by decide +kernel

/-- The row of the highest points is not drawn, in any polygon. -/
theorem C215_haut (pts : List Pt) (sx y : ℤ) (hy : ∀ p ∈ pts, y ≤ p.y) (fuel : ℕ) : ligne fuel pts sx y = some [] := by
  have hde : ∀ (l : List Pt) (d : Pt), y ≤ d.y → (∀ p ∈ l, y ≤ p.y) → (aretesDe d l).filter (croise y) = [] := by
    intro l
    induction l with
    | nil => intro d _ _; rfl
    | cons p t ih =>
      intro d hd hl
      have hp := hl p (by simp)
      have hc : ¬ croise y (p, d) = true := by
        simp only [croise, Bool.or_eq_true, Bool.and_eq_true, decide_eq_true_eq]
        omega
      simp only [aretesDe, List.filter_cons, if_neg hc]
      exact ih p hp (fun q hq => hl q (by simp [hq]))
  have : abscisses y pts = [] := by
    simp only [abscisses, aretes]
    cases h : pts.getLast? with
    | none => rfl
    | some d =>
      simp only
      rw [hde pts d (hy d (List.mem_of_getLast? h)) hy]
      rfl
  simp [ligne, this, tri, segments]

end Verif.Polygone
