import Verif.Vue.Polygone
import Mathlib.Tactic.FieldSimp

/-!
# C225: vertical filling between two segments (core/src/vue/canva.cc:598-613, 866-885)

The corners are given by their pixels; the interpolation is exact (`float` in the code).
-/

namespace Verif.Bande

open Verif.Polygone (tronque)

/-! ## Model -/

/-- The interpolated ordinate `a + ((b - a) * (x - x0) * 1.0f) / (x1 - x0)` of the column `x`, converted to an integer, core/src/vue/canva.cc:879-880. `none`: 0 / 0, whose conversion is undefined. -/
def interpole (x0 x1 a b x : ℤ) : Option ℤ :=
  if x1 = x0 then none else some (tronque ((a : ℚ) + (((b - a) * (x - x0) : ℤ) : ℚ) / ((x1 - x0 : ℤ) : ℚ)))

/-- The columns `for x = x0; x <= x1; x++`, core/src/vue/canva.cc:876. -/
def colonnes (x0 x1 : ℤ) : List ℤ := (List.range (x1 - x0 + 1).toNat).map fun k : ℕ => x0 + k

/-- One column: abscissa and two ends, core/src/vue/canva.cc:879-881. -/
def colonne (x0 x1 y0 y1 y2 y3 x : ℤ) : Option (ℤ × ℤ × ℤ) :=
  (interpole x0 x1 y0 y1 x).bind fun yh : ℤ => (interpole x0 x1 y2 y3 x).bind fun yb : ℤ => some (x, yh, yb)

/-- The vertical segments drawn, core/src/vue/canva.cc:866-885: pixels `(x0, y0)`, `(x1, y1)`, `(x0, y2)`, `(x1, y3)`. -/
def bande (x0 y0 x1 y1 y2 y3 : ℤ) : Option (List (ℤ × ℤ × ℤ)) :=
  if y2 ≠ -1 ∧ y3 ≠ -1 then (colonnes x0 x1).mapM (colonne x0 x1 y0 y1 y2 y3) else some []

/-! ## Specification -/

/-- Ordinate at the abscissa `x` of the straight line through `(x0, a)` and `(x1, b)`. -/
def droite (x0 x1 a b x : ℤ) : ℚ := a + ((x : ℚ) - x0) / ((x1 : ℚ) - x0) * ((b : ℚ) - a)

/-! ## Proofs -/

theorem interpole_eq (x0 x1 a b x : ℤ) (h : x0 < x1) : interpole x0 x1 a b x = some (tronque (droite x0 x1 a b x)) := by
  unfold interpole droite
  rw [if_neg h.ne']
  congr 2
  push_cast
  have : ((x1 : ℚ) - x0) ≠ 0 := by
    have : (x0 : ℚ) < x1 := by exact_mod_cast h
    intro hc; linarith
  field_simp

theorem mem_colonnes (x0 x1 x : ℤ) : x ∈ colonnes x0 x1 ↔ x0 ≤ x ∧ x ≤ x1 := by
  unfold colonnes
  rw [List.mem_map]
  constructor
  · rintro ⟨k, hk, rfl⟩
    rw [List.mem_range] at hk
    omega
  · rintro ⟨h1, h2⟩
    exact ⟨(x - x0).toNat, List.mem_range.2 (by omega), by omega⟩

theorem tronque_mono (p q : ℚ) (h : p ≤ q) : tronque p ≤ tronque q := by
  unfold tronque
  split_ifs with h1 h2 h2
  · exact Int.floor_le_floor h
  · exact absurd (le_trans h1 h) h2
  · have a1 : ⌈p⌉ ≤ 0 := by rw [Int.ceil_le]; exact_mod_cast (not_le.1 h1).le
    have a2 : 0 ≤ ⌊q⌋ := Int.floor_nonneg.2 h2
    omega
  · exact Int.ceil_le_ceil h

theorem tronque_entier (n : ℤ) : tronque (n : ℚ) = n := by
  unfold tronque
  split_ifs <;> simp

theorem tronque_proche (q : ℚ) : |(tronque q : ℚ) - q| < 1 := by
  unfold tronque
  rw [abs_lt]
  split_ifs
  · have h1 := Int.floor_le q
    have h2 := Int.lt_floor_add_one q
    constructor <;> linarith
  · have h1 := Int.le_ceil q
    have h2 := Int.ceil_lt_add_one q
    constructor <;> linarith

theorem droite_entre (x0 x1 a b x : ℤ) (h : x0 < x1) (h0 : x0 ≤ x) (h1 : x ≤ x1) : (min a b : ℚ) ≤ droite x0 x1 a b x ∧ droite x0 x1 a b x ≤ (max a b : ℚ) := by
  have hd : (0 : ℚ) < (x1 : ℚ) - x0 := by
    have : (x0 : ℚ) < x1 := by exact_mod_cast h
    linarith
  have g0 : (x0 : ℚ) ≤ x := by exact_mod_cast h0
  have g1 : (x : ℚ) ≤ x1 := by exact_mod_cast h1
  have t0 : 0 ≤ ((x : ℚ) - x0) / ((x1 : ℚ) - x0) := div_nonneg (by linarith) hd.le
  have t1 : ((x : ℚ) - x0) / ((x1 : ℚ) - x0) ≤ 1 := by rw [div_le_one hd]; linarith
  unfold droite
  set t := ((x : ℚ) - x0) / ((x1 : ℚ) - x0)
  rcases le_total (a : ℚ) (b : ℚ) with hab | hab
  · rw [min_eq_left hab, max_eq_right hab]
    constructor <;> nlinarith
  · rw [min_eq_right hab, max_eq_left hab]
    constructor <;> nlinarith

theorem droite_mono (x0 x1 a b c d x : ℤ) (h : x0 < x1) (h0 : x0 ≤ x) (h1 : x ≤ x1) (hac : a ≤ c) (hbd : b ≤ d) : droite x0 x1 a b x ≤ droite x0 x1 c d x := by
  have hd : (0 : ℚ) < (x1 : ℚ) - x0 := by
    have : (x0 : ℚ) < x1 := by exact_mod_cast h
    linarith
  have g0 : (x0 : ℚ) ≤ x := by exact_mod_cast h0
  have g1 : (x : ℚ) ≤ x1 := by exact_mod_cast h1
  have t0 : 0 ≤ ((x : ℚ) - x0) / ((x1 : ℚ) - x0) := div_nonneg (by linarith) hd.le
  have t1 : ((x : ℚ) - x0) / ((x1 : ℚ) - x0) ≤ 1 := by rw [div_le_one hd]; linarith
  have e1 : (a : ℚ) ≤ c := by exact_mod_cast hac
  have e2 : (b : ℚ) ≤ d := by exact_mod_cast hbd
  unfold droite
  set t := ((x : ℚ) - x0) / ((x1 : ℚ) - x0)
  nlinarith [mul_le_mul_of_nonneg_left e2 t0, mul_le_mul_of_nonneg_left e1 (show 0 ≤ 1 - t by linarith)]

/-- **C225 (vertical filling).** For increasing abscissas (and lower pixels other than -1), each column between the two abscissas is drawn once, from left to right; its ends are less than one pixel from the two straight lines, between the ordinates of the corners, and in the same order as the corners. -/
theorem C225_bande (x0 y0 x1 y1 y2 y3 : ℤ) (h : x0 < x1) (h2 : y2 ≠ -1) (h3 : y3 ≠ -1) : ∃ l, bande x0 y0 x1 y1 y2 y3 = some l ∧ l.map (fun s : ℤ × ℤ × ℤ => s.1) = colonnes x0 x1 ∧
    ∀ s ∈ l, x0 ≤ s.1 ∧ s.1 ≤ x1 ∧ |(s.2.1 : ℚ) - droite x0 x1 y0 y1 s.1| < 1 ∧ |(s.2.2 : ℚ) - droite x0 x1 y2 y3 s.1| < 1 ∧
      min y0 y1 ≤ s.2.1 ∧ s.2.1 ≤ max y0 y1 ∧ min y2 y3 ≤ s.2.2 ∧ s.2.2 ≤ max y2 y3 ∧
      (y0 ≤ y2 → y1 ≤ y3 → s.2.1 ≤ s.2.2) ∧ (y2 ≤ y0 → y3 ≤ y1 → s.2.2 ≤ s.2.1) := by
  have hc : ∀ x, colonne x0 x1 y0 y1 y2 y3 x = some (x, tronque (droite x0 x1 y0 y1 x), tronque (droite x0 x1 y2 y3 x)) := by
    intro x
    unfold colonne
    rw [interpole_eq _ _ _ _ _ h, Option.bind_some, interpole_eq _ _ _ _ _ h, Option.bind_some]
  have hm : (colonnes x0 x1).mapM (colonne x0 x1 y0 y1 y2 y3) = some ((colonnes x0 x1).map fun x : ℤ => (x, tronque (droite x0 x1 y0 y1 x), tronque (droite x0 x1 y2 y3 x))) := by
    generalize colonnes x0 x1 = l
    induction l with
    | nil => rfl
    | cons a l ih => rw [List.mapM_cons, hc, ih]; rfl
  refine ⟨_, by unfold bande; rw [if_pos ⟨h2, h3⟩]; exact hm, by rw [List.map_map]; exact List.map_id _, fun s hs => ?_⟩
  obtain ⟨x, hx, rfl⟩ := List.mem_map.1 hs
  obtain ⟨g0, g1⟩ := (mem_colonnes _ _ _).1 hx
  have borne : ∀ a b : ℤ, min a b ≤ tronque (droite x0 x1 a b x) ∧ tronque (droite x0 x1 a b x) ≤ max a b := by
    intro a b
    obtain ⟨e1, e2⟩ := droite_entre x0 x1 a b x h g0 g1
    have f1 := tronque_mono _ _ (show ((min a b : ℤ) : ℚ) ≤ _ by push_cast; exact e1)
    have f2 := tronque_mono _ _ (show _ ≤ ((max a b : ℤ) : ℚ) by push_cast; exact e2)
    rw [tronque_entier] at f1 f2
    exact ⟨f1, f2⟩
  exact ⟨g0, g1, tronque_proche _, tronque_proche _, (borne y0 y1).1, (borne y0 y1).2, (borne y2 y3).1, (borne y2 y3).2,
    fun a b => tronque_mono _ _ (droite_mono x0 x1 _ _ _ _ x h g0 g1 a b), fun a b => tronque_mono _ _ (droite_mono x0 x1 _ _ _ _ x h g0 g1 a b)⟩

/-- **C225 (junctions).** The first and the last columns join exactly the corners: two successive bands share their common column. -/
theorem C225_raccord (x0 y0 x1 y1 y2 y3 : ℤ) (h : x0 < x1) : colonne x0 x1 y0 y1 y2 y3 x0 = some (x0, y0, y2) ∧ colonne x0 x1 y0 y1 y2 y3 x1 = some (x1, y1, y3) := by
  have hd : (x1 : ℚ) - x0 ≠ 0 := by
    have : (x0 : ℚ) < x1 := by exact_mod_cast h
    intro hc; linarith
  have e0 : ∀ a b : ℤ, droite x0 x1 a b x0 = a := by intro a b; unfold droite; simp
  have e1 : ∀ a b : ℤ, droite x0 x1 a b x1 = b := by intro a b; unfold droite; rw [div_self hd]; ring
  unfold colonne
  simp only [interpole_eq _ _ _ _ _ h, Option.bind_some, e0, e1, tronque_entier]
  exact ⟨trivial, trivial⟩

/-- **C225 (decreasing abscissas, refuted).** The band from `x1` to `x0 < x1`, which is the same trapezium, is not drawn at all. -/
theorem C225_decroissant_refute (x0 y0 x1 y1 y2 y3 : ℤ) (h : x1 < x0) : bande x0 y0 x1 y1 y2 y3 = some [] := by
  have e : colonnes x0 x1 = [] := by
    rw [List.eq_nil_iff_forall_not_mem]
    intro x hx
    have := (mem_colonnes _ _ _).1 hx
    omega
  unfold bande
  rw [e]
  split_ifs <;> rfl

/-- **C225 (a single column, refuted).** When the two abscissas fall on the same pixel, the ordinates are 0 / 0 and their conversion to integers is undefined. -/
theorem C225_colonne_refute (x y0 y1 y2 y3 : ℤ) (h2 : y2 ≠ -1) (h3 : y3 ≠ -1) : bande x y0 x y1 y2 y3 = none := by
  have e : colonnes x x = [x] := by
    unfold colonnes
    have : (x - x + 1).toNat = 1 := by omega
    rw [this]
    simp
  unfold bande
  rw [if_pos ⟨h2, h3⟩, e, List.mapM_cons]
  unfold colonne interpole
  rw [if_pos rfl]
  rfl

/-- **C225 (pixel -1, refuted).** The pixel -1 is taken as a mark: a band one of whose lower corners falls on it is not drawn, whereas the same one a pixel higher or lower is. -/
theorem C225_moins_un_refute (x0 y0 x1 y1 y3 : ℤ) (h : x0 < x1) (h3 : y3 ≠ -1) : bande x0 y0 x1 y1 (-1) y3 = some [] ∧ (∃ l, bande x0 y0 x1 y1 (-2) y3 = some l ∧ l ≠ []) ∧ ∃ l, bande x0 y0 x1 y1 0 y3 = some l ∧ l ≠ [] := by
  have hne : ∀ y2 : ℤ, y2 ≠ -1 → ∃ l, bande x0 y0 x1 y1 y2 y3 = some l ∧ l ≠ [] := by
    intro y2 h2
    obtain ⟨l, e, hl, -⟩ := C225_bande x0 y0 x1 y1 y2 y3 h h2 h3
    refine ⟨l, e, fun hn => ?_⟩
    rw [hn] at hl
    have := (mem_colonnes x0 x1 x0).2 ⟨le_rfl, h.le⟩
    rw [← hl] at this
    simp at this
  exact ⟨by unfold bande; rw [if_neg (by simp)], hne _ (by decide), hne _ (by decide)⟩

/-- A band of five columns. -/
example : bande 2 10 6 4 20 21 = some [(2, 10, 20), (3, 8, 20), (4, 7, 20), (5, 5, 20), (6, 4, 21)] := by decide +kernel

end Verif.Bande
