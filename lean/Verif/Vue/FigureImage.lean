import Verif.Vue.FigureRegion
import Verif.Vue.Cmap
import Mathlib.Algebra.Order.Floor.Ring
import Mathlib.Data.Real.Archimedean

/-!
# C218: surfaces drawn as images (core/src/vue/figure.cc:17-53, 535-594, 1163-1178, core/src/vue/canva.cc:1188-1216)

Exact arithmetic instead of `float`.
-/

namespace Verif.FigureImage

open Verif.FigureRegion (mini maxi mini_le mini_mem maxi_mem)

/-! ## Model -/

/-- `ParamGrille`, core/include/tsd/vue.hpp:465-478. -/
structure Grille where
  nc : ℕ
  nr : ℕ
  x0 : ℝ
  y0 : ℝ
  dx : ℝ
  dy : ℝ

/-- `Pointf`. -/
abbrev Pt := ℝ × ℝ

/-- The constructor, core/src/vue/figure.cc:17-26 (`none`: division by zero). -/
noncomputable def grille (nc nr : ℕ) (p0 p1 : Pt) : Option Grille :=
  if nc = 1 ∨ nr = 1 then none
  else some { nc := nc, nr := nr, x0 := p0.1, y0 := p0.2, dx := (p1.1 - p0.1) / (nc - 1), dy := (p1.2 - p0.2) / (nr - 1) }

/-- `ctr`, core/src/vue/figure.cc:34-37. -/
def ctr (g : Grille) (ix iy : ℕ) : Pt := (g.x0 + ix * g.dx, g.y0 + iy * g.dy)

/-- `tl`, core/src/vue/figure.cc:38-41. -/
noncomputable def tl (g : Grille) (ix iy : ℕ) : Pt := (g.x0 + (ix - 1 / 2) * g.dx, g.y0 + (iy - 1 / 2) * g.dy)

/-- `br`, core/src/vue/figure.cc:42-45. -/
noncomputable def br (g : Grille) (ix iy : ℕ) : Pt := (g.x0 + (ix + 1 / 2) * g.dx, g.y0 + (iy + 1 / 2) * g.dy)

/-- `bl`, core/src/vue/figure.cc:46-49. -/
noncomputable def bl (g : Grille) (ix iy : ℕ) : Pt := (g.x0 + (ix - 1 / 2) * g.dx, g.y0 + (iy + 1 / 2) * g.dy)

/-- `tr`, core/src/vue/figure.cc:50-53. -/
noncomputable def tr (g : Grille) (ix iy : ℕ) : Pt := (g.x0 + (ix + 1 / 2) * g.dx, g.y0 + (iy - 1 / 2) * g.dy)

/-- A table of `rows × cols` values. -/
structure Table where
  rows : ℕ
  cols : ℕ
  val : ℕ → ℕ → ℝ

/-- The rectangle where the image is placed: origin and dimensions. -/
structure Cadre where
  x : ℝ
  y : ℝ
  l : ℝ
  h : ℝ

/-- The values of the table, in some order. -/
def valeurs (Z : Table) : List ℝ := (List.range Z.rows).flatMap (fun (i : ℕ) => (List.range Z.cols).map (fun (j : ℕ) => Z.val i j))

/-- `(Z - vmin) / (vmax - vmin)`, core/src/vue/figure.cc:550-556 (`none`: division of zero by zero). -/
noncomputable def normalise (Z : Table) : Option Table :=
  if maxi (valeurs Z) = mini (valeurs Z) then none
  else some { Z with val := fun (i j : ℕ) => (Z.val i j - mini (valeurs Z)) / (maxi (valeurs Z) - mini (valeurs Z)) }

/-- The options of the format, core/src/vue/figure.cc:538-548: the first field is the name of the map, the second one, `o`, leaves the values as they are. The empty format has one, empty, field. -/
def options (champs : List String) : String × Bool :=
  (match champs with
    | [] => "jet"
    | n :: _ => n, match champs with
    | _ :: o :: _ => o ≠ "o"
    | _ => true)

/-- One filled rectangle: two corners and colour. -/
structure Case (γ : Type) where
  p : Pt
  q : Pt
  coul : γ

/-- `Canva::plot_cmap`, core/src/vue/canva.cc:1188-1216: the rectangles, in order. The rows of the table are laid along the abscissas. -/
noncomputable def plotCmap {γ : Type} (couleur : ℝ → γ) (c : Cadre) (Z : Table) : Option (List (Case γ)) :=
  (grille Z.rows Z.cols (c.x, c.y) (c.x + c.l, c.y + c.h)).map (fun (g : Grille) =>
    (List.range Z.rows).flatMap (fun (i : ℕ) => (List.range Z.cols).map (fun (j : ℕ) => { p := tl g i j, q := br g i j, coul := couleur (Z.val i j) })))

/-- The image drawn by a curve, core/src/vue/figure.cc:535-594 (`carte` gives the map of a name). -/
noncomputable def image {γ : Type} (carte : String → ℝ → γ) (champs : List String) (c : Cadre) (Z : Table) : Option (List (Case γ)) :=
  if (options champs).2 = true then (normalise Z).bind (plotCmap (carte (options champs).1) c)
  else plotCmap (carte (options champs).1) c Z

/-- Default region of `plot_img(Z)`, core/src/vue/figure.cc:1175-1178. -/
noncomputable def cadreDefaut (Z : Table) : Cadre := { x := 0, y := 0, l := (Z.rows : ℝ) - 1, h := (Z.cols : ℝ) - 1 }

/-! ## Specification -/

/-- The point is in the cell, the lower edges included, the upper ones not. -/
def DansCase {γ : Type} (c : Case γ) (a : Pt) : Prop := c.p.1 ≤ a.1 ∧ a.1 < c.q.1 ∧ c.p.2 ≤ a.2 ∧ a.2 < c.q.2

/-! ## Geometry of the cells -/

/-- **C218, cells.** In a grid of at least two columns and two rows: the extreme centres are the two given corners, a centre is the middle of its cell, the four corners are those of a rectangle, and neighbouring cells share their edge. -/
theorem C218_grille (nc nr : ℕ) (p0 p1 : Pt) (hc : 2 ≤ nc) (hr : 2 ≤ nr) : ∃ g, grille nc nr p0 p1 = some g ∧
    ctr g 0 0 = p0 ∧ ctr g (nc - 1) (nr - 1) = p1 ∧
    (∀ i j, (ctr g i j).1 = ((tl g i j).1 + (br g i j).1) / 2 ∧ (ctr g i j).2 = ((tl g i j).2 + (br g i j).2) / 2) ∧
    (∀ i j, bl g i j = ((tl g i j).1, (br g i j).2) ∧ tr g i j = ((br g i j).1, (tl g i j).2)) ∧
    (∀ i j, tr g i j = tl g (i + 1) j ∧ br g i j = bl g (i + 1) j ∧ bl g i j = tl g i (j + 1) ∧ br g i j = tl g (i + 1) (j + 1)) := by
  refine ⟨_, by unfold grille; rw [if_neg (by omega)], ?_, ?_, ?_, ?_, ?_⟩
  · simp [ctr]
  · have h1 : ((nc - 1 : ℕ) : ℝ) = (nc : ℝ) - 1 := by rw [Nat.cast_sub (by omega)]; simp
    have h2 : ((nr - 1 : ℕ) : ℝ) = (nr : ℝ) - 1 := by rw [Nat.cast_sub (by omega)]; simp
    have h3 : (nc : ℝ) - 1 ≠ 0 := by
      have : (2 : ℝ) ≤ nc := by exact_mod_cast hc
      intro h; linarith
    have h4 : (nr : ℝ) - 1 ≠ 0 := by
      have : (2 : ℝ) ≤ nr := by exact_mod_cast hr
      intro h; linarith
    simp only [ctr, h1, h2]
    ext
    · simp only; field_simp; ring
    · simp only; field_simp; ring
  · intro i j; simp only [ctr, tl, br]; constructor <;> ring
  · intro i j; exact ⟨rfl, rfl⟩
  · intro i j
    simp only [tl, br, bl, tr, Nat.cast_add, Nat.cast_one]
    refine ⟨?_, ?_, ?_, ?_⟩ <;> (ext <;> simp only <;> ring)

/-- Refuted: any table can be laid out. One row or one column: division by zero (0/0 for `plot_img(Z)`). -/
theorem C218_grille_refute {γ : Type} (couleur : ℝ → γ) (c : Cadre) (Z : Table) (h : Z.rows = 1 ∨ Z.cols = 1) : plotCmap couleur c Z = none := by
  unfold plotCmap grille
  rw [if_pos h]
  rfl

theorem plotCmap_eq {γ : Type} (couleur : ℝ → γ) (c : Cadre) (Z : Table) (hr : 2 ≤ Z.rows) (hc : 2 ≤ Z.cols) :
    ∃ g : Grille, g.x0 = c.x ∧ g.y0 = c.y ∧ g.dx = c.l / (Z.rows - 1) ∧ g.dy = c.h / (Z.cols - 1) ∧
      plotCmap couleur c Z = some ((List.range Z.rows).flatMap (fun i => (List.range Z.cols).map (fun j => { p := tl g i j, q := br g i j, coul := couleur (Z.val i j) }))) := by
  refine ⟨{ nc := Z.rows, nr := Z.cols, x0 := c.x, y0 := c.y, dx := (c.x + c.l - c.x) / (Z.rows - 1), dy := (c.y + c.h - c.y) / (Z.cols - 1) }, rfl, rfl, ?_, ?_, ?_⟩
  · simp only; rw [show c.x + c.l - c.x = c.l by ring]
  · simp only; rw [show c.y + c.h - c.y = c.h by ring]
  · unfold plotCmap grille
    rw [if_neg (by omega)]
    rfl

/-- **C218, the cells.** There are `rows · cols` rectangles, and the one of rank `i · cols + j` has the colour of `Z(i, j)` and is centred on `(x + i l / (rows - 1), y + j h / (cols - 1))`. -/
theorem C218_cases {γ : Type} (couleur : ℝ → γ) (c : Cadre) (Z : Table) (hr : 2 ≤ Z.rows) (hc : 2 ≤ Z.cols) : ∃ l, plotCmap couleur c Z = some l ∧ l.length = Z.rows * Z.cols ∧
    ∀ k, (k ∈ l ↔ ∃ i j, i < Z.rows ∧ j < Z.cols ∧ k.coul = couleur (Z.val i j) ∧
      k.p = (c.x + (i - 1 / 2) * (c.l / (Z.rows - 1)), c.y + (j - 1 / 2) * (c.h / (Z.cols - 1))) ∧ k.q = (c.x + (i + 1 / 2) * (c.l / (Z.rows - 1)), c.y + (j + 1 / 2) * (c.h / (Z.cols - 1)))) := by
  obtain ⟨g, h1, h2, h3, h4, e⟩ := plotCmap_eq couleur c Z hr hc
  refine ⟨_, e, ?_, ?_⟩
  · rw [List.length_flatMap]
    simp
  · intro k
    simp only [List.mem_flatMap, List.mem_range, List.mem_map]
    constructor
    · rintro ⟨i, hi, j, hj, rfl⟩
      exact ⟨i, j, hi, hj, rfl, by simp only [tl, h1, h2, h3, h4], by simp only [br, h1, h2, h3, h4]⟩
    · rintro ⟨i, j, hi, hj, a1, a2, a3⟩
      refine ⟨i, hi, j, hj, ?_⟩
      cases k
      simp only at a1 a2 a3
      simp only [a1, a2, a3, tl, br, h1, h2, h3, h4]

theorem case_unique {d t : ℝ} (hd : 0 < d) {n : ℕ} (h0 : -(1 / 2) * d ≤ t) (h1 : t < (n - 1 / 2) * d) :
    ∃! i : ℕ, i < n ∧ ((i : ℝ) - 1 / 2) * d ≤ t ∧ t < ((i : ℝ) + 1 / 2) * d := by
  have hs : 0 ≤ t / d + 1 / 2 := by
    have : -(1 / 2) ≤ t / d := by rw [le_div_iff₀ hd]; exact h0
    linarith
  refine ⟨⌊t / d + 1 / 2⌋₊, ⟨?_, ?_, ?_⟩, ?_⟩
  · rw [Nat.floor_lt hs]
    have : t / d < (n : ℝ) - 1 / 2 := by rw [div_lt_iff₀ hd]; exact h1
    linarith
  · have := Nat.floor_le hs
    rw [← le_div_iff₀ hd]; linarith
  · have := Nat.lt_floor_add_one (t / d + 1 / 2)
    rw [← div_lt_iff₀ hd]; linarith
  · rintro i ⟨-, hb, hu⟩
    symm
    rw [Nat.floor_eq_iff hs]
    rw [← le_div_iff₀ hd] at hb
    rw [← div_lt_iff₀ hd] at hu
    constructor <;> linarith

/-- **C218, tiling.** Every point of the region that the figure displays for the image (half a cell around the rectangle asked for; the upper edges excepted) is in the cell of one sample and one only: nothing is drawn twice, and there is no gap. -/
theorem C218_pavage {γ : Type} (couleur : ℝ → γ) (c : Cadre) (Z : Table) (hr : 2 ≤ Z.rows) (hc : 2 ≤ Z.cols) (hl : 0 < c.l) (hh : 0 < c.h) (a : Pt)
    (b : FigureRegion.Boite) (hb : b = FigureRegion.boiteZ { rows := Z.rows, cols := Z.cols, x := c.x, y := c.y, l := c.l, h := c.h })
    (h1 : b.xmin ≤ a.1) (h2 : a.1 < b.xmax) (h3 : b.ymin ≤ a.2) (h4 : a.2 < b.ymax) :
    ∃ l, plotCmap couleur c Z = some l ∧ (∃ k ∈ l, DansCase k a) ∧
      ∃! ij : ℕ × ℕ, ij.1 < Z.rows ∧ ij.2 < Z.cols ∧ DansCase { p := (c.x + (ij.1 - 1 / 2) * (c.l / (Z.rows - 1)), c.y + (ij.2 - 1 / 2) * (c.h / (Z.cols - 1))), q := (c.x + (ij.1 + 1 / 2) * (c.l / (Z.rows - 1)), c.y + (ij.2 + 1 / 2) * (c.h / (Z.cols - 1))), coul := couleur (Z.val ij.1 ij.2) } a := by
  subst hb
  simp only [FigureRegion.boiteZ] at h1 h2 h3 h4
  have hrp : (0 : ℝ) < (Z.rows : ℝ) - 1 := by
    have : (2 : ℝ) ≤ Z.rows := by exact_mod_cast hr
    linarith
  have hcp : (0 : ℝ) < (Z.cols : ℝ) - 1 := by
    have : (2 : ℝ) ≤ Z.cols := by exact_mod_cast hc
    linarith
  have hdx : 0 < c.l / ((Z.rows : ℝ) - 1) := div_pos hl hrp
  have hdy : 0 < c.h / ((Z.cols : ℝ) - 1) := div_pos hh hcp
  have ex : c.l = ((Z.rows : ℝ) - 1) * (c.l / ((Z.rows : ℝ) - 1)) := by field_simp
  have ey : c.h = ((Z.cols : ℝ) - 1) * (c.h / ((Z.cols : ℝ) - 1)) := by field_simp
  rw [mul_div_assoc] at h1 h2 h3 h4
  obtain ⟨i, ⟨hi, hib, hiu⟩, hiuniq⟩ := case_unique (n := Z.rows) (t := a.1 - c.x) hdx (by linarith) (by linarith)
  obtain ⟨j, ⟨hj, hjb, hju⟩, hjuniq⟩ := case_unique (n := Z.cols) (t := a.2 - c.y) hdy (by linarith) (by linarith)
  obtain ⟨l, hle, -, hm⟩ := C218_cases couleur c Z hr hc
  refine ⟨l, hle, ⟨_, (hm { p := (c.x + (i - 1 / 2) * (c.l / (Z.rows - 1)), c.y + (j - 1 / 2) * (c.h / (Z.cols - 1))), q := (c.x + (i + 1 / 2) * (c.l / (Z.rows - 1)), c.y + (j + 1 / 2) * (c.h / (Z.cols - 1))), coul := couleur (Z.val i j) }).mpr ⟨i, j, hi, hj, rfl, rfl, rfl⟩, ?_⟩, (i, j), ⟨hi, hj, ?_⟩, ?_⟩
  · exact ⟨by simp only; linarith, by simp only; linarith, by simp only; linarith, by simp only; linarith⟩
  · exact ⟨by simp only; linarith, by simp only; linarith, by simp only; linarith, by simp only; linarith⟩
  · rintro ⟨i', j'⟩ ⟨hi', hj', k1, k2, k3, k4⟩
    simp only at hi' hj' k1 k2 k3 k4
    have := hiuniq i' ⟨hi', by linarith, by linarith⟩
    have := hjuniq j' ⟨hj', by linarith, by linarith⟩
    exact Prod.ext (by assumption) (by assumption)

/-- Non-vacuity: a table of 2 rows and 3 columns, on the default region: cells of side 1 around the integer points. -/
example : (cadreDefaut { rows := 2, cols := 3, val := fun i j => i + j }).l = 1 ∧ (cadreDefaut { rows := 2, cols := 3, val := fun i j => i + j }).h = 2 := by
  simp only [cadreDefaut]; norm_num

/-- **C218, default region.** `plot_img(Z)` draws the sample `(i, j)` in the cell of side 1 centred on `(i, j)`. -/
theorem C218_defaut {γ : Type} (couleur : ℝ → γ) (Z : Table) (hr : 2 ≤ Z.rows) (hc : 2 ≤ Z.cols) (i j : ℕ) (hi : i < Z.rows) (hj : j < Z.cols) :
    ∃ l, plotCmap couleur (cadreDefaut Z) Z = some l ∧ ({ p := ((i : ℝ) - 1 / 2, (j : ℝ) - 1 / 2), q := ((i : ℝ) + 1 / 2, (j : ℝ) + 1 / 2), coul := couleur (Z.val i j) } : Case γ) ∈ l := by
  obtain ⟨l, hle, -, hm⟩ := C218_cases couleur (cadreDefaut Z) Z hr hc
  have hrp : (Z.rows : ℝ) - 1 ≠ 0 := by
    have : (2 : ℝ) ≤ Z.rows := by exact_mod_cast hr
    intro h; linarith
  have hcp : (Z.cols : ℝ) - 1 ≠ 0 := by
    have : (2 : ℝ) ≤ Z.cols := by exact_mod_cast hc
    intro h; linarith
  refine ⟨l, hle, (hm _).mpr ⟨i, j, hi, hj, rfl, ?_, ?_⟩⟩
  · simp only [cadreDefaut, div_self hrp, div_self hcp]; ext <;> simp
  · simp only [cadreDefaut, div_self hrp, div_self hcp]; ext <;> simp

/-! ## Colours -/

theorem mem_valeurs (Z : Table) (x : ℝ) : x ∈ valeurs Z ↔ ∃ i j, i < Z.rows ∧ j < Z.cols ∧ Z.val i j = x := by
  unfold valeurs
  simp only [List.mem_flatMap, List.mem_range, List.mem_map]
  constructor
  · rintro ⟨i, hi, j, hj, e⟩; exact ⟨i, j, hi, hj, e⟩
  · rintro ⟨i, j, hi, hj, e⟩; exact ⟨i, hi, j, hj, e⟩

theorem maxi_maj {l : List ℝ} {x : ℝ} (hx : x ∈ l) : x ≤ maxi l := by
  have : ∀ (t : List ℝ) (a : ℝ), a ≤ t.foldl max a ∧ ∀ y ∈ t, y ≤ t.foldl max a := by
    intro t
    induction t with
    | nil => intro a; simp
    | cons b t ih =>
      intro a
      obtain ⟨h1, h2⟩ := ih (max a b)
      refine ⟨le_trans (le_max_left _ _) h1, ?_⟩
      intro y hy
      rcases List.mem_cons.mp hy with rfl | hy
      · exact le_trans (le_max_right _ _) h1
      · exact h2 y hy
  cases l with
  | nil => simp at hx
  | cons a t =>
    rcases List.mem_cons.mp hx with rfl | hx
    · exact (this t _).1
    · exact (this t a).2 x hx

/-- **C218, normalization.** For a table that is not constant the normalized values are in `[0, 1]`, in the same order, and both 0 and 1 are reached. -/
theorem C218_normalise (Z : Table) (i0 j0 i1 j1 : ℕ) (hi0 : i0 < Z.rows) (hj0 : j0 < Z.cols) (hi1 : i1 < Z.rows) (hj1 : j1 < Z.cols) (hd : Z.val i0 j0 ≠ Z.val i1 j1) :
    ∃ N, normalise Z = some N ∧ N.rows = Z.rows ∧ N.cols = Z.cols ∧
      (∀ i j, i < Z.rows → j < Z.cols → 0 ≤ N.val i j ∧ N.val i j ≤ 1) ∧
      (∀ i j k m, N.val i j ≤ N.val k m ↔ Z.val i j ≤ Z.val k m) ∧
      (∃ i j, i < Z.rows ∧ j < Z.cols ∧ N.val i j = 0) ∧ (∃ i j, i < Z.rows ∧ j < Z.cols ∧ N.val i j = 1) := by
  have m0 : Z.val i0 j0 ∈ valeurs Z := (mem_valeurs _ _).mpr ⟨i0, j0, hi0, hj0, rfl⟩
  have m1 : Z.val i1 j1 ∈ valeurs Z := (mem_valeurs _ _).mpr ⟨i1, j1, hi1, hj1, rfl⟩
  have hne : valeurs Z ≠ [] := List.ne_nil_of_mem m0
  have hlt : mini (valeurs Z) < maxi (valeurs Z) := by
    rcases lt_or_gt_of_ne hd with h | h
    · exact lt_of_le_of_lt (mini_le m0) (lt_of_lt_of_le h (maxi_maj m1))
    · exact lt_of_le_of_lt (mini_le m1) (lt_of_lt_of_le h (maxi_maj m0))
  have hp : 0 < maxi (valeurs Z) - mini (valeurs Z) := by linarith
  refine ⟨{ Z with val := fun (i j : ℕ) => (Z.val i j - mini (valeurs Z)) / (maxi (valeurs Z) - mini (valeurs Z)) }, by unfold normalise; rw [if_neg (ne_of_gt hlt)], rfl, rfl, ?_, ?_, ?_, ?_⟩
  · intro i j hi hj
    have m : Z.val i j ∈ valeurs Z := (mem_valeurs _ _).mpr ⟨i, j, hi, hj, rfl⟩
    have := mini_le m
    have := maxi_maj m
    simp only
    exact ⟨div_nonneg (by linarith) hp.le, by rw [div_le_one hp]; linarith⟩
  · intro i j k m
    simp only
    rw [div_le_div_iff_of_pos_right hp]
    constructor <;> intro h <;> linarith
  · obtain ⟨i, j, hi, hj, e⟩ := (mem_valeurs _ _).mp (mini_mem hne)
    exact ⟨i, j, hi, hj, by simp only [e]; simp⟩
  · obtain ⟨i, j, hi, hj, e⟩ := (mem_valeurs _ _).mp (maxi_mem hne)
    exact ⟨i, j, hi, hj, by simp only [e]; exact div_self hp.ne'⟩

/-- Refuted: any table is displayed. Constant values: division of zero by zero, unless the format says not to normalize. -/
theorem C218_constante_refute (Z : Table) (v : ℝ) (hr : 0 < Z.rows) (hc : 0 < Z.cols) (h : ∀ i j, i < Z.rows → j < Z.cols → Z.val i j = v) : normalise Z = none := by
  have m0 : Z.val 0 0 ∈ valeurs Z := (mem_valeurs _ _).mpr ⟨0, 0, hr, hc, rfl⟩
  have hne : valeurs Z ≠ [] := List.ne_nil_of_mem m0
  obtain ⟨i, j, hi, hj, e⟩ := (mem_valeurs _ _).mp (mini_mem hne)
  obtain ⟨i', j', hi', hj', e'⟩ := (mem_valeurs _ _).mp (maxi_mem hne)
  unfold normalise
  rw [if_pos (by rw [← e, ← e', h i j hi hj, h i' j' hi' hj'])]

theorem mini_affine (l : List ℝ) (hl : l ≠ []) (a b : ℝ) (ha : 0 < a) : mini (l.map (fun x => a * x + b)) = a * mini l + b := by
  apply le_antisymm
  · exact mini_le (List.mem_map.mpr ⟨mini l, mini_mem hl, rfl⟩)
  · obtain ⟨x, hx, e⟩ := List.mem_map.mp (mini_mem (l := l.map (fun x => a * x + b)) (by simpa using hl))
    rw [← e]
    have := mini_le hx
    nlinarith

theorem maxi_affine (l : List ℝ) (hl : l ≠ []) (a b : ℝ) (ha : 0 < a) : maxi (l.map (fun x => a * x + b)) = a * maxi l + b := by
  apply le_antisymm
  · obtain ⟨x, hx, e⟩ := List.mem_map.mp (maxi_mem (l := l.map (fun x => a * x + b)) (by simpa using hl))
    rw [← e]
    have := maxi_maj hx
    nlinarith
  · exact maxi_maj (List.mem_map.mpr ⟨maxi l, maxi_mem hl, rfl⟩)

/-- **C218, invariance.** The image does not depend on the unit nor on the origin of the values: `a Z + b`, `a > 0`, is drawn like `Z`. -/
theorem C218_affine {γ : Type} (carte : String → ℝ → γ) (champs : List String) (hn : (options champs).2 = true) (c : Cadre) (Z : Table) (hr : 0 < Z.rows) (hc : 0 < Z.cols) (a b : ℝ) (ha : 0 < a) :
    image carte champs c { Z with val := fun i j => a * Z.val i j + b } = image carte champs c Z := by
  have hne : valeurs Z ≠ [] := List.ne_nil_of_mem ((mem_valeurs _ _).mpr ⟨0, 0, hr, hc, rfl⟩)
  have hv : valeurs { Z with val := fun i j => a * Z.val i j + b } = (valeurs Z).map (fun x => a * x + b) := by
    unfold valeurs
    rw [List.map_flatMap]
    simp only [List.map_map]
    rfl
  have hN : normalise { Z with val := fun i j => a * Z.val i j + b } = normalise Z := by
    unfold normalise
    rw [hv, mini_affine _ hne a b ha, maxi_affine _ hne a b ha]
    by_cases h : maxi (valeurs Z) = mini (valeurs Z)
    · rw [if_pos (by rw [h]), if_pos h]
    · rw [if_neg (by intro h'; apply h; have := add_right_cancel h'; exact mul_left_cancel₀ ha.ne' this), if_neg h]
      congr 2
      funext i j
      have h1 : maxi (valeurs Z) - mini (valeurs Z) ≠ 0 := sub_ne_zero.mpr h
      rw [show a * Z.val i j + b - (a * mini (valeurs Z) + b) = a * (Z.val i j - mini (valeurs Z)) by ring, show a * maxi (valeurs Z) + b - (a * mini (valeurs Z) + b) = a * (maxi (valeurs Z) - mini (valeurs Z)) by ring]
      rw [mul_div_mul_left _ _ ha.ne']
  unfold image
  rw [if_pos hn, if_pos hn, hN]

/-- **C218, format.** `"carte"` normalizes, `"carte,o"` leaves the values as they are; both use the map of that name. -/
theorem C218_options (n : String) : options [n] = (n, true) ∧ options [n, "o"] = (n, false) := by
  simp [options]

/-- Refuted: an empty format gives the default map. The text `""` has one, empty, field, which is not a known map. -/
theorem C218_vide_refute (t : ℝ) : options [""] = ("", true) ∧ Cmap.carte (options [""]).1 t = none := by
  have h : options [""] = ("", true) := by simp [options]
  refine ⟨h, ?_⟩
  rw [h]
  exact Cmap.C190_inconnue "" t (by decide)

/-- **C218, non-normalized image.** With the option `o` the colours are those of the values themselves. -/
theorem C218_brut {γ : Type} (carte : String → ℝ → γ) (n : String) (c : Cadre) (Z : Table) : image carte [n, "o"] c Z = plotCmap (carte n) c Z := by
  unfold image
  rw [if_neg (by simp [options])]
  simp [options]

/-- Non-vacuity: a table that is not constant is drawn, with the two extreme colours. -/
example : ∃ l, image (fun _ t => t) ["jet"] { x := 0, y := 0, l := 1, h := 1 } { rows := 2, cols := 2, val := fun i j => 3 * (i : ℝ) + j } = some l ∧ l.length = 4 := by
  obtain ⟨N, hN, r1, r2, -⟩ := C218_normalise { rows := 2, cols := 2, val := fun i j => 3 * (i : ℝ) + j } 0 0 1 0 (by decide) (by decide) (by decide) (by decide) (by norm_num)
  obtain ⟨l, hl, hlen, -⟩ := C218_cases (fun t : ℝ => t) { x := 0, y := 0, l := 1, h := 1 } N (by rw [r1]) (by rw [r2])
  refine ⟨l, ?_, by simp only [hlen, r1, r2]⟩
  unfold image
  rw [if_pos (by rw [(C218_options "jet").1]), hN]
  exact hl

end Verif.FigureImage
