import Mathlib.Data.Real.Basic
import Mathlib.Data.List.Basic
import Mathlib.Data.List.GetD
import Mathlib.Tactic.Linarith
import Mathlib.Tactic.FieldSimp
import Mathlib.Tactic.NormNum
import Mathlib.Tactic.Positivity
import Mathlib.Tactic.Ring

/-!
# C213: the region displayed by a figure (core/src/vue/figure.cc:231-457, 1122-1136)

Exact arithmetic instead of `float`. A value of a curve that is not a finite number is `none`; the abscissas are finite numbers.
-/

namespace Verif.FigureRegion

/-! ## Model -/

/-- `Trait`, core/include/tsd/vue.hpp:94-97. -/
inductive Trait where
  | aucun | ligne | dotted | baton | histo | minmax
deriving DecidableEq

/-- The region of a figure (`xmin`, `ymin`, `xmax`, `ymax`), core/src/vue/figure.cc:194. -/
structure Boite where
  xmin : ℝ
  ymin : ℝ
  xmax : ℝ
  ymax : ℝ

/-- The image drawn by a curve: dimensions of `Z` and region `rdi_z`, core/src/vue/figure.cc:138, 143. -/
structure Surface where
  rows : ℕ
  cols : ℕ
  x : ℝ
  y : ℝ
  l : ℝ
  h : ℝ

/-- `Figure::Courbe::Impl`, core/src/vue/figure.cc:132-160 (the fields that matter for the region). -/
structure Courbe where
  x : List ℝ
  y : List (Option ℝ)
  sigma : List ℝ
  trait : Trait
  Z : Option Surface

/-- Local variables of the loop over the ordinates, core/src/vue/figure.cc:252-253. -/
structure Acc where
  mn : ℝ
  mx : ℝ
  fmin : Bool
  fmax : Bool

/-- Upper end of the error bar, core/src/vue/figure.cc:262-263. -/
def haut (y s : ℝ) : ℝ := y + s

/-- Lower end of the error bar, core/src/vue/figure.cc:263-271: symmetrical in logarithmic scale (`10^(2 log y - log y1) = y² / y1`, replaced by 0 when `y1` is not positive). -/
noncomputable def bas (log : Bool) (y s : ℝ) : ℝ :=
  if log then (if 0 < y + s then y ^ 2 / (y + s) else 0) else y - s

/-- One turn of the loop over the ordinates, core/src/vue/figure.cc:255-285. -/
noncomputable def tourY (log : Bool) (a : Acc) (p : Option ℝ × ℝ) : Acc :=
  match p.1 with
  | none => a
  | some y =>
    if log = false ∨ y > 0 then
      let y1 := haut y p.2
      let y2 := bas log y p.2
      let a1 := if log = false ∨ y2 > 0 then (if a.fmin = true ∨ y2 < a.mn then { a with mn := y2, fmin := false } else a) else a
      if log = false ∨ y1 > 0 then (if a1.fmax = true ∨ y1 > a1.mx then { a1 with mx := y1, fmax := false } else a1) else a1
    else a

/-- The ordinates with their deviation (0 without deviations), core/src/vue/figure.cc:255-262. -/
def ordonnees (c : Courbe) : List (Option ℝ × ℝ) := c.y.mapIdx (fun (i : ℕ) (y : Option ℝ) => (y, c.sigma.getD i 0))

/-- The loop, core/src/vue/figure.cc:252-285. -/
noncomputable def boucleY (log : Bool) (c : Courbe) : Acc := (ordonnees c).foldl (tourY log) { mn := 0, mx := 0, fmin := true, fmax := true }

/-- `valeur_min()` of a non-empty vector (0 by convention otherwise, never used), core/src/vue/figure.cc:294-302. -/
def mini (l : List ℝ) : ℝ := match l with
  | [] => 0
  | a :: t => t.foldl min a

/-- `valeur_max()`, core/src/vue/figure.cc:294-302. -/
def maxi (l : List ℝ) : ℝ := match l with
  | [] => 0
  | a :: t => t.foldl max a

/-- The region of an image, core/src/vue/figure.cc:239-247 (at least 2 rows and 2 columns, otherwise the region is not a finite one). -/
noncomputable def boiteZ (z : Surface) : Boite :=
  { xmin := z.x - 1 / 2 * z.l / (z.rows - 1), ymin := z.y - 1 / 2 * z.h / (z.cols - 1), xmax := z.x + z.l + 1 / 2 * z.l / (z.rows - 1), ymax := z.y + z.h + 1 / 2 * z.h / (z.cols - 1) }

/-- Lowest ordinate of a curve, 0 included for the bars, core/src/vue/figure.cc:287-288. -/
noncomputable def basCourbe (log : Bool) (c : Courbe) : ℝ :=
  if c.trait = .histo ∨ c.trait = .baton then min (boucleY log c).mn 0 else (boucleY log c).mn

/-- One curve, core/src/vue/figure.cc:235-323. -/
noncomputable def tourCourbe (log : Bool) (b : Boite) (premiere : Bool) (c : Courbe) : Boite :=
  let b1 := match c.Z with
    | some z => boiteZ z
    | none => b
  let b2 : Boite := if c.x.isEmpty = true then b1
    else if premiere then { xmin := mini c.x, ymin := basCourbe log c, xmax := maxi c.x, ymax := (boucleY log c).mx }
    else { xmin := min b1.xmin (mini c.x), ymin := min b1.ymin (basCourbe log c), xmax := max b1.xmax (maxi c.x), ymax := max b1.ymax (boucleY log c).mx }
  if c.trait = .baton then
    let ymin' := min b2.ymin (b2.ymax / 10)
    { b2 with ymin := ymin', ymax := max b2.ymax (ymin' / 10) }
  else b2

/-- The loop over the curves that follow the first one, core/src/vue/figure.cc:235-324. -/
noncomputable def tourSuite (log : Bool) (b : Boite) (l : List Courbe) : Boite := l.foldl (fun (b : Boite) (c : Courbe) => tourCourbe log b false c) b

/-- The loop over the curves, core/src/vue/figure.cc:235-324. -/
noncomputable def boucle (log : Bool) (b : Boite) : List Courbe → Boite
  | [] => b
  | c :: l => tourSuite log (tourCourbe log b true c) l

/-- The fields of `Figure::Impl` that give the region, core/src/vue/figure.cc:175-194. `r*` is `rm_rdi`. -/
structure Fig where
  courbes : List Courbe
  aMin : Bool
  aRdi : Bool
  rx : ℝ
  ry : ℝ
  rl : ℝ
  rh : ℝ
  log : Bool

/-- A region of zero width, core/src/vue/figure.cc:358-370. -/
noncomputable def elargitX (b : Boite) : Boite :=
  if b.xmax = b.xmin then
    (if b.xmax = 0 then { b with xmin := b.xmin - 1, xmax := b.xmax + 1 }
     else { b with xmin := b.xmin - 1 / 10 * b.xmin, xmax := b.xmax + 1 / 10 * b.xmax })
  else b

/-- A region of zero height, core/src/vue/figure.cc:371-383. -/
noncomputable def elargitY (b : Boite) : Boite :=
  if b.ymax = b.ymin then
    (if b.ymax = 0 then { b with ymin := b.ymin - 1, ymax := b.ymax + 1 }
     else { b with ymin := b.ymin - 1 / 10 * |b.ymin|, ymax := b.ymax + 1 / 10 * |b.ymax| })
  else b

/-- The requested regions, core/src/vue/figure.cc:326-349. -/
noncomputable def requis (f : Fig) (b : Boite) : Boite :=
  let r : Boite := { xmin := f.rx, ymin := f.ry, xmax := f.rx + f.rl, ymax := f.ry + f.rh }
  let b1 := if f.courbes.isEmpty = true then r else b
  if f.aMin then { xmin := min b1.xmin r.xmin, ymin := min b1.ymin r.ymin, xmax := max b1.xmax r.xmax, ymax := max b1.ymax r.ymax }
  else if f.aRdi then r
  else b1

/-- `calc_minmax`, core/src/vue/figure.cc:231-386; `b` is the region left by the previous rendering. -/
noncomputable def calcMinmax (f : Fig) (b : Boite) : Boite := elargitY (elargitX (requis f (boucle f.log b f.courbes)))

/-- `extension_rdi`, core/src/vue/figure.cc:387-442, for linear axes, `dx` and `dy` being the margins (0.1, or 0.02 for a hidden axis) and `titre` the additional margin of the title (0.15 or 0). -/
noncomputable def extension (dx dy titre : ℝ) (b : Boite) : Boite :=
  let lx := if b.xmax - b.xmin ≤ 0 then 1 else b.xmax - b.xmin
  let ly := if b.ymax - b.ymin ≤ 0 then 1 else b.ymax - b.ymin
  { xmin := b.xmin - lx * dx, ymin := b.ymin - ly * dy, xmax := b.xmax + lx * dx, ymax := b.ymax + ly * (dy + titre) }

/-- `rendre00`, core/src/vue/figure.cc:444-453. -/
noncomputable def region (dx dy titre : ℝ) (f : Fig) (b : Boite) : Boite :=
  if f.aRdi then calcMinmax f b else extension dx dy titre (calcMinmax f b)

/-- `Figure::def_rdi_min`, core/src/vue/figure.cc:1122-1127. -/
def defRdiMin (f : Fig) (x y l h : ℝ) : Fig := { f with aMin := true, rx := x, ry := y, rl := l, rh := h }

/-- `Figure::def_rdi`, core/src/vue/figure.cc:1130-1134. -/
def defRdi (f : Fig) (x y l h : ℝ) : Fig := { f with aRdi := true, rx := x, ry := y, rl := l, rh := h }

/-- `Figure::plot_minmax`, core/src/vue/figure.cc:1141-1156: a band between `y1` and `y2`; the ordinates used for the region are the middles. -/
noncomputable def plotMinmax (x y1 y2 : List ℝ) : Courbe :=
  { x := x, y := List.zipWith (fun (a b : ℝ) => some ((a + b) / 2)) y1 y2, sigma := [], trait := .minmax, Z := none }

/-! ## Specification -/

/-- All the abscissas of the curve are in the region. -/
def VoitX (b : Boite) (c : Courbe) : Prop := ∀ x ∈ c.x, b.xmin ≤ x ∧ x ≤ b.xmax

/-- All the finite ordinates of the curve (the positive ones in logarithmic scale) are in the region, with their error bars. -/
def VoitY (log : Bool) (b : Boite) (c : Courbe) : Prop :=
  ∀ (i : ℕ) (y : ℝ), c.y[i]? = some (some y) → (log = true → 0 < y) →
    b.ymin ≤ y ∧ y + c.sigma.getD i 0 ≤ b.ymax ∧ y ≤ b.ymax ∧ (log = false → b.ymin ≤ y - c.sigma.getD i 0)

/-- A curve made by `plot`: at least one point, no image, deviations not negative. -/
def Trace (c : Courbe) : Prop := c.x ≠ [] ∧ c.Z = none ∧ ∀ s ∈ c.sigma, 0 ≤ s

/-- `b'` is at least as large as `b`. -/
def Inclus (b b' : Boite) : Prop := b'.xmin ≤ b.xmin ∧ b'.ymin ≤ b.ymin ∧ b.xmax ≤ b'.xmax ∧ b.ymax ≤ b'.ymax

/-! ## The loop over the ordinates -/

theorem sigma_pos {c : Courbe} (h : ∀ s ∈ c.sigma, 0 ≤ s) (i : ℕ) : 0 ≤ c.sigma.getD i 0 := by
  rcases lt_or_ge i c.sigma.length with hi | hi
  · rw [List.getD_eq_getElem _ _ hi]; exact h _ (List.getElem_mem hi)
  · rw [List.getD_eq_default _ _ hi]

theorem bas_pos {y s : ℝ} (hy : 0 < y) (hs : 0 ≤ s) : 0 < bas true y s := by
  have : 0 < y + s := by linarith
  simp only [bas, if_true, this]
  positivity

theorem bas_le {log : Bool} {y s : ℝ} (hy : log = true → 0 < y) (hs : 0 ≤ s) : bas log y s ≤ y := by
  cases log with
  | false => simp [bas]; exact hs
  | true =>
    have h0 := hy rfl
    have : 0 < y + s := by linarith
    simp only [bas, if_true, this]
    rw [div_le_iff₀ this]
    nlinarith

/-- One turn keeps the bounds reached, and adds the point. -/
theorem tourY_min (log : Bool) (a : Acc) (p : Option ℝ × ℝ) (ha : a.fmin = a.fmax) (hs : 0 ≤ p.2) :
    (tourY log a p).fmin = (tourY log a p).fmax ∧
    (a.fmin = false → (tourY log a p).fmin = false ∧ (tourY log a p).mn ≤ a.mn ∧ a.mx ≤ (tourY log a p).mx) ∧
    (∀ y, p.1 = some y → (log = true → 0 < y) → (tourY log a p).fmin = false ∧ (tourY log a p).mn ≤ bas log y p.2 ∧ y + p.2 ≤ (tourY log a p).mx) := by
  obtain ⟨q, s⟩ := p
  obtain ⟨mn, mx, f1, f2⟩ := a
  simp only at ha hs
  subst ha
  cases q with
  | none => simp [tourY]
  | some y =>
    by_cases hy : log = false ∨ y > 0
    · have hlog : log = true → 0 < y := by rcases hy with h | h <;> simp_all
      have h2 : log = false ∨ bas log y s > 0 := by
        cases log with
        | false => exact Or.inl rfl
        | true => exact Or.inr (bas_pos (hlog rfl) hs)
      have h1 : log = false ∨ haut y s > 0 := by
        cases log with
        | false => exact Or.inl rfl
        | true => right; have := hlog rfl; simp only [haut]; linarith
      simp only [tourY, if_pos hy, if_pos h1, if_pos h2]
      cases f1 with
      | true =>
        simp only [true_or, if_true]
        refine ⟨by trivial, by simp, ?_⟩
        intro y' hy' _
        obtain rfl : y = y' := by simpa using hy'
        exact ⟨by trivial, le_refl _, le_refl _⟩
      | false =>
        have e : ∀ P : Prop, (false = true ∨ P) = P := by intro P; simp
        simp only [e]
        by_cases hA : bas log y s < mn
        · simp only [hA, if_true]
          by_cases hB : haut y s > mx
          · simp only [e, hB, if_true]
            refine ⟨by trivial, fun _ => ⟨by trivial, hA.le, hB.le⟩, ?_⟩
            intro y' hy' _
            obtain rfl : y = y' := by simpa using hy'
            exact ⟨by trivial, le_refl _, le_refl _⟩
          · simp only [e, hB, if_false]
            refine ⟨by trivial, fun _ => ⟨by trivial, hA.le, le_refl _⟩, ?_⟩
            intro y' hy' _
            obtain rfl : y = y' := by simpa using hy'
            exact ⟨by trivial, le_refl _, by simp only [haut] at hB; linarith⟩
        · simp only [hA, if_false]
          by_cases hB : haut y s > mx
          · simp only [e, hB, if_true]
            refine ⟨by trivial, fun _ => ⟨by trivial, le_refl _, hB.le⟩, ?_⟩
            intro y' hy' _
            obtain rfl : y = y' := by simpa using hy'
            exact ⟨by trivial, not_lt.mp hA, le_refl _⟩
          · simp only [e, hB, if_false]
            refine ⟨by trivial, fun _ => ⟨by trivial, le_refl _, le_refl _⟩, ?_⟩
            intro y' hy' _
            obtain rfl : y = y' := by simpa using hy'
            exact ⟨by trivial, not_lt.mp hA, by simp only [haut] at hB; linarith⟩
    · simp only [tourY, if_neg hy]
      refine ⟨by trivial, fun h => ⟨h, le_refl _, le_refl _⟩, ?_⟩
      intro y' hy' hl
      obtain rfl : y = y' := by simpa using hy'
      exfalso
      apply hy
      cases log with
      | false => exact Or.inl rfl
      | true => exact Or.inr (hl rfl)

theorem foldY (log : Bool) (l : List (Option ℝ × ℝ)) (hl : ∀ p ∈ l, 0 ≤ p.2) : ∀ a : Acc, a.fmin = a.fmax →
    (a.fmin = false → (l.foldl (tourY log) a).mn ≤ a.mn ∧ a.mx ≤ (l.foldl (tourY log) a).mx) ∧
    (∀ p ∈ l, ∀ y, p.1 = some y → (log = true → 0 < y) → (l.foldl (tourY log) a).mn ≤ bas log y p.2 ∧ y + p.2 ≤ (l.foldl (tourY log) a).mx) := by
  induction l with
  | nil => intro a _; exact ⟨fun _ => ⟨le_refl _, le_refl _⟩, by simp⟩
  | cons q t ih =>
    intro a ha
    obtain ⟨h1, h2, h3⟩ := tourY_min log a q ha (hl q (by simp))
    obtain ⟨i1, i2⟩ := ih (fun p hp => hl p (by simp [hp])) (tourY log a q) h1
    simp only [List.foldl_cons]
    constructor
    · intro hf
      obtain ⟨j1, j2, j3⟩ := h2 hf
      obtain ⟨k1, k2⟩ := i1 j1
      exact ⟨k1.trans j2, j3.trans k2⟩
    · intro p hp y hy hlog
      rcases List.mem_cons.mp hp with rfl | hp
      · obtain ⟨j1, j2, j3⟩ := h3 y hy hlog
        obtain ⟨k1, k2⟩ := i1 j1
        exact ⟨k1.trans j2, j3.trans k2⟩
      · exact i2 p hp y hy hlog

theorem boucleY_voit (log : Bool) (c : Courbe) (hs : ∀ s ∈ c.sigma, 0 ≤ s) (i : ℕ) (y : ℝ) (hy : c.y[i]? = some (some y)) (hl : log = true → 0 < y) :
    (boucleY log c).mn ≤ bas log y (c.sigma.getD i 0) ∧ y + c.sigma.getD i 0 ≤ (boucleY log c).mx := by
  have hall : ∀ p ∈ ordonnees c, 0 ≤ p.2 := by
    intro p hp
    obtain ⟨j, hj, rfl⟩ := List.mem_iff_getElem.mp hp
    simp only [ordonnees, List.getElem_mapIdx]
    exact sigma_pos hs j
  have hmem : (some y, c.sigma.getD i 0) ∈ ordonnees c := by
    have hi : i < c.y.length := by
      by_contra h; rw [List.getElem?_eq_none (by omega)] at hy; simp at hy
    rw [List.getElem?_eq_getElem hi] at hy
    rw [List.mem_iff_getElem]
    refine ⟨i, by simpa [ordonnees] using hi, ?_⟩
    simp only [ordonnees, List.getElem_mapIdx]
    rw [Option.some.inj hy]
  exact (foldY log (ordonnees c) hall _ rfl).2 _ hmem y rfl hl

theorem foldl_min_le (l : List ℝ) : ∀ a : ℝ, l.foldl min a ≤ a ∧ ∀ x ∈ l, l.foldl min a ≤ x := by
  induction l with
  | nil => intro a; simp
  | cons b t ih =>
    intro a
    obtain ⟨h1, h2⟩ := ih (min a b)
    simp only [List.foldl_cons]
    refine ⟨h1.trans (min_le_left _ _), ?_⟩
    intro x hx
    rcases List.mem_cons.mp hx with rfl | hx
    · exact h1.trans (min_le_right _ _)
    · exact h2 x hx

theorem le_foldl_max (l : List ℝ) : ∀ a : ℝ, a ≤ l.foldl max a ∧ ∀ x ∈ l, x ≤ l.foldl max a := by
  induction l with
  | nil => intro a; simp
  | cons b t ih =>
    intro a
    obtain ⟨h1, h2⟩ := ih (max a b)
    simp only [List.foldl_cons]
    refine ⟨(le_max_left _ _).trans h1, ?_⟩
    intro x hx
    rcases List.mem_cons.mp hx with rfl | hx
    · exact (le_max_right _ _).trans h1
    · exact h2 x hx

theorem mini_le {l : List ℝ} {x : ℝ} (hx : x ∈ l) : mini l ≤ x := by
  cases l with
  | nil => simp at hx
  | cons a t =>
    rcases List.mem_cons.mp hx with rfl | hx
    · exact (foldl_min_le t x).1
    · exact (foldl_min_le t a).2 x hx

theorem le_maxi {l : List ℝ} {x : ℝ} (hx : x ∈ l) : x ≤ maxi l := by
  cases l with
  | nil => simp at hx
  | cons a t =>
    rcases List.mem_cons.mp hx with rfl | hx
    · exact (le_foldl_max t x).1
    · exact (le_foldl_max t a).2 x hx

/-! ## The loop over the curves -/

theorem inclus_refl (b : Boite) : Inclus b b := ⟨le_refl _, le_refl _, le_refl _, le_refl _⟩

theorem inclus_trans {a b c : Boite} (h : Inclus a b) (h' : Inclus b c) : Inclus a c :=
  ⟨h'.1.trans h.1, h'.2.1.trans h.2.1, h.2.2.1.trans h'.2.2.1, h.2.2.2.trans h'.2.2.2⟩

theorem voitX_inclus {a b : Boite} {c : Courbe} (h : Inclus a b) (hv : VoitX a c) : VoitX b c :=
  fun x hx => ⟨h.1.trans (hv x hx).1, (hv x hx).2.trans h.2.2.1⟩

theorem voitY_inclus {log : Bool} {a b : Boite} {c : Courbe} (h : Inclus a b) (hv : VoitY log a c) : VoitY log b c := by
  intro i y hy hl
  obtain ⟨h1, h2, h3, h4⟩ := hv i y hy hl
  exact ⟨h.2.1.trans h1, h2.trans h.2.2.2, h3.trans h.2.2.2, fun e => h.2.1.trans (h4 e)⟩

/-- The region of one curve alone. -/
noncomputable def boiteC (log : Bool) (c : Courbe) : Boite :=
  { xmin := mini c.x, ymin := basCourbe log c, xmax := maxi c.x, ymax := (boucleY log c).mx }

theorem basCourbe_le (log : Bool) (c : Courbe) : basCourbe log c ≤ (boucleY log c).mn := by
  unfold basCourbe
  split_ifs
  · exact min_le_left _ _
  · exact le_refl _

theorem boiteC_voit (log : Bool) (c : Courbe) (hs : ∀ s ∈ c.sigma, 0 ≤ s) : VoitX (boiteC log c) c ∧ VoitY log (boiteC log c) c := by
  constructor
  · intro x hx; exact ⟨mini_le hx, le_maxi hx⟩
  · intro i y hy hl
    obtain ⟨h1, h2⟩ := boucleY_voit log c hs i y hy hl
    have h3 := sigma_pos hs i
    have h4 := bas_le (log := log) hl h3
    have h5 := basCourbe_le log c
    refine ⟨?_, h2, ?_, ?_⟩
    · simp only [boiteC]; linarith
    · simp only [boiteC]; linarith
    · intro e
      subst e
      simp only [boiteC]
      simp only [bas, Bool.false_eq_true, if_false] at h1
      linarith

theorem baton_inclus (b2 : Boite) (c : Courbe) : Inclus b2 (if c.trait = .baton then
    { b2 with ymin := min b2.ymin (b2.ymax / 10), ymax := max b2.ymax (min b2.ymin (b2.ymax / 10) / 10) } else b2) := by
  split_ifs
  · exact ⟨le_refl _, min_le_left _ _, le_refl _, le_max_left _ _⟩
  · exact inclus_refl _

theorem tour_premiere (log : Bool) (b : Boite) (c : Courbe) (hc : Trace c) : Inclus (boiteC log c) (tourCourbe log b true c) := by
  obtain ⟨h1, h2, _⟩ := hc
  have h1' : c.x.isEmpty = false := by simpa using h1
  simp only [tourCourbe, h1', if_false, if_true, Bool.false_eq_true]
  exact baton_inclus (boiteC log c) c

theorem tour_suivante (log : Bool) (b : Boite) (c : Courbe) (hc : Trace c) :
    Inclus (boiteC log c) (tourCourbe log b false c) ∧ Inclus b (tourCourbe log b false c) := by
  obtain ⟨h1, h2, _⟩ := hc
  have e : tourCourbe log b false c = (if c.trait = .baton then
      { ({ xmin := min b.xmin (mini c.x), ymin := min b.ymin (basCourbe log c), xmax := max b.xmax (maxi c.x), ymax := max b.ymax (boucleY log c).mx } : Boite) with ymin := min (min b.ymin (basCourbe log c)) (max b.ymax (boucleY log c).mx / 10), ymax := max (max b.ymax (boucleY log c).mx) (min (min b.ymin (basCourbe log c)) (max b.ymax (boucleY log c).mx / 10) / 10) } else { xmin := min b.xmin (mini c.x), ymin := min b.ymin (basCourbe log c), xmax := max b.xmax (maxi c.x), ymax := max b.ymax (boucleY log c).mx }) := by
    have h1' : c.x.isEmpty = false := by simpa using h1
    simp only [tourCourbe, h1', h2, if_false, Bool.false_eq_true]
  have hb := baton_inclus { xmin := min b.xmin (mini c.x), ymin := min b.ymin (basCourbe log c), xmax := max b.xmax (maxi c.x), ymax := max b.ymax (boucleY log c).mx } c
  rw [e]
  constructor
  · exact inclus_trans ⟨min_le_right _ _, min_le_right _ _, le_max_right _ _, le_max_right _ _⟩ hb
  · exact inclus_trans ⟨min_le_left _ _, min_le_left _ _, le_max_left _ _, le_max_left _ _⟩ hb

theorem suite_inclus (log : Bool) (l : List Courbe) (hl : ∀ c ∈ l, Trace c) : ∀ b : Boite,
    Inclus b (tourSuite log b l) ∧ ∀ c ∈ l, Inclus (boiteC log c) (tourSuite log b l) := by
  induction l with
  | nil => intro b; exact ⟨inclus_refl _, by simp⟩
  | cons d t ih =>
    intro b
    obtain ⟨h1, h2⟩ := tour_suivante log b d (hl d (by simp))
    obtain ⟨i1, i2⟩ := ih (fun c hc => hl c (by simp [hc])) (tourCourbe log b false d)
    have e : tourSuite log b (d :: t) = tourSuite log (tourCourbe log b false d) t := rfl
    rw [e]
    refine ⟨inclus_trans h2 i1, ?_⟩
    intro c hc
    rcases List.mem_cons.mp hc with rfl | hc
    · exact inclus_trans h1 i1
    · exact i2 c hc

theorem boucle_inclus (log : Bool) (b : Boite) (l : List Courbe) (hl : ∀ c ∈ l, Trace c) : ∀ c ∈ l, Inclus (boiteC log c) (boucle log b l) := by
  cases l with
  | nil => simp
  | cons d t =>
    obtain ⟨i1, i2⟩ := suite_inclus log t (fun c hc => hl c (by simp [hc])) (tourCourbe log b true d)
    intro c hc
    rcases List.mem_cons.mp hc with rfl | hc
    · exact inclus_trans (tour_premiere log b c (hl c (by simp))) i1
    · exact i2 c hc

/-! ## The whole computation -/

theorem requis_inclus (f : Fig) (b : Boite) (hc : f.courbes ≠ []) (ha : f.aRdi = false) : Inclus b (requis f b) := by
  have hc' : f.courbes.isEmpty = false := by simpa using hc
  simp only [requis, hc', if_false, ha, Bool.false_eq_true]
  split_ifs
  · exact ⟨min_le_left _ _, min_le_left _ _, le_max_left _ _, le_max_left _ _⟩
  · exact inclus_refl _

theorem elargitY_inclus (b : Boite) : Inclus b (elargitY b) := by
  unfold elargitY
  split_ifs
  · exact ⟨le_refl _, by simp only; linarith, le_refl _, by simp only; linarith⟩
  · have := abs_nonneg b.ymin
    have := abs_nonneg b.ymax
    exact ⟨le_refl _, by simp only; linarith, le_refl _, by simp only; linarith⟩
  · exact inclus_refl _

theorem elargitX_y (b : Boite) : (elargitX b).ymin = b.ymin ∧ (elargitX b).ymax = b.ymax := by
  unfold elargitX
  split_ifs <;> exact ⟨rfl, rfl⟩

theorem elargitY_x (b : Boite) : (elargitY b).xmin = b.xmin ∧ (elargitY b).xmax = b.xmax := by
  unfold elargitY
  split_ifs <;> exact ⟨rfl, rfl⟩

theorem extension_inclus (dx dy t : ℝ) (hx : 0 ≤ dx) (hy : 0 ≤ dy) (ht : 0 ≤ t) (b : Boite) : Inclus b (extension dx dy t b) := by
  have h1 : 0 ≤ (if b.xmax - b.xmin ≤ 0 then 1 else b.xmax - b.xmin) := by split_ifs <;> linarith
  have h2 : 0 ≤ (if b.ymax - b.ymin ≤ 0 then 1 else b.ymax - b.ymin) := by split_ifs <;> linarith
  simp only [extension]
  refine ⟨?_, ?_, ?_, ?_⟩ <;> simp only
  · have := mul_nonneg h1 hx; linarith
  · have := mul_nonneg h2 hy; linarith
  · have := mul_nonneg h1 hx; linarith
  · have := mul_nonneg h2 (by linarith : 0 ≤ dy + t); linarith

/-- **C213** (vertically, nothing is cut): without a region imposed by the user, every finite ordinate of every curve, with its error bar, is in the region, whatever the region left by the previous rendering. -/
theorem C213_vertical (f : Fig) (b : Boite) (ha : f.aRdi = false) (hl : ∀ c ∈ f.courbes, Trace c)
    (dx dy t : ℝ) (hx : 0 ≤ dx) (hy : 0 ≤ dy) (ht : 0 ≤ t) :
    ∀ c ∈ f.courbes, VoitY f.log (calcMinmax f b) c ∧ VoitY f.log (region dx dy t f b) c := by
  intro c hc
  have hne : f.courbes ≠ [] := by intro h; rw [h] at hc; simp at hc
  have h1 := boucle_inclus f.log b f.courbes hl c hc
  have h2 := inclus_trans h1 (requis_inclus f _ hne ha)
  have h3 := (boiteC_voit f.log c (hl c hc).2.2).2
  have h4 := voitY_inclus h2 h3
  have h5 : VoitY f.log (elargitX (requis f (boucle f.log b f.courbes))) c := by
    obtain ⟨e1, e2⟩ := elargitX_y (requis f (boucle f.log b f.courbes))
    intro i y hy' hl'
    rw [e1, e2]
    exact h4 i y hy' hl'
  have h6 := voitY_inclus (elargitY_inclus _) h5
  refine ⟨h6, ?_⟩
  simp only [region, ha, Bool.false_eq_true, if_false]
  exact voitY_inclus (extension_inclus dx dy t hx hy ht _) h6

/-- **C213** (horizontally, nothing is cut): under the same conditions, every abscissa is in the region, provided the abscissas (and the minimal region) are not all equal to one same negative number. -/
theorem C213_horizontal (f : Fig) (b : Boite) (ha : f.aRdi = false) (hl : ∀ c ∈ f.courbes, Trace c)
    (hok : (requis f (boucle f.log b f.courbes)).xmin ≠ (requis f (boucle f.log b f.courbes)).xmax ∨ 0 ≤ (requis f (boucle f.log b f.courbes)).xmin)
    (dx dy t : ℝ) (hx : 0 ≤ dx) (hy : 0 ≤ dy) (ht : 0 ≤ t) :
    ∀ c ∈ f.courbes, VoitX (calcMinmax f b) c ∧ VoitX (region dx dy t f b) c := by
  intro c hc
  have hne : f.courbes ≠ [] := by intro h; rw [h] at hc; simp at hc
  have h1 := boucle_inclus f.log b f.courbes hl c hc
  have h2 := inclus_trans h1 (requis_inclus f _ hne ha)
  have h3 := (boiteC_voit f.log c (hl c hc).2.2).1
  have h4 := voitX_inclus h2 h3
  have h5 : Inclus (requis f (boucle f.log b f.courbes)) (elargitX (requis f (boucle f.log b f.courbes))) := by
    generalize requis f (boucle f.log b f.courbes) = q at *
    unfold elargitX
    split_ifs with e1 e2
    · exact ⟨by simp only; linarith, le_refl _, by simp only; linarith, le_refl _⟩
    · have : 0 ≤ q.xmin := by
        rcases hok with h | h
        · exact absurd e1.symm h
        · exact h
      exact ⟨by simp only; linarith, le_refl _, by simp only; linarith, le_refl _⟩
    · exact inclus_refl _
  have h6 := voitX_inclus (elargitY_inclus _) (voitX_inclus h5 h4)
  refine ⟨h6, ?_⟩
  simp only [region, ha, Bool.false_eq_true, if_false]
  exact voitX_inclus (extension_inclus dx dy t hx hy ht _) h6

/-- **C213** (the region is a proper one): after the computation, the height is not zero, and after the extension it is positive as soon as the highest ordinate is not below the lowest one. -/
theorem C213_hauteur (f : Fig) (b : Boite) (ha : f.aRdi = false) (dx dy t : ℝ) (hy : 0 ≤ dy) (ht : 0 ≤ t)
    (h : (requis f (boucle f.log b f.courbes)).ymin ≤ (requis f (boucle f.log b f.courbes)).ymax) :
    (calcMinmax f b).ymin < (calcMinmax f b).ymax ∧ (region dx dy t f b).ymin < (region dx dy t f b).ymax := by
  have h1 : (calcMinmax f b).ymin < (calcMinmax f b).ymax := by
    simp only [calcMinmax]
    obtain ⟨e1, e2⟩ := elargitX_y (requis f (boucle f.log b f.courbes))
    generalize hq : elargitX (requis f (boucle f.log b f.courbes)) = q at *
    rw [← e1, ← e2] at h
    unfold elargitY
    split_ifs with c1 c2
    · simp only; linarith
    · have : 0 < |q.ymax| := abs_pos.mpr c2
      have : 0 < |q.ymin| := by rw [← c1]; exact this
      simp only
      linarith
    · exact lt_of_le_of_ne h (fun e => c1 e.symm)
  refine ⟨h1, ?_⟩
  simp only [region, ha, Bool.false_eq_true, if_false, extension]
  have c : ¬ ((calcMinmax f b).ymax - (calcMinmax f b).ymin ≤ 0) := by linarith
  rw [if_neg c]
  have hp : 0 < (calcMinmax f b).ymax - (calcMinmax f b).ymin := by linarith
  have := mul_nonneg hp.le hy
  have := mul_nonneg hp.le (by linarith : 0 ≤ dy + t)
  linarith

/-- **C213** (imposed region): with `def_rdi` alone, the region is exactly the one given, if it has a width and a height. -/
theorem C213_impose (f : Fig) (b : Boite) (hm : f.aMin = false) (x y l h : ℝ) (hl : l ≠ 0) (hh : h ≠ 0) (dx dy t : ℝ) :
    region dx dy t (defRdi f x y l h) b = { xmin := x, ymin := y, xmax := x + l, ymax := y + h } := by
  have e : requis (defRdi f x y l h) (boucle f.log b f.courbes) = { xmin := x, ymin := y, xmax := x + l, ymax := y + h } := by
    simp [requis, defRdi, hm]
  have ea : (defRdi f x y l h).aRdi = true := rfl
  have e2 : calcMinmax (defRdi f x y l h) b = elargitY (elargitX { xmin := x, ymin := y, xmax := x + l, ymax := y + h }) := by
    simp only [calcMinmax]
    rw [← e]
    rfl
  simp only [region, ea, if_true, e2]
  simp [elargitX, elargitY, hl, hh]

/-- **C213** (minimal region): with `def_rdi_min`, the region given is inside the displayed one (vertically; horizontally under the condition of `C213_horizontal`). -/
theorem C213_minimale (f : Fig) (b : Boite) (ha : f.aRdi = false) (x y l h : ℝ) (hl : 0 < l) (dx dy t : ℝ) (hx : 0 ≤ dx) (hy : 0 ≤ dy) (ht : 0 ≤ t) :
    (region dx dy t (defRdiMin f x y l h) b).xmin ≤ x ∧ x + l ≤ (region dx dy t (defRdiMin f x y l h) b).xmax ∧
    (region dx dy t (defRdiMin f x y l h) b).ymin ≤ y ∧ y + h ≤ (region dx dy t (defRdiMin f x y l h) b).ymax := by
  have e0 : Inclus { xmin := x, ymin := y, xmax := x + l, ymax := y + h } (requis (defRdiMin f x y l h) (boucle f.log b f.courbes)) := by
    simp only [requis, defRdiMin, if_true]
    exact ⟨min_le_right _ _, min_le_right _ _, le_max_right _ _, le_max_right _ _⟩
  have e1 : elargitX (requis (defRdiMin f x y l h) (boucle f.log b f.courbes)) = requis (defRdiMin f x y l h) (boucle f.log b f.courbes) := by
    obtain ⟨h1, _, h3, _⟩ := e0
    unfold elargitX
    rw [if_neg]
    simp only at h1 h3
    intro hc
    linarith
  have ea : (defRdiMin f x y l h).aRdi = false := ha
  have e2 : calcMinmax (defRdiMin f x y l h) b = elargitY (requis (defRdiMin f x y l h) (boucle f.log b f.courbes)) := by
    rw [← e1]; rfl
  have e3 := inclus_trans (inclus_trans e0 (elargitY_inclus _)) (extension_inclus dx dy t hx hy ht _)
  simp only [region, ea, Bool.false_eq_true, if_false, e2]
  obtain ⟨a1, a2, a3, a4⟩ := e3
  exact ⟨a1, a3, a2, a4⟩

/-! ## The region is not larger than needed -/

theorem foldl_min_mem (l : List ℝ) : ∀ a : ℝ, l.foldl min a = a ∨ l.foldl min a ∈ l := by
  induction l with
  | nil => intro a; exact Or.inl rfl
  | cons b t ih =>
    intro a
    simp only [List.foldl_cons]
    rcases ih (min a b) with h | h
    · rw [h]
      rcases min_choice a b with e | e
      · exact Or.inl e
      · exact Or.inr (by rw [e]; simp)
    · exact Or.inr (List.mem_cons_of_mem _ h)

theorem foldl_max_mem (l : List ℝ) : ∀ a : ℝ, l.foldl max a = a ∨ l.foldl max a ∈ l := by
  induction l with
  | nil => intro a; exact Or.inl rfl
  | cons b t ih =>
    intro a
    simp only [List.foldl_cons]
    rcases ih (max a b) with h | h
    · rw [h]
      rcases max_choice a b with e | e
      · exact Or.inl e
      · exact Or.inr (by rw [e]; simp)
    · exact Or.inr (List.mem_cons_of_mem _ h)

theorem mini_mem {l : List ℝ} (h : l ≠ []) : mini l ∈ l := by
  cases l with
  | nil => exact absurd rfl h
  | cons a t =>
    rcases foldl_min_mem t a with e | e
    · simp only [mini]; rw [e]; simp
    · exact List.mem_cons_of_mem _ e

theorem maxi_mem {l : List ℝ} (h : l ≠ []) : maxi l ∈ l := by
  cases l with
  | nil => exact absurd rfl h
  | cons a t =>
    rcases foldl_max_mem t a with e | e
    · simp only [maxi]; rw [e]; simp
    · exact List.mem_cons_of_mem _ e

/-- The bounds of a turn are the previous ones or those of the point. -/
theorem tourY_atteint (log : Bool) (a : Acc) (p : Option ℝ × ℝ) :
    ((tourY log a p).fmin = a.fmin ∧ (tourY log a p).mn = a.mn ∨ ∃ y, p.1 = some y ∧ (tourY log a p).mn = bas log y p.2) ∧
    ((tourY log a p).fmax = a.fmax ∧ (tourY log a p).mx = a.mx ∨ ∃ y, p.1 = some y ∧ (tourY log a p).mx = y + p.2) := by
  obtain ⟨q, s⟩ := p
  cases q with
  | none => exact ⟨Or.inl ⟨rfl, rfl⟩, Or.inl ⟨rfl, rfl⟩⟩
  | some y =>
    simp only [tourY]
    constructor
    · split_ifs <;> first | exact Or.inl ⟨rfl, rfl⟩ | exact Or.inr ⟨y, rfl, rfl⟩
    · split_ifs <;> first | exact Or.inl ⟨rfl, rfl⟩ | exact Or.inr ⟨y, rfl, rfl⟩

theorem foldY_atteint (log : Bool) (l : List (Option ℝ × ℝ)) : ∀ a : Acc,
    ((l.foldl (tourY log) a).fmin = a.fmin ∧ (l.foldl (tourY log) a).mn = a.mn ∨ ∃ p ∈ l, ∃ y, p.1 = some y ∧ (l.foldl (tourY log) a).mn = bas log y p.2) ∧
    ((l.foldl (tourY log) a).fmax = a.fmax ∧ (l.foldl (tourY log) a).mx = a.mx ∨ ∃ p ∈ l, ∃ y, p.1 = some y ∧ (l.foldl (tourY log) a).mx = y + p.2) := by
  induction l with
  | nil => intro a; exact ⟨Or.inl ⟨rfl, rfl⟩, Or.inl ⟨rfl, rfl⟩⟩
  | cons q t ih =>
    intro a
    obtain ⟨h1, h2⟩ := tourY_atteint log a q
    obtain ⟨i1, i2⟩ := ih (tourY log a q)
    simp only [List.foldl_cons]
    constructor
    · rcases i1 with ⟨e1, e2⟩ | ⟨p, hp, y, e⟩
      · rw [e1, e2]
        rcases h1 with h | ⟨y, hy, h⟩
        · exact Or.inl h
        · exact Or.inr ⟨q, by simp, y, hy, h⟩
      · exact Or.inr ⟨p, by simp [hp], y, e⟩
    · rcases i2 with ⟨e1, e2⟩ | ⟨p, hp, y, e⟩
      · rw [e1, e2]
        rcases h2 with h | ⟨y, hy, h⟩
        · exact Or.inl h
        · exact Or.inr ⟨q, by simp, y, hy, h⟩
      · exact Or.inr ⟨p, by simp [hp], y, e⟩

/-- The ordinate bounds of a curve are reached by the ends of error bars, or are 0 (curve without any usable ordinate). -/
def AtteintY (log : Bool) (l : List Courbe) (v : ℝ) : Prop :=
  v = 0 ∨ ∃ c ∈ l, ∃ (i : ℕ) (y : ℝ), c.y[i]? = some (some y) ∧ (v = bas log y (c.sigma.getD i 0) ∨ v = y + c.sigma.getD i 0)

/-- An abscissa of one of the curves. -/
def AtteintX (l : List Courbe) (v : ℝ) : Prop := ∃ c ∈ l, v ∈ c.x

theorem ordonnees_mem {c : Courbe} {p : Option ℝ × ℝ} (hp : p ∈ ordonnees c) {y : ℝ} (hy : p.1 = some y) : ∃ i : ℕ, c.y[i]? = some (some y) ∧ p.2 = c.sigma.getD i 0 := by
  obtain ⟨i, hi, rfl⟩ := List.mem_iff_getElem.mp hp
  have hi' : i < c.y.length := by simpa [ordonnees] using hi
  refine ⟨i, ?_, ?_⟩
  · simp only [ordonnees, List.getElem_mapIdx] at hy
    rw [List.getElem?_eq_getElem hi', hy]
  · simp only [ordonnees, List.getElem_mapIdx]

theorem boucleY_atteint (log : Bool) (c : Courbe) : AtteintY log [c] (boucleY log c).mn ∧ AtteintY log [c] (boucleY log c).mx := by
  obtain ⟨h1, h2⟩ := foldY_atteint log (ordonnees c) { mn := 0, mx := 0, fmin := true, fmax := true }
  constructor
  · rcases h1 with ⟨_, e⟩ | ⟨p, hp, y, hy, e⟩
    · exact Or.inl e
    · obtain ⟨i, h3, h4⟩ := ordonnees_mem hp hy
      exact Or.inr ⟨c, by simp, i, y, h3, Or.inl (by rw [← h4]; exact e)⟩
  · rcases h2 with ⟨_, e⟩ | ⟨p, hp, y, hy, e⟩
    · exact Or.inl e
    · obtain ⟨i, h3, h4⟩ := ordonnees_mem hp hy
      exact Or.inr ⟨c, by simp, i, y, h3, Or.inr (by rw [← h4]; exact e)⟩

/-- The four bounds are reached. -/
def Serre (log : Bool) (l : List Courbe) (b : Boite) : Prop := AtteintX l b.xmin ∧ AtteintX l b.xmax ∧ AtteintY log l b.ymin ∧ AtteintY log l b.ymax

theorem serre_mono {log : Bool} {l l' : List Courbe} (h : ∀ c ∈ l, c ∈ l') {b : Boite} (hb : Serre log l b) : Serre log l' b := by
  have hx : ∀ v, AtteintX l v → AtteintX l' v := fun v ⟨c, hc, hv⟩ => ⟨c, h c hc, hv⟩
  have hy : ∀ v, AtteintY log l v → AtteintY log l' v := by
    rintro v (e | ⟨c, hc, r⟩)
    · exact Or.inl e
    · exact Or.inr ⟨c, h c hc, r⟩
  exact ⟨hx _ hb.1, hx _ hb.2.1, hy _ hb.2.2.1, hy _ hb.2.2.2⟩

theorem boiteC_serre (log : Bool) (c : Courbe) (hc : Trace c) (ht : c.trait ≠ .baton ∧ c.trait ≠ .histo) : Serre log [c] (boiteC log c) := by
  have h := boucleY_atteint log c
  have e : basCourbe log c = (boucleY log c).mn := by simp [basCourbe, ht.1, ht.2]
  refine ⟨⟨c, by simp, mini_mem hc.1⟩, ⟨c, by simp, maxi_mem hc.1⟩, ?_, h.2⟩
  simp only [boiteC, e]
  exact h.1

theorem serre_union {log : Bool} {l : List Courbe} {a b : Boite} (ha : Serre log l a) (hb : Serre log l b) :
    Serre log l { xmin := min a.xmin b.xmin, ymin := min a.ymin b.ymin, xmax := max a.xmax b.xmax, ymax := max a.ymax b.ymax } := by
  refine ⟨?_, ?_, ?_, ?_⟩ <;> simp only
  · rcases min_choice a.xmin b.xmin with e | e <;> rw [e]
    · exact ha.1
    · exact hb.1
  · rcases max_choice a.xmax b.xmax with e | e <;> rw [e]
    · exact ha.2.1
    · exact hb.2.1
  · rcases min_choice a.ymin b.ymin with e | e <;> rw [e]
    · exact ha.2.2.1
    · exact hb.2.2.1
  · rcases max_choice a.ymax b.ymax with e | e <;> rw [e]
    · exact ha.2.2.2
    · exact hb.2.2.2

theorem suite_serre (log : Bool) (l : List Courbe) (hl : ∀ c ∈ l, Trace c ∧ c.trait ≠ .baton ∧ c.trait ≠ .histo) : ∀ (l0 : List Courbe) (b : Boite),
    Serre log l0 b → Serre log (l0 ++ l) (tourSuite log b l) := by
  induction l with
  | nil => intro l0 b h; simpa [tourSuite] using h
  | cons d t ih =>
    intro l0 b h
    have hd := hl d (by simp)
    have e : tourSuite log b (d :: t) = tourSuite log (tourCourbe log b false d) t := rfl
    have e2 : tourCourbe log b false d = { xmin := min b.xmin (boiteC log d).xmin, ymin := min b.ymin (boiteC log d).ymin, xmax := max b.xmax (boiteC log d).xmax, ymax := max b.ymax (boiteC log d).ymax } := by
      have h1' : d.x.isEmpty = false := by simpa using hd.1.1
      simp only [tourCourbe, h1', hd.1.2.1, hd.2.1, if_false, Bool.false_eq_true, boiteC]
    have h1 : Serre log (l0 ++ [d]) (tourCourbe log b false d) := by
      rw [e2]
      exact serre_union (serre_mono (by intro c hc; simp [hc]) h) (serre_mono (by intro c hc; simp at hc; simp [hc]) (boiteC_serre log d hd.1 hd.2))
    have := ih (fun c hc => hl c (by simp [hc])) (l0 ++ [d]) _ h1
    rw [e]
    simpa using this

/-- **C213** (the region is not larger than needed): without bars, imposed or minimal region, before the margins and before the enlargement of a region without width or height, the horizontal bounds are abscissas of points, and the vertical ones are ends of error bars (or 0 when a curve has no usable ordinate). -/
theorem C213_serre (f : Fig) (b : Boite) (ha : f.aRdi = false) (hm : f.aMin = false) (hne : f.courbes ≠ [])
    (hl : ∀ c ∈ f.courbes, Trace c ∧ c.trait ≠ .baton ∧ c.trait ≠ .histo)
    (hw : (requis f (boucle f.log b f.courbes)).xmin ≠ (requis f (boucle f.log b f.courbes)).xmax)
    (hh : (requis f (boucle f.log b f.courbes)).ymin ≠ (requis f (boucle f.log b f.courbes)).ymax) :
    Serre f.log f.courbes (calcMinmax f b) := by
  have hc' : f.courbes.isEmpty = false := by simpa using hne
  have e0 : requis f (boucle f.log b f.courbes) = boucle f.log b f.courbes := by simp only [requis, hc', ha, hm, if_false, Bool.false_eq_true]
  have e1 : calcMinmax f b = boucle f.log b f.courbes := by
    rw [e0] at hw hh
    simp only [calcMinmax, e0]
    have : elargitX (boucle f.log b f.courbes) = boucle f.log b f.courbes := by unfold elargitX; rw [if_neg (fun e => hw e.symm)]
    rw [this]
    unfold elargitY
    rw [if_neg (fun e => hh e.symm)]
  rw [e1]
  obtain ⟨d, t, ht⟩ := List.exists_cons_of_ne_nil hne
  rw [ht] at hl ⊢
  have hd := hl d (by simp)
  have e2 : tourCourbe f.log b true d = boiteC f.log d := by
    have h1' : d.x.isEmpty = false := by simpa using hd.1.1
    simp only [tourCourbe, h1', hd.2.1, if_false, if_true, Bool.false_eq_true, boiteC]
  have := suite_serre f.log t (fun c hc => hl c (by simp [hc])) [d] _ (boiteC_serre f.log d hd.1 hd.2)
  simp only [boucle, e2]
  simpa using this

/-- Hypotheses of `C213_serre`. -/
example : let f : Fig := { courbes := [{ x := [0, 1], y := [some 2, some 4], sigma := [], trait := .ligne, Z := none }], aMin := false, aRdi := false, rx := 0, ry := 0, rl := 0, rh := 0, log := false }
    (∀ c ∈ f.courbes, Trace c ∧ c.trait ≠ .baton ∧ c.trait ≠ .histo) ∧
    (requis f (boucle f.log ⟨0, 0, 0, 0⟩ f.courbes)).xmin ≠ (requis f (boucle f.log ⟨0, 0, 0, 0⟩ f.courbes)).xmax ∧
    (requis f (boucle f.log ⟨0, 0, 0, 0⟩ f.courbes)).ymin ≠ (requis f (boucle f.log ⟨0, 0, 0, 0⟩ f.courbes)).ymax := by
  refine ⟨?_, ?_, ?_⟩
  · intro c hc
    simp only [List.mem_cons, List.not_mem_nil, or_false] at hc
    rw [hc]
    exact ⟨⟨by simp, rfl, by simp⟩, by simp, by simp⟩
  · simp only [requis, boucle, tourSuite, tourCourbe, List.isEmpty, List.foldl_nil, List.foldl_cons, mini, maxi, Bool.false_eq_true, if_false, if_true, reduceCtorEq]
    norm_num
  · simp only [requis, boucle, tourSuite, tourCourbe, List.isEmpty, List.foldl_nil, Bool.false_eq_true, if_false, if_true, reduceCtorEq, basCourbe, or_self]
    norm_num [boucleY, ordonnees, tourY, haut, bas]

/-- **C213** (margins): with linear axes, each side is moved by the fraction `d` of the width (or height), more at the top for a title. -/
theorem C213_marges (dx dy t : ℝ) (b : Boite) (hx : b.xmin < b.xmax) (hy : b.ymin < b.ymax) :
    (extension dx dy t b).xmin = b.xmin - dx * (b.xmax - b.xmin) ∧ (extension dx dy t b).xmax = b.xmax + dx * (b.xmax - b.xmin) ∧
    (extension dx dy t b).ymin = b.ymin - dy * (b.ymax - b.ymin) ∧ (extension dx dy t b).ymax = b.ymax + (dy + t) * (b.ymax - b.ymin) := by
  simp only [extension]
  rw [if_neg (by linarith), if_neg (by linarith)]
  refine ⟨?_, ?_, ?_, ?_⟩ <;> ring

/-- **C213** (one abscissa): a figure whose only curve is the single point `(v, w)`: region before the margins. -/
theorem C213_point (v w : ℝ) (hv : v ≠ 0) (b : Boite) :
    (calcMinmax { courbes := [{ x := [v], y := [some w], sigma := [], trait := .ligne, Z := none }], aMin := false, aRdi := false, rx := 0, ry := 0, rl := 0, rh := 0, log := false } b).xmin = 9 / 10 * v ∧
    (calcMinmax { courbes := [{ x := [v], y := [some w], sigma := [], trait := .ligne, Z := none }], aMin := false, aRdi := false, rx := 0, ry := 0, rl := 0, rh := 0, log := false } b).xmax = 11 / 10 * v := by
  simp only [calcMinmax]
  obtain ⟨e1, e2⟩ := elargitY_x (elargitX (requis { courbes := [{ x := [v], y := [some w], sigma := [], trait := .ligne, Z := none }], aMin := false, aRdi := false, rx := 0, ry := 0, rl := 0, rh := 0, log := false } (boucle false b [{ x := [v], y := [some w], sigma := [], trait := .ligne, Z := none }])))
  rw [e1, e2]
  simp [requis, boucle, tourSuite, tourCourbe, mini, maxi, elargitX, hv]
  constructor <;> ring

/-- **C213** (a single negative abscissa): a point alone at an abscissa `v < -1` is displayed in a region whose left end is greater than its right end (`Axe::configure` then raises an exception), and outside of it. -/
theorem C213_negatif_refute (v w : ℝ) (hv : v < -1) (b : Boite) (t : ℝ) :
    let f : Fig := { courbes := [{ x := [v], y := [some w], sigma := [], trait := .ligne, Z := none }], aMin := false, aRdi := false, rx := 0, ry := 0, rl := 0, rh := 0, log := false }
    (region (1 / 10) (1 / 10) t f b).xmax < (region (1 / 10) (1 / 10) t f b).xmin ∧ v < (region (1 / 10) (1 / 10) t f b).xmin := by
  intro f
  have h := C213_point v w (by linarith) b
  have e1 : (calcMinmax f b).xmin = 9 / 10 * v := h.1
  have e2 : (calcMinmax f b).xmax = 11 / 10 * v := h.2
  have ea : f.aRdi = false := rfl
  simp only [region, ea, Bool.false_eq_true, if_false, extension, e1, e2]
  rw [if_pos (by linarith)]
  constructor <;> linarith

/-- **C213** (an image after a curve): the curve `(100, 0)` followed by an image on the region `[0, 1] × [0, 1]`: the curve is outside the region. -/
theorem C213_image_refute : ∃ (f : Fig) (b : Boite), f.aRdi = false ∧ f.aMin = false ∧
    (∃ c ∈ f.courbes, Trace c ∧ (100 : ℝ) ∈ c.x) ∧ (region (1 / 10) (1 / 10) 0 f b).xmax < 100 := by
  refine ⟨{ courbes := [{ x := [100], y := [some 0], sigma := [], trait := .ligne, Z := none }, { x := [], y := [], sigma := [], trait := .aucun, Z := some { rows := 2, cols := 2, x := 0, y := 0, l := 1, h := 1 } }], aMin := false, aRdi := false, rx := 0, ry := 0, rl := 0, rh := 0, log := false }, { xmin := 0, ymin := 0, xmax := 0, ymax := 0 }, rfl, rfl, ⟨_, List.mem_cons_self, ⟨by simp, rfl, by simp⟩, by simp⟩, ?_⟩
  norm_num [region, extension, calcMinmax, requis, boucle, tourSuite, tourCourbe, boiteZ, elargitX, elargitY]

/-- **C213** (`def_rdi` after `def_rdi_min`): the imposed region is not the displayed one: the minimal mode is never left. -/
theorem C213_rdi_refute : ∃ (f : Fig) (b : Boite), f.aMin = false ∧ f.aRdi = false ∧
    (region (1 / 10) (1 / 10) 0 (defRdi (defRdiMin f 0 0 1 1) 0 0 1 1) b).xmax = 100 := by
  refine ⟨{ courbes := [{ x := [100], y := [some 0], sigma := [], trait := .ligne, Z := none }], aMin := false, aRdi := false, rx := 0, ry := 0, rl := 0, rh := 0, log := false }, { xmin := 0, ymin := 0, xmax := 0, ymax := 0 }, rfl, rfl, ?_⟩
  norm_num [region, calcMinmax, requis, boucle, tourSuite, tourCourbe, boucleY, ordonnees, tourY, haut, bas, basCourbe, mini, maxi, elargitX, elargitY, defRdi, defRdiMin]

/-- **C213** (a band): the band between -100 and 100 drawn by `plot_minmax` is displayed in a region of height less than 3. -/
theorem C213_bande_refute : ∃ (f : Fig) (b : Boite), f.courbes = [plotMinmax [0, 1] [-100, -100] [100, 100]] ∧ f.aRdi = false ∧
    (region (1 / 10) (1 / 10) (3 / 20) f b).ymax - (region (1 / 10) (1 / 10) (3 / 20) f b).ymin < 3 := by
  refine ⟨{ courbes := [plotMinmax [0, 1] [-100, -100] [100, 100]], aMin := false, aRdi := false, rx := 0, ry := 0, rl := 0, rh := 0, log := false }, { xmin := 0, ymin := 0, xmax := 0, ymax := 0 }, rfl, rfl, ?_⟩
  norm_num [region, extension, calcMinmax, requis, boucle, tourSuite, tourCourbe, boucleY, ordonnees, tourY, haut, bas, basCourbe, mini, maxi, elargitX, elargitY, plotMinmax]

/-- Hypotheses of `C213_vertical` and `C213_horizontal`: two curves, one with a value that is not a number and one with error bars. -/
example : let f : Fig := { courbes := [{ x := [0, 1], y := [some 2, none], sigma := [], trait := .ligne, Z := none }, { x := [-1, 3], y := [some 1, some 5], sigma := [1, 2], trait := .baton, Z := none }], aMin := false, aRdi := false, rx := 0, ry := 0, rl := 0, rh := 0, log := false }
    f.aRdi = false ∧ (∀ c ∈ f.courbes, Trace c) ∧
    ((requis f (boucle f.log ⟨0, 0, 0, 0⟩ f.courbes)).xmin ≠ (requis f (boucle f.log ⟨0, 0, 0, 0⟩ f.courbes)).xmax ∨ 0 ≤ (requis f (boucle f.log ⟨0, 0, 0, 0⟩ f.courbes)).xmin) := by
  refine ⟨rfl, ?_, Or.inl ?_⟩
  · intro c hc
    simp only [List.mem_cons, List.not_mem_nil, or_false] at hc
    rcases hc with rfl | rfl
    · exact ⟨by simp, rfl, by simp⟩
    · exact ⟨by simp, rfl, by simp⟩
  · simp only [requis, boucle, tourSuite, tourCourbe, List.isEmpty, List.foldl_cons, List.foldl_nil, mini, maxi, Bool.false_eq_true, if_false, if_true, reduceCtorEq]
    norm_num

end Verif.FigureRegion
