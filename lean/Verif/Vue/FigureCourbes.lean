import Verif.Vue.FigureRegion
import Mathlib.Data.List.Chain
import Mathlib.Algebra.BigOperators.Group.List.Basic

/-!
# C217: the drawing of the curves of a figure (core/src/vue/figure.cc:513-860)

Exact arithmetic instead of `float`; the samples are finite numbers. A curve is the list of its points
(the code asserts that `x` and `y` have the same size, core/src/vue/figure.cc:527).
-/

namespace Verif.FigureCourbes

open Verif.FigureRegion (mini maxi mini_le mini_mem maxi_mem foldl_min_mem foldl_max_mem)

/-! ## Model -/

/-- A sample `(x(i), y(i))`. -/
abbrev Pt := ℝ × ℝ

/-- Way to join the points, core/include/tsd/vue.hpp:94-97 (`minmax` bands are not modelled). -/
inductive Trait where
  | aucun | ligne | baton | histo
deriving DecidableEq

/-- What is drawn on the canvas: `canva.ligne`, `canva.remplissage_vertical`, `canva.rectangle`, `canva.marqueur`, core/src/vue/figure.cc:632, 739, 755, 789, 801, 816, 856. -/
inductive Prim where
  | ligne (x0 y0 x1 y1 : ℝ)
  | bande (x0 y0 x1 y1 z0 z1 : ℝ)
  | rectangle (x0 y0 x1 y1 : ℝ)
  | marque (x y : ℝ)

/-- The displayed region: `xmin`, `xmax`, `ymin`, `ymax`, core/src/vue/figure.cc:194. -/
structure Region where
  xmin : ℝ
  xmax : ℝ
  ymin : ℝ
  ymax : ℝ

/-- `Figure::Courbe::Impl`, core/src/vue/figure.cc:132-160: samples, deviations, colours given point by point, line, filling (with `remplissage_vers_ymin` and `remplissage_vmin`), markers. -/
structure Courbe where
  pts : List Pt
  sigma : List ℝ
  couleurs : Bool
  trait : Trait
  remplissage : Bool
  versYmin : Bool
  vmin : ℝ
  marqueur : Bool

/-- The pairs of consecutive points, `pour(i = 0; i + 1 < npts; i++)`. -/
def paires {α : Type} (l : List α) : List (α × α) := l.zip l.tail

open Classical in
/-- The condition of the drawing of a segment, core/src/vue/figure.cc:737, 774. -/
noncomputable def trace (v : Region) (s : Pt × Pt) : Bool := decide (s.2.1 ≤ v.xmax ∧ v.xmin ≤ s.1.1 ∧ v.ymin ≤ s.1.2 ∧ v.ymin ≤ s.2.2)

open Classical in
/-- The condition of the drawing of the band of the extreme values, core/src/vue/figure.cc:754. -/
noncomputable def traceX (v : Region) (s : Pt × Pt) : Bool := decide (s.2.1 ≤ v.xmax ∧ v.xmin ≤ s.1.1)

/-- The lines between the points, core/src/vue/figure.cc:772-791. -/
noncomputable def lignes (v : Region) (pts : List Pt) : List Prim :=
  ((paires pts).filter (trace v)).map (fun (s : Pt × Pt) => Prim.ligne s.1.1 s.1.2 s.2.1 s.2.2)

/-- Base of the filling, core/src/vue/figure.cc:732-733. -/
noncomputable def base (v : Region) (c : Courbe) : ℝ := if c.versYmin then v.ymin + (v.ymax - v.ymin) / 200 else c.vmin

/-- The filling under the curve, core/src/vue/figure.cc:725-744. -/
noncomputable def remplit (v : Region) (c : Courbe) (pts : List Pt) : List Prim :=
  if c.remplissage then ((paires pts).filter (trace v)).map (fun (s : Pt × Pt) => Prim.bande s.1.1 s.1.2 s.2.1 s.2.2 (base v c) (base v c)) else []

/-- The test of monotonicity of the abscissas, core/src/vue/figure.cc:652-661. -/
def croissante (pts : List Pt) : Prop := ∀ s ∈ paires pts, s.1.1 ≤ s.2.1

open Classical in
/-- `idmin`: first index, the last one excepted, with `x(i) >= xmin`, core/src/vue/figure.cc:655-663. -/
noncomputable def idmin (v : Region) (pts : List Pt) : Option ℕ := pts.dropLast.findIdx? (fun (p : Pt) => decide (v.xmin ≤ p.1))

open Classical in
/-- `idmax`: first index, the last one excepted, with `x(i) > xmax`, core/src/vue/figure.cc:659-665. -/
noncomputable def idmax (v : Region) (pts : List Pt) : Option ℕ := pts.dropLast.findIdx? (fun (p : Pt) => decide (v.xmax < p.1))

open Classical in
/-- The points kept around the displayed abscissas, core/src/vue/figure.cc:648-683 (`npts3 < 0.5 * npts`); for `xmin ≤ xmax`, so that `idmin ≤ idmax` for a monotonic curve. -/
noncomputable def restreint (v : Region) (col : Bool) (pts : List Pt) : List Pt :=
  if 2000 < pts.length ∧ col = false then
    match idmin v pts, idmax v pts with
    | some a, some b => if croissante pts ∧ 2 * (b + 1 - a) < pts.length then (pts.drop a).take (b + 1 - a) else pts
    | _, _ => pts
  else pts

/-- The decimation factor `R = floor(npts / 1000)` (integer division), core/src/vue/figure.cc:692. -/
def facteur (n : ℕ) : ℕ := n / 1000

/-- Block `i`: `x(i * R)` and `y.segment(i * R, R)`, core/src/vue/figure.cc:704-712. -/
def bloc (R i : ℕ) (pts : List Pt) : List Pt := (pts.drop (i * R)).take R

/-- One decimated point: abscissa of the first sample of the block, mean, minimum and maximum of the ordinates, core/src/vue/figure.cc:704-712. -/
structure Reduit where
  x : ℝ
  moy : ℝ
  mn : ℝ
  mx : ℝ

/-- `xr(i)`, `yrmoy(i)`, `yrmin(i)`, `yrmax(i)`, core/src/vue/figure.cc:704-712. -/
noncomputable def reduit (R i : ℕ) (pts : List Pt) : Reduit :=
  { x := (pts.getD (i * R) (0, 0)).1, moy := ((bloc R i pts).map Prod.snd).sum / R, mn := mini ((bloc R i pts).map Prod.snd), mx := maxi ((bloc R i pts).map Prod.snd) }

/-- The decimated points, `npts2 = npts / R`, core/src/vue/figure.cc:692-713. -/
noncomputable def decime (pts : List Pt) : List Reduit :=
  (List.range (pts.length / facteur pts.length)).map (fun (i : ℕ) => reduit (facteur pts.length) i pts)

/-- `x = xr; y = yrmoy`, core/src/vue/figure.cc:715-716. -/
def moyens (l : List Reduit) : List Pt := l.map (fun (r : Reduit) => (r.x, r.moy))

/-- The band of the extreme values, core/src/vue/figure.cc:746-757; the condition bears on the abscissas only. -/
noncomputable def enveloppe (v : Region) (l : List Reduit) : List Prim :=
  ((paires l).filter (fun (s : Reduit × Reduit) => traceX v ((s.1.x, s.1.moy), (s.2.x, s.2.moy)))).map (fun (s : Reduit × Reduit) => Prim.bande s.1.x s.1.mx s.2.x s.2.mx s.1.mn s.2.mn)

open Classical in
/-- Whether a curve of `pts` points is decimated, core/src/vue/figure.cc:689. -/
noncomputable def aDecimer (col : Bool) (pts : List Pt) : Bool := decide (2000 ≤ pts.length ∧ col = false)

/-- The case of the lines: primitives, then points left in the curve (`x` and `y` are references on the data of the curve), core/src/vue/figure.cc:635-793. -/
noncomputable def dessinLigne (v : Region) (c : Courbe) : List Prim × List Pt :=
  let p1 := restreint v c.couleurs c.pts
  if aDecimer c.couleurs p1 then
    let d := decime p1
    (remplit v c (moyens d) ++ enveloppe v d ++ lignes v (moyens d), moyens d)
  else (remplit v c p1 ++ lignes v p1, p1)

open Classical in
/-- `cvt`: lower end of the deviation bar (`pow(10, 2 log10(y) - log10(y1))`, 0 in place of a value that is not a finite number), core/src/vue/figure.cc:609-619. -/
noncomputable def bas (y s : ℝ) : ℝ := if 0 < y ∧ 0 < y + s then y ^ 2 / (y + s) else 0

open Classical in
/-- The band of the deviations between two samples, core/src/vue/figure.cc:620-628. -/
noncomputable def bandeSigma (s : (Pt × ℝ) × (Pt × ℝ)) : Option Prim :=
  let b0 := bas s.1.1.2 s.1.2
  let b1 := bas s.2.1.2 s.2.2
  if b0 ≠ 0 ∧ b1 ≠ 0 then some (Prim.bande s.1.1.1 b0 s.2.1.1 b1 (s.1.1.2 + s.1.2) (s.2.1.2 + s.2.2)) else none

/-- The bands of the deviations, core/src/vue/figure.cc:598-632. -/
noncomputable def bandesSigma (c : Courbe) : List Prim := if c.sigma.isEmpty then [] else (paires (c.pts.zip c.sigma)).filterMap bandeSigma

/-- The sticks, core/src/vue/figure.cc:795-804. -/
def batons (pts : List Pt) : List Prim := pts.map (fun (p : Pt) => Prim.ligne p.1 p.2 p.1 0)

/-- The bars, core/src/vue/figure.cc:805-820: nothing for a single point; the width is that of the first step. -/
def barres : List Pt → List Prim
  | p :: q :: l => (p :: q :: l).map (fun (a : Pt) => Prim.rectangle a.1 a.2 (a.1 + (q.1 - p.1)) 0)
  | _ => []

/-- The markers, core/src/vue/figure.cc:840-859, on the points left in the curve. -/
def marques (c : Courbe) (pts : List Pt) : List Prim := if c.marqueur then pts.map (fun (p : Pt) => Prim.marque p.1 p.2) else []

/-- One turn of the loop over the curves, core/src/vue/figure.cc:519-860: primitives and state of the curve afterwards. An error message, and nothing drawn, if there are deviations in another number than the points. -/
noncomputable def rend (v : Region) (c : Courbe) : List Prim × Courbe :=
  if c.sigma ≠ [] ∧ c.sigma.length ≠ c.pts.length then ([], c)
  else match c.trait with
    | .ligne => (bandesSigma c ++ (dessinLigne v c).1 ++ marques c (dessinLigne v c).2, { c with pts := (dessinLigne v c).2 })
    | .baton => (bandesSigma c ++ batons c.pts ++ marques c c.pts, c)
    | .histo => (bandesSigma c ++ barres c.pts ++ marques c c.pts, c)
    | .aucun => (bandesSigma c ++ marques c c.pts, c)

/-! ## Specification -/

/-- `p` and `q` are two consecutive samples. -/
def Consecutifs (pts : List Pt) (p q : Pt) : Prop := ∃ i, pts[i]? = some p ∧ pts[i + 1]? = some q

/-- Both points are at abscissas of the view, and not under it. -/
def DansVue (v : Region) (p q : Pt) : Prop := v.xmin ≤ p.1 ∧ q.1 ≤ v.xmax ∧ v.ymin ≤ p.2 ∧ v.ymin ≤ q.2

/-- An abscissa never decreases from a sample to the next one. -/
def Croissante (pts : List Pt) : Prop := pts.Pairwise (fun p q => p.1 ≤ q.1)

/-! ## Small curves: what is drawn -/

theorem mem_paires {α : Type} (l : List α) (p q : α) : (p, q) ∈ paires l ↔ ∃ i : ℕ, l[i]? = some p ∧ l[i + 1]? = some q := by
  unfold paires
  constructor
  · intro h
    obtain ⟨i, hi, he⟩ := List.mem_iff_getElem.mp h
    refine ⟨i, ?_, ?_⟩
    · rw [List.getElem_zip] at he
      have := congrArg Prod.fst he
      simp only at this
      rw [List.length_zip] at hi
      rw [List.getElem?_eq_getElem (by omega), this]
    · rw [List.getElem_zip] at he
      have := congrArg Prod.snd he
      simp only at this
      rw [List.length_zip, List.length_tail] at hi
      rw [List.getElem_tail] at this
      rw [List.getElem?_eq_getElem (by omega), this]
  · rintro ⟨i, h0, h1⟩
    obtain ⟨i1, e1⟩ := List.getElem?_eq_some_iff.mp h1
    obtain ⟨i0, e0⟩ := List.getElem?_eq_some_iff.mp h0
    refine List.mem_iff_getElem.mpr ⟨i, ?_, ?_⟩
    · rw [List.length_zip, List.length_tail]; omega
    · rw [List.getElem_zip, List.getElem_tail, e0, e1]

theorem mem_lignes (v : Region) (pts : List Pt) (x0 y0 x1 y1 : ℝ) :
    Prim.ligne x0 y0 x1 y1 ∈ lignes v pts ↔ Consecutifs pts (x0, y0) (x1, y1) ∧ DansVue v (x0, y0) (x1, y1) := by
  unfold lignes
  simp only [List.mem_map, List.mem_filter]
  constructor
  · rintro ⟨⟨⟨a, b⟩, ⟨c, d⟩⟩, ⟨hm, ht⟩, he⟩
    simp only [Prim.ligne.injEq] at he
    obtain ⟨rfl, rfl, rfl, rfl⟩ := he
    refine ⟨(mem_paires _ _ _).mp hm, ?_⟩
    simp only [trace, decide_eq_true_eq] at ht
    exact ⟨ht.2.1, ht.1, ht.2.2.1, ht.2.2.2⟩
  · rintro ⟨hc, h1, h2, h3, h4⟩
    refine ⟨((x0, y0), (x1, y1)), ⟨(mem_paires _ _ _).mpr hc, ?_⟩, rfl⟩
    simp only [trace, decide_eq_true_eq]
    exact ⟨h2, h1, h3, h4⟩

/-- A curve of less than 2000 points (or coloured point by point) is left as it is. -/
theorem restreint_petit (v : Region) (col : Bool) (pts : List Pt) (h : pts.length ≤ 2000 ∨ col = true) : restreint v col pts = pts := by
  unfold restreint
  rw [if_neg]
  rintro ⟨h1, h2⟩
  rcases h with h | h
  · omega
  · rw [h] at h2; cases h2

theorem aDecimer_petit (col : Bool) (pts : List Pt) (h : pts.length < 2000 ∨ col = true) : aDecimer col pts = false := by
  unfold aDecimer
  rw [decide_eq_false_iff_not]
  rintro ⟨h1, h2⟩
  rcases h with h | h
  · omega
  · rw [h] at h2; cases h2

theorem dessin_petit (v : Region) (c : Courbe) (h : c.pts.length < 2000 ∨ c.couleurs = true) :
    dessinLigne v c = (remplit v c c.pts ++ lignes v c.pts, c.pts) := by
  unfold dessinLigne
  have e : restreint v c.couleurs c.pts = c.pts := restreint_petit v _ _ (by rcases h with h | h; exacts [Or.inl (by omega), Or.inr h])
  simp only [e, aDecimer_petit c.couleurs c.pts h, Bool.false_eq_true, if_false]

theorem pas_ligne_bandesSigma (c : Courbe) (x0 y0 x1 y1 : ℝ) : Prim.ligne x0 y0 x1 y1 ∉ bandesSigma c := by
  unfold bandesSigma
  split
  · simp
  · intro h
    obtain ⟨s, -, hs⟩ := List.mem_filterMap.mp h
    unfold bandeSigma at hs
    simp only at hs
    split at hs <;> simp at hs

theorem pas_ligne_remplit (v : Region) (c : Courbe) (l : List Pt) (x0 y0 x1 y1 : ℝ) : Prim.ligne x0 y0 x1 y1 ∉ remplit v c l := by
  unfold remplit
  split <;> simp

theorem pas_ligne_enveloppe (v : Region) (l : List Reduit) (x0 y0 x1 y1 : ℝ) : Prim.ligne x0 y0 x1 y1 ∉ enveloppe v l := by
  unfold enveloppe
  simp

theorem pas_ligne_marques (c : Courbe) (l : List Pt) (x0 y0 x1 y1 : ℝ) : Prim.ligne x0 y0 x1 y1 ∉ marques c l := by
  unfold marques
  split <;> simp

/-- **C217, ordinary curves.** A curve of less than 2000 points joined by lines, with as many deviations as points or none: the lines drawn are exactly those between consecutive samples
that are both at abscissas of the view and not under it, and the data of the curve is unchanged. -/
theorem C217_lignes (v : Region) (c : Courbe) (ht : c.trait = .ligne) (hs : c.sigma = [] ∨ c.sigma.length = c.pts.length) (hn : c.pts.length < 2000 ∨ c.couleurs = true) :
    (∀ x0 y0 x1 y1, Prim.ligne x0 y0 x1 y1 ∈ (rend v c).1 ↔ Consecutifs c.pts (x0, y0) (x1, y1) ∧ DansVue v (x0, y0) (x1, y1)) ∧ (rend v c).2 = c := by
  unfold rend
  rw [if_neg (by rintro ⟨h1, h2⟩; rcases hs with h | h; exacts [h1 h, h2 h]), ht]
  simp only [dessin_petit v c hn]
  refine ⟨fun x0 y0 x1 y1 => ?_, by rw [← ht]⟩
  rw [← mem_lignes]
  simp only [List.mem_append]
  have := pas_ligne_bandesSigma c x0 y0 x1 y1
  have := pas_ligne_remplit v c c.pts x0 y0 x1 y1
  have := pas_ligne_marques c c.pts x0 y0 x1 y1
  tauto

/-- Non-vacuity: a curve of three points. -/
example : ∃ c : Courbe, c.trait = .ligne ∧ c.sigma = [] ∧ c.pts.length = 3 :=
  ⟨{ pts := [(0, 0), (1, 1), (2, 0)], sigma := [], couleurs := false, trait := .ligne, remplissage := false, versYmin := true, vmin := 0, marqueur := false }, rfl, rfl, rfl⟩

/-- The lines come in the order of the samples, once each. -/
theorem C217_ordre (v : Region) (pts : List Pt) :
    (lignes v pts).Sublist ((pts.zip pts.tail).map (fun (s : Pt × Pt) => Prim.ligne s.1.1 s.1.2 s.2.1 s.2.2)) := by
  unfold lignes paires
  exact List.filter_sublist.map _

/-- **C217, refuted: a curve visible in the view is drawn.** A curve whose samples are all out of the view but whose segment crosses it is not drawn, even if it goes through the middle of the view. -/
theorem C217_traverse_refute : ∃ (v : Region) (c : Courbe), c.trait = .ligne ∧ Consecutifs c.pts (-1, 0) (1, 0) ∧ v.xmin < 0 ∧ 0 < v.xmax ∧ v.ymin < 0 ∧ 0 < v.ymax ∧ (rend v c).1 = [] := by
  refine ⟨{ xmin := -1 / 2, xmax := 1 / 2, ymin := -1, ymax := 1 }, { pts := [(-1, 0), (1, 0)], sigma := [], couleurs := false, trait := .ligne, remplissage := false, versYmin := true, vmin := 0, marqueur := false }, rfl, ⟨0, rfl, rfl⟩, by norm_num, by norm_num, by norm_num, by norm_num, ?_⟩
  unfold rend
  rw [if_neg (by simp)]
  simp only
  rw [dessin_petit _ _ (Or.inl (by simp))]
  simp only [bandesSigma, remplit, lignes, paires, marques, trace, List.isEmpty, if_true, Bool.false_eq_true, if_false, List.nil_append, List.append_nil, List.tail_cons, List.zip_cons_cons, List.zip_nil_right, List.map_eq_nil_iff, List.filter_eq_nil_iff]
  intro a ha
  simp only [List.mem_singleton] at ha
  subst ha
  norm_num

/-! ## Large curves: restriction to the displayed abscissas -/

theorem croissante_iff (pts : List Pt) : croissante pts ↔ Croissante pts := by
  unfold croissante Croissante
  rw [← List.isChain_iff_pairwise]
  rw [List.isChain_iff_getElem]
  constructor
  · intro h i hi
    exact h (pts[i], pts[i + 1]) ((mem_paires _ _ _).mpr ⟨i, by rw [List.getElem?_eq_getElem (by omega)], by rw [List.getElem?_eq_getElem hi]⟩)
  · rintro h ⟨p, q⟩ hs
    obtain ⟨i, h0, h1⟩ := (mem_paires _ _ _).mp hs
    obtain ⟨i1, e1⟩ := List.getElem?_eq_some_iff.mp h1
    obtain ⟨i0, e0⟩ := List.getElem?_eq_some_iff.mp h0
    have := h i i1
    rw [e0, e1] at this
    exact this

theorem abscisse_mono {pts : List Pt} (h : Croissante pts) {i j : ℕ} {p q : Pt} (hi : pts[i]? = some p) (hj : pts[j]? = some q) (hij : i ≤ j) : p.1 ≤ q.1 := by
  obtain ⟨i0, e0⟩ := List.getElem?_eq_some_iff.mp hi
  obtain ⟨j0, e1⟩ := List.getElem?_eq_some_iff.mp hj
  rcases Nat.lt_or_ge i j with hlt | hge
  · have := List.pairwise_iff_getElem.mp h i j i0 j0 hlt
    rw [e0, e1] at this; exact this
  · have : i = j := by omega
    subst this
    rw [e0] at e1; subst e1; exact le_refl _

theorem idmin_spec {v : Region} {pts : List Pt} {a : ℕ} (h : idmin v pts = some a) :
    a + 1 < pts.length ∧ (∃ p, pts[a]? = some p ∧ v.xmin ≤ p.1) ∧ ∀ (i : ℕ) (p : Pt), i < a → pts[i]? = some p → p.1 < v.xmin := by
  unfold idmin at h
  rw [List.findIdx?_eq_some_iff_getElem] at h
  obtain ⟨hl, hp, hb⟩ := h
  rw [List.length_dropLast] at hl
  refine ⟨by omega, ⟨pts[a]'(by omega), List.getElem?_eq_getElem (by omega), ?_⟩, ?_⟩
  · simpa using hp
  · intro i p hi he
    have := hb i hi
    obtain ⟨i0, e0⟩ := List.getElem?_eq_some_iff.mp he
    simp only [List.getElem_dropLast, decide_eq_true_eq, not_le] at this
    rw [e0] at this; exact this

theorem idmax_spec {v : Region} {pts : List Pt} {a : ℕ} (h : idmax v pts = some a) :
    a + 1 < pts.length ∧ (∃ p, pts[a]? = some p ∧ v.xmax < p.1) ∧ ∀ (i : ℕ) (p : Pt), i < a → pts[i]? = some p → p.1 ≤ v.xmax := by
  unfold idmax at h
  rw [List.findIdx?_eq_some_iff_getElem] at h
  obtain ⟨hl, hp, hb⟩ := h
  rw [List.length_dropLast] at hl
  refine ⟨by omega, ⟨pts[a]'(by omega), List.getElem?_eq_getElem (by omega), ?_⟩, ?_⟩
  · simpa using hp
  · intro i p hi he
    have := hb i hi
    obtain ⟨i0, e0⟩ := List.getElem?_eq_some_iff.mp he
    simp only [List.getElem_dropLast, decide_eq_true_eq, not_lt] at this
    rw [e0] at this; exact this

/-- What is kept: either everything, or the contiguous piece from `a` to `b`. -/
theorem restreint_forme (v : Region) (col : Bool) (pts : List Pt) :
    restreint v col pts = pts ∨ ∃ a b, idmin v pts = some a ∧ idmax v pts = some b ∧ Croissante pts ∧ 2 * (b + 1 - a) < pts.length ∧ restreint v col pts = (pts.drop a).take (b + 1 - a) := by
  unfold restreint
  split
  · split
    · rename_i a b ha hb
      split
      · rename_i h
        exact Or.inr ⟨a, b, ha, hb, (croissante_iff _).mp h.1, h.2, rfl⟩
      · exact Or.inl rfl
    · exact Or.inl rfl
  · exact Or.inl rfl

/-- **C217, restriction.** Leaving out the points out of the view changes no line of the curve: the pairs of consecutive samples at abscissas of the view are the same before and after. -/
theorem C217_restriction (v : Region) (hv : v.xmin ≤ v.xmax) (col : Bool) (pts : List Pt) (p q : Pt) (h : DansVue v p q) :
    Consecutifs (restreint v col pts) p q ↔ Consecutifs pts p q := by
  rcases restreint_forme v col pts with e | ⟨a, b, ha, hb, hc, hr, e⟩
  · rw [e]
  rw [e]
  obtain ⟨la, ⟨pa, hpa, hxa⟩, hfa⟩ := idmin_spec ha
  obtain ⟨lb, ⟨pb, hpb, hxb⟩, hfb⟩ := idmax_spec hb
  have hg : ∀ k, k < b + 1 - a → ((pts.drop a).take (b + 1 - a))[k]? = pts[a + k]? := by
    intro k hk
    rw [List.getElem?_take, if_pos hk, List.getElem?_drop]
  constructor
  · rintro ⟨i, h0, h1⟩
    have hi : i + 1 < b + 1 - a := by
      by_contra hn
      rw [List.getElem?_take, if_neg hn] at h1
      cases h1
    rw [hg _ (by omega)] at h0
    rw [hg _ hi] at h1
    exact ⟨a + i, h0, h1⟩
  · rintro ⟨i, h0, h1⟩
    have hai : a ≤ i := by
      by_contra hn
      exact absurd (hfa i p (by omega) h0) (not_lt.mpr h.1)
    have hib : i + 1 < b := by
      by_contra hn
      have := abscisse_mono hc hpb h1 (by omega)
      have := h.2.1
      linarith
    refine ⟨i - a, ?_, ?_⟩
    · rw [hg _ (by omega), show a + (i - a) = i by omega]; exact h0
    · rw [hg _ (by omega), show a + (i - a + 1) = i + 1 by omega]; exact h1

/-- The same, for the lines drawn. -/
theorem C217_restriction_lignes (v : Region) (hv : v.xmin ≤ v.xmax) (col : Bool) (pts : List Pt) (x0 y0 x1 y1 : ℝ) :
    Prim.ligne x0 y0 x1 y1 ∈ lignes v (restreint v col pts) ↔ Prim.ligne x0 y0 x1 y1 ∈ lignes v pts := by
  rw [mem_lignes, mem_lignes]
  constructor
  · rintro ⟨h1, h2⟩; exact ⟨(C217_restriction v hv col pts _ _ h2).mp h1, h2⟩
  · rintro ⟨h1, h2⟩; exact ⟨(C217_restriction v hv col pts _ _ h2).mpr h1, h2⟩

/-! ## Large curves: decimation -/

/-- **C217, number of points.** A decimated curve has from 1000 to 1499 points. -/
theorem C217_taille (n : ℕ) (h : 2000 ≤ n) : 2 ≤ facteur n ∧ 1000 ≤ n / facteur n ∧ n / facteur n < 1500 := by
  unfold facteur
  have h2 : 2 ≤ n / 1000 := by omega
  have hl : 1000 * (n / 1000) ≤ n := Nat.mul_div_le n 1000
  have hu : n < 1000 * (n / 1000) + 1000 := by omega
  refine ⟨h2, ?_, ?_⟩
  · rw [Nat.le_div_iff_mul_le (by omega)]; exact hl
  · rw [Nat.div_lt_iff_lt_mul (by omega)]; omega

theorem decime_length (pts : List Pt) : (decime pts).length = pts.length / facteur pts.length := by
  unfold decime; rw [List.length_map, List.length_range]

theorem decime_get (pts : List Pt) (i : ℕ) (h : i < pts.length / facteur pts.length) : (decime pts)[i]? = some (reduit (facteur pts.length) i pts) := by
  unfold decime
  rw [List.getElem?_map, List.getElem?_range h]; rfl

theorem bloc_length (R i : ℕ) (pts : List Pt) (h : i < pts.length / R) : (bloc R i pts).length = R := by
  unfold bloc
  rw [List.length_take, List.length_drop]
  have hR : 0 < R := by
    rcases Nat.eq_zero_or_pos R with h0 | h0
    · subst h0; simp at h
    · exact h0
  have := (Nat.le_div_iff_mul_le hR).mp (show i + 1 ≤ pts.length / R from h)
  rw [Nat.add_mul] at this
  omega

theorem bloc_get (R i j : ℕ) (pts : List Pt) (hj : j < R) : (bloc R i pts)[j]? = pts[i * R + j]? := by
  unfold bloc
  rw [List.getElem?_take, if_pos hj, List.getElem?_drop]

theorem maxi_ge {l : List ℝ} {x : ℝ} (hx : x ∈ l) : x ≤ maxi l := by
  have : ∀ (t : List ℝ) (a : ℝ), a ≤ t.foldl max a ∧ ∀ y ∈ t, y ≤ t.foldl max a := by
    intro t
    induction t with
    | nil => intro a; simp
    | cons b t ih =>
      intro a
      obtain ⟨h1, h2⟩ := ih (max a b)
      refine ⟨le_trans (le_max_left _ _) h1, ?_⟩
      intro y hy
      rcases List.mem_cons.mp hy with rfl | hy
      · exact le_trans (le_max_right _ _) h1
      · exact h2 y hy
  cases l with
  | nil => simp at hx
  | cons a t =>
    rcases List.mem_cons.mp hx with rfl | hx
    · exact (this t _).1
    · exact (this t a).2 x hx

/-- **C217, extreme values.** In the decimation, sample `k` of the curve, `k` being less than `R · (n / R)`, lies between the minimum and the maximum of the decimated point `k / R`. -/
theorem C217_enveloppe (pts : List Pt) (hn : 2000 ≤ pts.length) (k : ℕ) (p : Pt) (hk : k < facteur pts.length * (pts.length / facteur pts.length)) (hp : pts[k]? = some p) :
    ∃ r, (decime pts)[k / facteur pts.length]? = some r ∧ r.mn ≤ p.2 ∧ p.2 ≤ r.mx := by
  have hR : 0 < facteur pts.length := by have := (C217_taille _ hn).1; omega
  have hi : k / facteur pts.length < pts.length / facteur pts.length := by
    rw [Nat.div_lt_iff_lt_mul hR, Nat.mul_comm]; exact hk
  refine ⟨_, decime_get pts _ hi, ?_⟩
  have hm : p ∈ bloc (facteur pts.length) (k / facteur pts.length) pts := by
    have := bloc_get (facteur pts.length) (k / facteur pts.length) (k % facteur pts.length) pts (Nat.mod_lt _ hR)
    rw [show k / facteur pts.length * facteur pts.length + k % facteur pts.length = k by rw [Nat.mul_comm]; exact Nat.div_add_mod _ _, hp] at this
    exact List.mem_of_getElem? this
  have hm2 : p.2 ∈ (bloc (facteur pts.length) (k / facteur pts.length) pts).map Prod.snd := List.mem_map.mpr ⟨p, hm, rfl⟩
  exact ⟨mini_le hm2, maxi_ge hm2⟩

/-- **C217, extreme values reached.** The minimum and the maximum of a decimated point are ordinates of samples of its block, its abscissa that of the first sample of the block, and its mean is the mean
of the `R` samples; it lies between both. -/
theorem C217_bloc (pts : List Pt) (hn : 2000 ≤ pts.length) (i : ℕ) (r : Reduit) (h : (decime pts)[i]? = some r) :
    (∃ p, pts[i * facteur pts.length]? = some p ∧ r.x = p.1) ∧
    (∃ k p, i * facteur pts.length ≤ k ∧ k < (i + 1) * facteur pts.length ∧ pts[k]? = some p ∧ r.mn = p.2) ∧
    (∃ k p, i * facteur pts.length ≤ k ∧ k < (i + 1) * facteur pts.length ∧ pts[k]? = some p ∧ r.mx = p.2) ∧
    r.moy = ((List.range (facteur pts.length)).map (fun (j : ℕ) => (pts.getD (i * facteur pts.length + j) (0, 0)).2)).sum / facteur pts.length ∧
    r.mn ≤ r.moy ∧ r.moy ≤ r.mx := by
  have hR2 := (C217_taille _ hn).1
  have hi : i < pts.length / facteur pts.length := by
    obtain ⟨h1, -⟩ := List.getElem?_eq_some_iff.mp h
    rwa [decime_length] at h1
  rw [decime_get pts i hi] at h
  cases h
  generalize hRe : facteur pts.length = R at *
  have hlen := bloc_length R i pts hi
  have hle : (i + 1) * R ≤ pts.length := (Nat.le_div_iff_mul_le (by omega)).mp hi
  have hle' : i * R + R ≤ pts.length := by rw [Nat.add_mul] at hle; omega
  have hne : (bloc R i pts).map Prod.snd ≠ [] := by
    intro h0
    have := congrArg List.length h0
    rw [List.length_map, hlen] at this
    simp at this; omega
  have hmem : ∀ y ∈ (bloc R i pts).map Prod.snd, ∃ k p, i * R ≤ k ∧ k < (i + 1) * R ∧ pts[k]? = some p ∧ y = p.2 := by
    intro y hy
    obtain ⟨p, hp, rfl⟩ := List.mem_map.mp hy
    obtain ⟨j, hj, e⟩ := List.mem_iff_getElem.mp hp
    rw [hlen] at hj
    refine ⟨i * R + j, p, by omega, by rw [Nat.add_mul]; omega, ?_, rfl⟩
    rw [← bloc_get R i j pts hj, List.getElem?_eq_getElem (by omega), e]
  have hRp : (0 : ℝ) < (R : ℝ) := by exact_mod_cast (by omega : 0 < R)
  refine ⟨⟨pts[i * R]'(by omega), List.getElem?_eq_getElem (by omega), ?_⟩, hmem _ (mini_mem hne), hmem _ (maxi_mem hne), ?_, ?_, ?_⟩
  · simp only [reduit]
    rw [List.getD_eq_getElem _ _ (by omega)]
  · simp only [reduit]
    congr 2
    apply List.ext_getElem
    · rw [List.length_map, List.length_map, hlen, List.length_range]
    · intro j h1 h2
      rw [List.length_map, hlen] at h1
      simp only [List.getElem_map, List.getElem_range]
      have := bloc_get R i j pts h1
      rw [List.getElem?_eq_getElem (by omega), List.getElem?_eq_getElem (by omega)] at this
      rw [List.getD_eq_getElem _ _ (by omega)]
      exact congrArg Prod.snd (Option.some.inj this)
  · simp only [reduit]
    rw [le_div_iff₀ hRp]
    have := List.card_nsmul_le_sum ((bloc R i pts).map Prod.snd) (mini ((bloc R i pts).map Prod.snd)) (fun x hx => mini_le hx)
    rw [List.length_map, hlen, nsmul_eq_mul] at this
    linarith
  · simp only [reduit]
    rw [div_le_iff₀ hRp]
    have := List.sum_le_card_nsmul ((bloc R i pts).map Prod.snd) (maxi ((bloc R i pts).map Prod.snd)) (fun x hx => maxi_ge hx)
    rw [List.length_map, hlen, nsmul_eq_mul] at this
    linarith

/-- Non-vacuity of the decimation: there are curves of 2000 points and more, with decimated points. -/
example : ∃ pts : List Pt, 2000 ≤ pts.length ∧ (decime pts)[0]? ≠ none := by
  refine ⟨List.replicate 2000 (0, 0), by rw [List.length_replicate], ?_⟩
  rw [decime_get _ _ (by rw [List.length_replicate]; decide)]
  exact Option.some_ne_none _

/-- **C217, refuted: every sample contributes to the drawing.** For every curve of 2000 points the sample that follows is dropped: adding it changes nothing, whatever its value. -/
theorem C217_dernier_refute (pts : List Pt) (h : pts.length = 2000) (q : Pt) : decime (pts ++ [q]) = decime pts := by
  unfold decime
  rw [List.length_append, List.length_singleton, h]
  rw [show (2000 + 1) / facteur (2000 + 1) = 1000 by decide, show 2000 / facteur 2000 = 1000 by decide, show facteur (2000 + 1) = 2 by decide, show facteur 2000 = 2 by decide]
  apply List.map_congr_left
  intro i hi
  rw [List.mem_range] at hi
  have hb : bloc 2 i (pts ++ [q]) = bloc 2 i pts := by
    unfold bloc
    rw [List.drop_append_of_le_length (by omega), List.take_append_of_le_length (by rw [List.length_drop]; omega)]
  unfold reduit
  rw [hb, List.getD_append _ _ _ _ (by omega)]

/-- **C217, band of the extreme values.** Between two consecutive decimated points at abscissas of the view, and only there, a band goes from the minima to the maxima. -/
theorem C217_bandes_extremes (v : Region) (l : List Reduit) (x0 h0 x1 h1 b0 b1 : ℝ) : Prim.bande x0 h0 x1 h1 b0 b1 ∈ enveloppe v l ↔
    ∃ (i : ℕ) (r q : Reduit), l[i]? = some r ∧ l[i + 1]? = some q ∧ v.xmin ≤ r.x ∧ q.x ≤ v.xmax ∧ x0 = r.x ∧ x1 = q.x ∧ h0 = r.mx ∧ h1 = q.mx ∧ b0 = r.mn ∧ b1 = q.mn := by
  unfold enveloppe
  simp only [List.mem_map, List.mem_filter]
  constructor
  · rintro ⟨⟨r, q⟩, ⟨hm, ht⟩, he⟩
    simp only [Prim.bande.injEq] at he
    simp only [traceX, decide_eq_true_eq] at ht
    obtain ⟨i, hi, hj⟩ := (mem_paires _ _ _).mp hm
    obtain ⟨r1, r2, r3, r4, r5, r6⟩ := he
    exact ⟨i, r, q, hi, hj, ht.2, ht.1, r1.symm, r3.symm, r2.symm, r4.symm, r5.symm, r6.symm⟩
  · rintro ⟨i, r, q, hi, hj, hx, hy, r1, r2, r3, r4, r5, r6⟩
    refine ⟨(r, q), ⟨(mem_paires _ _ _).mpr ⟨i, hi, hj⟩, ?_⟩, by rw [r1, r2, r3, r4, r5, r6]⟩
    simp only [traceX, decide_eq_true_eq]
    exact ⟨hy, hx⟩

/-- The last samples of a curve, less than `R`, are the only ones dropped. -/
theorem C217_reste (n : ℕ) (h : 2000 ≤ n) : n - facteur n * (n / facteur n) < facteur n := by
  have hR := (C217_taille n h).1
  have := Nat.div_add_mod n (facteur n)
  have := Nat.mod_lt n (by omega : 0 < facteur n)
  omega

/-! ## Rendering modifies the curve -/

theorem moyens_length (l : List Reduit) : (moyens l).length = l.length := by unfold moyens; rw [List.length_map]

/-- **C217, refuted: displaying a figure does not change it.** After the rendering, a curve of 2000 points or more, joined by lines and without colours point by point, has lost at least a quarter of its points, whatever the view. -/
theorem C217_donnees_refute (v : Region) (c : Courbe) (ht : c.trait = .ligne) (hs : c.sigma = [] ∨ c.sigma.length = c.pts.length) (hcol : c.couleurs = false) (hn : 2000 ≤ c.pts.length)
    (hr : restreint v c.couleurs c.pts = c.pts) : 4 * (rend v c).2.pts.length < 3 * c.pts.length ∧ (rend v c).2.pts.length < 1500 := by
  have hdec : aDecimer c.couleurs (restreint v c.couleurs c.pts) = true := by
    unfold aDecimer
    rw [decide_eq_true_eq, hr]
    exact ⟨hn, hcol⟩
  unfold rend
  rw [if_neg (by rintro ⟨h1, h2⟩; rcases hs with h | h; exacts [h1 h, h2 h]), ht]
  simp only [dessinLigne, hdec, if_true, moyens_length, decime_length]
  rw [hr]
  obtain ⟨h1, h2, h3⟩ := C217_taille _ hn
  omega

/-- Same with a view that leaves out points. -/
theorem C217_perte (v : Region) (c : Courbe) (ht : c.trait = .ligne) (hs : c.sigma = [] ∨ c.sigma.length = c.pts.length) (hcol : c.couleurs = false) (hn : 2000 ≤ c.pts.length) :
    (rend v c).2.pts.length < c.pts.length := by
  rcases restreint_forme v c.couleurs c.pts with e | ⟨a, b, ha, hb, hc, hr, e⟩
  · have := (C217_donnees_refute v c ht hs hcol hn e).1
    omega
  · have hl : (restreint v c.couleurs c.pts).length < c.pts.length := by
      rw [e, List.length_take, List.length_drop]; omega
    unfold rend
    rw [if_neg (by rintro ⟨h1, h2⟩; rcases hs with h | h; exacts [h1 h, h2 h]), ht]
    simp only [dessinLigne]
    by_cases hd : aDecimer c.couleurs (restreint v c.couleurs c.pts) = true
    · rw [if_pos hd]
      simp only [moyens_length, decime_length]
      simp only [aDecimer, decide_eq_true_eq] at hd
      obtain ⟨h1, h2, h3⟩ := C217_taille _ hd.1
      omega
    · rw [if_neg hd]
      exact hl

/-- **C217, refuted: two renderings of the same figure are alike.** A curve with deviations and 2000 points or more disappears at the second rendering, markers included: there are more deviations than points left. -/
theorem C217_sigma_refute (v : Region) (c : Courbe) (ht : c.trait = .ligne) (hs : c.sigma.length = c.pts.length) (hcol : c.couleurs = false) (hn : 2000 ≤ c.pts.length) (w : Region) :
    (rend w (rend v c).2).1 = [] := by
  have hp := C217_perte v c ht (Or.inr hs) hcol hn
  have hsig : (rend v c).2.sigma = c.sigma := by
    unfold rend
    rw [if_neg (by rintro ⟨h1, h2⟩; exact h2 hs), ht]
  have hcond : (rend v c).2.sigma ≠ [] ∧ (rend v c).2.sigma.length ≠ (rend v c).2.pts.length := by
    rw [hsig]
    refine ⟨?_, by omega⟩
    intro h0
    rw [h0] at hs
    simp at hs; omega
  generalize (rend v c).2 = d at hcond
  unfold rend
  rw [if_pos hcond]

/-- Non-vacuity: such a curve, drawn at the first rendering (with its markers). -/
example : ∃ (v : Region) (c : Courbe), c.trait = .ligne ∧ c.sigma.length = c.pts.length ∧ c.couleurs = false ∧ 2000 ≤ c.pts.length ∧ c.marqueur = true ∧ (rend v c).1 ≠ [] := by
  obtain ⟨n, hn⟩ : ∃ n : ℕ, n = 2000 := ⟨_, rfl⟩
  refine ⟨{ xmin := 0, xmax := 1, ymin := 0, ymax := 1 }, { pts := List.replicate n (0, 0), sigma := List.replicate n 0, couleurs := false, trait := .ligne, remplissage := false, versYmin := true, vmin := 0, marqueur := true }, rfl, ?_, rfl, ?_, rfl, ?_⟩
  · simp only [List.length_replicate]
  · simp only [List.length_replicate]; omega
  · unfold rend
    rw [if_neg (by rintro ⟨-, h2⟩; exact h2 (by simp only [List.length_replicate]))]
    simp only
    intro h
    have h' := (List.append_eq_nil_iff.mp h).2
    simp only [marques, if_true, List.map_eq_nil_iff] at h'
    have e := restreint_petit { xmin := 0, xmax := 1, ymin := 0, ymax := 1 } false (List.replicate n (0, 0)) (Or.inl (by rw [List.length_replicate]; omega))
    simp only [dessinLigne] at h'
    rw [e, if_pos (by unfold aDecimer; rw [decide_eq_true_eq, List.length_replicate]; exact ⟨by omega, rfl⟩)] at h'
    simp only at h'
    have := congrArg List.length h'
    rw [moyens_length, decime_length, List.length_replicate, hn] at this
    revert this; decide

/-- **C217, second rendering.** Without deviations, a second rendering of a decimated curve with the same view draws the same lines and fillings, but not the bands of the extreme values; from then on the curve does not change any more. -/
theorem C217_second (v : Region) (c : Courbe) (ht : c.trait = .ligne) (hs : c.sigma = []) (hcol : c.couleurs = false) (hd : 2000 ≤ (restreint v c.couleurs c.pts).length) :
    ∃ l d, (rend v c).1 = remplit v c l ++ enveloppe v d ++ lignes v l ++ marques c l ∧ (rend v c).2 = { c with pts := l } ∧
      ∀ w, rend w (rend v c).2 = (remplit w c l ++ lignes w l ++ marques c l, (rend v c).2) := by
  have hnil : bandesSigma c = [] := by unfold bandesSigma; rw [hs]; rfl
  have e1 : rend v c = (remplit v c (moyens (decime (restreint v c.couleurs c.pts))) ++ enveloppe v (decime (restreint v c.couleurs c.pts)) ++ lignes v (moyens (decime (restreint v c.couleurs c.pts)))
      ++ marques c (moyens (decime (restreint v c.couleurs c.pts))), { c with pts := moyens (decime (restreint v c.couleurs c.pts)) }) := by
    have hc : ¬ (c.sigma ≠ [] ∧ c.sigma.length ≠ c.pts.length) := by rintro ⟨h1, -⟩; exact h1 hs
    have hdec : aDecimer c.couleurs (restreint v c.couleurs c.pts) = true := by
      unfold aDecimer
      rw [decide_eq_true_eq]
      exact ⟨hd, hcol⟩
    unfold rend
    rw [if_neg hc, ht]
    simp only [dessinLigne, hdec, if_true, hnil, List.nil_append]
  refine ⟨moyens (decime (restreint v c.couleurs c.pts)), decime (restreint v c.couleurs c.pts), by rw [e1], by rw [e1], fun w => ?_⟩
  rw [e1]
  simp only
  generalize hl : moyens (decime (restreint v c.couleurs c.pts)) = l
  have hlt : l.length < 2000 := by
    rw [← hl, moyens_length, decime_length]
    have := (C217_taille _ hd).2.2
    omega
  have hpet := dessin_petit w { c with pts := l } (Or.inl hlt)
  unfold rend
  rw [if_neg (by rintro ⟨h1, -⟩; exact h1 hs)]
  simp only [ht] at hpet ⊢
  rw [hpet]
  have : bandesSigma { c with pts := l } = [] := by unfold bandesSigma; simp only [hs]; rfl
  simp only [ht] at this
  rw [this]
  simp only [List.nil_append]
  congr 1

/-- **C217, refuted: a view can be widened.** After a rendering restricted to a view, no sample beyond the one that follows the view is left in the curve (for a restricted curve that is not decimated): widening the view shows nothing more. -/
theorem C217_zoom_refute (v : Region) (c : Courbe) (ht : c.trait = .ligne) (hs : c.sigma = []) (a b : ℕ) (ha : idmin v c.pts = some a) (hb : idmax v c.pts = some b) (hcol : c.couleurs = false)
    (hn : 2000 < c.pts.length) (hc : Croissante c.pts) (hl : 2 * (b + 1 - a) < c.pts.length) (hd : b + 1 - a < 2000) :
    (rend v c).2.pts = (c.pts.drop a).take (b + 1 - a) ∧ ∀ p ∈ (rend v c).2.pts, v.xmin ≤ p.1 ∧ (p.1 ≤ v.xmax ∨ c.pts[b]? = some p) := by
  have hc' : ¬ (c.sigma ≠ [] ∧ c.sigma.length ≠ c.pts.length) := by rintro ⟨h1, -⟩; exact h1 hs
  have er : restreint v c.couleurs c.pts = (c.pts.drop a).take (b + 1 - a) := by
    unfold restreint
    rw [if_pos ⟨hn, hcol⟩, ha, hb]
    simp only
    rw [if_pos ⟨(croissante_iff _).mpr hc, hl⟩]
  have hdec : aDecimer c.couleurs (restreint v c.couleurs c.pts) = false := by
    apply aDecimer_petit
    left
    rw [er, List.length_take]; omega
  have e : (rend v c).2.pts = (c.pts.drop a).take (b + 1 - a) := by
    unfold rend
    rw [if_neg hc', ht]
    simp only [dessinLigne, hdec, Bool.false_eq_true, if_false]
    exact er
  refine ⟨e, ?_⟩
  intro p hp
  rw [e] at hp
  obtain ⟨-, ⟨pa, hpa, hxa⟩, -⟩ := idmin_spec ha
  obtain ⟨-, -, hfb⟩ := idmax_spec hb
  obtain ⟨j, hj⟩ := List.mem_iff_getElem?.mp hp
  rw [List.getElem?_take] at hj
  split at hj
  · rename_i hlt
    rw [List.getElem?_drop] at hj
    refine ⟨le_trans hxa (abscisse_mono hc hpa hj (by omega)), ?_⟩
    rcases Nat.lt_or_ge (a + j) b with h | h
    · exact Or.inl (hfb _ p h hj)
    · right
      rw [show b = a + j by omega]; exact hj
  · cases hj

/-- Non-vacuity: 3000 samples at abscissas 0, 1, ... and the view from 10 to 20: 12 samples are left. -/
example : ∃ (v : Region) (pts : List Pt), idmin v pts = some 10 ∧ idmax v pts = some 21 ∧ 2000 < pts.length ∧ Croissante pts ∧ 2 * (21 + 1 - 10) < pts.length := by
  refine ⟨{ xmin := 10, xmax := 20, ymin := 0, ymax := 1 }, (List.range 3000).map (fun (i : ℕ) => ((i : ℝ), (0 : ℝ))), ?_, ?_, by simp, ?_, by simp⟩
  · unfold idmin
    rw [List.findIdx?_eq_some_iff_getElem]
    refine ⟨by simp, by simp, ?_⟩
    intro j hj
    simp only [List.getElem_dropLast, List.getElem_map, List.getElem_range, decide_eq_true_eq, not_le]
    exact_mod_cast hj
  · unfold idmax
    rw [List.findIdx?_eq_some_iff_getElem]
    refine ⟨by simp, by simp; norm_num, ?_⟩
    intro j hj
    simp only [List.getElem_dropLast, List.getElem_map, List.getElem_range, decide_eq_true_eq, not_lt]
    exact_mod_cast (by omega : j ≤ 20)
  · unfold Croissante
    rw [List.pairwise_map]
    exact List.pairwise_le_range.imp (fun {a b : ℕ} (h : a ≤ b) => (Nat.cast_le (α := ℝ)).mpr h)

/-! ## Fillings, deviations, sticks, bars -/

/-- **C217, filling.** There is a band under each line drawn, down to the base, and no other. -/
theorem C217_remplissage (v : Region) (c : Courbe) (pts : List Pt) (hc : c.remplissage = true) (x0 y0 x1 y1 z0 z1 : ℝ) :
    Prim.bande x0 y0 x1 y1 z0 z1 ∈ remplit v c pts ↔ Prim.ligne x0 y0 x1 y1 ∈ lignes v pts ∧ z0 = base v c ∧ z1 = base v c := by
  unfold remplit lignes
  rw [if_pos hc]
  simp only [List.mem_map]
  constructor
  · rintro ⟨s, hs, he⟩
    simp only [Prim.bande.injEq] at he
    obtain ⟨r1, r2, r3, r4, r5, r6⟩ := he
    exact ⟨⟨s, hs, by rw [r1, r2, r3, r4]⟩, r5.symm, r6.symm⟩
  · rintro ⟨⟨s, hs, he⟩, r5, r6⟩
    simp only [Prim.ligne.injEq] at he
    obtain ⟨r1, r2, r3, r4⟩ := he
    exact ⟨s, hs, by rw [r1, r2, r3, r4, r5, r6]⟩

/-- **C217, deviations.** For a positive value and a deviation that is not negative, the band goes from a positive number to `y + σ`, contains the value, and is symmetrical around it in logarithmic scale. -/
theorem C217_sigma (y s : ℝ) (hy : 0 < y) (hs : 0 ≤ s) : 0 < bas y s ∧ bas y s ≤ y ∧ y ≤ y + s ∧ bas y s * (y + s) = y ^ 2 := by
  have h1 : 0 < y + s := by linarith
  unfold bas
  rw [if_pos ⟨hy, h1⟩]
  refine ⟨by positivity, ?_, by linarith, by field_simp⟩
  rw [div_le_iff₀ h1]
  nlinarith

/-- The bands of a curve of positive values, with as many deviations as points: one between each sample and the next one. -/
theorem C217_bandes (c : Courbe) (hne : c.sigma ≠ []) (hp : ∀ p ∈ c.pts, 0 < p.2) (hs : ∀ s ∈ c.sigma, 0 ≤ s) :
    bandesSigma c = (paires (c.pts.zip c.sigma)).map (fun s => Prim.bande s.1.1.1 (bas s.1.1.2 s.1.2) s.2.1.1 (bas s.2.1.2 s.2.2) (s.1.1.2 + s.1.2) (s.2.1.2 + s.2.2)) := by
  unfold bandesSigma
  rw [if_neg (by simpa using hne)]
  rw [← List.filterMap_eq_map]
  apply List.filterMap_congr
  rintro ⟨⟨p, s⟩, ⟨q, t⟩⟩ h
  obtain ⟨i, h0, h1⟩ := (mem_paires _ _ _).mp h
  have m0 := List.of_mem_zip (List.mem_of_getElem? h0)
  have m1 := List.of_mem_zip (List.mem_of_getElem? h1)
  have b0 := (C217_sigma p.2 s (hp _ m0.1) (hs _ m0.2)).1
  have b1 := (C217_sigma q.2 t (hp _ m1.1) (hs _ m1.2)).1
  unfold bandeSigma
  simp only
  rw [if_pos ⟨ne_of_gt b0, ne_of_gt b1⟩]
  rfl

/-- Refuted: the deviations are shown whatever the sign of the values, and on both sides alike. No band for a value that is not positive; the lower half is shorter than the upper one as soon as the deviation is not zero. -/
theorem C217_bandes_refute (y s : ℝ) : (y ≤ 0 → bas y s = 0) ∧ (0 < y → 0 < s → y - bas y s < s) := by
  constructor
  · intro h; unfold bas; rw [if_neg (by rintro ⟨h1, -⟩; linarith)]
  · intro h hs
    have h1 : 0 < y + s := by linarith
    unfold bas
    rw [if_pos ⟨h, h1⟩]
    rw [sub_lt_iff_lt_add, ← sub_lt_iff_lt_add', lt_div_iff₀ h1]
    nlinarith

/-- **C217, sticks and bars.** One stick from each sample to the axis; one bar per sample, of the width of the first step, if there are at least two of them; the data is unchanged. -/
theorem C217_batons (v : Region) (c : Courbe) (hs : c.sigma = []) (hm : c.marqueur = false) :
    (c.trait = .baton → rend v c = (c.pts.map (fun p => Prim.ligne p.1 p.2 p.1 0), c)) ∧
    (c.trait = .histo → ∀ p q l, c.pts = p :: q :: l → rend v c = (c.pts.map (fun a => Prim.rectangle a.1 a.2 (a.1 + (q.1 - p.1)) 0), c)) ∧
    (c.trait = .histo → ∀ p, c.pts = [p] → (rend v c).1 = []) := by
  have hnil : bandesSigma c = [] := by unfold bandesSigma; rw [hs]; rfl
  have hcond : ¬ (c.sigma ≠ [] ∧ c.sigma.length ≠ c.pts.length) := by rintro ⟨h1, -⟩; exact h1 hs
  have hmk : marques c c.pts = [] := by unfold marques; rw [hm]; rfl
  refine ⟨fun ht => ?_, fun ht p q l hp => ?_, fun ht p hp => ?_⟩
  · have e : rend v c = (bandesSigma c ++ batons c.pts ++ marques c c.pts, c) := by unfold rend; rw [if_neg hcond]; split <;> simp_all
    rw [e, hnil, hmk]; simp only [batons, List.nil_append, List.append_nil]
  · have e : rend v c = (bandesSigma c ++ barres c.pts ++ marques c c.pts, c) := by unfold rend; rw [if_neg hcond]; split <;> simp_all
    rw [e, hnil, hmk, hp]; simp only [barres, List.nil_append, List.append_nil]
  · have e : rend v c = (bandesSigma c ++ barres c.pts ++ marques c c.pts, c) := by unfold rend; rw [if_neg hcond]; split <;> simp_all
    rw [e, hnil, hmk, hp]; simp only [barres, List.nil_append, List.append_nil]

/-- **C217, markers.** A marker on each sample left in the curve, whatever the line. -/
theorem C217_marques (v : Region) (c : Courbe) (hs : c.sigma = []) (hm : c.marqueur = true) (p : Pt) : p ∈ (rend v c).2.pts → Prim.marque p.1 p.2 ∈ (rend v c).1 := by
  have hcond : ¬ (c.sigma ≠ [] ∧ c.sigma.length ≠ c.pts.length) := by rintro ⟨h1, -⟩; exact h1 hs
  unfold rend
  rw [if_neg hcond]
  intro h
  cases ht : c.trait <;> rw [ht] at h <;> simp only at h ⊢ <;> apply List.mem_append_right <;> unfold marques <;> rw [if_pos hm] <;> exact List.mem_map.mpr ⟨p, h, rfl⟩

end Verif.FigureCourbes
