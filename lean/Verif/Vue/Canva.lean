import Mathlib.Data.Real.Basic
import Mathlib.Data.List.Basic
import Mathlib.Tactic.Linarith
import Mathlib.Tactic.FieldSimp
import Mathlib.Tactic.Ring
import Mathlib.Tactic.NormNum

/-!
# C216: nested canvases and bounding region (core/src/vue/canva.cc:123-300, 415-500, 1421-1474)

Exact arithmetic instead of `float`; linear axes.
-/

namespace Verif.Canva

/-! ## Model -/

/-- `Rectf`, core/include/tsd/vue/image.hpp:131-163. -/
structure Rect where
  x : ℝ
  y : ℝ
  l : ℝ
  h : ℝ

/-- `ClipGen` without logarithmic axis, core/src/vue/canva.cc:123-131. -/
structure Clip where
  target : Rect
  rdi : Rect

/-- `v2c_x`, core/src/vue/canva.cc:133-145. -/
noncomputable def Clip.v2cx (c : Clip) (x : ℝ) : ℝ := if c.rdi.l = 0 then c.target.x else c.target.x + c.target.l * (x - c.rdi.x) / c.rdi.l

/-- `v2c_y`, core/src/vue/canva.cc:147-159. -/
noncomputable def Clip.v2cy (c : Clip) (y : ℝ) : ℝ := if c.rdi.h = 0 then c.target.y else c.target.y + c.target.h * (y - c.rdi.y) / c.rdi.h

/-- `v2c(Pointf)`, core/src/vue/canva.cc:175-178. -/
noncomputable def Clip.v2c (c : Clip) (p : ℝ × ℝ) : ℝ × ℝ := (c.v2cx p.1, c.v2cy p.2)

/-- `v2c_lx`, core/src/vue/canva.cc:191-194. -/
noncomputable def Clip.v2clx (c : Clip) (l : ℝ) : ℝ := l * c.target.l / c.rdi.l

/-- `v2c_ly`, core/src/vue/canva.cc:196-199. -/
noncomputable def Clip.v2cly (c : Clip) (h : ℝ) : ℝ := h * c.target.h / c.rdi.h

/-- `CanvaElement::Type`, core/src/vue/canva.cc:221-225. -/
inductive Genre where
  | rect | ligne | fleche | chaine | cercle | marqueur | rvec | accu | image | pti | ellipse | polygone
deriving DecidableEq

/-- `CanvaElement`, core/src/vue/canva.cc:219-252 (geometry). `centreX`, `centreY`: alignment of a text on its centre. -/
structure Elmt where
  genre : Genre
  p0 : ℝ × ℝ
  p1 : ℝ × ℝ
  diml : ℝ
  dimh : ℝ
  r : ℝ
  y2 : ℝ
  y3 : ℝ
  a : ℝ
  b : ℝ
  pts : List (ℝ × ℝ)
  centreX : Bool
  centreY : Bool

/-- `clip_elmt`, core/src/vue/canva.cc:450-477. -/
noncomputable def clipElmt (e : Elmt) (c : Clip) : Elmt :=
  { genre := e.genre, p0 := c.v2c e.p0, p1 := c.v2c e.p1, diml := if e.diml > 0 then c.v2clx e.diml else e.diml, dimh := if e.diml > 0 then c.v2cly e.dimh else e.dimh, r := c.v2clx e.r, y2 := c.v2cy e.y2, y3 := c.v2cy e.y3, a := c.v2clx e.a, b := c.v2cly e.b, pts := e.pts.map c.v2c, centreX := e.centreX, centreY := e.centreY }

/-- `ajoute_element`, core/src/vue/canva.cc:480-505: through the canvases from the one on which the drawing is made to the child of the root; the root stores the elements in the order of the drawing. -/
noncomputable def ajoute (racine : List Elmt) : List Clip → Elmt → List Elmt
  | [], e => racine ++ [e]
  | c :: cs, e => ajoute racine cs (clipElmt e c)

/-- `Canva::clip`, core/src/vue/canva.cc:204-211, 1445-1464 (linear axes): zone of the parent and coordinates of the child. -/
def clip (zone vue : Rect) : Clip := { target := zone, rdi := vue }

/-- `Canva::vue`, core/src/vue/canva.cc:196-203, 1466-1472: new coordinates on the whole region of the parent. -/
def vue (parent : Clip) (r : Rect) : Clip := { target := parent.rdi, rdi := r }

/-- `Rectf::englobant`, core/include/tsd/vue/image.hpp:187-193. -/
noncomputable def englobant (p q : ℝ × ℝ) : Rect := { x := min p.1 q.1, y := min p.2 q.2, l := |q.1 - p.1|, h := |q.2 - p.2| }

/-- `CanvaElement::get_rdi`, core/src/vue/canva.cc:255-300 (`none`: exception). -/
noncomputable def getRdi (e : Elmt) : Option Rect :=
  match e.genre with
  | .rect | .ligne | .fleche => some (englobant e.p0 e.p1)
  | .image => some { englobant e.p0 e.p1 with l := (englobant e.p0 e.p1).l + 1, h := (englobant e.p0 e.p1).h + 1 }
  | .polygone => none
  | .chaine => some { x := if e.centreX then e.p0.1 - e.diml / 2 else e.p0.1, y := if e.centreY then e.p0.2 - e.dimh / 2 else e.p0.2, l := e.diml, h := e.dimh }
  | .marqueur => some { x := e.p0.1, y := e.p0.2, l := 0, h := 0 }
  | .cercle => some { x := e.p0.1 - e.r / 2, y := e.p0.2 - e.r / 2, l := e.r / 2, h := e.r / 2 }
  | .rvec | .accu | .pti | .ellipse => some { x := e.p0.1, y := e.p0.2, l := 1, h := 1 }

/-- `union_rdi`, core/src/vue/canva.cc:415-426. -/
noncomputable def union (r s : Rect) : Rect :=
  { x := min r.x s.x, y := min r.y s.y, l := max (r.x + r.l) (s.x + s.l) - min r.x s.x, h := max (r.y + r.h) (s.y + s.h) - min r.y s.y }

/-- `calc_rdi_englobante`, core/src/vue/canva.cc:428-447, from the second element on. -/
noncomputable def englobanteDe : Rect → List Elmt → Option Rect
  | r, [] => some r
  | r, e :: t => (getRdi e).bind (fun s : Rect => englobanteDe (union r s) t)

/-- `calc_rdi_englobante`, core/src/vue/canva.cc:428-447. -/
noncomputable def englobante : List Elmt → Option Rect
  | [] => some { x := 0, y := 0, l := 0, h := 0 }
  | e :: t => (getRdi e).bind (fun s : Rect => englobanteDe s t)

/-- `Canva::cercle`, core/src/vue/canva.cc:520-532 (`deuxpi` is the constant 2π). -/
def cercle (deuxpi : ℝ) (p : ℝ × ℝ) (r : ℝ) : Elmt :=
  { genre := .ellipse, p0 := p, p1 := (0, 0), diml := 0, dimh := 0, r := r, y2 := 0, y3 := deuxpi, a := r, b := r, pts := [], centreX := false, centreY := false }

/-- `Canva::ligne`, core/src/vue/canva.cc:534-544. -/
def ligne (p q : ℝ × ℝ) : Elmt :=
  { genre := .ligne, p0 := p, p1 := q, diml := 0, dimh := 0, r := 3, y2 := 0, y3 := 0, a := 0, b := 0, pts := [], centreX := false, centreY := false }

/-! ## Specification -/

/-- The point is in the rectangle (of dimensions not negative). -/
def Dans (p : ℝ × ℝ) (r : Rect) : Prop := r.x ≤ p.1 ∧ p.1 ≤ r.x + r.l ∧ r.y ≤ p.2 ∧ p.2 ≤ r.y + r.h

/-- `r` is inside `s`. -/
def Inclus (r s : Rect) : Prop := s.x ≤ r.x ∧ r.x + r.l ≤ s.x + s.l ∧ s.y ≤ r.y ∧ r.y + r.h ≤ s.y + s.h

/-- A proper coordinate system. -/
def Propre (c : Clip) : Prop := 0 < c.rdi.l ∧ 0 < c.rdi.h ∧ 0 ≤ c.target.l ∧ 0 ≤ c.target.h

/-- Image of a point through a chain of canvases, the first one being the innermost. -/
noncomputable def image (cs : List Clip) (p : ℝ × ℝ) : ℝ × ℝ := cs.foldl (fun (p : ℝ × ℝ) (c : Clip) => c.v2c p) p

/-- Each canvas of the chain has its zone inside the region of the next one. -/
def Emboite : List Clip → Prop
  | [] => True
  | [c] => Propre c
  | c :: d :: cs => Propre c ∧ Inclus c.target d.rdi ∧ Emboite (d :: cs)

/-! ## Nested canvases -/

theorem ajoute_eq (racine : List Elmt) (cs : List Clip) : ∀ e, ajoute racine cs e = racine ++ [cs.foldl clipElmt e] := by
  induction cs with
  | nil => intro e; rfl
  | cons c cs ih => intro e; simp [ajoute, ih]

theorem foldl_p0 (cs : List Clip) : ∀ e : Elmt, (cs.foldl clipElmt e).p0 = image cs e.p0 ∧ (cs.foldl clipElmt e).p1 = image cs e.p1 ∧
    (cs.foldl clipElmt e).pts = e.pts.map (image cs) ∧ (cs.foldl clipElmt e).genre = e.genre := by
  induction cs with
  | nil =>
    intro e
    have h : image [] = id := rfl
    exact ⟨rfl, rfl, by rw [h]; simp, rfl⟩
  | cons c cs ih =>
    intro e
    obtain ⟨h1, h2, h3, h4⟩ := ih (clipElmt e c)
    refine ⟨?_, ?_, ?_, ?_⟩
    · rw [List.foldl_cons, h1]; rfl
    · rw [List.foldl_cons, h2]; rfl
    · rw [List.foldl_cons, h3]
      simp only [clipElmt, List.map_map]
      rfl
    · rw [List.foldl_cons, h4]; rfl

/-- **C216** (order and place): drawing on a canvas nested at any depth adds exactly one element to the root, after the previous ones, of the same kind, each of its points being the image of the point given through the chain of coordinate systems. -/
theorem C216_ajoute (racine : List Elmt) (cs : List Clip) (e : Elmt) :
    ∃ e', ajoute racine cs e = racine ++ [e'] ∧ e'.genre = e.genre ∧ e'.p0 = image cs e.p0 ∧ e'.p1 = image cs e.p1 ∧ e'.pts = e.pts.map (image cs) := by
  obtain ⟨h1, h2, h3, h4⟩ := foldl_p0 cs e
  exact ⟨cs.foldl clipElmt e, ajoute_eq racine cs e, h4, h1, h2, h3⟩

theorem v2cx_dans {c : Clip} (h : Propre c) {x : ℝ} (h1 : c.rdi.x ≤ x) (h2 : x ≤ c.rdi.x + c.rdi.l) : c.target.x ≤ c.v2cx x ∧ c.v2cx x ≤ c.target.x + c.target.l := by
  obtain ⟨a, _, b, _⟩ := h
  simp only [Clip.v2cx, if_neg a.ne']
  constructor
  · have : 0 ≤ c.target.l * (x - c.rdi.x) / c.rdi.l := div_nonneg (mul_nonneg b (by linarith)) a.le
    linarith
  · have : c.target.l * (x - c.rdi.x) / c.rdi.l ≤ c.target.l := by
      rw [div_le_iff₀ a]; exact mul_le_mul_of_nonneg_left (by linarith) b
    linarith

theorem v2cy_dans {c : Clip} (h : Propre c) {y : ℝ} (h1 : c.rdi.y ≤ y) (h2 : y ≤ c.rdi.y + c.rdi.h) : c.target.y ≤ c.v2cy y ∧ c.v2cy y ≤ c.target.y + c.target.h := by
  obtain ⟨_, a, _, b⟩ := h
  simp only [Clip.v2cy, if_neg a.ne']
  constructor
  · have : 0 ≤ c.target.h * (y - c.rdi.y) / c.rdi.h := div_nonneg (mul_nonneg b (by linarith)) a.le
    linarith
  · have : c.target.h * (y - c.rdi.y) / c.rdi.h ≤ c.target.h := by
      rw [div_le_iff₀ a]; exact mul_le_mul_of_nonneg_left (by linarith) b
    linarith

theorem v2c_dans {c : Clip} (h : Propre c) {p : ℝ × ℝ} (hp : Dans p c.rdi) : Dans (c.v2c p) c.target := by
  obtain ⟨a, b, d, e⟩ := hp
  obtain ⟨h1, h2⟩ := v2cx_dans h a b
  obtain ⟨h3, h4⟩ := v2cy_dans h d e
  exact ⟨h1, h2, h3, h4⟩

theorem dans_inclus {p : ℝ × ℝ} {r s : Rect} (hp : Dans p r) (h : Inclus r s) : Dans p s := by
  obtain ⟨a, b, d, e⟩ := hp
  obtain ⟨f, g, i, j⟩ := h
  exact ⟨by linarith, by linarith, by linarith, by linarith⟩

/-- **C216** (nothing leaves the zones): through canvases nested at any depth, each with its zone inside the region of its parent, a point of the region of the innermost one is drawn inside the zone of the outermost one. -/
theorem C216_dedans (cs : List Clip) : ∀ (c d : Clip), (c :: cs).getLast? = some d → Emboite (c :: cs) → ∀ p, Dans p c.rdi → Dans (image (c :: cs) p) d.target := by
  induction cs with
  | nil =>
    intro c d hd he p hp
    obtain rfl : c = d := by simpa using hd
    exact v2c_dans he hp
  | cons c' cs ih =>
    intro c d hd he p hp
    obtain ⟨h1, h2, h3⟩ := he
    have := ih c' d (by simpa [List.getLast?_cons_cons] using hd) h3 (c.v2c p) (dans_inclus (v2c_dans h1 hp) h2)
    exact this

/-- **C216** (two levels are one): drawing through two nested canvases is drawing through one, whose zone is the image of the inner zone. -/
theorem C216_compose (c d : Clip) (hc : c.rdi.l ≠ 0 ∧ c.rdi.h ≠ 0) (hd : d.rdi.l ≠ 0 ∧ d.rdi.h ≠ 0) (p : ℝ × ℝ) :
    d.v2c (c.v2c p) = (clip { x := d.v2cx c.target.x, y := d.v2cy c.target.y, l := d.v2clx c.target.l, h := d.v2cly c.target.h } c.rdi).v2c p := by
  obtain ⟨h1, h2⟩ := hc
  obtain ⟨h3, h4⟩ := hd
  simp only [Clip.v2c, Clip.v2cx, Clip.v2cy, Clip.v2clx, Clip.v2cly, clip, if_neg h1, if_neg h2, if_neg h3, if_neg h4]
  ext <;> simp only
  · field_simp; ring
  · field_simp; ring

/-- **C216** (corners): the corners of the region of a canvas go to the corners of its zone; `vue` covers the whole region of its parent. -/
theorem C216_coins (c : Clip) (hl : c.rdi.l ≠ 0) (hh : c.rdi.h ≠ 0) :
    c.v2c (c.rdi.x, c.rdi.y) = (c.target.x, c.target.y) ∧ c.v2c (c.rdi.x + c.rdi.l, c.rdi.y + c.rdi.h) = (c.target.x + c.target.l, c.target.y + c.target.h) ∧
    (∀ r : Rect, (vue c r).target = c.rdi ∧ (vue c r).rdi = r) := by
  simp only [Clip.v2c, Clip.v2cx, Clip.v2cy, if_neg hl, if_neg hh]
  refine ⟨?_, ?_, fun r => ⟨rfl, rfl⟩⟩
  · ext <;> simp
  · ext <;> simp only
    · field_simp; ring
    · field_simp; ring

/-- Hypotheses of `C216_dedans`: a figure `[0, 10] × [0, 1]` in the right half of a canvas of 800 × 600 pixels. -/
example : Emboite [clip ⟨400, 0, 400, 600⟩ ⟨0, 0, 10, 1⟩, clip ⟨0, 0, 800, 600⟩ ⟨0, 0, 800, 600⟩] ∧
    image [clip ⟨400, 0, 400, 600⟩ ⟨0, 0, 10, 1⟩, clip ⟨0, 0, 800, 600⟩ ⟨0, 0, 800, 600⟩] (5, 1) = (600, 600) := by
  constructor
  · refine ⟨⟨?_, ?_, ?_, ?_⟩, ⟨?_, ?_, ?_, ?_⟩, ⟨?_, ?_, ?_, ?_⟩⟩ <;> norm_num [clip]
  · norm_num [image, clip, Clip.v2c, Clip.v2cx, Clip.v2cy]

/-- **C216** (no clipping): a point outside the region of a canvas is drawn outside its zone, over its neighbours. -/
theorem C216_deborde_refute : ∃ (c : Clip), Propre c ∧ ¬ Dans (c.v2c (20, 1)) c.target := by
  refine ⟨clip ⟨400, 0, 400, 600⟩ ⟨0, 0, 10, 1⟩, ⟨by norm_num [clip], by norm_num [clip], by norm_num [clip], by norm_num [clip]⟩, ?_⟩
  norm_num [Dans, clip, Clip.v2c, Clip.v2cx, Clip.v2cy]

/-- **C216** (the angles of an arc are taken for ordinates): a whole circle (angles 0 and 2π) drawn on a canvas whose vertical coordinates are scaled by `k` reaches the root with the angles `y0` and `y0 + 2πk`: it is no more the circle from 0 to 2π, unless the vertical coordinates are unchanged. -/
theorem C216_angles_refute (deuxpi : ℝ) (hpi : 0 < deuxpi) (p : ℝ × ℝ) (r : ℝ) (c : Clip) (hc : Propre c) (racine : List Elmt) :
    ∃ e, ajoute racine [c] (cercle deuxpi p r) = racine ++ [e] ∧
      ((e.y2 = 0 ∧ e.y3 = deuxpi) ↔ (c.target.h = c.rdi.h ∧ c.target.y = c.rdi.y)) := by
  refine ⟨clipElmt (cercle deuxpi p r) c, rfl, ?_⟩
  obtain ⟨_, h2, _, _⟩ := hc
  simp only [clipElmt, cercle, Clip.v2cy, if_neg h2.ne']
  constructor
  · rintro ⟨a, b⟩
    have e1 : c.target.h * deuxpi / c.rdi.h = deuxpi := by
      have : c.target.h * (deuxpi - c.rdi.y) / c.rdi.h = c.target.h * deuxpi / c.rdi.h + c.target.h * (0 - c.rdi.y) / c.rdi.h := by
        field_simp; ring
      linarith
    have e2 : c.target.h = c.rdi.h := by
      rw [div_eq_iff h2.ne'] at e1
      have : (c.target.h - c.rdi.h) * deuxpi = 0 := by linarith
      rcases mul_eq_zero.mp this with h | h
      · linarith
      · exact absurd h hpi.ne'
    refine ⟨e2, ?_⟩
    rw [e2, mul_div_assoc, mul_div_cancel₀ _ h2.ne'] at a
    linarith
  · rintro ⟨a, b⟩
    rw [a, b]
    constructor
    · field_simp; ring
    · field_simp; ring

/-! ## Bounding region -/

theorem union_inclus (r s : Rect) : Inclus r (union r s) ∧ Inclus s (union r s) := by
  simp only [Inclus, union]
  have h1 := le_max_left (r.x + r.l) (s.x + s.l)
  have h2 := le_max_right (r.x + r.l) (s.x + s.l)
  have h3 := le_max_left (r.y + r.h) (s.y + s.h)
  have h4 := le_max_right (r.y + r.h) (s.y + s.h)
  exact ⟨⟨min_le_left _ _, by linarith, min_le_left _ _, by linarith⟩, ⟨min_le_right _ _, by linarith, min_le_right _ _, by linarith⟩⟩

theorem union_min (r s t : Rect) (h1 : Inclus r t) (h2 : Inclus s t) : Inclus (union r s) t := by
  obtain ⟨a1, a2, a3, a4⟩ := h1
  obtain ⟨b1, b2, b3, b4⟩ := h2
  simp only [Inclus, union]
  refine ⟨le_min a1 b1, ?_, le_min a3 b3, ?_⟩
  · have := max_le a2 b2; linarith
  · have := max_le a4 b4; linarith

theorem inclus_trans {r s t : Rect} (h : Inclus r s) (h' : Inclus s t) : Inclus r t := by
  obtain ⟨a1, a2, a3, a4⟩ := h
  obtain ⟨b1, b2, b3, b4⟩ := h'
  exact ⟨by linarith, by linarith, by linarith, by linarith⟩

theorem inclus_refl (r : Rect) : Inclus r r := ⟨le_refl _, le_refl _, le_refl _, le_refl _⟩

theorem englobanteDe_correct (l : List Elmt) : ∀ (r0 r : Rect), englobanteDe r0 l = some r →
    Inclus r0 r ∧ (∀ e ∈ l, ∃ s, getRdi e = some s ∧ Inclus s r) ∧
    (∀ t, Inclus r0 t → (∀ e ∈ l, ∀ s, getRdi e = some s → Inclus s t) → Inclus r t) := by
  induction l with
  | nil =>
    intro r0 r h
    obtain rfl : r0 = r := by simpa [englobanteDe] using h
    exact ⟨inclus_refl _, by simp, fun t ht _ => ht⟩
  | cons e l ih =>
    intro r0 r h
    simp only [englobanteDe] at h
    cases hs : getRdi e with
    | none => rw [hs] at h; simp at h
    | some s =>
      rw [hs] at h
      obtain ⟨i1, i2, i3⟩ := ih (union r0 s) r h
      obtain ⟨u1, u2⟩ := union_inclus r0 s
      refine ⟨inclus_trans u1 i1, ?_, ?_⟩
      · intro e' he'
        rcases List.mem_cons.mp he' with rfl | he'
        · exact ⟨s, hs, inclus_trans u2 i1⟩
        · exact i2 e' he'
      · intro t ht hall
        apply i3 t (union_min r0 s t ht (hall e (by simp) s hs))
        intro e' he' s' hs'
        exact hall e' (by simp [he']) s' hs'

/-- **C216** (bounding region): when it is computed, it contains the region of every element and is contained in any region that does (it is the smallest one). It is computed exactly when there is no polygon. -/
theorem C216_englobante (l : List Elmt) (hl : l ≠ []) :
    ((englobante l).isSome = true ↔ ∀ e ∈ l, e.genre ≠ .polygone) ∧
    ∀ r, englobante l = some r → (∀ e ∈ l, ∃ s, getRdi e = some s ∧ Inclus s r) ∧ ∀ t, (∀ e ∈ l, ∀ s, getRdi e = some s → Inclus s t) → Inclus r t := by
  have hn : ∀ e : Elmt, getRdi e = none ↔ e.genre = .polygone := by
    intro e
    unfold getRdi
    cases e.genre <;> simp
  obtain ⟨e, t, rfl⟩ := List.exists_cons_of_ne_nil hl
  constructor
  · have hde : ∀ (t : List Elmt) (r : Rect), (englobanteDe r t).isSome = true ↔ ∀ e ∈ t, e.genre ≠ .polygone := by
      intro t
      induction t with
      | nil => intro r; simp [englobanteDe]
      | cons e t ih =>
        intro r
        simp only [englobanteDe]
        cases hs : getRdi e with
        | none => simp [(hn e).mp hs]
        | some s =>
          have : e.genre ≠ .polygone := fun h => by rw [(hn e).mpr h] at hs; simp at hs
          simp only [Option.bind_some, ih, List.mem_cons, forall_eq_or_imp]
          tauto
    simp only [englobante]
    cases hs : getRdi e with
    | none => simp [(hn e).mp hs]
    | some s =>
      have : e.genre ≠ .polygone := fun h => by rw [(hn e).mpr h] at hs; simp at hs
      simp only [Option.bind_some, hde, List.mem_cons, forall_eq_or_imp]
      tauto
  · intro r hr
    simp only [englobante] at hr
    cases hs : getRdi e with
    | none => rw [hs] at hr; simp at hr
    | some s =>
      rw [hs] at hr
      obtain ⟨i1, i2, i3⟩ := englobanteDe_correct t s r hr
      constructor
      · intro e' he'
        rcases List.mem_cons.mp he' with rfl | he'
        · exact ⟨s, hs, i1⟩
        · exact i2 e' he'
      · intro u hall
        exact i3 u (hall e (by simp) s hs) (fun e' he' => hall e' (by simp [he']))

/-- **C216** (the ends of a line are in its region). -/
theorem C216_ligne (p q : ℝ × ℝ) : ∃ s, getRdi (ligne p q) = some s ∧ Dans p s ∧ Dans q s := by
  refine ⟨englobant p q, rfl, ?_⟩
  have key : ∀ a b : ℝ, min a b ≤ a ∧ min a b ≤ b ∧ a ≤ min a b + |b - a| ∧ b ≤ min a b + |b - a| := by
    intro a b
    have h1 := le_abs_self (b - a)
    have h2 := neg_le_abs (b - a)
    have h3 := abs_nonneg (b - a)
    rcases le_total a b with h | h
    · rw [min_eq_left h]; exact ⟨le_refl _, h, by linarith, by linarith⟩
    · rw [min_eq_right h]; exact ⟨h, le_refl _, by linarith, by linarith⟩
  obtain ⟨a1, a2, a3, a4⟩ := key p.1 q.1
  obtain ⟨b1, b2, b3, b4⟩ := key p.2 q.2
  exact ⟨⟨a1, a3, b1, b3⟩, ⟨a2, a4, b2, b4⟩⟩

/-- **C216** (the region of a circle does not depend on its radius): the bounding region of a circle is the unit square on its centre; its leftmost point is outside as soon as the radius is positive. -/
theorem C216_cercle_refute (deuxpi : ℝ) (p : ℝ × ℝ) (r : ℝ) (hr : 0 < r) :
    ∃ s, englobante [cercle deuxpi p r] = some s ∧ s.l = 1 ∧ s.h = 1 ∧ ¬ Dans (p.1 - r, p.2) s := by
  refine ⟨{ x := p.1, y := p.2, l := 1, h := 1 }, rfl, rfl, rfl, ?_⟩
  rintro ⟨h, _⟩
  simp only at h
  linarith

/-- Hypotheses of `C216_englobante`: two lines. -/
example : [ligne (0, 0) (1, 2), ligne (5, 1) (3, 0)] ≠ [] ∧ ∀ e ∈ [ligne (0, 0) (1, 2), ligne (5, 1) (3, 0)], e.genre ≠ .polygone := by
  refine ⟨by simp, ?_⟩
  intro e he
  simp only [List.mem_cons, List.not_mem_nil, or_false] at he
  rcases he with rfl | rfl <;> simp [ligne]

end Verif.Canva
