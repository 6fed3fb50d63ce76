import Verif.Vue.Cercle
import Mathlib.Data.List.Count
import Mathlib.Data.List.Perm.Basic
import Mathlib.Data.List.FinRange
import Mathlib.Data.List.Nodup

/-!
# C221: rendering of a cloud of points by accumulation (core/src/vue/canva.cc:725-755)

The counters are exact (in the code, `float` counters stop at 2^24), and so are the quotients.
-/

namespace Verif.Accu

open Verif.Vue (Img Px pointAlpha pointsAlpha mele)

/-! ## Model -/

/-- `(p.x >= r) && (p.y >= r) && (p.x < dim.l-r) && (p.y < dim.h-r)` with `r = 1`, core/src/vue/canva.cc:737-738. -/
def interieur (l h : ℤ) (p : ℤ × ℤ) : Bool := decide (p.1 ≥ 1) && decide (p.2 ≥ 1) && decide (p.1 < l - 1) && decide (p.2 < h - 1)

/-- `a.block(p.x-r, p.y-r, 2*r+1, 2*r+1) += 1`, core/src/vue/canva.cc:739: the table is the function giving its entries. -/
def ajoute (a : ℤ × ℤ → ℕ) (p : ℤ × ℤ) : ℤ × ℤ → ℕ := fun q : ℤ × ℤ =>
  if p.1 - 1 ≤ q.1 ∧ q.1 < p.1 - 1 + (2 * 1 + 1) ∧ p.2 - 1 ≤ q.2 ∧ q.2 < p.2 - 1 + (2 * 1 + 1) then a q + 1 else a q

/-- The loop on the points, core/src/vue/canva.cc:732-740 (`pts`: the pixels of the points). -/
def accumule (l h : ℤ) (pts : List (ℤ × ℤ)) : ℤ × ℤ → ℕ :=
  pts.foldl (fun (a : ℤ × ℤ → ℕ) (p : ℤ × ℤ) => if interieur l h p then ajoute a p else a) (fun _ : ℤ × ℤ => 0)

/-- The pixels in the order of the drawing, core/src/vue/canva.cc:746-748. -/
def grille (l h : ℤ) : List (ℤ × ℤ) :=
  (List.range h.toNat).flatMap fun y : ℕ => (List.range l.toNat).map fun x : ℕ => ((x : ℤ), (y : ℤ))

/-- `a.valeur_max()`, core/src/vue/canva.cc:743 (the entries are not negative). -/
def maximum (l h : ℤ) (a : ℤ × ℤ → ℕ) : ℕ := ((grille l h).map a).foldl max 0

/-- `a *= 1.0f / (mc + 1e-20)`, core/src/vue/canva.cc:745: in `double`, `mc + 1e-20` is `mc` as soon as `mc ≥ 1`; when `mc = 0` all the entries are zero and stay so. -/
noncomputable def opacite (a : ℤ × ℤ → ℕ) (mc : ℕ) (q : ℤ × ℤ) : ℝ := (a q : ℝ) * (1 / (mc : ℝ))

/-- The points drawn, core/src/vue/canva.cc:746-753. -/
noncomputable def trace (l h : ℤ) (pts : List (ℤ × ℤ)) : List (ℤ × ℤ × ℝ) :=
  ((grille l h).filter fun q : ℤ × ℤ => decide (0 < accumule l h pts q)).map fun q : ℤ × ℤ => (q.1, q.2, opacite (accumule l h pts) (maximum l h (accumule l h pts)) q)

/-- The rendering of the element, core/src/vue/canva.cc:725-755. The canvas has the dimensions of the image. -/
noncomputable def rendu (im : Img Px) (c : Px) (pts : List (ℤ × ℤ)) : Option (Img Px) := pointsAlpha im c (trace im.sx im.sy pts)

/-! ## Specification -/

/-- The pixel of the point is not on the border of an image of `l` by `h` pixels, nor outside. -/
def Garde (l h : ℤ) (p : ℤ × ℤ) : Prop := 0 < p.1 ∧ p.1 < l - 1 ∧ 0 < p.2 ∧ p.2 < h - 1

instance (l h : ℤ) (p : ℤ × ℤ) : Decidable (Garde l h p) := by unfold Garde; infer_instance

/-- The two pixels are equal or neighbours (also diagonally). -/
def Voisin (p q : ℤ × ℤ) : Prop := |p.1 - q.1| ≤ 1 ∧ |p.2 - q.2| ≤ 1

instance (p q : ℤ × ℤ) : Decidable (Voisin p q) := by unfold Voisin; infer_instance

/-- Number of points kept whose pixel is `q` or a neighbour of `q`. -/
def densite (l h : ℤ) (pts : List (ℤ × ℤ)) (q : ℤ × ℤ) : ℕ := pts.countP fun p : ℤ × ℤ => decide (Garde l h p ∧ Voisin p q)

/-! ## Proofs -/

theorem interieur_iff (l h : ℤ) (p : ℤ × ℤ) : interieur l h p = true ↔ Garde l h p := by
  unfold interieur Garde
  simp only [Bool.and_eq_true, decide_eq_true_eq]
  omega

theorem bloc_iff (p q : ℤ × ℤ) : (p.1 - 1 ≤ q.1 ∧ q.1 < p.1 - 1 + (2 * 1 + 1) ∧ p.2 - 1 ≤ q.2 ∧ q.2 < p.2 - 1 + (2 * 1 + 1)) ↔ Voisin p q := by
  unfold Voisin
  rw [abs_le, abs_le]
  omega

theorem accumule_de (l h : ℤ) (q : ℤ × ℤ) (pts : List (ℤ × ℤ)) : ∀ a : ℤ × ℤ → ℕ,
    pts.foldl (fun (a : ℤ × ℤ → ℕ) (p : ℤ × ℤ) => if interieur l h p then ajoute a p else a) a q = a q + densite l h pts q := by
  induction pts with
  | nil => intro a; simp [densite]
  | cons p pts ih =>
    intro a
    rw [List.foldl_cons, ih]
    unfold densite
    rw [List.countP_cons]
    by_cases h1 : interieur l h p = true
    · have g := (interieur_iff l h p).1 h1
      rw [if_pos h1]
      unfold ajoute
      by_cases h2 : Voisin p q
      · rw [if_pos ((bloc_iff p q).2 h2), if_pos (by simp [g, h2])]
        omega
      · rw [if_neg (fun h3 => h2 ((bloc_iff p q).1 h3)), if_neg (by simp [h2])]
        omega
    · have g : ¬ Garde l h p := fun g => h1 ((interieur_iff l h p).2 g)
      rw [if_neg h1, if_neg (by simp [g])]
      omega

/-- **C221 (density).** The counter of a pixel is the number of points kept at a distance of at most one pixel in each direction. -/
theorem C221_densite (l h : ℤ) (pts : List (ℤ × ℤ)) (q : ℤ × ℤ) : accumule l h pts q = densite l h pts q := by
  unfold accumule
  rw [accumule_de]
  simp

theorem mem_grille (l h : ℤ) (q : ℤ × ℤ) : q ∈ grille l h ↔ 0 ≤ q.1 ∧ q.1 < l ∧ 0 ≤ q.2 ∧ q.2 < h := by
  unfold grille
  simp only [List.mem_flatMap, List.mem_map, List.mem_range]
  constructor
  · rintro ⟨y, hy, x, hx, rfl⟩
    simp only
    omega
  · rintro ⟨h1, h2, h3, h4⟩
    exact ⟨q.2.toNat, by omega, q.1.toNat, by omega, Prod.ext (by simp only; omega) (by simp only; omega)⟩

theorem grille_nodup (l h : ℤ) : (grille l h).Nodup := by
  unfold grille
  rw [List.nodup_flatMap]
  refine ⟨fun y _ => List.nodup_range.map fun a b hab => by simpa using hab, ?_⟩
  refine List.nodup_range.imp fun {a b} hab => ?_
  intro p hp hp'
  obtain ⟨x, -, rfl⟩ := List.mem_map.1 hp
  obtain ⟨x', -, h2⟩ := List.mem_map.1 hp'
  simp at h2
  exact hab h2.2.symm

theorem le_foldl_max (l : List ℕ) : ∀ m, m ≤ l.foldl max m ∧ (∀ x ∈ l, x ≤ l.foldl max m) ∧ (l.foldl max m = m ∨ l.foldl max m ∈ l) := by
  induction l with
  | nil => intro m; exact ⟨le_refl _, by simp, Or.inl rfl⟩
  | cons a l ih =>
    intro m
    obtain ⟨h1, h2, h3⟩ := ih (max m a)
    rw [List.foldl_cons]
    refine ⟨le_trans (le_max_left _ _) h1, fun x hx => ?_, ?_⟩
    · rcases List.mem_cons.1 hx with rfl | hx
      · exact le_trans (le_max_right _ _) h1
      · exact h2 x hx
    · rcases h3 with h3 | h3
      · rcases max_choice m a with h | h
        · exact Or.inl (h3.trans h)
        · right; rw [h3, h]; exact List.mem_cons_self
      · exact Or.inr (List.mem_cons_of_mem _ h3)

/-- **C221 (opacity).** Every pixel of the image has an opacity between 0 and 1, zero exactly where the density is zero, one exactly where the density is the largest, and proportional to the density. -/
theorem C221_opacite (l h : ℤ) (pts : List (ℤ × ℤ)) (q : ℤ × ℤ) (hq : 0 ≤ q.1 ∧ q.1 < l ∧ 0 ≤ q.2 ∧ q.2 < h) (w : ℤ × ℤ → ℝ) (hw : w = opacite (accumule l h pts) (maximum l h (accumule l h pts))) :
    0 ≤ w q ∧ w q ≤ 1 ∧ (w q = 0 ↔ densite l h pts q = 0) ∧
    (w q = 1 ↔ 0 < densite l h pts q ∧ ∀ q', 0 ≤ q'.1 ∧ q'.1 < l ∧ 0 ≤ q'.2 ∧ q'.2 < h → densite l h pts q' ≤ densite l h pts q) ∧
    ∀ q', w q * densite l h pts q' = w q' * densite l h pts q := by
  have e : accumule l h pts = densite l h pts := funext fun q => C221_densite l h pts q
  rw [e] at hw
  subst hw
  set d := densite l h pts with hd
  have hle : ∀ q', 0 ≤ q'.1 ∧ q'.1 < l ∧ 0 ≤ q'.2 ∧ q'.2 < h → d q' ≤ maximum l h d := fun q' h' =>
    (le_foldl_max _ 0).2.1 _ (List.mem_map.2 ⟨q', (mem_grille l h q').2 h', rfl⟩)
  unfold opacite
  have hq' := hle q hq
  have hqr : (d q : ℝ) ≤ (maximum l h d : ℝ) := by exact_mod_cast hq'
  have h0 : (0 : ℝ) ≤ d q := Nat.cast_nonneg _
  refine ⟨by positivity, ?_, ?_, ?_, fun q' => by ring⟩
  · rw [mul_one_div]
    exact div_le_one_of_le₀ hqr (Nat.cast_nonneg _)
  · constructor
    · intro hz
      rcases mul_eq_zero.1 hz with hz | hz
      · exact_mod_cast hz
      · have : (maximum l h d : ℝ) = 0 := by simpa using hz
        have : maximum l h d = 0 := by exact_mod_cast this
        omega
    · intro hz; rw [hz]; simp
  · rw [mul_one_div]
    constructor
    · intro h1
      have hm : (maximum l h d : ℝ) ≠ 0 := by
        intro hz; rw [hz] at h1; simp at h1
      rw [div_eq_one_iff_eq hm] at h1
      have h1' : d q = maximum l h d := by exact_mod_cast h1
      have hm' : maximum l h d ≠ 0 := by exact_mod_cast hm
      exact ⟨by omega, fun q' h' => by rw [h1']; exact hle q' h'⟩
    · rintro ⟨h1, h2⟩
      have h3 : maximum l h d = d q := by
        refine le_antisymm ?_ hq'
        rcases (le_foldl_max ((grille l h).map d) 0).2.2 with h3 | h3
        · unfold maximum; omega
        · obtain ⟨q', hm, he⟩ := List.mem_map.1 h3
          unfold maximum
          rw [← he]
          exact h2 q' ((mem_grille l h q').1 hm)
      rw [h3, div_self]
      exact_mod_cast h1.ne'

theorem pointsAlpha_nodup (c : Px) (l : List (ℤ × ℤ × ℝ)) : ∀ (im : Img Px), im.Valide → (∀ p ∈ l, 0 ≤ p.2.2 ∧ p.2.2 ≤ 1) → (l.map fun p : ℤ × ℤ × ℝ => (p.1, p.2.1)).Nodup →
    ∃ r, pointsAlpha im c l = some r ∧ r.sx = im.sx ∧ r.sy = im.sy ∧ r.Valide ∧
    (∀ u v, (∀ w, (u, v, w) ∉ l) → r.val u v = im.val u v) ∧
    (∀ p ∈ l, ∀ ov, im.val p.1 p.2.1 = some ov → r.val p.1 p.2.1 = mele p.2.2 c ov) := by
  induction l with
  | nil => intro im hv _ _; exact ⟨im, rfl, rfl, rfl, hv, fun _ _ _ => rfl, by simp⟩
  | cons p l ih =>
    intro im hv hb hn
    obtain ⟨hp0, hp1⟩ := hb p (by simp)
    rw [List.map_cons, List.nodup_cons] at hn
    have hstep : ∃ i, pointAlpha im p.1 p.2.1 c p.2.2 = some i ∧ i.sx = im.sx ∧ i.sy = im.sy ∧ i.Valide ∧
        (∀ u v, ¬ (u = p.1 ∧ v = p.2.1) → i.val u v = im.val u v) ∧ ∀ ov, im.val p.1 p.2.1 = some ov → i.val p.1 p.2.1 = mele p.2.2 c ov := by
      obtain ⟨i, e, i1, i2, i3, i4, i5⟩ := Verif.Vue.C167_point_alpha im hv p.1 p.2.1 c p.2.2 hp0 hp1
      refine ⟨i, e, i1, i2, i3, i4, fun ov ho => ?_⟩
      have hin : 0 ≤ p.1 ∧ 0 ≤ p.2.1 ∧ p.1 < im.sx ∧ p.2.1 < im.sy := by
        unfold Img.val at ho
        by_contra hc
        rw [if_neg (by tauto)] at ho
        exact absurd ho (by simp)
      unfold pointAlpha at e
      rw [if_pos hin, Verif.Vue.lit_val im _ _ hv hin, ho, Option.bind_some] at e
      obtain ⟨px, hpx, -⟩ := Verif.Vue.mele_borne p.2.2 c ov hp0 hp1
      rw [hpx, Option.bind_some] at e
      obtain ⟨r, er, -, -, -, r4⟩ := Verif.Vue.pose_val im hv p.1 p.2.1 px hin
      rw [er] at e
      rw [← Option.some.inj e, r4, if_pos ⟨rfl, rfl⟩, hpx]
    obtain ⟨i, e, i1, i2, i3, i4, i5⟩ := hstep
    obtain ⟨r, er, r1, r2, r3, r4, r5⟩ := ih i i3 (fun q hq => hb q (List.mem_cons_of_mem _ hq)) hn.2
    refine ⟨r, by unfold pointsAlpha at er ⊢; rw [List.foldlM_cons, e]; exact er, r1.trans i1, r2.trans i2, r3, fun u v h => ?_, fun q hq ov ho => ?_⟩
    · rw [r4 u v fun w hw => h w (List.mem_cons_of_mem _ hw), i4 u v]
      rintro ⟨rfl, rfl⟩
      exact h p.2.2 (by simp)
    · rcases List.mem_cons.1 hq with rfl | hq'
      · rw [r4 _ _ fun w hw => hn.1 (List.mem_map.2 ⟨_, hw, rfl⟩)]
        exact i5 ov ho
      · refine r5 q hq' ov ?_
        rw [i4 _ _ ?_]
        · exact ho
        · rintro ⟨h1, h2⟩
          exact hn.1 (List.mem_map.2 ⟨q, hq', by rw [h1, h2]⟩)

/-- **C221 (rendering).** The rendering always succeeds; each pixel of the image is blended once with the colour, with the weight `opacite`: the pixels of zero density are unchanged, those of greatest density take the colour. -/
theorem C221_rendu (im : Img Px) (hv : im.Valide) (c : Px) (pts : List (ℤ × ℤ)) : ∃ r, rendu im c pts = some r ∧ r.sx = im.sx ∧ r.sy = im.sy ∧ r.Valide ∧
    ∀ u v ov, im.val u v = some ov →
      (densite im.sx im.sy pts (u, v) = 0 → r.val u v = some ov) ∧
      (0 < densite im.sx im.sy pts (u, v) → r.val u v = mele (opacite (accumule im.sx im.sy pts) (maximum im.sx im.sy (accumule im.sx im.sy pts)) (u, v)) c ov) ∧
      (0 < densite im.sx im.sy pts (u, v) → (∀ q' : ℤ × ℤ, 0 ≤ q'.1 ∧ q'.1 < im.sx ∧ 0 ≤ q'.2 ∧ q'.2 < im.sy → densite im.sx im.sy pts q' ≤ densite im.sx im.sy pts (u, v)) → r.val u v = some c) := by
  have hmem : ∀ p ∈ trace im.sx im.sy pts, (0 ≤ p.1 ∧ p.1 < im.sx ∧ 0 ≤ p.2.1 ∧ p.2.1 < im.sy) ∧ 0 < densite im.sx im.sy pts (p.1, p.2.1) ∧
      p.2.2 = opacite (accumule im.sx im.sy pts) (maximum im.sx im.sy (accumule im.sx im.sy pts)) (p.1, p.2.1) := by
    intro p hp
    unfold trace at hp
    obtain ⟨q, hq, rfl⟩ := List.mem_map.1 hp
    rw [List.mem_filter, mem_grille, decide_eq_true_eq, C221_densite] at hq
    exact ⟨hq.1, hq.2, rfl⟩
  obtain ⟨r, e, r1, r2, r3, r4, r5⟩ := pointsAlpha_nodup c (trace im.sx im.sy pts) im hv
    (fun p hp => by
      obtain ⟨h1, -, h3⟩ := hmem p hp
      have h := C221_opacite im.sx im.sy pts (p.1, p.2.1) h1 _ rfl
      rw [h3]
      exact ⟨h.1, h.2.1⟩)
    (by
      unfold trace
      rw [List.map_map]
      have : ((fun p : ℤ × ℤ × ℝ => (p.1, p.2.1)) ∘ fun q : ℤ × ℤ => (q.1, q.2, opacite (accumule im.sx im.sy pts) (maximum im.sx im.sy (accumule im.sx im.sy pts)) q)) = id := by
        funext q; rfl
      rw [this, List.map_id]
      exact (grille_nodup _ _).filter _)
  refine ⟨r, e, r1, r2, r3, fun u v ov ho => ?_⟩
  have hin : 0 ≤ u ∧ u < im.sx ∧ 0 ≤ v ∧ v < im.sy := by
    unfold Img.val at ho
    by_contra hc
    rw [if_neg (by tauto)] at ho
    exact absurd ho (by simp)
  have hval : 0 < densite im.sx im.sy pts (u, v) → r.val u v = mele (opacite (accumule im.sx im.sy pts) (maximum im.sx im.sy (accumule im.sx im.sy pts)) (u, v)) c ov := by
    intro hd
    refine r5 (u, v, opacite (accumule im.sx im.sy pts) (maximum im.sx im.sy (accumule im.sx im.sy pts)) (u, v)) ?_ ov ho
    unfold trace
    exact List.mem_map.2 ⟨(u, v), List.mem_filter.2 ⟨(mem_grille _ _ _).2 hin, by rw [decide_eq_true_eq, C221_densite]; exact hd⟩, rfl⟩
  refine ⟨fun hz => ?_, hval, fun hd hmax => ?_⟩
  · rw [r4 u v fun w hw => ?_]
    · exact ho
    · have := (hmem _ hw).2.1
      simp only at this
      omega
  · rw [hval hd, (C221_opacite im.sx im.sy pts (u, v) hin _ rfl).2.2.2.1.2 ⟨hd, hmax⟩]
    exact Verif.Vue.mele_un c ov

/-- **C221 (order).** The order of the points is indifferent. -/
theorem C221_ordre (im : Img Px) (c : Px) (pts pts' : List (ℤ × ℤ)) (h : pts.Perm pts') : rendu im c pts = rendu im c pts' := by
  have e : accumule im.sx im.sy pts = accumule im.sx im.sy pts' := by
    funext q
    rw [C221_densite, C221_densite]
    exact h.countP_eq _
  unfold rendu trace
  rw [e]

theorem densite_repete (l h : ℤ) (pts : List (ℤ × ℤ)) (k : ℕ) (q : ℤ × ℤ) : densite l h (List.replicate k pts).flatten q = k * densite l h pts q := by
  unfold densite
  induction k with
  | zero => simp
  | succ k ih => rw [List.replicate_succ, List.flatten_cons, List.countP_append, ih]; ring

theorem foldl_max_mul (k : ℕ) (l : List ℕ) : ∀ m, (l.map fun x : ℕ => k * x).foldl max (k * m) = k * l.foldl max m := by
  induction l with
  | nil => intro m; rfl
  | cons a l ih => intro m; rw [List.map_cons, List.foldl_cons, List.foldl_cons, ← ih, Nat.mul_max_mul_left]

/-- **C221 (scale).** Repeating all the points the same number of times does not change the picture: only the relative density matters. -/
theorem C221_repete (im : Img Px) (c : Px) (pts : List (ℤ × ℤ)) (k : ℕ) (hk : 0 < k) : rendu im c (List.replicate k pts).flatten = rendu im c pts := by
  have e : accumule im.sx im.sy (List.replicate k pts).flatten = fun q : ℤ × ℤ => k * accumule im.sx im.sy pts q := by
    funext q
    rw [C221_densite, C221_densite, densite_repete]
  have em : maximum im.sx im.sy (accumule im.sx im.sy (List.replicate k pts).flatten) = k * maximum im.sx im.sy (accumule im.sx im.sy pts) := by
    rw [e]
    unfold maximum
    have h := foldl_max_mul k ((grille im.sx im.sy).map (accumule im.sx im.sy pts)) 0
    rw [List.map_map, Nat.mul_zero] at h
    exact h
  unfold rendu
  congr 1
  unfold trace
  have hop : opacite (accumule im.sx im.sy (List.replicate k pts).flatten) (maximum im.sx im.sy (accumule im.sx im.sy (List.replicate k pts).flatten)) = opacite (accumule im.sx im.sy pts) (maximum im.sx im.sy (accumule im.sx im.sy pts)) := by
    funext q
    rw [em, e]
    unfold opacite
    have hk' : (k : ℝ) ≠ 0 := by exact_mod_cast hk.ne'
    push_cast
    rw [mul_one_div, mul_one_div, mul_div_mul_left _ _ hk']
  rw [hop, e]
  congr 1
  refine List.filter_congr fun q _ => ?_
  simp only [decide_eq_decide]
  constructor
  · intro h; exact Nat.pos_of_mul_pos_left h
  · intro h; exact Nat.mul_pos hk h

/-- **C221 (border).** The points whose pixel is on the border of the image are lost, although they are in the image: alone, they leave no trace. -/
theorem C221_bord_refute (im : Img Px) (c : Px) (pts : List (ℤ × ℤ)) (h : ∀ p ∈ pts, p.1 = 0 ∨ p.2 = 0 ∨ p.1 = im.sx - 1 ∨ p.2 = im.sy - 1) : rendu im c pts = some im := by
  have e : trace im.sx im.sy pts = [] := by
    unfold trace
    rw [List.map_eq_nil_iff, List.filter_eq_nil_iff]
    intro q _
    rw [decide_eq_true_eq, C221_densite]
    unfold densite
    rw [not_lt, Nat.le_zero, List.countP_eq_zero]
    intro p hp
    rw [decide_eq_true_eq]
    rintro ⟨⟨h1, h2, h3, h4⟩, -⟩
    have := h p hp
    omega
  unfold rendu
  rw [e]
  rfl

/-- Two points in an image of 6 by 5 pixels: the common neighbours have the double density, the point of the border is not counted. -/
example : densite 6 5 [(2, 2), (3, 2), (0, 2)] (2, 2) = 2 ∧ densite 6 5 [(2, 2), (3, 2), (0, 2)] (1, 1) = 1 ∧ densite 6 5 [(2, 2), (3, 2), (0, 2)] (5, 2) = 0 := by decide +kernel

/-- The hypotheses of `C221_rendu` and of its last claim are met. -/
example : (⟨3, 3, List.replicate 9 (fun _ : Fin 4 => 7#8)⟩ : Img Px).Valide ∧ 0 < densite 3 3 [(1, 1)] (1, 1) := by
  refine ⟨⟨by decide, by decide, by simp⟩, by decide +kernel⟩

end Verif.Accu
