import Verif.Vue.MelangeProps
import Verif.Vue.Polygone
import Verif.Vue.Canva

/-!
# C227: texts of a canvas: limits, alignment, clipping (core/src/vue/canva.cc:900-1052)

The image of the text is given (C223). The position of the anchor is given in pixels. Texts that do not belong to a group.
-/

namespace Verif.Etiquette

open Verif.Vue
open Verif.Polygone (tronque)

/-! ## Model -/

/-- `Align`, core/include/tsd/vue.hpp:237-240. -/
inductive Align where
  | debut
  | centre
  | fin
deriving DecidableEq

/-- Largest size of the text along one axis: `s` is the size of the image, `pos` the anchor, `m` the margin, `lim` the limit asked in pixels, if any: core/src/vue/canva.cc:929-947. -/
def limite (s pos m : ℤ) (a : Align) (lim : Option ℤ) : ℤ :=
  let d := match a with
    | .debut => s - pos - 2 * m
    | .fin => s - pos - 2 * m + pos
    | .centre => (s - pos - 2 * m) * 2;
  match lim with
  | some n => min n d
  | none => d

/-- Options of the text (`Pinceau`, `dim`), core/src/vue/canva.cc:95-119, 627-636; `fond`: colour of the background, if active. -/
structure Options where
  hor : Align
  ver : Align
  fond : Option Px
  vertical : Bool
  limL : Option ℤ
  limH : Option ℤ

/-- The margin, core/src/vue/canva.cc:922-927. -/
def marge (o : Options) : ℤ := if o.fond.isSome then 2 else 0

/-- `dim_max`, given to the creation of the image of the text, core/src/vue/canva.cc:929-950: the two limits are exchanged for a vertical text. -/
def dimMax (im : Img Px) (pos : ℤ × ℤ) (o : Options) : ℤ × ℤ :=
  let d : ℤ × ℤ := (limite im.sx pos.1 (marge o) o.hor o.limL, limite im.sy pos.2 (marge o) o.ver o.limH);
  if o.vertical then (d.2, d.1) else d

/-- An image of one colour: `Image pg(l, h)`, `remplir(c)`, core/src/vue/canva.cc:1003-1004. -/
def uni (l h : ℤ) (c : Px) : Img Px := ⟨l, h, List.replicate (l * h).toNat c⟩

/-- The text with its background, core/src/vue/canva.cc:1000-1007. -/
def boite (neuf : Px) (o : Options) (txt : Img Px) : Option (Img Px) :=
  match o.fond with
  | some c => putiBorne neuf (uni (txt.sx + 2 * marge o) (txt.sy + 2 * marge o) c) 1 txt (marge o) (marge o)
  | none => some txt

/-- `px`, core/src/vue/canva.cc:1023-1028: the abscissa `p1` of the second point of the element intervenes. -/
def placeX (pos : ℤ) (p1 : ℚ) (l : ℤ) (a : Align) : ℤ :=
  match a with
  | .debut => pos
  | .fin => tronque (pos + p1 - l)
  | .centre => pos - l.tdiv 2

/-- `py`, core/src/vue/canva.cc:1031-1036. -/
def placeY (pos : ℤ) (p1 : ℚ) (h : ℤ) (a : Align) : ℤ :=
  match a with
  | .debut => pos
  | .fin => tronque (pos + p1 - h)
  | .centre => pos - h.tdiv 2 - 1

/-- The text drawn on the image, core/src/vue/canva.cc:990-1052; `txt`: image of the text. -/
noncomputable def etiquette (neuf : Px) (im : Img Px) (pos : ℤ × ℤ) (p1 : ℚ × ℚ) (o : Options) (txt : Img Px) : Option (Img Px) :=
  if txt.sx * txt.sy = 0 then some im
  else (boite neuf o txt).bind fun b : Img Px => (if o.vertical then rotation90 b else some b).bind fun r : Img Px =>
    putiGamma neuf im r (placeX pos.1 p1.1 r.sx o.hor) (placeY pos.2 p1.2 r.sy o.ver)

/-! ## Specification -/

/-- The image of the text respects the limits it was given (C223). -/
def Tient (im : Img Px) (pos : ℤ × ℤ) (o : Options) (txt : Img Px) : Prop := txt.Valide ∧ 0 < txt.sx ∧ 0 < txt.sy ∧ txt.sx ≤ (dimMax im pos o).1 ∧ txt.sy ≤ (dimMax im pos o).2

/-- Width and height of the box on the picture. -/
def taille (o : Options) (txt : Img Px) : ℤ × ℤ := if o.vertical then (txt.sy + 2 * marge o, txt.sx + 2 * marge o) else (txt.sx + 2 * marge o, txt.sy + 2 * marge o)

/-- Pixel of the box, before the rotation: the text inside of the margin. -/
def pixelBoite (o : Options) (txt : Img Px) (u v : ℤ) : Option Px :=
  if 0 ≤ u ∧ u < txt.sx + 2 * marge o ∧ 0 ≤ v ∧ v < txt.sy + 2 * marge o then
    (if marge o ≤ u ∧ u < marge o + txt.sx ∧ marge o ≤ v ∧ v < marge o + txt.sy then txt.val (u - marge o) (v - marge o) else o.fond)
  else none

/-- Pixel of the box as it appears: a vertical text is turned by a quarter, so that it is read upwards. -/
def pixel (o : Options) (txt : Img Px) (u v : ℤ) : Option Px := if o.vertical then pixelBoite o txt v (txt.sy + 2 * marge o - 1 - u) else pixelBoite o txt u v

/-! ## Proofs -/

theorem val_uni (l h : ℤ) (c : Px) (hl : 0 ≤ l) (hh : 0 ≤ h) : (uni l h c).Valide ∧ ∀ u v, (uni l h c).val u v = if 0 ≤ u ∧ u < l ∧ 0 ≤ v ∧ v < h then some c else none := by
  have hp : 0 ≤ l * h := mul_nonneg hl hh
  refine ⟨⟨hl, hh, ?_⟩, fun u v => ?_⟩
  · unfold uni
    simp only [List.length_replicate]
    omega
  · unfold Img.val uni
    simp only
    by_cases hin : 0 ≤ u ∧ u < l ∧ 0 ≤ v ∧ v < h
    · rw [if_pos hin, if_pos hin]
      have h1 : v * l + u < l * h := by
        have : (v + 1) * l ≤ h * l := mul_le_mul_of_nonneg_right (by omega) hl
        linarith
      have h0 : 0 ≤ v * l := mul_nonneg hin.2.2.1 hl
      rw [List.getElem?_replicate, if_pos (by omega)]
    · rw [if_neg hin, if_neg hin]

theorem boite_val (neuf : Px) (o : Options) (txt : Img Px) (ht : txt.Valide) : ∃ b, boite neuf o txt = some b ∧ b.Valide ∧ b.sx = txt.sx + 2 * marge o ∧ b.sy = txt.sy + 2 * marge o ∧ ∀ u v, b.val u v = pixelBoite o txt u v := by
  obtain ⟨t1, t2, -⟩ := id ht
  unfold boite pixelBoite marge
  cases hf : o.fond with
  | none =>
    simp only [Option.isSome_none, Bool.false_eq_true, if_false, mul_zero, add_zero, sub_zero, zero_add]
    refine ⟨txt, rfl, ht, rfl, rfl, fun u v => ?_⟩
    by_cases hin : 0 ≤ u ∧ u < txt.sx ∧ 0 ≤ v ∧ v < txt.sy
    · rw [if_pos hin, if_pos hin]
    · rw [if_neg hin]
      unfold Img.val
      rw [if_neg hin]
  | some c =>
    simp only [Option.isSome_some, if_true]
    obtain ⟨w, p⟩ := val_uni (txt.sx + 2 * 2) (txt.sy + 2 * 2) c (by omega) (by omega)
    obtain ⟨r, e, a, b, v, q⟩ := C165_puti neuf _ txt w ht 0 2 2 (by unfold uni; simp only; omega) (by unfold uni; simp only; omega)
    refine ⟨r, e, v, by rw [a]; rfl, by rw [b]; rfl, fun x y => ?_⟩
    rw [q, p]
    unfold uni
    simp only
    by_cases h1 : 0 ≤ x ∧ x < txt.sx + 2 * 2 ∧ 0 ≤ y ∧ y < txt.sy + 2 * 2
    · simp only [if_pos h1]
      refine if_congr ?_ rfl rfl
      exact ⟨fun t => ⟨t.2.1, by omega, t.2.2.2.1, by omega⟩, fun t => ⟨h1, t.1, by omega, t.2.2.1, by omega⟩⟩
    · simp only [if_neg h1]
      rw [if_neg]
      tauto

theorem tourne_val (neuf : Px) (o : Options) (txt : Img Px) (ht : txt.Valide) : ∃ b r, boite neuf o txt = some b ∧ (if o.vertical then rotation90 b else some b) = some r ∧ r.Valide ∧ r.sx = (taille o txt).1 ∧ r.sy = (taille o txt).2 ∧
    ∀ u v, r.val u v = pixel o txt u v := by
  obtain ⟨b, e, v, bx, bY, p⟩ := boite_val neuf o txt ht
  cases hv : o.vertical with
  | false =>
    refine ⟨b, b, e, ?_, v, ?_, ?_, fun x y => ?_⟩
    · simp
    · unfold taille; rw [hv]; simp only [Bool.false_eq_true, if_false]; exact bx
    · unfold taille; rw [hv]; simp only [Bool.false_eq_true, if_false]; exact bY
    · unfold pixel; rw [hv]; simp only [Bool.false_eq_true, if_false]; exact p x y
  | true =>
    obtain ⟨r, e', v', rx, ry, q⟩ := C165_rotation b v
    refine ⟨b, r, e, ?_, v', ?_, ?_, fun x y => ?_⟩
    · simp only [if_true]; exact e'
    · unfold taille; rw [hv]; simp only [if_true]; omega
    · unfold taille; rw [hv]; simp only [if_true]; omega
    · unfold pixel; rw [hv]; simp only [if_true]; rw [q, p, bY]

theorem tronque_int (n : ℤ) : tronque (n : ℚ) = n := by
  unfold tronque
  split_ifs
  · exact Int.floor_intCast n
  · exact Int.ceil_intCast n

/-- **C227 (limits).** A text within the limits it is given fits, with its margin and after its rotation, between the anchor and the end of the image if it begins at the anchor, in twice this space if it is centred on it, in the whole image
if it ends at it, and within the limits asked. -/
theorem C227_limites (im : Img Px) (pos : ℤ × ℤ) (o : Options) (txt : Img Px) (h : Tient im pos o txt) :
    (o.hor = .debut → pos.1 + (taille o txt).1 ≤ im.sx) ∧ (o.hor = .centre → (taille o txt).1 ≤ 2 * (im.sx - pos.1)) ∧ (o.hor = .fin → (taille o txt).1 ≤ im.sx) ∧
    (o.ver = .debut → pos.2 + (taille o txt).2 ≤ im.sy) ∧ (o.ver = .centre → (taille o txt).2 ≤ 2 * (im.sy - pos.2)) ∧ (o.ver = .fin → (taille o txt).2 ≤ im.sy) ∧
    (∀ n, o.limL = some n → (taille o txt).1 ≤ n + 2 * marge o) ∧ ∀ n, o.limH = some n → (taille o txt).2 ≤ n + 2 * marge o := by
  obtain ⟨-, -, -, h1, h2⟩ := h
  have hm : 0 ≤ marge o := by unfold marge; split_ifs <;> omega
  have hl : ∀ (s q d : ℤ) (a : Align) (lim : Option ℤ), d ≤ limite s q (marge o) a lim → (a = .debut → q + (d + 2 * marge o) ≤ s) ∧ (a = .centre → d + 2 * marge o ≤ 2 * (s - q)) ∧ (a = .fin → d + 2 * marge o ≤ s) ∧
      ∀ n, lim = some n → d + 2 * marge o ≤ n + 2 * marge o := by
    intro s q d a lim hd
    unfold limite at hd
    cases a <;> cases lim <;> simp only [le_min_iff] at hd <;> refine ⟨fun g => ?_, fun g => ?_, fun g => ?_, fun n g => ?_⟩ <;> first | (cases g; done) | (cases g; omega) | omega
  unfold dimMax at h1 h2
  unfold taille
  cases hv : o.vertical with
  | false =>
    rw [hv] at h1 h2
    simp only [Bool.false_eq_true, if_false] at h1 h2 ⊢
    obtain ⟨a1, a2, a3, a4⟩ := hl _ _ _ _ _ h1
    obtain ⟨b1, b2, b3, b4⟩ := hl _ _ _ _ _ h2
    exact ⟨a1, a2, a3, b1, b2, b3, a4, b4⟩
  | true =>
    rw [hv] at h1 h2
    simp only [if_true] at h1 h2 ⊢
    obtain ⟨a1, a2, a3, a4⟩ := hl _ _ _ _ _ h2
    obtain ⟨b1, b2, b3, b4⟩ := hl _ _ _ _ _ h1
    exact ⟨a1, a2, a3, b1, b2, b3, a4, b4⟩

/-- **C227 (alignment).** On the root canvas the box begins at the anchor, ends at it, or has it in its middle up to one half pixel horizontally; vertically, a centred text is moved by one pixel upwards. -/
theorem C227_alignement (pos l : ℤ) (hl : 0 ≤ l) : placeX pos 0 l .debut = pos ∧ placeX pos 0 l .fin + l = pos ∧ 2 * pos ≤ 2 * placeX pos 0 l .centre + l ∧ 2 * placeX pos 0 l .centre + l ≤ 2 * pos + 1 ∧
    placeY pos 0 l .debut = pos ∧ placeY pos 0 l .fin + l = pos ∧ 2 * pos ≤ 2 * (placeY pos 0 l .centre + 1) + l ∧ 2 * (placeY pos 0 l .centre + 1) + l ≤ 2 * pos + 1 := by
  have h1 : tronque ((pos : ℚ) + 0 - l) = pos - l := by
    rw [add_zero, show (pos : ℚ) - l = ((pos - l : ℤ) : ℚ) by push_cast; ring]
    exact tronque_int _
  have h2 : l.tdiv 2 = l / 2 := Int.tdiv_eq_ediv_of_nonneg hl
  have e1 : placeX pos 0 l .fin = pos - l := h1
  have e2 : placeY pos 0 l .fin = pos - l := h1
  have e3 : placeX pos 0 l .centre = pos - l / 2 := by rw [← h2]; rfl
  have e4 : placeY pos 0 l .centre = pos - l / 2 - 1 := by rw [← h2]; rfl
  have e5 : placeX pos 0 l .debut = pos := rfl
  have e6 : placeY pos 0 l .debut = pos := rfl
  rw [e1, e2, e3, e4, e5, e6]
  omega

/-- **C227 (drawing).** On the root canvas, a text within the limits, whose anchor is in the image, is always drawn: every pixel of the image under the box is mixed in proportion to the opacity of the box, and the other ones are unchanged.
The part of the box on the left of the image or above is cut. -/
theorem C227_dessin (neuf : Px) (im : Img Px) (hi : im.Valide) (pos : ℤ × ℤ) (hp : 0 ≤ pos.1 ∧ pos.1 ≤ im.sx ∧ 0 ≤ pos.2 ∧ pos.2 ≤ im.sy) (o : Options) (txt : Img Px) (h : Tient im pos o txt) :
    ∃ r, etiquette neuf im pos (0, 0) o txt = some r ∧ r.sx = im.sx ∧ r.sy = im.sy ∧ r.Valide ∧
      ∀ u v, (pixel o txt (u - placeX pos.1 0 (taille o txt).1 o.hor) (v - placeY pos.2 0 (taille o txt).2 o.ver) = none → r.val u v = im.val u v) ∧
        ∀ iv ov, pixel o txt (u - placeX pos.1 0 (taille o txt).1 o.hor) (v - placeY pos.2 0 (taille o txt).2 o.ver) = some iv → im.val u v = some ov → ∃ p, r.val u v = some p ∧ EstMelange ((iv 3).toNat / 255) iv ov p ∧ p 3 = iv 3 := by
  obtain ⟨l1, l2, l3, l4, l5, l6, -, -⟩ := C227_limites im pos o txt h
  obtain ⟨ht, hx, hy, -, -⟩ := h
  obtain ⟨b, r, e, e', w, rx, ry, p⟩ := tourne_val neuf o txt ht
  have hw := w.1
  have hw2 := w.2.1
  rw [rx] at hw
  rw [ry] at hw2
  obtain ⟨a1, a2, a3, a4, -⟩ := C227_alignement pos.1 (taille o txt).1 hw
  obtain ⟨-, -, -, -, b1, b2, b3, b4⟩ := C227_alignement pos.2 (taille o txt).2 hw2
  have q1 : (taille o txt).1 + placeX pos.1 0 (taille o txt).1 o.hor ≤ im.sx ∧ placeX pos.1 0 (taille o txt).1 o.hor ≤ im.sx := by
    cases ho : o.hor with
    | debut => have := l1 ho; omega
    | centre => have := l2 ho; omega
    | fin => omega
  have q2 : (taille o txt).2 + placeY pos.2 0 (taille o txt).2 o.ver ≤ im.sy ∧ placeY pos.2 0 (taille o txt).2 o.ver ≤ im.sy := by
    cases ho : o.ver with
    | debut => have := l4 ho; omega
    | centre => have := l5 ho; omega
    | fin => omega
  obtain ⟨s, es, s1, s2, s3, s4⟩ := C169_gamma neuf im r hi w (placeX pos.1 0 (taille o txt).1 o.hor) (placeY pos.2 0 (taille o txt).2 o.ver) (by rw [rx]; exact q1.1) (by rw [ry]; exact q2.1) q1.2 q2.2
  refine ⟨s, ?_, s1, s2, s3, fun u v => ?_⟩
  · unfold etiquette
    rw [if_neg (mul_pos hx hy).ne', e, Option.bind_some, e', Option.bind_some, rx, ry]
    exact es
  · have := s4 u v
    rw [p] at this
    exact this

/-- Non-vacuity of `C227_dessin`: vertical text of 30 by 10 with a background, centred at (50, 60) in an image of 100 by 100. -/
example (neuf c : Px) (im : Img Px) (hi : im.Valide) (h1 : im.sx = 100) (h2 : im.sy = 100) (txt : Img Px) (ht : txt.Valide) (h3 : txt.sx = 30) (h4 : txt.sy = 10) :
    ∃ r, etiquette neuf im (50, 60) (0, 0) ⟨.centre, .fin, some c, true, none, some 40⟩ txt = some r := by
  obtain ⟨r, h, -⟩ := C227_dessin neuf im hi (50, 60) (by norm_num; omega) ⟨.centre, .fin, some c, true, none, some 40⟩ txt
    ⟨ht, by omega, by omega, by simp only [dimMax, limite, marge, Option.isSome_some, if_true]; omega, by simp only [dimMax, limite, marge, Option.isSome_some, if_true]; omega⟩
  exact ⟨r, h⟩

/-- **C227 (left side, refuted).** The limits do not take into account the space on the left of the anchor: a centred text, or a text that ends at its anchor, can be within its limits and start outside of the image. -/
theorem C227_gauche_refute : (∃ s pos l : ℤ, 0 ≤ pos ∧ pos < s ∧ 0 < l ∧ l ≤ limite s pos 0 .centre none ∧ placeX pos 0 l .centre < 0) ∧ ∃ s pos l : ℤ, 0 ≤ pos ∧ pos < s ∧ 0 < l ∧ l ≤ limite s pos 0 .fin none ∧ placeX pos 0 l .fin < 0 :=
  ⟨⟨100, 10, 100, by decide +kernel⟩, ⟨100, 10, 90, by decide +kernel⟩⟩

/-- **C227 (nested canvas, refuted).** The second point of the element, never given for a text, is transformed like the other ones when the text is drawn on a nested canvas: if `t` is the image of the origin of the nested canvas, a text that
must end at its anchor ends `t` pixels further. -/
theorem C227_emboite_refute (e : Verif.Canva.Elmt) (he : e.p1 = (0, 0)) (c : Verif.Canva.Clip) (hl : c.rdi.l ≠ 0) (hx : c.rdi.x = 0) (t : ℤ) (ht : c.target.x = t) (pos l : ℤ) :
    (Verif.Canva.clipElmt e c).p1.1 = ((t : ℚ) : ℝ) ∧ placeX pos t l .fin + l = pos + t := by
  constructor
  · unfold Verif.Canva.clipElmt Verif.Canva.Clip.v2c Verif.Canva.Clip.v2cx
    simp only [he]
    rw [if_neg hl, hx, ht]
    simp
  · unfold placeX
    simp only
    rw [show (pos : ℚ) + t - l = ((pos + t - l : ℤ) : ℚ) by push_cast; ring, tronque_int]
    omega

/-- **C227 (nested canvas, refuted).** Such a text, within its limits and with its anchor in the image, is not drawn at all when this shift makes it overflow on the right. -/
theorem C227_emboite_absent_refute (neuf : Px) (im : Img Px) (pos t : ℤ) (py : ℤ) (txt : Img Px) (hs : 0 < txt.sx) (hs' : 0 < txt.sy) (hg : 0 ≤ pos + t - txt.sx) (hpy : 0 ≤ py) (ht : im.sx < pos + t) :
    etiquette neuf im (pos, py) (t, 0) ⟨.fin, .debut, none, false, none, none⟩ txt = some im := by
  unfold etiquette
  rw [if_neg (mul_pos hs hs').ne']
  simp only [boite, Option.bind_some, Bool.false_eq_true, if_false, placeX, placeY]
  rw [show (pos : ℚ) + t - txt.sx = ((pos + t - txt.sx : ℤ) : ℚ) by push_cast; ring, tronque_int]
  exact C169_deborde_refute neuf im txt _ _ hg hpy (Or.inl (by omega))

/-- Non-vacuity of `C227_emboite_absent_refute`: image of 100 columns, nested canvas from the column 50, text of 20 columns that must end at the column 90. -/
example (neuf : Px) (im : Img Px) (h : im.sx = 100) (txt : Img Px) (h1 : txt.sx = 20) (h2 : txt.sy = 10) : etiquette neuf im (90, 5) ((50 : ℤ), 0) ⟨.fin, .debut, none, false, none, none⟩ txt = some im :=
  C227_emboite_absent_refute neuf im 90 50 5 txt (by omega) (by omega) (by omega) (by omega) (by omega)

end Verif.Etiquette
