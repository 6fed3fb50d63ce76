import Mathlib.Data.List.Basic
import Mathlib.Data.List.TakeDrop
import Mathlib.Data.List.Infix
import Mathlib.Tactic.Ring

/-!
# C220: images saved and loaded (core/src/vue/image-bmp.cc:27-55, 81-308)

The PNG library is taken as a lossless store of the rows of 8-bit RGBA pixels that it is given; on reading it delivers
such rows (core/src/vue/image-bmp.cc:113-146). Only files written by the library itself are considered for the reading.
-/

namespace Verif.ImageFichier

/-! ## Model -/

/-- A byte. -/
abbrev Octet := Fin 256

/-- `struct bgra`, core/src/vue/image-bmp.cc:21-24. -/
structure Bgra where
  b : Octet
  g : Octet
  r : Octet
  a : Octet
deriving DecidableEq

/-- `Image::Impl`: dimensions and pixels, row after row, core/src/vue/image-bmp.cc:59-66. -/
structure Img where
  sx : ℕ
  sy : ℕ
  px : List Bgra

/-- Position of the last separator of a path, core/src/vue/image-bmp.cc:33-40. -/
def dernierSep (ch : List Char) : Option ℕ :=
  (List.range ch.length).foldl (fun (j : Option ℕ) (i : ℕ) => if ch[i]? = some '/' ∨ ch[i]? = some '\\' then some i else j) none

/-- `analyse_chemin`: directory and file, core/src/vue/image-bmp.cc:28-48. -/
def analyse (ch : List Char) : List Char × List Char :=
  if ch = ['.'] then (['.'], [])
  else match dernierSep ch with
    | none => ([], ch)
    | some j => (ch.take j, ch.drop (j + 1))

/-- The name of the file: the extension is added unless there is a point at the fourth place from the end, core/src/vue/image-bmp.cc:192-195. -/
def nomComplet (ch : List Char) : List Char :=
  if ch.length < 4 ∨ ch[ch.length - 4]? ≠ some '.' then ch ++ ['.', 'p', 'n', 'g'] else ch

/-- Whether the name is that of a PNG file, core/src/vue/image-bmp.cc:201. -/
def estPng (ch : List Char) : Bool := decide (4 ≤ ch.length ∧ ch.drop (ch.length - 4) = ['.', 'p', 'n', 'g'])

/-- The file system: which paths exist, and which directories can be created (their parent exists). The empty path does not exist and cannot be created, as the C++ library specifies. -/
structure Fs where
  existe : List Char → Bool
  creable : List Char → Bool
  vide : existe [] = false ∧ creable [] = false

/-- A PNG file: dimensions and rows of bytes. -/
structure Png where
  width : ℕ
  height : ℕ
  rows : List (List Octet)

/-- The bytes of the pixels, in the order red, green, blue, 255, core/src/vue/image-bmp.cc:213-223. -/
def octets (px : List Bgra) : List Octet := px.flatMap (fun (p : Bgra) => [p.r, p.g, p.b, 255])

/-- The rows given to the library: `ptri + y * sx * 4`, core/src/vue/image-bmp.cc:225-226. -/
def lignesPng (im : Img) : List (List Octet) := (List.range im.sy).map (fun (y : ℕ) => ((octets im.px).drop (y * im.sx * 4)).take (im.sx * 4))

/-- What the saving does: a file, an error message or an exception. -/
inductive Res where
  | ecrit (nom : List Char) (contenu : Png)
  | erreur
  | exception

/-- `enregister(chemin)`, core/src/vue/image-bmp.cc:188-308 (the file can be opened): directory created if it does not exist, one level only, then file. -/
def enregistre (fs : Fs) (ch : List Char) (im : Img) : Res :=
  if fs.existe (analyse (nomComplet ch)).1 = false ∧ fs.creable (analyse (nomComplet ch)).1 = false then .exception
  else if estPng (nomComplet ch) then .ecrit (nomComplet ch) { width := im.sx, height := im.sy, rows := lignesPng im }
  else .erreur

/-- One row: red, green, blue and transparency of each pixel; the transparency is ignored, core/src/vue/image-bmp.cc:164-176. -/
def lisLigne : List Octet → List Bgra
  | r :: g :: b :: _ :: t => { b := b, g := g, r := r, a := 255 } :: lisLigne t
  | _ => []

/-- `charger(chemin)`, core/src/vue/image-bmp.cc:81-185. -/
def charge (f : Png) : Img := { sx := f.width, sy := f.height, px := f.rows.flatMap lisLigne }

/-! ## Specification -/

/-- The same pixel, opaque. -/
def opaque' (p : Bgra) : Bgra := { p with a := 255 }

/-- A separator of directories. -/
def Sep (c : Char) : Prop := c = '/' ∨ c = '\\'

/-! ## Contents -/

theorem octets_length (px : List Bgra) : (octets px).length = 4 * px.length := by
  unfold octets
  induction px with
  | nil => rfl
  | cons p t ih => rw [List.flatMap_cons, List.length_append, ih]; simp only [List.length_cons, List.length_nil]; ring

theorem octets_drop (px : List Bgra) : ∀ n, (octets px).drop (4 * n) = octets (px.drop n) := by
  induction px with
  | nil => intro n; simp [octets]
  | cons p t ih =>
    intro n
    cases n with
    | zero => rfl
    | succ n =>
      rw [show 4 * (n + 1) = 4 * n + 1 + 1 + 1 + 1 by ring]
      simp only [octets, List.flatMap_cons, List.cons_append, List.nil_append, List.drop_succ_cons]
      exact ih n

theorem octets_take (px : List Bgra) : ∀ n, (octets px).take (4 * n) = octets (px.take n) := by
  induction px with
  | nil => intro n; simp [octets]
  | cons p t ih =>
    intro n
    cases n with
    | zero => rfl
    | succ n =>
      rw [show 4 * (n + 1) = 4 * n + 1 + 1 + 1 + 1 by ring]
      simp only [octets, List.flatMap_cons, List.cons_append, List.nil_append, List.take_succ_cons]
      congr 4
      exact ih n

theorem lisLigne_octets (px : List Bgra) : lisLigne (octets px) = px.map opaque' := by
  unfold octets
  induction px with
  | nil => rfl
  | cons p t ih =>
    simp only [List.flatMap_cons, List.cons_append, List.nil_append, lisLigne, List.map_cons]
    rw [ih]; rfl

theorem lignes_recollees {α : Type} (l : List α) (n : ℕ) : ∀ m, l.length = n * m → (List.range m).flatMap (fun y => (l.drop (y * n)).take n) = l := by
  intro m
  induction m generalizing l with
  | zero =>
    intro h
    rw [Nat.mul_zero] at h
    simp [List.length_eq_zero_iff.mp h]
  | succ m ih =>
    intro h
    rw [List.range_succ_eq_map, List.flatMap_cons, List.flatMap_map]
    have hd : (l.drop n).length = n * m := by rw [List.length_drop, h, Nat.mul_succ]; omega
    have := ih (l.drop n) hd
    simp only [List.drop_drop] at this
    have he : (List.range m).flatMap (fun y => (l.drop ((y + 1) * n)).take n) = (List.range m).flatMap (fun y => (l.drop (n + y * n)).take n) := by
      congr 1
      funext y
      rw [Nat.add_mul, one_mul, Nat.add_comm]
    simp only [Nat.succ_eq_add_one, zero_mul, List.drop_zero]
    rw [he, this, List.take_append_drop]

/-- **C220, contents.** Loading what was saved gives an image of the same dimensions with, at each place, the same red, green and blue; every pixel is opaque. -/
theorem C220_contenu (fs : Fs) (ch : List Char) (im : Img) (hv : im.px.length = im.sx * im.sy) (nom : List Char) (f : Png) (h : enregistre fs ch im = .ecrit nom f) :
    (charge f).sx = im.sx ∧ (charge f).sy = im.sy ∧ (charge f).px = im.px.map opaque' := by
  unfold enregistre at h
  split at h
  · cases h
  split at h
  · cases h
    refine ⟨rfl, rfl, ?_⟩
    simp only [charge, lignesPng, List.flatMap_map]
    have e : (fun y => lisLigne (((octets im.px).drop (y * im.sx * 4)).take (im.sx * 4))) = fun y => (((im.px.map opaque').drop (y * im.sx)).take im.sx) := by
      funext y
      rw [Nat.mul_comm (y * im.sx) 4, Nat.mul_comm im.sx 4, octets_drop, octets_take, lisLigne_octets, List.map_take, List.map_drop]
    rw [e]
    exact lignes_recollees _ _ _ (by rw [List.length_map]; exact hv)
  · cases h

/-- An opaque image comes back as it was. -/
theorem C220_opaque (fs : Fs) (ch : List Char) (im : Img) (hv : im.px.length = im.sx * im.sy) (ho : ∀ p ∈ im.px, p.a = 255) (nom : List Char) (f : Png) (h : enregistre fs ch im = .ecrit nom f) : charge f = im := by
  obtain ⟨h1, h2, h3⟩ := C220_contenu fs ch im hv nom f h
  have : im.px.map opaque' = im.px := by
    conv_rhs => rw [← List.map_id im.px]
    apply List.map_congr_left
    intro p hp
    have := ho p hp
    cases p
    simp only at this
    simp only [opaque', id, this]
  rw [this] at h3
  cases im
  simp only at h1 h2 h3
  unfold charge at h1 h2 h3 ⊢
  simp only at h1 h2 h3
  rw [h1, h2, h3]

/-- Refuted: the transparency is saved. Two images that differ only by it give the same file. -/
theorem C220_transparence_refute (fs : Fs) (ch : List Char) (sx sy : ℕ) (l l' : List Bgra) (h : l.map opaque' = l'.map opaque') :
    enregistre fs ch { sx := sx, sy := sy, px := l } = enregistre fs ch { sx := sx, sy := sy, px := l' } := by
  have key : ∀ px : List Bgra, octets px = octets (px.map opaque') := by
    intro px
    unfold octets
    rw [List.flatMap_map]
    rfl
  unfold enregistre lignesPng
  simp only
  rw [key l, key l', h]

/-! ## Name and directory -/

theorem dernier_aux (ch : List Char) (n : ℕ) : match (List.range n).foldl (fun (j : Option ℕ) (i : ℕ) => if ch[i]? = some '/' ∨ ch[i]? = some '\\' then some i else j) none with
    | none => ∀ i, i < n → ¬ (ch[i]? = some '/' ∨ ch[i]? = some '\\')
    | some j => j < n ∧ (ch[j]? = some '/' ∨ ch[j]? = some '\\') ∧ ∀ i, j < i → i < n → ¬ (ch[i]? = some '/' ∨ ch[i]? = some '\\') := by
  induction n with
  | zero => simp
  | succ n ih =>
    rw [List.range_succ, List.foldl_append]
    simp only [List.foldl_cons, List.foldl_nil]
    by_cases h : ch[n]? = some '/' ∨ ch[n]? = some '\\'
    · rw [if_pos h]
      exact ⟨by omega, h, by omega⟩
    · rw [if_neg h]
      revert ih
      generalize (List.range n).foldl (fun (j : Option ℕ) (i : ℕ) => if ch[i]? = some '/' ∨ ch[i]? = some '\\' then some i else j) none = o
      intro ih
      cases o with
      | none =>
        intro i hi
        rcases Nat.lt_or_ge i n with h1 | h1
        · exact ih i h1
        · rw [show i = n by omega]; exact h
      | some j =>
        obtain ⟨h1, h2, h3⟩ := ih
        refine ⟨by omega, h2, fun i hi hin => ?_⟩
        rcases Nat.lt_or_ge i n with h4 | h4
        · exact h3 i hi h4
        · rw [show i = n by omega]; exact h

theorem dernierSep_none (ch : List Char) (h : dernierSep ch = none) : ∀ c ∈ ch, ¬ Sep c := by
  have := dernier_aux ch ch.length
  unfold dernierSep at h
  rw [h] at this
  intro c hc hs
  obtain ⟨i, hi, e⟩ := List.mem_iff_getElem.mp hc
  apply this i hi
  rw [List.getElem?_eq_getElem hi, e]
  rcases hs with rfl | rfl
  · exact Or.inl rfl
  · exact Or.inr rfl

theorem dernierSep_some (ch : List Char) (j : ℕ) (h : dernierSep ch = some j) : ∃ c, ch[j]? = some c ∧ Sep c ∧ ∀ d ∈ ch.drop (j + 1), ¬ Sep d := by
  have := dernier_aux ch ch.length
  unfold dernierSep at h
  rw [h] at this
  obtain ⟨h1, h2, h3⟩ := this
  have hl : ∀ d ∈ ch.drop (j + 1), ¬ Sep d := by
    intro d hd hs
    obtain ⟨i, hi⟩ := List.mem_iff_getElem?.mp hd
    rw [List.getElem?_drop] at hi
    obtain ⟨hlt, -⟩ := List.getElem?_eq_some_iff.mp hi
    apply h3 (j + 1 + i) (by omega) hlt
    rw [hi]
    rcases hs with rfl | rfl
    · exact Or.inl rfl
    · exact Or.inr rfl
  rcases h2 with h2 | h2
  · exact ⟨_, h2, Or.inl rfl, hl⟩
  · exact ⟨_, h2, Or.inr rfl, hl⟩

/-- **C220, directory and file.** The path is the directory, the separator and the file, whose name has no separator; without separator the directory is empty and the file is the path. -/
theorem C220_chemin (ch : List Char) (h1 : ch ≠ ['.']) :
    (∀ c ∈ (analyse ch).2, ¬ Sep c) ∧
    ((∀ c ∈ ch, ¬ Sep c) → analyse ch = ([], ch)) ∧
    ((∃ c ∈ ch, Sep c) → ∃ s, Sep s ∧ ch = (analyse ch).1 ++ s :: (analyse ch).2) := by
  unfold analyse
  rw [if_neg h1]
  cases h : dernierSep ch with
  | none =>
    have := dernierSep_none ch h
    refine ⟨this, fun _ => rfl, ?_⟩
    rintro ⟨c, hc, hs⟩
    exact absurd hs (this c hc)
  | some j =>
    obtain ⟨c, hc, hs, hl⟩ := dernierSep_some ch j h
    refine ⟨hl, ?_, ?_⟩
    · intro hn
      exact absurd hs (hn c (List.mem_of_getElem? hc))
    · intro _
      refine ⟨c, hs, ?_⟩
      obtain ⟨hj, e⟩ := List.getElem?_eq_some_iff.mp hc
      simp only
      rw [← e, List.getElem_cons_drop, List.take_append_drop]

/-- **C220, name of the file.** A name ending in `.png` is kept; `.png` is added to a name without a point at the fourth place from the end; in both cases the file is written, if the directory exists or can be created. -/
theorem C220_nom (fs : Fs) (ch : List Char) (im : Img) (h : (∃ b, ch = b ++ ['.', 'p', 'n', 'g']) ∨ ch.length < 4 ∨ ch[ch.length - 4]? ≠ some '.') (hd : fs.existe (analyse (nomComplet ch)).1 = true ∨ fs.creable (analyse (nomComplet ch)).1 = true) :
    ∃ nom f, enregistre fs ch im = .ecrit nom f ∧ ((∃ b, ch = b ++ ['.', 'p', 'n', 'g']) → nom = ch) ∧ ((ch.length < 4 ∨ ch[ch.length - 4]? ≠ some '.') → nom = ch ++ ['.', 'p', 'n', 'g']) := by
  have hkeep : (∃ b, ch = b ++ ['.', 'p', 'n', 'g']) → nomComplet ch = ch := by
    rintro ⟨b, rfl⟩
    unfold nomComplet
    rw [if_neg]
    rw [not_or]
    refine ⟨by simp, ?_⟩
    simp
  have hadd : (ch.length < 4 ∨ ch[ch.length - 4]? ≠ some '.') → nomComplet ch = ch ++ ['.', 'p', 'n', 'g'] := by
    intro h; unfold nomComplet; rw [if_pos h]
  have hpng : estPng (nomComplet ch) = true := by
    have hg : ∀ b : List Char, estPng (b ++ ['.', 'p', 'n', 'g']) = true := by
      intro b
      unfold estPng
      simp
    rcases h with h | h
    · rw [hkeep h]; obtain ⟨b, rfl⟩ := h; exact hg b
    · rw [hadd h]; exact hg ch
  refine ⟨nomComplet ch, { width := im.sx, height := im.sy, rows := lignesPng im }, ?_, hkeep, hadd⟩
  unfold enregistre
  rw [if_neg, if_pos hpng]
  rintro ⟨g1, g2⟩
  rcases hd with h | h
  · rw [g1] at h; cases h
  · rw [g2] at h; cases h

/-- Non-vacuity: `a/b.png` in an existing directory. -/
example : ∃ fs : Fs, fs.existe (analyse (nomComplet ['a', '/', 'b', '.', 'p', 'n', 'g'])).1 = true :=
  ⟨{ existe := fun p => p ≠ [], creable := fun _ => false, vide := by decide }, by decide⟩

/-- **C220, other extensions.** A three-letter extension other than `png` is refused, with an error message (the directory having been created). -/
theorem C220_extension (fs : Fs) (b : List Char) (x y z : Char) (h : [x, y, z] ≠ ['p', 'n', 'g']) (im : Img) (hd : fs.existe (analyse (b ++ ['.', x, y, z])).1 = true ∨ fs.creable (analyse (b ++ ['.', x, y, z])).1 = true) :
    enregistre fs (b ++ ['.', x, y, z]) im = .erreur := by
  have hn : nomComplet (b ++ ['.', x, y, z]) = b ++ ['.', x, y, z] := by
    unfold nomComplet
    rw [if_neg]
    rw [not_or]
    refine ⟨by simp, by simp⟩
  have hp : estPng (b ++ ['.', x, y, z]) = false := by
    unfold estPng
    rw [decide_eq_false_iff_not]
    rintro ⟨-, g⟩
    rw [List.length_append] at g
    simp only [List.length_cons, List.length_nil, Nat.zero_add, Nat.reduceAdd, Nat.add_sub_cancel, List.drop_left] at g
    apply h
    exact List.cons.inj g |>.2
  unfold enregistre
  rw [hn, if_neg, if_neg (by rw [hp]; decide)]
  rintro ⟨g1, g2⟩
  rcases hd with h | h
  · rw [g1] at h; cases h
  · rw [g2] at h; cases h

/-- **C220, refuted: an image can be saved in the current directory under a plain name.** A path without separator has an empty directory, which the code tries to create: exception, whatever the file system. Same for a file at the root. -/
theorem C220_courant_refute (fs : Fs) (ch : List Char) (im : Img) (h : ∀ c ∈ ch, ¬ Sep c) : enregistre fs ch im = .exception ∧ enregistre fs ('/' :: ch) im = .exception := by
  have key : ∀ l : List Char, analyse l = ([], l) ∨ (∃ t, (∀ c ∈ t, ¬ Sep c) ∧ l = '/' :: t) → (analyse l).1 = [] := by
    intro l hl
    rcases hl with e | ⟨t, ht, rfl⟩
    · rw [e]
    · obtain ⟨-, -, g3⟩ := C220_chemin ('/' :: t) (by intro h; cases h)
      obtain ⟨s, hs, e⟩ := g3 ⟨'/', List.mem_cons_self, Or.inl rfl⟩
      cases hd : (analyse ('/' :: t)).1 with
      | nil => rfl
      | cons a d =>
        exfalso
        rw [hd] at e
        simp only [List.cons_append, List.cons.injEq] at e
        apply ht s _ hs
        rw [e.2]
        simp
  have hpng : ∀ c ∈ ['.', 'p', 'n', 'g'], ¬ Sep c := by
    intro c hc; unfold Sep; revert c; decide
  have hnom : ∀ l : List Char, nomComplet l = l ∨ nomComplet l = l ++ ['.', 'p', 'n', 'g'] := by
    intro l; unfold nomComplet; split
    · exact Or.inr rfl
    · exact Or.inl rfl
  have fin : ∀ l, (analyse (nomComplet l)).1 = [] → enregistre fs l im = .exception := by
    intro l hl
    unfold enregistre
    rw [hl, if_pos ⟨fs.vide.1, fs.vide.2⟩]
  have hne : ∀ l, nomComplet l ≠ ['.'] := by
    intro l h
    have hl : (nomComplet l).length = 1 := by rw [h]; rfl
    unfold nomComplet at hl
    split at hl
    · simp at hl
    · rename_i hn
      rw [not_or] at hn
      omega
  constructor
  · apply fin
    apply key
    left
    refine (C220_chemin _ (hne ch)).2.1 ?_
    rcases hnom ch with e | e
    · rw [e]; exact h
    · rw [e]; intro c hc
      rcases List.mem_append.mp hc with hc | hc
      · exact h c hc
      · exact hpng c hc
  · apply fin
    apply key
    right
    rcases hnom ('/' :: ch) with e | e
    · exact ⟨ch, h, e⟩
    · refine ⟨ch ++ ['.', 'p', 'n', 'g'], ?_, by rw [e]; rfl⟩
      intro c hc
      rcases List.mem_append.mp hc with hc | hc
      · exact h c hc
      · exact hpng c hc

end Verif.ImageFichier
