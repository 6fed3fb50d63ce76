import Mathlib.Data.Real.Basic
import Mathlib.Data.List.Basic
import Mathlib.Tactic.Linarith
import Mathlib.Tactic.FieldSimp
import Mathlib.Tactic.NormNum
import Mathlib.Tactic.Ring
import Verif.Util.Model

/-!
# C214: curves added to a figure: data, colour, line and marker (core/src/vue/figure.cc:57-80, 1186-1361)

Exact arithmetic instead of `float`. A format is its list of characters.
-/

namespace Verif.FigurePlot

/-! ## Model -/

/-- The colours of the table of codes, core/src/vue/figure.cc:1289-1315 (opaque names). -/
inductive Coul where
  | bleuSombre | vertSombre | rougeSombre | jauneSombre | cyanSombre | violetSombre | orangeSombre | marronSombre
  | bleu | vert | rouge | jaune | cyan | violet | orange | marron | noir | blanc
deriving DecidableEq

/-- `Trait`, core/include/tsd/vue.hpp:94-97. -/
inductive Trait where
  | aucun | ligne | dotted | baton | histo | minmax
deriving DecidableEq

/-- `Marqueur`, core/include/tsd/vue.hpp:89-92. -/
inductive Marq where
  | aucun | carre | diamant | etoile | point | cercle | croix
deriving DecidableEq

/-- `codes`, core/src/vue/figure.cc:1289-1315. -/
def codes : List (Char × Coul) :=
  [('b', .bleuSombre), ('g', .vertSombre), ('r', .rougeSombre), ('y', .jauneSombre), ('c', .cyanSombre), ('m', .violetSombre), ('a', .orangeSombre), ('f', .marronSombre),
   ('B', .bleu), ('V', .vert), ('R', .rouge), ('J', .jaune), ('C', .cyan), ('W', .violet), ('O', .orange), ('M', .marron), ('k', .noir), ('w', .blanc)]

/-- `codest`, core/src/vue/figure.cc:1331-1337. -/
def codest : List (Char × Trait) := [('-', .ligne), ('|', .baton), ('h', .histo), (':', .dotted)]

/-- `codesm`, core/src/vue/figure.cc:1345-1353. -/
def codesm : List (Char × Marq) := [('o', .cercle), ('*', .etoile), ('.', .point), ('+', .croix), ('s', .carre), ('d', .diamant)]

/-- `fdef`, core/src/vue/figure.cc:1243-1244. -/
def fdef : List (List Char) :=
  [['b', '-'], ['g', '-'], ['r', '-'], ['y', '-'], ['c', '-'], ['m', '-'], ['a', '-'], ['f', '-'],
   ['B', '-'], ['V', '-'], ['R', '-'], ['J', '-'], ['C', '-'], ['W', '-'], ['O', '-'], ['M', '-'], ['k', '-']]

/-- The loops `pour(auto c: codes) si(present(format, c.code)) ... = c....`, core/src/vue/figure.cc:1320-1322, 1339-1341, 1355-1357: the last code of the table present in the format wins. -/
def cherche {α : Type} (format : List Char) (table : List (Char × α)) (defaut : α) : α :=
  table.foldl (fun (r : α) (p : Char × α) => if p.1 ∈ format then p.2 else r) defaut

/-- `Figure::Courbe::Impl`, core/src/vue/figure.cc:132-160 (data and appearance). -/
structure Courbe where
  x : List ℝ
  y : List ℝ
  nom : List Char
  format : List Char
  couleur : Coul
  accu : Bool
  trait : Trait
  marqueur : Marq

/-- The format used, core/src/vue/figure.cc:1238-1246; `nc` is the number of curves. -/
def formatEffectif (nc : ℕ) (format : List Char) : List Char := if format.isEmpty then fdef.getD (nc % 17) [] else format

/-- Appearance of a curve, core/src/vue/figure.cc:1286-1357. -/
def habille (nc : ℕ) (format : List Char) (x y : List ℝ) (nom : List Char) : Courbe :=
  { x := x, y := y, nom := nom, format := format, couleur := cherche format codes ((codes.map Prod.snd).getD (nc % 16) .noir), accu := decide ('A' ∈ format), trait := cherche format codest .aucun, marqueur := cherche format codesm .aucun }

/-- `Figure::Impl::plot`, core/src/vue/figure.cc:1230-1361: the new list of curves. An empty `x` stands for the abscissas 0 ... n-1 (`linspace(0, n - 1, n)`). Without data, or with different sizes, nothing is added. -/
def plot (courbes : List Courbe) (x y : List ℝ) (format nom : List Char) : List Courbe :=
  let fmt := formatEffectif courbes.length format
  if y.length = 0 then courbes
  else
    let X := if x.length = 0 then (List.range y.length).map (fun (i : ℕ) => (i : ℝ)) else x
    if X.length ≠ y.length then courbes
    else courbes ++ [habille courbes.length fmt X y nom]

/-- `plot` of a complex signal, core/include/tsd/vue.hpp:570-589: one curve if the imaginary part is negligible, otherwise two. -/
noncomputable def plotC (courbes : List Courbe) (x re im : List ℝ) (format nom : List Char) : List Courbe :=
  if (im.map (fun (v : ℝ) => v ^ 2)).sum < (re.map (fun (v : ℝ) => v ^ 2)).sum * (1 / 100000) then plot courbes x re format nom
  else plot (plot courbes x re format (nom ++ [' ', '(', 'r', 'e', ')'])) x im format (nom ++ [' ', '(', 'i', 'm', ')'])

/-- `parse_liste_chaines`, core/src/vue/figure.cc:57-80; `cur` is the current piece. -/
def decoupe (sep : Char) : List Char → List Char → List (List Char)
  | cur, [] => [cur]
  | cur, c :: t => if c ≠ sep then decoupe sep (cur ++ [c]) t else cur :: decoupe sep [] t

/-- Frequencies of `plot_psd`, core/src/vue/figure.cc:1202-1215, for a signal of `n` samples: half of the bins for a real signal, all of them, centred, otherwise. -/
noncomputable def freqPsd (reel : Bool) (fe : ℝ) (n : ℕ) : List ℝ :=
  if reel then Verif.Util.linspace 0 (fe / 2) (n / 2) else Verif.Util.linspace (-(fe / 2)) (fe / 2) n

/-! ## Specification -/

/-- The curve has exactly these data. -/
def Donnees (c : Courbe) (x y : List ℝ) : Prop := c.x = x ∧ c.y = y

/-- Frequency of the bin displayed at the index `k`: bins 0 ... n/2-1 for a real signal; -(n/2) ... for a centred spectrum. -/
noncomputable def freqVraie (reel : Bool) (fe : ℝ) (n k : ℕ) : ℝ :=
  if reel then k * fe / n else ((k : ℝ) - (n / 2 : ℕ)) * fe / n

/-- Pieces separated by `sep`. -/
def recolle (sep : Char) : List (List Char) → List Char
  | [] => []
  | [a] => a
  | a :: b :: t => a ++ sep :: recolle sep (b :: t)

/-! ## Data -/

/-- **C214** (data): with as many abscissas as ordinates (at least one), exactly one curve is added, after the others, with exactly these data and this name. -/
theorem C214_ajout (l : List Courbe) (x y : List ℝ) (fmt nom : List Char) (hx : x.length = y.length) (hy : y ≠ []) :
    ∃ c, plot l x y fmt nom = l ++ [c] ∧ Donnees c x y ∧ c.nom = nom := by
  have h1 : y.length ≠ 0 := by simpa using hy
  have h2 : x.length ≠ 0 := by omega
  refine ⟨habille l.length (formatEffectif l.length fmt) x y nom, ?_, ⟨rfl, rfl⟩, rfl⟩
  simp only [plot, if_neg h1, hx, ne_eq, not_true_eq_false, if_false]

/-- **C214** (implicit abscissas): without abscissas, they are 0, 1, ... -/
theorem C214_implicite (l : List Courbe) (y : List ℝ) (fmt nom : List Char) (hy : y ≠ []) :
    ∃ c, plot l [] y fmt nom = l ++ [c] ∧ c.y = y ∧ c.x.length = y.length ∧ ∀ (i : ℕ) (hi : i < c.x.length), c.x[i] = (i : ℝ) := by
  have h1 : y.length ≠ 0 := by simpa using hy
  refine ⟨habille l.length (formatEffectif l.length fmt) ((List.range y.length).map (fun (i : ℕ) => (i : ℝ))) y nom, ?_, rfl, by simp [habille], by simp [habille]⟩
  simp [plot, h1, hy]

/-- **C214** (nothing to draw): without ordinates, or with numbers of abscissas and ordinates that differ, no curve is added. -/
theorem C214_rien (l : List Courbe) (x y : List ℝ) (fmt nom : List Char) (h : y = [] ∨ (x ≠ [] ∧ x.length ≠ y.length)) : plot l x y fmt nom = l := by
  rcases h with rfl | ⟨h1, h2⟩
  · simp [plot]
  · have h3 : x.length ≠ 0 := by simpa using h1
    simp only [plot]
    split_ifs <;> rfl

/-! ## Appearance -/

theorem cherche_absent {α : Type} (fmt : List Char) (table : List (Char × α)) (h : ∀ p ∈ table, p.1 ∉ fmt) : ∀ d, cherche fmt table d = d := by
  unfold cherche
  induction table with
  | nil => intro d; rfl
  | cons q t ih =>
    intro d
    simp only [List.foldl_cons, if_neg (h q (by simp))]
    exact ih (fun p hp => h p (by simp [hp])) d

/-- Only one code of the table is in the format: its value. -/
theorem cherche_unique {α : Type} (fmt : List Char) (table : List (Char × α)) (hd : (table.map Prod.fst).Nodup) (p : Char × α) (hp : p ∈ table) (hf : p.1 ∈ fmt)
    (hu : ∀ q ∈ table, q.1 ∈ fmt → q.1 = p.1) : ∀ d, cherche fmt table d = p.2 := by
  unfold cherche
  induction table with
  | nil => simp at hp
  | cons q t ih =>
    intro d
    rw [List.map_cons, List.nodup_cons] at hd
    simp only [List.foldl_cons]
    rcases List.mem_cons.mp hp with rfl | hp'
    · rw [if_pos hf]
      apply cherche_absent fmt t
      intro r hr hrf
      have := hu r (by simp [hr]) hrf
      exact hd.1 (by rw [← this]; exact List.mem_map.mpr ⟨r, hr, rfl⟩)
    · exact ih hd.2 hp' (fun r hr => hu r (by simp [hr])) _

/-- The value depends only on the set of the characters of the format. -/
theorem cherche_ensemble {α : Type} (f g : List Char) (h : ∀ c, c ∈ f ↔ c ∈ g) (table : List (Char × α)) (d : α) : cherche f table d = cherche g table d := by
  unfold cherche
  congr 1
  funext r p
  by_cases hp : p.1 ∈ f
  · rw [if_pos hp, if_pos ((h _).mp hp)]
  · rw [if_neg hp, if_neg (fun hh => hp ((h _).mpr hh))]

/-- **C214** (the order of the characters and their repetitions do not matter). -/
theorem C214_ordre (l : List Courbe) (x y : List ℝ) (f g nom : List Char) (hf : f ≠ []) (hg : g ≠ []) (h : ∀ c, c ∈ f ↔ c ∈ g) :
    (plot l x y f nom).map (fun c : Courbe => (c.x, c.y, c.couleur, c.trait, c.marqueur, c.accu)) = (plot l x y g nom).map (fun c : Courbe => (c.x, c.y, c.couleur, c.trait, c.marqueur, c.accu)) := by
  have ef : formatEffectif l.length f = f := by simp [formatEffectif, hf]
  have eg : formatEffectif l.length g = g := by simp [formatEffectif, hg]
  have e1 := cherche_ensemble f g h codes
  have e2 := cherche_ensemble f g h codest
  have e3 := cherche_ensemble f g h codesm
  have e4 : decide ('A' ∈ f) = decide ('A' ∈ g) := by simp [h]
  simp only [plot, ef, eg]
  split_ifs <;> simp [habille, e1, e2, e3, e4]

/-- **C214** (one colour, one line, one marker): a format made of one code of each table, in any order, gives exactly this colour, this line and this marker, whatever the curves already there. -/
theorem C214_format (l : List Courbe) (x y : List ℝ) (hx : x.length = y.length) (hy : y ≠ []) (pc : Char × Coul) (pt : Char × Trait) (pm : Char × Marq)
    (hc : pc ∈ codes) (ht : pt ∈ codest) (hm : pm ∈ codesm) (f nom : List Char) (hf : ∀ c, c ∈ f ↔ c = pc.1 ∨ c = pt.1 ∨ c = pm.1) :
    ∃ c, plot l x y f nom = l ++ [c] ∧ c.couleur = pc.2 ∧ c.trait = pt.2 ∧ c.marqueur = pm.2 ∧ c.accu = false := by
  have hne : f ≠ [] := by intro h; have := (hf pc.1).mpr (Or.inl rfl); rw [h] at this; simp at this
  have ef : formatEffectif l.length f = f := by simp [formatEffectif, hne]
  have h1 : y.length ≠ 0 := by simpa using hy
  have h2 : x.length ≠ 0 := by omega
  have d1 : ∀ a ∈ codes, ∀ b ∈ codest, a.1 ≠ b.1 := by decide +kernel
  have d2 : ∀ a ∈ codes, ∀ b ∈ codesm, a.1 ≠ b.1 := by decide +kernel
  have d3 : ∀ a ∈ codest, ∀ b ∈ codesm, a.1 ≠ b.1 := by decide +kernel
  have n1 : ∀ a ∈ codes, a.1 ≠ 'A' := by decide +kernel
  have n2 : ∀ a ∈ codest, a.1 ≠ 'A' := by decide +kernel
  have n3 : ∀ a ∈ codesm, a.1 ≠ 'A' := by decide +kernel
  refine ⟨habille l.length f x y nom, ?_, ?_, ?_, ?_, ?_⟩
  · simp only [plot, ef, if_neg h1, hx, ne_eq, not_true_eq_false, if_false]
  · apply cherche_unique f codes (by decide +kernel) pc hc ((hf _).mpr (Or.inl rfl))
    intro q hq hqf
    rcases (hf _).mp hqf with h | h | h
    · exact h
    · exact absurd h (d1 q hq pt ht)
    · exact absurd h (d2 q hq pm hm)
  · apply cherche_unique f codest (by decide +kernel) pt ht ((hf _).mpr (Or.inr (Or.inl rfl)))
    intro q hq hqf
    rcases (hf _).mp hqf with h | h | h
    · exact absurd h.symm (d1 pc hc q hq)
    · exact h
    · exact absurd h (d3 q hq pm hm)
  · apply cherche_unique f codesm (by decide +kernel) pm hm ((hf _).mpr (Or.inr (Or.inr rfl)))
    intro q hq hqf
    rcases (hf _).mp hqf with h | h | h
    · exact absurd h.symm (d2 pc hc q hq)
    · exact absurd h.symm (d3 pt ht q hq)
    · exact h
  · simp only [habille, decide_eq_false_iff_not]
    intro hA
    rcases (hf _).mp hA with h | h | h
    · exact n1 pc hc h.symm
    · exact n2 pt ht h.symm
    · exact n3 pm hm h.symm

/-- Hypotheses of `C214_format`: the format `"o-r"`. -/
example : ∀ c, c ∈ ['o', '-', 'r'] ↔ c = (('r', Coul.rougeSombre) : Char × Coul).1 ∨ c = (('-', Trait.ligne) : Char × Trait).1 ∨ c = (('o', Marq.cercle) : Char × Marq).1 := by
  intro c; simp only [List.mem_cons, List.not_mem_nil, or_false]; tauto

/-- Colour and line of a curve without format. -/
theorem defaut_couleur : ∀ r : Fin 17, (cherche (fdef.getD r []) codes .noir = ((codes.map Prod.snd).getD r .noir)) ∧ cherche (fdef.getD r []) codest .aucun = .ligne ∧ cherche (fdef.getD r []) codesm .aucun = .aucun := by
  decide +kernel

theorem cherche_present {α : Type} (fmt : List Char) (table : List (Char × α)) (h : ∃ p ∈ table, p.1 ∈ fmt) (d d' : α) : cherche fmt table d = cherche fmt table d' := by
  unfold cherche
  induction table generalizing d d' with
  | nil => obtain ⟨p, hp, _⟩ := h; simp at hp
  | cons q t ih =>
    simp only [List.foldl_cons]
    by_cases hq : q.1 ∈ fmt
    · simp only [if_pos hq]
    · simp only [if_neg hq]
      obtain ⟨p, hp, hpf⟩ := h
      rcases List.mem_cons.mp hp with rfl | hp
      · exact absurd hpf hq
      · exact ih ⟨p, hp, hpf⟩ d d'

/-- **C214** (curves without format): drawn with a continuous line, without marker; the curves number `i` and `j` of the figure have the same colour exactly when `i ≡ j` modulo 17. -/
theorem C214_defaut (l l' : List Courbe) (x y x' y' : List ℝ) (hx : x.length = y.length) (hy : y ≠ []) (hx' : x'.length = y'.length) (hy' : y' ≠ []) (nom nom' : List Char) :
    ∃ c c', plot l x y [] nom = l ++ [c] ∧ plot l' x' y' [] nom' = l' ++ [c'] ∧ c.trait = .ligne ∧ c.marqueur = .aucun ∧
      (c.couleur = c'.couleur ↔ l.length % 17 = l'.length % 17) := by
  have key : ∀ (l : List Courbe) (x y : List ℝ) (nom : List Char), x.length = y.length → y ≠ [] → ∃ c, plot l x y [] nom = l ++ [c] ∧ c.trait = .ligne ∧ c.marqueur = .aucun ∧ c.couleur = (codes.map Prod.snd).getD (l.length % 17) .noir := by
    intro l x y nom hx hy
    have h1 : y.length ≠ 0 := by simpa using hy
    have h2 : x.length ≠ 0 := by omega
    have h17 : l.length % 17 < 17 := Nat.mod_lt _ (by norm_num)
    have hd := defaut_couleur ⟨l.length % 17, h17⟩
    have hp : ∀ r : Fin 17, ∃ p ∈ codes, p.1 ∈ fdef.getD r [] := by decide +kernel
    refine ⟨habille l.length (formatEffectif l.length []) x y nom, ?_, ?_, ?_, ?_⟩
    · simp only [plot, if_neg h1, hx, ne_eq, not_true_eq_false, if_false]
    · exact hd.2.1
    · exact hd.2.2
    · exact (cherche_present _ codes (hp ⟨l.length % 17, h17⟩) _ _).trans hd.1
  obtain ⟨c, a1, a2, a3, a4⟩ := key l x y nom hx hy
  obtain ⟨c', b1, _, _, b4⟩ := key l' x' y' nom' hx' hy'
  refine ⟨c, c', a1, b1, a2, a3, ?_⟩
  rw [a4, b4]
  have inj : ∀ i j : Fin 17, (codes.map Prod.snd).getD i .noir = (codes.map Prod.snd).getD j .noir → i = j := by decide +kernel
  constructor
  · intro h
    have := inj ⟨l.length % 17, Nat.mod_lt _ (by norm_num)⟩ ⟨l'.length % 17, Nat.mod_lt _ (by norm_num)⟩ h
    simpa using this
  · intro h; rw [h]

/-- **C214** (documented code): the code `b` is documented as black; it is dark blue, black being `k`. Without a line code, no line is drawn. -/
theorem C214_noir_refute : cherche ['b'] codes .noir = .bleuSombre ∧ cherche ['k'] codes .bleu = .noir ∧ cherche ['r'] codest .aucun = .aucun := by
  decide +kernel

/-- **C214** (complex signal): a signal with a non-negligible imaginary part gives two curves, real part then imaginary part, with the same abscissas; a real signal that is not zero gives one. -/
theorem C214_complexe (l : List Courbe) (x re im : List ℝ) (fmt nom : List Char) (hx : x.length = re.length) (hi : im.length = re.length) (hne : re ≠ []) :
    ((re.map (fun (v : ℝ) => v ^ 2)).sum * (1 / 100000) ≤ (im.map (fun (v : ℝ) => v ^ 2)).sum →
      ∃ c d, plotC l x re im fmt nom = l ++ [c, d] ∧ Donnees c x re ∧ Donnees d x im) ∧
    ((im.map (fun (v : ℝ) => v ^ 2)).sum = 0 → 0 < (re.map (fun (v : ℝ) => v ^ 2)).sum → ∃ c, plotC l x re im fmt nom = l ++ [c] ∧ Donnees c x re) := by
  have hie : im ≠ [] := by
    intro h; rw [h] at hi; exact hne (List.length_eq_zero_iff.mp hi.symm)
  constructor
  · intro h
    simp only [plotC, if_neg (not_lt.mpr h)]
    obtain ⟨c, h1, h2, _⟩ := C214_ajout l x re fmt (nom ++ [' ', '(', 'r', 'e', ')']) hx hne
    rw [h1]
    obtain ⟨d, h3, h4, _⟩ := C214_ajout (l ++ [c]) x im fmt (nom ++ [' ', '(', 'i', 'm', ')']) (by omega) hie
    exact ⟨c, d, by rw [h3]; simp, h2, h4⟩
  · intro h0 hp
    simp only [plotC]
    rw [if_pos (by rw [h0]; linarith)]
    obtain ⟨c, h1, h2, _⟩ := C214_ajout l x re fmt nom hx hne
    exact ⟨c, h1, h2⟩

/-! ## Lists of options -/

theorem decoupe_recolle (sep : Char) (s : List Char) : ∀ cur, recolle sep (decoupe sep cur s) = cur ++ s ∧ decoupe sep cur s ≠ [] := by
  induction s with
  | nil => intro cur; simp [decoupe, recolle]
  | cons c t ih =>
    intro cur
    simp only [decoupe]
    split_ifs with h
    · obtain ⟨h1, h2⟩ := ih (cur ++ [c])
      exact ⟨by rw [h1]; simp, h2⟩
    · obtain ⟨h1, h2⟩ := ih []
      simp only [ne_eq, not_not] at h
      obtain ⟨a, u, hu⟩ := List.exists_cons_of_ne_nil h2
      rw [hu] at h1 ⊢
      refine ⟨?_, by simp⟩
      simp only [recolle]
      rw [h1, h]
      simp

theorem decoupe_sans (sep : Char) (s : List Char) : ∀ cur, sep ∉ cur → ∀ p ∈ decoupe sep cur s, sep ∉ p := by
  induction s with
  | nil => intro cur h p hp; simp only [decoupe, List.mem_singleton] at hp; rw [hp]; exact h
  | cons c t ih =>
    intro cur h p hp
    simp only [decoupe] at hp
    split_ifs at hp with hc
    · exact ih (cur ++ [c]) (by simp [h]; exact fun e => hc e.symm) p hp
    · rcases List.mem_cons.mp hp with rfl | hp
      · exact h
      · exact ih [] (by simp) p hp

/-- **C214** (options of an image): the options are the pieces of the text between the separators: put together again they give the text, and no piece contains the separator. -/
theorem C214_options (sep : Char) (s : List Char) : recolle sep (decoupe sep [] s) = s ∧ ∀ p ∈ decoupe sep [] s, sep ∉ p :=
  ⟨by simpa using (decoupe_recolle sep s []).1, decoupe_sans sep s [] (by simp)⟩

/-! ## Frequencies of a spectrum -/

theorem freqPsd_valeur (reel : Bool) (fe : ℝ) (n k : ℕ) (hk : k < (freqPsd reel fe n).length) :
    (freqPsd reel fe n)[k] = if reel then k * (fe / 2) / ((n / 2 : ℕ) - 1) else -(fe / 2) + k * fe / (n - 1) := by
  cases reel with
  | true =>
    rcases Nat.eq_zero_or_pos k with rfl | h
    · simp [freqPsd, Verif.Util.linspace]
    · have : k ≠ 0 := by omega
      simp [freqPsd, Verif.Util.linspace, this]; ring
  | false =>
    rcases Nat.eq_zero_or_pos k with rfl | h
    · simp [freqPsd, Verif.Util.linspace]
    · have : k ≠ 0 := by omega
      simp [freqPsd, Verif.Util.linspace, this]; ring

/-- **C214** (frequencies of `plot_psd`): for an even number of samples, the frequency displayed for a bin of a real signal is the true one stretched by `n / (n - 2)`; the zero frequency is right. -/
theorem C214_psd_reel (fe : ℝ) (m : ℕ) (hm : 2 ≤ m) (k : ℕ) (hk : k < (freqPsd true fe (2 * m)).length) :
    (freqPsd true fe (2 * m))[k] * ((2 * m : ℝ) - 2) = freqVraie true fe (2 * m) k * (2 * m) := by
  rw [freqPsd_valeur]
  have h1 : (2 : ℝ) ≤ m := by exact_mod_cast hm
  have h2 : (2 * m / 2 : ℕ) = m := by omega
  have h3 : (m : ℝ) - 1 ≠ 0 := by linarith
  have h4 : (m : ℝ) ≠ 0 := by linarith
  simp only [freqVraie, if_true, h2]
  push_cast
  field_simp

/-- **C214** (the displayed frequencies are not those of the bins): for a real signal of `n = 2m ≥ 4` samples, every bin but the first is displayed at a frequency that is not its own; for a complex signal, the zero frequency is displayed at `fe / (2 (n - 1))`. -/
theorem C214_psd_refute (fe : ℝ) (hfe : 0 < fe) (m : ℕ) (hm : 2 ≤ m) :
    (∀ (k : ℕ) (hk : k < (freqPsd true fe (2 * m)).length), 0 < k → freqVraie true fe (2 * m) k < (freqPsd true fe (2 * m))[k]) ∧
    (∀ (hk : m < (freqPsd false fe (2 * m)).length), freqVraie false fe (2 * m) m = 0 ∧ (freqPsd false fe (2 * m))[m] = fe / (2 * (2 * m - 1))) := by
  have h1 : (2 : ℝ) ≤ m := by exact_mod_cast hm
  have h2 : (2 * m / 2 : ℕ) = m := by omega
  constructor
  · intro k hk hk0
    have hkr : (0 : ℝ) < k := by exact_mod_cast hk0
    rw [freqPsd_valeur]
    simp only [freqVraie, if_true, h2]
    push_cast
    rw [div_lt_div_iff₀ (by linarith) (by linarith)]
    have : 0 < (k : ℝ) * fe := by positivity
    nlinarith
  · intro hk
    rw [freqPsd_valeur]
    simp only [freqVraie, h2, Bool.false_eq_true, if_false]
    have h3 : (2 : ℝ) * m - 1 ≠ 0 := by linarith
    refine ⟨by simp, ?_⟩
    push_cast
    field_simp
    ring

/-- Hypotheses of `C214_psd_refute`: 8 samples at 8 Hz; the last of the 4 bins (3 Hz) is displayed at 4 Hz. -/
example : (freqPsd true 8 8)[3]'(by simp [freqPsd, Verif.Util.linspace]) = 4 ∧ freqVraie true 8 8 3 = 3 := by
  rw [freqPsd_valeur]
  norm_num [freqVraie]

end Verif.FigurePlot
