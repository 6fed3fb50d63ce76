import Mathlib.Algebra.Order.Floor.Ring
import Mathlib.Data.Rat.Floor
import Mathlib.Tactic.Linarith
import Mathlib.Tactic.FieldSimp
import Mathlib.Tactic.Positivity

/-!
# C224: the box of the legend (core/src/vue/axes.cc:71-102, 1278-1462)

The dimensions of the names (`texte_dim`) are data of the series; integers are unbounded and quotients exact.
-/

namespace Verif.Legende

/-! ## Model -/

/-- `Position::Type`, core/include/tsd/vue.hpp:161-168. -/
inductive Pos where
  | nordEst | sudEst | sudOuest | nordOuest | aucune
deriving DecidableEq

/-- `Position(cstring id)`, core/src/vue/axes.cc:71-89. -/
def parse (id : String) : Pos :=
  [("ne", Pos.nordEst), ("no", Pos.nordOuest), ("so", Pos.sudOuest), ("se", Pos.sudEst), ("ur", Pos.nordEst), ("ul", Pos.nordOuest), ("ll", Pos.sudOuest), ("lr", Pos.sudEst)].foldl
    (fun (t : Pos) (c : String × Pos) => if c.1 = id then c.2 else t) Pos.aucune

/-- `operator string()`, core/src/vue/axes.cc:91-102. -/
def texte (p : Pos) : String :=
  if p = Pos.nordEst then "ne" else if p = Pos.sudEst then "se" else if p = Pos.nordOuest then "no" else if p = Pos.sudOuest then "so" else "?"

/-- A series of the configuration: is its name not empty, dimensions of its name, filled, with markers, core/src/vue/axes.cc:1288-1330. -/
structure Serie where
  nomme : Bool
  l : ℤ
  h : ℤ
  remplissage : Bool
  marqueur : Bool

/-- The box: corner `p0`, dimensions, height of a row, width of the texts, samples drawn. -/
structure Cartouche where
  x : ℤ
  y : ℤ
  l : ℤ
  h : ℤ
  h1 : ℤ
  lx : ℤ
  traits : Bool
deriving DecidableEq

/-- `lx_max`, core/src/vue/axes.cc:1311-1318. -/
def lxMax (s : List Serie) : ℤ := s.foldl (fun (m : ℤ) (c : Serie) => max c.l m) 0

/-- `ly_max`, core/src/vue/axes.cc:1311-1318. -/
def lyMax (s : List Serie) : ℤ := s.foldl (fun (m : ℤ) (c : Serie) => max c.h m) 0

/-- `afficher_traits`, core/src/vue/axes.cc:1320-1329. -/
def traits (s : List Serie) : Bool := s.any fun c : Serie => c.remplissage || c.marqueur

/-- The corner, core/src/vue/axes.cc:1378-1400; `mg`, `mh`: left and upper margins. -/
def coin (mg mh sxg syg l h : ℤ) (titre : Bool) (p : Pos) : ℤ × ℤ :=
  let yoffset := if titre then 35 else 0;
  match p with
  | .nordEst => (mg + sxg - l - 8, 8 + yoffset)
  | .sudEst => (mg + sxg - l - 8, mh + syg - h - 8)
  | .sudOuest => (mg + 8, mh + syg - h - 8)
  | _ => (mg + 8, 8 + yoffset)

/-- `affiche_cartouche_legende`, core/src/vue/axes.cc:1278-1411 (`none`: nothing is drawn). -/
def cartouche (mg mh sxg syg : ℤ) (titre : Bool) (p : Pos) (s : List Serie) : Option Cartouche :=
  if sxg < 100 ∨ syg < 100 then none
  else if p = Pos.aucune then none
  else if ¬ (s.any fun c : Serie => c.nomme) = true then none
  else
    let n : ℤ := s.length;
    let lTot := min (sxg.tdiv 3) (lxMax s + if traits s then 50 else 0);
    let hTot := if (lyMax s + 2) * n > syg.tdiv 2 then syg.tdiv 2 else (lyMax s + 2) * n;
    let lx := if traits s then lTot - 50 else lTot;
    let h1 := ⌈(hTot : ℚ) / n⌉;
    if lx < 0 ∨ h1 ≤ 8 then none
    else
      let c := coin mg mh sxg syg lTot (h1 * n) titre p;
      some ⟨c.1, c.2, lTot, h1 * n, h1, lx, traits s⟩

/-- Ordinate of the middle of the row `i`, core/src/vue/axes.cc:1427. -/
def milieu (c : Cartouche) (i : ℤ) : ℤ := c.y + i * c.h1 + c.h1.tdiv 2

/-- Abscissas of the sample of a row: `trait_xmin`, `trait_xmax`, core/src/vue/axes.cc:1433-1434. -/
def echantillon (c : Cartouche) : ℤ × ℤ := (c.x + 10 + c.lx, c.x + c.l - 5)

/-- Vertical extent of the filled sample of the row `i` (first row of pixels, number of rows), core/src/vue/axes.cc:1442. -/
def pave (c : Cartouche) (i : ℤ) : ℤ × ℤ := (milieu c i - 7, 14)

/-- Zone reserved to the text of the row `i`: left, middle ordinate, largest width and height, core/src/vue/axes.cc:1431. -/
def zoneTexte (c : Cartouche) (i : ℤ) : ℤ × ℤ × ℤ × ℤ := (c.x + 5, milieu c i + 2, c.lx, c.h1 - 6)

/-! ## Specification -/

/-- Height available for the names: the natural height, at most half of that of the graph. -/
def hauteur (syg : ℤ) (s : List Serie) : ℤ := min ((lyMax s + 2) * s.length) (syg / 2)

/-- The legend is displayed. -/
def Montree (sxg syg : ℤ) (p : Pos) (s : List Serie) : Prop :=
  100 ≤ sxg ∧ 100 ≤ syg ∧ p ≠ Pos.aucune ∧ (∃ c ∈ s, c.nomme = true) ∧ 8 * (s.length : ℤ) < hauteur syg s ∧
  ((∃ c ∈ s, c.remplissage = true ∨ c.marqueur = true) → 150 ≤ sxg)

/-! ## Proofs -/

theorem foldl_max_borne (f : Serie → ℤ) (s : List Serie) : ∀ m : ℤ, m ≤ s.foldl (fun (m : ℤ) (c : Serie) => max (f c) m) m ∧ ∀ c ∈ s, f c ≤ s.foldl (fun (m : ℤ) (c : Serie) => max (f c) m) m := by
  induction s with
  | nil => intro m; exact ⟨le_rfl, by simp⟩
  | cons a s ih =>
    intro m
    obtain ⟨h1, h2⟩ := ih (max (f a) m)
    refine ⟨le_trans (le_max_right _ _) h1, fun c hc => ?_⟩
    rcases List.mem_cons.1 hc with rfl | hc
    · exact le_trans (le_max_left _ _) h1
    · exact h2 c hc

theorem traits_iff (s : List Serie) : traits s = true ↔ ∃ c ∈ s, c.remplissage = true ∨ c.marqueur = true := by
  unfold traits
  simp [List.any_eq_true]

theorem plafond (a n : ℤ) (hn : 0 < n) : a ≤ ⌈(a : ℚ) / n⌉ * n ∧ ⌈(a : ℚ) / n⌉ * n < a + n := by
  have hq : (0 : ℚ) < n := by exact_mod_cast hn
  have h1 := Int.le_ceil ((a : ℚ) / n)
  have h2 := Int.ceil_lt_add_one ((a : ℚ) / n)
  rw [div_le_iff₀ hq] at h1
  rw [← sub_lt_iff_lt_add, lt_div_iff₀ hq] at h2
  refine ⟨by exact_mod_cast h1, ?_⟩
  have h3 : ((⌈(a : ℚ) / n⌉ : ℚ)) * n < a + n := by linarith
  exact_mod_cast h3

/-- The content of the box when it is displayed. -/
theorem cartouche_some (mg mh sxg syg : ℤ) (titre : Bool) (p : Pos) (s : List Serie) (c : Cartouche) (h : cartouche mg mh sxg syg titre p s = some c) :
    100 ≤ sxg ∧ 100 ≤ syg ∧ p ≠ Pos.aucune ∧ (∃ e ∈ s, e.nomme = true) ∧ 0 < (s.length : ℤ) ∧
    c.l = min (sxg / 3) (lxMax s + if traits s then 50 else 0) ∧ c.traits = traits s ∧ c.lx = (if traits s then c.l - 50 else c.l) ∧ 0 ≤ c.lx ∧ 8 < c.h1 ∧ c.h = c.h1 * s.length ∧
    hauteur syg s ≤ c.h ∧ c.h < hauteur syg s + s.length ∧ (c.x, c.y) = coin mg mh sxg syg c.l c.h titre p := by
  unfold cartouche at h
  by_cases h1 : sxg < 100 ∨ syg < 100
  · rw [if_pos h1] at h; exact absurd h (by simp)
  rw [if_neg h1] at h
  by_cases h2 : p = Pos.aucune
  · rw [if_pos h2] at h; exact absurd h (by simp)
  rw [if_neg h2] at h
  by_cases h3 : ¬ (s.any fun c : Serie => c.nomme) = true
  · rw [if_pos h3] at h; exact absurd h (by simp)
  rw [if_neg h3] at h
  rw [not_not] at h3
  simp only at h
  have hb : ¬ ((if traits s = true then (min (sxg.tdiv 3) (lxMax s + if traits s = true then 50 else 0)) - 50 else (min (sxg.tdiv 3) (lxMax s + if traits s = true then 50 else 0))) < 0 ∨
      ⌈((if (lyMax s + 2) * (s.length : ℤ) > syg.tdiv 2 then syg.tdiv 2 else (lyMax s + 2) * s.length : ℤ) : ℚ) / (s.length : ℤ)⌉ ≤ 8) := by
    intro hc
    rw [if_pos hc] at h
    exact absurd h (by simp)
  rw [if_neg hb] at h
  have hn : 0 < (s.length : ℤ) := by
    cases s with
    | nil => simp at h3
    | cons a s => simp only [List.length_cons]; push_cast; omega
  have hh : (if (lyMax s + 2) * (s.length : ℤ) > syg.tdiv 2 then syg.tdiv 2 else (lyMax s + 2) * s.length) = hauteur syg s := by
    unfold hauteur
    rw [Int.tdiv_eq_ediv_of_nonneg (by omega)]
    split_ifs with h4
    · rw [min_eq_right h4.le]
    · rw [min_eq_left (not_lt.1 h4)]
  rw [hh] at h hb
  rw [Int.tdiv_eq_ediv_of_nonneg (show 0 ≤ sxg by omega)] at h hb
  obtain ⟨p1, p2⟩ := plafond (hauteur syg s) s.length hn
  push Not at hb
  rw [← Option.some.inj h]
  have h3' : ∃ e ∈ s, e.nomme = true := by simpa [List.any_eq_true] using h3
  exact ⟨by omega, by omega, h2, h3', hn, rfl, rfl, rfl, hb.1, hb.2, rfl, p1, p2, rfl⟩

/-- **C224 (display).** The legend is displayed exactly when the graph has at least 100 by 100 pixels, a position is asked for, a series has a name, more than 8 pixels are available for each row, and, when samples are drawn, the graph has at least 150 columns. -/
theorem C224_montree (mg mh sxg syg : ℤ) (titre : Bool) (p : Pos) (s : List Serie) : (∃ c, cartouche mg mh sxg syg titre p s = some c) ↔ Montree sxg syg p s := by
  constructor
  · rintro ⟨c, hc⟩
    obtain ⟨h1, h2, h3, h4, hn, h5, -, h6, h7, h8, h9, h10, h11, -⟩ := cartouche_some mg mh sxg syg titre p s c hc
    refine ⟨h1, h2, h3, h4, ?_, fun ht => ?_⟩
    · have : 9 * (s.length : ℤ) ≤ c.h := by rw [h9]; exact mul_le_mul_of_nonneg_right (by omega) hn.le
      omega
    · have ht' := (traits_iff s).2 ht
      rw [ht', if_pos rfl] at h5
      rw [ht', if_pos rfl] at h6
      omega
  · rintro ⟨h1, h2, h3, h4, h5, h6⟩
    have hlx : 0 ≤ lxMax s := (foldl_max_borne (fun c => c.l) s 0).1
    unfold cartouche
    rw [if_neg (by omega), if_neg h3, if_neg (by simpa [List.any_eq_true] using h4)]
    have hn : 0 < (s.length : ℤ) := by
      obtain ⟨e, he, -⟩ := h4
      have := List.length_pos_of_mem he
      omega
    have hh : (if (lyMax s + 2) * (s.length : ℤ) > syg.tdiv 2 then syg.tdiv 2 else (lyMax s + 2) * s.length) = hauteur syg s := by
      unfold hauteur
      rw [Int.tdiv_eq_ediv_of_nonneg (by omega)]
      split_ifs with h4
      · rw [min_eq_right h4.le]
      · rw [min_eq_left (not_lt.1 h4)]
    have hs3 : sxg.tdiv 3 = sxg / 3 := Int.tdiv_eq_ediv_of_nonneg (by omega)
    obtain ⟨p1, p2⟩ := plafond (hauteur syg s) s.length hn
    simp only [hh]
    rw [if_neg]
    · exact ⟨_, rfl⟩
    · rintro (h7 | h7)
      · rw [hs3] at h7
        by_cases ht : traits s = true
        · have := h6 ((traits_iff s).1 ht)
          simp only [ht, if_true] at h7
          omega
        · simp only [ht] at h7
          simp at h7
          omega
      · have : ⌈((hauteur syg s : ℤ) : ℚ) / (s.length : ℤ)⌉ * s.length ≤ 8 * s.length := mul_le_mul_of_nonneg_right h7 hn.le
        omega

/-- **C224 (inside of the graph).** The box, with its frame (three rows more than the height), is inside of the graph. -/
theorem C224_dedans (mg sxg syg : ℤ) (titre : Bool) (p : Pos) (s : List Serie) (c : Cartouche) (h : cartouche mg 0 sxg syg titre p s = some c) :
    mg ≤ c.x ∧ c.x + c.l - 1 ≤ mg + sxg - 1 ∧ 0 ≤ c.y ∧ c.y + c.h + 2 ≤ syg - 1 := by
  obtain ⟨h1, h2, h3, h4, hn, h5, -, h6, h7, h8, h9, h10, h11, h12⟩ := cartouche_some mg 0 sxg syg titre p s c h
  have hl : c.l ≤ sxg / 3 := by rw [h5]; exact min_le_left _ _
  have hl0 : 0 ≤ c.l := by
    by_cases ht : traits s = true
    · rw [ht, if_pos rfl] at h6; omega
    · rw [if_neg ht] at h6; omega
  have hha : hauteur syg s ≤ syg / 2 := min_le_right _ _
  have h9' : 9 * (s.length : ℤ) ≤ c.h := by rw [h9]; exact mul_le_mul_of_nonneg_right (by omega) hn.le
  have hbound : c.h + 46 ≤ syg := by
    by_cases hg : 108 ≤ syg
    · omega
    · have hN : (s.length : ℤ) ≤ 6 := by omega
      have hy : syg / 2 ≤ 53 := by omega
      have hN1 : (s.length : ℤ) = 1 ∨ (s.length : ℤ) = 2 ∨ (s.length : ℤ) = 3 ∨ (s.length : ℤ) = 4 ∨ (s.length : ℤ) = 5 ∨ (s.length : ℤ) = 6 := by omega
      rcases hN1 with e | e | e | e | e | e <;> rw [e] at h9 h11 <;> omega
  have ex : c.x = (coin mg 0 sxg syg c.l c.h titre p).1 := by rw [← h12]
  have ey : c.y = (coin mg 0 sxg syg c.l c.h titre p).2 := by rw [← h12]
  cases p <;> cases titre <;> simp [coin] at ex ey h3 <;> omega

/-- **C224 (corner).** The box is at 8 pixels of the borders of the corner asked for, lowered by 35 pixels at the top when there is a title. -/
theorem C224_coin (mg sxg syg : ℤ) (titre : Bool) (p : Pos) (s : List Serie) (c : Cartouche) (h : cartouche mg 0 sxg syg titre p s = some c) :
    (p = .nordEst ∨ p = .sudEst → c.x + c.l = mg + sxg - 8) ∧ (p = .nordOuest ∨ p = .sudOuest → c.x = mg + 8) ∧
    (p = .nordEst ∨ p = .nordOuest → c.y = 8 + if titre then 35 else 0) ∧ (p = .sudEst ∨ p = .sudOuest → c.y + c.h = syg - 8) := by
  obtain ⟨-, -, h3, -, -, -, -, -, -, -, -, -, -, h12⟩ := cartouche_some mg 0 sxg syg titre p s c h
  have ex : c.x = (coin mg 0 sxg syg c.l c.h titre p).1 := by rw [← h12]
  have ey : c.y = (coin mg 0 sxg syg c.l c.h titre p).2 := by rw [← h12]
  cases p <;> simp [coin] at ex ey h3 ⊢ <;> constructor <;> omega

/-- **C224 (rows).** The zones of the texts are inside of the box and disjoint, each one before its sample; the samples are horizontally inside of the box. -/
theorem C224_lignes (mg mh sxg syg : ℤ) (titre : Bool) (p : Pos) (s : List Serie) (c : Cartouche) (h : cartouche mg mh sxg syg titre p s = some c) (i : ℤ) (hi : 0 ≤ i ∧ i < s.length) :
    2 * c.y ≤ 2 * (zoneTexte c i).2.1 - (zoneTexte c i).2.2.2 ∧ 2 * (zoneTexte c i).2.1 + (zoneTexte c i).2.2.2 ≤ 2 * (c.y + c.h) ∧ 0 < (zoneTexte c i).2.2.2 ∧
    2 * (zoneTexte c i).2.1 + (zoneTexte c i).2.2.2 + 10 ≤ 2 * (zoneTexte c (i + 1)).2.1 - (zoneTexte c (i + 1)).2.2.2 + 4 ∧
    (zoneTexte c i).1 + (zoneTexte c i).2.2.1 < (echantillon c).1 ∧
    (c.traits = true → c.x ≤ (echantillon c).1 ∧ (echantillon c).1 + 35 = (echantillon c).2 ∧ (echantillon c).2 < c.x + c.l) := by
  obtain ⟨h1, h2, h3, h4, hn, h5, ht, h6, h7, h8, h9, -⟩ := cartouche_some mg mh sxg syg titre p s c h
  have hd : c.h1.tdiv 2 = c.h1 / 2 := Int.tdiv_eq_ediv_of_nonneg (by omega)
  have hi1 : (i + 1) * c.h1 ≤ c.h := by
    rw [h9, mul_comm c.h1]
    exact mul_le_mul_of_nonneg_right (by omega) (by omega)
  have hi2 : (i + 1) * c.h1 = i * c.h1 + c.h1 := by ring
  have hi0 : 0 ≤ i * c.h1 := mul_nonneg hi.1 (by omega)
  unfold zoneTexte echantillon milieu
  simp only
  rw [hd, hi2]
  refine ⟨by omega, by omega, by omega, by omega, by omega, fun hc => ?_⟩
  rw [ht] at hc
  rw [hc, if_pos rfl] at h6
  omega

/-- **C224 (filled samples, refuted).** The filled samples have 14 rows whatever the height of the rows: as soon as the rows are smaller, the samples of two successive filled series overlap, and the first one goes out of the box. -/
theorem C224_pave_refute (c : Cartouche) (i : ℤ) (h0 : 8 < c.h1) (h1 : c.h1 < 14) : (pave c (i + 1)).1 < (pave c i).1 + (pave c i).2 ∧ (pave c 0).1 < c.y := by
  have hd : c.h1.tdiv 2 = c.h1 / 2 := Int.tdiv_eq_ediv_of_nonneg (by omega)
  unfold pave milieu
  simp only
  rw [hd, show (i + 1) * c.h1 = i * c.h1 + c.h1 by ring]
  constructor
  · omega
  · omega

/-- **C224 (codes of the positions).** The code of each displayed position designates it; the French and English codes agree. -/
theorem C224_codes (p : Pos) : (p ≠ .aucune → parse (texte p) = p) ∧ parse "ur" = parse "ne" ∧ parse "ul" = parse "no" ∧ parse "ll" = parse "so" ∧ parse "lr" = parse "se" := by
  cases p <;> decide +kernel

/-- **C224 (unknown code).** A code that is none of the eight known ones hides the legend. -/
theorem C224_inconnu (mg mh sxg syg : ℤ) (titre : Bool) (id : String) (s : List Serie) (h : id ∉ ["ne", "no", "so", "se", "ur", "ul", "ll", "lr"]) : cartouche mg mh sxg syg titre (parse id) s = none := by
  have e : parse id = Pos.aucune := by
    simp only [List.mem_cons, List.not_mem_nil, or_false, not_or] at h
    obtain ⟨a, b, c, d, e, f, g, i⟩ := h
    unfold parse
    simp only [List.foldl_cons, List.foldl_nil]
    rw [if_neg (Ne.symm i), if_neg (Ne.symm g), if_neg (Ne.symm f), if_neg (Ne.symm e), if_neg (Ne.symm d), if_neg (Ne.symm c), if_neg (Ne.symm b), if_neg (Ne.symm a)]
  unfold cartouche
  rw [e]
  by_cases h1 : sxg < 100 ∨ syg < 100
  · rw [if_pos h1]
  · rw [if_neg h1, if_pos rfl]

/-- A legend of two series, one with markers, in a graph of 300 by 200 pixels. -/
example : cartouche 50 0 300 200 false .sudEst [⟨true, 40, 20, false, true⟩, ⟨true, 30, 18, false, false⟩] = some ⟨252, 148, 90, 44, 22, 40, true⟩ := by decide +kernel

/-- Twelve series in a graph of 110 rows: no legend; six series: rows of 10 pixels. -/
example : cartouche 0 0 300 110 true .nordEst (List.replicate 12 ⟨true, 40, 20, true, false⟩) = none ∧ (cartouche 0 0 300 110 true .nordEst (List.replicate 6 ⟨true, 40, 20, true, false⟩)).map (fun c => (c.h1, c.y, c.h)) = some (10, 43, 60) := by decide +kernel

end Verif.Legende
