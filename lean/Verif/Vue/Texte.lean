import Mathlib.Data.Real.Basic
import Mathlib.Tactic.Linarith
import Mathlib.Tactic.NormNum
import Mathlib.Tactic.Positivity
import Mathlib.Algebra.Order.Archimedean.Basic
import Mathlib.Data.Real.Archimedean

/-!
# C223: fitting of a text in a rectangle, common scale of a group of texts (core/src/vue/image.cc:160-260, core/src/vue/canva.cc:961-990)

The dimensions of a line as a function of the scale (`texte_dim`) are a parameter `td`; the scales are exact reals.
-/

namespace Verif.Texte

variable {L : Type}

/-! ## Model -/

/-- Positions of the lines: `ypos`, `xdim`, `ydim`, then `dim_totale`, core/src/vue/image.cc:194-213 (`y`, `m`: the height and the width so far). -/
def place (td : L → ℝ → ℤ × ℤ) (s : ℝ) : ℤ → ℤ → List L → List (ℤ × ℤ × ℤ) × ℤ × ℤ
  | y, m, [] => ([], m, y)
  | y, m, a :: rest =>
    let dim := td a s;
    let h := if rest.isEmpty then dim.2 else dim.2 + 5;
    let r := place td s (y + h) (max dim.1 m) rest;
    ((y, dim.1, h) :: r.1, r.2)

/-- `dim_totale`, core/src/vue/image.cc:194-213. -/
def total (td : L → ℝ → ℤ × ℤ) (s : ℝ) (lignes : List L) : ℤ × ℤ := (place td s 0 0 lignes).2

/-- The search of the scale, core/src/vue/image.cc:190-224, in at most `n` turns (`none`: they do not suffice); `some none`: failure. `borne = none`: no limit (`config.dim_max.l == -1`). -/
noncomputable def cherche (td : L → ℝ → ℤ × ℤ) (borne : Option (ℤ × ℤ)) (lignes : List L) : ℕ → ℝ → Option (Option ℝ)
  | 0, _ => none
  | n + 1, s =>
    match borne with
    | none => some (some s)
    | some d =>
      let t := total td s lignes;
      if t.1 ≤ d.1 ∧ t.2 ≤ d.2 then some (some s)
      else if s < 1 / 1000 then some none
      else cherche td borne lignes n (s * (9 / 10))

/-- The loop of the drawing, core/src/vue/image.cc:239-257: the lines drawn with their position, up to the first that overflows. -/
def trace (td : L → ℝ → ℤ × ℤ) (centre : Bool) (s : ℝ) (dim : ℤ × ℤ) : List L → List (ℤ × ℤ × ℤ) → List (L × ℤ × ℤ)
  | a :: ls, p :: ps =>
    let x := if centre then dim.1.tdiv 2 - p.2.1.tdiv 2 else 0;
    let d := td a s;
    if d.1 + x > dim.1 ∨ d.2 + p.1 > dim.2 then [] else (a, x, p.1) :: trace td centre s dim ls ps
  | _, _ => []

/-- Result of `affiche_texte`: `échelle_appliquée`, dimensions of the image, lines drawn. -/
structure Resultat (L : Type) where
  echelle : ℝ
  dim : ℤ × ℤ
  lignes : List (L × ℤ × ℤ)

/-- The image of one pixel returned when the text cannot be placed, core/src/vue/image.cc:165-166, 176-177. -/
def echec : Resultat L := ⟨0, (1, 1), []⟩

/-- `affiche_texte(lignes, config, props)`, core/src/vue/image.cc:160-260. -/
noncomputable def affiche (n : ℕ) (td : L → ℝ → ℤ × ℤ) (centre : Bool) (dimMax : ℤ × ℤ) (lignes : List L) (s0 : ℝ) : Option (Resultat L) :=
  let d := if dimMax.1 = -1 then (1000, 800) else dimMax;
  if d.1 < 1 ∨ d.2 < 1 then some echec
  else (cherche td (if dimMax.1 = -1 then none else some d) lignes n s0).map fun r : Option ℝ =>
    match r with
    | none => echec
    | some s => ⟨s, total td s lignes, trace td centre s (total td s lignes) lignes (place td s 0 0 lignes).1⟩

/-- The scale of a group from the scales applied to its elements, core/src/vue/canva.cc:967-983. -/
noncomputable def echelleGroupe (l : List ℝ) : ℝ := l.foldl (fun (s x : ℝ) => if s = 0 then x else min s x) 0

/-! ## Specification -/

/-- The text fits at the scale `s`. -/
def Tient (td : L → ℝ → ℤ × ℤ) (dimMax : ℤ × ℤ) (lignes : List L) (s : ℝ) : Prop := dimMax.1 = -1 ∨ ((total td s lignes).1 ≤ dimMax.1 ∧ (total td s lignes).2 ≤ dimMax.2)

/-- Height of a text at the scale `s`: the lines, with five pixels between two lines. -/
def hauteur (td : L → ℝ → ℤ × ℤ) (s : ℝ) : List L → ℤ
  | [] => 0
  | [a] => (td a s).2
  | a :: b :: l => (td a s).2 + 5 + hauteur td s (b :: l)

/-! ## Proofs -/

theorem place_total (td : L → ℝ → ℤ × ℤ) (s : ℝ) (lignes : List L) : ∀ y m : ℤ, (place td s y m lignes).2.2 = y + hauteur td s lignes ∧
    m ≤ (place td s y m lignes).2.1 ∧ (∀ a ∈ lignes, (td a s).1 ≤ (place td s y m lignes).2.1) ∧ ((place td s y m lignes).2.1 = m ∨ ∃ a ∈ lignes, (place td s y m lignes).2.1 = (td a s).1) := by
  induction lignes with
  | nil => intro y m; exact ⟨by simp [place, hauteur], le_rfl, by simp, Or.inl rfl⟩
  | cons a l ih =>
    intro y m
    obtain ⟨h1, h2, h3, h4⟩ := ih (y + if l.isEmpty then (td a s).2 else (td a s).2 + 5) (max (td a s).1 m)
    have e : (place td s y m (a :: l)).2 = (place td s (y + if l.isEmpty then (td a s).2 else (td a s).2 + 5) (max (td a s).1 m) l).2 := rfl
    rw [e]
    refine ⟨?_, le_trans (le_max_right _ _) h2, fun b hb => ?_, ?_⟩
    · rw [h1]
      cases l with
      | nil => simp [hauteur]
      | cons b l => simp [hauteur]; ring
    · rcases List.mem_cons.1 hb with rfl | hb
      · exact le_trans (le_max_left _ _) h2
      · exact h3 b hb
    · rcases h4 with h4 | ⟨b, hb, h4⟩
      · rcases max_choice (td a s).1 m with h | h
        · exact Or.inr ⟨a, by simp, h4.trans h⟩
        · exact Or.inl (h4.trans h)
      · exact Or.inr ⟨b, List.mem_cons_of_mem _ hb, h4⟩

/-- **C223 (dimensions).** The text takes the sum of the heights of its lines, plus five pixels between two lines, and the width of its widest line. -/
theorem C223_dimensions (td : L → ℝ → ℤ × ℤ) (s : ℝ) (lignes : List L) (hne : lignes ≠ []) (hp : ∀ a ∈ lignes, 0 ≤ (td a s).1) :
    (total td s lignes).2 = hauteur td s lignes ∧ (∀ a ∈ lignes, (td a s).1 ≤ (total td s lignes).1) ∧ ∃ a ∈ lignes, (total td s lignes).1 = (td a s).1 := by
  obtain ⟨h1, h2, h3, h4⟩ := place_total td s lignes 0 0
  refine ⟨by rw [zero_add] at h1; exact h1, h3, ?_⟩
  rcases h4 with h4 | h4
  · obtain ⟨a, ha⟩ := List.exists_mem_of_ne_nil _ hne
    refine ⟨a, ha, ?_⟩
    have := h3 a ha
    have := hp a ha
    unfold total
    omega
  · exact h4

/-- **C223 (search).** With enough turns the search ends; it gives the first scale of the sequence `s0`, `0.9 s0`, `0.81 s0`, ... at which the text fits, all the previous ones being at least 1/1000 — or fails, when none of those fits. -/
theorem cherche_correct (td : L → ℝ → ℤ × ℤ) (d : ℤ × ℤ) (lignes : List L) (n : ℕ) : ∀ s0 : ℝ,
    (∃ m < n, s0 * (9 / 10) ^ m < 1 / 1000) →
    ∃ r, cherche td (some d) lignes n s0 = some r ∧
      (∀ s, r = some s → ∃ k, s = s0 * (9 / 10) ^ k ∧ ((total td s lignes).1 ≤ d.1 ∧ (total td s lignes).2 ≤ d.2) ∧
        ∀ j < k, 1 / 1000 ≤ s0 * (9 / 10) ^ j ∧ ¬ ((total td (s0 * (9 / 10) ^ j) lignes).1 ≤ d.1 ∧ (total td (s0 * (9 / 10) ^ j) lignes).2 ≤ d.2)) ∧
      (r = none → ∃ k, s0 * (9 / 10) ^ k < 1 / 1000 ∧ ∀ j ≤ k, ¬ ((total td (s0 * (9 / 10) ^ j) lignes).1 ≤ d.1 ∧ (total td (s0 * (9 / 10) ^ j) lignes).2 ≤ d.2)) := by
  induction n with
  | zero => rintro s0 ⟨m, hm, -⟩; omega
  | succ n ih =>
    rintro s0 ⟨m, hm, hs⟩
    unfold cherche
    simp only
    by_cases h1 : (total td s0 lignes).1 ≤ d.1 ∧ (total td s0 lignes).2 ≤ d.2
    · rw [if_pos h1]
      refine ⟨some s0, rfl, fun s e => ⟨0, by rw [pow_zero, mul_one]; exact (Option.some.inj e).symm, ?_, fun j hj => absurd hj (by omega)⟩, fun e => by simp at e⟩
      rw [← Option.some.inj e]
      exact h1
    · rw [if_neg h1]
      by_cases h2 : s0 < 1 / 1000
      · rw [if_pos h2]
        refine ⟨none, rfl, fun s e => by simp at e, fun _ => ⟨0, by simpa using h2, fun j hj => ?_⟩⟩
        rw [Nat.le_zero.1 hj, pow_zero, mul_one]
        exact h1
      · rw [if_neg h2]
        have hm0 : m ≠ 0 := by
          rintro rfl
          rw [pow_zero, mul_one] at hs
          exact h2 hs
        obtain ⟨m', rfl⟩ := Nat.exists_eq_succ_of_ne_zero hm0
        have hpow : ∀ j : ℕ, s0 * (9 / 10) * (9 / 10) ^ j = s0 * (9 / 10) ^ (j + 1) := fun j => by rw [pow_succ]; ring
        obtain ⟨r, e, r1, r2⟩ := ih (s0 * (9 / 10)) ⟨m', by omega, by rw [hpow]; exact hs⟩
        refine ⟨r, e, fun s hr => ?_, fun hr => ?_⟩
        · obtain ⟨k, k1, k2, k3⟩ := r1 s hr
          refine ⟨k + 1, by rw [k1, hpow], k2, fun j hj => ?_⟩
          cases j with
          | zero => rw [pow_zero, mul_one]; exact ⟨not_lt.1 h2, h1⟩
          | succ j => rw [← hpow]; exact k3 j (by omega)
        · obtain ⟨k, k1, k2⟩ := r2 hr
          refine ⟨k + 1, by rw [← hpow]; exact k1, fun j hj => ?_⟩
          cases j with
          | zero => rw [pow_zero, mul_one]; exact h1
          | succ j => rw [← hpow]; exact k2 j (by omega)

/-- **C223 (termination).** Whatever the text, the limits and the initial scale, the search ends. -/
theorem C223_termine (td : L → ℝ → ℤ × ℤ) (centre : Bool) (dimMax : ℤ × ℤ) (lignes : List L) (s0 : ℝ) : ∃ n0, ∀ n, n0 ≤ n → ∃ r, affiche n td centre dimMax lignes s0 = some r := by
  obtain ⟨m, hm⟩ : ∃ m : ℕ, s0 * (9 / 10) ^ m < 1 / 1000 := by
    rcases le_or_gt s0 0 with h | h
    · exact ⟨0, by rw [pow_zero, mul_one]; linarith⟩
    · obtain ⟨m, hm⟩ := exists_pow_lt_of_lt_one (show (0 : ℝ) < 1 / 1000 / s0 by positivity) (show (9 / 10 : ℝ) < 1 by norm_num)
      exact ⟨m, by rw [lt_div_iff₀ h] at hm; linarith⟩
  refine ⟨m + 1, fun n hn => ?_⟩
  unfold affiche
  simp only
  split_ifs with h1 h2 h3
  · exact ⟨_, rfl⟩
  · obtain ⟨k, rfl⟩ : ∃ k, n = k + 1 := ⟨n - 1, by omega⟩
    exact ⟨_, rfl⟩
  · exact ⟨_, rfl⟩
  · obtain ⟨r, e, -⟩ := cherche_correct td dimMax lignes n s0 ⟨m, by omega, hm⟩
    rw [e]
    exact ⟨_, rfl⟩

theorem place_fst_length (td : L → ℝ → ℤ × ℤ) (s : ℝ) (lignes : List L) : ∀ y m : ℤ, (place td s y m lignes).1.length = lignes.length := by
  induction lignes with
  | nil => intro y m; rfl
  | cons a l ih => intro y m; unfold place; simp only [List.length_cons, ih]

theorem hauteur_nonneg (td : L → ℝ → ℤ × ℤ) (s : ℝ) : ∀ (l : List L), (∀ a ∈ l, 0 ≤ (td a s).2) → 0 ≤ hauteur td s l
  | [], _ => le_rfl
  | [a], h => h a (by simp)
  | a :: b :: l, h => by
    have h1 := hauteur_nonneg td s (b :: l) fun c hc => h c (List.mem_cons_of_mem _ hc)
    have h2 := h a (by simp)
    unfold hauteur
    omega

/-- The lines are all drawn, inside of the image, one below the other without overlap. -/
theorem trace_correct (td : L → ℝ → ℤ × ℤ) (centre : Bool) (s : ℝ) (dim : ℤ × ℤ) (lignes : List L) : ∀ y m : ℤ, 0 ≤ y → (∀ a ∈ lignes, 0 ≤ (td a s).1 ∧ 0 ≤ (td a s).2 ∧ (td a s).1 ≤ dim.1) → y + hauteur td s lignes ≤ dim.2 → 0 ≤ dim.1 →
    (trace td centre s dim lignes (place td s y m lignes).1).map (fun t : L × ℤ × ℤ => t.1) = lignes ∧
    (∀ t ∈ trace td centre s dim lignes (place td s y m lignes).1, 0 ≤ t.2.1 ∧ t.2.1 + (td t.1 s).1 ≤ dim.1 ∧ y ≤ t.2.2 ∧ t.2.2 + (td t.1 s).2 ≤ dim.2 ∧
      (centre = true → |2 * t.2.1 + (td t.1 s).1 - dim.1| ≤ 1) ∧ (centre = false → t.2.1 = 0)) ∧
    (trace td centre s dim lignes (place td s y m lignes).1).Pairwise (fun t t' : L × ℤ × ℤ => t.2.2 + (td t.1 s).2 + 5 ≤ t'.2.2) := by
  induction lignes with
  | nil => intro y m _ _ _ _; exact ⟨rfl, by simp [trace], by simp [trace]⟩
  | cons a l ih =>
    intro y m hy hp hh hd
    obtain ⟨p1, p2, p3⟩ := hp a (by simp)
    set h := (if l.isEmpty then (td a s).2 else (td a s).2 + 5) with hdef
    have hhe : hauteur td s (a :: l) = h + hauteur td s l := by
      rw [hdef]
      cases l with
      | nil => simp [hauteur]
      | cons b l => simp [hauteur]
    have hge : (td a s).2 ≤ h := by rw [hdef]; split_ifs <;> omega
    have hl0 : 0 ≤ hauteur td s l := hauteur_nonneg td s l fun b hb => (hp b (List.mem_cons_of_mem _ hb)).2.1
    obtain ⟨i1, i2, i3⟩ := ih (y + h) (max (td a s).1 m) (by omega) (fun b hb => hp b (List.mem_cons_of_mem _ hb)) (by omega) hd
    have e : (place td s y m (a :: l)).1 = (y, (td a s).1, h) :: (place td s (y + h) (max (td a s).1 m) l).1 := rfl
    rw [e]
    have hx : (0 ≤ if centre then dim.1.tdiv 2 - (td a s).1.tdiv 2 else 0) ∧ (td a s).1 + (if centre then dim.1.tdiv 2 - (td a s).1.tdiv 2 else 0) ≤ dim.1 := by
      rw [Int.tdiv_eq_ediv_of_nonneg hd, Int.tdiv_eq_ediv_of_nonneg p1]
      split_ifs <;> omega
    unfold trace
    simp only
    rw [if_neg (by omega)]
    refine ⟨by rw [List.map_cons, i1], fun t ht => ?_, ?_⟩
    · rcases List.mem_cons.1 ht with rfl | ht
      · refine ⟨hx.1, by simp only; omega, le_rfl, by simp only; omega, fun hc => ?_, fun hc => by simp [hc]⟩
        simp only [hc, if_true]
        rw [Int.tdiv_eq_ediv_of_nonneg hd, Int.tdiv_eq_ediv_of_nonneg p1, abs_le]
        omega
      · obtain ⟨q1, q2, q3, q4, q5⟩ := i2 t ht
        exact ⟨q1, q2, by omega, q4, q5⟩
    · refine List.Pairwise.cons (fun t ht => ?_) i3
      have q := (i2 t ht).2.2.1
      have hne : l.isEmpty = false := by
        cases l with
        | nil => simp [trace] at ht
        | cons b l => rfl
      simp only
      rw [hdef, hne] at q
      simp at q
      omega

/-- **C223 (fitted text).** The result is either the text at a scale that fits, in an image exactly of its dimensions (so inside of the limits), with all its lines, inside of the image, aligned or centred, without overlap — at the largest scale of the sequence; or the image of one pixel and the scale 0. -/
theorem C223_affiche (n : ℕ) (td : L → ℝ → ℤ × ℤ) (centre : Bool) (dimMax : ℤ × ℤ) (lignes : List L) (s0 : ℝ) (hs0 : 0 < s0) (hp : ∀ a ∈ lignes, ∀ s, 0 ≤ (td a s).1 ∧ 0 ≤ (td a s).2)
    (hn : ∃ m < n, s0 * (9 / 10) ^ m < 1 / 1000) :
    ∃ r, affiche n td centre dimMax lignes s0 = some r ∧ (r = echec ∨
      (∃ k, r.echelle = s0 * (9 / 10) ^ k ∧ ∀ j < k, ¬ Tient td dimMax lignes (s0 * (9 / 10) ^ j)) ∧ Tient td dimMax lignes r.echelle ∧ 0 < r.echelle ∧ r.echelle ≤ s0 ∧ r.dim = total td r.echelle lignes ∧
      r.lignes.map (fun t : L × ℤ × ℤ => t.1) = lignes ∧
      (∀ t ∈ r.lignes, 0 ≤ t.2.1 ∧ t.2.1 + (td t.1 r.echelle).1 ≤ r.dim.1 ∧ 0 ≤ t.2.2 ∧ t.2.2 + (td t.1 r.echelle).2 ≤ r.dim.2 ∧ (centre = true → |2 * t.2.1 + (td t.1 r.echelle).1 - r.dim.1| ≤ 1) ∧ (centre = false → t.2.1 = 0)) ∧
      r.lignes.Pairwise (fun t t' : L × ℤ × ℤ => t.2.2 + (td t.1 r.echelle).2 + 5 ≤ t'.2.2)) := by
  have dessin : ∀ s, (trace td centre s (total td s lignes) lignes (place td s 0 0 lignes).1).map (fun t : L × ℤ × ℤ => t.1) = lignes ∧
      (∀ t ∈ trace td centre s (total td s lignes) lignes (place td s 0 0 lignes).1, 0 ≤ t.2.1 ∧ t.2.1 + (td t.1 s).1 ≤ (total td s lignes).1 ∧ 0 ≤ t.2.2 ∧ t.2.2 + (td t.1 s).2 ≤ (total td s lignes).2 ∧
        (centre = true → |2 * t.2.1 + (td t.1 s).1 - (total td s lignes).1| ≤ 1) ∧ (centre = false → t.2.1 = 0)) ∧
      (trace td centre s (total td s lignes) lignes (place td s 0 0 lignes).1).Pairwise (fun t t' : L × ℤ × ℤ => t.2.2 + (td t.1 s).2 + 5 ≤ t'.2.2) := by
    intro s
    obtain ⟨h1, h2, h3, -⟩ := place_total td s lignes 0 0
    exact trace_correct td centre s (total td s lignes) lignes 0 0 le_rfl (fun a ha => ⟨(hp a ha s).1, (hp a ha s).2, h3 a ha⟩) h1.ge h2
  have hk : ∀ k : ℕ, 0 < s0 * (9 / 10) ^ k ∧ s0 * (9 / 10) ^ k ≤ s0 := fun k =>
    ⟨by positivity, mul_le_of_le_one_right hs0.le (pow_le_one₀ (by norm_num) (by norm_num))⟩
  unfold affiche
  simp only
  by_cases hm : dimMax.1 = -1
  · rw [if_pos hm, if_neg (by norm_num), if_pos hm]
    obtain ⟨m, hmn, -⟩ := hn
    obtain ⟨n', rfl⟩ : ∃ n', n = n' + 1 := ⟨n - 1, by omega⟩
    refine ⟨⟨s0, total td s0 lignes, trace td centre s0 (total td s0 lignes) lignes (place td s0 0 0 lignes).1⟩, rfl, Or.inr ⟨⟨0, by simp, fun j hj => absurd hj (by omega)⟩, Or.inl hm, hs0, le_rfl, rfl, dessin s0⟩⟩
  · rw [if_neg hm, if_neg hm]
    by_cases h1 : dimMax.1 < 1 ∨ dimMax.2 < 1
    · rw [if_pos h1]
      exact ⟨echec, rfl, Or.inl rfl⟩
    · rw [if_neg h1]
      obtain ⟨r, e, r1, r2⟩ := cherche_correct td dimMax lignes n s0 hn
      rw [e]
      cases r with
      | none => exact ⟨echec, rfl, Or.inl rfl⟩
      | some s =>
        obtain ⟨k, k1, k2, k3⟩ := r1 s rfl
        refine ⟨⟨s, total td s lignes, trace td centre s (total td s lignes) lignes (place td s 0 0 lignes).1⟩, rfl, Or.inr ⟨⟨k, k1, fun j hj ht => ?_⟩, Or.inr k2, k1 ▸ (hk k).1, k1 ▸ (hk k).2, rfl, dessin s⟩⟩
        rcases ht with ht | ht
        · exact hm ht
        · exact (k3 j hj).2 ht

/-- **C223 (group).** When all the elements of a group could be placed, the common scale is the smallest of theirs. -/
theorem C223_groupe (l : List ℝ) (hne : l ≠ []) (hp : ∀ x ∈ l, 0 < x) : echelleGroupe l ∈ l ∧ ∀ x ∈ l, echelleGroupe l ≤ x := by
  have key : ∀ (l : List ℝ) (s : ℝ), 0 < s → (∀ x ∈ l, 0 < x) → (l.foldl (fun (s x : ℝ) => if s = 0 then x else min s x) s = s ∨ l.foldl (fun (s x : ℝ) => if s = 0 then x else min s x) s ∈ l) ∧
      l.foldl (fun (s x : ℝ) => if s = 0 then x else min s x) s ≤ s ∧ ∀ x ∈ l, l.foldl (fun (s x : ℝ) => if s = 0 then x else min s x) s ≤ x := by
    intro l
    induction l with
    | nil => intro s _ _; exact ⟨Or.inl rfl, le_rfl, by simp⟩
    | cons a l ih =>
      intro s hs hp
      rw [List.foldl_cons, if_neg hs.ne']
      obtain ⟨i1, i2, i3⟩ := ih (min s a) (lt_min hs (hp a (by simp))) fun x hx => hp x (List.mem_cons_of_mem _ hx)
      refine ⟨?_, le_trans i2 (min_le_left _ _), fun x hx => ?_⟩
      · rcases i1 with i1 | i1
        · rcases min_choice s a with h | h
          · exact Or.inl (i1.trans h)
          · right; rw [i1, h]; exact List.mem_cons_self
        · exact Or.inr (List.mem_cons_of_mem _ i1)
      · rcases List.mem_cons.1 hx with rfl | hx
        · exact le_trans i2 (min_le_right _ _)
        · exact i3 x hx
  cases l with
  | nil => exact absurd rfl hne
  | cons a l =>
    unfold echelleGroupe
    rw [List.foldl_cons, if_pos rfl]
    obtain ⟨i1, i2, i3⟩ := key l a (hp a (by simp)) fun x hx => hp x (List.mem_cons_of_mem _ hx)
    refine ⟨?_, fun x hx => ?_⟩
    · rcases i1 with i1 | i1
      · rw [i1]; exact List.mem_cons_self
      · exact List.mem_cons_of_mem _ i1
    · rcases List.mem_cons.1 hx with rfl | hx
      · exact i2
      · exact i3 x hx

/-- **C223 (same scale for the group).** If moreover the dimensions of the lines grow with the scale, each text of the group, drawn at the common scale, fits at this scale and is not shrunk further. -/
theorem C223_meme_echelle (n : ℕ) (hn : 0 < n) (td : L → ℝ → ℤ × ℤ) (centre : Bool) (dimMax : ℤ × ℤ) (lignes : List L) (hc : 1 ≤ dimMax.1 ∧ 1 ≤ dimMax.2) (s c : ℝ) (hcs : c ≤ s)
    (hm : (total td c lignes).1 ≤ (total td s lignes).1 ∧ (total td c lignes).2 ≤ (total td s lignes).2) (hs : Tient td dimMax lignes s) :
    ∃ r, affiche n td centre dimMax lignes c = some r ∧ r.echelle = c := by
  have h1 : dimMax.1 ≠ -1 := by omega
  rcases hs with h | ⟨h2, h3⟩
  · exact absurd h h1
  · obtain ⟨n', rfl⟩ : ∃ n', n = n' + 1 := ⟨n - 1, by omega⟩
    unfold affiche
    simp only
    rw [if_neg h1, if_neg h1, if_neg (by omega)]
    unfold cherche
    simp only
    rw [if_pos ⟨by omega, by omega⟩]
    exact ⟨_, rfl, rfl⟩

/-- **C223 (group with a text that cannot be placed, refuted).** A text that cannot be placed (scale 0) erases the limit set by the previous ones: the common scale can then be larger than what fits for the first text, and depends on the order of the texts. -/
theorem C223_groupe_refute (a b : ℝ) (ha : 0 < a) (hab : a < b) : echelleGroupe [a, 0, b] = b ∧ echelleGroupe [0, a, b] = a ∧ echelleGroupe [a, b, 0] = 0 := by
  unfold echelleGroupe
  simp only [List.foldl_cons, List.foldl_nil]
  have e1 : min a 0 = 0 := min_eq_right ha.le
  have e2 : min a b = a := min_eq_left hab.le
  simp [ha.ne', e1, e2]

/-- Two lines of widths 10 and 6 and of height 8, at the scale 1. -/
example : place (fun (a : ℕ) (_ : ℝ) => ((a : ℤ), 8)) 1 0 0 [10, 6] = ([(0, 10, 13), (13, 6, 8)], 10, 21) := by
  simp [place]

/-- The hypothesis of `C223_affiche` on the number of turns is met: 66 turns suffice from the scale 1. -/
example : ∃ m < 67, (1 : ℝ) * (9 / 10) ^ m < 1 / 1000 := ⟨66, by norm_num, by norm_num⟩

end Verif.Texte
