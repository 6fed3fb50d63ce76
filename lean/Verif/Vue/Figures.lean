import Mathlib.Data.Nat.Sqrt
import Mathlib.Data.List.Basic
import Mathlib.Data.List.Nodup
import Mathlib.Data.List.GetD
import Mathlib.Tactic.Ring
import Mathlib.Tactic.Linarith

/-!
# C212: the grid of sub-figures (`Figures`, core/src/vue/figure.cc:960-1114, 1394-1420)

The figures themselves are opaque: a figure is named by a number, and each creation takes a number never used before (`Figure` is a shared pointer, so that a copy of it is the same figure).
-/

namespace Verif.Figures

/-! ## Model -/

/-- `Figures::Impl`, core/src/vue/figure.cc:960-963: the grid `(n, m)`, the current position, the figures; `frais` is the next unused name. -/
structure Figs where
  n : ℤ
  m : ℤ
  pos : ℤ
  subs : List ℕ
  frais : ℕ

/-- `Figures::Figures(rows, cols)`, core/src/vue/figure.cc:978-983, 1040-1043, core/include/tsd/vue.hpp:777. -/
def nouvelles (n m : ℤ) : Figs := { n := n, m := m, pos := 1, subs := [], frais := 0 }

/-- `k` times `subplots.push_back({})`, core/src/vue/figure.cc:1071, 1080-1081, 1104. -/
def cree (k : ℕ) (s : Figs) : Figs :=
  { s with subs := s.subs ++ List.range' s.frais k, frais := s.frais + k }

/-- `subplots.clear()` when the grid changes, then the new grid, core/src/vue/figure.cc:1061-1066. -/
def grille (s : Figs) (n m : ℤ) : Figs :=
  { s with n := n, m := m, subs := if s.n ≠ n ∨ s.m ≠ m then [] else s.subs }

/-- `Figures::subplot(n, m, pos)`, core/src/vue/figure.cc:1058-1084: new state and figure returned (`none` if the access is outside the list). A position beyond `n * m` is only logged (1075-1078). Simplification: the product `n * m` does not overflow. -/
def subplot (s : Figs) (n m pos : ℤ) : Figs × Option ℕ :=
  let s1 := grille s n m
  let s2 := if pos ≤ 0 then cree 1 s1 else s1
  let p : ℤ := if pos ≤ 0 then s2.subs.length else pos
  let s3 := cree (p - s2.subs.length).toNat s2
  ({ s3 with pos := p }, s3.subs[(p - 1).toNat]?)

/-- `Figures::subplot(i)`, core/src/vue/figure.cc:1099-1114. -/
def subplotCode (s : Figs) (i : ℤ) : Figs × Option ℕ :=
  if i < 0 then
    let s1 := cree 1 { s with n := -1, m := -1 }
    ({ s1 with pos := s1.subs.length }, s1.subs.getLast?)
  else
    let n := i.tdiv 100
    subplot s n ((i - 100 * n).tdiv 10) (i.tmod 10)

/-- `Figures::gcf()`, core/src/vue/figure.cc:1086-1089 (`none`: `back()` of an empty list, undefined). -/
def gcf (s : Figs) : Option ℕ := s.subs.getLast?

/-- `Figures::gf(sel)`, core/src/vue/figure.cc:1050-1055 (`none`: exception, or access at a negative index, undefined). -/
def gf (s : Figs) (sel : ℤ) : Option ℕ :=
  if sel ≥ s.subs.length then none else if sel < 0 then none else s.subs[sel.toNat]?

/-- `Figures::Impl::get_nm()`, core/src/vue/figure.cc:1394-1420: (rows, columns). `floor(sqrt(nsubs))` is exact in double precision for a 32-bit count. -/
def getNM (s : Figs) : ℤ × ℤ :=
  let k := s.subs.length
  if k = 0 then (0, 0)
  else if s.m = -1 then
    if k = 1 then (1, 1)
    else if k = 2 then (2, 1)
    else if k = 3 then (3, 1)
    else (((k + Nat.sqrt k - 1) / Nat.sqrt k : ℕ), (Nat.sqrt k : ℕ))
  else (s.m, s.n)

/-- `Rect`, core/include/tsd/vue/image.hpp:197-206. -/
structure Rect where
  x : ℤ
  y : ℤ
  l : ℤ
  h : ℤ
deriving DecidableEq

/-- Zone of the canvas given to the figure of index `i`, core/src/vue/figure.cc:1011-1024. -/
def zone (L H nrows ncols : ℤ) (i : ℕ) : Rect :=
  let mx := L.tdiv ncols
  let my := H.tdiv nrows
  { x := (i : ℤ).tmod ncols * mx, y := (i : ℤ).tdiv ncols * my, l := mx, h := my - 15 }

/-- `Figures::Impl::rendre`, core/src/vue/figure.cc:998-1028, on a canvas of `L × H`: the figures drawn, each with its zone (`none`: failed assertion). -/
def rendre (s : Figs) (L H : ℤ) : Option (List (ℕ × Rect)) :=
  let nrows := (getNM s).1
  let ncols := (getNM s).2
  if nrows * ncols = 0 then some []
  else if ¬ (ncols ≥ 1 ∧ nrows ≥ 1) then none
  else if ¬ ((s.subs.length : ℤ) ≤ ncols * nrows) then none
  else if H.tdiv nrows - 15 > 0 then
    some (s.subs.mapIdx (fun (i f : ℕ) => (f, zone L H nrows ncols i)))
  else some []

/-- A sequence of calls `subplot(n, m, k)` on the same grid: final state and figures returned. -/
def appels (n m : ℤ) : Figs → List ℤ → Figs × List (Option ℕ)
  | s, [] => (s, [])
  | s, k :: ks => ((appels n m (subplot s n m k).1 ks).1, (subplot s n m k).2 :: (appels n m (subplot s n m k).1 ks).2)

/-! ## Specification -/

/-- The pixel `(x, y)` belongs to the rectangle. -/
def Dans (R : Rect) (x y : ℤ) : Prop := R.x ≤ x ∧ x < R.x + R.l ∧ R.y ≤ y ∧ y < R.y + R.h

/-- No pixel is shared. -/
def Disjoints (R R' : Rect) : Prop := ∀ x y : ℤ, ¬ (Dans R x y ∧ Dans R' x y)

/-- The figures held are all different and have all been created. -/
def Valide (s : Figs) : Prop := s.subs.Nodup ∧ ∀ f ∈ s.subs, f < s.frais

/-- The zone of the position `k` (from 1) in a grid of `r` rows and `c` columns on a canvas of `L × H`, filled row by row (what the documentation announces, with the bottom margin of 15 pixels). -/
def zoneAnnoncee (r c k L H : ℤ) : Rect :=
  { x := ((k - 1) % c) * (L / c), y := ((k - 1) / c) * (H / r), l := L / c, h := H / r - 15 }

/-! ## Calls of `subplot` -/

theorem valide_nouvelles (n m : ℤ) : Valide (nouvelles n m) := ⟨List.nodup_nil, by simp [nouvelles]⟩

theorem valide_cree {s : Figs} (h : Valide s) (k : ℕ) : Valide (cree k s) := by
  obtain ⟨h1, h2⟩ := h
  constructor
  · simp only [cree]
    rw [List.nodup_append]
    refine ⟨h1, List.nodup_range', ?_⟩
    intro a ha b hb
    have := h2 a ha
    rw [List.mem_range'] at hb
    obtain ⟨i, hi, rfl⟩ := hb
    omega
  · intro f hf
    simp only [cree, List.mem_append, List.mem_range'] at hf ⊢
    rcases hf with hf | ⟨i, hi, rfl⟩
    · have := h2 f hf; omega
    · omega

theorem valide_grille {s : Figs} (h : Valide s) (n m : ℤ) : Valide (grille s n m) := by
  obtain ⟨h1, h2⟩ := h
  unfold grille Valide
  simp only
  split_ifs
  · simp
  · exact ⟨h1, h2⟩

theorem subplot_valide {s : Figs} (h : Valide s) (n m k : ℤ) : Valide (subplot s n m k).1 := by
  have hg := valide_grille h n m
  simp only [subplot]
  have h2 : Valide (if k ≤ 0 then cree 1 (grille s n m) else grille s n m) := by
    split_ifs
    · exact valide_cree hg 1
    · exact hg
  exact valide_cree h2 _

theorem subplot_grille (s : Figs) (n m k : ℤ) : (subplot s n m k).1.n = n ∧ (subplot s n m k).1.m = m := by
  simp only [subplot]
  split_ifs <;> simp [cree, grille]

theorem prefixe_cree (s : Figs) (k : ℕ) : s.subs <+: (cree k s).subs := ⟨_, rfl⟩

theorem subplot_prefixe {s : Figs} {n m : ℤ} (hn : s.n = n) (hm : s.m = m) (k : ℤ) : s.subs <+: (subplot s n m k).1.subs := by
  have hg : (grille s n m).subs = s.subs := by simp [grille, hn, hm]
  simp only [subplot]
  split_ifs
  · refine List.IsPrefix.trans ?_ (prefixe_cree _ _)
    refine List.IsPrefix.trans ?_ (prefixe_cree _ _)
    rw [hg]
    exact List.prefix_refl _
  · refine List.IsPrefix.trans ?_ (prefixe_cree _ _)
    rw [hg]
    exact List.prefix_refl _

/-- **C212** (the access is always inside the list): every call returns the figure at the current position, which is the position asked for, or the last one when the position is not positive. -/
theorem C212_rendue (s : Figs) (n m k : ℤ) :
    ∃ f, (subplot s n m k).2 = some f ∧ 1 ≤ (subplot s n m k).1.pos ∧
      (subplot s n m k).1.subs[((subplot s n m k).1.pos - 1).toNat]? = some f ∧
      (0 < k → (subplot s n m k).1.pos = k) ∧
      (k ≤ 0 → (subplot s n m k).1.pos = (subplot s n m k).1.subs.length) := by
  simp only [subplot]
  by_cases hk : k ≤ 0
  · simp only [hk, if_true]
    have hl : (cree 1 (grille s n m)).subs.length = (grille s n m).subs.length + 1 := by simp [cree]
    have hz : ((((cree 1 (grille s n m)).subs.length : ℤ) - (cree 1 (grille s n m)).subs.length)).toNat = 0 := by simp
    have hc : ∀ t : Figs, (cree 0 t).subs = t.subs := by intro t; simp [cree]
    rw [hz, hc]
    refine ⟨(cree 1 (grille s n m)).subs[(((cree 1 (grille s n m)).subs.length : ℤ) - 1).toNat]'(by omega), ?_, ?_, ?_, ?_, ?_⟩
    · exact List.getElem?_eq_getElem _
    · omega
    · exact List.getElem?_eq_getElem _
    · intro h; omega
    · intro _; trivial
  · simp only [hk, if_false]
    have hl : (cree (k - ((grille s n m).subs.length : ℤ)).toNat (grille s n m)).subs.length = (grille s n m).subs.length + (k - ((grille s n m).subs.length : ℤ)).toNat := by simp [cree]
    refine ⟨(cree (k - ((grille s n m).subs.length : ℤ)).toNat (grille s n m)).subs[(k - 1).toNat]'(by omega), ?_, ?_, ?_, ?_, ?_⟩
    · exact List.getElem?_eq_getElem _
    · omega
    · exact List.getElem?_eq_getElem _
    · intro _; trivial
    · intro h; exact absurd h (by simp)

theorem subplot_longueur (s : Figs) (n m k : ℤ) (hk : 0 < k) :
    ((subplot s n m k).1.subs.length : ℤ) = max ((grille s n m).subs.length : ℤ) k := by
  have hk' : ¬ k ≤ 0 := by omega
  simp only [subplot, hk', if_false, cree, List.length_append, List.length_range']
  omega

theorem appels_prefixe (n m : ℤ) (ks : List ℤ) : ∀ s : Figs, s.n = n → s.m = m → s.subs <+: (appels n m s ks).1.subs := by
  induction ks with
  | nil => intro s _ _; exact List.prefix_refl _
  | cons k ks ih =>
    intro s hn hm
    exact (subplot_prefixe hn hm k).trans (ih _ (subplot_grille s n m k).1 (subplot_grille s n m k).2)

theorem appels_valide (n m : ℤ) (ks : List ℤ) : ∀ s : Figs, Valide s → Valide (appels n m s ks).1 := by
  induction ks with
  | nil => intro s h; exact h
  | cons k ks ih => intro s h; exact ih _ (subplot_valide h n m k)

theorem appels_longueur (n m : ℤ) (ks : List ℤ) : ∀ s : Figs, (appels n m s ks).2.length = ks.length := by
  induction ks with
  | nil => intro s; rfl
  | cons k ks ih => intro s; simp [appels, ih]

/-- Every figure returned is, at the end, at the position that was asked for. -/
theorem appels_position (n m : ℤ) (ks : List ℤ) (hks : ∀ k ∈ ks, 0 < k) : ∀ (s : Figs) (i : ℕ) (hi : i < ks.length),
    ∃ f, (appels n m s ks).2[i]? = some (some f) ∧ (appels n m s ks).1.subs[(ks[i] - 1).toNat]? = some f := by
  induction ks with
  | nil => intro s i hi; simp at hi
  | cons k ks ih =>
    intro s i hi
    cases i with
    | zero =>
      obtain ⟨f, h1, h2, h3, h4, _⟩ := C212_rendue s n m k
      have hk : 0 < k := hks k (by simp)
      rw [h4 hk] at h3
      refine ⟨f, by simp [appels, h1], ?_⟩
      have hp := appels_prefixe n m ks (subplot s n m k).1 (subplot_grille s n m k).1 (subplot_grille s n m k).2
      obtain ⟨t, ht⟩ := hp
      simp only [appels, List.getElem_cons_zero]
      rw [← ht, List.getElem?_append_left]
      · exact h3
      · by_contra hc
        rw [List.getElem?_eq_none (by omega)] at h3
        simp at h3
    | succ j =>
      simpa [appels] using ih (fun k' hk' => hks k' (by simp [hk'])) (subplot s n m k).1 j (by simpa using hi)

/-- **C212** (stability): in any sequence of calls on one grid, two calls return the same figure exactly when they ask for the same position. -/
theorem C212_stable (s : Figs) (hs : Valide s) (n m : ℤ) (ks : List ℤ) (hks : ∀ k ∈ ks, 0 < k) (i j : ℕ) (hi : i < ks.length) (hj : j < ks.length) :
    (appels n m s ks).2[i]? = (appels n m s ks).2[j]? ↔ ks[i] = ks[j] := by
  obtain ⟨f, hf1, hf2⟩ := appels_position n m ks hks s i hi
  obtain ⟨g, hg1, hg2⟩ := appels_position n m ks hks s j hj
  have hki := hks ks[i] (List.getElem_mem hi)
  have hkj := hks ks[j] (List.getElem_mem hj)
  rw [hf1, hg1]
  constructor
  · intro h
    have hfg : f = g := by simpa using h
    subst hfg
    have hv := (appels_valide n m ks s hs).1
    have hlt : (ks[i] - 1).toNat < (appels n m s ks).1.subs.length := by
      by_contra hc
      rw [List.getElem?_eq_none (by omega)] at hf2
      simp at hf2
    have := (List.getElem?_inj hlt hv).mp (hf2.trans hg2.symm)
    omega
  · intro h
    rw [h] at hf2
    rw [hf2] at hg2
    simpa using hg2

/-- **C212** (a change of grid discards the figures): the figures of the previous grid are never returned again. -/
theorem C212_change (s : Figs) (hs : Valide s) (n m k : ℤ) (hnm : s.n ≠ n ∨ s.m ≠ m) :
    ∀ f ∈ s.subs, f ∉ (subplot s n m k).1.subs := by
  intro f hf hf'
  have h2 := hs.2 f hf
  have hg : (grille s n m).subs = [] := by simp [grille, hnm]
  have hfr : (grille s n m).frais = s.frais := rfl
  simp only [subplot] at hf'
  split_ifs at hf'
  · simp only [cree, hg, hfr, List.nil_append, List.mem_append, List.mem_range'] at hf'
    rcases hf' with ⟨i, hi, he⟩ | ⟨i, hi, he⟩ <;> omega
  · simp only [cree, hg, hfr, List.nil_append, List.mem_range'] at hf'
    obtain ⟨i, hi, he⟩ := hf'
    omega

/-- **C212** (compact form): `subplot(rck)` is `subplot(r, c, k)`. -/
theorem C212_code (s : Figs) (r c k : ℤ) (hr : 0 ≤ r) (hc : 0 ≤ c ∧ c ≤ 9) (hk : 0 ≤ k ∧ k ≤ 9) :
    subplotCode s (100 * r + 10 * c + k) = subplot s r c k := by
  have h0 : ¬ (100 * r + 10 * c + k < 0) := by omega
  have e1 : (100 * r + 10 * c + k).tdiv 100 = r := by
    rw [Int.tdiv_eq_ediv_of_nonneg (by omega)]; omega
  have e2 : (100 * r + 10 * c + k - 100 * r).tdiv 10 = c := by
    rw [Int.tdiv_eq_ediv_of_nonneg (by omega)]; omega
  have e3 : (100 * r + 10 * c + k).tmod 10 = k := by
    rw [Int.tmod_eq_emod_of_nonneg (by omega)]; omega
  simp only [subplotCode, h0, if_false, e1, e2, e3]

/-- **C212** (automatic form): `subplot()` adds a new figure after the existing ones, which are all kept. -/
theorem C212_auto_ajout (s : Figs) (hs : Valide s) : ∃ f, (subplotCode s (-1)).2 = some f ∧ f ∉ s.subs ∧
    (subplotCode s (-1)).1.subs = s.subs ++ [f] ∧ (subplotCode s (-1)).1.m = -1 ∧ Valide (subplotCode s (-1)).1 := by
  refine ⟨s.frais, ?_, ?_, ?_, rfl, ?_⟩
  · simp [subplotCode, cree]
  · intro h; have := hs.2 _ h; omega
  · simp [subplotCode, cree]
  · exact valide_cree (s := { s with n := -1, m := -1 }) hs 1

/-! ## Rendering -/

theorem rect_dedans {L c : ℤ} (hL : 0 ≤ L) (hc : 1 ≤ c) {j : ℤ} (h0 : 0 ≤ j) (hj : j < c) : 0 ≤ j * (L / c) ∧ j * (L / c) + L / c ≤ L := by
  have h1 : 0 ≤ L / c := Int.ediv_nonneg hL (by omega)
  have h2 : c * (L / c) ≤ L := Int.mul_ediv_self_le (by omega)
  constructor
  · positivity
  · nlinarith

theorem zone_eq (L H nr nc : ℤ) (hL : 0 ≤ L) (hH : 0 ≤ H) (i : ℕ) :
    zone L H nr nc i = { x := ((i : ℤ) % nc) * (L / nc), y := ((i : ℤ) / nc) * (H / nr), l := L / nc, h := H / nr - 15 } := by
  simp only [zone]
  rw [Int.tdiv_eq_ediv_of_nonneg hL, Int.tdiv_eq_ediv_of_nonneg hH, Int.tdiv_eq_ediv_of_nonneg (by omega), Int.tmod_eq_emod_of_nonneg (by omega)]

theorem zones_disjointes {a : ℤ} (ha : 0 ≤ a) {j j' x : ℤ} (h : j * a ≤ x ∧ x < j * a + a) (h' : j' * a ≤ x ∧ x < j' * a + a) : j = j' := by
  by_contra hne
  rcases lt_or_gt_of_ne hne with hlt | hlt
  · have : (j + 1) * a ≤ j' * a := mul_le_mul_of_nonneg_right (by omega) ha
    nlinarith
  · have : (j' + 1) * a ≤ j * a := mul_le_mul_of_nonneg_right (by omega) ha
    nlinarith

/-- **C212** (the zones): whenever the rendering does not fail, the figures drawn are all the figures in their order (or none when the rows are not more than 15 pixels high), every zone is inside the canvas, and no two zones share a pixel. -/
theorem C212_zones (s : Figs) (L H : ℤ) (hL : 0 ≤ L) (hH : 0 ≤ H) (l : List (ℕ × Rect)) (h : rendre s L H = some l) :
    (l = [] ∨ l.map Prod.fst = s.subs) ∧
    (∀ p ∈ l, 0 ≤ p.2.x ∧ p.2.x + p.2.l ≤ L ∧ 0 ≤ p.2.y ∧ p.2.y + p.2.h ≤ H) ∧
    (∀ (i j : ℕ) (hi : i < l.length) (hj : j < l.length), i ≠ j → Disjoints l[i].2 l[j].2) := by
  simp only [rendre] at h
  generalize (getNM s).1 = nr at h
  generalize (getNM s).2 = nc at h
  by_cases h0 : nr * nc = 0
  · rw [if_pos h0] at h
    obtain rfl : [] = l := by simpa using h
    exact ⟨Or.inl rfl, by simp, by simp⟩
  rw [if_neg h0] at h
  by_cases h1 : nc ≥ 1 ∧ nr ≥ 1
  swap
  · rw [if_pos h1] at h; exact absurd h (by simp)
  rw [if_neg (by simpa using h1)] at h
  by_cases h2 : (s.subs.length : ℤ) ≤ nc * nr
  swap
  · rw [if_pos h2] at h; exact absurd h (by simp)
  rw [if_neg (by simpa using h2)] at h
  by_cases h3 : H.tdiv nr - 15 > 0
  swap
  · rw [if_neg h3] at h
    obtain rfl : [] = l := by simpa using h
    exact ⟨Or.inl rfl, by simp, by simp⟩
  rw [if_pos h3] at h
  have hl : s.subs.mapIdx (fun (i f : ℕ) => (f, zone L H nr nc i)) = l := by simpa using h
  have hlen : l.length = s.subs.length := by rw [← hl]; simp
  have hget : ∀ (i : ℕ) (hi : i < l.length), l[i].2 = zone L H nr nc i := by
    intro i hi
    subst hl
    simp
  have hrow : ∀ i : ℕ, i < l.length → ((i : ℤ) / nc) < nr := by
    intro i hi
    apply Int.ediv_lt_of_lt_mul (by omega)
    have : (i : ℤ) < s.subs.length := by omega
    nlinarith
  refine ⟨Or.inr ?_, ?_, ?_⟩
  · subst hl
    apply List.ext_getElem
    · simp
    · intro i h1 h2; simp
  · intro p hp
    obtain ⟨i, hi, rfl⟩ := List.mem_iff_getElem.mp hp
    rw [hget i hi, zone_eq L H nr nc hL hH]
    simp only
    have a := rect_dedans hL h1.1 (Int.emod_nonneg (i : ℤ) (by omega : nc ≠ 0)) (Int.emod_lt_of_pos (i : ℤ) (by omega : 0 < nc))
    have b := rect_dedans hH h1.2 (Int.ediv_nonneg (by omega : (0 : ℤ) ≤ i) (by omega : 0 ≤ nc)) (hrow i hi)
    omega
  · intro i j hi hj hij x y hxy
    rw [hget i hi, hget j hj, zone_eq L H nr nc hL hH, zone_eq L H nr nc hL hH] at hxy
    simp only [Dans] at hxy
    obtain ⟨⟨a1, a2, a3, a4⟩, b1, b2, b3, b4⟩ := hxy
    have e1 := zones_disjointes (Int.ediv_nonneg hL (by omega : 0 ≤ nc)) ⟨a1, a2⟩ ⟨b1, b2⟩
    have e2 := zones_disjointes (Int.ediv_nonneg hH (by omega : 0 ≤ nr)) ⟨a3, by omega⟩ ⟨b3, by omega⟩
    have d1 := Int.mul_ediv_add_emod (i : ℤ) nc
    have d2 := Int.mul_ediv_add_emod (j : ℤ) nc
    rw [e1, e2] at d1
    omega

/-- The automatic grid, in closed form. -/
theorem getNM_auto (s : Figs) (hm : s.m = -1) (hk : s.subs ≠ []) :
    getNM s = ((((s.subs.length + Nat.sqrt s.subs.length - 1) / Nat.sqrt s.subs.length : ℕ) : ℤ), ((Nat.sqrt s.subs.length : ℕ) : ℤ)) := by
  have h0 : s.subs.length ≠ 0 := by simpa using hk
  simp only [getNM, hm, if_true, h0, if_false]
  split_ifs with h1 h2 h3
  · rw [h1]; decide +kernel
  · rw [h2]; decide +kernel
  · rw [h3]; decide +kernel
  · rfl

/-- **C212** (automatic grid): with `k ≥ 1` figures, the grid has at least `k` cells, no empty row, between as many and two more rows than columns; the rendering never fails. -/
theorem C212_auto (s : Figs) (hm : s.m = -1) (hk : s.subs ≠ []) (L H : ℤ) :
    let k : ℤ := s.subs.length
    k ≤ (getNM s).1 * (getNM s).2 ∧ ((getNM s).1 - 1) * (getNM s).2 < k ∧
    1 ≤ (getNM s).2 ∧ (getNM s).2 ≤ (getNM s).1 ∧ (getNM s).1 ≤ (getNM s).2 + 2 ∧
    (rendre s L H).isSome = true := by
  have h0 : 0 < s.subs.length := List.length_pos_iff.mpr hk
  rw [getNM_auto s hm hk]
  have hr1 : 1 ≤ Nat.sqrt s.subs.length := Nat.sqrt_pos.mpr h0
  have hr2 : Nat.sqrt s.subs.length * Nat.sqrt s.subs.length ≤ s.subs.length := Nat.sqrt_le _
  have hr3 : s.subs.length ≤ Nat.sqrt s.subs.length * Nat.sqrt s.subs.length + Nat.sqrt s.subs.length + Nat.sqrt s.subs.length := Nat.sqrt_le_add _
  have hnm := getNM_auto s hm hk
  generalize hk' : s.subs.length = k at *
  generalize Nat.sqrt k = q at *
  have hd1 : k ≤ ((k + q - 1) / q) * q := by
    have := Nat.div_add_mod (k + q - 1) q
    have h2 := Nat.mod_lt (k + q - 1) hr1
    rw [mul_comm] at this
    omega
  have hd2 : ((k + q - 1) / q) * q ≤ k + q - 1 := Nat.div_mul_le_self _ _
  generalize (k + q - 1) / q = n at *
  have hn1 : q ≤ n := by
    by_contra hc
    have : (n + 1) * q ≤ q * q := Nat.mul_le_mul_right _ (by omega)
    nlinarith
  have hn2 : n ≤ q + 2 := by
    by_contra hc
    have : (q + 3) * q ≤ n * q := Nat.mul_le_mul_right _ (by omega)
    have : k + q - 1 < k + q := by omega
    nlinarith
  have hz1 : (k : ℤ) ≤ n * q := by exact_mod_cast hd1
  have hz2 : (n : ℤ) * q + 1 ≤ k + q := by
    have : n * q + 1 ≤ k + q := by omega
    exact_mod_cast this
  refine ⟨hz1, ?_, by simp only; exact_mod_cast hr1, by simp only; exact_mod_cast hn1, by simp only; exact_mod_cast hn2, ?_⟩
  · simp only; nlinarith
  · simp only [rendre, hnm, hk']
    have c1 : ¬ ((n : ℤ) * q = 0) := by
      have : (1 : ℤ) ≤ k := by omega
      omega
    rw [if_neg c1, if_neg (by simp only [not_not]; constructor <;> omega), if_neg (by simp only [not_not]; rw [mul_comm]; exact hz1)]
    split_ifs <;> rfl

/-! ## The grid that is asked for and the grid that is drawn -/

theorem appels_grille (n m : ℤ) (ks : List ℤ) : ∀ s : Figs, ks ≠ [] → (appels n m s ks).1.n = n ∧ (appels n m s ks).1.m = m := by
  induction ks with
  | nil => intro s h; exact absurd rfl h
  | cons k ks ih =>
    intro s _
    by_cases hks : ks = []
    · subst hks; exact subplot_grille s n m k
    · exact ih _ hks

theorem appels_taille (n m : ℤ) (ks : List ℤ) (hks : ∀ k ∈ ks, 0 < k ∧ k ≤ n * m) : ∀ s : Figs,
    ((grille s n m).subs.length : ℤ) ≤ n * m → ks ≠ [] → ((appels n m s ks).1.subs.length : ℤ) ≤ n * m := by
  induction ks with
  | nil => intro s _ h; exact absurd rfl h
  | cons k ks ih =>
    intro s hs _
    have hk := hks k (by simp)
    have hl := subplot_longueur s n m k hk.1
    by_cases he : ks = []
    · subst he
      simp only [appels]
      omega
    · refine ih (fun k' hk' => hks k' (by simp [hk'])) _ ?_ he
      have hg := subplot_grille s n m k
      have : (grille (subplot s n m k).1 n m).subs = (subplot s n m k).1.subs := by simp [grille, hg.1, hg.2]
      rw [this]
      omega

/-- **C212** (what is drawn): after any non-empty sequence of calls `subplot(r, c, k)` with `1 ≤ k ≤ r * c` on new figures, the rendering succeeds, and the figure of the position `k` is in the zone of the position `k` of a grid of `c` **rows** and `r` **columns**: the two numbers are exchanged. -/
theorem C212_dessin (n0 m0 r c L H : ℤ) (hr : 1 ≤ r) (hc : 1 ≤ c) (hL : 0 ≤ L) (hH : 16 ≤ H / c) (hH0 : 0 ≤ H) (ks : List ℤ) (hne : ks ≠ []) (hks : ∀ k ∈ ks, 0 < k ∧ k ≤ r * c) :
    ∃ l, rendre (appels r c (nouvelles n0 m0) ks).1 L H = some l ∧
      ∀ (i : ℕ) (hi : i < ks.length), ∃ f, (appels r c (nouvelles n0 m0) ks).2[i]? = some (some f) ∧
        (f, zoneAnnoncee c r ks[i] L H) ∈ l := by
  have hg := appels_grille r c ks (nouvelles n0 m0) hne
  have hsz := appels_taille r c ks hks (nouvelles n0 m0) (by
    have h : 0 ≤ r * c := by nlinarith
    have e : (grille (nouvelles n0 m0) r c).subs = [] := by
      by_cases hh : n0 ≠ r ∨ m0 ≠ c
      · exact if_pos hh
      · exact if_neg hh
    rw [e]; simpa using h) hne
  have hpos := appels_position r c ks (fun k hk => (hks k hk).1) (nouvelles n0 m0)
  have hl0 : 0 < ks.length := List.length_pos_iff.mpr hne
  have hne' : (appels r c (nouvelles n0 m0) ks).1.subs.length ≠ 0 := by
    obtain ⟨f, _, h2⟩ := hpos 0 hl0
    intro h
    rw [List.length_eq_zero_iff.mp h] at h2
    simp at h2
  generalize (appels r c (nouvelles n0 m0) ks).2 = res at *
  generalize (appels r c (nouvelles n0 m0) ks).1 = s at *
  have hnm : getNM s = (c, r) := by
    have : ¬ c = -1 := by omega
    simp [getNM, hne', hg.1, hg.2, this]
  have e1 : H.tdiv c - 15 > 0 := by rw [Int.tdiv_eq_ediv_of_nonneg hH0]; omega
  have e0 : ¬ (c * r = 0) := by
    intro h; rcases mul_eq_zero.mp h with h | h <;> omega
  refine ⟨s.subs.mapIdx (fun (i f : ℕ) => (f, zone L H c r i)), ?_, ?_⟩
  · simp only [rendre, hnm]
    rw [if_neg e0, if_neg (by simp only [not_not]; omega), if_neg (by simp only [not_not]; exact hsz), if_pos e1]
  · intro i hi
    obtain ⟨f, h1, h2⟩ := hpos i hi
    refine ⟨f, h1, ?_⟩
    have hlt : (ks[i] - 1).toNat < s.subs.length := by
      by_contra hcon
      rw [List.getElem?_eq_none (by omega)] at h2
      simp at h2
    have hk := (hks ks[i] (List.getElem_mem hi)).1
    rw [List.mem_iff_getElem]
    refine ⟨(ks[i] - 1).toNat, by simpa using hlt, ?_⟩
    rw [List.getElem?_eq_getElem hlt] at h2
    simp only [List.getElem_mapIdx]
    rw [zone_eq L H c r hL hH0]
    have hz : (((ks[i] - 1).toNat : ℕ) : ℤ) = ks[i] - 1 := by omega
    rw [hz]
    simp only [Option.some.injEq] at h2
    rw [h2]
    rfl

/-- Hypotheses of `C212_dessin` and `C212_stable`: positions 1, 3, 1 of `subplot(2, 2, k)`; the first and the third call return the same figure. -/
example : (appels 2 2 (nouvelles (-1) (-1)) [1, 3, 1]).2 = [some 0, some 2, some 0] ∧
    rendre (appels 2 2 (nouvelles (-1) (-1)) [1, 3, 1]).1 800 600 = some [(0, ⟨0, 0, 400, 285⟩), (1, ⟨400, 0, 400, 285⟩), (2, ⟨0, 300, 400, 285⟩)] := by
  decide +kernel

/-- **C212** (the documented grid is not the one drawn): `subplot(2, 1, 1)`, `subplot(2, 1, 2)`, documented as two rows and one column, put the two figures side by side, in one row. -/
theorem C212_transpose_refute :
    (appels 2 1 (nouvelles (-1) (-1)) [1, 2]).2 = [some 0, some 1] ∧
    rendre (appels 2 1 (nouvelles (-1) (-1)) [1, 2]).1 800 600 = some [(0, ⟨0, 0, 400, 585⟩), (1, ⟨400, 0, 400, 585⟩)] ∧
    zoneAnnoncee 2 1 2 800 600 = ⟨0, 300, 800, 285⟩ := by
  decide +kernel

/-- **C212** (a position outside the grid makes the rendering fail): for any grid and any position beyond its last cell, the call is accepted (only a message is logged) and the rendering then fails. -/
theorem C212_hors_grille_refute (n0 m0 r c k L H : ℤ) (hr : 1 ≤ r) (hc : 1 ≤ c) (hk : r * c < k) :
    (subplot (nouvelles n0 m0) r c k).2.isSome = true ∧ rendre (subplot (nouvelles n0 m0) r c k).1 L H = none := by
  have hk0 : 0 < k := by nlinarith
  obtain ⟨f, h1, _⟩ := C212_rendue (nouvelles n0 m0) r c k
  refine ⟨by rw [h1]; rfl, ?_⟩
  have hg := subplot_grille (nouvelles n0 m0) r c k
  have hl := subplot_longueur (nouvelles n0 m0) r c k hk0
  generalize (subplot (nouvelles n0 m0) r c k).1 = s at *
  have hsz : r * c < (s.subs.length : ℤ) := by omega
  have hne' : s.subs.length ≠ 0 := by
    intro h; rw [h] at hsz
    have : 1 ≤ r * c := by nlinarith
    simp at hsz; omega
  have hnm : getNM s = (c, r) := by
    have : ¬ c = -1 := by omega
    simp [getNM, hne', hg.1, hg.2, this]
  have e0 : ¬ (c * r = 0) := by
    intro h; rcases mul_eq_zero.mp h with h | h <;> omega
  simp only [rendre, hnm]
  rw [if_neg e0, if_neg (by simp only [not_not]; omega), if_pos (by omega)]

/-- **C212** (`gcf()` is the last figure, not the current one; it is undefined without any figure; a code below 100 gives a grid without cell, whose rendering draws nothing). -/
theorem C212_gcf_refute :
    (subplot (appels 2 1 (nouvelles (-1) (-1)) [1, 2]).1 2 1 1).2 = some 0 ∧
    gcf (subplot (appels 2 1 (nouvelles (-1) (-1)) [1, 2]).1 2 1 1).1 = some 1 ∧
    gcf (nouvelles (-1) (-1)) = none ∧
    (subplotCode (nouvelles (-1) (-1)) 12).2 = some 1 ∧ rendre (subplotCode (nouvelles (-1) (-1)) 12).1 800 600 = some [] := by
  decide +kernel

/-- **C212** (`gf(i)`): the figure number `i` (from 0) if there is one, otherwise an exception for a too large number. -/
theorem C212_gf (s : Figs) (i : ℕ) : gf s i = s.subs[i]? := by
  simp only [gf]
  by_cases h : s.subs.length ≤ i
  · rw [if_pos (by omega), List.getElem?_eq_none h]
  · rw [if_neg (by omega), if_neg (by omega)]
    simp

end Verif.Figures
