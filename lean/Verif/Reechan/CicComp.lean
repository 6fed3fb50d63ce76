import Mathlib.Algebra.Order.Floor.Semifield
import Verif.Reechan.CicFreq
import Verif.Conception.AnalyseProps
import Verif.Conception.RifFreqProps

/-!
# C196: analysis of a CIC filter and design of its compensation filter (core/src/reechan/cic.cc:118-215, 232-282)

Exact arithmetic instead of `float`; the figures are not modelled.
-/

namespace Verif.Reechan.Comp

open Verif.FracRat Verif.Conception Verif.Util

/-! ## Model -/

/-- What `cic_analyse` computes (the responses are linear). core/src/reechan/cic.cc:118-215. -/
structure Analyse where
  h : FRat ℝ
  fr : List ℝ
  mag : List ℝ
  idf1 : ℤ
  idfs : ℤ

/-- `trouve_premier(fr > f)`, core/src/reechan/cic.cc:139-140, 244, 256. -/
noncomputable def premier (fr : List ℝ) (f : ℝ) : ℤ := trouvePremier (fr.map fun v : ℝ => @decide (f < v) (Classical.dec _))

/-- `cic_analyse(config, fe, f1)`, core/src/reechan/cic.cc:118-215 (`none`: failed assertion). -/
noncomputable def cicAnalyse (R N M : ℕ) (fe f1 : ℝ) : Option Analyse :=
  (designCic R N M).bind fun h => (frmag (.reel h) 4096).bind fun fm =>
    let fr := fm.1.map fun v : ℝ => v * fe
    let idf1 := premier fr (if f1 = 0 then fe / R / 2 else f1)
    let idfs := premier fr (fe / R / 2)
    if 0 ≤ idf1 ∧ 0 ≤ idfs then some ⟨h, fr, fm.2, idf1, idfs⟩ else none

/-- `1.0f / fm2`, core/src/reechan/cic.cc:253 (a null response gives an infinite value, `none` here). -/
noncomputable def inverse (l : List ℝ) : Option (List ℝ) := if ∀ v ∈ l, v ≠ (0 : ℝ) then some (l.map fun v : ℝ => 1 / v) else none

/-- `idealc(i) = idealc(i-1) / 2`, core/src/reechan/cic.cc:261-263 (`none`: out of range). -/
noncomputable def moitie (l : List ℝ) (i : ℤ) : Option (List ℝ) :=
  if 1 ≤ i ∧ i < l.length then some (l.set i.toNat (l.getD (i.toNat - 1) 0 / 2)) else none

/-- `idealc.tail(idealc.rows() - i).setZero()`, core/src/reechan/cic.cc:264 (`none`: negative size). -/
noncomputable def annule (l : List ℝ) (i : ℤ) : Option (List ℝ) :=
  if 0 ≤ i ∧ i ≤ l.length then some (l.take i.toNat ++ List.replicate (l.length - i.toNat) 0) else none

/-- The ideal response of the compensation filter, core/src/reechan/cic.cc:244-264. -/
noncomputable def gabarit (R : ℕ) (fe fc : ℝ) (a : Analyse) : Option (List ℝ) :=
  let idx := premier a.fr (fe / R / 2)
  if 1 ≤ idx ∧ idx - 1 ≤ a.mag.length then
    (inverse (a.mag.take (idx - 1).toNat)).bind fun l =>
      let id := 1 + premier a.fr fc
      if 1 < id ∧ id + 1 < a.fr.length then
        (moitie l (id - 1)).bind fun l => (moitie l id).bind fun l => (moitie l (id + 1)).bind fun l => annule l (id + 2)
      else none
  else none

/-- `design_cic_comp(config, fe, R2, fc, ncoefs)`: the coefficients, core/src/reechan/cic.cc:232-282. -/
noncomputable def cicComp (R N M : ℕ) (fe fc : ℝ) (ncoefs : ℕ) : Option (List ℝ) :=
  (cicAnalyse R N M fe fc).bind fun a => (gabarit R fe fc a).bind fun l => designRifFreq ncoefs l

/-! ## Analysis -/

theorem premier_grille (fr : List ℝ) (n : ℕ) (fe : ℝ) (hfe : 0 < fe) (hl : fr.length = n) (hv : ∀ i, i < n → fr.getD i 0 = (i : ℝ) / (2 * n) * fe) (f : ℝ) (hf : 0 ≤ f) :
    premier fr f = if ⌊2 * n * f / fe⌋₊ + 1 < n then ((⌊2 * n * f / fe⌋₊ + 1 : ℕ) : ℤ) else -1 := by
  set κ := ⌊2 * n * f / fe⌋₊ with hκ
  have hx : ∀ i, i < n → (fr.map fun v : ℝ => @decide (f < v) (Classical.dec _))[i]? = some (@decide (κ < i) (Nat.decLt _ _)) := by
    intro i hi
    have hi' : i < fr.length := by omega
    have hn : (0 : ℝ) < n := by exact_mod_cast (by omega : 0 < n)
    have := hv i hi
    rw [List.getD_eq_getElem _ _ hi'] at this
    rw [List.getElem?_map, List.getElem?_eq_getElem hi', Option.map_some, this]
    congr 1
    apply decide_eq_decide.2
    rw [hκ, Nat.floor_lt (by positivity), div_lt_iff₀ hfe, div_mul_eq_mul_div, lt_div_iff₀ (by positivity)]
    constructor <;> intro h <;> linarith
  have hlm : (fr.map fun v : ℝ => @decide (f < v) (Classical.dec _)).length = n := by rw [List.length_map, hl]
  unfold premier
  rcases C33_trouve_premier (fr.map fun v : ℝ => @decide (f < v) (Classical.dec _)) with ⟨h1, h2⟩ | ⟨k, h1, h2, h3⟩
  · rw [h1, if_neg]
    intro hc
    apply h2 (κ + 1)
    rw [hx _ hc]; simp
  · have hk : k < n := by
      rw [← hlm]; exact (List.getElem?_eq_some_iff.1 h2).1
    rw [hx k hk] at h2
    have hk1 : κ < k := by simpa using h2
    have hk2 : ¬ κ + 1 < k := by
      intro hc
      have := h3 (κ + 1) hc
      rw [hx _ (by omega)] at this
      simp at this
    rw [h1, if_pos (by omega)]
    congr 1; omega

/-- **C196 (analysis).** For a decimation factor of at least 2 and a frequency `f1` below the last one of the grid, the analysis gives the 4096 frequencies `i fe / 8192` and the response of
`cic_freq` at these frequencies, and locates the first frequencies greater than `f1` and than half of the output frequency. -/
theorem C196_analyse (R N M : ℕ) (hR : 2 ≤ R) (hM : 0 < M) (fe f1 : ℝ) (hfe : 0 < fe) (h1 : 0 < f1) (h2 : ⌊8192 * f1 / fe⌋₊ + 1 < 4096) :
    ∃ a, cicAnalyse R N M fe f1 = some a ∧ a.fr.length = 4096 ∧ a.mag.length = 4096 ∧ (∀ i, i < 4096 → a.fr.getD i 0 = (i : ℝ) / 8192 * fe ∧ a.mag.getD i 0 = cicFreq R N M ((i : ℝ) / 8192)) ∧
      a.idf1 = ⌊8192 * f1 / fe⌋₊ + 1 ∧ a.idfs = 4096 / R + 1 ∧ ∀ f, 0 ≤ f → premier a.fr f = if ⌊8192 * f / fe⌋₊ + 1 < 4096 then ((⌊8192 * f / fe⌋₊ + 1 : ℕ) : ℤ) else -1 := by
  obtain ⟨h, eh, -⟩ := C176_design R N M (by omega) hM
  obtain ⟨fr, A, e, l1, l2, g1, g2⟩ := C134_frmag_partial (.reel h) 4096 (by norm_num) (by simp)
  have hRr : (0 : ℝ) < R := by exact_mod_cast (by omega : 0 < R)
  have hlf : (fr.map fun v : ℝ => v * fe).length = 4096 := by rw [List.length_map, l1]
  have hg : ∀ i, i < 4096 → (fr.map fun v : ℝ => v * fe).getD i 0 = (i : ℝ) / (2 * (4096 : ℕ)) * fe := by
    intro i hi
    have hi' : i < fr.length := by omega
    have := g1 i hi
    rw [List.getD_eq_getElem _ _ hi'] at this
    rw [List.getD_eq_getElem _ _ (by rw [hlf]; exact hi), List.getElem_map, this]
  have hp : ∀ f, 0 ≤ f → premier (fr.map fun v : ℝ => v * fe) f = if ⌊8192 * f / fe⌋₊ + 1 < 4096 then ((⌊8192 * f / fe⌋₊ + 1 : ℕ) : ℤ) else -1 := by
    intro f hf
    rw [premier_grille _ 4096 fe hfe hlf hg f hf]
    norm_num
  have hfs : ⌊8192 * (fe / R / 2) / fe⌋₊ = 4096 / R := by
    have : 8192 * (fe / R / 2) / fe = ((4096 : ℕ) : ℝ) / (R : ℕ) := by
      field_simp; norm_num
    rw [this, Nat.floor_div_natCast, Nat.floor_natCast]
  have h4 : 4096 / R + 1 < 4096 := by
    have : 4096 / R ≤ 4096 / 2 := Nat.div_le_div_left hR (by norm_num)
    omega
  have hid : premier (fr.map fun v : ℝ => v * fe) f1 = ((⌊8192 * f1 / fe⌋₊ + 1 : ℕ) : ℤ) := by rw [hp f1 h1.le, if_pos h2]
  have his : premier (fr.map fun v : ℝ => v * fe) (fe / R / 2) = ((4096 / R + 1 : ℕ) : ℤ) := by rw [hp _ (by positivity), hfs, if_pos h4]
  refine ⟨⟨h, fr.map fun v : ℝ => v * fe, A, premier (fr.map fun v : ℝ => v * fe) f1, premier (fr.map fun v : ℝ => v * fe) (fe / R / 2)⟩, ?_, hlf, l2, ?_, ?_, ?_, hp⟩
  · rw [cicAnalyse, eh, Option.bind_some, e, Option.bind_some]
    dsimp only
    rw [if_neg h1.ne', if_pos]
    rw [hid, his]
    exact ⟨by positivity, by positivity⟩
  · intro i hi
    constructor
    · have := hg i hi
      norm_num at this ⊢
      exact this
    · show A.getD i 0 = _
      rw [g2 i hi, C176_reponse R N M (by omega) hM _ h eh, FRat.horner, C30_horner, C30_horner]
      have : cercle ((i : ℝ) / (2 * (4096 : ℕ))) = Complex.exp ((2 * Real.pi * ((i : ℝ) / 8192) : ℝ) * Complex.I) := by
        unfold cercle; congr 1; push_cast; ring
      rw [this]
      rfl
  · show premier _ f1 = _
    rw [hid]; norm_num
  · show premier _ (fe / R / 2) = _
    rw [his]; norm_num

/-- **C196 (no decimation, refused).** A decimation factor of 1 is refused, since no frequency of the grid is greater than half of the output frequency. -/
theorem C196_un_refute (N M : ℕ) (fe f1 : ℝ) (hfe : 0 < fe) : cicAnalyse 1 N M fe f1 = none := by
  by_cases hM : 0 < M
  · obtain ⟨h, eh, -⟩ := C176_design 1 N M one_pos hM
    obtain ⟨fr, A, e, l1, l2, g1, g2⟩ := C134_frmag_partial (.reel h) 4096 (by norm_num) (by simp)
    have hlf : (fr.map fun v : ℝ => v * fe).length = 4096 := by rw [List.length_map, l1]
    have hg : ∀ i, i < 4096 → (fr.map fun v : ℝ => v * fe).getD i 0 = (i : ℝ) / (2 * (4096 : ℕ)) * fe := by
      intro i hi
      have hi' : i < fr.length := by omega
      have := g1 i hi
      rw [List.getD_eq_getElem _ _ hi'] at this
      rw [List.getD_eq_getElem _ _ (by rw [hlf]; exact hi), List.getElem_map, this]
    have his := premier_grille _ 4096 fe hfe hlf hg (fe / (1 : ℕ) / 2) (by positivity)
    rw [if_neg] at his
    · rw [cicAnalyse, eh, Option.bind_some, e, Option.bind_some]
      dsimp only
      rw [if_neg]
      rw [his]
      omega
    · have : 2 * (4096 : ℕ) * (fe / (1 : ℕ) / 2) / fe = ((4096 : ℕ) : ℝ) := by field_simp; norm_num
      rw [this, Nat.floor_natCast]; omega
  · rw [cicAnalyse, designCic, if_neg (by tauto), Option.bind_none]

/-! ## Compensation -/

theorem cic_pos (R N M : ℕ) (hR : 0 < R) (hM : 0 < M) (hM2 : M ≤ 2) (f : ℝ) (h0 : 0 ≤ f) (h1 : f < 1 / (2 * R)) : 0 < cicFreq R N M f := by
  have hRr : (1 : ℝ) ≤ R := by exact_mod_cast hR
  have hMr : (1 : ℝ) ≤ M := by exact_mod_cast hM
  have hM2r : (M : ℝ) ≤ 2 := by exact_mod_cast hM2
  have hpi := Real.pi_pos
  unfold cicFreq
  dsimp only
  split
  · rename_i hd
    refine pow_pos (abs_pos.2 (div_ne_zero ?_ hd)) _
    have hf : 0 < f := by
      rcases h0.lt_or_eq with h | h
      · exact h
      · rw [← h] at hd; simp at hd
    have hb : ((R * M : ℕ) : ℝ) * Real.pi * f < Real.pi := by
      rw [lt_div_iff₀ (by positivity)] at h1
      push_cast
      have : (R : ℝ) * M * f < 1 := by nlinarith [mul_pos (lt_of_lt_of_le one_pos hRr) hf]
      nlinarith
    exact (Real.sin_pos_of_pos_of_lt_pi (by push_cast; positivity) hb).ne'
  · norm_num

theorem moitie_some (l : List ℝ) (i : ℕ) (h0 : 1 ≤ i) (h1 : i < l.length) : moitie l (i : ℤ) = some (l.set i (l.getD (i - 1) 0 / 2)) := by
  rw [moitie, if_pos (by omega), Int.toNat_natCast]

theorem getD_set (l : List ℝ) (i j : ℕ) (v : ℝ) (hi : i < l.length) : (l.set i v).getD j 0 = if j = i then v else l.getD j 0 := by
  rw [List.getD_eq_getElem?_getD, List.getD_eq_getElem?_getD, List.getElem?_set]
  by_cases h : i = j
  · subst h; simp [hi]
  · rw [if_neg h, if_neg (fun e => h e.symm)]

/-- Specification of the template: the inverse of the response of the CIC filter up to the cut-off bin `κ`, then three bins each half of the previous one, then 0. -/
noncomputable def Cible (R N M κ : ℕ) (i : ℕ) : ℝ :=
  if i ≤ κ then 1 / cicFreq R N M ((i : ℝ) / 8192) else if i ≤ κ + 3 then 1 / cicFreq R N M ((κ : ℝ) / 8192) / 2 ^ (i - κ) else 0

/-- **C196 (template and success).** For `R ≥ 2` and `M ≤ 2`, with `κ = ⌊8192 fc / fe⌋`: the template of the compensation filter exists if and only if `κ + 4 ≤ ⌊4096 / R⌋`; it has then
`⌊4096 / R⌋` points, which are those of the specification. -/
theorem C196_gabarit (R N M : ℕ) (hR : 2 ≤ R) (hM : 0 < M) (hM2 : M ≤ 2) (fe fc : ℝ) (hfe : 0 < fe) (hfc : 0 < fc) :
    (⌊8192 * fc / fe⌋₊ + 4 ≤ 4096 / R → ∃ a l, cicAnalyse R N M fe fc = some a ∧ gabarit R fe fc a = some l ∧ l.length = 4096 / R ∧ ∀ i, i < 4096 / R → l.getD i 0 = Cible R N M ⌊8192 * fc / fe⌋₊ i) ∧
    (4096 / R < ⌊8192 * fc / fe⌋₊ + 4 → ∀ ncoefs, cicComp R N M fe fc ncoefs = none) := by
  have hRr : (0 : ℝ) < R := by exact_mod_cast (by omega : 0 < R)
  have hm : 4096 / R ≤ 2048 := Nat.div_le_div_left hR (by norm_num : 0 < 2)
  set m := 4096 / R with hmd
  have hmR : m * R ≤ 4096 := Nat.div_mul_le_self _ _
  set κ := ⌊8192 * fc / fe⌋₊ with hκ
  by_cases hk : κ + 1 < 4096
  · obtain ⟨a, e, l1, l2, g, -, -, hp⟩ := C196_analyse R N M hR hM fe fc hfe hfc hk
    have hfs : premier a.fr (fe / R / 2) = ((m + 1 : ℕ) : ℤ) := by
      have hfs : ⌊8192 * (fe / R / 2) / fe⌋₊ = 4096 / R := by
        have : 8192 * (fe / R / 2) / fe = ((4096 : ℕ) : ℝ) / (R : ℕ) := by
          field_simp; norm_num
        rw [this, Nat.floor_div_natCast, Nat.floor_natCast]
      rw [hp _ (by positivity), hfs, if_pos (by omega)]
    have hid : premier a.fr fc = ((κ + 1 : ℕ) : ℤ) := by rw [hp fc hfc.le, if_pos hk]
    have hmag : ∀ i, i < m → (a.mag.take m).getD i 0 = cicFreq R N M ((i : ℝ) / 8192) := by
      intro i hi
      rw [← (g i (by omega)).2, List.getD_eq_getElem?_getD, List.getD_eq_getElem?_getD, List.getElem?_take_of_lt hi]
    have hlt : (a.mag.take m).length = m := by rw [List.length_take, l2]; omega
    have hpos : ∀ i, i < m → 0 < cicFreq R N M ((i : ℝ) / 8192) := by
      intro i hi
      refine cic_pos R N M (by omega) hM hM2 _ (by positivity) ?_
      rw [div_lt_div_iff₀ (by norm_num) (by positivity)]
      have : i * R < 4096 := lt_of_lt_of_le (Nat.mul_lt_mul_of_pos_right hi (by omega)) hmR
      have : ((i * R : ℕ) : ℝ) < 4096 := by exact_mod_cast this
      push_cast at this
      linarith
    have hinv : inverse (a.mag.take m) = some ((a.mag.take m).map fun v : ℝ => 1 / v) := by
      rw [inverse, if_pos]
      intro v hv
      obtain ⟨i, hi, rfl⟩ := List.getElem_of_mem hv
      rw [hlt] at hi
      have := hmag i hi
      rw [List.getD_eq_getElem _ _ (by rw [hlt]; exact hi)] at this
      rw [this]; exact (hpos i hi).ne'
    set l0 := (a.mag.take m).map fun v : ℝ => 1 / v with hl0
    have hl0l : l0.length = m := by rw [hl0, List.length_map, hlt]
    have hl0g : ∀ i, i < m → l0.getD i 0 = 1 / cicFreq R N M ((i : ℝ) / 8192) := by
      intro i hi
      have := hmag i hi
      rw [List.getD_eq_getElem _ _ (by rw [hlt]; exact hi)] at this
      rw [List.getD_eq_getElem _ _ (by rw [hl0l]; exact hi), ← this]
      simp only [hl0, List.getElem_map]
    have hgab : (gabarit R fe fc a = (moitie l0 ((κ + 1 : ℕ) : ℤ)).bind fun l => (moitie l ((κ + 2 : ℕ) : ℤ)).bind fun l => (moitie l ((κ + 3 : ℕ) : ℤ)).bind fun l => annule l ((κ + 4 : ℕ) : ℤ)) ∨
        4096 ≤ κ + 3 ∧ gabarit R fe fc a = none := by
      have e0 : (((m + 1 : ℕ) : ℤ) - 1).toNat = m := by omega
      have e1 : (1 : ℤ) + ((κ + 1 : ℕ) : ℤ) - 1 = ((κ + 1 : ℕ) : ℤ) := by omega
      have e2 : (1 : ℤ) + ((κ + 1 : ℕ) : ℤ) = ((κ + 2 : ℕ) : ℤ) := by omega
      have e3 : (((κ + 2 : ℕ) : ℤ)) + 1 = ((κ + 3 : ℕ) : ℤ) := by omega
      have e4 : (((κ + 2 : ℕ) : ℤ)) + 2 = ((κ + 4 : ℕ) : ℤ) := by omega
      have e5 : (((κ + 2 : ℕ) : ℤ)) - 1 = ((κ + 1 : ℕ) : ℤ) := by omega
      unfold gabarit
      simp only [hfs, hid, l1, l2, e0, hinv, Option.bind_some, e2, e3, e4, e5]
      rw [if_pos (by omega)]
      by_cases hc : κ + 3 < 4096
      · left
        rw [if_pos (by omega)]
      · right
        exact ⟨by omega, by rw [if_neg (by omega)]⟩
    constructor
    · intro hs
      rcases hgab with hgab | ⟨hgab, -⟩
      swap
      · omega
      refine ⟨a, _, e, by
        rw [hgab, moitie_some _ _ (by omega) (by omega), Option.bind_some, moitie_some _ _ (by omega) (by rw [List.length_set]; omega), Option.bind_some,
          moitie_some _ _ (by omega) (by rw [List.length_set, List.length_set]; omega), Option.bind_some, annule, if_pos (by
            rw [List.length_set, List.length_set, List.length_set]; omega), Int.toNat_natCast], ?_, ?_⟩
      · simp only [List.length_append, List.length_take, List.length_set, List.length_replicate]
        omega
      · intro i hi
        have p1 : κ + 1 - 1 = κ := by omega
        have p2 : κ + 2 - 1 = κ + 1 := by omega
        have p3 : κ + 3 - 1 = κ + 2 := by omega
        rw [p1, p2, p3]
        have hL : ∀ j, j < κ + 4 → (((l0.set (κ + 1) (l0.getD κ 0 / 2)).set (κ + 2) ((l0.set (κ + 1) (l0.getD κ 0 / 2)).getD (κ + 1) 0 / 2)).set (κ + 3)
            (((l0.set (κ + 1) (l0.getD κ 0 / 2)).set (κ + 2) ((l0.set (κ + 1) (l0.getD κ 0 / 2)).getD (κ + 1) 0 / 2)).getD (κ + 2) 0 / 2)).getD j 0 = Cible R N M κ j := by
          intro j hj
          have q1 : ∀ j, (l0.set (κ + 1) (l0.getD κ 0 / 2)).getD j 0 = if j = κ + 1 then l0.getD κ 0 / 2 else l0.getD j 0 := fun j => getD_set _ _ _ _ (by omega)
          have q2 : ∀ (v : ℝ) (j : ℕ), ((l0.set (κ + 1) (l0.getD κ 0 / 2)).set (κ + 2) v).getD j 0 = if j = κ + 2 then v else (l0.set (κ + 1) (l0.getD κ 0 / 2)).getD j 0 := fun v j => getD_set _ _ _ _ (by rw [List.length_set]; omega)
          rw [getD_set _ _ _ _ (by rw [List.length_set, List.length_set]; omega), q2, q2, if_pos rfl, q1, q1, if_pos rfl, hl0g κ (by omega)]
          unfold Cible
          by_cases c3 : j = κ + 3
          · subst c3
            rw [if_pos rfl, if_neg (by omega), if_pos le_rfl, show κ + 3 - κ = 3 by omega]; ring
          rw [if_neg c3]
          by_cases c2 : j = κ + 2
          · subst c2
            rw [if_pos rfl, if_neg (by omega), if_pos (by omega), show κ + 2 - κ = 2 by omega]; ring
          rw [if_neg c2]
          by_cases c1 : j = κ + 1
          · subst c1
            rw [if_pos rfl, if_neg (by omega), if_pos (by omega), show κ + 1 - κ = 1 by omega]; ring
          rw [if_neg c1, if_pos (by omega), hl0g j (by omega)]
        by_cases hi4 : i < κ + 4
        · rw [← hL i hi4, List.getD_eq_getElem?_getD, List.getElem?_append_left (by simp only [List.length_take, List.length_set]; omega), List.getElem?_take_of_lt hi4, ← List.getD_eq_getElem?_getD]
        · rw [List.getD_eq_getElem?_getD, List.getElem?_append_right (by simp only [List.length_take, List.length_set]; omega), List.getElem?_replicate]
          rw [Cible, if_neg (show ¬ i ≤ κ by omega), if_neg (show ¬ i ≤ κ + 3 by omega)]
          split <;> rfl
    · intro hs ncoefs
      rw [cicComp, e, Option.bind_some]
      have : gabarit R fe fc a = none := by
        rcases hgab with hgab | ⟨-, hgab⟩
        swap
        · exact hgab
        rw [hgab]
        have hn : ∀ (l : List ℝ) (i : ℕ), l.length ≤ i → moitie l (i : ℤ) = none := by
          intro l i h
          rw [moitie, if_neg (by omega)]
        have hs' : ∀ (l l' : List ℝ) (i : ℤ), moitie l i = some l' → l'.length = l.length := by
          intro l l' i h
          unfold moitie at h
          split at h
          · rw [← Option.some.inj h, List.length_set]
          · exact absurd h (by simp)
        cases u1 : moitie l0 ((κ + 1 : ℕ) : ℤ) with
        | none => rfl
        | some x1 =>
          cases u2 : moitie x1 ((κ + 2 : ℕ) : ℤ) with
          | none => simp only [Option.bind_some, u2, Option.bind_none]
          | some x2 =>
            have := hn x2 (κ + 3) (by rw [hs' _ _ _ u2, hs' _ _ _ u1, hl0l]; omega)
            simp only [Option.bind_some, u2, this, Option.bind_none]
      rw [this, Option.bind_none]
  · constructor
    · intro hs; omega
    · intro hs ncoefs
      have : cicAnalyse R N M fe fc = none := by
        obtain ⟨h, eh, -⟩ := C176_design R N M (by omega) hM
        obtain ⟨fr, A, e, l1, l2, g1, g2⟩ := C134_frmag_partial (.reel h) 4096 (by norm_num) (by simp)
        have hlf : (fr.map fun v : ℝ => v * fe).length = 4096 := by rw [List.length_map, l1]
        have hg : ∀ i, i < 4096 → (fr.map fun v : ℝ => v * fe).getD i 0 = (i : ℝ) / (2 * (4096 : ℕ)) * fe := by
          intro i hi
          have hi' : i < fr.length := by omega
          have := g1 i hi
          rw [List.getD_eq_getElem _ _ hi'] at this
          rw [List.getD_eq_getElem _ _ (by rw [hlf]; exact hi), List.getElem_map, this]
        have his := premier_grille _ 4096 fe hfe hlf hg fc hfc.le
        have e8 : 2 * ((4096 : ℕ) : ℝ) * fc / fe = 8192 * fc / fe := by norm_num
        rw [e8, ← hκ, if_neg hk] at his
        rw [cicAnalyse, eh, Option.bind_some, e, Option.bind_some]
        dsimp only
        rw [if_neg hfc.ne', if_neg]
        rw [his]; omega
      rw [cicComp, this, Option.bind_none]

/-- **C196, violated for a wide band.** A cut-off at or above half of the output frequency (the natural choice of the whole output band) accesses the template out of its range, whatever the number of coefficients. -/
theorem C196_large_refute (R N M : ℕ) (hR : 2 ≤ R) (hM : 0 < M) (hM2 : M ≤ 2) (fe fc : ℝ) (hfe : 0 < fe) (hfc : fe / (2 * R) ≤ fc) (ncoefs : ℕ) : cicComp R N M fe fc ncoefs = none := by
  have hRr : (0 : ℝ) < R := by exact_mod_cast (by omega : 0 < R)
  refine (C196_gabarit R N M hR hM hM2 fe fc hfe (lt_of_lt_of_le (by positivity) hfc)).2 ?_ ncoefs
  have : 4096 / R ≤ ⌊8192 * fc / fe⌋₊ := by
    apply Nat.le_floor
    rw [le_div_iff₀ hfe]
    have h1 : ((4096 / R : ℕ) : ℝ) ≤ 4096 / R := by exact_mod_cast Nat.cast_div_le (α := ℝ) (m := 4096) (n := R)
    rw [div_le_iff₀ (by positivity)] at hfc
    have h2 : ((4096 / R : ℕ) : ℝ) * fe ≤ 4096 / R * fe := mul_le_mul_of_nonneg_right h1 hfe.le
    have h3 : 4096 / (R : ℝ) * fe ≤ 8192 * fc := by
      rw [div_mul_eq_mul_div, div_le_iff₀ hRr]; nlinarith
    linarith
  omega

/-- **C196 (compensation).** When it exists the compensation filter has a symmetric impulse response and a unit gain at the null frequency, as has the CIC filter: the cascade has a unit gain. -/
theorem C196_continu (R N M : ℕ) (hR : 2 ≤ R) (hM : 0 < M) (hM2 : M ≤ 2) (fe fc : ℝ) (hfe : 0 < fe) (hfc : 0 < fc) (hs : ⌊8192 * fc / fe⌋₊ + 4 ≤ 4096 / R) (ncoefs : ℕ)
    (hn : ncoefs = 0 ∨ 3 ≤ ncoefs) (hn2 : ncoefs + 1 ≤ 2 ^ 29) :
    ∃ h, cicComp R N M fe fc ncoefs = some h ∧ (∀ i, i < h.length → h.getD (h.length - 1 - i) 0 = h.getD i 0) ∧ reponse h 0 * cicFreq R N M 0 = 1 := by
  obtain ⟨a, l, e1, e2, hl, hv⟩ := (C196_gabarit R N M hR hM hM2 fe fc hfe hfc).1 hs
  have hm : 4096 / R ≤ 2048 := Nat.div_le_div_left hR (by norm_num : 0 < 2)
  have h0 : l.getD 0 0 = 1 := by
    rw [hv 0 (by omega), Cible, if_pos (by omega)]
    simp [(C176_bornes R N M (by omega) hM 0).1]
  have hc0 := (C176_bornes R N M (by omega) hM 0).1
  by_cases hN : ncoefs = 0 ∨ ncoefs = 2 * l.length - 1
  · obtain ⟨h, e3, -, hsym, hr⟩ := C81_points ncoefs l (by omega) hN (by omega)
    refine ⟨h, by rw [cicComp, e1, Option.bind_some, e2, Option.bind_some, e3], hsym, ?_⟩
    have := (hr 0 (by omega)).2
    simp only [CharP.cast_eq_zero, zero_div, Complex.ofReal_zero, mul_zero, zero_mul, Complex.exp_zero, mul_one, h0] at this
    rw [this, hc0]; norm_num
  · push Not at hN
    obtain ⟨h, xs, p, e3, -, -, hsym, hxl, hx, hr⟩ := C81_interpole ncoefs l (by omega) (by omega) hN.2 hn2
    refine ⟨h, by rw [cicComp, e1, Option.bind_some, e2, Option.bind_some, e3], hsym, ?_⟩
    obtain ⟨v, hi, hr0⟩ := hr 0 (by omega)
    have hv1 : v = 1 := by
      rcases hi with ⟨-, h⟩ | ⟨h, -⟩ | ⟨h, -⟩
      · rw [h, h0]
      · rw [hx 0 (by omega)] at h; simp at h
      · rw [hx 0 (by omega)] at h; simp at h
    simp only [CharP.cast_eq_zero, zero_div, Complex.ofReal_zero, mul_zero, zero_mul, Complex.exp_zero, mul_one, hv1] at hr0
    rw [hr0, hc0]; norm_num

/-- **C196 (points of the template).** With the number of coefficients of the template (`2m - 1`, `m = ⌊4096 / R⌋`), the gain of the compensation filter at the `k`-th frequency `k / (2m - 1)` is
exactly the inverse of that of the CIC filter **at the frequency `k / 8192`**, up to the cut-off. -/
theorem C196_points_partial (R N M : ℕ) (hR : 2 ≤ R) (hM : 0 < M) (hM2 : M ≤ 2) (fe fc : ℝ) (hfe : 0 < fe) (hfc : 0 < fc) (hs : ⌊8192 * fc / fe⌋₊ + 4 ≤ 4096 / R) :
    ∃ h, cicComp R N M fe fc 0 = some h ∧ h.length = 2 * (4096 / R) - 1 ∧ ∀ k, k ≤ ⌊8192 * fc / fe⌋₊ → ‖reponse h ((k : ℝ) / (2 * (4096 / R : ℕ) - 1))‖ * cicFreq R N M ((k : ℝ) / 8192) = 1 := by
  obtain ⟨a, l, e1, e2, hl, hv⟩ := (C196_gabarit R N M hR hM hM2 fe fc hfe hfc).1 hs
  have hm : 4096 / R ≤ 2048 := Nat.div_le_div_left hR (by norm_num : 0 < 2)
  obtain ⟨h, e3, hl3, -, hr⟩ := C81_points 0 l (by omega) (Or.inl rfl) (by omega)
  refine ⟨h, by rw [cicComp, e1, Option.bind_some, e2, Option.bind_some, e3], by rw [hl3, hl], fun k hk => ?_⟩
  have hp : 0 < cicFreq R N M ((k : ℝ) / 8192) := by
    refine cic_pos R N M (by omega) hM hM2 _ (by positivity) ?_
    have hRr : (0 : ℝ) < R := by exact_mod_cast (by omega : 0 < R)
    rw [div_lt_div_iff₀ (by norm_num) (by positivity)]
    have : k * R < 4096 := lt_of_lt_of_le (Nat.mul_lt_mul_of_pos_right (by omega : k < 4096 / R) (by omega)) (Nat.div_mul_le_self _ _)
    have : ((k * R : ℕ) : ℝ) < 4096 := by exact_mod_cast this
    push_cast at this
    linarith
  have h1 := (hr k (by omega)).2
  rw [hl] at h1
  rw [h1, norm_mul, hv k (by omega), Cible, if_pos hk]
  have hexp : ∀ (u : ℝ) (j : ℕ), ‖Complex.exp (-(2 * Real.pi * Complex.I) * (u : ℝ) * (j : ℕ))‖ = 1 := by
    intro u j
    have : -(2 * Real.pi * Complex.I) * (u : ℝ) * (j : ℕ) = ((-(2 * Real.pi * u * j) : ℝ) : ℂ) * Complex.I := by push_cast; ring
    rw [this, Complex.norm_exp_ofReal_mul_I]
  rw [hexp, mul_one, Complex.norm_real, Real.norm_eq_abs, abs_of_pos (by positivity)]
  field_simp

/-- **C196, violated: flatness.** For a decimation by 2, the cascade is not flat at the frequencies where it could be: at each frequency `k / 4095` of the output (`1 ≤ k ≤ κ`), which is the
frequency `k / 8190` of the input, the gain of the cascade is strictly smaller than 1. The template is computed at the frequencies `k / 8192`. -/
theorem C196_plat_refute (N : ℕ) (hN : 0 < N) (fe fc : ℝ) (hfe : 0 < fe) (hfc : 0 < fc) (hs : ⌊8192 * fc / fe⌋₊ + 4 ≤ 2048) :
    ∃ h, cicComp 2 N 1 fe fc 0 = some h ∧ ∀ k, 1 ≤ k → k ≤ ⌊8192 * fc / fe⌋₊ → ‖reponse h ((k : ℝ) / 4095)‖ * cicFreq 2 N 1 ((k : ℝ) / 4095 / 2) < 1 := by
  obtain ⟨h, e, -, hr⟩ := C196_points_partial 2 N 1 le_rfl one_pos (by norm_num) fe fc hfe hfc hs
  refine ⟨h, e, fun k h1 hk => ?_⟩
  have h2 := hr k hk
  have hden : (2 * ((4096 / 2 : ℕ) : ℝ) - 1) = 4095 := by norm_num
  rw [hden] at h2
  have hk1 : (1 : ℝ) ≤ k := by exact_mod_cast h1
  have hk2 : (k : ℝ) ≤ 2044 := by exact_mod_cast (by omega : k ≤ 2044)
  have hpi := Real.pi_pos
  have hcos : ∀ f : ℝ, 0 < f → f < 1 / 2 → cicFreq 2 N 1 f = Real.cos (Real.pi * f) ^ N := by
    intro f f0 f1
    have hsin : 0 < Real.sin (Real.pi * f) := Real.sin_pos_of_pos_of_lt_pi (by positivity) (by nlinarith)
    have hc : 0 < Real.cos (Real.pi * f) := Real.cos_pos_of_mem_Ioo ⟨by nlinarith, by nlinarith⟩
    unfold cicFreq
    dsimp only
    have hR2 : (((2 * 1 : ℕ) : ℕ) : ℝ) = 2 := by norm_num
    have hs2 : Real.sin (((2 * 1 : ℕ) : ℝ) * Real.pi * f) = 2 * Real.sin (Real.pi * f) * Real.cos (Real.pi * f) := by
      rw [hR2, mul_assoc, Real.sin_two_mul]
    have hq : 2 * Real.sin (Real.pi * f) * Real.cos (Real.pi * f) / (2 * Real.sin (Real.pi * f)) = Real.cos (Real.pi * f) := by field_simp
    rw [hs2, hR2, if_pos (ne_of_gt (by positivity)), hq, abs_of_pos hc]
  have hlt : cicFreq 2 N 1 ((k : ℝ) / 4095 / 2) < cicFreq 2 N 1 ((k : ℝ) / 8192) := by
    rw [hcos _ (by positivity) (by linarith), hcos _ (by positivity) (by linarith)]
    refine pow_lt_pow_left₀ (Real.cos_lt_cos_of_nonneg_of_le_pi_div_two (by positivity) (by nlinarith) ?_) ?_ hN.ne'
    · have : (k : ℝ) / 8192 < k / 4095 / 2 := by linarith
      exact mul_lt_mul_of_pos_left this hpi
    · exact (Real.cos_pos_of_mem_Ioo ⟨by nlinarith, by nlinarith⟩).le
  have hpos : 0 < ‖reponse h ((k : ℝ) / 4095)‖ := by
    rcases (norm_nonneg (reponse h ((k : ℝ) / 4095))).lt_or_eq with h | h
    · exact h
    · rw [← h, zero_mul] at h2; norm_num at h2
  calc _ < ‖reponse h ((k : ℝ) / 4095)‖ * cicFreq 2 N 1 ((k : ℝ) / 8192) := mul_lt_mul_of_pos_left hlt hpos
    _ = 1 := h2

/-- A decimation by 16 of 1 MHz, with a cut-off of 20 kHz and 61 coefficients: the hypotheses are met; the whole band (31.25 kHz) is refused. -/
example : (∃ h, cicComp 16 4 1 1000000 20000 61 = some h ∧ reponse h 0 * cicFreq 16 4 1 0 = 1) ∧ cicComp 16 4 1 1000000 31250 61 = none := by
  constructor
  · have hf : ⌊(8192 * 20000 / 1000000 : ℝ)⌋₊ = 163 := by
      rw [Nat.floor_eq_iff (by norm_num)]; norm_num
    obtain ⟨h, e, -, hr⟩ := C196_continu 16 4 1 (by norm_num) one_pos (by norm_num) 1000000 20000 (by norm_num) (by norm_num) (by rw [hf]; norm_num) 61 (by norm_num) (by norm_num)
    exact ⟨h, e, hr⟩
  · exact C196_large_refute 16 4 1 (by norm_num) one_pos (by norm_num) 1000000 31250 (by norm_num) (by norm_num) 61

end Verif.Reechan.Comp
