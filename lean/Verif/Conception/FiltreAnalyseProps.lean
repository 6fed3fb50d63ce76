/-
C137: automatic analysis of a filter.
-/
import Verif.Conception.AnalyseProps
import Mathlib.Analysis.SpecialFunctions.Trigonometric.Bounds

namespace Verif.Conception

open Verif.Fourier Verif.FracRat Finset

/-! ### Decibels -/

theorem db_lt (m s : ℝ) (hm : 0 ≤ m) : enDb m < (s : ℝ) ↔ m < (10 : ℝ) ^ (s / 20) := by
  unfold enDb
  split_ifs with h
  · subst h
    exact iff_of_true (EReal.bot_lt_coe _) (Real.rpow_pos_of_pos (by norm_num) _)
  · have hp : 0 < m := lt_of_le_of_ne hm (Ne.symm h)
    rw [EReal.coe_lt_coe_iff, show 2 * (10 * Real.logb 10 m) < s ↔ Real.logb 10 m < s / 20 by constructor <;> intro h <;> linarith]
    exact Real.logb_lt_iff_lt_rpow (by norm_num) hp

theorem le_db (m s : ℝ) (hm : 0 ≤ m) : ((s : ℝ) : EReal) ≤ enDb m ↔ (10 : ℝ) ^ (s / 20) ≤ m := by
  rw [← not_lt, db_lt m s hm, not_lt]

/-- Decibels are increasing. -/
theorem db_le (a b : ℝ) (ha : 0 ≤ a) (hb : 0 ≤ b) : enDb a ≤ enDb b ↔ a ≤ b := by
  rcases eq_or_lt_of_le ha with h | h
  · subst h
    simp [enDb, hb]
  · rcases eq_or_lt_of_le hb with h' | h'
    · subst h'
      rw [enDb, enDb, if_neg h.ne', if_pos rfl]
      exact iff_of_false (by rw [le_bot_iff]; exact EReal.coe_ne_bot _) (not_le.2 h)
    · rw [enDb, enDb, if_neg h.ne', if_neg h'.ne', EReal.coe_le_coe_iff, show 2 * (10 * Real.logb 10 a) ≤ 2 * (10 * Real.logb 10 b) ↔ Real.logb 10 a ≤ Real.logb 10 b by constructor <;> intro h <;> linarith]
      exact Real.logb_le_logb (by norm_num) h h'

/-! ### Maximum -/

theorem maxDe_spec : ∀ (l : List EReal) (i : ℕ) (b : ℕ × EReal), b.1 < i →
    ((maxDe l i b = b ∧ ∀ k, k < l.length → l.getD k 0 ≤ b.2) ∨ ∃ k, k < l.length ∧ maxDe l i b = (i + k, l.getD k 0) ∧ b.2 < l.getD k 0 ∧ (∀ j, j < k → l.getD j 0 < l.getD k 0) ∧ ∀ j, j < l.length → l.getD j 0 ≤ l.getD k 0) := by
  intro l
  induction l with
  | nil => intro i b _; left; exact ⟨rfl, fun k hk => by simp at hk⟩
  | cons v l ih =>
    intro i b hb
    rw [maxDe]
    by_cases hv : b.2 < v
    · rw [if_pos hv]
      right
      rcases ih (i + 1) (i, v) (by simp) with ⟨e, h⟩ | ⟨k, hk, e, h1, h2, h3⟩
      · refine ⟨0, by simp, by rw [e]; simp, by simpa using hv, fun j hj => by omega, fun j hj => ?_⟩
        cases j with
        | zero => simp
        | succ j => simpa using h j (by simpa using hj)
      · refine ⟨k + 1, by simpa using hk, by rw [e]; simp; omega, ?_, ?_, ?_⟩
        · simpa using hv.trans h1
        · intro j hj
          cases j with
          | zero => simpa using h1
          | succ j => simpa using h2 j (by omega)
        · intro j hj
          cases j with
          | zero => simpa using h1.le
          | succ j => simpa using h3 j (by simpa using hj)
    · rw [if_neg hv]
      rcases ih (i + 1) b (by omega) with ⟨e, h⟩ | ⟨k, hk, e, h1, h2, h3⟩
      · left
        refine ⟨e, fun j hj => ?_⟩
        cases j with
        | zero => simpa using not_lt.1 hv
        | succ j => simpa using h j (by simpa using hj)
      · right
        refine ⟨k + 1, by simpa using hk, by rw [e]; simp; omega, by simpa using h1, ?_, ?_⟩
        · intro j hj
          cases j with
          | zero => simpa using lt_of_le_of_lt (not_lt.1 hv) h1
          | succ j => simpa using h2 j (by omega)
        · intro j hj
          cases j with
          | zero => simpa using (lt_of_le_of_lt (not_lt.1 hv) h1).le
          | succ j => simpa using h3 j (by simpa using hj)

theorem maxIndice_spec (l : List EReal) (hl : l ≠ []) : ∃ k, k < l.length ∧ maxIndice l = (k, l.getD k 0) ∧ (∀ j, j < k → l.getD j 0 < l.getD k 0) ∧ ∀ j, j < l.length → l.getD j 0 ≤ l.getD k 0 := by
  cases l with
  | nil => exact absurd rfl hl
  | cons v l =>
    rw [maxIndice]
    rcases maxDe_spec l 1 (0, v) (by norm_num) with ⟨e, h⟩ | ⟨k, hk, e, h1, h2, h3⟩
    · refine ⟨0, by simp, by rw [e]; simp, fun j hj => by omega, fun j hj => ?_⟩
      cases j with
      | zero => simp
      | succ j => simpa using h j (by simpa using hj)
    · refine ⟨k + 1, by simpa using hk, by rw [e, add_comm]; simp, ?_, ?_⟩
      · intro j hj
        cases j with
        | zero => simpa using h1
        | succ j => simpa using h2 j (by omega)
      · intro j hj
        cases j with
        | zero => simpa using h1.le
        | succ j => simpa using h3 j (by simpa using hj)

/-! ### Side lobes -/

/-- Specification: strict local maximum of a sequence. -/
def Sommet (v : ℕ → EReal) (k : ℕ) : Prop := v (k - 1) < v k ∧ v (k + 1) < v k

/-- Specification of the side lobes of the sequence `v 0 … v (n-1)` found after the index `i3`: `p` is the first strict local maximum after `i3` (the last index if there is none), `q` the first index of the maximum of `v` from `p`. -/
structure LobesDe (n : ℕ) (v : ℕ → EReal) (i3 p q : ℕ) : Prop where
  apres : i3 ≤ p
  borne : p < n
  premier : (i3 < p ∧ p + 1 < n ∧ Sommet v p) ∨ p = n - 1
  aucun : ∀ j, i3 < j → j < p → ¬ Sommet v j
  pire : p ≤ q
  pire_borne : q < n
  maximum : ∀ i, p ≤ i → i < n → v i ≤ v q
  strict : ∀ i, p ≤ i → i < q → v i < v q

theorem queueZ_drop {T : Type} (x : List T) (k : ℕ) (hk : k ≤ x.length) : queueZ x ((x.length : ℤ) - k) = some (x.drop k) := by
  rw [queueZ, if_pos (by omega)]
  congr 2
  omega

theorem getD_drop' (x : List EReal) (k i : ℕ) : (x.drop k).getD i 0 = x.getD (k + i) 0 := by
  rw [List.getD_eq_getElem?_getD, List.getD_eq_getElem?_getD, List.getElem?_drop]

theorem lobes_spec (t : TypeAnalyse) (db : List EReal) (hn : 0 < db.length) (i3 i6 : ℤ)
    (h3 : i3 = if t = .passeBas then Util.trouvePremier (db.map fun v : EReal => decide (v < (-3 : ℝ))) else if t = .passeHaut then Util.trouveDernier (db.map fun v : EReal => decide (((-3 : ℝ) : EReal) ≤ v)) else -1)
    (h6 : i6 = if t = .passeBas then Util.trouvePremier (db.map fun v : EReal => decide (v < (-6 : ℝ))) else if t = .passeHaut then Util.trouveDernier (db.map fun v : EReal => decide (((-6 : ℝ) : EReal) ≤ v)) else -1)
    (hb : i3 < db.length) :
    ∃ l, lobes db.length t db = some l ∧ l.i3 = i3 ∧ l.i6 = i6 ∧ (i3 < 0 → l.premier = -1 ∧ l.pire = -1 ∧ l.debut = Util.trouvePremier (db.map fun v : EReal => decide (v < 0))) ∧
      ∀ k3 : ℕ, i3 = k3 → ∃ p q : ℕ, l.premier = p ∧ l.pire = q ∧ l.attenPremier = -db.getD p 0 ∧ l.attenPire = -db.getD q 0 ∧ LobesDe db.length (fun i => db.getD i 0) k3 p q ∧
        l.debut = Util.trouvePremier (db.map fun v : EReal => decide (v < db.getD q 0)) := by
  unfold lobes
  dsimp only
  rw [← h3, ← h6]
  by_cases hi : 0 ≤ i3
  · obtain ⟨k3, rfl⟩ := Int.eq_ofNat_of_zero_le hi
    have hk3 : k3 < db.length := by omega
    rw [if_pos hi, queueZ_drop db k3 hk3.le, Option.bind_some]
    have hm : ∃ p : ℕ, (if 0 ≤ Util.maxLocal (db.drop k3) then Util.maxLocal (db.drop k3) + (k3 : ℤ) else (db.length : ℤ) - 1) = (p : ℤ) ∧ k3 ≤ p ∧ p < db.length ∧
        ((k3 < p ∧ p + 1 < db.length ∧ Sommet (fun i => db.getD i 0) p) ∨ p = db.length - 1) ∧ ∀ j, k3 < j → j < p → ¬ Sommet (fun i => db.getD i 0) j := by
      have gd : ∀ i, i < db.length → db[i]? = some (db.getD i 0) := by
        intro i hi
        rw [List.getD_eq_getElem?_getD, List.getElem?_eq_getElem hi]; rfl
      rcases Util.C33_max_local (db.drop k3) with ⟨e, h⟩ | ⟨k, e, hk1, ⟨a, b, c, ha, hb, hc, hab, hcb⟩, h⟩
      · refine ⟨db.length - 1, by rw [e]; simp; omega, by omega, by omega, Or.inr rfl, fun j hj1 hj2 hs => ?_⟩
        have := h (j - k3) (db.getD (j - 1) 0) (db.getD j 0) (db.getD (j + 1) 0) (by omega) (by rw [List.getElem?_drop, show k3 + (j - k3 - 1) = j - 1 by omega]; exact gd _ (by omega))
          (by rw [List.getElem?_drop, show k3 + (j - k3) = j by omega]; exact gd _ (by omega)) (by rw [List.getElem?_drop, show k3 + (j - k3 + 1) = j + 1 by omega]; exact gd _ (by omega))
        exact this hs
      · rw [List.getElem?_drop] at ha hb hc
        have hlt := (List.getElem?_eq_some_iff.1 hc).1
        refine ⟨k3 + k, by rw [e]; simp; omega, by omega, by omega, Or.inl ⟨by omega, by omega, ?_⟩, fun j hj1 hj2 hs => ?_⟩
        · unfold Sommet
          simp only [List.getD_eq_getElem?_getD]
          rw [show k3 + k - 1 = k3 + (k - 1) by omega, show k3 + k + 1 = k3 + (k + 1) by omega, ha, hb, hc]
          exact ⟨hab, hcb⟩
        · have := h (j - k3) (db.getD (j - 1) 0) (db.getD j 0) (db.getD (j + 1) 0) (by omega) (by omega) (by rw [List.getElem?_drop, show k3 + (j - k3 - 1) = j - 1 by omega]; exact gd _ (by omega))
            (by rw [List.getElem?_drop, show k3 + (j - k3) = j by omega]; exact gd _ (by omega)) (by rw [List.getElem?_drop, show k3 + (j - k3 + 1) = j + 1 by omega]; exact gd _ (by omega))
          exact this hs
    obtain ⟨p, ep, a1, a2, a3, a4⟩ := hm
    rw [ep, queueZ_drop db p a2.le, Option.bind_some, Int.toNat_natCast, List.getElem?_eq_getElem a2, Option.map_some]
    obtain ⟨k, b1, b2, b3, b4⟩ := maxIndice_spec (db.drop p) (by intro h; have := congrArg List.length h; simp at this; omega)
    rw [List.length_drop] at b1 b4
    refine ⟨_, rfl, rfl, rfl, fun h => by omega, fun k3' hk3' => ?_⟩
    obtain rfl : k3' = k3 := by omega
    refine ⟨p, p + k, rfl, ?_, ?_, ?_, ⟨a1, a2, a3, a4, by omega, by omega, fun i hi hi2 => ?_, fun i hi hi2 => ?_⟩, ?_⟩
    · dsimp only; rw [b2]; push_cast; ring
    · dsimp only; rw [List.getD_eq_getElem?_getD, List.getElem?_eq_getElem a2]; rfl
    · dsimp only; rw [b2, getD_drop']
    · have := b4 (i - p) (by omega)
      rwa [getD_drop', getD_drop', show p + (i - p) = i by omega] at this
    · have := b3 (i - p) (by omega)
      rwa [getD_drop', getD_drop', show p + (i - p) = i by omega] at this
    · dsimp only; rw [b2, getD_drop']; simp only [neg_neg]
  · rw [if_neg hi]
    refine ⟨_, rfl, rfl, rfl, fun _ => ⟨rfl, rfl, by simp⟩, fun k3 hk => by omega⟩

/-- Without equal neighbours nor local maximum, a sequence is below the larger of its ends. -/
theorem vallee (v : ℕ → EReal) (s p : ℕ) (ha : ∀ j, s < j → j < p → ¬ Sommet v j) (hd : ∀ j, s ≤ j → j < p → v j ≠ v (j + 1)) (i : ℕ) (h1 : s ≤ i) (h2 : i ≤ p) : v i ≤ max (v s) (v p) := by
  by_contra hc
  rw [not_le, max_lt_iff] at hc
  obtain ⟨j, hj, hm⟩ := Finset.exists_max_image (Finset.Icc s p) v ⟨i, by simp [h1, h2]⟩
  rw [Finset.mem_Icc] at hj
  have hi := hm i (by simp [h1, h2])
  have n1 : j ≠ s := fun e => by rw [e] at hi; exact absurd hi (not_le.2 hc.1)
  have n2 : j ≠ p := fun e => by rw [e] at hi; exact absurd hi (not_le.2 hc.2)
  refine ha j (by omega) (by omega) ⟨?_, ?_⟩
  · refine lt_of_le_of_ne (hm (j - 1) (by simp; omega)) ?_
    have := hd (j - 1) (by omega) (by omega)
    rwa [show j - 1 + 1 = j by omega] at this
  · exact lt_of_le_of_ne (hm (j + 1) (by simp; omega)) (hd j (by omega) (by omega)).symm

theorem LobesDe_congr (n : ℕ) (v w : ℕ → EReal) (h : ∀ i, i < n → v i = w i) (i3 p q : ℕ) (hl : LobesDe n v i3 p q) : LobesDe n w i3 p q := by
  obtain ⟨a, b, c, d, e, f, g, k⟩ := hl
  refine ⟨a, b, ?_, fun j h1 h2 hs => ?_, e, f, fun i h1 h2 => ?_, fun i h1 h2 => ?_⟩
  · rcases c with ⟨c1, c2, c3⟩ | c
    · refine Or.inl ⟨c1, c2, ?_⟩
      unfold Sommet at c3 ⊢
      rwa [h _ (by omega), h _ b, h _ c2] at c3
    · exact Or.inr c
  · refine d j h1 h2 ?_
    unfold Sommet at hs ⊢
    rwa [h _ (by omega), h _ (by omega), h _ (by omega)]
  · rw [← h i h2, ← h q f]; exact g i h1 h2
  · rw [← h i (by omega), ← h q f]; exact k i h1 h2

/-! ### Analysis of FIR filters -/

/-- Specification: gain on the grid of the analysis, at the frequency `i / 8192`. -/
noncomputable def gainAnalyse (h : List ℝ) (i : ℕ) : ℝ := ‖reponse h ((i : ℝ) / 8192)‖

theorem gainAnalyse_nonneg (h : List ℝ) (i : ℕ) : 0 ≤ gainAnalyse h i := norm_nonneg _

/-- The magnitudes of the analysis. -/
noncomputable def magAnalyse (h : List ℝ) : List ℝ := (List.range 4096).map fun i : ℕ => gainAnalyse h i

theorem magAnalyse_get (h : List ℝ) (i : ℕ) (hi : i < 4096) : (magAnalyse h)[i]? = some (gainAnalyse h i) := by
  rw [magAnalyse, List.getElem?_map, List.getElem?_range hi]; rfl

theorem magAnalyse_length (h : List ℝ) : (magAnalyse h).length = 4096 := by rw [magAnalyse, List.length_map, List.length_range]

theorem frmag_analyse (h : List ℝ) (hh : h ≠ []) (hl : h.length ≤ 8192) : frmag (.rif h) 4096 = some (grilleFreq 4096, magAnalyse h) := by
  have hm : max 4096 (h.length / 2) = 4096 := max_eq_left (by omega)
  obtain ⟨A, e, l, g⟩ := frmagRif_some h 4096 (by omega) (by omega) (by rw [hm]; norm_num)
  rw [hm] at e l g
  have : A = magAnalyse h := by
    refine reels_ext _ _ (by rw [l, magAnalyse_length]) fun i hi => ?_
    rw [l] at hi
    rw [g i hi, List.getD_eq_getElem?_getD, magAnalyse_get h i hi, Option.getD_some, gainAnalyse]
    norm_num
  rw [frmag, e, this]

/-- The analysis, once the magnitudes are known. -/
theorem analyse_rif (sois : List ℝ → Option (List ℝ)) (h : List ℝ) (hh : h ≠ []) (hl : h.length ≤ 8192) (t : TypeAnalyse) (ht : classe (gainAnalyse h 0) (gainAnalyse h 4095) = t) :
    (t = .autre → ∃ a, analyseFiltre sois (.rif h) = some a ∧ a.type = .autre) ∧
    (t ≠ .autre → analyseFiltre sois (.rif h) = (lobes 4096 t ((magAnalyse h).map enDb)).bind fun l => some ⟨t, typeRif h, ‖(Design.rif h).H 1‖, ‖(Design.rif h).H (-1)‖, indiceFreq l.i3, indiceFreq l.i6,
      l.attenPremier, indiceFreq l.premier, l.attenPire, indiceFreq l.pire, indiceFreq l.debut⟩) := by
  have hd : Design.rif h ≠ .rif [] := by simpa using hh
  have e1 := frat_H (.rif h) hd 1 one_ne_zero
  have e2 := frat_H (.rif h) hd (-1) (by norm_num)
  constructor
  · intro h0
    refine ⟨⟨.autre, -1, 0, 0, 0, 0, 0, 0, 0, 0, 0⟩, ?_, rfl⟩
    unfold analyseFiltre
    simp only [frmag_analyse h hh hl, Option.bind_eq_bind, Option.bind_some]
    rw [show repimp sois (.rif h) none = some h from rfl, Option.bind_some, magAnalyse_get h 0 (by norm_num), Option.bind_some, magAnalyse_get h (4096 - 1) (by norm_num), Option.bind_some]
    rw [ht, if_pos h0]
  · intro h0
    unfold analyseFiltre
    simp only [frmag_analyse h hh hl, Option.bind_eq_bind, Option.bind_some]
    rw [show repimp sois (.rif h) none = some h from rfl, Option.bind_some, magAnalyse_get h 0 (by norm_num), Option.bind_some, magAnalyse_get h (4096 - 1) (by norm_num), Option.bind_some]
    rw [ht, if_neg h0, e1, e2]

theorem seuil3 : (10 : ℝ) ^ ((-3 : ℝ) / 20) < 0.8 := by
  by_contra hc
  rw [not_lt] at hc
  have h1 : ((10 : ℝ) ^ ((-3 : ℝ) / 20)) ^ 20 = 1 / 1000 := by
    rw [← Real.rpow_natCast, ← Real.rpow_mul (by norm_num)]
    norm_num
  have h2 := pow_le_pow_left₀ (by norm_num : (0 : ℝ) ≤ 0.8) hc 20
  rw [h1] at h2
  norm_num at h2

theorem classe_bas (m0 m1 : ℝ) (h : classe m0 m1 = .passeBas) : 0.8 < m0 ∧ m1 ≤ 0.8 := by
  unfold classe at h
  split_ifs at h with a b c d e f
  · exact ⟨by norm_num at a ⊢; linarith [a.1], by linarith [a.2]⟩
  · refine ⟨by norm_num at e ⊢; linarith [e.1], ?_⟩
    by_contra hc
    exact c ⟨by norm_num at hc ⊢; linarith, by norm_num at hc ⊢; linarith⟩

theorem classe_haut (m0 m1 : ℝ) (h : classe m0 m1 = .passeHaut) : 0.8 < m1 ∧ m0 < 0.2 := by
  unfold classe at h
  split_ifs at h with a b c d e f
  · exact ⟨by norm_num at b ⊢; linarith [b.1], b.2⟩
  · exact absurd ⟨f.1, f.1⟩ c

theorem db_get (h : List ℝ) (i : ℕ) (hi : i < 4096) : ((magAnalyse h).map enDb)[i]? = some (enDb (gainAnalyse h i)) := by
  rw [List.getElem?_map, magAnalyse_get h i hi]; rfl

theorem db_length (h : List ℝ) : ((magAnalyse h).map enDb).length = 4096 := by rw [List.length_map, magAnalyse_length]

theorem db_getD (h : List ℝ) (i : ℕ) (hi : i < 4096) : ((magAnalyse h).map enDb).getD i 0 = enDb (gainAnalyse h i) := by
  rw [List.getD_eq_getElem?_getD, db_get h i hi]; rfl

/-- First index at which a condition holds on the grid. -/
theorem premier_db (h : List ℝ) (P : EReal → Bool) :
    (Util.trouvePremier (((magAnalyse h).map enDb).map P) = -1 ∧ ∀ i, i < 4096 → P (enDb (gainAnalyse h i)) = false) ∨
    ∃ k : ℕ, k < 4096 ∧ Util.trouvePremier (((magAnalyse h).map enDb).map P) = k ∧ P (enDb (gainAnalyse h k)) = true ∧ ∀ j, j < k → P (enDb (gainAnalyse h j)) = false := by
  have get : ∀ i, i < 4096 → (((magAnalyse h).map enDb).map P)[i]? = some (P (enDb (gainAnalyse h i))) := by
    intro i hi
    rw [List.getElem?_map, db_get h i hi]; rfl
  rcases Util.C33_trouve_premier (((magAnalyse h).map enDb).map P) with ⟨e, g⟩ | ⟨k, e, g1, g2⟩
  · refine Or.inl ⟨e, fun i hi => ?_⟩
    have := g i
    rw [get i hi] at this
    simpa using this
  · have hk : k < 4096 := by
      have := (List.getElem?_eq_some_iff.1 g1).1
      rwa [List.length_map, db_length] at this
    refine Or.inr ⟨k, hk, e, ?_, fun j hj => ?_⟩
    · rw [get k hk] at g1
      simpa using g1
    · have := g2 j hj
      rw [get j (by omega)] at this
      simpa using this

theorem dernier_db (h : List ℝ) (P : EReal → Bool) :
    (Util.trouveDernier (((magAnalyse h).map enDb).map P) = -1 ∧ ∀ i, i < 4096 → P (enDb (gainAnalyse h i)) = true) ∨
    ∃ k : ℕ, k < 4096 ∧ Util.trouveDernier (((magAnalyse h).map enDb).map P) = (k : ℤ) + 1 ∧ P (enDb (gainAnalyse h k)) = false ∧ ∀ j, k < j → j < 4096 → P (enDb (gainAnalyse h j)) = true := by
  have get : ∀ i, i < 4096 → (((magAnalyse h).map enDb).map P)[i]? = some (P (enDb (gainAnalyse h i))) := by
    intro i hi
    rw [List.getElem?_map, db_get h i hi]; rfl
  have len : (((magAnalyse h).map enDb).map P).length = 4096 := by rw [List.length_map, db_length]
  rcases Util.C33_trouve_dernier_partial (((magAnalyse h).map enDb).map P) with ⟨e, g⟩ | ⟨k, e, g1, g2⟩
  · refine Or.inl ⟨e, fun i hi => ?_⟩
    have := g i (by rw [len]; exact hi)
    rw [get i hi] at this
    simpa using this
  · have hk : k < 4096 := by
      have := (List.getElem?_eq_some_iff.1 g1).1
      rwa [len] at this
    refine Or.inr ⟨k, hk, e, ?_, fun j hj hj2 => ?_⟩
    · rw [get k hk] at g1
      simpa using g1
    · have := g2 j hj (by rw [len]; exact hj2)
      rw [get j hj2] at this
      simpa using this

/-- What the analysis returns for a FIR filter, type by type. -/
theorem analyse_some (sois : List ℝ → Option (List ℝ)) (h : List ℝ) (hh : h ≠ []) (hl : h.length ≤ 8192) : ∃ a, analyseFiltre sois (.rif h) = some a ∧ a.type = classe (gainAnalyse h 0) (gainAnalyse h 4095) ∧
    (a.type ≠ .autre → a.gainDc = ‖(Design.rif h).H 1‖ ∧ a.gainNyquist = ‖(Design.rif h).H (-1)‖ ∧ a.typeRif = typeRif h ∧
      ∃ i3 i6 : ℤ, a.largeur = indiceFreq i3 ∧ a.largeur6 = indiceFreq i6 ∧ i3 < 4096 ∧
        (a.type = .passeBas → i3 = Util.trouvePremier (((magAnalyse h).map enDb).map fun v : EReal => decide (v < (-3 : ℝ))) ∧ i6 = Util.trouvePremier (((magAnalyse h).map enDb).map fun v : EReal => decide (v < (-6 : ℝ)))) ∧
        (a.type = .passeHaut → i3 = Util.trouveDernier (((magAnalyse h).map enDb).map fun v : EReal => decide (((-3 : ℝ) : EReal) ≤ v)) ∧ i6 = Util.trouveDernier (((magAnalyse h).map enDb).map fun v : EReal => decide (((-6 : ℝ) : EReal) ≤ v))) ∧
        ∀ k3 : ℕ, i3 = k3 → ∃ p q : ℕ, a.freqPremier = (p : ℝ) / 8192 ∧ a.freqPire = (q : ℝ) / 8192 ∧ a.attenPremier = -enDb (gainAnalyse h p) ∧ a.attenPire = -enDb (gainAnalyse h q) ∧
          LobesDe 4096 (fun i => enDb (gainAnalyse h i)) k3 p q ∧ a.debut = indiceFreq (Util.trouvePremier (((magAnalyse h).map enDb).map fun v : EReal => decide (v < enDb (gainAnalyse h q))))) := by
  obtain ⟨r1, r2⟩ := analyse_rif sois h hh hl _ rfl
  by_cases ht : classe (gainAnalyse h 0) (gainAnalyse h 4095) = .autre
  · obtain ⟨a, e, et⟩ := r1 ht
    exact ⟨a, e, by rw [et, ht], fun h => absurd et h⟩
  · have hb : (if classe (gainAnalyse h 0) (gainAnalyse h 4095) = .passeBas then Util.trouvePremier (((magAnalyse h).map enDb).map fun v : EReal => decide (v < (-3 : ℝ)))
        else if classe (gainAnalyse h 0) (gainAnalyse h 4095) = .passeHaut then Util.trouveDernier (((magAnalyse h).map enDb).map fun v : EReal => decide (((-3 : ℝ) : EReal) ≤ v)) else -1) < (((magAnalyse h).map enDb).length : ℤ) := by
      rw [db_length]
      split_ifs with h1 h2
      · rcases premier_db h (fun v : EReal => decide (v < (-3 : ℝ))) with ⟨e, -⟩ | ⟨k, hk, e, -⟩ <;> rw [e] <;> push_cast <;> omega
      · rcases dernier_db h (fun v : EReal => decide (((-3 : ℝ) : EReal) ≤ v)) with ⟨e, -⟩ | ⟨k, hk, e, g, -⟩
        · rw [e]; norm_num
        · rw [e]
          have : k ≠ 4095 := by
            rintro rfl
            have h3 := (classe_haut _ _ h2).1
            rw [decide_eq_false_iff_not, le_db _ _ (gainAnalyse_nonneg _ _)] at g
            exact g (by linarith [seuil3])
          push_cast
          omega
      · norm_num
    have hl := lobes_spec (classe (gainAnalyse h 0) (gainAnalyse h 4095)) ((magAnalyse h).map enDb) (by rw [db_length]; norm_num) _ _ rfl rfl hb
    rw [db_length] at hl
    obtain ⟨l, e, e3, e6, -, hk⟩ := hl
    rw [db_length] at hb
    refine ⟨_, by rw [r2 ht, e, Option.bind_some], rfl, fun _ => ⟨rfl, rfl, rfl, l.i3, l.i6, rfl, rfl, ?_, ?_, ?_, ?_⟩⟩
    · rw [e3]; exact hb
    · intro ht2
      rw [e3, e6]
      exact ⟨if_pos ht2, if_pos ht2⟩
    · intro ht2
      have : ¬ classe (gainAnalyse h 0) (gainAnalyse h 4095) = .passeBas := by
        change classe (gainAnalyse h 0) (gainAnalyse h 4095) = .passeHaut at ht2
        rw [ht2]; decide
      rw [e3, e6]
      exact ⟨by rw [if_neg this, if_pos ht2], by rw [if_neg this, if_pos ht2]⟩
    · intro k3 hk3
      obtain ⟨p, q, a1, a2, a3, a4, a5, a6⟩ := hk k3 (by rw [← e3]; exact hk3)
      have frq : ∀ n : ℕ, indiceFreq (n : ℤ) = (n : ℝ) / 8192 := by
        intro n
        rw [indiceFreq, if_neg (by omega)]
        norm_num
      refine ⟨p, q, ?_, ?_, ?_, ?_, LobesDe_congr _ _ _ (fun i hi => db_getD h i hi) _ _ _ a5, ?_⟩
      · dsimp only; rw [a1, frq]
      · dsimp only; rw [a2, frq]
      · dsimp only; rw [a3, db_getD h p a5.borne]
      · dsimp only; rw [a4, db_getD h q a5.pire_borne]
      · dsimp only; rw [a6, db_getD h q a5.pire_borne]

/-- **C137 (gains).**  The gains at the null and Nyquist frequencies are the moduli of the sum and of the alternate sum of the coefficients. -/
theorem C137_gains (sois : List ℝ → Option (List ℝ)) (h : List ℝ) (hh : h ≠ []) (hl : h.length ≤ 8192) : ∃ a, analyseFiltre sois (.rif h) = some a ∧
    (a.type ≠ .autre → a.gainDc = |∑ k ∈ range h.length, h.getD k 0| ∧ a.gainNyquist = |∑ k ∈ range h.length, (-1) ^ k * h.getD k 0| ∧ a.typeRif = typeRif h) := by
  obtain ⟨a, e, -, g⟩ := analyse_some sois h hh hl
  refine ⟨a, e, fun ht => ?_⟩
  obtain ⟨g1, g2, g3, -⟩ := g ht
  refine ⟨?_, ?_, g3⟩
  · rw [g1, Design.H]
    simp only [inv_one, one_pow, mul_one]
    rw [← Complex.ofReal_sum, Complex.norm_real, Real.norm_eq_abs]
  · rw [g2, Design.H]
    have : ∀ k, (h.getD k 0 : ℂ) * (-1 : ℂ)⁻¹ ^ k = (((-1) ^ k * h.getD k 0 : ℝ) : ℂ) := by
      intro k
      rw [inv_neg, inv_one]
      push_cast
      ring
    simp only [this]
    rw [← Complex.ofReal_sum, Complex.norm_real, Real.norm_eq_abs]

/-- **C137 (type).**  A filter with a gain above 0.8 at the null frequency and below 0.2 at the last frequency of the grid is announced low-pass; the converse high-pass; with gains above 0.8 (resp. below 0.2)
at both ends, band-stop (resp. band-pass); a gain above 0.8 then between 0.2 and 0.8 is low-pass. -/
theorem C137_type_partial (sois : List ℝ → Option (List ℝ)) (h : List ℝ) (hh : h ≠ []) (hl : h.length ≤ 8192) : ∃ a, analyseFiltre sois (.rif h) = some a ∧
    (0.8 < gainAnalyse h 0 → gainAnalyse h 4095 < 0.2 → a.type = .passeBas) ∧ (gainAnalyse h 0 < 0.2 → 0.8 < gainAnalyse h 4095 → a.type = .passeHaut) ∧
    (0.8 < gainAnalyse h 0 → 0.8 < gainAnalyse h 4095 → a.type = .coupeBande) ∧ (gainAnalyse h 0 < 0.2 → gainAnalyse h 4095 < 0.2 → a.type = .passeBande) ∧
    (0.8 < gainAnalyse h 0 → 0.2 ≤ gainAnalyse h 4095 → gainAnalyse h 4095 ≤ 0.8 → a.type = .passeBas) := by
  obtain ⟨a, e, et, -⟩ := analyse_some sois h hh hl
  refine ⟨a, e, ?_, ?_, ?_, ?_, ?_⟩ <;> rw [et] <;> generalize gainAnalyse h 0 = m0 <;> generalize gainAnalyse h 4095 = m1 <;> intros <;> unfold classe <;> split_ifs <;> first | rfl | (exfalso; norm_num at *; try (rename_i x; linarith)) <;> grind

/-- **C137 (widths, low-pass).**  For a filter announced low-pass, the width at -3 dB is the first frequency of the grid where the gain is below `10^{-3/20}` (-1 if there is none); the same at -6 dB. -/
theorem C137_largeur_bas (sois : List ℝ → Option (List ℝ)) (h : List ℝ) (hh : h ≠ []) (hl : h.length ≤ 8192) (a : Analyse) (ha : analyseFiltre sois (.rif h) = some a) (ht : a.type = .passeBas) :
    ((a.largeur = -1 ∧ ∀ i, i < 4096 → (10 : ℝ) ^ ((-3 : ℝ) / 20) ≤ gainAnalyse h i) ∨
      ∃ k : ℕ, k < 4096 ∧ a.largeur = (k : ℝ) / 8192 ∧ gainAnalyse h k < (10 : ℝ) ^ ((-3 : ℝ) / 20) ∧ ∀ j, j < k → (10 : ℝ) ^ ((-3 : ℝ) / 20) ≤ gainAnalyse h j) ∧
    ((a.largeur6 = -1 ∧ ∀ i, i < 4096 → (10 : ℝ) ^ ((-6 : ℝ) / 20) ≤ gainAnalyse h i) ∨
      ∃ k : ℕ, k < 4096 ∧ a.largeur6 = (k : ℝ) / 8192 ∧ gainAnalyse h k < (10 : ℝ) ^ ((-6 : ℝ) / 20) ∧ ∀ j, j < k → (10 : ℝ) ^ ((-6 : ℝ) / 20) ≤ gainAnalyse h j) := by
  obtain ⟨a', e, et, g⟩ := analyse_some sois h hh hl
  obtain rfl : a' = a := by rw [ha] at e; exact (Option.some.inj e).symm
  obtain ⟨-, -, -, i3, i6, l3, l6, -, hb, -, -⟩ := g (by rw [ht]; decide)
  obtain ⟨b3, b6⟩ := hb ht
  have gen : ∀ s : ℝ, (indiceFreq (Util.trouvePremier (((magAnalyse h).map enDb).map fun v : EReal => decide (v < (s : ℝ)))) = -1 ∧ ∀ i, i < 4096 → (10 : ℝ) ^ (s / 20) ≤ gainAnalyse h i) ∨
      ∃ k : ℕ, k < 4096 ∧ indiceFreq (Util.trouvePremier (((magAnalyse h).map enDb).map fun v : EReal => decide (v < (s : ℝ)))) = (k : ℝ) / 8192 ∧ gainAnalyse h k < (10 : ℝ) ^ (s / 20) ∧
        ∀ j, j < k → (10 : ℝ) ^ (s / 20) ≤ gainAnalyse h j := by
    intro s
    rcases premier_db h (fun v : EReal => decide (v < (s : ℝ))) with ⟨e, g⟩ | ⟨k, hk, e, g1, g2⟩
    · left
      rw [e]
      refine ⟨by rw [indiceFreq, if_pos (by norm_num)], fun i hi => ?_⟩
      have := g i hi
      rwa [decide_eq_false_iff_not, db_lt _ _ (gainAnalyse_nonneg _ _), not_lt] at this
    · right
      rw [e]
      refine ⟨k, hk, by rw [indiceFreq, if_neg (by omega)]; norm_num, ?_, fun j hj => ?_⟩
      · rwa [decide_eq_true_eq, db_lt _ _ (gainAnalyse_nonneg _ _)] at g1
      · have := g2 j hj
        rwa [decide_eq_false_iff_not, db_lt _ _ (gainAnalyse_nonneg _ _), not_lt] at this
  rw [l3, l6, b3, b6]
  exact ⟨gen (-3), gen (-6)⟩

/-- **C137 (widths, high-pass).**  For a filter announced high-pass, the limit at -3 dB is the first frequency of the grid from which the gain stays at least `10^{-3/20}` up to the end. -/
theorem C137_largeur_haut (sois : List ℝ → Option (List ℝ)) (h : List ℝ) (hh : h ≠ []) (hl : h.length ≤ 8192) (a : Analyse) (ha : analyseFiltre sois (.rif h) = some a) (ht : a.type = .passeHaut) :
    ∃ k : ℕ, 0 < k ∧ k < 4096 ∧ a.largeur = (k : ℝ) / 8192 ∧ gainAnalyse h (k - 1) < (10 : ℝ) ^ ((-3 : ℝ) / 20) ∧ ∀ j, k ≤ j → j < 4096 → (10 : ℝ) ^ ((-3 : ℝ) / 20) ≤ gainAnalyse h j := by
  obtain ⟨a', e, et, g⟩ := analyse_some sois h hh hl
  obtain rfl : a' = a := by rw [ha] at e; exact (Option.some.inj e).symm
  obtain ⟨-, -, -, i3, i6, l3, l6, hlt, -, hb, -⟩ := g (by rw [ht]; decide)
  obtain ⟨b3, b6⟩ := hb ht
  rw [ht] at et
  have hc := classe_haut _ _ et.symm
  rcases dernier_db h (fun v : EReal => decide (((-3 : ℝ) : EReal) ≤ v)) with ⟨e, g⟩ | ⟨k, hk, e, g1, g2⟩
  · exfalso
    have := g 0 (by norm_num)
    rw [decide_eq_true_eq, le_db _ _ (gainAnalyse_nonneg _ _)] at this
    have h4 : (0.2 : ℝ) < (10 : ℝ) ^ ((-3 : ℝ) / 20) := by
      by_contra hcc
      rw [not_lt] at hcc
      have h1 : ((10 : ℝ) ^ ((-3 : ℝ) / 20)) ^ 20 = 1 / 1000 := by
        rw [← Real.rpow_natCast, ← Real.rpow_mul (by norm_num)]
        norm_num
      have h2 := pow_le_pow_left₀ (Real.rpow_nonneg (by norm_num) _) hcc 20
      rw [h1] at h2
      norm_num at h2
    linarith [hc.2]
  · rw [e] at b3
    refine ⟨k + 1, by omega, by omega, ?_, ?_, fun j hj hj2 => ?_⟩
    · rw [l3, b3, indiceFreq, if_neg (by omega)]
      push_cast
      norm_num
    · rw [decide_eq_false_iff_not, le_db _ _ (gainAnalyse_nonneg _ _), not_le] at g1
      simpa using g1
    · have := g2 j (by omega) hj2
      rwa [decide_eq_true_eq, le_db _ _ (gainAnalyse_nonneg _ _)] at this

/-- **C137 (side lobes).**  When a width at -3 dB has been found (index `k3`), the first lobe is the first strict local maximum of the gain after it (the end of the grid if there is none), the worst one is the maximum of the
gain from the first lobe on, and the attenuations are those of the gain at these two frequencies. -/
theorem C137_lobes (sois : List ℝ → Option (List ℝ)) (h : List ℝ) (hh : h ≠ []) (hl : h.length ≤ 8192) (a : Analyse) (ha : analyseFiltre sois (.rif h) = some a) (ht : a.type ≠ .autre) (k3 : ℕ) (hk : a.largeur = (k3 : ℝ) / 8192) :
    ∃ p q : ℕ, a.freqPremier = (p : ℝ) / 8192 ∧ a.freqPire = (q : ℝ) / 8192 ∧ a.attenPremier = -enDb (gainAnalyse h p) ∧ a.attenPire = -enDb (gainAnalyse h q) ∧ LobesDe 4096 (fun i => enDb (gainAnalyse h i)) k3 p q ∧
      ∀ i, p ≤ i → i < 4096 → gainAnalyse h i ≤ gainAnalyse h q := by
  obtain ⟨a', e, et, g⟩ := analyse_some sois h hh hl
  obtain rfl : a' = a := by rw [ha] at e; exact (Option.some.inj e).symm
  obtain ⟨-, -, -, i3, i6, l3, l6, hlt, -, -, hb⟩ := g ht
  have : i3 = (k3 : ℤ) := by
    rw [l3, indiceFreq] at hk
    split_ifs at hk with hneg
    · have : (0 : ℝ) ≤ (k3 : ℝ) / 8192 := by positivity
      linarith
    · have : (i3 : ℝ) = ((k3 : ℤ) : ℝ) := by
        push_cast
        have h8 : (2 * 4096 : ℝ) = 8192 := by norm_num
        rw [h8] at hk
        field_simp at hk
        linarith
      exact_mod_cast this
  obtain ⟨p, q, a1, a2, a3, a4, a5, -⟩ := hb k3 this
  exact ⟨p, q, a1, a2, a3, a4, a5, fun i h1 h2 => (db_le _ _ (gainAnalyse_nonneg _ _) (gainAnalyse_nonneg _ _)).1 (a5.maximum i h1 h2)⟩

/-- **C137 (start of the stop band).**  For a low-pass filter with side lobes of at least 3 dB of attenuation and no two equal successive gains on the grid, all the frequencies from the announced start of the stop band have an attenuation of at least that of the worst lobe
and the start is the first frequency whose attenuation is larger than that of the worst lobe. -/
theorem C137_debut_partial (sois : List ℝ → Option (List ℝ)) (h : List ℝ) (hh : h ≠ []) (hl : h.length ≤ 8192) (a : Analyse) (ha : analyseFiltre sois (.rif h) = some a) (ht : a.type = .passeBas) (k3 : ℕ) (hk : a.largeur = (k3 : ℝ) / 8192)
    (hne : ∀ i, i + 1 < 4096 → gainAnalyse h i ≠ gainAnalyse h (i + 1)) (h3 : ((3 : ℝ) : EReal) ≤ a.attenPire) (s : ℕ) (hs : a.debut = (s : ℝ) / 8192) :
    (∀ i, s ≤ i → i < 4096 → a.attenPire ≤ -enDb (gainAnalyse h i)) ∧ a.attenPire < -enDb (gainAnalyse h s) ∧ ∀ i, i < s → -enDb (gainAnalyse h i) ≤ a.attenPire := by
  obtain ⟨a', e, et, g⟩ := analyse_some sois h hh hl
  obtain rfl : a' = a := by rw [ha] at e; exact (Option.some.inj e).symm
  obtain ⟨-, -, -, i3, i6, l3, l6, hlt, hbas, -, hb⟩ := g (by rw [ht]; decide)
  have idx : ∀ (i : ℤ) (k : ℕ), indiceFreq i = (k : ℝ) / 8192 → i = (k : ℤ) := by
    intro i k hk
    rw [indiceFreq] at hk
    split_ifs at hk with hneg
    · have : (0 : ℝ) ≤ (k : ℝ) / 8192 := by positivity
      linarith
    · have : (i : ℝ) = ((k : ℤ) : ℝ) := by
        push_cast
        have h8 : (2 * 4096 : ℝ) = 8192 := by norm_num
        rw [h8] at hk
        field_simp at hk
        linarith
      exact_mod_cast this
  have e3 : i3 = (k3 : ℤ) := idx _ _ (by rw [← l3]; exact hk)
  obtain ⟨p, q, a1, a2, a3, a4, a5, a6⟩ := hb k3 e3
  have es := idx _ _ (by rw [← a6]; exact hs)
  rcases premier_db h (fun v : EReal => decide (v < enDb (gainAnalyse h q))) with ⟨e, -⟩ | ⟨s', hs', e, g1, g2⟩
  · rw [e] at es; omega
  obtain rfl : s' = s := by rw [e] at es; omega
  rw [decide_eq_true_eq] at g1
  rw [a4] at h3 ⊢
  have hq : enDb (gainAnalyse h q) ≤ ((-3 : ℝ) : EReal) := by
    rw [EReal.le_neg] at h3
    simpa using h3
  have hks : k3 ≤ s' := by
    by_contra hc
    rcases premier_db h (fun v : EReal => decide (v < (-3 : ℝ))) with ⟨e', -⟩ | ⟨k, hk', e', f1, f2⟩
    · rw [(hbas ht).1, e'] at e3; omega
    · have : k = k3 := by rw [(hbas ht).1, e'] at e3; omega
      have h5 := f2 s' (by omega)
      rw [decide_eq_false_iff_not, not_lt] at h5
      exact absurd (lt_of_lt_of_le g1 hq) (not_lt.2 h5)
  refine ⟨fun i h1 h2 => ?_, EReal.neg_lt_neg_iff.2 g1, fun i hi => ?_⟩
  · rw [EReal.neg_le_neg_iff]
    by_cases hip : p ≤ i
    · exact a5.maximum i hip h2
    · have hv := vallee (fun i => enDb (gainAnalyse h i)) s' p (fun j h3 h4 => a5.aucun j (by omega) h4) (fun j h3 h4 heq => ?_) i h1 (by omega)
      · exact hv.trans (max_le g1.le (a5.maximum p le_rfl a5.borne))
      · have hpb := a5.borne
        exact hne j (by omega) (le_antisymm ((db_le _ _ (gainAnalyse_nonneg _ _) (gainAnalyse_nonneg _ _)).1 heq.le) ((db_le _ _ (gainAnalyse_nonneg _ _) (gainAnalyse_nonneg _ _)).1 heq.ge))
  · have := g2 i hi
    rw [decide_eq_false_iff_not, not_lt] at this
    exact EReal.neg_le_neg_iff.2 this

end Verif.Conception
