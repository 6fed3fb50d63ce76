import Verif.Telecom.Formes
import Verif.Util.Props

/-!
# C228: curves of the analysis of a shaping filter (core/src/telecom/modulations.cc:939-1020)

Impulse responses and their time axes. Exact arithmetic.
-/

namespace Verif.AnalyseForme

open Verif.Telecom

/-! ## Model -/

/-- `sympad(v, nc)`, core/src/telecom/modulations.cc:940-951: zeros added before and after; an error if the vector is too long. -/
def sympad (v : List ℝ) (nc : ℕ) : Option (List ℝ) :=
  if v.length ≤ nc then some (List.replicate ((nc - v.length) / 2) 0 ++ v ++ List.replicate (nc - (nc - v.length) / 2 - v.length) 0) else none

/-- The time axis, in symbols, core/src/telecom/modulations.cc:973-976. -/
noncomputable def temps (nc osf : ℕ) : List ℝ := Util.linspace (-((nc / 2 : ℕ) : ℝ) / osf) (((nc / 2 : ℕ) : ℝ) / osf) nc

/-- The points of the curve "Réel", core/src/telecom/modulations.cc:958-960, 982. -/
noncomputable def courbe (t : MiseEnForme) (nc osf : ℕ) : Option (List (ℝ × ℝ)) := (t.coefs osf).bind fun c : List ℝ => (sympad c nc).map fun h : List ℝ => (temps nc osf).zip h

/-- The loop that counts the negligible samples at the start of the theoretical response, core/src/telecom/modulations.cc:966-969, from the index `i`, at most `k` turns; `r`: ratio of the sampling frequencies. -/
noncomputable def rogneDe (ht : List ℝ) (nc2 : ℕ) (r : ℝ) (ncoefs : ℕ) : ℕ → ℕ → ℕ
  | 0, i => i
  | k + 1, i => open Classical in if |ht.getD i 0| < 1 / 10 ^ 4 ∧ (ncoefs : ℝ) < ((nc2 : ℝ) - 2 * i) / r then rogneDe ht nc2 r ncoefs k (i + 1) else i

/-- `osf2`, core/src/telecom/modulations.cc:962-963. -/
def osfTheorique (osf : ℕ) : ℕ := max 20 (2 * osf)

/-- The theoretical response after the suppression of the negligible samples, with its number of samples, core/src/telecom/modulations.cc:962-971; for the types `nrz` and `aucun`, whose number of coefficients is not asked. -/
noncomputable def theorique (t : MiseEnForme) (nc osf : ℕ) : Option (ℕ × List ℝ) :=
  (t.coefs (osfTheorique osf)).bind fun c : List ℝ => (sympad c 8191).bind fun ht : List ℝ =>
    let n2 := 8191 - 2 * rogneDe ht 8191 ((osfTheorique osf : ℝ) / osf) nc 4095 0
    (t.coefs (osfTheorique osf)).bind fun c' : List ℝ => (sympad c' n2).map fun h2 : List ℝ => (n2, h2)

/-! ## Specification -/

/-- `h` has `nc` samples: those of `c` from the index `d`, and zeros. -/
def Place (c h : List ℝ) (nc d : ℕ) : Prop := h.length = nc ∧ d + c.length ≤ nc ∧ ∀ k, k < nc → h[k]? = some (if d ≤ k ∧ k < d + c.length then c.getD (k - d) 0 else 0)

/-! ## Proofs -/

/-- **C228 (padding).** A vector of at most `nc` samples is placed in the middle of `nc` samples: as many zeros before as after, one more after when the parities differ. A longer one is an error. -/
theorem C228_sympad (v : List ℝ) (nc : ℕ) : (v.length ≤ nc → ∃ h d, sympad v nc = some h ∧ Place v h nc d ∧ (nc - v.length - d = d ∨ nc - v.length - d = d + 1)) ∧ (nc < v.length → sympad v nc = none) := by
  constructor
  · intro hv
    refine ⟨_, (nc - v.length) / 2, by rw [sympad, if_pos hv], ⟨by simp; omega, by omega, fun k hk => ?_⟩, by omega⟩
    rcases Nat.lt_or_ge k ((nc - v.length) / 2) with h1 | h1
    · rw [if_neg (by omega), List.append_assoc, List.getElem?_append_left (by simpa using h1), List.getElem?_replicate, if_pos h1]
    · rcases Nat.lt_or_ge k ((nc - v.length) / 2 + v.length) with h2 | h2
      · rw [if_pos ⟨h1, h2⟩, List.getElem?_append_left (by simp; omega), List.getElem?_append_right (by simpa using h1), List.length_replicate, List.getElem?_eq_getElem (by omega), List.getD_eq_getElem _ _ (by omega)]
      · rw [if_neg (by omega), List.getElem?_append_right (by simp; omega), List.getElem?_replicate, if_pos (by simp; omega)]
  · intro hv
    rw [sympad, if_neg (by omega)]

/-- **C228 (time axis).** With an odd number `2m + 1` of samples, the sample `k` is drawn at the time `(k - m)/osf` symbols: the samples are one period apart, and the sample of the middle is at the time 0. -/
theorem C228_temps (m osf : ℕ) (hm : 0 < m) (k : ℕ) (hk : k < 2 * m + 1) : (temps (2 * m + 1) osf)[k]? = some (((k : ℝ) - m) / osf) := by
  unfold temps
  rw [(Util.C33_linspace _ _ _).2.1 k hk, show (2 * m + 1) / 2 = m by omega]
  congr 1
  have hm0 : (m : ℝ) ≠ 0 := by positivity
  push_cast
  rw [add_sub_cancel_right]
  field_simp
  ring

/-- **C228 (curve).** With an odd number of samples, at least that of the coefficients, the curve exists, and its points are the coefficients, one period apart, and zeros around them; with an odd number of coefficients, the one of the middle is at the time 0. -/
theorem C228_courbe (t : MiseEnForme) (osf : ℕ) (c : List ℝ) (hc : t.coefs osf = some c) (m : ℕ) (hm : 0 < m) (hl : c.length ≤ 2 * m + 1) :
    ∃ p d, courbe t (2 * m + 1) osf = some p ∧ p.length = 2 * m + 1 ∧ (2 * m + 1 - c.length - d = d ∨ 2 * m + 1 - c.length - d = d + 1) ∧
      (∀ k, k < 2 * m + 1 → p[k]? = some (((k : ℝ) - m) / osf, if d ≤ k ∧ k < d + c.length then c.getD (k - d) 0 else 0)) ∧
      (c.length % 2 = 1 → p[m]? = some (0, c.getD (c.length / 2) 0)) := by
  obtain ⟨h, d, e, ⟨l, b, g⟩, q⟩ := (C228_sympad c (2 * m + 1)).1 hl
  have lt : (temps (2 * m + 1) osf).length = 2 * m + 1 := (Util.C33_linspace _ _ _).1
  have key : ∀ k, k < 2 * m + 1 → ((temps (2 * m + 1) osf).zip h)[k]? = some (((k : ℝ) - m) / osf, if d ≤ k ∧ k < d + c.length then c.getD (k - d) 0 else 0) := by
    intro k hk
    rw [List.getElem?_zip_eq_some]
    exact ⟨C228_temps m osf hm k hk, g k hk⟩
  refine ⟨_, d, by rw [courbe, hc, Option.bind_some, e, Option.map_some], by rw [List.length_zip, lt, l, min_self], q, key, fun ho => ?_⟩
  rw [key m (by omega), if_pos (by omega), show m - d = c.length / 2 by omega]
  simp

/-- Non-vacuity of `C228_courbe`: rectangular pulses, 4 samples per symbol, 9 samples. -/
example : ∃ p d, courbe .nrz (2 * 4 + 1) 4 = some p ∧ p.length = 2 * 4 + 1 ∧ (2 * 4 + 1 - 4 - d = d ∨ 2 * 4 + 1 - 4 - d = d + 1) := by
  obtain ⟨p, d, h1, h2, h3, -⟩ := C228_courbe .nrz 4 (List.replicate 4 (1 / ((4 : ℕ) : ℝ))) (by simp [MiseEnForme.coefs]) 4 (by norm_num) (by simp)
  exact ⟨p, d, h1, h2, by simpa using h3⟩

/-- **C228 (even number of samples, refuted).** With an even number `2m` of samples, the samples are drawn `2m/(2m - 1)` periods apart, and none is at the time 0. -/
theorem C228_pair_refute (m osf : ℕ) (hm : 0 < m) (ho : 0 < osf) :
    (∀ k, k + 1 < 2 * m → ∃ a b, (temps (2 * m) osf)[k]? = some a ∧ (temps (2 * m) osf)[k + 1]? = some b ∧ b - a = 2 * m / (2 * m - 1) * (1 / osf) ∧ 1 / (osf : ℝ) < b - a) ∧ ∀ v ∈ temps (2 * m) osf, v ≠ 0 := by
  have hm1 : (1 : ℝ) ≤ m := by exact_mod_cast hm
  have hor : (0 : ℝ) < osf := by exact_mod_cast ho
  have h2 : (0 : ℝ) < 2 * m - 1 := by linarith
  have key : ∀ k, k < 2 * m → (temps (2 * m) osf)[k]? = some ((m * (2 * k + 1 - 2 * m)) / ((2 * m - 1) * osf) : ℝ) := by
    intro k hk
    unfold temps
    rw [(Util.C33_linspace _ _ _).2.1 k hk, show 2 * m / 2 = m by omega]
    congr 1
    push_cast
    obtain ⟨q, hq⟩ : ∃ q : ℝ, q = 2 * m - 1 := ⟨_, rfl⟩
    have hmq : (m : ℝ) = (q + 1) / 2 := by linarith
    rw [← hq] at h2 ⊢
    rw [hmq]
    have h3 := h2.ne'
    field_simp
    ring
  refine ⟨fun k hk => ⟨_, _, key k (by omega), key (k + 1) hk, ?_, ?_⟩, fun v hv => ?_⟩
  · push_cast
    field_simp
    ring
  · have e : ((m : ℝ) * (2 * ((k + 1 : ℕ) : ℝ) + 1 - 2 * m)) / ((2 * m - 1) * osf) - (m * (2 * k + 1 - 2 * m)) / ((2 * m - 1) * osf) = 2 * m / (2 * m - 1) * (1 / osf) := by
      push_cast
      field_simp
      ring
    rw [e]
    have h3 : 1 < 2 * (m : ℝ) / (2 * m - 1) := by rw [lt_div_iff₀ h2]; linarith
    have h4 : 0 < 1 / (osf : ℝ) := by positivity
    nlinarith
  · obtain ⟨k, hk, rfl⟩ := List.getElem_of_mem hv
    have l : (temps (2 * m) osf).length = 2 * m := (Util.C33_linspace _ _ _).1
    have := key k (by omega)
    rw [List.getElem?_eq_getElem hk, Option.some.injEq] at this
    rw [this]
    refine div_ne_zero (mul_ne_zero (by positivity) ?_) (by positivity)
    have h5 : (2 * (k : ℤ) + 1 - 2 * m) ≠ 0 := by omega
    exact_mod_cast h5

/-- **C228 (too few samples, refuted).** Rectangular pulses of `osf` samples cannot be analysed on less than `osf` samples, and no waveform with the number of coefficients left to the default value 0. -/
theorem C228_court_refute (nc osf : ℕ) : (2 ≤ osf → nc < osf → courbe .nrz nc osf = none) ∧ ∀ t : MiseEnForme, courbe t 0 osf = none := by
  refine ⟨fun h2 hn => ?_, fun t => ?_⟩
  · unfold courbe MiseEnForme.coefs
    rw [if_neg (by omega), if_neg (by omega), Option.bind_some, (C228_sympad _ nc).2 (by simpa using hn)]
    rfl
  · unfold courbe
    cases h : t.coefs osf with
    | none => rfl
    | some c =>
      have hc : 0 < c.length := by
        unfold MiseEnForme.coefs at h
        split_ifs at h with h1 h2
        · cases h; simp
        · cases t with
          | nrz => cases h; simp; omega
          | aucun => cases h; simp
          | autre l =>
            simp only at h
            split_ifs at h with h3
            cases h
            exact List.length_pos_iff.2 h3
      rw [Option.bind_some, (C228_sympad c 0).2 hc]
      rfl

theorem rogne_borne (ht : List ℝ) (nc2 : ℕ) (r : ℝ) (nc d : ℕ) (hd : 1 / 10 ^ 4 ≤ |ht.getD d 0|) : ∀ k i, i ≤ d → rogneDe ht nc2 r nc k i ≤ d := by
  intro k
  induction k with
  | zero => intro i hi; exact hi
  | succ k ih =>
    intro i hi
    rw [rogneDe]
    split_ifs with h
    · refine ih (i + 1) ?_
      rcases hi.lt_or_eq with g | g
      · exact g
      · subst g; linarith [h.1]
    · exact hi

theorem rogne_petit (ht : List ℝ) (nc2 : ℕ) (r : ℝ) (nc : ℕ) : ∀ k i, i ≤ rogneDe ht nc2 r nc k i ∧ rogneDe ht nc2 r nc k i ≤ i + k ∧ ∀ j, i ≤ j → j < rogneDe ht nc2 r nc k i → |ht.getD j 0| < 1 / 10 ^ 4 := by
  intro k
  induction k with
  | zero => intro i; exact ⟨le_rfl, le_rfl, fun j h1 h2 => by rw [rogneDe] at h2; omega⟩
  | succ k ih =>
    intro i
    rw [rogneDe]
    split_ifs with h
    · obtain ⟨a, b, c⟩ := ih (i + 1)
      refine ⟨by omega, by omega, fun j h1 h2 => ?_⟩
      rcases h1.lt_or_eq with g | g
      · exact c j g h2
      · subst g; exact h.1
    · exact ⟨le_rfl, by omega, fun j h1 h2 => by omega⟩

/-- **C228 (theoretical response).** For rectangular pulses, up to 4095 samples per symbol, the theoretical response can be computed, on an odd number of samples, and the suppression of the negligible samples does not remove any of its coefficients. -/
theorem C228_theorique (nc osf : ℕ) (h : osf ≤ 4095) : ∃ n2 h2 d, theorique .nrz nc osf = some (n2, h2) ∧ n2 % 2 = 1 ∧ n2 ≤ 8191 ∧ osfTheorique osf ≤ n2 ∧ Place (List.replicate (osfTheorique osf) (1 / (osfTheorique osf : ℝ))) h2 n2 d := by
  have ho : osfTheorique osf ≤ 8190 ∧ 20 ≤ osfTheorique osf := by unfold osfTheorique; omega
  have hor : (20 : ℝ) ≤ osfTheorique osf := by exact_mod_cast ho.2
  have hor2 : (osfTheorique osf : ℝ) ≤ 8190 := by exact_mod_cast ho.1
  have hc : MiseEnForme.nrz.coefs (osfTheorique osf) = some (List.replicate (osfTheorique osf) (1 / (osfTheorique osf : ℝ))) := by
    unfold MiseEnForme.coefs
    rw [if_neg (by omega), if_neg (by omega)]
  obtain ⟨ht, d, e, ⟨l, b, g⟩, q⟩ := (C228_sympad (List.replicate (osfTheorique osf) (1 / (osfTheorique osf : ℝ))) 8191).1 (by simp; omega)
  rw [List.length_replicate] at b q
  have hd : 1 / 10 ^ 4 ≤ |ht.getD d 0| := by
    have := g d (by omega)
    rw [List.length_replicate, if_pos (by omega), Nat.sub_self] at this
    rw [List.getD_eq_getElem?_getD, this, Option.getD_some, List.getD_eq_getElem _ _ (by simp; omega), List.getElem_replicate, abs_of_pos (by positivity)]
    exact one_div_le_one_div_of_le (by linarith) (by linarith)
  have hb := rogne_borne ht 8191 ((osfTheorique osf : ℝ) / osf) nc d hd 4095 0 (by omega)
  obtain ⟨h2, d2, e2, p2, -⟩ := (C228_sympad (List.replicate (osfTheorique osf) (1 / (osfTheorique osf : ℝ))) (8191 - 2 * rogneDe ht 8191 ((osfTheorique osf : ℝ) / osf) nc 4095 0)).1 (by simp; omega)
  refine ⟨_, h2, d2, ?_, ?_, ?_, ?_, p2⟩
  · unfold theorique
    rw [hc, Option.bind_some, e, Option.bind_some]
    simp only [Option.bind_some]
    rw [e2, Option.map_some]
  · omega
  · omega
  · omega

/-- **C228 (theoretical response, refuted).** From 4096 samples per symbol on, the analysis of rectangular pulses fails, whatever the number of samples asked. -/
theorem C228_theorique_refute (nc osf : ℕ) (h : 4096 ≤ osf) : theorique .nrz nc osf = none := by
  have ho : 8192 ≤ osfTheorique osf := by unfold osfTheorique; omega
  unfold theorique
  have hc : MiseEnForme.nrz.coefs (osfTheorique osf) = some (List.replicate (osfTheorique osf) (1 / (osfTheorique osf : ℝ))) := by
    unfold MiseEnForme.coefs
    rw [if_neg (by omega), if_neg (by omega)]
  rw [hc, Option.bind_some, (C228_sympad _ 8191).2 (by simp; omega)]
  rfl

end Verif.AnalyseForme
