/-
C164: physical values as text (core/src/vue/unites.cc).
-/
import Verif.Fourier.Delais
import Mathlib.Analysis.SpecialFunctions.Log.Base

namespace Verif.Vue
open Verif.Fourier (arrondi)

/-! ## Model (exact arithmetic instead of `double` and `float`; a text is the number shown, its number of decimals and the suffix) -/

/-- `std::numeric_limits<float>::epsilon()`, used in core/src/vue/unites.cc:67-68. -/
noncomputable def eps : ℝ := 1 / 2 ^ 23

/-- `ndigits(a)`, core/src/vue/unites.cc:62-73. -/
noncomputable def ndigits (a : ℝ) : ℕ := by
  classical exact ((List.range 8).find? fun i : ℕ => decide (|a * 10 ^ i - arrondi (a * 10 ^ i)| < 2 * 10 ^ i * eps)).getD 8

/-- `ndigits(t, expo, unite)`, core/src/vue/unites.cc:76-80. -/
noncomputable def ndigitsExpo (t : ℝ) (expo : ℤ) : ℕ := ndigits (|t| * (10 : ℝ) ^ (-expo))

/-- `calc_expo_nb_chiffres(t, unite)`, core/src/vue/unites.cc:85-122. -/
noncomputable def calcExpo (t : ℝ) (unite : String) : ℤ × ℕ :=
  let at' := |t|;
  if unite = "" then
    if at' < 70000 ∧ at' ≥ 1 then (0, ndigits at')
    else if t = 0 then (0, 0)
    else if at' ≥ 1 / 10 then (0, ndigits at')
    else (⌊Real.logb 10 at'⌋, ndigits (at' * (10 : ℝ) ^ (-⌊Real.logb 10 at'⌋)))
  else if at' < 1000 ∧ at' ≥ 1 then (0, ndigits at')
  else if at' ≥ 1000 ∧ at' < 10 ^ 6 then (3, ndigits (at' * (10 : ℝ) ^ (-3 : ℤ)))
  else if at' ≥ 10 ^ 6 ∧ at' < 10 ^ 9 then (6, ndigits (at' * (10 : ℝ) ^ (-6 : ℤ)))
  else if at' ≥ 10 ^ 9 then (9, ndigits (at' * (10 : ℝ) ^ (-9 : ℤ)))
  else if t = 0 then (0, 0)
  else if at' < 1 / 10 ^ 3 then (-6, ndigits (at' * (10 : ℝ) ^ (6 : ℤ)))
  else if at' < 1 then (-3, ndigits (at' * (10 : ℝ) ^ (3 : ℤ)))
  else (0, ndigits at')

/-- The loop on the exponents, core/src/vue/unites.cc:131-146: `has_max` is never set. -/
noncomputable def expoCommun (unite : String) (tics : List ℝ) : ℤ := by
  classical exact tics.foldl (fun (e : ℤ) (t : ℝ) => if t ≠ 0 then (calcExpo t unite).1 else e) 0

/-- `calc_expo_nb_chiffres_commun(tics, unite)`, core/src/vue/unites.cc:125-156. -/
noncomputable def calcExpoCommun (tics : List ℝ) (unite : String) : ℤ × ℕ :=
  match tics with
  | [] => (0, 0)
  | t0 :: l => (expoCommun unite (t0 :: l), l.foldl (fun (m : ℕ) (t : ℝ) => max m (ndigitsExpo t (expoCommun unite (t0 :: l)))) (ndigitsExpo t0 (expoCommun unite (t0 :: l))))

/-- The number, the number of decimals and the suffix of the text. -/
structure Texte where
  nombre : ℝ
  decimales : ℕ
  suffixe : String

/-- The suffix, core/src/vue/unites.cc:22-48. -/
def suffixe (unite : String) (expo : ℤ) : String :=
  let un := if unite ≠ "" then
      (if expo = 3 then "K" ++ unite else if expo = 6 then "M" ++ unite else if expo = 9 then "G" ++ unite else if expo = -3 then "m" ++ unite else if expo = -6 then "u" ++ unite else if expo = 0 then unite else "?" ++ unite)
    else if expo ≠ 0 then "e" ++ toString expo else ""
  if un ≠ "" then " " ++ un else un

/-- `valeur_vers_chaine(t, unite, expo, nb_chiffres)`, core/src/vue/unites.cc:20-59. Without decimals the value is converted to `int` (`none` when it does not fit); otherwise it is written with `nb_chiffres` decimals (nearest,
ties away from zero in the model). -/
noncomputable def valeurVersChaine (t : ℝ) (unite : String) (expo : ℤ) (nb : ℕ) : Option Texte :=
  let u := t * (10 : ℝ) ^ (-expo);
  if nb = 0 then (if -2 ^ 31 ≤ arrondi u ∧ arrondi u < 2 ^ 31 then some ⟨arrondi u, 0, suffixe unite expo⟩ else none)
  else some ⟨arrondi (u * 10 ^ nb) / 10 ^ nb, nb, suffixe unite expo⟩

/-- `valeur_vers_chaine(t, unite)`, core/src/vue/unites.cc:14-18. -/
noncomputable def valeurTexte (t : ℝ) (unite : String) : Option Texte := valeurVersChaine t unite (calcExpo t unite).1 (calcExpo t unite).2

/-! ## Proofs -/

theorem arrondi_neg (x : ℝ) : arrondi (-x) = -arrondi x := by
  unfold arrondi
  rcases lt_trichotomy x 0 with h | h | h
  · rw [if_pos (by linarith), if_neg (by linarith), neg_neg]
  · subst h
    norm_num
  · rw [if_neg (by linarith), if_pos h.le, neg_neg]

theorem arrondi_proche (x : ℝ) : |(arrondi x : ℝ) - x| ≤ 1 / 2 := by
  have key : ∀ x : ℝ, 0 ≤ x → |(arrondi x : ℝ) - x| ≤ 1 / 2 := by
    intro x hx
    unfold arrondi
    rw [if_pos hx, abs_le]
    have h1 := Int.floor_le (x + 1 / 2)
    have h2 := Int.lt_floor_add_one (x + 1 / 2)
    constructor <;> linarith
  rcases le_total 0 x with h | h
  · exact key x h
  · have := key (-x) (by linarith)
    rw [arrondi_neg] at this
    push_cast at this
    rw [show -(arrondi x : ℝ) - -x = -((arrondi x : ℝ) - x) by ring, abs_neg] at this
    exact this

theorem arrondi_entier (k : ℤ) : arrondi (k : ℝ) = k := by
  have h := arrondi_proche (k : ℝ)
  have : |((arrondi (k : ℝ) - k : ℤ) : ℝ)| ≤ 1 / 2 := by push_cast; exact h
  have h2 : |arrondi (k : ℝ) - k| < 1 := by
    have : |((arrondi (k : ℝ) - k : ℤ) : ℝ)| < 1 := by linarith
    exact_mod_cast this
  have := Int.abs_lt_one_iff.1 h2
  omega

/-- The number shown with `n = ndigits` decimals, for any sign. -/
theorem ndigits_precision (a : ℝ) : |(arrondi (a * 10 ^ ndigits |a|) : ℝ) / 10 ^ ndigits |a| - a| < 2 * eps := by
  have hsig : ∀ n : ℕ, |(arrondi (a * 10 ^ n) : ℝ) / 10 ^ n - a| = |(|a| * 10 ^ n - arrondi (|a| * 10 ^ n) : ℝ)| / 10 ^ n := by
    intro n
    have hp : (0 : ℝ) < 10 ^ n := by positivity
    have e : ∀ b : ℝ, |(arrondi (b * 10 ^ n) : ℝ) / 10 ^ n - b| = |(b * 10 ^ n - arrondi (b * 10 ^ n) : ℝ)| / 10 ^ n := by
      intro b
      rw [abs_sub_comm, show b - (arrondi (b * 10 ^ n) : ℝ) / 10 ^ n = (b * 10 ^ n - arrondi (b * 10 ^ n) : ℝ) / 10 ^ n by field_simp, abs_div, abs_of_pos hp]
    rw [e a]
    rcases abs_choice a with h | h
    · rw [h]
    · rw [h, show -a * 10 ^ n = -(a * 10 ^ n) by ring, arrondi_neg]
      congr 1
      push_cast
      rw [← abs_neg]
      congr 1
      ring
  rw [hsig]
  have hp : ∀ n : ℕ, (0 : ℝ) < 10 ^ n := fun n => by positivity
  rw [div_lt_iff₀ (hp _)]
  unfold ndigits
  cases hf : (List.range 8).find? _ with
  | some i =>
    have := List.find?_some hf
    simp only [decide_eq_true_eq] at this
    rw [Option.getD_some]
    calc _ < _ := this
      _ = _ := by ring
  | none =>
    rw [Option.getD_none]
    have h := arrondi_proche (|a| * 10 ^ 8)
    rw [abs_sub_comm] at h
    refine h.trans_lt ?_
    unfold eps
    norm_num

theorem ndigits_borne (a : ℝ) (d : ℕ) (k : ℤ) (h : a * 10 ^ d = k) : ndigits a ≤ d := by
  rcases Nat.lt_or_ge d 8 with hd | hd
  · unfold ndigits
    cases hf : (List.range 8).find? _ with
    | some i =>
      rw [Option.getD_some]
      by_contra hi
      rw [List.find?_eq_some_iff_getElem] at hf
      obtain ⟨-, j, hj, e, hn⟩ := hf
      rw [List.getElem_range] at e
      have := hn d (by omega)
      rw [List.getElem_range, h, arrondi_entier] at this
      simp [eps] at this
    | none =>
      exfalso
      rw [List.find?_eq_none] at hf
      have := hf d (by simpa using hd)
      rw [h, arrondi_entier] at this
      simp [eps] at this
  · have : ndigits a ≤ 8 := by
      unfold ndigits
      cases hf : (List.range 8).find? _ with
      | some i =>
        have := List.mem_of_find?_eq_some hf
        simp at this
        simp
        omega
      | none => simp
    omega

/-- A number with at most 6 decimals is shown exactly. -/
theorem ndigits_exact (a : ℝ) (k : ℤ) (h : a * 10 ^ 6 = k) (n : ℕ) (hn : n ≤ 6) (hp : |(arrondi (a * 10 ^ n) : ℝ) / 10 ^ n - a| < 2 * eps) : (arrondi (a * 10 ^ n) : ℝ) / 10 ^ n = a := by
  have h6 : (10 : ℝ) ^ 6 = 10 ^ n * 10 ^ (6 - n) := by rw [← pow_add]; congr 1; omega
  have hpn : (0 : ℝ) < 10 ^ n := by positivity
  generalize arrondi (a * 10 ^ n) = m at *
  have e : ((m : ℝ) / 10 ^ n - a) * 10 ^ 6 = ((m * 10 ^ (6 - n) - k : ℤ) : ℝ) := by
    rw [sub_mul, h]
    push_cast
    rw [h6]
    field_simp
  have : |((m * 10 ^ (6 - n) - k : ℤ) : ℝ)| < 1 := by
    rw [← e, abs_mul, abs_of_pos (by positivity : (0 : ℝ) < 10 ^ 6)]
    calc _ < 2 * eps * 10 ^ 6 := by gcongr
      _ ≤ 1 := by unfold eps; norm_num
  have h0 := Int.abs_lt_one_iff.1 (by exact_mod_cast this : |m * 10 ^ (6 - n) - k| < 1)
  rw [h0] at e
  have : (m : ℝ) / 10 ^ n - a = 0 := by
    have h10 : (10 : ℝ) ^ 6 ≠ 0 := by positivity
    have : ((m : ℝ) / 10 ^ n - a) * 10 ^ 6 = 0 := by rw [e]; norm_num
    exact (mul_eq_zero.1 this).resolve_right h10
  linarith

/-- The number of decimals chosen is that of the scaled magnitude. -/
theorem calcExpo_chiffres (t : ℝ) (u : String) (ht : t ≠ 0) : (calcExpo t u).2 = ndigits |t * (10 : ℝ) ^ (-(calcExpo t u).1)| := by
  have e : ∀ k : ℤ, |t * (10 : ℝ) ^ (-k)| = |t| * (10 : ℝ) ^ (-k) := fun k => by rw [abs_mul, abs_of_pos (zpow_pos (by norm_num : (0 : ℝ) < 10) (-k))]
  rw [e]
  unfold calcExpo
  simp only
  split_ifs <;> simp_all

/-! ## Specification -/

/-- The multiple denoted by a prefix. -/
noncomputable def multiple : String → Option ℝ
  | "" => some 1
  | "K" => some 1000
  | "M" => some (10 ^ 6)
  | "G" => some (10 ^ 9)
  | "m" => some (1 / 1000)
  | "u" => some (1 / 10 ^ 6)
  | _ => none

/-- The text of a scaled value with the number of decimals of its magnitude. -/
theorem texte_precision (t : ℝ) (u : String) (e : ℤ) (n : ℕ) (hn : n = ndigits |t * (10 : ℝ) ^ (-e)|) (hb : |t * (10 : ℝ) ^ (-e)| < 2 ^ 31 - 1) : ∃ x, valeurVersChaine t u e n = some x ∧ x.suffixe = suffixe u e ∧
    |x.nombre - t * (10 : ℝ) ^ (-e)| < 1 / 2 ^ 22 ∧ (∀ k : ℤ, t * (10 : ℝ) ^ (-e) * 10 ^ 6 = k → x.nombre = t * (10 : ℝ) ^ (-e)) ∧ ∃ k : ℤ, x.nombre * 10 ^ x.decimales = k := by
  have he : 2 * eps = 1 / 2 ^ 22 := by unfold eps; norm_num
  have hp := ndigits_precision (t * (10 : ℝ) ^ (-e))
  rw [← hn] at hp
  have hx : ∀ k : ℤ, t * (10 : ℝ) ^ (-e) * 10 ^ 6 = k → (arrondi (t * (10 : ℝ) ^ (-e) * 10 ^ n) : ℝ) / 10 ^ n = t * (10 : ℝ) ^ (-e) := by
    intro k hk
    refine ndigits_exact _ k hk n ?_ hp
    rw [hn]
    rcases abs_choice (t * (10 : ℝ) ^ (-e)) with h | h
    · exact ndigits_borne _ 6 k (by rw [h, hk])
    · exact ndigits_borne _ 6 (-k) (by rw [h, neg_mul, hk]; push_cast; rfl)
  unfold valeurVersChaine
  simp only
  generalize t * (10 : ℝ) ^ (-e) = v at *
  by_cases h0 : n = 0
  · subst h0
    have hr := arrondi_proche v
    rw [abs_le] at hr
    rw [abs_lt] at hb
    have hb' : -2 ^ 31 ≤ arrondi v ∧ arrondi v < 2 ^ 31 := by
      constructor
      · have : ((-2 ^ 31 : ℤ) : ℝ) ≤ arrondi v := by push_cast; linarith
        exact_mod_cast this
      · have : (arrondi v : ℝ) < ((2 ^ 31 : ℤ) : ℝ) := by push_cast; linarith
        exact_mod_cast this
    rw [if_pos rfl, if_pos hb']
    rw [pow_zero, mul_one, div_one] at hp hx
    exact ⟨_, rfl, rfl, by rw [← he]; exact hp, hx, arrondi v, by simp⟩
  · rw [if_neg h0]
    refine ⟨_, rfl, rfl, by rw [← he]; exact hp, hx, arrondi (v * 10 ^ n), ?_⟩
    simp only
    field_simp

theorem texte_zero (u : String) : ∃ x, valeurTexte 0 u = some x ∧ x.suffixe = suffixe u 0 ∧ x.nombre = 0 := by
  have h : calcExpo 0 u = (0, 0) := by
    unfold calcExpo
    norm_num
  have ha : arrondi (0 : ℝ) = 0 := by simpa using arrondi_entier 0
  refine ⟨⟨0, 0, suffixe u 0⟩, ?_, rfl, rfl⟩
  unfold valeurTexte valeurVersChaine
  rw [h]
  simp [ha]

/-- The exponent chosen for a unit. -/
theorem calcExpo_unite (t : ℝ) (u : String) (hu : u ≠ "") (ht : t ≠ 0) : ∃ p m, multiple p = some m ∧ suffixe u (calcExpo t u).1 = " " ++ (p ++ u) ∧ (10 : ℝ) ^ (-(calcExpo t u).1) = 1 / m ∧ 0 < m ∧
    (1 / 10 ^ 3 ≤ |t| → m ≤ |t|) ∧ (|t| < 10 ^ 12 → |t| < 1000 * m) ∧ m ≤ 10 ^ 9 := by
  have hne : ∀ p : String, p ++ u ≠ "" := by
    intro p h
    exact hu (String.append_eq_empty_iff.1 h).2
  have h0 : 0 < |t| := abs_pos.2 ht
  unfold calcExpo
  simp only
  rw [if_neg hu]
  split_ifs with h1 h2 h3 h4 h5 h6
  · exact ⟨"", 1, rfl, by simp [suffixe, hu], by norm_num, by norm_num, fun _ => h1.2, fun _ => by linarith, by norm_num⟩
  · exact ⟨"K", 1000, rfl, by simp [suffixe, hu], by norm_num, by norm_num, fun _ => h2.1, fun _ => by linarith, by norm_num⟩
  · exact ⟨"M", 10 ^ 6, rfl, by simp [suffixe, hu], by norm_num, by norm_num, fun _ => h3.1, fun _ => by linarith, by norm_num⟩
  · exact ⟨"G", 10 ^ 9, rfl, by simp [suffixe, hu], by norm_num, by norm_num, fun _ => h4, fun _ => by linarith, by norm_num⟩
  · exact ⟨"u", 1 / 10 ^ 6, rfl, by simp [suffixe, hu], by norm_num, by norm_num, fun h => by linarith, fun _ => by linarith, by norm_num⟩
  · exact ⟨"m", 1 / 1000, rfl, by simp [suffixe, hu], by norm_num, by norm_num, fun h => by linarith, fun _ => by linarith, by norm_num⟩
  · exfalso
    rcases lt_or_ge |t| 1000 with h | h
    · exact h1 ⟨h, by linarith⟩
    · rcases lt_or_ge |t| (10 ^ 6) with h' | h'
      · exact h2 ⟨h, h'⟩
      · rcases lt_or_ge |t| (10 ^ 9) with h'' | h''
        · exact h3 ⟨h', h''⟩
        · exact h4 h''

/-- **C164 (value with a unit).** For a unit and a value of magnitude below `2 · 10¹⁸`, a text is produced: a number, a space, a prefix and the unit. The number is within `2⁻²²` of the value expressed in the prefixed unit, it is exact when the
value has at most 6 decimals in this unit, and from `10⁻³` to `10¹²` the value expressed in this unit is between 1 and 1000. -/
theorem C164_unite (t : ℝ) (u : String) (hu : u ≠ "") (ht : |t| < 2 * 10 ^ 18) : ∃ x p m, valeurTexte t u = some x ∧ x.suffixe = " " ++ (p ++ u) ∧ multiple p = some m ∧ 0 < m ∧ |x.nombre - t / m| < 1 / 2 ^ 22 ∧
    (∀ k : ℤ, t / m * 10 ^ 6 = k → x.nombre = t / m) ∧ (1 / 10 ^ 3 ≤ |t| ∧ |t| < 10 ^ 12 → 1 ≤ |t / m| ∧ |t / m| < 1000) := by
  rcases eq_or_ne t 0 with rfl | h0
  · obtain ⟨x, h1, h2, h3⟩ := texte_zero u
    refine ⟨x, "", 1, h1, by rw [h2]; simp [suffixe, hu], rfl, by norm_num, by rw [h3]; norm_num, fun _ _ => by rw [h3]; norm_num, fun h => ?_⟩
    norm_num at h
  · obtain ⟨p, m, h1, h2, h3, h4, h5, h6, h7⟩ := calcExpo_unite t u hu h0
    have e : t * (10 : ℝ) ^ (-(calcExpo t u).1) = t / m := by rw [h3]; ring
    have hb : |t * (10 : ℝ) ^ (-(calcExpo t u).1)| < 2 ^ 31 - 1 := by
      rw [e, abs_div, abs_of_pos h4, div_lt_iff₀ h4]
      rcases lt_or_ge |t| (10 ^ 12) with h | h
      · have := h6 h
        nlinarith
      · have hm : m = 10 ^ 9 := by
          unfold calcExpo at h3
          simp only at h3
          rw [if_neg hu, if_neg (by rintro ⟨a, -⟩; linarith), if_neg (by rintro ⟨-, a⟩; linarith), if_neg (by rintro ⟨-, a⟩; linarith), if_pos (by linarith)] at h3
          norm_num at h3
          have := congrArg (fun z : ℝ => z⁻¹) h3
          simp only [inv_inv] at this
          norm_num at this
          linarith
        rw [hm]
        linarith
    obtain ⟨x, x1, x2, x3, x4, -⟩ := texte_precision t u _ _ (calcExpo_chiffres t u h0) hb
    rw [e] at x3 x4
    refine ⟨x, p, m, x1, x2.trans h2, h1, h4, x3, x4, fun h => ?_⟩
    rw [abs_div, abs_of_pos h4, le_div_iff₀ h4, div_lt_iff₀ h4, one_mul]
    exact ⟨h5 h.1, h6 h.2⟩

/-- **C164 (value without unit).** Below 2 · 10⁹ a text is produced, a number followed by nothing or by a power of ten; it is within `2⁻²²` of the scaled value, and below 1/10 the number before the power of ten is between 1 and 10. -/
theorem C164_sans_unite (t : ℝ) (ht : |t| < 2 * 10 ^ 9) : ∃ (x : Texte) (e : ℤ), valeurTexte t "" = some x ∧ x.suffixe = (if e = 0 then "" else " e" ++ toString e) ∧ |x.nombre - t * (10 : ℝ) ^ (-e)| < 1 / 2 ^ 22 ∧
    (1 / 10 ≤ |t| → e = 0) ∧ (t ≠ 0 ∧ |t| < 1 / 10 → 1 ≤ |t * (10 : ℝ) ^ (-e)| ∧ |t * (10 : ℝ) ^ (-e)| < 10) := by
  rcases eq_or_ne t 0 with rfl | h0
  · obtain ⟨x, h1, h2, h3⟩ := texte_zero ""
    exact ⟨x, 0, h1, by rw [h2]; simp [suffixe], by rw [h3]; norm_num, fun _ => rfl, fun h => absurd rfl h.1⟩
  · have hs : ∀ e : ℤ, suffixe "" e = if e = 0 then "" else " e" ++ toString e := by
      intro e
      unfold suffixe
      by_cases h : e = 0
      · simp [h]
      · simp only [ne_eq, not_true_eq_false, if_false, h, not_false_eq_true, if_true]
        rw [if_pos (by intro h'; have := (String.append_eq_empty_iff.1 h').1; simp at this), ← String.append_assoc]
        rfl
    have ha : 0 < |t| := abs_pos.2 h0
    have hpos : ∀ k : ℤ, |t * (10 : ℝ) ^ (-k)| = |t| * (10 : ℝ) ^ (-k) := fun k => by rw [abs_mul, abs_of_pos (zpow_pos (by norm_num : (0 : ℝ) < 10) (-k))]
    have hc : (1 / 10 ≤ |t| → (calcExpo t "").1 = 0) ∧ (|t| < 1 / 10 → (calcExpo t "").1 = ⌊Real.logb 10 |t|⌋) := by
      unfold calcExpo
      simp only [if_true]
      constructor
      · intro h
        split_ifs <;> simp_all
      · intro h
        rw [if_neg (by rintro ⟨-, h'⟩; linarith), if_neg h0, if_neg (by linarith)]
    have hsc : |t| < 1 / 10 → 1 ≤ |t * (10 : ℝ) ^ (-(calcExpo t "").1)| ∧ |t * (10 : ℝ) ^ (-(calcExpo t "").1)| < 10 := by
      intro h
      rw [hc.2 h, hpos, zpow_neg]
      have l1 := Int.floor_le (Real.logb 10 |t|)
      have l2 := Int.lt_floor_add_one (Real.logb 10 |t|)
      generalize ⌊Real.logb 10 |t|⌋ = k at *
      have hz : (0 : ℝ) < 10 ^ k := zpow_pos (by norm_num) _
      rw [← div_eq_mul_inv, le_div_iff₀ hz, div_lt_iff₀ hz, one_mul]
      rw [Real.le_logb_iff_rpow_le (by norm_num) ha, Real.rpow_intCast] at l1
      rw [Real.logb_lt_iff_lt_rpow (by norm_num) ha, Real.rpow_add (by norm_num), Real.rpow_one, Real.rpow_intCast] at l2
      exact ⟨l1, by linarith⟩
    have hb : |t * (10 : ℝ) ^ (-(calcExpo t "").1)| < 2 ^ 31 - 1 := by
      rcases lt_or_ge |t| (1 / 10) with h | h
      · have := (hsc h).2
        linarith
      · rw [hc.1 h, neg_zero, zpow_zero, mul_one]
        linarith
    obtain ⟨x, x1, x2, x3, -⟩ := texte_precision t "" _ _ (calcExpo_chiffres t "" h0) hb
    exact ⟨x, (calcExpo t "").1, x1, by rw [x2, hs], x3, hc.1, fun h => hsc h.2⟩

/-- **C164 (large values, refuted).** A whole value of `2³¹` or more without unit, for example `3 · 10⁹`, is converted to an `int` that cannot hold it. -/
theorem C164_grand_refute (k : ℕ) (hk : 2 ^ 31 ≤ k) : valeurTexte (k : ℝ) "" = none := by
  have h1 : (2 : ℝ) ^ 31 ≤ k := by exact_mod_cast hk
  have hc : calcExpo (k : ℝ) "" = (0, ndigits k) := by
    unfold calcExpo
    simp only [if_true, Nat.abs_cast]
    rw [if_neg (by rintro ⟨h, -⟩; linarith), if_neg (by intro h; rw [h] at h1; norm_num at h1), if_pos (by linarith)]
  have hn : ndigits (k : ℝ) = 0 := by
    have := ndigits_borne (k : ℝ) 0 k (by simp)
    omega
  unfold valeurTexte valeurVersChaine
  rw [hc, hn]
  simp only [neg_zero, zpow_zero, mul_one, if_true]
  have ha : arrondi (k : ℝ) = k := by simpa using arrondi_entier (k : ℤ)
  rw [if_neg (by rw [ha]; rintro ⟨-, h⟩; have : k < 2 ^ 31 := by exact_mod_cast h
                 omega)]

/-- **C164 (small values, refuted).** With a unit, every value below `10⁻¹³` is shown as 0. -/
theorem C164_petit_refute (t : ℝ) (u : String) (hu : u ≠ "") (h0 : t ≠ 0) (ht : |t| < 1 / 10 ^ 13) : ∃ x, valeurTexte t u = some x ∧ x.nombre = 0 ∧ x.decimales = 0 := by
  have hc : calcExpo t u = (-6, ndigits (|t| * 10 ^ (6 : ℤ))) := by
    unfold calcExpo
    simp only
    have h1 : |t| < 1 := by refine ht.trans ?_; norm_num
    rw [if_neg hu, if_neg (by rintro ⟨-, h⟩; linarith), if_neg (by rintro ⟨h, -⟩; linarith), if_neg (by rintro ⟨h, -⟩; linarith), if_neg (by intro h; linarith), if_neg h0, if_pos (by refine ht.trans ?_; norm_num)]
  have ha : ∀ v : ℝ, |v| < 1 / 10 ^ 7 → arrondi v = 0 := by
    intro v hv
    have h := arrondi_proche v
    have h2 : |(arrondi v : ℝ)| < 1 := by
      have := abs_sub_abs_le_abs_sub (arrondi v : ℝ) v
      norm_num at hv ⊢
      linarith
    exact Int.abs_lt_one_iff.1 (by exact_mod_cast h2)
  have hv : |t| * 10 ^ (6 : ℤ) < 1 / 10 ^ 7 := by
    norm_num at ht ⊢
    linarith
  have hv' : |t * (10 : ℝ) ^ (6 : ℤ)| < 1 / 10 ^ 7 := by
    rw [abs_mul, abs_of_pos (zpow_pos (by norm_num : (0 : ℝ) < 10) 6)]
    exact hv
  have hn : ndigits (|t| * 10 ^ (6 : ℤ)) = 0 := by
    have hpos : |(|t| * (10 : ℝ) ^ (6 : ℤ))| < 1 / 10 ^ 7 := by rwa [abs_of_nonneg (by positivity)]
    unfold ndigits
    rw [List.range_succ_eq_map, List.find?_cons_of_pos]
    · rfl
    · rw [decide_eq_true_eq, pow_zero, mul_one, ha _ hpos]
      rw [Int.cast_zero, sub_zero]
      refine hpos.trans ?_
      unfold eps
      norm_num
  refine ⟨⟨0, 0, suffixe u (-6)⟩, ?_, rfl, rfl⟩
  unfold valeurTexte valeurVersChaine
  rw [hc, hn]
  simp only [neg_neg, if_true]
  rw [ha _ hv']
  norm_num

theorem expoCommun_dernier (u : String) (l : List ℝ) (t : ℝ) (ht : t ≠ 0) : expoCommun u (l ++ [t]) = (calcExpo t u).1 := by
  unfold expoCommun
  rw [List.foldl_append, List.foldl_cons, List.foldl_nil, if_pos ht]

/-- **C164 (common exponent, refuted).** The common exponent is that of the last tic that is not zero, whatever the other ones: it depends on the order. -/
theorem C164_commun_refute : (∀ (u : String) (l : List ℝ) (t : ℝ), t ≠ 0 → (calcExpoCommun (l ++ [t]) u).1 = (calcExpo t u).1) ∧
    (calcExpoCommun [1 / 2, 2 * 10 ^ 6] "Hz").1 = 6 ∧ (calcExpoCommun [2 * 10 ^ 6, 1 / 2] "Hz").1 = -3 := by
  have key : ∀ (u : String) (l : List ℝ) (t : ℝ), t ≠ 0 → (calcExpoCommun (l ++ [t]) u).1 = (calcExpo t u).1 := by
    intro u l t ht
    rw [← expoCommun_dernier u l t ht]
    cases l with
    | nil => rfl
    | cons a l => rfl
  refine ⟨key, ?_, ?_⟩
  · rw [show ([1 / 2, 2 * 10 ^ 6] : List ℝ) = [1 / 2] ++ [2 * 10 ^ 6] from rfl, key _ _ _ (by norm_num)]
    unfold calcExpo
    rw [if_neg (show ¬ ("Hz" = "") by decide)]
    norm_num [abs_of_pos]
  · rw [show ([2 * 10 ^ 6, 1 / 2] : List ℝ) = [2 * 10 ^ 6] ++ [1 / 2] from rfl, key _ _ _ (by norm_num)]
    unfold calcExpo
    rw [if_neg (show ¬ ("Hz" = "") by decide)]
    norm_num [abs_of_pos]

theorem foldl_max_ge (f : ℝ → ℕ) (l : List ℝ) (m : ℕ) : m ≤ l.foldl (fun (m : ℕ) (t : ℝ) => max m (f t)) m ∧ ∀ t ∈ l, f t ≤ l.foldl (fun (m : ℕ) (t : ℝ) => max m (f t)) m := by
  induction l generalizing m with
  | nil => simp
  | cons a l ih =>
    rw [List.foldl_cons]
    obtain ⟨h1, h2⟩ := ih (max m (f a))
    refine ⟨(le_max_left _ _).trans h1, fun t ht => ?_⟩
    rcases List.mem_cons.1 ht with rfl | ht
    · exact (le_max_right _ _).trans h1
    · exact h2 t ht

/-- **C164 (common number of decimals).** The common number of decimals is at least that of each tic at the common exponent, and no more than one of them. -/
theorem C164_commun_decimales (tics : List ℝ) (u : String) (h : tics ≠ []) : (∀ t ∈ tics, ndigitsExpo t (calcExpoCommun tics u).1 ≤ (calcExpoCommun tics u).2) ∧
    ∃ t ∈ tics, (calcExpoCommun tics u).2 = ndigitsExpo t (calcExpoCommun tics u).1 := by
  cases tics with
  | nil => exact absurd rfl h
  | cons t0 l =>
    show (∀ t ∈ t0 :: l, ndigitsExpo t (expoCommun u (t0 :: l)) ≤ l.foldl _ _) ∧ ∃ t ∈ t0 :: l, l.foldl _ _ = ndigitsExpo t (expoCommun u (t0 :: l))
    generalize expoCommun u (t0 :: l) = e
    obtain ⟨h1, h2⟩ := foldl_max_ge (fun t => ndigitsExpo t e) l (ndigitsExpo t0 e)
    refine ⟨fun t ht => ?_, ?_⟩
    · rcases List.mem_cons.1 ht with rfl | ht
      · exact h1
      · exact h2 t ht
    · clear h1 h2 h
      have : ∀ m : ℕ, l.foldl (fun (m : ℕ) (t : ℝ) => max m (ndigitsExpo t e)) m = m ∨ ∃ t ∈ l, l.foldl (fun (m : ℕ) (t : ℝ) => max m (ndigitsExpo t e)) m = ndigitsExpo t e := by
        induction l with
        | nil => exact fun m => Or.inl rfl
        | cons a l ih =>
          intro m
          rw [List.foldl_cons]
          rcases ih (max m (ndigitsExpo a e)) with hh | ⟨t, ht, hh⟩
          · rcases max_choice m (ndigitsExpo a e) with hm | hm
            · exact Or.inl (hh.trans hm)
            · exact Or.inr ⟨a, by simp, hh.trans hm⟩
          · exact Or.inr ⟨t, by simp [ht], hh⟩
      rcases this (ndigitsExpo t0 e) with hh | ⟨t, ht, hh⟩
      · exact ⟨t0, by simp, hh⟩
      · exact ⟨t, by simp [ht], hh⟩

/-- Non-vacuity: 12.5 kHz. -/
example : ∃ x, valeurTexte 12500 "Hz" = some x ∧ x.nombre = 25 / 2 ∧ x.suffixe = " KHz" := by
  obtain ⟨x, p, m, h1, h2, h3, h4, h5, h6, h7⟩ := C164_unite 12500 "Hz" (by decide) (by norm_num [abs_of_pos])
  have hx : (calcExpo 12500 "Hz").1 = 3 := by
    unfold calcExpo
    rw [if_neg (show ¬ ("Hz" = "") by decide)]
    norm_num [abs_of_pos]
  obtain ⟨p', m', q1, q2, q3, q4, -⟩ := calcExpo_unite 12500 "Hz" (by decide) (by norm_num)
  obtain ⟨y, y1, y2, y3, y4, -⟩ := texte_precision 12500 "Hz" _ _ (calcExpo_chiffres 12500 "Hz" (by norm_num)) (by rw [hx]; norm_num [abs_of_pos])
  refine ⟨y, y1, ?_, ?_⟩
  · rw [y4 12500000 (by rw [hx]; norm_num), hx]
    norm_num
  · rw [y2, hx]
    decide

end Verif.Vue
