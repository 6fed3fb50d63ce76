import Verif.Telecom.DemodDecRefut

/-!
# C143: clock recovery of the decision-directed demodulator
-/

namespace Verif.Telecom

open Filtre (Decoupable enchaine boucle)
open Complex (exp I)

/-! ### The clock never fails -/

/-- Accounting of the clock after `N` samples and `S` symbols. -/
def Cadence {C : Type} (c : ConfigDec C) (N S : ℕ) (s : EtatDec C) : Prop :=
  s.hor.fen.length = c.K ∧ s.hor.cnt ≤ 1 ∧ 1 ≤ s.hor.phase ∧ s.hor.phase ≤ 3 / 4 * c.osf + 1 ∧
  |(N : ℝ) + s.hor.phase - ((c.osf / 2 + 1 : ℕ) : ℝ) - (2 * S + s.hor.cnt) * ((c.osf : ℝ) / 2)| ≤ S * ((c.osf : ℝ) / 4)

theorem correctionDec_borne {C : Type} (c : ConfigDec C) (e : ℝ) : -((c.osf : ℝ) / 4) ≤ correctionDec c e ∧ correctionDec c e ≤ (c.osf : ℝ) / 4 := by
  unfold correctionDec
  have : (0 : ℝ) ≤ c.osf := Nat.cast_nonneg _
  constructor
  · exact le_trans (by linarith) (le_max_left _ _)
  · exact max_le (by linarith) (min_le_right _ _)

theorem maj_borne {C : Type} (c : ConfigDec C) (h : RecHorloge) (a b : ℂ) : ∃ d : ℝ, |d| ≤ (c.osf : ℝ) / 4 ∧ h.maj c a b = { h with phase := h.phase - d } := by
  unfold RecHorloge.maj
  split
  · exact ⟨0, by rw [abs_zero]; positivity, by rw [sub_zero]⟩
  · exact ⟨_, abs_le.2 (correctionDec_borne c _), rfl⟩

/-- One sample. -/
theorem cadence_pas (symbs : List (ℝ × ℝ)) (d : ℝ × ℝ → Option ℕ) (c : ConfigDec Unit) (hctx : c.ctx = ctxSansMemoire symbs d) (hd : ∀ p, ∃ i, d p = some i ∧ i < symbs.length) (hosf : 4 ≤ c.osf) (hK : 0 < c.K)
    (hi : ∀ w τ, w.length = c.K → 0 ≤ τ → τ ≤ 1 → (c.itrp w τ).isSome) (hh : c.horloge = true) (hg : c.cag = false) (N S : ℕ) (s : EtatDec Unit) (hs : Cadence c N S s) (x : ℂ) :
    ∃ s' o, EtatDec.pas c s x = some (s', o) ∧ Cadence c (N + 1) (S + if o.isSome then 1 else 0) s' := by
  obtain ⟨y, hy⟩ := tourne_some c s.boucle.θ x
  obtain ⟨a1, a2, a3, a4, a5⟩ := hs
  have hR : (4 : ℝ) ≤ c.osf := by exact_mod_cast hosf
  unfold EtatDec.pas
  rw [hy, Option.bind_some]
  simp only [hg, Bool.false_eq_true, if_false]
  unfold EtatDec.echantillonne RecHorloge.interpole
  rw [if_pos hh, if_neg hK.ne']
  have hfl : (s.hor.fen.tail ++ [y]).length = c.K := by simp; omega
  by_cases h1 : 1 < s.hor.phase - 1
  · simp only [h1, if_true, Option.map_some, Option.bind_some]
    refine ⟨_, none, rfl, hfl, a2, h1.le, by show s.hor.phase - 1 ≤ _; linarith, ?_⟩
    simp only [Option.isSome_none, Bool.false_eq_true, if_false, Nat.add_zero]
    convert a5 using 2
    push_cast
    ring
  · have h2 : ¬ s.hor.phase - 1 < 0 := by linarith
    push Not at h1
    obtain ⟨yi, hyi⟩ := Option.isSome_iff_exists.1 (hi _ _ hfl (by linarith : 0 ≤ s.hor.phase - 1) h1)
    simp only [not_lt.2 h1, h2, if_false, hyi, Option.map_some, Option.bind_some]
    by_cases h3 : s.hor.cnt = 1
    · simp only [h3, if_true]
      obtain ⟨i, hdi, hil⟩ := hd (yi.re, yi.im)
      have hdec := decide_sans_memoire symbs d c hctx { s with cnt := s.cnt + 1, hor := ⟨s.hor.fen.tail ++ [y], s.hor.phase - 1 + (c.osf : ℝ) / 2, 0, s.hor.lyi⟩ } yi i hil hdi s.gain (by simp [ConfigDec.majGain, hg])
      refine ⟨_, some (i : ℤ), hdec, ?_⟩
      simp only [Option.isSome_some, if_true]
      rw [h3] at a5
      have key : ∀ e : ℝ, |e| ≤ (c.osf : ℝ) / 4 → 1 ≤ s.hor.phase - 1 + (c.osf : ℝ) / 2 - e ∧ s.hor.phase - 1 + (c.osf : ℝ) / 2 - e ≤ 3 / 4 * c.osf + 1 ∧
          |((N + 1 : ℕ) : ℝ) + (s.hor.phase - 1 + (c.osf : ℝ) / 2 - e) - ((c.osf / 2 + 1 : ℕ) : ℝ) - (2 * ((S + 1 : ℕ) : ℝ) + ((0 : ℕ) : ℝ)) * ((c.osf : ℝ) / 2)| ≤ ((S + 1 : ℕ) : ℝ) * ((c.osf : ℝ) / 4) := by
        intro e he
        obtain ⟨e1, e2⟩ := abs_le.1 he
        refine ⟨by linarith, by linarith, ?_⟩
        obtain ⟨b1, b2⟩ := abs_le.1 a5
        push_cast at b1 b2 ⊢
        rw [abs_le]
        constructor <;> linarith
      by_cases h4 : 2 ≤ s.cnt + 1
      · rw [if_pos (show c.horloge = true ∧ 2 ≤ s.cnt + 1 from ⟨hh, h4⟩)]
        obtain ⟨e, he, hm⟩ := maj_borne c ⟨s.hor.fen.tail ++ [y], s.hor.phase - 1 + (c.osf : ℝ) / 2, 0, s.hor.lyi⟩ s.lye (cplx symbs[i])
        rw [hm]
        obtain ⟨k1, k2, k3⟩ := key e he
        exact ⟨hfl, by show 0 ≤ 1; omega, k1, k2, k3⟩
      · rw [if_neg (show ¬ (c.horloge = true ∧ 2 ≤ s.cnt + 1) from fun h => h4 h.2)]
        obtain ⟨k1, k2, k3⟩ := key 0 (by rw [abs_zero]; positivity)
        rw [sub_zero] at k1 k2 k3
        exact ⟨hfl, by show 0 ≤ 1; omega, k1, k2, k3⟩
    · simp only [h3, if_false]
      have h0 : s.hor.cnt = 0 := by omega
      refine ⟨_, none, rfl, hfl, by show s.hor.cnt + 1 ≤ 1; omega, by show 1 ≤ s.hor.phase - 1 + (c.osf : ℝ) / 2; linarith, by show s.hor.phase - 1 + (c.osf : ℝ) / 2 ≤ _; linarith, ?_⟩
      simp only [Option.isSome_none, Bool.false_eq_true, if_false, Nat.add_zero]
      convert a5 using 2
      push_cast
      ring

theorem cadence_boucle (symbs : List (ℝ × ℝ)) (d : ℝ × ℝ → Option ℕ) (c : ConfigDec Unit) (hctx : c.ctx = ctxSansMemoire symbs d) (hd : ∀ p, ∃ i, d p = some i ∧ i < symbs.length) (hosf : 4 ≤ c.osf) (hK : 0 < c.K)
    (hi : ∀ w τ, w.length = c.K → 0 ≤ τ → τ ≤ 1 → (c.itrp w τ).isSome) (hh : c.horloge = true) (hg : c.cag = false) (x : List ℂ) (N S : ℕ) (s : EtatDec Unit) (hs : Cadence c N S s) :
    ∃ s' l, boucle (EtatDec.pas c) s x = some (s', l) ∧ Cadence c (N + x.length) (S + l.reduceOption.length) s' := by
  induction x generalizing N S s with
  | nil => exact ⟨s, [], rfl, hs⟩
  | cons a x ih =>
    obtain ⟨s1, o, e1, r1⟩ := cadence_pas symbs d c hctx hd hosf hK hi hh hg N S s hs a
    obtain ⟨s2, l, e2, r2⟩ := ih _ _ s1 r1
    refine ⟨s2, o :: l, by simp only [boucle, e1, e2], ?_⟩
    cases o with
    | none => rw [List.reduceOption_cons_of_none, List.length_cons]; simpa [Nat.add_assoc, Nat.add_comm, Nat.add_left_comm] using r2
    | some v => rw [List.reduceOption_cons_of_some, List.length_cons, List.length_cons]; simpa [Nat.add_assoc, Nat.add_comm, Nat.add_left_comm] using r2

/-- **C143 (rate).** With the clock recovery (`osf ≥ 4`, AGC off), whatever the signal (noise, any offset) and the cutting, the demodulator never fails, and after `N` samples the number `S` of symbols it has decided is such that `N` is within
`S osf / 4 + osf` of `S osf`: at most a quarter of a symbol period is gained or lost per symbol. -/
theorem C143_cadence (symbs : List (ℝ × ℝ)) (d : ℝ × ℝ → Option ℕ) (c : ConfigDec Unit) (hctx : c.ctx = ctxSansMemoire symbs d) (hd : ∀ p, ∃ i, d p = some i ∧ i < symbs.length) (hosf : 4 ≤ c.osf) (hf : (c.forme.coefs c.osf).isSome)
    (hK : 0 < c.K) (hi : ∀ w τ, w.length = c.K → 0 ≤ τ → τ ≤ 1 → (c.itrp w τ).isSome) (hh : c.horloge = true) (hg : c.cag = false) (blocs : List (List ℂ)) :
    ∃ s0 s l, DemodDec.cree c = some s0 ∧ enchaine (DemodDec.step c) s0 blocs = some (s, symdemap l c.k) ∧ |(blocs.flatten.length : ℝ) - l.length * c.osf| ≤ l.length * ((c.osf : ℝ) / 4) + c.osf := by
  obtain ⟨h, hf⟩ := Option.isSome_iff_exists.1 hf
  obtain ⟨s0, a, e0, e1⟩ := demod_flux c (by omega) h hf blocs
  have hR : (4 : ℝ) ≤ c.osf := by exact_mod_cast hosf
  have hp0 : ((c.osf / 2 + 1 : ℕ) : ℝ) ≤ c.osf / 2 + 1 ∧ (c.osf : ℝ) / 2 ≤ ((c.osf / 2 + 1 : ℕ) : ℝ) := by
    have h1 : 2 * (c.osf / 2) ≤ c.osf := Nat.mul_div_le _ _
    have h2 : c.osf ≤ 2 * (c.osf / 2) + 1 := by omega
    have h1' : (2 : ℝ) * ((c.osf / 2 : ℕ) : ℝ) ≤ c.osf := by exact_mod_cast h1
    have h2' : (c.osf : ℝ) ≤ 2 * ((c.osf / 2 : ℕ) : ℝ) + 1 := by exact_mod_cast h2
    push_cast
    constructor <;> linarith
  have hlr : (recu c h blocs.flatten).length = blocs.flatten.length := by
    unfold recu
    have : (if c.fi = 0 then blocs.flatten else transpose c.fi blocs.flatten).length = blocs.flatten.length := by
      split
      · rfl
      · exact transpose_long _ _
    dsimp only
    split
    · rw [List.length_map, List.length_range, this]
    · exact this
  obtain ⟨s', l, k1, k2⟩ := cadence_boucle symbs d c hctx hd hosf hK hi hh hg (recu c h blocs.flatten) 0 0 (etatInitial c) ⟨by simp [etatInitial], by simp [etatInitial], by
      show (1 : ℝ) ≤ ((c.osf / 2 + 1 : ℕ) : ℝ)
      push_cast
      linarith [Nat.cast_nonneg (α := ℝ) (c.osf / 2)], by
      show ((c.osf / 2 + 1 : ℕ) : ℝ) ≤ _
      linarith [hp0.1], by simp [etatInitial]⟩
  rw [k1, Option.map_some] at e1
  refine ⟨s0, ⟨a, s'⟩, _, e0, e1, ?_⟩
  obtain ⟨-, b2, b3, b4, b5⟩ := k2
  rw [Nat.zero_add, Nat.zero_add, hlr] at b5
  rw [List.length_map]
  generalize (l.reduceOption.length : ℝ) = S at *
  generalize (blocs.flatten.length : ℝ) = N at *
  have hc : (s'.hor.cnt : ℝ) = 0 ∨ (s'.hor.cnt : ℝ) = 1 := by
    rcases (by omega : s'.hor.cnt = 0 ∨ s'.hor.cnt = 1) with h | h <;> simp [h]
  obtain ⟨q1, q2⟩ := abs_le.1 b5
  rw [abs_le]
  rcases hc with h | h <;> rw [h] at q1 q2 <;> constructor <;> linarith [hp0.1, hp0.2]

end Verif.Telecom
