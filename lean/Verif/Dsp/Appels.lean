import Verif.Signaux.Props
import Verif.Telecom.FormesProps
import Verif.Telecom.Rpll
import Verif.Conception.Ordre1Props
import Verif.Telecom.Pi4Props
import Verif.Telecom.EmetteurProps

/-!
# C202: the functions of the English API give what the French ones give for the same arguments
-/

namespace Verif.Dsp

open Telecom (askConstellation ConfigPll pllStep pllPas Boucle MiseEnForme Emetteur)

/-! ## Model -/

/-- `dsp::sigimp(n, p)`, core/include/dsp/dsp.hpp:974-977: `return tsd::sigimp(p, n)`. -/
def sigimpEn (n p : ℕ) : Option (List ℚ) := Signaux.sigimp p n

/-- Constellation of `dsp::telecom::waveform_ask(M, K1, K2)`, core/include/dsp/telecom.hpp:387-390: `forme_onde_ask(M, M, M, ...)`. -/
noncomputable def askEn (M : ℕ) (_K1 _K2 : ℝ) : Option (List (ℝ × ℝ)) := askConstellation M M M

/-- `dsp::telecom::PLLConfig::fr()`, core/include/dsp/telecom.hpp:1859-1872: `res.loop_filter_order = 2`. -/
def pllEn (c : ConfigPll) : ConfigPll := { c with ordre := 2 }

/-- `dsp::telecom::RPLLConfig::fr()`, core/include/dsp/telecom.hpp:1929-1940: `filtre_bb_actif` is not copied and keeps its default value. -/
def rpllEn (c : Telecom.Rpll.Config) : Telecom.Rpll.Config := ⟨pllEn c.pll, c.freq, false⟩

/-- `dsp::telecom::TrameFormat::fr()`, core/include/dsp/telecom.hpp:1374-1382, for the optional waveform of the header: `fo_entete->fr` dereferences the pointer even when it is null (`none`). -/
def foEnteteEn (fo : Option (List (ℝ × ℝ) × ℕ)) : Option (Option (List (ℝ × ℝ) × ℕ)) := fo.map some

/-- `packet_emitter_new`, core/include/dsp/telecom.hpp:1632-1635. -/
noncomputable def emetteurEn (symbs : List (ℝ × ℝ)) (k : ℕ) (entete : List Bool) (fo : Option (List (ℝ × ℝ) × ℕ)) (t : MiseEnForme) (osf : ℕ) : Option Emetteur :=
  (foEnteteEn fo).bind fun fo' : Option (List (ℝ × ℝ) × ℕ) => Emetteur.cree symbs k entete fo' t osf

/-- `tsd::geo::Quaternion(q_)`, core/src/geometrie.cc:97-100; a null quaternion divides by zero. -/
noncomputable def quatFr (q : Fin 4 → ℝ) : Option (Fin 4 → ℝ) := if ∑ i, q i ^ 2 = 0 then none else some fun i => q i / Real.sqrt (∑ i, q i ^ 2)

/-- `dsp::geo::Quaternion(q_)`, core/include/dsp/geometry.hpp:55-58: `*this = nfr::Quaternion(q)`, where `q` is the member, not yet initialised (`indet`), instead of the argument `q_`. -/
noncomputable def quatEn (indet _q : Fin 4 → ℝ) : Option (Fin 4 → ℝ) := quatFr indet

/-- The converting constructor of `dsp::TabT` (for example from real to complex), core/include/dsp/tab.hpp:226-232: `fr = TabT<T,ndims>(t)` calls the same constructor with the same argument. With `n` the depth of the stack. -/
def convertitEn {α β : Type} : ℕ → List α → Option (List β)
  | 0, _ => none
  | n + 1, t => convertitEn n t

/-! ## Theorems -/

/-- **C202, violated by `sigimp`**: every call that is valid according to the documentation (impulse position `p` among the `n` samples), in particular every call with the default position, throws. -/
theorem C202_sigimp_refute (n p : ℕ) (h : p < n) : sigimpEn n p = none ∧ ∃ x, Signaux.sigimp n p = some x ∧ x.length = n ∧ x[p]? = some 1 := by
  constructor
  · unfold sigimpEn Signaux.sigimp
    rw [if_neg (by omega)]
  · unfold Signaux.sigimp
    rw [if_pos (by omega)]
    exact ⟨_, rfl, by simp, by simp [h]⟩

/-- **C202 (exact behaviour of `sigimp`)**: the two arguments are exchanged. -/
theorem C202_sigimp_exact (n p : ℕ) (h : n < p) : ∃ x, sigimpEn n p = some x ∧ x.length = p ∧ x[n]? = some 1 ∧ ∀ i, i < p → i ≠ n → x[i]? = some 0 := by
  unfold sigimpEn Signaux.sigimp
  rw [if_pos (by omega)]
  refine ⟨_, rfl, by simp, by simp [h], fun i hi hne => ?_⟩
  rw [Int.toNat_natCast, List.getElem?_set_ne (Ne.symm hne), List.getElem?_replicate, if_pos hi]

/-- **C202, violated by `waveform_ask`**: the levels do not depend on `K1` and `K2`. They are those of the French function only for `K1 = K2 = M`. -/
theorem C202_ask_refute (M : ℕ) (hM : 2 ≤ M) (K1 K2 : ℝ) : ∃ l l', askEn M K1 K2 = some l ∧ askConstellation M K1 K2 = some l' ∧ (∀ p ∈ l, (M : ℝ) ≤ p.1) ∧ (l = l' ↔ K1 = M ∧ K2 = M) := by
  obtain ⟨l, e, hl, h⟩ := Telecom.C96_ask M hM M M
  obtain ⟨l', e', hl', h'⟩ := Telecom.C96_ask M hM K1 K2
  have hm : (2 : ℝ) ≤ M := by exact_mod_cast hM
  have hd : (0 : ℝ) < (M : ℝ) - 1 := by linarith
  refine ⟨l, l', e, e', fun p hp => ?_, fun heq => ?_, fun heq => ?_⟩
  · obtain ⟨i, hi, rfl⟩ := List.getElem_of_mem hp
    rw [h.1 i hi]
    have : (0 : ℝ) ≤ (i : ℝ) * ((M : ℝ) / ((M : ℝ) - 1)) := by positivity
    show (M : ℝ) ≤ M + i * (M / ((M : ℝ) - 1))
    linarith
  · subst heq
    have h0 := (h.1 0 (by omega)).symm.trans (h'.1 0 (by omega))
    have h1 := h.2.symm.trans h'.2
    simp only [Prod.mk.injEq, Option.some.injEq, Nat.cast_zero, zero_mul, add_zero, and_true] at h0 h1
    exact ⟨h0.symm, by linarith⟩
  · obtain ⟨rfl, rfl⟩ := heq
    exact Option.some.inj (e.symm.trans e')

/-- **C202, violated by the phase locked loop**: the order of the loop filter and the time constant of the first order filter have no effect. -/
theorem C202_pll_refute (c : ConfigPll) (ordre : ℤ) (tc : ℝ) (s : Boucle) (x : List ℂ) : pllStep (pllEn { c with ordre := ordre, tc := tc }) s x = pllStep (pllEn { c with ordre := 2 }) s x := by
  induction x generalizing s with
  | nil => rfl
  | cons a l ih =>
    have hp : pllPas (pllEn { c with ordre := ordre, tc := tc }) s a = pllPas (pllEn { c with ordre := 2 }) s a := by simp [pllPas, pllEn, ConfigPll.filtre, ConfigPll.detecteur]
    simp only [pllStep, hp, ih]

/-- **C202 (the outputs do differ)**: on a constant input, the first order loop requested starts to turn at the second sample; the loop obtained does not. For every time constant. -/
theorem C202_pll_difference (tc : ℝ) (htc : 0 < tc) (bp : ℝ) : (pllStep (pllEn ⟨none, 1, tc, bp⟩) ⟨0, 0, 0⟩ [Complex.I, Complex.I]).2 = [Complex.I, Complex.I] ∧
    (pllStep ⟨none, 1, tc, bp⟩ ⟨0, 0, 0⟩ [Complex.I, Complex.I]).2 ≠ [Complex.I, Complex.I] := by
  constructor
  · simp [pllStep, pllPas, pllEn, ConfigPll.filtre, ConfigPll.detecteur, Telecom.lf2]
  · intro h
    have hα : 0 < Conception.lexpTcVersCoef tc ∧ Conception.lexpTcVersCoef tc < 1 := by
      rw [Conception.C85_coef.2.2.2.2.1 tc htc.ne']
      have h1 : Real.exp (-1 / tc) < 1 := by rw [Real.exp_lt_one_iff]; exact div_neg_of_neg_of_pos (by norm_num) htc
      have h2 := Real.exp_pos (-1 / tc)
      constructor <;> linarith
    set α := Conception.lexpTcVersCoef tc with hαd
    simp only [pllStep, pllPas, ConfigPll.filtre, ConfigPll.detecteur, Telecom.lf1, if_true, Option.getD_none, neg_zero, Complex.ofReal_zero, zero_mul, Complex.exp_zero, mul_one, Complex.arg_I, zero_add,
      List.cons.injEq, and_true, true_and] at h
    have h' := mul_left_cancel₀ Complex.I_ne_zero (h.trans (mul_one Complex.I).symm)
    have := congrArg Complex.im h'
    rw [Complex.exp_ofReal_mul_I_im, Complex.one_im, Real.sin_neg, neg_eq_zero] at this
    have hp := Real.pi_pos
    rw [← hαd] at this
    have : 0 < Real.sin (α * (Real.pi / 2)) := Real.sin_pos_of_pos_of_lt_pi (by nlinarith [hα.1]) (by nlinarith [hα.2])
    linarith

/-- **C202, violated by the real phase locked loop**: the base band filter cannot be activated: whatever the configuration, the output is the input times a cosine (see C194). -/
theorem C202_rpll_refute {σ : Type} (F : σ → List ℂ → σ × List ℂ) (c : Telecom.Rpll.Config) (f0 : σ) (x : List ℝ) :
    ∃ θ : ℕ → ℝ, θ 0 = 0 ∧ ∀ n, n < x.length → (Telecom.Rpll.step F (rpllEn c) (Telecom.Rpll.init (rpllEn c) f0) x).2[n]? = some (x.getD n 0 * Real.cos (θ n)) :=
  Telecom.Rpll.C194_sans_filtre_refute F (rpllEn c) rfl f0 x

/-- **C202, violated by the packet transmitter**: without a specific waveform for the header (the default) it cannot be created; the French function creates it. -/
theorem C202_entete_refute (symbs : List (ℝ × ℝ)) (k : ℕ) (entete : List Bool) (osf : ℕ) (h : 1 ≤ osf) : emetteurEn symbs k entete none .nrz osf = none ∧ (Emetteur.cree symbs k entete none .nrz osf).isSome := by
  refine ⟨rfl, ?_⟩
  obtain ⟨sy, m0, m, -, e2, -⟩ := Telecom.C97_nrz [(0, 0), (1, 0)] 1 (by norm_num) (by norm_num) osf h [] (by simp)
  have hc : ∃ l, MiseEnForme.nrz.coefs osf = some l := by
    unfold MiseEnForme.coefs
    rw [if_neg (by omega)]
    split_ifs
    · exact ⟨_, rfl⟩
    · exact ⟨_, rfl⟩
  obtain ⟨l, hl⟩ := hc
  simp [Emetteur.cree, e2, hl]

/-- **C202 for the packet transmitter with a waveform for the header**. -/
theorem C202_entete (symbs : List (ℝ × ℝ)) (k : ℕ) (entete : List Bool) (fo : List (ℝ × ℝ) × ℕ) (t : MiseEnForme) (osf : ℕ) : emetteurEn symbs k entete (some fo) t osf = Emetteur.cree symbs k entete (some fo) t osf := rfl

/-- **C202, violated by the construction of a quaternion**: the result does not depend on the argument. So it is not that of the French constructor for at least one of any two quaternions that the latter distinguishes. -/
theorem C202_quaternion_refute (indet q q' : Fin 4 → ℝ) (h : quatFr q ≠ quatFr q') : quatEn indet q ≠ quatFr q ∨ quatEn indet q' ≠ quatFr q' := by
  by_contra hc
  push Not at hc
  exact h (hc.1.symm.trans hc.2)

example : quatFr (fun i => if i = 0 then 1 else 0) ≠ quatFr (fun i => if i = 1 then 1 else 0) := by
  intro h
  simp [quatFr] at h
  have := congrFun h 0
  simp at this

/-- **C202, violated by the conversion of tables** (real to complex, integer to real…): it never returns, whatever the size of the stack. -/
theorem C202_conversion_refute {α β : Type} (n : ℕ) (t : List α) : (convertitEn n t : Option (List β)) = none := by
  induction n with
  | zero => rfl
  | succ n ih => exact ih

example : sigimpEn 10 0 = none := (C202_sigimp_refute 10 0 (by norm_num)).1

end Verif.Dsp
