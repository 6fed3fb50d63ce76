import Verif.Telecom.DemodDecCag

/-!
# C140–C142: what the decision-directed demodulator does not do, and non-vacuity
-/

namespace Verif.Telecom

open Filtre (Decoupable enchaine boucle)
open Complex (exp I)

/-- **C140 (refutation: no shaping).** BPSK without shaping (`NONE`) and `osf ≥ 2`: the modulator puts the symbol in the last sample of its period, the demodulator (without clock recovery) decides on the first: whatever the bits, it gives zeros. -/
theorem C140_aucun_refute (c : ConfigDec Unit) (hctx : c.ctx = ctxSansMemoire (pskConstellation 2) (pskPlusProche 2)) (hk : c.k = 1) (hosf : 2 ≤ c.osf) (hfi : c.fi = 0) (hh : c.horloge = false) (hp : c.porteuse = false)
    (hg : c.cag = false) (hf : c.forme = .aucun) (bits : List (List Bool)) :
    ∃ m0 m y s0 s, Modulateur.cree .aucun c.osf = some m0 ∧ enchaine (Modulateur.stepBits (pskConstellation 2) 1 none) m0 bits = some (m, y) ∧ DemodDec.cree c = some s0 ∧
      enchaine (DemodDec.step c) s0 [y] = some (s, List.replicate bits.flatten.length false) := by
  have hl : (pskConstellation 2).length = 2 := psk_longueur 2
  obtain ⟨sy, m0, m, e1, e2, e3⟩ := C97_aucun (pskConstellation 2) 1 one_pos (by rw [hl]; norm_num) c.osf (by omega) bits (fun b _ => Nat.mod_one _)
  obtain ⟨idx, f1, f2, f3⟩ := bits_indices (pskConstellation 2) 1 one_pos (by rw [hl]; norm_num) bits.flatten
  have hn : sy.length = bits.flatten.length := by
    obtain ⟨y, k1, k2, -⟩ := C94_bruit 2 le_rfl bits.flatten
    rw [show nbBits 2 = 1 by decide] at k1 k2
    rw [show ((1 : ℕ) : ℤ) = 1 from rfl] at e1 k1
    rw [e1] at k1
    rw [Option.some.inj k1, k2]
    simp
  obtain ⟨g1, g2⟩ := flatMap_getElem c.osf (fun p : ℝ × ℝ => List.replicate (c.osf - 1) 0 ++ [(Real.sqrt c.osf : ℂ) * cplx p]) (fun a => by simp; omega) sy
  have hcf : (c.forme.coefs c.osf).isSome := by
    rw [hf]
    unfold MiseEnForme.coefs
    rw [if_neg (by omega)]
    split <;> rfl
  obtain ⟨s0, s, k1, k2, -⟩ := demod_symboles c hh (by omega) hcf (fun _ _ => True) (fun _ => 0) (fun _ => 0) sy.length (by
      intro m hm s _
      have hi : 0 < (pskConstellation 2).length := by omega
      refine ⟨0, { s with cnt := s.cnt + 1, cnt1 := 0, lye := cplx (pskConstellation 2)[0] }, by simp [ConfigDec.tourne, hp], ?_, trivial⟩
      have := decide_sans_memoire _ _ c hctx { s with cnt := s.cnt + 1, cnt1 := 0 } 0 0 hi (by simp [pskPlusProche, bpskDecision]) s.gain (by simp [ConfigDec.majGain, hg])
      simp only [hg, Bool.false_eq_true, if_false]
      rw [this]
      simp only [hh, hp, Bool.false_eq_true, false_and, and_false, if_false]) trivial [sy.flatMap fun p => List.replicate (c.osf - 1) 0 ++ [(Real.sqrt c.osf : ℂ) * cplx p]] (by simpa using g1) (fun m hm => by
      rw [mul_zero, List.flatten_singleton, List.getD_eq_getElem?_getD, show m * c.osf = m * c.osf + 0 from rfl, g2 m 0 hm (by omega), List.getElem?_append_left (by simp; omega), List.getElem?_replicate, if_pos (by omega)]
      rfl)
  refine ⟨m0, m, _, s0, s, e2, e3, k1, ?_⟩
  rw [k2, hn, hk]
  congr 2
  generalize bits.flatten.length = n
  induction n with
  | zero => rfl
  | succ n ih =>
    rw [List.range_succ, List.map_append, List.map_singleton, List.replicate_succ', ← ih]
    unfold symdemap
    simp

/-- **C141 (refutation: null symbols).** With the AGC, a null sample at a symbol instant (for instance the null symbol of OOK, received without noise) makes the gain `±∞` or not a number: the demodulator fails. -/
theorem C141_nul_refute (symbs : List (ℝ × ℝ)) (dec : ℝ × ℝ → Option ℕ) (c : ConfigDec Unit) (hctx : c.ctx = ctxSansMemoire symbs dec) (hosf : 0 < c.osf) (hfi : c.fi = 0) (hf : (c.forme.coefs c.osf).isSome) (hh : c.horloge = false)
    (hg : c.cag = true) (x : List ℂ) : ∃ s0, DemodDec.cree c = some s0 ∧ DemodDec.step c s0 (0 :: x) = none := by
  obtain ⟨h, hf⟩ := Option.isSome_iff_exists.1 hf
  obtain ⟨s0, a, e0, e1⟩ := demod_flux c hosf h hf [0 :: x]
  refine ⟨s0, e0, ?_⟩
  have hr : recu c h (0 :: x) = 0 :: x := by simp [recu, hh, hfi]
  have hp : EtatDec.pas c (etatInitial c) 0 = none := by
    unfold EtatDec.pas
    rw [show (etatInitial c).boucle.θ = 0 from rfl, tourne_zero, Option.bind_some]
    simp only [EtatDec.echantillonne, hh, Bool.false_eq_true, if_false]
    rw [if_neg hosf.ne']
    have : ((etatInitial c).cnt1 + 1) % c.osf = 0 := by
      show (c.osf - 1 + 1) % c.osf = 0
      rw [Nat.sub_add_cancel hosf, Nat.mod_self]
    rw [if_pos this, Option.bind_some]
    simp only [hg, if_true, zero_mul, EtatDec.decide, hctx, ctxSansMemoire]
    cases h1 : dec ((0 : ℂ).re, (0 : ℂ).im) with
    | none => rfl
    | some i =>
      rw [Option.bind_some]
      cases h2 : symbs[i]? with
      | none => rfl
      | some p =>
        rw [Option.map_some, Option.bind_some, if_neg (by simp)]
        simp [ConfigDec.majGain, hg]
  rw [List.flatten_singleton, hr] at e1
  have hb : boucle (EtatDec.pas c) (etatInitial c) (0 :: x) = none := by simp only [boucle, hp]
  rw [hb] at e1
  have hd := demod_decoupable c
  have hs := cree_sain c s0 e0
  have := Filtre.enchaine_eq _ _ hd [0 :: x] s0 hs
  rw [e1, List.flatten_singleton] at this
  exact this.symm

/-- **C142 (refutation: normalisation).** With the AGC, a signal received four times too strong ends up twice too strong: for every setting of the AGC there is a number of symbols from which the level stays above 3/2. -/
theorem C142_niveau_refute (M : ℕ) (hM : 2 ≤ M) (c : ConfigDec Unit) (hctx : c.ctx = ctxSansMemoire (pskConstellation M) (pskPlusProche M)) (hosf : 0 < c.osf) (hf : (c.forme.coefs c.osf).isSome)
    (hh : c.horloge = false) (hp : c.porteuse = false) (hg : c.cag = true) (htc : 0 < c.tcCag) :
    ∃ n0, ∀ n ≥ n0, ∀ i : ℕ → ℕ, (∀ m, i m < M) → ∀ blocs : List (List ℂ), blocs.flatten.length = n * c.osf →
        (∀ m, m < n → blocs.flatten.getD (m * c.osf) 0 = exp ((2 * Real.pi * ((m * c.osf : ℕ) * c.fi) : ℝ) * I) * (4 * cplx ((pskConstellation M).getD (i m) (0, 0)))) →
        ∃ s0 s y, DemodDec.cree c = some s0 ∧ enchaine (DemodDec.step c) s0 blocs = some (s, y) ∧ 3 / 2 < 4 * s.etat.gain := by
  have hMpos : (0 : ℝ) < M := by exact_mod_cast (by omega : 0 < M)
  obtain ⟨niv, h1, -, h3⟩ := C142_cag M hM c hctx hosf hf hh hp hg htc 4 0 (by norm_num) (by norm_num) (by rw [abs_zero]; have := Real.pi_pos; positivity)
  have h4 : Real.sqrt 4 = 2 := by rw [show (4 : ℝ) = 2 ^ 2 by norm_num]; exact Real.sqrt_sq (by norm_num)
  rw [h4] at h1
  obtain ⟨n0, hn0⟩ := Filter.eventually_atTop.1 (h1.eventually (lt_mem_nhds (show (3 / 2 : ℝ) < 2 by norm_num)))
  refine ⟨n0, fun n hn i hi blocs hl hv => ?_⟩
  obtain ⟨s0, s, k1, k2, k3⟩ := h3 n i hi blocs hl (fun m hm => by rw [hv m hm]; simp)
  exact ⟨s0, s, _, k1, k2, by rw [k3]; exact hn0 n hn⟩

/-- A demodulator of 8-PSK at an intermediate frequency, `osf = 4`, carrier recovery and AGC on. -/
noncomputable def exempleDec (p g : Bool) : ConfigDec Unit :=
  ⟨4, 1 / 10, .nrz, false, 5, 2, itrpRif 2 fun τ => some (Itrp.coefsLin τ), p, 1 / 100, 1, g, 10, true, 3, (), ctxSansMemoire (pskConstellation 8) (pskPlusProche 8)⟩

/-- Non-vacuity of `C140_aller_retour`. -/
example : ∀ bits : List (List Bool), (∀ b ∈ bits, b.length % 3 = 0) → ∃ m0 m y s0, Modulateur.cree .nrz 4 = some m0 ∧ enchaine (Modulateur.stepBits (pskConstellation 8) 3 none) m0 bits = some (m, y) ∧ DemodDec.cree (exempleDec false false) = some s0 ∧
      ∀ blocs : List (List ℂ), blocs.flatten.length = y.length →
        (∀ t, 4 ∣ t → t < y.length → 4 * ‖blocs.flatten.getD t 0 - exp ((2 * Real.pi * (t * (1 / 10)) : ℝ) * I) * y.getD t 0‖ ^ 2 < (2 * Real.sin (Real.pi / (8 : ℕ))) ^ 2) →
        ∃ s, enchaine (DemodDec.step (exempleDec false false)) s0 blocs = some (s, bits.flatten) :=
  fun bits hb => C140_aller_retour (pskConstellation 8) 3 (by norm_num) (by rw [psk_longueur]; norm_num) (pskPlusProche 8) _ (psk_decision 8 (by norm_num)) (exempleDec false false) rfl rfl (show 0 < 4 by norm_num) rfl rfl rfl rfl bits hb

/-- Non-vacuity of `C141_repos`. -/
example : ∀ bits : List (List Bool), (∀ b ∈ bits, b.length % 3 = 0) → ∃ m0 m y s0, Modulateur.cree .nrz 4 = some m0 ∧ enchaine (Modulateur.stepBits (pskConstellation 8) 3 none) m0 bits = some (m, y) ∧ DemodDec.cree (exempleDec true true) = some s0 ∧
      ∀ blocs : List (List ℂ), blocs.flatten.length = y.length → (∀ t, t < y.length → blocs.flatten.getD t 0 = exp ((2 * Real.pi * (t * (1 / 10)) : ℝ) * I) * y.getD t 0) →
        ∃ s, enchaine (DemodDec.step (exempleDec true true)) s0 blocs = some (s, bits.flatten) ∧ s.etat.boucle.θ = 0 ∧ s.etat.gain = 1 :=
  fun bits hb => C141_repos (pskConstellation 8) 3 (by norm_num) (by rw [psk_longueur]; norm_num) (pskPlusProche 8) (fun i h => psk_decision 8 (by norm_num) i h _ (by
      have : 0 < Real.sin (Real.pi / (8 : ℕ)) := Real.sin_pos_of_pos_of_lt_pi (by have := Real.pi_pos; positivity) (by have := Real.pi_pos; push_cast; linarith)
      simp only [dist2, sub_self, mul_zero, add_zero]
      positivity)) (exempleDec true true) rfl rfl (show 0 < 4 by norm_num) rfl (fun _ p hp h => by
      obtain ⟨_, hn, _⟩ := C94_constellation 8 (by norm_num)
      have h1 := hn p hp
      have e1 : p.1 = 0 := congrArg Complex.re h
      have e2 : p.2 = 0 := congrArg Complex.im h
      simp [dist2, e1, e2] at h1) rfl bits hb

/-- Non-vacuity of `C142_cag` (level 9, phase π/20). -/
example : ∃ niveau : ℕ → ℝ, Filter.Tendsto niveau Filter.atTop (nhds (Real.sqrt 9)) := by
  obtain ⟨n, h, -⟩ := C142_cag 8 (by norm_num) (exempleDec false true) rfl (show 0 < 4 by norm_num) (by simp [exempleDec, MiseEnForme.coefs]) rfl rfl rfl (show (0 : ℝ) < 10 by norm_num) 9 (Real.pi / 20) (by norm_num) (by norm_num) (by
    have := Real.pi_pos
    rw [abs_of_pos (by positivity)]
    push_cast
    linarith)
  exact ⟨n, h⟩

end Verif.Telecom
