import Verif.Telecom.DemodDecRythme

/-!
# C143, C144: what the clock recovery of the decision-directed demodulator does not do
-/

namespace Verif.Telecom

open Filtre (Decoupable enchaine boucle)
open Complex (exp I)

theorem recu_longueur {C : Type} (c : ConfigDec C) (h : List ℝ) (x : List ℂ) : (recu c h x).length = x.length := by
  unfold recu
  have : (if c.fi = 0 then x else transpose c.fi x).length = x.length := by
    split
    · rfl
    · exact transpose_long _ _
  dsimp only
  split
  · rw [List.length_map, List.length_range, this]
  · exact this

/-- A failure of the loops is a failure of the demodulator. -/
theorem demod_echec {C : Type} (c : ConfigDec C) (hosf : 0 < c.osf) (h : List ℝ) (hf : c.forme.coefs c.osf = some h) (x : List ℂ) (hb : boucle (EtatDec.pas c) (etatInitial c) (recu c h x) = none) :
    ∃ s0, DemodDec.cree c = some s0 ∧ DemodDec.step c s0 x = none := by
  obtain ⟨s0, a, e0, e1⟩ := demod_flux c hosf h hf [x]
  refine ⟨s0, e0, ?_⟩
  rw [List.flatten_singleton, hb] at e1
  have := Filtre.enchaine_eq _ _ (demod_decoupable c) [x] s0 (cree_sain c s0 e0)
  rw [e1, List.flatten_singleton] at this
  exact this.symm

/-- **C143 (refutation: one sample per symbol).** With the clock recovery (active by default) and `osf = 1`, the demodulator fails on every signal of at least two samples, whatever the waveform, the interpolator and the settings. -/
theorem C143_osf1_refute {C : Type} (c : ConfigDec C) (hosf : c.osf = 1) (hf : (c.forme.coefs c.osf).isSome) (hh : c.horloge = true) : ∃ s0, DemodDec.cree c = some s0 ∧ ∀ x : List ℂ, 2 ≤ x.length → DemodDec.step c s0 x = none := by
  obtain ⟨h, hf⟩ := Option.isSome_iff_exists.1 hf
  obtain ⟨s0, _, e0, -⟩ := cree_forme c (by omega) h hf
  refine ⟨s0, e0, fun x hx => ?_⟩
  have hb : boucle (EtatDec.pas c) (etatInitial c) (recu c h x) = none := by
    have hl := recu_longueur c h x
    obtain ⟨a, l, hr⟩ : ∃ a l, recu c h x = a :: l := List.exists_cons_of_length_pos (by omega)
    obtain ⟨b, l', hr'⟩ : ∃ b l', l = b :: l' := List.exists_cons_of_length_pos (by rw [hr] at hl; simp at hl; omega)
    rw [hr, hr']
    have h1 : ∀ y, RecHorloge.interpole c (etatInitial c).hor y = none ∨ ∃ hor, RecHorloge.interpole c (etatInitial c).hor y = some (hor, none) ∧ hor.phase = 1 / 2 := by
      intro y
      unfold RecHorloge.interpole
      split
      · exact Or.inl rfl
      · have : (etatInitial c).hor.phase = 1 := by show ((c.osf / 2 + 1 : ℕ) : ℝ) = 1; rw [hosf]; norm_num
        have hc : (etatInitial c).hor.cnt = 0 := rfl
        simp only [this, sub_self, not_lt.2 (zero_le_one (α := ℝ)), lt_irrefl, if_false, hc]
        cases c.itrp _ 0 with
        | none => exact Or.inl rfl
        | some yi => exact Or.inr ⟨_, rfl, by simp [hosf]⟩
    have h2 : ∀ (hor : RecHorloge) y, hor.phase = 1 / 2 → RecHorloge.interpole c hor y = none := by
      intro hor y hp
      unfold RecHorloge.interpole
      split
      · rfl
      · rw [hp]
        simp only
        rw [if_neg (by norm_num), if_pos (by norm_num)]
    obtain ⟨y, hy⟩ := tourne_some c (etatInitial c).boucle.θ a
    rcases h1 (if c.cag then y * ((etatInitial c).gain : ℂ) else y) with e | ⟨hor, e, hp⟩
    · have : EtatDec.pas c (etatInitial c) a = none := by
        simp only [EtatDec.pas, hy, Option.bind_some, EtatDec.echantillonne, hh, if_true, e, Option.map_none, Option.bind_none]
      simp only [boucle, this]
    · have hpas : EtatDec.pas c (etatInitial c) a = some ({ etatInitial c with cnt := (etatInitial c).cnt + 1, hor := hor }, none) := by
        simp only [EtatDec.pas, hy, Option.bind_some, EtatDec.echantillonne, hh, if_true, e, Option.map_some]
      obtain ⟨y2, hy2⟩ := tourne_some c (etatInitial c).boucle.θ b
      have : EtatDec.pas c { etatInitial c with cnt := (etatInitial c).cnt + 1, hor := hor } b = none := by
        simp only [EtatDec.pas, hy2, Option.bind_some, EtatDec.echantillonne, hh, if_true, h2 hor _ hp, Option.map_none, Option.bind_none]
      simp only [boucle, hpas, this]
  obtain ⟨s0', e0', e⟩ := demod_echec c (by omega) h hf x hb
  rw [e0] at e0'
  obtain rfl := Option.some.inj e0'
  exact e

/-! ### Two samples per symbol -/

/-- BPSK, two samples per symbol, clock recovery with the linear interpolator, other stages off. -/
noncomputable def demodOsf2 (tc : ℝ) : ConfigDec Unit :=
  ⟨2, 0, .nrz, true, tc, 2, itrpRif 2 fun τ => some (Itrp.coefsLin τ), false, 1 / 100, 1, false, 10, false, 1, (), ctxSansMemoire (pskConstellation 2) (pskPlusProche 2)⟩

/-- A state of this demodulator. -/
noncomputable def etatOsf2 (cnt : ℕ) (lye : ℂ) (a b p : ℝ) (k : ℕ) (lyi : ℂ) : EtatDec Unit := ⟨cnt, 1, ⟨0, 0, 0⟩, lye, 1, ⟨[(a : ℂ), (b : ℂ)], p, k, lyi⟩, ()⟩

theorem itrp_lin_reel (a b τ : ℝ) : itrpRif 2 (fun τ => some (Itrp.coefsLin τ)) [(a : ℂ), (b : ℂ)] τ = some ((a + (b - a) * τ : ℝ) : ℂ) := by
  have h1 := (Itrp.C32_lineaire_affine a (b - a) τ).1
  have h2 := (Itrp.C32_lineaire_affine (0 : ℝ) 0 τ).1
  simp only [add_sub_cancel, add_zero, zero_mul] at h1 h2
  unfold itrpRif
  simp only [Option.bind_some, List.map_cons, List.map_nil, Complex.ofReal_re, Complex.ofReal_im]
  rw [h1, Option.bind_some, h2]
  rfl

theorem osf2_milieu (tc : ℝ) (cnt : ℕ) (lye : ℂ) (a b p : ℝ) (lyi : ℂ) (x : ℝ) (h1 : 1 ≤ p) (h2 : p ≤ 2) : EtatDec.pas (demodOsf2 tc) (etatOsf2 cnt lye a b p 0 lyi) x = some (etatOsf2 (cnt + 1) lye b x p 1 ((b + (x - b) * (p - 1) : ℝ) : ℂ), none) := by
  unfold EtatDec.pas
  simp only [ConfigDec.tourne, demodOsf2, Bool.false_eq_true, if_false, Option.bind_some, EtatDec.echantillonne, if_true, RecHorloge.interpole, etatOsf2]
  rw [if_neg (by norm_num), if_neg (by linarith), if_neg (by linarith)]
  simp only [List.tail_cons, List.singleton_append]
  rw [itrp_lin_reel]
  simp only [Option.map_some, Option.bind_some]
  rw [if_neg (by norm_num)]
  simp only [Nat.cast_ofNat, div_self (two_ne_zero (α := ℝ)), sub_add_cancel, zero_add]

theorem osf2_echec (tc : ℝ) (cnt : ℕ) (lye : ℂ) (a b p : ℝ) (k : ℕ) (lyi : ℂ) (x : ℂ) (h1 : p < 1) : EtatDec.pas (demodOsf2 tc) (etatOsf2 cnt lye a b p k lyi) x = none := by
  unfold EtatDec.pas
  simp only [ConfigDec.tourne, demodOsf2, Bool.false_eq_true, if_false, Option.bind_some, EtatDec.echantillonne, if_true, RecHorloge.interpole, etatOsf2]
  rw [if_neg (by norm_num), if_neg (by linarith), if_pos (by linarith)]
  rfl

/-- The symbol of BPSK decided on a real value. -/
noncomputable def bpskDe (y : ℝ) : ℝ := if 0 < y then 1 else -1

theorem osf2_symbole (tc : ℝ) (cnt : ℕ) (hc : 1 ≤ cnt) (lye : ℝ) (a b p : ℝ) (m : ℝ) (x : ℝ) (h1 : 1 ≤ p) (h2 : p ≤ 2) (y : ℝ) (hy : y = b + (x - b) * (p - 1)) (hne : lye ≠ bpskDe y)
    (hsat : 1 / 2 ≤ (demodOsf2 tc).gainHorloge * ((bpskDe y - lye) * (m - (lye + bpskDe y) / 2) / |bpskDe y - lye|)) :
    ∃ o, EtatDec.pas (demodOsf2 tc) (etatOsf2 cnt lye a b p 1 (m : ℂ)) x = some (etatOsf2 (cnt + 1) (bpskDe y) b x (p - 1 / 2) 0 (m : ℂ), o) := by
  have hl : (pskConstellation 2).length = 2 := psk_longueur 2
  have hi : bpskDecision (y, (0 : ℝ)) < (pskConstellation 2).length := by
    rw [hl]
    unfold bpskDecision
    split <;> omega
  have hsy : cplx (pskConstellation 2)[bpskDecision (y, (0 : ℝ))] = (bpskDe y : ℂ) := by
    rw [psk_elt]
    unfold bpskDecision bpskDe anglePsk
    by_cases h : 0 < y <;> simp [h, cplx] <;> apply Complex.ext <;> simp
  have hpas : EtatDec.pas (demodOsf2 tc) (etatOsf2 cnt lye a b p 1 (m : ℂ)) x = EtatDec.decide (demodOsf2 tc) (etatOsf2 (cnt + 1) lye b x p 0 (m : ℂ)) (y : ℂ) := by
    unfold EtatDec.pas
    simp only [ConfigDec.tourne, demodOsf2, Bool.false_eq_true, if_false, Option.bind_some, EtatDec.echantillonne, if_true, RecHorloge.interpole, etatOsf2]
    rw [if_neg (by norm_num), if_neg (by linarith), if_neg (by linarith)]
    simp only [List.tail_cons, List.singleton_append]
    rw [itrp_lin_reel, ← hy]
    simp only [Option.map_some, Option.bind_some, if_true]
    simp only [Nat.cast_ofNat, div_self (two_ne_zero (α := ℝ)), sub_add_cancel]
  have hd := decide_sans_memoire (pskConstellation 2) (pskPlusProche 2) (demodOsf2 tc) rfl (etatOsf2 (cnt + 1) lye b x p 0 (m : ℂ)) (y : ℂ) _ hi (by
    unfold pskPlusProche
    rw [if_pos rfl, Complex.ofReal_re, Complex.ofReal_im]) 1 rfl
  rw [hsy] at hd
  refine ⟨some ((bpskDecision (y, (0 : ℝ)) : ℕ) : ℤ), ?_⟩
  rw [hpas, hd]
  have hmaj : RecHorloge.maj (demodOsf2 tc) (etatOsf2 (cnt + 1) lye b x p 0 (m : ℂ)).hor (lye : ℂ) (bpskDe y : ℂ) = ⟨[(b : ℂ), (x : ℂ)], p - 1 / 2, 0, (m : ℂ)⟩ := by
    unfold RecHorloge.maj
    rw [if_neg (by exact_mod_cast hne)]
    have he : erreurDec (m : ℂ) (lye : ℂ) (bpskDe y : ℂ) = (bpskDe y - lye) * (m - (lye + bpskDe y) / 2) / |bpskDe y - lye| := by
      unfold erreurDec cdot
      have k1 : ((bpskDe y : ℂ) - (lye : ℂ)) = ((bpskDe y - lye : ℝ) : ℂ) := by push_cast; rfl
      have k2 : ((m : ℂ) - ((lye : ℂ) + (bpskDe y : ℂ)) / 2) = ((m - (lye + bpskDe y) / 2 : ℝ) : ℂ) := by push_cast; rfl
      rw [k1, k2, Complex.norm_real, Real.norm_eq_abs, Complex.ofReal_re, Complex.ofReal_re, Complex.ofReal_im, zero_mul, add_zero]
    have hcor : correctionDec (demodOsf2 tc) (erreurDec (m : ℂ) (lye : ℂ) (bpskDe y : ℂ)) = 1 / 2 := by
      rw [he]
      unfold correctionDec
      have : ((demodOsf2 tc).osf : ℝ) = 2 := by simp [demodOsf2]
      rw [this, min_eq_right (by linarith), max_eq_right (by norm_num)]
      norm_num
    show (⟨[(b : ℂ), (x : ℂ)], p - correctionDec (demodOsf2 tc) (erreurDec (m : ℂ) (lye : ℂ) (bpskDe y : ℂ)), 0, (m : ℂ)⟩ : RecHorloge) = _
    rw [hcor]
  have hcond : (demodOsf2 tc).horloge = true ∧ 2 ≤ (etatOsf2 (cnt + 1) lye b x p 0 (m : ℂ)).cnt := ⟨rfl, by show 2 ≤ cnt + 1; omega⟩
  rw [if_pos hcond, show (etatOsf2 (cnt + 1) lye b x p 0 (m : ℂ)).lye = (lye : ℂ) from rfl, hmaj]
  simp [etatOsf2, demodOsf2]

/-- **C143 (refutation: two samples per symbol).** With `osf = 2` the bound on the correction does not prevent the phase of the clock from becoming negative: for every time constant there is a signal of seven samples on which the demodulator fails. -/
theorem C143_osf2_refute (tc : ℝ) (htc : 0 < tc) : ∃ s0, DemodDec.cree (demodOsf2 tc) = some s0 ∧ ∃ x : List ℂ, x.length = 7 ∧ DemodDec.step (demodOsf2 tc) s0 x = none := by
  have hgain : 0 < (demodOsf2 tc).gainHorloge := by
    unfold ConfigDec.gainHorloge
    have : (demodOsf2 tc).tcHorloge = tc := rfl
    rw [this, Conception.C85_coef.2.2.2.2.1 _ htc.ne']
    have h2 : Real.exp (-1 / tc) < 1 := by
      rw [Real.exp_lt_one_iff]
      exact div_neg_of_neg_of_pos (by norm_num) htc
    have : (0 : ℝ) < ((demodOsf2 tc).osf : ℝ) := by simp [demodOsf2]
    exact mul_pos this (by linarith)
  obtain ⟨B, hB1, hB2⟩ : ∃ B : ℝ, 1 ≤ B ∧ 1 / 2 ≤ (demodOsf2 tc).gainHorloge * B := by
    refine ⟨max 1 (1 / 2 / (demodOsf2 tc).gainHorloge), le_max_left _ _, ?_⟩
    have := le_max_right 1 (1 / 2 / (demodOsf2 tc).gainHorloge)
    rw [div_le_iff₀ hgain] at this
    linarith
  have hcf : (demodOsf2 tc).forme.coefs (demodOsf2 tc).osf = some (List.replicate 2 (1 / ((2 : ℕ) : ℝ))) := by simp [demodOsf2, MiseEnForme.coefs]
  have hr : ∀ x, recu (demodOsf2 tc) (List.replicate 2 (1 / ((2 : ℕ) : ℝ))) x = x := fun x => by simp [recu, demodOsf2]
  have hini : etatInitial (demodOsf2 tc) = etatOsf2 0 ((0 : ℝ) : ℂ) 0 0 2 0 0 := by
    simp only [etatInitial, etatOsf2, demodOsf2]
    norm_num [List.replicate]
  have b1 : bpskDe 1 = 1 := by norm_num [bpskDe]
  have b2 : bpskDe ((-2 * B - 1 + B) / 2) = -1 := by unfold bpskDe; rw [if_neg (by linarith)]
  have p1 := osf2_milieu tc 0 ((0 : ℝ) : ℂ) 0 0 2 0 (B + 1 / 2) (by norm_num) (by norm_num)
  rw [show (0 : ℝ) + (B + 1 / 2 - 0) * (2 - 1) = B + 1 / 2 by ring] at p1
  obtain ⟨o2, p2⟩ := osf2_symbole tc 1 le_rfl 0 0 (B + 1 / 2) 2 (B + 1 / 2) 1 (by norm_num) (by norm_num) 1 (by ring) (by rw [b1]; norm_num) (by
    rw [b1]
    norm_num
    linarith)
  rw [b1] at p2
  have p3 := osf2_milieu tc 2 ((1 : ℝ) : ℂ) (B + 1 / 2) 1 (2 - 1 / 2) ((B + 1 / 2 : ℝ) : ℂ) (-2 * B - 1) (by norm_num) (by norm_num)
  rw [show (1 : ℝ) + (-2 * B - 1 - 1) * (2 - 1 / 2 - 1) = -B by ring] at p3
  obtain ⟨o4, p4⟩ := osf2_symbole tc 3 (by norm_num) 1 1 (-2 * B - 1) (2 - 1 / 2) (-B) B (by norm_num) (by norm_num) ((-2 * B - 1 + B) / 2) (by ring) (by rw [b2]; norm_num) (by
    rw [b2]
    norm_num
    linarith)
  rw [b2] at p4
  have p5 := osf2_milieu tc 4 ((-1 : ℝ) : ℂ) (-2 * B - 1) B (2 - 1 / 2 - 1 / 2) ((-B : ℝ) : ℂ) 1 (by norm_num) (by norm_num)
  rw [show B + (1 - B) * (2 - 1 / 2 - 1 / 2 - 1) = B by ring] at p5
  obtain ⟨o6, p6⟩ := osf2_symbole tc 5 (by norm_num) (-1) B 1 (2 - 1 / 2 - 1 / 2) B 0 (by norm_num) (by norm_num) 1 (by ring) (by rw [b1]; norm_num) (by
    rw [b1]
    norm_num
    linarith)
  rw [b1] at p6
  have p7 := osf2_echec tc 6 ((1 : ℝ) : ℂ) 1 0 (2 - 1 / 2 - 1 / 2 - 1 / 2) 0 (B : ℂ) 0 (by norm_num)
  obtain ⟨s0, e0, e1⟩ := demod_echec (demodOsf2 tc) (by simp [demodOsf2]) _ hcf [((B + 1 / 2 : ℝ) : ℂ), ((1 : ℝ) : ℂ), ((-2 * B - 1 : ℝ) : ℂ), (B : ℂ), ((1 : ℝ) : ℂ), ((0 : ℝ) : ℂ), 0] (by
    rw [hr, hini]
    simp only [boucle, p1, p2, p3, p4, p5, p6, p7])
  exact ⟨s0, e0, _, by simp, e1⟩

/-! ### The default interpolator -/

/-- A demodulator of 4-ASK, two samples per symbol, NRZ pulses, with all its loops and the default interpolator (cubic splines), any settings. -/
noncomputable def demodAsk4 (tc BL η tcCag : ℝ) (p g : Bool) : ConfigDec Unit :=
  ⟨2, 0, .nrz, true, tc, 4, itrpRif 4 Itrp.coefsCspline, p, BL, η, g, tcCag, true, 2, (), ctxSansMemoire [(-1, 0), (-1 / 3, 0), (1 / 3, 0), (1, 0)] (symbolePlusProche [(-1, 0), (-1 / 3, 0), (1 / 3, 0), (1, 0)])⟩

theorem cspline_un (a b u v : ℂ) : itrpRif 4 Itrp.coefsCspline [a, b, u, v] 1 = some u := by
  have h1 := (Itrp.C32_cspline_noeuds a.re b.re u.re v.re).2
  have h2 := (Itrp.C32_cspline_noeuds a.im b.im u.im v.im).2
  unfold itrpRif
  obtain ⟨h, hh⟩ : ∃ h, Itrp.coefsCspline (1 : ℝ) = some h := ⟨_, Itrp.coefsCspline_some 1 zero_le_one le_rfl⟩
  rw [hh] at h1 h2
  rw [hh]
  simp only [Option.bind_some, List.map_cons, List.map_nil] at h1 h2 ⊢
  rw [h1, Option.bind_some, h2]
  rfl

/-- **C144 (refutation: default interpolator).** The cubic-spline interpolator looks one sample back: with two samples per symbol the first symbol of 4-ASK, received without noise, is decided on half its value, and the bits are wrong,
whatever the settings of the loops. -/
theorem C144_cspline_refute (tc BL η tcCag : ℝ) (p g : Bool) : ∃ m0 m s0 s, Modulateur.cree .nrz 2 = some m0 ∧
    enchaine (Modulateur.stepBits [(-1, 0), (-1 / 3, 0), (1 / 3, 0), (1, 0)] 2 none) m0 [[true, true]] = some (m, [1, 1]) ∧
    DemodDec.cree (demodAsk4 tc BL η tcCag p g) = some s0 ∧ DemodDec.step (demodAsk4 tc BL η tcCag p g) s0 [1, 1] = some (s, [false, true]) := by
  set c := demodAsk4 tc BL η tcCag p g with hc
  obtain ⟨sy, m0, m, e1, e2, e3⟩ := C97_nrz [(-1, 0), (-1 / 3, 0), (1 / 3, 0), (1, 0)] 2 (by norm_num) (by norm_num) 2 (by norm_num) [[true, true]] (by simp)
  have hsy : genereSymboles [((-1 : ℝ), (0 : ℝ)), (-1 / 3, 0), (1 / 3, 0), (1, 0)] (2 : ℕ) [true, true] = some [(1, 0)] := by
    simp [genereSymboles, symmap, symbBoucle, List.range_succ]
  rw [show [[true, true]].flatten = [true, true] from rfl, hsy] at e1
  obtain rfl := Option.some.inj e1
  have h11 : List.flatMap (fun p : ℝ × ℝ => List.replicate 2 (cplx p)) [(1, 0)] = [1, 1] := by
    simp [cplx, List.replicate]
    rfl
  rw [h11] at e3
  have hcf : c.forme.coefs c.osf = some (List.replicate 2 (1 / ((2 : ℕ) : ℝ))) := by simp [hc, demodAsk4, MiseEnForme.coefs]
  obtain ⟨s0, a, e0, e4⟩ := demod_flux c (by simp [hc, demodAsk4]) _ hcf [[1, 1]]
  have hr : recu c (List.replicate 2 (1 / ((2 : ℕ) : ℝ))) [1, 1] = [1 / 2, 1] := by
    simp [recu, hc, demodAsk4, List.range_succ, Filtre.convolution, Finset.sum_range_succ, Filtre.passe, List.replicate]
    norm_num
  rw [show [[(1 : ℂ), 1]].flatten = [1, 1] from rfl, hr] at e4
  have q1 : EtatDec.pas c (etatInitial c) (1 / 2) = some ({ etatInitial c with cnt := 1, hor := ⟨[0, 0, 0, 1 / 2], 2, 1, 0⟩ }, none) := by
    unfold EtatDec.pas
    rw [show (etatInitial c).boucle.θ = 0 from rfl, tourne_zero, Option.bind_some, show (etatInitial c).gain = 1 from rfl, Complex.ofReal_one, mul_one, ite_self]
    simp only [EtatDec.echantillonne, RecHorloge.interpole, hc, demodAsk4, if_true, etatInitial]
    norm_num [List.replicate]
    rw [cspline_un]
    rfl
  have hdec : symbolePlusProche [((-1 : ℝ), (0 : ℝ)), (-1 / 3, 0), (1 / 3, 0), (1, 0)] ((1 / 2 : ℂ).re, (1 / 2 : ℂ).im) = some 2 := by
    have h1 : (1 / 2 : ℂ).re = 1 / 2 := by norm_num
    have h2 : (1 / 2 : ℂ).im = 0 := by norm_num
    rw [h1, h2]
    norm_num [symbolePlusProche, plusProcheBoucle, dist2]
  have q2 : ∃ s, EtatDec.pas c { etatInitial c with cnt := 1, hor := ⟨[0, 0, 0, 1 / 2], 2, 1, 0⟩ } 1 = some (s, some 2) := by
    unfold EtatDec.pas
    rw [show ({ etatInitial c with cnt := 1, hor := ⟨[0, 0, 0, 1 / 2], 2, 1, 0⟩ } : EtatDec Unit).boucle.θ = 0 from rfl, tourne_zero, Option.bind_some, show ({ etatInitial c with cnt := 1, hor := ⟨[0, 0, 0, 1 / 2], 2, 1, 0⟩ } : EtatDec Unit).gain = 1 from rfl, Complex.ofReal_one, mul_one, ite_self]
    have hint : RecHorloge.interpole c ⟨[0, 0, 0, 1 / 2], 2, 1, 0⟩ 1 = some (⟨[0, 0, 1 / 2, 1], 1 + ((2 : ℕ) : ℝ) / 2, 0, 0⟩, some (1 / 2)) := by
      simp only [RecHorloge.interpole, hc, demodAsk4, List.tail_cons]
      rw [if_neg (by norm_num), show (2 : ℝ) - 1 = 1 by norm_num, if_neg (by norm_num), if_neg (by norm_num)]
      simp only [List.cons_append, List.nil_append]
      rw [cspline_un]
      rfl
    simp only [EtatDec.echantillonne]
    rw [if_pos (show c.horloge = true from rfl), hint]
    simp only [Option.map_some, Option.bind_some]
    have hg : ∃ gg, c.majGain 1 (1 / 2) (cplx (1 / 3, 0)) = some gg := by
      unfold ConfigDec.majGain
      split
      · rw [if_neg]
        · exact ⟨_, rfl⟩
        · rintro (h | h)
          · norm_num at h
          · have := congrArg Complex.re h
            norm_num [cplx] at this
      · exact ⟨_, rfl⟩
    obtain ⟨gg, hg⟩ := hg
    exact ⟨_, decide_sans_memoire _ _ c rfl { etatInitial c with cnt := 1 + 1, hor := ⟨[0, 0, 1 / 2, 1], 1 + ((2 : ℕ) : ℝ) / 2, 0, 0⟩ } (1 / 2) 2 (by simp) hdec gg hg⟩
  obtain ⟨s, q2⟩ := q2
  have hb : boucle (EtatDec.pas c) (etatInitial c) [1 / 2, 1] = some (s, [none, some 2]) := by simp only [boucle, q1, q2]
  rw [hb, Option.map_some] at e4
  have := Filtre.enchaine_eq _ _ (demod_decoupable c) [[1, 1]] s0 (cree_sain c s0 e0)
  rw [e4, show [[(1 : ℂ), 1]].flatten = [1, 1] from rfl] at this
  refine ⟨m0, m, s0, ⟨a, s⟩, e2, e3, e0, ?_⟩
  rw [← this]
  congr 2

/-! ### Non-vacuity -/

/-- A demodulator of 8-PSK with all its loops and the linear interpolator. -/
noncomputable def exempleDecHorloge (g : Bool) : ConfigDec Unit :=
  ⟨4, 1 / 10, .nrz, true, 100, 2, itrpRif 2 fun τ => some (Itrp.coefsLin τ), true, 1 / 100, 1, g, 10, true, 3, (), ctxSansMemoire (pskConstellation 8) (pskPlusProche 8)⟩

/-- Non-vacuity of `C144_aller_retour`. -/
example : ∀ bits : List (List Bool), (∀ b ∈ bits, b.length % 3 = 0) → ∃ m0 m y s0, Modulateur.cree .nrz 4 = some m0 ∧ enchaine (Modulateur.stepBits (pskConstellation 8) 3 none) m0 bits = some (m, y) ∧ DemodDec.cree (exempleDecHorloge true) = some s0 ∧
      ∀ blocs : List (List ℂ), blocs.flatten.length = y.length → (∀ t, t < y.length → blocs.flatten.getD t 0 = exp ((2 * Real.pi * (t * (1 / 10)) : ℝ) * I) * y.getD t 0) →
        ∃ s, enchaine (DemodDec.step (exempleDecHorloge true)) s0 blocs = some (s, bits.flatten) :=
  fun bits hb => C144_aller_retour (pskConstellation 8) 3 (by norm_num) (by rw [psk_longueur]; norm_num) (pskPlusProche 8) (fun i h => psk_decision 8 (by norm_num) i h _ (by
      have : 0 < Real.sin (Real.pi / (8 : ℕ)) := Real.sin_pos_of_pos_of_lt_pi (by have := Real.pi_pos; positivity) (by have := Real.pi_pos; push_cast; linarith)
      simp only [dist2, sub_self, mul_zero, add_zero]
      positivity)) (exempleDecHorloge true) rfl rfl (show 0 < 4 by norm_num) (show 4 % 2 = 0 by norm_num) rfl (show 0 < 2 by norm_num) (lineaire_dernier _ rfl rfl) rfl (fun _ p hp h => by
      obtain ⟨_, hn, _⟩ := C94_constellation 8 (by norm_num)
      have h1 := hn p hp
      have e1 : p.1 = 0 := congrArg Complex.re h
      have e2 : p.2 = 0 := congrArg Complex.im h
      simp [dist2, e1, e2] at h1) rfl bits hb

/-- Non-vacuity of `C143_cadence` (BPSK decision, linear interpolator). -/
example (blocs : List (List ℂ)) : ∃ s0 s l, DemodDec.cree { exempleDecHorloge false with k := 1, ctx := ctxSansMemoire (pskConstellation 2) (pskPlusProche 2) } = some s0 ∧
    enchaine (DemodDec.step { exempleDecHorloge false with k := 1, ctx := ctxSansMemoire (pskConstellation 2) (pskPlusProche 2) }) s0 blocs = some (s, symdemap l 1) ∧ |(blocs.flatten.length : ℝ) - l.length * (4 : ℕ)| ≤ l.length * (((4 : ℕ) : ℝ) / 4) + (4 : ℕ) :=
  C143_cadence (pskConstellation 2) (pskPlusProche 2) { exempleDecHorloge false with k := 1, ctx := ctxSansMemoire (pskConstellation 2) (pskPlusProche 2) } rfl (fun p => ⟨bpskDecision p, by simp [pskPlusProche], by
      rw [psk_longueur]
      unfold bpskDecision
      split <;> omega⟩) (show 4 ≤ 4 by norm_num) (by simp [exempleDecHorloge, MiseEnForme.coefs]) (show 0 < 2 by norm_num) (fun w τ hw _ _ => by
      obtain ⟨a, b, rfl⟩ : ∃ a b, w = [a, b] := List.length_eq_two.1 hw
      show (itrpRif 2 (fun τ => some (Itrp.coefsLin τ)) [a, b] τ).isSome = true
      have h1 := Itrp.C32_step (Itrp.coefsLin τ) [a.re, b.re] 0 rfl
      have h2 := Itrp.C32_step (Itrp.coefsLin τ) [a.im, b.im] 0 rfl
      rw [show (Itrp.coefsLin τ).length = 2 from rfl] at h1 h2
      unfold itrpRif
      simp only [Option.bind_some, List.map_cons, List.map_nil]
      rw [h1, Option.bind_some, h2]
      rfl) rfl rfl blocs

end Verif.Telecom
