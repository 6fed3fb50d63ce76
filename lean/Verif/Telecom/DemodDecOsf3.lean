import Verif.Telecom.DemodDecFin

/-!
# C143: the clock recovery of the decision-directed demodulator with three samples per symbol
-/

namespace Verif.Telecom

open Filtre (Decoupable enchaine boucle)

/-- BPSK, three samples per symbol, clock recovery with the linear interpolator, other stages off. -/
noncomputable def demodOsf3 (tc : ℝ) : ConfigDec Unit :=
  ⟨3, 0, .nrz, true, tc, 2, itrpRif 2 fun τ => some (Itrp.coefsLin τ), false, 1 / 100, 1, false, 10, false, 1, (), ctxSansMemoire (pskConstellation 2) (pskPlusProche 2)⟩

/-- A state of this demodulator. -/
noncomputable def etatOsf3 (cnt : ℕ) (lye : ℂ) (a b p : ℝ) (k : ℕ) (lyi : ℂ) : EtatDec Unit := ⟨cnt, 2, ⟨0, 0, 0⟩, lye, 1, ⟨[(a : ℂ), (b : ℂ)], p, k, lyi⟩, ()⟩

theorem osf3_milieu (tc : ℝ) (cnt : ℕ) (lye : ℂ) (a b p : ℝ) (lyi : ℂ) (x : ℝ) (h1 : 1 ≤ p) (h2 : p ≤ 2) : EtatDec.pas (demodOsf3 tc) (etatOsf3 cnt lye a b p 0 lyi) x = some (etatOsf3 (cnt + 1) lye b x (p + 1 / 2) 1 ((b + (x - b) * (p - 1) : ℝ) : ℂ), none) := by
  unfold EtatDec.pas
  simp only [ConfigDec.tourne, demodOsf3, Bool.false_eq_true, if_false, Option.bind_some, EtatDec.echantillonne, if_true, RecHorloge.interpole, etatOsf3]
  rw [if_neg (by norm_num), if_neg (by linarith), if_neg (by linarith)]
  simp only [List.tail_cons, List.singleton_append]
  rw [itrp_lin_reel]
  simp only [Option.map_some, Option.bind_some]
  rw [if_neg (by norm_num)]
  have : p - 1 + ((3 : ℕ) : ℝ) / 2 = p + 1 / 2 := by push_cast; ring
  simp only [this, zero_add]

theorem osf3_saut (tc : ℝ) (cnt : ℕ) (lye : ℂ) (a b p : ℝ) (k : ℕ) (lyi : ℂ) (x : ℝ) (h2 : 2 < p) : EtatDec.pas (demodOsf3 tc) (etatOsf3 cnt lye a b p k lyi) x = some (etatOsf3 (cnt + 1) lye b x (p - 1) k lyi, none) := by
  unfold EtatDec.pas
  simp only [ConfigDec.tourne, demodOsf3, Bool.false_eq_true, if_false, Option.bind_some, EtatDec.echantillonne, if_true, RecHorloge.interpole, etatOsf3]
  rw [if_neg (by norm_num), if_pos (by linarith)]
  rfl

theorem osf3_echec (tc : ℝ) (cnt : ℕ) (lye : ℂ) (a b p : ℝ) (k : ℕ) (lyi : ℂ) (x : ℂ) (h1 : p < 1) : EtatDec.pas (demodOsf3 tc) (etatOsf3 cnt lye a b p k lyi) x = none := by
  unfold EtatDec.pas
  simp only [ConfigDec.tourne, demodOsf3, Bool.false_eq_true, if_false, Option.bind_some, EtatDec.echantillonne, if_true, RecHorloge.interpole, etatOsf3]
  rw [if_neg (by norm_num), if_neg (by linarith), if_pos (by linarith)]
  rfl

theorem osf3_symbole (tc : ℝ) (cnt : ℕ) (hc : 1 ≤ cnt) (lye : ℝ) (a b p : ℝ) (m : ℝ) (x : ℝ) (h1 : 1 ≤ p) (h2 : p ≤ 2) (y : ℝ) (hy : y = b + (x - b) * (p - 1)) (hne : lye ≠ bpskDe y)
    (d : ℝ) (hd1 : -(3 / 4) ≤ d) (hd2 : d ≤ 3 / 4) (hd : (demodOsf3 tc).gainHorloge * ((bpskDe y - lye) * (m - (lye + bpskDe y) / 2) / |bpskDe y - lye|) = d) :
    ∃ o, EtatDec.pas (demodOsf3 tc) (etatOsf3 cnt lye a b p 1 (m : ℂ)) x = some (etatOsf3 (cnt + 1) (bpskDe y) b x (p + 1 / 2 - d) 0 (m : ℂ), o) := by
  have hl : (pskConstellation 2).length = 2 := psk_longueur 2
  have hi : bpskDecision (y, (0 : ℝ)) < (pskConstellation 2).length := by
    rw [hl]
    unfold bpskDecision
    split <;> omega
  have hsy : cplx (pskConstellation 2)[bpskDecision (y, (0 : ℝ))] = (bpskDe y : ℂ) := by
    rw [psk_elt]
    unfold bpskDecision bpskDe anglePsk
    by_cases h : 0 < y <;> simp [h, cplx] <;> apply Complex.ext <;> simp
  have h3 : p - 1 + ((3 : ℕ) : ℝ) / 2 = p + 1 / 2 := by push_cast; ring
  have hpas : EtatDec.pas (demodOsf3 tc) (etatOsf3 cnt lye a b p 1 (m : ℂ)) x = EtatDec.decide (demodOsf3 tc) (etatOsf3 (cnt + 1) lye b x (p + 1 / 2) 0 (m : ℂ)) (y : ℂ) := by
    unfold EtatDec.pas
    simp only [ConfigDec.tourne, demodOsf3, Bool.false_eq_true, if_false, Option.bind_some, EtatDec.echantillonne, if_true, RecHorloge.interpole, etatOsf3]
    rw [if_neg (by norm_num), if_neg (by linarith), if_neg (by linarith)]
    simp only [List.tail_cons, List.singleton_append]
    rw [itrp_lin_reel, ← hy]
    simp only [Option.map_some, Option.bind_some, if_true, h3]
  have hdc := decide_sans_memoire (pskConstellation 2) (pskPlusProche 2) (demodOsf3 tc) rfl (etatOsf3 (cnt + 1) lye b x (p + 1 / 2) 0 (m : ℂ)) (y : ℂ) _ hi (by
    unfold pskPlusProche
    rw [if_pos rfl, Complex.ofReal_re, Complex.ofReal_im]) 1 rfl
  rw [hsy] at hdc
  refine ⟨some ((bpskDecision (y, (0 : ℝ)) : ℕ) : ℤ), ?_⟩
  rw [hpas, hdc]
  have hmaj : RecHorloge.maj (demodOsf3 tc) (etatOsf3 (cnt + 1) lye b x (p + 1 / 2) 0 (m : ℂ)).hor (lye : ℂ) (bpskDe y : ℂ) = ⟨[(b : ℂ), (x : ℂ)], p + 1 / 2 - d, 0, (m : ℂ)⟩ := by
    unfold RecHorloge.maj
    rw [if_neg (by exact_mod_cast hne)]
    have he : erreurDec (m : ℂ) (lye : ℂ) (bpskDe y : ℂ) = (bpskDe y - lye) * (m - (lye + bpskDe y) / 2) / |bpskDe y - lye| := by
      unfold erreurDec cdot
      have k1 : ((bpskDe y : ℂ) - (lye : ℂ)) = ((bpskDe y - lye : ℝ) : ℂ) := by push_cast; rfl
      have k2 : ((m : ℂ) - ((lye : ℂ) + (bpskDe y : ℂ)) / 2) = ((m - (lye + bpskDe y) / 2 : ℝ) : ℂ) := by push_cast; rfl
      rw [k1, k2, Complex.norm_real, Real.norm_eq_abs, Complex.ofReal_re, Complex.ofReal_re, Complex.ofReal_im, zero_mul, add_zero]
    have hcor : correctionDec (demodOsf3 tc) (erreurDec (m : ℂ) (lye : ℂ) (bpskDe y : ℂ)) = d := by
      rw [he]
      unfold correctionDec
      have : ((demodOsf3 tc).osf : ℝ) = 3 := by simp [demodOsf3]
      rw [this, hd, min_eq_left hd2, max_eq_right (by linarith)]
    show (⟨[(b : ℂ), (x : ℂ)], p + 1 / 2 - correctionDec (demodOsf3 tc) (erreurDec (m : ℂ) (lye : ℂ) (bpskDe y : ℂ)), 0, (m : ℂ)⟩ : RecHorloge) = _
    rw [hcor]
  have hcond : (demodOsf3 tc).horloge = true ∧ 2 ≤ (etatOsf3 (cnt + 1) lye b x (p + 1 / 2) 0 (m : ℂ)).cnt := ⟨rfl, by show 2 ≤ cnt + 1; omega⟩
  rw [if_pos hcond, show (etatOsf3 (cnt + 1) lye b x (p + 1 / 2) 0 (m : ℂ)).lye = (lye : ℂ) from rfl, hmaj]
  simp [etatOsf3, demodOsf3]

/-- **C143 (refutation: three samples per symbol).** With `osf = 3` the bound on the correction does not prevent the phase of the clock from becoming negative either: for every time constant there is a signal of seven samples on which the
demodulator fails. -/
theorem C143_osf3_refute (tc : ℝ) (htc : 0 < tc) : ∃ s0, DemodDec.cree (demodOsf3 tc) = some s0 ∧ ∃ x : List ℂ, x.length = 7 ∧ DemodDec.step (demodOsf3 tc) s0 x = none := by
  have hgain : 0 < (demodOsf3 tc).gainHorloge := by
    unfold ConfigDec.gainHorloge
    have : (demodOsf3 tc).tcHorloge = tc := rfl
    rw [this, Conception.C85_coef.2.2.2.2.1 _ htc.ne']
    have h2 : Real.exp (-1 / tc) < 1 := by
      rw [Real.exp_lt_one_iff]
      exact div_neg_of_neg_of_pos (by norm_num) htc
    have : (0 : ℝ) < ((demodOsf3 tc).osf : ℝ) := by simp [demodOsf3]
    exact mul_pos this (by linarith)
  set g := (demodOsf3 tc).gainHorloge with hg
  have hcf : (demodOsf3 tc).forme.coefs (demodOsf3 tc).osf = some (List.replicate 3 (1 / ((3 : ℕ) : ℝ))) := by simp [demodOsf3, MiseEnForme.coefs]
  have hr : ∀ x, recu (demodOsf3 tc) (List.replicate 3 (1 / ((3 : ℕ) : ℝ))) x = x := fun x => by simp [recu, demodOsf3]
  have hini : etatInitial (demodOsf3 tc) = etatOsf3 0 ((0 : ℝ) : ℂ) 0 0 2 0 0 := by
    simp only [etatInitial, etatOsf3, demodOsf3]
    norm_num [List.replicate]
  have b1 : bpskDe 1 = 1 := by norm_num [bpskDe]
  have b2 : bpskDe (-1) = -1 := by norm_num [bpskDe]
  have p1 := osf3_milieu tc 0 ((0 : ℝ) : ℂ) 0 0 2 0 (1 / 2 + 3 / 10 / g) (by norm_num) (by norm_num)
  rw [show (0 : ℝ) + (1 / 2 + 3 / 10 / g - 0) * (2 - 1) = 1 / 2 + 3 / 10 / g by ring] at p1
  have p2 := osf3_saut tc 1 ((0 : ℝ) : ℂ) 0 (1 / 2 + 3 / 10 / g) (2 + 1 / 2) 1 ((1 / 2 + 3 / 10 / g : ℝ) : ℂ) 1 (by norm_num)
  obtain ⟨o3, p3⟩ := osf3_symbole tc 2 (by norm_num) 0 (1 / 2 + 3 / 10 / g) 1 (2 + 1 / 2 - 1) (1 / 2 + 3 / 10 / g) 1 (by norm_num) (by norm_num) 1 (by ring) (by rw [b1]; norm_num) (3 / 10) (by norm_num) (by norm_num) (by
    rw [b1, ← hg]
    norm_num
    field_simp)
  rw [b1] at p3
  have p4 := osf3_milieu tc 3 ((1 : ℝ) : ℂ) 1 1 (2 + 1 / 2 - 1 + 1 / 2 - 3 / 10) ((1 / 2 + 3 / 10 / g : ℝ) : ℂ) (1 + (-(3 / 4 / g) - 1) * (10 / 7)) (by norm_num) (by norm_num)
  rw [show (1 : ℝ) + ((1 + (-(3 / 4 / g) - 1) * (10 / 7)) - 1) * (2 + 1 / 2 - 1 + 1 / 2 - 3 / 10 - 1) = -(3 / 4 / g) by ring] at p4
  have p5 := osf3_saut tc 4 ((1 : ℝ) : ℂ) 1 (1 + (-(3 / 4 / g) - 1) * (10 / 7)) (2 + 1 / 2 - 1 + 1 / 2 - 3 / 10 + 1 / 2) 1 ((-(3 / 4 / g) : ℝ) : ℂ) (-1) (by norm_num)
  obtain ⟨o6, p6⟩ := osf3_symbole tc 5 (by norm_num) 1 (1 + (-(3 / 4 / g) - 1) * (10 / 7)) (-1) (2 + 1 / 2 - 1 + 1 / 2 - 3 / 10 + 1 / 2 - 1) (-(3 / 4 / g)) (-1) (by norm_num) (by norm_num) (-1) (by ring) (by rw [b2]; norm_num) (3 / 4) (by norm_num) (by norm_num) (by
    rw [b2, ← hg]
    norm_num
    field_simp)
  rw [b2] at p6
  have p7 := osf3_echec tc 6 ((-1 : ℝ) : ℂ) (-1) (-1) (2 + 1 / 2 - 1 + 1 / 2 - 3 / 10 + 1 / 2 - 1 + 1 / 2 - 3 / 4) 0 ((-(3 / 4 / g) : ℝ) : ℂ) 0 (by norm_num)
  obtain ⟨s0, e0, e1⟩ := demod_echec (demodOsf3 tc) (by simp [demodOsf3]) _ hcf [((1 / 2 + 3 / 10 / g : ℝ) : ℂ), ((1 : ℝ) : ℂ), ((1 : ℝ) : ℂ), ((1 + (-(3 / 4 / g) - 1) * (10 / 7) : ℝ) : ℂ), ((-1 : ℝ) : ℂ), ((-1 : ℝ) : ℂ), 0] (by
    rw [hr, hini]
    simp only [boucle, p1, p2, p3, p4, p5, p6, p7])
  exact ⟨s0, e0, _, by simp, e1⟩


/-! ### C144: odd oversampling factors -/

/-- The levels of 8-ASK, core/src/telecom/modulations.cc:55-58 (`ask_constellation`) with the default range of core/include/tsd/telecom.hpp:287. -/
noncomputable def ask8 : List (ℝ × ℝ) := [(-1, 0), (-5 / 7, 0), (-3 / 7, 0), (-1 / 7, 0), (1 / 7, 0), (3 / 7, 0), (5 / 7, 0), (1, 0)]

/-- A demodulator of 8-ASK, three samples per symbol, NRZ pulses, with all its loops and the linear interpolator, any settings. -/
noncomputable def demodAsk8 (tc BL η tcCag : ℝ) (p g : Bool) : ConfigDec Unit :=
  ⟨3, 0, .nrz, true, tc, 2, itrpRif 2 fun τ => some (Itrp.coefsLin τ), p, BL, η, g, tcCag, true, 3, (), ctxSansMemoire ask8 (symbolePlusProche ask8)⟩

/-- **C144 (refutation: odd oversampling factors).** With an odd number of samples per symbol the clock starts half a sample early: the first symbol of 8-ASK, received without noise, is decided on 5/6 of its value, and the bits are wrong,
whatever the settings of the loops. -/
theorem C144_impair_refute (tc BL η tcCag : ℝ) (p g : Bool) : ∃ m0 m s0 s, Modulateur.cree .nrz 3 = some m0 ∧
    enchaine (Modulateur.stepBits ask8 3 none) m0 [[true, true, true]] = some (m, [1, 1, 1]) ∧
    DemodDec.cree (demodAsk8 tc BL η tcCag p g) = some s0 ∧ DemodDec.step (demodAsk8 tc BL η tcCag p g) s0 [1, 1, 1] = some (s, [false, true, true]) := by
  set c := demodAsk8 tc BL η tcCag p g with hc
  obtain ⟨sy, m0, m, e1, e2, e3⟩ := C97_nrz ask8 3 (by norm_num) (by norm_num [ask8]) 3 (by norm_num) [[true, true, true]] (by simp)
  have hsy : genereSymboles ask8 (3 : ℕ) [true, true, true] = some [(1, 0)] := by
    simp [genereSymboles, symmap, symbBoucle, List.range_succ, ask8]
  rw [show [[true, true, true]].flatten = [true, true, true] from rfl, hsy] at e1
  obtain rfl := Option.some.inj e1
  have h11 : List.flatMap (fun p : ℝ × ℝ => List.replicate 3 (cplx p)) [(1, 0)] = [1, 1, 1] := by
    simp [cplx, List.replicate]
    rfl
  rw [h11] at e3
  have hcf : c.forme.coefs c.osf = some (List.replicate 3 (1 / ((3 : ℕ) : ℝ))) := by simp [hc, demodAsk8, MiseEnForme.coefs]
  obtain ⟨s0, a, e0, e4⟩ := demod_flux c (by simp [hc, demodAsk8]) _ hcf [[1, 1, 1]]
  have hr : recu c (List.replicate 3 (1 / ((3 : ℕ) : ℝ))) [1, 1, 1] = [((1 / 3 : ℝ) : ℂ), ((2 / 3 : ℝ) : ℂ), ((1 : ℝ) : ℂ)] := by
    simp [recu, hc, demodAsk8, List.range_succ, Filtre.convolution, Finset.sum_range_succ, Filtre.passe, List.replicate]
    norm_num
  rw [show [[(1 : ℂ), 1, 1]].flatten = [1, 1, 1] from rfl, hr] at e4
  set w0 : ℂ := ((0 : ℝ) : ℂ) with hw0
  set w1 : ℂ := ((1 / 3 : ℝ) : ℂ) with hw1
  set w2 : ℂ := ((2 / 3 : ℝ) : ℂ) with hw2
  set w3 : ℂ := ((1 : ℝ) : ℂ) with hw3
  have q1 : EtatDec.pas c (etatInitial c) w1 = some ({ etatInitial c with cnt := 1, hor := ⟨[w0, w1], 5 / 2, 1, w1⟩ }, none) := by
    have hint : RecHorloge.interpole c (etatInitial c).hor w1 = some (⟨[w0, w1], 5 / 2, 1, w1⟩, none) := by
      have hh : (etatInitial c).hor = ⟨[w0, w0], 2, 0, 0⟩ := by
        simp only [etatInitial, hc, demodAsk8, hw0]
        norm_num [List.replicate]
      rw [hh]
      simp only [RecHorloge.interpole, hc, demodAsk8, List.tail_cons]
      rw [if_neg (by norm_num), show (2 : ℝ) - 1 = 1 by norm_num, if_neg (by norm_num), if_neg (by norm_num)]
      simp only [List.cons_append, List.nil_append]
      rw [hw0, hw1, itrp_lin_reel]
      norm_num
    unfold EtatDec.pas
    rw [show (etatInitial c).boucle.θ = 0 from rfl, tourne_zero, Option.bind_some, show (etatInitial c).gain = 1 from rfl, Complex.ofReal_one, mul_one, ite_self]
    simp only [EtatDec.echantillonne]
    rw [if_pos (show c.horloge = true from rfl), hint]
    rfl
  have q2 : EtatDec.pas c { etatInitial c with cnt := 1, hor := ⟨[w0, w1], 5 / 2, 1, w1⟩ } w2 = some ({ etatInitial c with cnt := 2, hor := ⟨[w1, w2], 3 / 2, 1, w1⟩ }, none) := by
    have hint : RecHorloge.interpole c ⟨[w0, w1], 5 / 2, 1, w1⟩ w2 = some (⟨[w1, w2], 3 / 2, 1, w1⟩, none) := by
      simp only [RecHorloge.interpole, hc, demodAsk8, List.tail_cons]
      rw [if_neg (by norm_num), if_pos (by norm_num)]
      norm_num
    unfold EtatDec.pas
    rw [show ({ etatInitial c with cnt := 1, hor := ⟨[w0, w1], 5 / 2, 1, w1⟩ } : EtatDec Unit).boucle.θ = 0 from rfl, tourne_zero, Option.bind_some, show ({ etatInitial c with cnt := 1, hor := ⟨[w0, w1], 5 / 2, 1, w1⟩ } : EtatDec Unit).gain = 1 from rfl, Complex.ofReal_one, mul_one, ite_self]
    simp only [EtatDec.echantillonne]
    rw [if_pos (show c.horloge = true from rfl), hint]
    rfl
  have hdec : symbolePlusProche ask8 (((5 / 6 : ℝ) : ℂ).re, ((5 / 6 : ℝ) : ℂ).im) = some 6 := by
    rw [Complex.ofReal_re, Complex.ofReal_im]
    norm_num [symbolePlusProche, plusProcheBoucle, dist2, ask8]
  have q3 : ∃ s, EtatDec.pas c { etatInitial c with cnt := 2, hor := ⟨[w1, w2], 3 / 2, 1, w1⟩ } w3 = some (s, some 6) := by
    have hint : RecHorloge.interpole c ⟨[w1, w2], 3 / 2, 1, w1⟩ w3 = some (⟨[w2, w3], 2, 0, w1⟩, some ((5 / 6 : ℝ) : ℂ)) := by
      simp only [RecHorloge.interpole, hc, demodAsk8, List.tail_cons]
      rw [if_neg (by norm_num), if_neg (by norm_num), if_neg (by norm_num)]
      simp only [List.cons_append, List.nil_append]
      rw [hw2, hw3, itrp_lin_reel]
      norm_num
    unfold EtatDec.pas
    rw [show ({ etatInitial c with cnt := 2, hor := ⟨[w1, w2], 3 / 2, 1, w1⟩ } : EtatDec Unit).boucle.θ = 0 from rfl, tourne_zero, Option.bind_some, show ({ etatInitial c with cnt := 2, hor := ⟨[w1, w2], 3 / 2, 1, w1⟩ } : EtatDec Unit).gain = 1 from rfl, Complex.ofReal_one, mul_one, ite_self]
    simp only [EtatDec.echantillonne]
    rw [if_pos (show c.horloge = true from rfl), hint]
    simp only [Option.map_some, Option.bind_some]
    have hg : ∃ gg, c.majGain 1 ((5 / 6 : ℝ) : ℂ) (cplx (5 / 7, 0)) = some gg := by
      unfold ConfigDec.majGain
      split
      · rw [if_neg]
        · exact ⟨_, rfl⟩
        · rintro (h | h)
          · have := congrArg Complex.re h
            norm_num at this
          · have := congrArg Complex.re h
            norm_num [cplx] at this
      · exact ⟨_, rfl⟩
    obtain ⟨gg, hg⟩ := hg
    exact ⟨_, decide_sans_memoire _ _ c rfl { etatInitial c with cnt := 2 + 1, hor := ⟨[w2, w3], 2, 0, w1⟩ } ((5 / 6 : ℝ) : ℂ) 6 (by norm_num [ask8]) hdec gg hg⟩
  obtain ⟨s, q3⟩ := q3
  have hb : boucle (EtatDec.pas c) (etatInitial c) [w1, w2, w3] = some (s, [none, none, some 6]) := by simp only [boucle, q1, q2, q3]
  rw [hb, Option.map_some] at e4
  have := Filtre.enchaine_eq _ _ (demod_decoupable c) [[1, 1, 1]] s0 (cree_sain c s0 e0)
  rw [e4, show [[(1 : ℂ), 1, 1]].flatten = [1, 1, 1] from rfl] at this
  refine ⟨m0, m, s0, ⟨a, s⟩, e2, e3, e0, ?_⟩
  rw [← this]
  congr 2

end Verif.Telecom
