import Verif.Telecom.DemodDecFin

/-!
# C145: reset of the decision-directed demodulator
-/

namespace Verif.Telecom

open Filtre (Decoupable enchaine boucle)
open Complex (exp I)

/-! ### Two loops that differ only by what will not be read -/

/-- Same state, except the state of the clock if it is not used, and the stored intermediate value if it will be overwritten before it is read. -/
def Pareils {C : Type} (c : ConfigDec C) (s s' : EtatDec C) : Prop :=
  s' = { s with hor := s'.hor } ∧ (c.horloge = true → s'.hor = { s.hor with lyi := s'.hor.lyi } ∧ (s.hor.cnt ≠ 1 ∨ s'.hor = s.hor))

theorem pareils_refl {C : Type} (c : ConfigDec C) (s : EtatDec C) : Pareils c s s := ⟨rfl, fun _ => ⟨rfl, Or.inr rfl⟩⟩

theorem decide_pareils {C : Type} (c : ConfigDec C) (hh : c.horloge = false) (s s' : EtatDec C) (h : s' = { s with hor := s'.hor }) (y : ℂ) :
    EtatDec.decide c s' y = (EtatDec.decide c s y).map fun r : EtatDec C × Option ℤ => ({ r.1 with hor := s'.hor }, r.2) := by
  rw [h]
  unfold EtatDec.decide
  simp only
  cases c.ctx s.ctx y with
  | none => rfl
  | some d =>
    simp only [Option.bind_some]
    split
    · rfl
    · cases c.majGain s.gain y d.2.2 with
      | none => rfl
      | some g => simp only [Option.map_some, hh, Bool.false_eq_true, false_and, if_false]

/-- One sample. -/
theorem pas_pareils {C : Type} (c : ConfigDec C) (s s' : EtatDec C) (h : Pareils c s s') (x : ℂ) : (EtatDec.pas c s x = none ∧ EtatDec.pas c s' x = none) ∨ ∃ t t' o, EtatDec.pas c s x = some (t, o) ∧ EtatDec.pas c s' x = some (t', o) ∧ Pareils c t t' := by
  obtain ⟨h1, h2⟩ := h
  cases hh : c.horloge with
  | false =>
    obtain ⟨y, hy⟩ := tourne_some c s.boucle.θ x
    have e : EtatDec.pas c s' x = (EtatDec.pas c s x).map fun r : EtatDec C × Option ℤ => ({ r.1 with hor := s'.hor }, r.2) := by
      rw [h1]
      unfold EtatDec.pas
      simp only [hy, Option.bind_some, EtatDec.echantillonne, hh, Bool.false_eq_true, if_false]
      by_cases h0 : c.osf = 0
      · simp only [h0, if_true, Option.bind_none, Option.map_none]
      · simp only [h0, if_false, Option.bind_some]
        split
        · rename_i h3
          simp only [h3, Option.map_some]
        · rename_i yi h3
          simp only [h3]
          exact decide_pareils c hh _ _ rfl yi
    cases hp : EtatDec.pas c s x with
    | none => left; rw [e, hp]; exact ⟨rfl, rfl⟩
    | some r =>
      right
      refine ⟨r.1, { r.1 with hor := s'.hor }, r.2, rfl, by rw [e, hp]; rfl, rfl, fun h => by rw [hh] at h; cases h⟩
  | true =>
    obtain ⟨h3, h4⟩ := h2 hh
    rcases h4 with h4 | h4
    · obtain ⟨y, hy⟩ := tourne_some c s.boucle.θ x
      rw [h1, h3]
      unfold EtatDec.pas
      simp only [hy, Option.bind_some, EtatDec.echantillonne, hh, if_true, RecHorloge.interpole]
      by_cases hK : c.K = 0
      · left; simp [hK]
      · simp only [hK, if_false]
        by_cases hp1 : 1 < s.hor.phase - 1
        · right
          simp only [hp1, if_true, Option.map_some, Option.bind_some]
          exact ⟨_, _, none, rfl, rfl, rfl, fun _ => ⟨rfl, Or.inl h4⟩⟩
        · simp only [hp1, if_false]
          by_cases hp2 : s.hor.phase - 1 < 0
          · left; simp [hp2]
          · simp only [hp2, if_false, h4]
            cases c.itrp (s.hor.fen.tail ++ [if c.cag = true then y * (s.gain : ℂ) else y]) (s.hor.phase - 1) with
            | none => left; exact ⟨rfl, rfl⟩
            | some yi =>
              right
              simp only [Option.map_some, Option.bind_some]
              exact ⟨_, _, none, rfl, rfl, rfl, fun _ => ⟨rfl, Or.inr rfl⟩⟩
    · have hs : s' = s := by rw [h1, h4]
      rw [hs]
      cases hp : EtatDec.pas c s x with
      | none => exact Or.inl ⟨rfl, rfl⟩
      | some r => exact Or.inr ⟨r.1, r.1, r.2, rfl, rfl, pareils_refl c _⟩

theorem boucle_pareils {C : Type} (c : ConfigDec C) (x : List ℂ) (s s' : EtatDec C) (h : Pareils c s s') : (boucle (EtatDec.pas c) s' x).map Prod.snd = (boucle (EtatDec.pas c) s x).map Prod.snd := by
  induction x generalizing s s' with
  | nil => rfl
  | cons a x ih =>
    rcases pas_pareils c s s' h a with ⟨e1, e2⟩ | ⟨t, t', o, e1, e2, hp⟩
    · simp only [boucle, e1, e2]
    · have := ih t t' hp
      simp only [boucle, e1, e2]
      cases h1 : boucle (EtatDec.pas c) t x <;> cases h2 : boucle (EtatDec.pas c) t' x <;> rw [h1, h2] at this <;> simp_all

/-! ### The front end with a past -/

/-- The front end (without transposition) after the samples `p`. -/
def Avant.Hist {C : Type} (c : ConfigDec C) (h : List ℝ) (p : List ℂ) (a : Avant) : Prop :=
  a.transpo = none ∧ if 1 < c.osf ∧ c.horloge ∧ c.fa then ∃ f, a.filtre = some f ∧ Filtre.Rif.Rep (0 : ℂ) (h.map fun v : ℝ => (v : ℂ)) f p else a.filtre = none

theorem hist_step {C : Type} (c : ConfigDec C) (h : List ℝ) (hh : h ≠ []) (p : List ℂ) (a : Avant) (ha : a.Hist c h p) (x : List ℂ) : ∃ a', a'.Hist c h (p ++ x) ∧
    a.step x = some (a', if 1 < c.osf ∧ c.horloge ∧ c.fa then (List.range x.length).map fun n : ℕ => Filtre.convolution (h.map fun v : ℝ => (v : ℂ)) (p ++ x) (p.length + n) else x) := by
  obtain ⟨h1, h2⟩ := ha
  unfold Avant.step
  rw [h1]
  simp only [Avant.stepTranspo, Option.bind_some]
  split at h2
  · rename_i hu
    obtain ⟨f, h2, h3⟩ := h2
    obtain ⟨f', y, e, r, hl, hv⟩ := rif_histoire _ f _ x h3 (by simpa using hh)
    refine ⟨⟨none, some f'⟩, ⟨rfl, ?_⟩, ?_⟩
    · rw [if_pos hu]; exact ⟨f', rfl, r⟩
    · rw [h2, if_pos hu]
      simp only [Avant.stepFiltre, e, Option.map_some, Option.some.injEq, Prod.mk.injEq, true_and]
      apply List.ext_getElem?
      intro n
      by_cases hn : n < x.length
      · rw [hv n hn]
        simp [hn]
      · rw [List.getElem?_eq_none (by omega), List.getElem?_eq_none (by simpa using hn)]
  · rename_i hu
    refine ⟨⟨none, none⟩, ⟨rfl, by rw [if_neg hu]⟩, ?_⟩
    rw [h2, if_neg hu]
    rfl

/-- A past of the length of the filter at least is forgotten. -/
theorem convolution_oubli (c p x : List ℂ) (m n : ℕ) (hc : c.length ≤ m + 1) : Filtre.convolution c (p ++ List.replicate m 0 ++ x) ((p ++ List.replicate m 0).length + n) = Filtre.convolution c x n := by
  unfold Filtre.convolution
  refine Finset.sum_congr rfl fun k hk => ?_
  have hk' := Finset.mem_range.1 hk
  congr 1
  unfold Filtre.passe
  have hl : (p ++ List.replicate m (0 : ℂ)).length = p.length + m := by simp
  by_cases hkn : k ≤ n
  · rw [if_pos (by omega), if_pos hkn, List.getD_append_right _ _ _ _ (by omega)]
    congr 1
    omega
  · rw [if_neg hkn, if_pos (by omega), List.getD_append _ _ _ _ (by omega), List.getD_append_right _ _ _ _ (by omega)]
    simp

/-- The state after a run. -/
theorem hist_enchaine {C : Type} (c : ConfigDec C) (h : List ℝ) (hh : h ≠ []) (x : List ℂ) (p : List ℂ) (s s1 : DemodDec C) (y : List Bool) (hp : s.avant.Hist c h p) (e : DemodDec.step c s x = some (s1, y)) : ∃ p', s1.avant.Hist c h p' := by
  unfold DemodDec.step at e
  split at e
  · rw [Option.some.injEq, Prod.mk.injEq] at e
    rw [← e.1]; exact ⟨p, hp⟩
  · obtain ⟨a', ha, hs⟩ := hist_step c h hh p _ hp x
    rw [hs, Option.bind_some] at e
    obtain ⟨q, -, hq⟩ := Option.map_eq_some_iff.1 e
    rw [Prod.mk.injEq] at hq
    rw [← hq.1]
    exact ⟨_, ha⟩

/-- **C145 (reset).** Without transposition and if the matched filter is not longer than five symbols (plus one sample), the reset forgets everything: after any reception in any cutting, any later reception gives the bits of a new demodulator
(and fails if and only if it fails on a new demodulator). -/
theorem C145_reset {C : Type} (c : ConfigDec C) (hosf : 0 < c.osf) (hfi : c.fi = 0) (h : List ℝ) (hf : c.forme.coefs c.osf = some h) (hl : h.length ≤ 5 * c.osf + 1) (s0 s1 : DemodDec C) (y : List Bool) (h0 : DemodDec.cree c = some s0)
    (avant : List (List ℂ)) (h1 : enchaine (DemodDec.step c) s0 avant = some (s1, y)) :
    ∃ s', s1.reset c 0 = some s' ∧ ∀ blocs : List (List ℂ), (enchaine (DemodDec.step c) s' blocs).map Prod.snd = (enchaine (DemodDec.step c) s0 blocs).map Prod.snd := by
  have hne := coefs_non_vide _ _ _ hf
  obtain ⟨s0', m, e0, e1, n0⟩ := cree_forme c hosf h hf
  rw [h0] at e0
  obtain rfl := Option.some.inj e0
  have hsain := cree_sain c s0 h0
  have hH0 : s0.avant.Hist c h (List.replicate m 0) := by
    refine ⟨by rw [n0.1, if_pos hfi], n0.2⟩
  rw [Filtre.enchaine_eq _ _ (demod_decoupable c) avant s0 hsain] at h1
  obtain ⟨p, hp⟩ := hist_enchaine c h hne _ _ s0 s1 y hH0 h1
  -- the reset of the front end
  have hr : ∃ a p', (if c.horloge then s1.avant.reset c else some s1.avant) = some a ∧ a.Hist c h p' ∧ (1 < c.osf ∧ c.horloge ∧ c.fa → p' = p ++ List.replicate (5 * c.osf) 0) := by
    by_cases hc : c.horloge
    · rw [if_pos hc]
      unfold Avant.reset
      obtain ⟨k1, k2⟩ := hp
      split at k2
      · rename_i hu
        obtain ⟨f, k2, k3⟩ := k2
        obtain ⟨f', y, e, r, -, -⟩ := rif_histoire _ f _ (List.replicate (5 * c.osf) 0) k3 (by simpa using hne)
        refine ⟨{ s1.avant with filtre := some f' }, _, by rw [k2]; simp only [Avant.stepFiltre, e]; rfl, ⟨k1, ?_⟩, fun _ => rfl⟩
        rw [if_pos hu]
        exact ⟨f', rfl, r⟩
      · rename_i hu
        refine ⟨s1.avant, p, by rw [k2]; simp only [Avant.stepFiltre, Option.map_some]; rw [← k2], ⟨k1, ?_⟩, fun h => absurd h hu⟩
        rw [if_neg hu]; exact k2
    · rw [if_neg hc]
      exact ⟨s1.avant, p, rfl, hp, fun h => absurd h.2.1 hc⟩
  obtain ⟨a, p', ra, ha, hp'⟩ := hr
  set s' : DemodDec C := ⟨a, { cnt := 0, cnt1 := c.osf - 1, boucle := ⟨0, 0, 0⟩, lye := 0, gain := 1, hor := if c.horloge then s1.etat.hor.reset c else s1.etat.hor, ctx := c.ctx0 }⟩ with hs'
  have hreset : s1.reset c 0 = some s' := by
    unfold DemodDec.reset
    rw [ra]
    rfl
  refine ⟨s', hreset, fun blocs => ?_⟩
  have hs1 : s1.avant.Sain := (demod_decoupable c).2.1 _ _ _ _ hsain h1
  rw [Filtre.enchaine_eq _ _ (demod_decoupable c) blocs s' (reset_sain c 0 _ _ hs1 hreset), Filtre.enchaine_eq _ _ (demod_decoupable c) blocs s0 hsain]
  have hpar : Pareils c s0.etat s'.etat := by
    rw [e1]
    refine ⟨rfl, fun hc => ?_⟩
    have : s'.etat.hor = s1.etat.hor.reset c := by rw [hs']; simp only [hc, if_true]
    rw [this]
    exact ⟨rfl, Or.inl (by show (0 : ℕ) ≠ 1; omega)⟩
  generalize blocs.flatten = x
  unfold DemodDec.step
  split
  · rfl
  · obtain ⟨a1, -, ea1⟩ := hist_step c h hne _ _ ha x
    obtain ⟨a2, -, ea2⟩ := hist_step c h hne _ _ hH0 x
    have hsame : (if 1 < c.osf ∧ c.horloge ∧ c.fa then (List.range x.length).map fun n : ℕ => Filtre.convolution (h.map fun v : ℝ => (v : ℂ)) (p' ++ x) (p'.length + n) else x) =
        (if 1 < c.osf ∧ c.horloge ∧ c.fa then (List.range x.length).map fun n : ℕ => Filtre.convolution (h.map fun v : ℝ => (v : ℂ)) (List.replicate m 0 ++ x) ((List.replicate m (0 : ℂ)).length + n) else x) := by
      split
      · rename_i hu
        rw [hp' hu]
        apply List.map_congr_left
        intro n _
        rw [convolution_oubli _ _ _ _ _ (by simpa using hl), List.length_replicate, convolution_zeros]
      · rfl
    rw [show s'.avant = a from rfl, ea1, ea2, hsame, Option.bind_some, Option.bind_some]
    generalize (if 1 < c.osf ∧ c.horloge ∧ c.fa then (List.range x.length).map fun n : ℕ => Filtre.convolution (h.map fun v : ℝ => (v : ℂ)) (List.replicate m 0 ++ x) ((List.replicate m (0 : ℂ)).length + n) else x) = w
    have := boucle_pareils c w _ _ hpar
    dsimp only
    cases k1 : boucle (EtatDec.pas c) s0.etat w <;> cases k2 : boucle (EtatDec.pas c) s'.etat w <;> rw [k1, k2] at this <;> simp_all

/-! ### What the reset does not forget -/

/-- BPSK, one sample per symbol, intermediate frequency 1/2, no loop. -/
noncomputable def demodFi : ConfigDec Unit :=
  ⟨1, 1 / 2, .nrz, false, 100, 2, itrpRif 2 fun τ => some (Itrp.coefsLin τ), false, 1 / 100, 1, false, 10, true, 1, (), ctxSansMemoire (pskConstellation 2) (pskPlusProche 2)⟩

theorem porteuse_demi (n : ℕ) : porteuse (-(1 / 2)) n 1 = [(-1) ^ n] := by
  unfold porteuse
  simp only [List.range_one, List.map_cons, List.map_nil, Nat.add_zero, List.cons.injEq, and_true]
  rw [show ((2 * Real.pi * ((n : ℝ) * -(1 / 2)) : ℝ) : ℂ) * I = (n : ℂ) * (-(Real.pi * I)) by push_cast; ring, Complex.exp_nat_mul, Complex.exp_neg, Complex.exp_pi_mul_I]
  norm_num

theorem demodFi_step (n : ℕ) (e : EtatDec Unit) : ∃ s' y, DemodDec.step demodFi ⟨⟨some ⟨ohcApres (-(1 / 2)) n, none⟩, none⟩, e⟩ [1] = some (s', y) ∧ s'.avant = ⟨some ⟨ohcApres (-(1 / 2)) (n + 1), none⟩, none⟩ ∧ y = [decide (n % 2 = 0)] := by
  have ha : Avant.step ⟨some ⟨ohcApres (-(1 / 2)) n, none⟩, none⟩ [1] = some (⟨some ⟨ohcApres (-(1 / 2)) (n + 1), none⟩, none⟩, [(-1) ^ n]) := by
    simp only [Avant.step, Avant.stepTranspo, Avant.stepFiltre, TranspoBB.step, List.length_cons, List.length_nil, ohc_apres_step, Option.map_some, Option.bind_some]
    rw [porteuse_demi]
    simp
  have hi : (if n % 2 = 0 then 1 else 0) < (pskConstellation 2).length := by
    rw [psk_longueur]
    split <;> omega
  have hp : EtatDec.pas demodFi e ((-1) ^ n) = EtatDec.decide demodFi { e with cnt := e.cnt + 1, cnt1 := 0 } ((-1) ^ n) := by
    unfold EtatDec.pas
    simp only [ConfigDec.tourne, demodFi, EtatDec.echantillonne, Bool.false_eq_true, if_false, Option.bind_some, Nat.mod_one, one_ne_zero, if_true]
  have hd := decide_sans_memoire (pskConstellation 2) (pskPlusProche 2) demodFi rfl { e with cnt := e.cnt + 1, cnt1 := 0 } ((-1) ^ n) _ hi (by
    unfold pskPlusProche bpskDecision
    rw [if_pos rfl]
    rcases Nat.mod_two_eq_zero_or_one n with h | h
    · rw [(Nat.even_iff.2 h).neg_one_pow]; simp [h]
    · rw [(Nat.odd_iff.2 h).neg_one_pow]; simp [h]) e.gain (by simp [ConfigDec.majGain, demodFi])
  rw [hd] at hp
  unfold DemodDec.step
  rw [if_neg (by simp), ha]
  simp only [Option.bind_some, boucle, hp, Option.map_some]
  refine ⟨_, _, rfl, rfl, ?_⟩
  rcases Nat.mod_two_eq_zero_or_one n with h | h <;> simp [h, List.reduceOption, symdemap, demodFi]

/-- **C145 (refutation: transposition).** The oscillator of the transposition is not reset: at the intermediate frequency 1/2, after one sample and a reset, the sample decoded 1 by a new demodulator is decoded 0. -/
theorem C145_transposition_refute : ∃ s0 s1 s2 s3, DemodDec.cree demodFi = some s0 ∧ DemodDec.step demodFi s0 [1] = some (s1, [true]) ∧ s1.reset demodFi 0 = some s2 ∧ DemodDec.step demodFi s2 [1] = some (s3, [false]) := by
  obtain ⟨s0, m, e0, e1, n0⟩ := cree_forme demodFi (by simp [demodFi]) [1] (by simp [demodFi, MiseEnForme.coefs])
  obtain ⟨n1, n2⟩ := n0
  rw [if_neg (by simp [demodFi])] at n1 n2
  have h0 : s0 = ⟨⟨some ⟨ohcApres (-(1 / 2)) 0, none⟩, none⟩, s0.etat⟩ := by
    cases s0 with
    | mk a e =>
      cases a with
      | mk t f =>
        simp only at n1 n2
        rw [n1, n2]
        rfl
  obtain ⟨s1, y1, k1, a1, hy1⟩ := demodFi_step 0 s0.etat
  rw [← h0] at k1
  obtain ⟨s3, y3, k3, a3, hy3⟩ := demodFi_step 1 { cnt := 0, cnt1 := 1 - 1, boucle := ⟨0, 0, 0⟩, lye := 0, gain := 1, hor := s1.etat.hor, ctx := () }
  refine ⟨s0, s1, ⟨s1.avant, { cnt := 0, cnt1 := 1 - 1, boucle := ⟨0, 0, 0⟩, lye := 0, gain := 1, hor := s1.etat.hor, ctx := () }⟩, s3, e0, ?_, rfl, ?_⟩
  · rw [k1, hy1]; rfl
  · rw [a1, k3, hy3]; rfl

/-- BPSK, two samples per symbol, clock recovery with the linear interpolator and a matched filter of 13 coefficients. -/
noncomputable def demodLong : ConfigDec Unit :=
  ⟨2, 0, .autre (List.replicate 12 0 ++ [1]), true, 100, 2, itrpRif 2 fun τ => some (Itrp.coefsLin τ), false, 1 / 100, 1, false, 10, true, 1, (), ctxSansMemoire (pskConstellation 2) (pskPlusProche 2)⟩

/-- Two samples of this demodulator, from a state at rest. -/
theorem demodLong_deux (s : EtatDec Unit) (hs : Nominal demodLong 1 s) (hc : s.hor.cnt = 0) (u : ℂ) (v : Bool) : ∃ s' : EtatDec Unit, boucle (EtatDec.pas demodLong) s [u, if v then 1 else 0] = some (s', [none, some (if v then 1 else 0)]) := by
  obtain ⟨r1, f1, p1⟩ := hs
  have hd : DernierEchantillon demodLong := lineaire_dernier _ rfl rfl
  have e1 := horloge_instant demodLong rfl (by simp [demodLong]) hd s r1 f1 (by rw [p1]; norm_num) u
  rw [if_neg (by omega)] at e1
  set s2 : EtatDec Unit := { s with cnt := s.cnt + 1, hor := ⟨s.hor.fen.tail ++ [u], 1 + (demodLong.osf : ℝ) / 2, s.hor.cnt + 1, u⟩ } with hs2
  have e2 := horloge_instant demodLong rfl (by simp [demodLong]) hd s2 r1 (by
    show (s.hor.fen.tail ++ [u]).length = 2
    have : s.hor.fen.length = 2 := f1
    simp; omega) (by
    show 1 + (demodLong.osf : ℝ) / 2 = 2
    norm_num [demodLong]) (if v then 1 else 0)
  rw [if_pos (show s2.hor.cnt = 1 from by show s.hor.cnt + 1 = 1; omega)] at e2
  have hi : (if v then 1 else 0) < (pskConstellation 2).length := by
    rw [psk_longueur]
    split <;> omega
  have hdec := decide_sans_memoire (pskConstellation 2) (pskPlusProche 2) demodLong rfl { s2 with cnt := s2.cnt + 1, hor := ⟨s2.hor.fen.tail ++ [if v then 1 else 0], 1 + (demodLong.osf : ℝ) / 2, 0, s2.hor.lyi⟩ } (if v then 1 else 0) _ hi (by
    unfold pskPlusProche bpskDecision
    rw [if_pos rfl]
    cases v <;> simp) s2.gain (by simp [ConfigDec.majGain, demodLong])
  rw [hdec] at e2
  simp only [boucle, e1, e2, Nat.cast_ite, Nat.cast_one, Nat.cast_zero]
  exact ⟨_, rfl⟩

/-- **C145 (refutation: long matched filter).** The reset only feeds five symbols of zeros to the matched filter: with 13 coefficients and two samples per symbol, after one sample and a reset, two null samples are decoded 1 instead of 0. -/
theorem C145_filtre_refute : ∃ s0 s1 s2 s3 s4 y1, DemodDec.cree demodLong = some s0 ∧ DemodDec.step demodLong s0 [1] = some (s1, y1) ∧ s1.reset demodLong 0 = some s2 ∧
    DemodDec.step demodLong s2 [0, 0] = some (s3, [true]) ∧ DemodDec.step demodLong s0 [0, 0] = some (s4, [false]) := by
  have hu : 1 < demodLong.osf ∧ demodLong.horloge ∧ demodLong.fa := by simp [demodLong]
  have hne : (List.replicate 12 0 ++ [1] : List ℝ) ≠ [] := by simp
  obtain ⟨s0, m, e0, e1, n0⟩ := cree_forme demodLong (by simp [demodLong]) (List.replicate 12 0 ++ [1]) (by simp [demodLong, MiseEnForme.coefs])
  have hH0 : s0.avant.Hist demodLong (List.replicate 12 0 ++ [1]) (List.replicate m 0) := ⟨by rw [n0.1, if_pos (by simp [demodLong])], n0.2⟩
  have hconv : ∀ (x : List ℂ) (t : ℕ), Filtre.convolution ((List.replicate 12 0 ++ [1] : List ℝ).map fun v : ℝ => (v : ℂ)) x t = Filtre.passe x t 12 := by
    intro x t
    simp [Filtre.convolution, Finset.sum_range_succ, List.replicate]
  -- a new demodulator, on zeros
  have hnom0 : Nominal demodLong 1 s0.etat := by
    rw [e1]
    exact ⟨⟨rfl, rfl⟩, by simp [etatInitial], by show ((2 / 2 + 1 : ℕ) : ℝ) = _; norm_num⟩
  have hnul : ∃ s4, DemodDec.step demodLong s0 [0, 0] = some (s4, [false]) := by
    obtain ⟨a, -, ea⟩ := hist_step demodLong _ hne _ _ hH0 [0, 0]
    obtain ⟨s', hb⟩ := demodLong_deux s0.etat hnom0 (by rw [e1]; rfl) 0 false
    have hw : (if 1 < demodLong.osf ∧ demodLong.horloge ∧ demodLong.fa then (List.range [(0 : ℂ), 0].length).map fun n : ℕ => Filtre.convolution ((List.replicate 12 0 ++ [1] : List ℝ).map fun v : ℝ => (v : ℂ)) (List.replicate m 0 ++ [0, 0]) ((List.replicate m (0 : ℂ)).length + n) else [0, 0]) = [0, if false then 1 else 0] := by
      rw [if_pos hu]
      rw [List.length_replicate, List.map_congr_left (fun n _ => (convolution_zeros _ _ _ _).trans (hconv _ _))]
      simp [List.range_succ, Filtre.passe]
    rw [hw] at ea
    unfold DemodDec.step
    rw [if_neg (by simp), ea, Option.bind_some]
    dsimp only
    rw [hb, Option.map_some]
    exact ⟨⟨a, s'⟩, by simp [List.reduceOption, symdemap, demodLong]⟩
  obtain ⟨s4, h4⟩ := hnul
  -- one sample
  obtain ⟨a1, hH1, ea1⟩ := hist_step demodLong _ hne _ _ hH0 [1]
  have hw1 : (if 1 < demodLong.osf ∧ demodLong.horloge ∧ demodLong.fa then (List.range [(1 : ℂ)].length).map fun n : ℕ => Filtre.convolution ((List.replicate 12 0 ++ [1] : List ℝ).map fun v : ℝ => (v : ℂ)) (List.replicate m 0 ++ [1]) ((List.replicate m (0 : ℂ)).length + n) else [1]) = [0] := by
    rw [if_pos hu]
    rw [List.length_replicate, List.map_congr_left (fun n _ => (convolution_zeros _ _ _ _).trans (hconv _ _))]
    simp [List.range_succ, Filtre.passe]
  rw [hw1] at ea1
  have e2 := horloge_instant demodLong rfl (by simp [demodLong]) (lineaire_dernier _ rfl rfl) s0.etat hnom0.1 hnom0.2.1 (by rw [hnom0.2.2]; norm_num) 0
  rw [if_neg (by rw [e1]; show ¬ (0 : ℕ) = 1; omega)] at e2
  set t1 : EtatDec Unit := { s0.etat with cnt := s0.etat.cnt + 1, hor := ⟨s0.etat.hor.fen.tail ++ [0], 1 + (demodLong.osf : ℝ) / 2, s0.etat.hor.cnt + 1, 0⟩ } with ht1
  have h1 : DemodDec.step demodLong s0 [1] = some (⟨a1, t1⟩, []) := by
    unfold DemodDec.step
    rw [if_neg (by simp), ea1, Option.bind_some]
    simp only [boucle, e2, Option.map_some]
    simp [List.reduceOption, symdemap]
  -- the reset
  obtain ⟨k1, k2⟩ := hH1
  rw [if_pos hu] at k2
  obtain ⟨f, k2, k3⟩ := k2
  obtain ⟨f', y, e, r, -, -⟩ := rif_histoire _ f _ (List.replicate (5 * demodLong.osf) 0) k3 (by simp)
  set s2 : DemodDec Unit := ⟨{ a1 with filtre := some f' }, { cnt := 0, cnt1 := demodLong.osf - 1, boucle := ⟨0, 0, 0⟩, lye := 0, gain := 1, hor := t1.hor.reset demodLong, ctx := () }⟩ with hs2
  have h2 : DemodDec.reset demodLong 0 ⟨a1, t1⟩ = some s2 := by
    unfold DemodDec.reset Avant.reset
    simp only [show demodLong.horloge = true from rfl, if_true]
    rw [k2]
    simp only [Avant.stepFiltre, e]
    rfl
  have hH2 : s2.avant.Hist demodLong (List.replicate 12 0 ++ [1]) (List.replicate m 0 ++ [1] ++ List.replicate (5 * demodLong.osf) 0) := by
    refine ⟨k1, ?_⟩
    rw [if_pos hu]
    exact ⟨f', rfl, r⟩
  obtain ⟨a3, -, ea3⟩ := hist_step demodLong _ hne _ _ hH2 [0, 0]
  have hw3 : (if 1 < demodLong.osf ∧ demodLong.horloge ∧ demodLong.fa then (List.range [(0 : ℂ), 0].length).map fun n : ℕ => Filtre.convolution ((List.replicate 12 0 ++ [1] : List ℝ).map fun v : ℝ => (v : ℂ)) (List.replicate m 0 ++ [1] ++ List.replicate (5 * demodLong.osf) 0 ++ [0, 0])
      ((List.replicate m (0 : ℂ) ++ [1] ++ List.replicate (5 * demodLong.osf) 0).length + n) else [0, 0]) = [0, if true then 1 else 0] := by
    rw [if_pos hu]
    have hq : ∀ n, Filtre.passe (List.replicate m (0 : ℂ) ++ [1] ++ List.replicate (5 * demodLong.osf) 0 ++ [0, 0]) ((List.replicate m (0 : ℂ) ++ [1] ++ List.replicate (5 * demodLong.osf) 0).length + n) 12 = Filtre.passe ([1] ++ List.replicate 10 0 ++ [0, 0]) (11 + n) 12 := by
      intro n
      have hz := convolution_zeros (List.replicate 12 0 ++ [1]) ([1] ++ List.replicate 10 0 ++ [0, 0]) m (11 + n)
      have hc2 : ∀ (x : List ℂ) (t : ℕ), Filtre.convolution (List.replicate 12 0 ++ [1]) x t = Filtre.passe x t 12 := by
        intro x t
        simp [Filtre.convolution, Finset.sum_range_succ, List.replicate]
      rw [hc2, hc2] at hz
      rw [← hz]
      have hl : (List.replicate m (0 : ℂ) ++ [1] ++ List.replicate (5 * demodLong.osf) 0).length + n = m + (11 + n) := by
        simp [demodLong]; omega
      rw [hl]
      simp [demodLong, List.append_assoc]
    simp only [hconv, hq]
    simp [List.range_succ, Filtre.passe, List.replicate]
  rw [hw3] at ea3
  obtain ⟨s', hb⟩ := demodLong_deux s2.etat ⟨⟨rfl, rfl⟩, by show (List.replicate 2 (0 : ℂ)).length = 2; rfl, by show ((2 / 2 + 1 : ℕ) : ℝ) = _; norm_num⟩ rfl 0 true
  have h3 : DemodDec.step demodLong s2 [0, 0] = some (⟨a3, s'⟩, [true]) := by
    unfold DemodDec.step
    rw [if_neg (by simp), ea3, Option.bind_some]
    dsimp only
    rw [hb, Option.map_some]
    simp [List.reduceOption, symdemap, demodLong]
  exact ⟨s0, ⟨a1, t1⟩, s2, ⟨a3, s'⟩, s4, [], e0, h1, h2, h3, h4⟩

/-- Non-vacuity of `C145_reset`: NRZ pulses, all the loops; a reception of a symbol is possible. -/
example : ∃ c : ConfigDec Unit, c.horloge = true ∧ c.fa = true ∧ c.fi = 0 ∧ (∃ h, c.forme.coefs c.osf = some h ∧ h.length ≤ 5 * c.osf + 1) ∧ ∃ s0 s1 y, DemodDec.cree c = some s0 ∧ enchaine (DemodDec.step c) s0 [[1, 1, 1, 1], [1]] = some (s1, y) := by
  refine ⟨{ exempleDecHorloge false with fi := 0, k := 1, ctx := ctxSansMemoire (pskConstellation 2) (pskPlusProche 2) }, rfl, rfl, rfl, ⟨List.replicate 4 (1 / ((4 : ℕ) : ℝ)), by simp [exempleDecHorloge, MiseEnForme.coefs], by simp [exempleDecHorloge]⟩, ?_⟩
  obtain ⟨s0, s, l, e0, e1, -⟩ := C143_cadence (pskConstellation 2) (pskPlusProche 2) { exempleDecHorloge false with fi := 0, k := 1, ctx := ctxSansMemoire (pskConstellation 2) (pskPlusProche 2) } rfl (fun p => ⟨bpskDecision p, by simp [pskPlusProche], by
      rw [psk_longueur]
      unfold bpskDecision
      split <;> omega⟩) (show 4 ≤ 4 by norm_num) (by simp [exempleDecHorloge, MiseEnForme.coefs]) (show 0 < 2 by norm_num) (fun w τ hw _ _ => by
      obtain ⟨a, b, rfl⟩ : ∃ a b, w = [a, b] := List.length_eq_two.1 hw
      show (itrpRif 2 (fun τ => some (Itrp.coefsLin τ)) [a, b] τ).isSome = true
      have h1 := Itrp.C32_step (Itrp.coefsLin τ) [a.re, b.re] 0 rfl
      have h2 := Itrp.C32_step (Itrp.coefsLin τ) [a.im, b.im] 0 rfl
      rw [show (Itrp.coefsLin τ).length = 2 from rfl] at h1 h2
      unfold itrpRif
      simp only [Option.bind_some, List.map_cons, List.map_nil]
      rw [h1, Option.bind_some, h2]
      rfl) rfl rfl [[1, 1, 1, 1], [1]]
  exact ⟨s0, s, _, e0, e1⟩

end Verif.Telecom
