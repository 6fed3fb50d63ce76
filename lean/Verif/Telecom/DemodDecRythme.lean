import Verif.Telecom.DemodDecHorloge
import Verif.Itrp.Props

/-!
# C144: the demodulator with all its loops, on its own signal
-/

namespace Verif.Telecom

open Filtre (Decoupable enchaine boucle)
open Complex (exp I)

/-- The interpolator gives the last sample of its window at the abscissa 1. -/
def DernierEchantillon {C : Type} (c : ConfigDec C) : Prop := ∀ (w : List ℂ) (v : ℂ), (w ++ [v]).length = c.K → c.itrp (w ++ [v]) 1 = some v

/-- At rest, between two interpolations. -/
theorem horloge_attente {C : Type} (c : ConfigDec C) (hh : c.horloge = true) (hK : 0 < c.K) (w : List ℂ) (s : EtatDec C) (hs : Repos s) (hp : (w.length : ℝ) + 1 < s.hor.phase) (hf : s.hor.fen.length = c.K) :
    ∃ fen, fen.length = c.K ∧ boucle (EtatDec.pas c) s w = some ({ s with cnt := s.cnt + w.length, hor := { s.hor with fen := fen, phase := s.hor.phase - w.length } }, List.replicate w.length none) := by
  induction w generalizing s with
  | nil => exact ⟨s.hor.fen, hf, by simp [boucle]⟩
  | cons v w ih =>
    rw [List.length_cons] at hp
    push_cast at hp
    have e : EtatDec.pas c s v = some ({ s with cnt := s.cnt + 1, hor := { s.hor with fen := s.hor.fen.tail ++ [v], phase := s.hor.phase - 1 } }, none) := by
      unfold EtatDec.pas
      rw [hs.1, tourne_zero, Option.bind_some, hs.2, Complex.ofReal_one, mul_one, ite_self]
      unfold EtatDec.echantillonne RecHorloge.interpole
      rw [if_pos hh, if_neg hK.ne']
      have h1 : 1 < s.hor.phase - 1 := by linarith [Nat.cast_nonneg (α := ℝ) w.length]
      simp only [h1, if_true, Option.map_some, Option.bind_some]
    obtain ⟨fen, hl, hb⟩ := ih { s with cnt := s.cnt + 1, hor := { s.hor with fen := s.hor.fen.tail ++ [v], phase := s.hor.phase - 1 } } hs (by show (w.length : ℝ) + 1 < s.hor.phase - 1; linarith) (by simp; omega)
    refine ⟨fen, hl, ?_⟩
    simp only [boucle, e, hb, List.length_cons, List.replicate_succ]
    rw [show s.cnt + 1 + w.length = s.cnt + (w.length + 1) by omega, show s.hor.phase - 1 - (w.length : ℝ) = s.hor.phase - ((w.length + 1 : ℕ) : ℝ) by push_cast; ring]

/-- The clock in its nominal position before a half symbol of `h` samples. -/
def Nominal {C : Type} (c : ConfigDec C) (h : ℕ) (s : EtatDec C) : Prop := Repos s ∧ s.hor.fen.length = c.K ∧ s.hor.phase = h + 1

/-- The sample of the interpolation: window and phase. -/
theorem horloge_instant {C : Type} (c : ConfigDec C) (hh : c.horloge = true) (hK : 0 < c.K) (hi : DernierEchantillon c) (s : EtatDec C) (hs : Repos s) (hf : s.hor.fen.length = c.K) (hp : s.hor.phase = 2) (v : ℂ) :
    EtatDec.pas c s v = if s.hor.cnt = 1 then EtatDec.decide c { s with cnt := s.cnt + 1, hor := ⟨s.hor.fen.tail ++ [v], 1 + (c.osf : ℝ) / 2, 0, s.hor.lyi⟩ } v
      else some ({ s with cnt := s.cnt + 1, hor := ⟨s.hor.fen.tail ++ [v], 1 + (c.osf : ℝ) / 2, s.hor.cnt + 1, v⟩ }, none) := by
  unfold EtatDec.pas
  rw [hs.1, tourne_zero, Option.bind_some, hs.2, Complex.ofReal_one, mul_one, ite_self]
  unfold EtatDec.echantillonne RecHorloge.interpole
  rw [if_pos hh, if_neg hK.ne']
  have h1 : s.hor.phase - 1 = 1 := by rw [hp]; norm_num
  have h2 : c.itrp (s.hor.fen.tail ++ [v]) 1 = some v := hi _ _ (by simp; omega)
  simp only [h1, lt_irrefl, if_false, not_lt.2 (zero_le_one (α := ℝ)), h2, Option.map_some, Option.bind_some]
  by_cases h3 : s.hor.cnt = 1
  · simp only [h3, if_true]
  · simp only [h3, if_false]

theorem correction_nulle {C : Type} (c : ConfigDec C) (h : RecHorloge) (a b : ℂ) (hl : h.lyi = (a + b) / 2) : h.maj c a b = h := by
  unfold RecHorloge.maj
  split
  · rfl
  · have : correctionDec c (erreurDec h.lyi a b) = 0 := by
      have hR : (0 : ℝ) ≤ c.osf := Nat.cast_nonneg _
      unfold correctionDec erreurDec
      rw [hl, sub_self]
      simp only [cdot, Complex.zero_re, Complex.zero_im, mul_zero, add_zero, zero_div]
      rw [min_eq_left (by positivity), max_eq_right (by linarith)]
    rw [this, sub_zero]

/-- One symbol period: `h - 1` samples, the intermediate value, `h - 1` samples, the symbol. -/
theorem periode (symbs : List (ℝ × ℝ)) (dec : ℝ × ℝ → Option ℕ) (c : ConfigDec Unit) (hctx : c.ctx = ctxSansMemoire symbs dec) (hh : c.horloge = true) (hK : 0 < c.K) (hi : DernierEchantillon c) (h : ℕ) (hh0 : 0 < h) (hosf : c.osf = 2 * h)
    (s : EtatDec Unit) (hs : Nominal c h s) (hc : s.hor.cnt = 0) (i : ℕ) (hil : i < symbs.length) (hd : dec symbs[i] = some i) (hn : c.cag = true → cplx symbs[i] ≠ 0) (w1 w2 : List ℂ) (h1 : w1.length = h - 1) (h2 : w2.length = h - 1) :
    ∃ s', boucle (EtatDec.pas c) s (w1 ++ (s.lye + cplx symbs[i]) / 2 :: (w2 ++ [cplx symbs[i]])) = some (s', List.replicate (2 * h - 1) none ++ [some (i : ℤ)]) ∧ Nominal c h s' ∧ s'.hor.cnt = 0 ∧ s'.lye = cplx symbs[i] := by
  obtain ⟨r1, f1, p1⟩ := hs
  have hc1 : ((h - 1 : ℕ) : ℝ) = h - 1 := by rw [Nat.cast_sub hh0, Nat.cast_one]
  have hosf' : (c.osf : ℝ) / 2 = h := by rw [hosf]; push_cast; ring
  obtain ⟨fen, hl, hb⟩ := horloge_attente c hh hK w1 s r1 (by rw [h1, p1, hc1]; linarith) f1
  rw [h1, hc1] at hb
  set s1 : EtatDec Unit := { s with cnt := s.cnt + (h - 1), hor := { s.hor with fen := fen, phase := s.hor.phase - ((h : ℝ) - 1) } } with hs1
  have r2 : Repos s1 := r1
  have e1 := horloge_instant c hh hK hi s1 r2 hl (by show s.hor.phase - ((h : ℝ) - 1) = 2; rw [p1]; ring) ((s.lye + cplx symbs[i]) / 2)
  rw [if_neg (by show ¬ s.hor.cnt = 1; omega)] at e1
  set s2 : EtatDec Unit := { s1 with cnt := s1.cnt + 1, hor := ⟨s1.hor.fen.tail ++ [(s.lye + cplx symbs[i]) / 2], 1 + (c.osf : ℝ) / 2, s1.hor.cnt + 1, (s.lye + cplx symbs[i]) / 2⟩ } with hs2
  have f2 : s2.hor.fen.length = c.K := by
    show (fen.tail ++ [(s.lye + cplx symbs[i]) / 2]).length = c.K
    simp; omega
  obtain ⟨fen2, hl2, hb2⟩ := horloge_attente c hh hK w2 s2 r2 (by
    show (w2.length : ℝ) + 1 < 1 + (c.osf : ℝ) / 2
    rw [h2, hc1, hosf']; linarith) f2
  rw [h2, hc1] at hb2
  set s3 : EtatDec Unit := { s2 with cnt := s2.cnt + (h - 1), hor := { s2.hor with fen := fen2, phase := s2.hor.phase - ((h : ℝ) - 1) } } with hs3
  have e3 := horloge_instant c hh hK hi s3 r1 hl2 (by show 1 + (c.osf : ℝ) / 2 - ((h : ℝ) - 1) = 2; rw [hosf']; ring) (cplx symbs[i])
  rw [if_pos (by show s.hor.cnt + 1 = 1; omega)] at e3
  have hg : c.majGain s.gain (cplx symbs[i]) (cplx symbs[i]) = some 1 := by
    unfold ConfigDec.majGain
    rw [r1.2]
    split
    · rename_i hca
      have hz := hn hca
      rw [if_neg (by simp [hz]), div_self (norm_ne_zero_iff.2 hz)]
      congr 1
      ring
    · rfl
  have hdec := decide_sans_memoire symbs dec c hctx { s3 with cnt := s3.cnt + 1, hor := ⟨s3.hor.fen.tail ++ [cplx symbs[i]], 1 + (c.osf : ℝ) / 2, 0, s3.hor.lyi⟩ } (cplx symbs[i]) i hil hd 1 hg
  have hmaj : RecHorloge.maj c ⟨s3.hor.fen.tail ++ [cplx symbs[i]], 1 + (c.osf : ℝ) / 2, 0, s3.hor.lyi⟩ s3.lye (cplx symbs[i]) = ⟨s3.hor.fen.tail ++ [cplx symbs[i]], 1 + (c.osf : ℝ) / 2, 0, s3.hor.lyi⟩ := correction_nulle c _ _ _ rfl
  simp only [hmaj, ite_self] at hdec
  rw [hdec] at e3
  refine ⟨{ s3 with cnt := s3.cnt + 1, hor := ⟨s3.hor.fen.tail ++ [cplx symbs[i]], 1 + (c.osf : ℝ) / 2, 0, s3.hor.lyi⟩, gain := 1, lye := cplx symbs[i], boucle := if 2 ≤ s3.cnt + 1 ∧ c.porteuse then lf2 c.BL c.η s3.boucle (Complex.arg (cplx symbs[i] * (starRingEnd ℂ) (cplx symbs[i]))) else s3.boucle },
    ?_, ⟨⟨?_, rfl⟩, ?_, ?_⟩, rfl, rfl⟩
  · rw [Filtre.boucle_append, hb]
    simp only [boucle, e1]
    rw [Filtre.boucle_append, hb2]
    simp only [boucle, e3]
    simp only [Option.some.injEq, Prod.mk.injEq, true_and]
    rw [show 2 * h - 1 = (h - 1) + (1 + (h - 1)) by omega, List.replicate_add, List.replicate_add]
    simp
  · show (if 2 ≤ s3.cnt + 1 ∧ c.porteuse then lf2 c.BL c.η s.boucle (Complex.arg (cplx symbs[i] * (starRingEnd ℂ) (cplx symbs[i]))) else s.boucle) = _
    split
    · rw [r1.1, arg_carre]; simp [lf2]
    · exact r1.1
  · show (fen2.tail ++ [cplx symbs[i]]).length = c.K
    simp; omega
  · show 1 + (c.osf : ℝ) / 2 = h + 1
    rw [hosf']; ring

theorem coupe_periode (h : ℕ) (hh : 0 < h) (z : List ℂ) (hz : z.length = 2 * h) (u v : ℂ) (hu : z[h - 1]? = some u) (hv : z[2 * h - 1]? = some v) :
    z = z.take (h - 1) ++ u :: ((z.drop h).take (h - 1) ++ [v]) := by
  have h1 : h - 1 < z.length := by omega
  have h2 : 2 * h - 1 < z.length := by omega
  rw [List.getElem?_eq_getElem h1] at hu
  rw [List.getElem?_eq_getElem h2] at hv
  conv_lhs => rw [← List.take_append_drop (h - 1) z]
  congr 1
  rw [List.drop_eq_getElem_cons h1, Option.some.inj hu, Nat.sub_add_cancel hh]
  congr 1
  conv_lhs => rw [← List.take_append_drop (h - 1) (z.drop h)]
  congr 1
  rw [List.drop_drop, show h + (h - 1) = 2 * h - 1 by omega, List.drop_eq_getElem_cons h2, Option.some.inj hv, show 2 * h - 1 + 1 = 2 * h by omega, ← hz, List.drop_length]

/-- `n` symbols. -/
theorem flux_nominal (symbs : List (ℝ × ℝ)) (dec : ℝ × ℝ → Option ℕ) (hdec : ∀ i (h : i < symbs.length), dec symbs[i] = some i) (c : ConfigDec Unit) (hctx : c.ctx = ctxSansMemoire symbs dec) (hh : c.horloge = true) (hK : 0 < c.K)
    (hi : DernierEchantillon c) (h : ℕ) (hh0 : 0 < h) (hosf : c.osf = 2 * h) (hn : c.cag = true → ∀ p ∈ symbs, cplx p ≠ 0) (idx : ℕ → ℕ) (n : ℕ) (hidx : ∀ m, m < n → idx m < symbs.length) (e : ℕ → ℂ) (he : ∀ m, m < n → e (m + 1) = cplx (symbs.getD (idx m) (0, 0)))
    (s : EtatDec Unit) (hs : Nominal c h s) (hc : s.hor.cnt = 0) (hl : s.lye = e 0) (x : List ℂ) (hx : x.length = n * (2 * h)) (hx1 : ∀ m, m < n → x[m * (2 * h) + (h - 1)]? = some ((e m + e (m + 1)) / 2)) (hx2 : ∀ m, m < n → x[m * (2 * h) + (2 * h - 1)]? = some (e (m + 1))) :
    ∃ s' l, boucle (EtatDec.pas c) s x = some (s', l) ∧ l.reduceOption = (List.range n).map (fun m => (idx m : ℤ)) ∧ Nominal c h s' ∧ s'.hor.cnt = 0 ∧ s'.lye = e n := by
  induction n generalizing x with
  | zero =>
    obtain rfl : x = [] := List.length_eq_zero_iff.1 (by simpa using hx)
    exact ⟨s, [], rfl, rfl, hs, hc, hl⟩
  | succ n ih =>
    have hlt : ∀ m, m < n → ∀ r, r < 2 * h → m * (2 * h) + r < n * (2 * h) := by
      intro m hm r hr
      have : (m + 1) * (2 * h) ≤ n * (2 * h) := Nat.mul_le_mul_right _ hm
      rw [Nat.succ_mul] at this
      omega
    rw [Nat.succ_mul] at hx
    obtain ⟨s1, l1, e1, r1, N1, c1, y1⟩ := ih (fun m hm => hidx m (by omega)) (fun m hm => he m (by omega)) (x.take (n * (2 * h))) (by rw [List.length_take]; omega)
      (fun m hm => by rw [List.getElem?_take, if_pos (hlt m hm _ (by omega))]; exact hx1 m (by omega)) (fun m hm => by rw [List.getElem?_take, if_pos (hlt m hm _ (by omega))]; exact hx2 m (by omega))
    have hin := hidx n (by omega)
    have hen := he n (by omega)
    rw [List.getD_eq_getElem _ _ hin] at hen
    have hsp := coupe_periode h hh0 (x.drop (n * (2 * h))) (by rw [List.length_drop]; omega) ((s1.lye + cplx symbs[idx n]) / 2) (cplx symbs[idx n]) (by rw [List.getElem?_drop, hx1 n (by omega), y1, hen]) (by rw [List.getElem?_drop, hx2 n (by omega), hen])
    obtain ⟨s2, e2, N2, c2, y2⟩ := periode symbs dec c hctx hh hK hi h hh0 hosf s1 N1 c1 (idx n) hin (hdec _ hin) (fun hca => hn hca _ (List.getElem_mem hin)) ((x.drop (n * (2 * h))).take (h - 1)) (((x.drop (n * (2 * h))).drop h).take (h - 1))
      (by rw [List.length_take, List.length_drop]; omega) (by rw [List.length_take, List.length_drop, List.length_drop]; omega)
    rw [← hsp] at e2
    refine ⟨s2, l1 ++ (List.replicate (2 * h - 1) none ++ [some (idx n : ℤ)]), ?_, ?_, N2, c2, by rw [y2, hen]⟩
    · rw [← List.take_append_drop (n * (2 * h)) x, Filtre.boucle_append, e1]
      simp only
      rw [e2]
    · simp [List.reduceOption_append, r1, List.range_succ, List.reduceOption_replicate_none]

/-! ### The matched filter of NRZ pulses -/

/-- The value of the stream of NRZ pulses, `e (m + 1)` during the symbol `m`. -/
theorem adapte_nrz (h : ℕ) (hh : 0 < h) (n : ℕ) (e : ℕ → ℂ) (he0 : e 0 = 0) (x : List ℂ) (hx : x.length = n * (2 * h)) (hv : ∀ m r, m < n → r < 2 * h → x.getD (m * (2 * h) + r) 0 = e (m + 1)) (m : ℕ) (hm : m < n) :
    Filtre.convolution ((List.replicate (2 * h) (1 / ((2 * h : ℕ) : ℝ))).map fun v : ℝ => (v : ℂ)) x (m * (2 * h) + (h - 1)) = (e m + e (m + 1)) / 2 ∧
    Filtre.convolution ((List.replicate (2 * h) (1 / ((2 * h : ℕ) : ℝ))).map fun v : ℝ => (v : ℂ)) x (m * (2 * h) + (2 * h - 1)) = e (m + 1) := by
  have hc : ∀ t : ℕ, Filtre.convolution ((List.replicate (2 * h) (1 / ((2 * h : ℕ) : ℝ))).map fun v : ℝ => (v : ℂ)) x t = (1 / (2 * h : ℂ)) * ∑ k ∈ Finset.range (2 * h), Filtre.passe x t k := by
    intro t
    unfold Filtre.convolution
    rw [List.map_replicate, List.length_replicate, Finset.mul_sum]
    refine Finset.sum_congr rfl fun k hk => ?_
    rw [List.getD_eq_getElem _ _ (by rw [List.length_replicate]; exact Finset.mem_range.1 hk), List.getElem_replicate]
    push_cast
    rfl
  have hh' : (h : ℂ) ≠ 0 := by exact_mod_cast hh.ne'
  constructor
  · rw [hc, show 2 * h = h + h by ring, Finset.sum_range_add]
    have s1 : ∀ k ∈ Finset.range h, Filtre.passe x (m * (h + h) + (h - 1)) k = e (m + 1) := by
      intro k hk
      have hk := Finset.mem_range.1 hk
      unfold Filtre.passe
      rw [if_pos (by omega), show m * (h + h) + (h - 1) - k = m * (2 * h) + (h - 1 - k) by rw [two_mul]; omega]
      exact hv m _ hm (by omega)
    have s2 : ∀ k ∈ Finset.range h, Filtre.passe x (m * (h + h) + (h - 1)) (h + k) = e m := by
      intro k hk
      have hk := Finset.mem_range.1 hk
      unfold Filtre.passe
      cases m with
      | zero => rw [if_neg (by omega), he0]
      | succ m =>
        rw [Nat.succ_mul, if_pos (by omega), show m * (h + h) + (h + h) + (h - 1) - (h + k) = m * (2 * h) + (2 * h - 1 - k) by rw [two_mul]; omega]
        exact hv m _ (by omega) (by omega)
    rw [Finset.sum_congr rfl s1, Finset.sum_congr rfl s2]
    simp only [Finset.sum_const, Finset.card_range, nsmul_eq_mul]
    field_simp
    ring
  · rw [hc]
    have s1 : ∀ k ∈ Finset.range (2 * h), Filtre.passe x (m * (2 * h) + (2 * h - 1)) k = e (m + 1) := by
      intro k hk
      have hk := Finset.mem_range.1 hk
      unfold Filtre.passe
      rw [if_pos (by omega), show m * (2 * h) + (2 * h - 1) - k = m * (2 * h) + (2 * h - 1 - k) by omega]
      exact hv m _ hm (by omega)
    rw [Finset.sum_congr rfl s1]
    simp only [Finset.sum_const, Finset.card_range, nsmul_eq_mul]
    push_cast
    field_simp

/-- **C144 (round trip, all loops).** Any bits modulated with NRZ pulses (even `osf`) and received without noise at the intermediate frequency `fi` come back exactly, without delay and without any missing symbol, from the demodulator with
clock recovery (with an interpolator that is exact at the abscissa 1, such as the linear one), matched filter, carrier recovery and AGC (if the constellation has no null point), whatever the settings of the loops and the two cuttings. -/
theorem C144_aller_retour (symbs : List (ℝ × ℝ)) (k : ℕ) (hk : 0 < k) (hM : 2 ^ k ≤ symbs.length) (dec : ℝ × ℝ → Option ℕ) (hdec : ∀ i (h : i < symbs.length), dec symbs[i] = some i)
    (c : ConfigDec Unit) (hctx : c.ctx = ctxSansMemoire symbs dec) (hck : c.k = k) (hosf : 0 < c.osf) (hpair : c.osf % 2 = 0) (hh : c.horloge = true) (hK : 0 < c.K) (hi : DernierEchantillon c) (hfa : c.fa = true)
    (hn : c.cag = true → ∀ p ∈ symbs, cplx p ≠ 0) (hf : c.forme = .nrz) (bits : List (List Bool)) (hb : ∀ b ∈ bits, b.length % k = 0) :
    ∃ m0 m y s0, Modulateur.cree .nrz c.osf = some m0 ∧ enchaine (Modulateur.stepBits symbs k none) m0 bits = some (m, y) ∧ DemodDec.cree c = some s0 ∧
      ∀ blocs : List (List ℂ), blocs.flatten.length = y.length →
        (∀ t, t < y.length → blocs.flatten.getD t 0 = exp ((2 * Real.pi * (t * c.fi) : ℝ) * I) * y.getD t 0) →
        ∃ s, enchaine (DemodDec.step c) s0 blocs = some (s, bits.flatten) := by
  obtain ⟨h, hR⟩ : ∃ h, c.osf = 2 * h := ⟨c.osf / 2, by omega⟩
  have hh0 : 0 < h := by omega
  obtain ⟨sy, m0, m, e1, e2, e3⟩ := C97_nrz symbs k hk hM c.osf hosf bits hb
  obtain ⟨idx, f1, f2, f3⟩ := bits_indices symbs k hk hM bits.flatten
  rw [f1] at e1
  obtain rfl := Option.some.inj e1
  have hmq : manque bits.flatten.length k = 0 := by
    have : bits.flatten.length % k = 0 := by
      clear e3 f1 f3
      induction bits with
      | nil => simp
      | cons b l ih =>
        rw [List.flatten_cons, List.length_append, Nat.add_mod, hb b (by simp), ih (fun b hb' => hb b (by simp [hb']))]
        simp
    rw [manque, this, Nat.sub_zero, Nat.mod_self]
  rw [hmq, List.replicate_zero, List.append_nil] at f3
  obtain ⟨g1, g2⟩ := flatMap_getElem c.osf (fun p : ℝ × ℝ => List.replicate c.osf (cplx p)) (fun a => by simp) (idx.map fun i => symbs.getD i (0, 0))
  have hcf : c.forme.coefs c.osf = some (List.replicate c.osf (1 / (c.osf : ℝ))) := by
    rw [hf]
    unfold MiseEnForme.coefs
    rw [if_neg hosf.ne', if_neg (by omega)]
  obtain ⟨s0, _, e0, -⟩ := cree_forme c hosf _ hcf
  refine ⟨m0, m, _, s0, e2, e3, e0, fun blocs hlen hbr => ?_⟩
  obtain ⟨s0', a, e0', e4⟩ := demod_flux c hosf _ hcf blocs
  rw [e0] at e0'
  obtain rfl := Option.some.inj e0'
  rw [g1, List.length_map] at hlen hbr
  set y := List.flatMap (fun p : ℝ × ℝ => List.replicate c.osf (cplx p)) (idx.map fun i => symbs.getD i (0, 0)) with hy
  rw [List.length_map] at g1
  have hr0 : (if c.fi = 0 then blocs.flatten else transpose c.fi blocs.flatten) = y := by
    have hl : (if c.fi = 0 then blocs.flatten else transpose c.fi blocs.flatten).length = idx.length * c.osf := by
      split
      · exact hlen
      · rw [transpose_long]; exact hlen
    refine Fourier.list_ext_getD _ _ (by rw [hl, g1]) fun t ht => ?_
    rw [hl] at ht
    have hb2 := hbr t ht
    split
    · rename_i h0
      rw [hb2, h0]; simp
    · rw [transpose_get _ _ _ (by omega), hb2, mul_right_comm, ← Complex.exp_add]
      simp
  have hr : recu c (List.replicate c.osf (1 / (c.osf : ℝ))) blocs.flatten = (List.range y.length).map fun n : ℕ => Filtre.convolution ((List.replicate c.osf (1 / (c.osf : ℝ))).map fun v : ℝ => (v : ℂ)) y n := by
    unfold recu
    rw [hr0]
    dsimp only
    rw [if_pos ⟨by omega, hh, hfa⟩]
  rw [hr] at e4
  set e : ℕ → ℂ := fun m => match m with
    | 0 => 0
    | m + 1 => cplx (symbs.getD (idx.getD m 0) (0, 0)) with hedef
  rw [hR] at g1
  have hv : ∀ m r, m < idx.length → r < 2 * h → y.getD (m * (2 * h) + r) 0 = e (m + 1) := by
    intro m r hm hr
    have := g2 m r (by rw [List.length_map]; exact hm) (by omega)
    rw [hR] at this
    rw [List.getD_eq_getElem?_getD, this, List.getElem?_replicate, if_pos hr, List.getElem_map, Option.getD_some]
    show _ = cplx (symbs.getD (idx.getD m 0) (0, 0))
    rw [List.getD_eq_getElem idx 0 hm]
  have hconv := adapte_nrz h hh0 idx.length e rfl y g1 hv
  have hget : ∀ t, t < idx.length * (2 * h) → ((List.range y.length).map fun n : ℕ => Filtre.convolution ((List.replicate c.osf (1 / (c.osf : ℝ))).map fun v : ℝ => (v : ℂ)) y n)[t]? = some (Filtre.convolution ((List.replicate (2 * h) (1 / ((2 * h : ℕ) : ℝ))).map fun v : ℝ => (v : ℂ)) y t) := by
    intro t ht
    rw [List.getElem?_map, List.getElem?_range (by omega), hR]
    rfl
  have hlt : ∀ m, m < idx.length → ∀ r, r < 2 * h → m * (2 * h) + r < idx.length * (2 * h) := by
    intro m hm r hr
    have : (m + 1) * (2 * h) ≤ idx.length * (2 * h) := Nat.mul_le_mul_right _ hm
    rw [Nat.succ_mul] at this
    omega
  obtain ⟨s', l, h1, h2, -⟩ := flux_nominal symbs dec hdec c hctx hh hK hi h hh0 hR hn (fun m => idx.getD m 0) idx.length (fun m hm => by rw [List.getD_eq_getElem _ _ hm]; exact f2 _ (List.getElem_mem hm)) e (fun m hm => rfl)
    (etatInitial c) ⟨⟨rfl, rfl⟩, by simp [etatInitial], by
      show ((c.osf / 2 + 1 : ℕ) : ℝ) = h + 1
      rw [hR, Nat.mul_div_cancel_left _ (by norm_num : 0 < 2)]
      push_cast
      ring⟩ rfl rfl ((List.range y.length).map fun n : ℕ => Filtre.convolution ((List.replicate c.osf (1 / (c.osf : ℝ))).map fun v : ℝ => (v : ℂ)) y n) (by rw [List.length_map, List.length_range, g1]) (fun m hm => by rw [hget _ (hlt m hm _ (by omega)), (hconv m hm).1]) (fun m hm => by rw [hget _ (hlt m hm _ (by omega)), (hconv m hm).2])
  refine ⟨⟨a, s'⟩, ?_⟩
  rw [e4, h1, Option.map_some, h2, hck]
  rw [← f3]
  congr 3
  refine List.ext_getElem (by simp) fun n hn1 hn2 => ?_
  simp only [List.getElem_map, List.getElem_range, Int.toNat_natCast]
  rw [List.getD_eq_getElem]

/-- The linear interpolator is exact at the abscissa 1. -/
theorem lineaire_dernier {C : Type} (c : ConfigDec C) (hK : c.K = 2) (hi : c.itrp = itrpRif 2 fun τ => some (Itrp.coefsLin τ)) : DernierEchantillon c := by
  intro w v hw
  rw [hi]
  obtain ⟨a, rfl⟩ : ∃ a, w = [a] := List.length_eq_one_iff.1 (by simp [hK] at hw; exact hw)
  unfold itrpRif
  have h1 := (Itrp.C32_lineaire_affine a.re v.re (0 : ℝ)).2.2
  have h2 := (Itrp.C32_lineaire_affine a.im v.im (0 : ℝ)).2.2
  simp only [Option.bind_some, List.map_append, List.map_cons, List.map_nil, List.singleton_append, List.cons_append, List.nil_append]
  rw [h1, Option.bind_some, h2]
  rfl

end Verif.Telecom
