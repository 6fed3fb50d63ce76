import Verif.Telecom.RecepteurExemples
import Verif.Telecom.EmetteurProps
import Verif.Itrp.Sinc
import Verif.Telecom.CmpBitsProps

/-!
# Receiver: the bits of the frame (NRZ pulses)
-/

namespace Verif.Telecom

open Complex (exp I)

theorem unSur_snoc (R : ℕ) (x : List ℂ) (v : ℂ) : Filtre.unSur R (x ++ [v]) = Filtre.unSur R x ++ if x.length % R = 0 then [v] else [] := by
  unfold Filtre.unSur
  rw [List.zipIdx_append, List.filter_append, List.map_append]
  simp only [List.zipIdx_cons, List.zipIdx_nil, List.filter_cons, List.filter_nil, Nat.zero_add]
  by_cases h : x.length % R = 0 <;> simp [h]

/-- The sample `m` of the decimated signal is the sample `m R` of the signal. -/
theorem unSur_get (R : ℕ) (hR : 0 < R) (x : List ℂ) : ∀ m, m * R < x.length → (Filtre.unSur R x)[m]? = x[m * R]? := by
  induction x using List.reverseRecOn with
  | nil => intro m h; simp at h
  | append_singleton x v ih =>
    intro m hm
    obtain ⟨h1, h2⟩ := unSur_longueur R hR x
    rw [List.length_append, List.length_singleton] at hm
    rw [unSur_snoc]
    by_cases h : m * R < x.length
    · have : m < (Filtre.unSur R x).length := by
        by_contra hc
        have : R * (Filtre.unSur R x).length ≤ R * m := Nat.mul_le_mul_left R (by omega)
        rw [Nat.mul_comm R m] at this
        omega
      rw [List.getElem?_append_left this, List.getElem?_append_left h, ih m h]
    · have e : m * R = x.length := by omega
      have hl : (Filtre.unSur R x).length = m := by
        rw [← e, Nat.mul_comm m R] at h1 h2
        have a1 := Nat.le_of_mul_le_mul_left h1 hR
        have a2 : R * (Filtre.unSur R x).length < R * (m + 1) := by rw [Nat.mul_add, Nat.mul_one]; exact h2
        have a3 := Nat.lt_of_mul_lt_mul_left a2
        omega
      rw [if_pos (by rw [← e]; exact Nat.mul_mod_left m R), List.getElem?_append_right (by omega), List.getElem?_append_right (by omega), hl, e, Nat.sub_self, Nat.sub_self]

theorem passe_avant (z : List ℂ) (n k : ℕ) (h : k ≤ n) : Filtre.passe z n k = z.getD (n - k) 0 := by
  unfold Filtre.passe
  rw [if_pos h]

theorem filtree_get (h : List ℝ) (x : List ℂ) (n : ℕ) (hn : n < x.length) : (filtree h x).getD n 0 = ∑ k ∈ Finset.range h.length, ((h.getD k 0 : ℝ) : ℂ) * Filtre.passe x n k := by
  unfold filtree
  rw [List.getD_eq_getElem _ _ (by simpa using hn)]
  simp only [List.getElem_map, List.getElem_range, Filtre.convolution, List.length_map]
  refine Finset.sum_congr rfl fun k hk => ?_
  rw [Finset.mem_range] at hk
  rw [List.getD_eq_getElem _ _ (by simpa using hk), List.getD_eq_getElem _ _ hk, List.getElem_map]

/-- An interpolator close to a pure delay of `q` samples. -/
theorem itrp_proche (h1 : List ℝ) (q : ℕ) (η B : ℝ) (hq : q < h1.length) (hη : ∑ l ∈ Finset.range h1.length, |h1.getD l 0 - if l = q then 1 else 0| ≤ η) (ζ : List ℂ) (hB : ∀ n, ‖ζ.getD n 0‖ ≤ B) (n : ℕ) (hn : n < ζ.length) (hqn : q ≤ n) :
    ‖(filtree h1 ζ).getD n 0 - ζ.getD (n - q) 0‖ ≤ η * B := by
  have hB0 : 0 ≤ B := (norm_nonneg _).trans (hB 0)
  rw [filtree_get _ _ _ hn]
  have e : ζ.getD (n - q) 0 = ∑ l ∈ Finset.range h1.length, ((if l = q then (1 : ℝ) else 0 : ℝ) : ℂ) * Filtre.passe ζ n l := by
    rw [Finset.sum_eq_single q]
    · rw [if_pos rfl, passe_avant _ _ _ hqn]; simp
    · intro l _ hl; rw [if_neg hl]; simp
    · intro h; exact absurd (Finset.mem_range.2 hq) h
  rw [e, ← Finset.sum_sub_distrib]
  refine (norm_sum_le _ _).trans ?_
  refine le_trans (Finset.sum_le_sum (g := fun l => |h1.getD l 0 - if l = q then 1 else 0| * B) fun l _ => ?_) ?_
  · rw [← sub_mul, norm_mul, ← Complex.ofReal_sub, Complex.norm_real, Real.norm_eq_abs]
    refine mul_le_mul_of_nonneg_left ?_ (abs_nonneg _)
    unfold Filtre.passe
    split
    · exact hB _
    · simpa using hB0
  · rw [← Finset.sum_mul]
    exact mul_le_mul_of_nonneg_right hη hB0

/-- A sample after the interpolator and the matched filter: the mean of the samples of the symbol. -/
theorem moyenne_proche (R a : ℕ) (hR : 0 < R) (h1 : List ℝ) (hl : a + 1 < h1.length) (η B ε : ℝ) (hη : ∑ l ∈ Finset.range h1.length, |h1.getD l 0 - if l = a + 1 then 1 else 0| ≤ η) (ζ : List ℂ) (hB : ∀ n, ‖ζ.getD n 0‖ ≤ B) (m : ℕ) (s : ℂ)
    (hs : ∀ r, r < R → ‖ζ.getD (m * R + r) 0 - s‖ ≤ ε) (hn : a + R + m * R < ζ.length) :
    ‖(filtree (List.replicate R (1 / (R : ℝ))) (filtree h1 ζ)).getD (a + R + m * R) 0 - s‖ ≤ ε + η * B := by
  have hRr : (0 : ℝ) < R := by exact_mod_cast hR
  have hlen : (filtree h1 ζ).length = ζ.length := by simp [filtree]
  rw [filtree_get _ _ _ (by rw [hlen]; exact hn), List.length_replicate]
  have e : s = ∑ k ∈ Finset.range R, ((1 / (R : ℝ) : ℝ) : ℂ) * s := by
    rw [Finset.sum_const, Finset.card_range, nsmul_eq_mul, ← mul_assoc]
    push_cast
    rw [mul_one_div_cancel (by exact_mod_cast hR.ne'), one_mul]
  rw [show ‖(∑ k ∈ Finset.range R, (((List.replicate R (1 / (R : ℝ))).getD k 0 : ℝ) : ℂ) * Filtre.passe (filtree h1 ζ) (a + R + m * R) k) - s‖ = ‖(∑ k ∈ Finset.range R, ((1 / (R : ℝ) : ℝ) : ℂ) * (Filtre.passe (filtree h1 ζ) (a + R + m * R) k - s))‖ by
    congr 1
    conv_lhs => rw [e]
    rw [← Finset.sum_sub_distrib]
    refine Finset.sum_congr rfl fun k hk => ?_
    rw [Finset.mem_range] at hk
    rw [List.getD_eq_getElem _ _ (by simpa using hk), List.getElem_replicate, mul_sub]]
  refine (norm_sum_le _ _).trans ?_
  have key : ∀ k ∈ Finset.range R, ‖((1 / (R : ℝ) : ℝ) : ℂ) * (Filtre.passe (filtree h1 ζ) (a + R + m * R) k - s)‖ ≤ 1 / (R : ℝ) * (ε + η * B) := by
    intro k hk
    rw [Finset.mem_range] at hk
    rw [norm_mul, Complex.norm_real, Real.norm_eq_abs, abs_of_pos (by positivity)]
    refine mul_le_mul_of_nonneg_left ?_ (by positivity)
    rw [passe_avant _ _ _ (by omega)]
    have k1 := itrp_proche h1 (a + 1) η B hl hη ζ hB (a + R + m * R - k) (by omega) (by omega)
    have k2 := hs (R - 1 - k) (by omega)
    rw [show a + R + m * R - k - (a + 1) = m * R + (R - 1 - k) by omega] at k1
    calc ‖(filtree h1 ζ).getD (a + R + m * R - k) 0 - s‖ = ‖((filtree h1 ζ).getD (a + R + m * R - k) 0 - ζ.getD (m * R + (R - 1 - k)) 0) + (ζ.getD (m * R + (R - 1 - k)) 0 - s)‖ := by congr 1; ring
      _ ≤ _ := norm_add_le _ _
      _ ≤ _ := by linarith
  refine (Finset.sum_le_sum key).trans ?_
  rw [Finset.sum_const, Finset.card_range, nsmul_eq_mul, ← mul_assoc, mul_one_div_cancel hRr.ne', one_mul]

/-- **C152 (the bits received are the bits sent).**  NRZ pulses (matched filter: mean over a symbol), interpolator with `2 a + 1` coefficients (the default is 15), memoryless decision correct when the squared distance to the symbol is less than `d / 4`.  If the header is detected where
the signal contains it (the position of the pattern is one sample before the first sample of the header, see C151), with its exact gain `g > 0` and phase `θ`, if the samples of the data that follow the header are those of the modulated bits, amplified by `g`, turned by `θ` and disturbed by at most
`g ε`, and if the interpolator of the delay 1 differs by at most `η` from a pure delay of `a + 1` samples, with `4 (ε + η B)² < d` where `g B` bounds the received samples, then the frame delivered for this detection contains exactly the bits sent. -/
theorem C152_nrz {D : Type} (c : ConfigRec D Unit) (hc : ValideRec c) (symbs : List (ℝ × ℝ)) (hM : 2 ^ c.k ≤ symbs.length) (dec : ℝ × ℝ → Option ℕ) (d : ℝ) (hdec : ∀ i (h : i < symbs.length) p, 4 * dist2 p symbs[i] < d → dec p = some i)
    (htot : ∀ p, ∃ i, dec p = some i ∧ i < symbs.length) (hctx : c.demod.ctx = ctxSansMemoire symbs dec) (hp : c.demod.porteuse = false) (hg : c.demod.cag = false) (hh : c.h = List.replicate c.osf (1 / (c.osf : ℝ))) (a : ℕ) (hnc : c.nc = 2 * a + 1)
    (hdt : c.dtMod = 1 / 2) (h1 : List ℝ) (hi : c.itrp 1 = some h1) (hl : a + 1 < h1.length) (η B ε : ℝ) (hη : ∑ l ∈ Finset.range h1.length, |h1.getD l 0 - if l = a + 1 then 1 else 0| ≤ η)
    (det : Fourier.Detection) (hpos : det.positionPrec = some (det.position : ℝ)) (g θ : ℝ) (hg0 : 0 < g) (hdg : det.gain = some g) (hdθ : det.theta = some θ) (bits : List Bool) (hb : bits.length = c.nbits) (sy : List (ℝ × ℝ))
    (hsy : genereSymboles symbs c.k bits = some sy) (X : List ℂ) (b S : ℕ) (hS : (S : ℤ) = b * c.Ne + (det.position + 1) + c.M) (hX : ∀ n, ‖X.getD n 0‖ ≤ g * B)
    (hsig : ∀ m (hm : m < sy.length) r, r < c.osf → ‖X.getD (S + (m * c.osf + r)) 0 - g * exp (θ * I) * cplx sy[m]‖ ≤ g * ε) (hd : 4 * (ε + η * B) ^ 2 < d) (t : TrameRec) (ht : Livree c X b det t) : t.bs = bits := by
  obtain ⟨z, bs, y, k1, k2, k3, k4, -⟩ := ht
  have hdi : c.dtItrp = 1 / 2 := by
    unfold ConfigRec.dtItrp
    rw [hnc, hh, List.length_replicate, show (2 * a + 1 + c.osf + c.osf) % 2 = 1 by omega]
    norm_num
  have hret : c.retard = a + c.osf := by
    unfold ConfigRec.retard
    rw [hnc, hh, List.length_replicate]
    omega
  have hpre : c.precise det = some ((det.position : ℝ) + 1) := by
    unfold ConfigRec.precise
    rw [hpos, Option.bind_some, if_pos (by simp), hdt, hdi]
    congr 1
    ring
  have hfr : 1 - Int.fract ((det.position : ℝ) + 1) = 1 := by
    rw [show ((det.position : ℝ) + 1) = ((det.position + 1 : ℤ) : ℝ) by push_cast; ring, Int.fract_intCast, sub_zero]
  have hfl : debutTrame c b det = S := by
    unfold debutTrame
    rw [hpre, Option.getD_some, show ((det.position : ℝ) + 1) = ((det.position + 1 : ℤ) : ℝ) by push_cast; ring, Int.floor_intCast, hS]
  have hcor : correctionRec det = some (((1 / g : ℝ) : ℂ) * exp ((-θ : ℝ) * I)) := by
    unfold correctionRec
    rw [hdg, hdθ, Option.bind_some, Option.bind_some, if_neg hg0.ne']
  choose f hf1 hf2 using htot
  rw [horsLigne_val c hc symbs dec (fun z => f (z.re, z.im)) (fun z => ⟨hf1 _, hf2 _⟩) hctx hp hg det _ hpre h1 (by rw [hfr]; exact hi) _ hcor z] at k2
  simp only [Option.some.injEq, Prod.mk.injEq] at k2
  obtain ⟨rfl, rfl⟩ := k2
  rw [hfl] at k1
  set w : ℂ := ((1 / g : ℝ) : ℂ) * exp ((-θ : ℝ) * I) with hw
  set ζ := z.map fun v : ℂ => v * w with hζ
  set F := filtree c.h (filtree h1 ζ) with hF
  set Y := Filtre.unSur c.osf (F.drop c.retard) with hY
  have hζl : ζ.length = z.length := by simp [hζ]
  have hFl : F.length = z.length := by simp [hF, filtree, hζl]
  have hwn : ‖w‖ = 1 / g := by
    rw [hw, norm_mul, Complex.norm_exp_ofReal_mul_I, mul_one, Complex.norm_real, Real.norm_eq_abs, abs_of_pos (by positivity)]
  have hwg : (g : ℂ) * exp (θ * I) * w = 1 := by
    rw [hw, show (g : ℂ) * exp (θ * I) * (((1 / g : ℝ) : ℂ) * exp ((-θ : ℝ) * I)) = ((g : ℂ) * ((1 / g : ℝ) : ℂ)) * (exp (θ * I) * exp ((-θ : ℝ) * I)) by ring, ← Complex.exp_add]
    push_cast
    rw [mul_one_div_cancel (by exact_mod_cast hg0.ne')]
    simp
  have hzX : ∀ i, i < z.length → z.getD i 0 = X.getD (S + i) 0 := by
    intro i hiz
    obtain ⟨r, hr⟩ := k1
    have hr' : X.drop S = z ++ r := by
      rw [hr]
      unfold apresSignal
      simp
    rw [List.getD_eq_getElem?_getD, List.getD_eq_getElem?_getD, ← List.getElem?_drop, hr', List.getElem?_append_left hiz]
  have hζv : ∀ i, i < z.length → ζ.getD i 0 = X.getD (S + i) 0 * w := by
    intro i hiz
    rw [← hzX i hiz, List.getD_eq_getElem _ _ (by rw [hζl]; exact hiz), List.getD_eq_getElem _ _ hiz]
    simp only [hζ, List.getElem_map]
  have hBg : 0 ≤ B := by
    have := (norm_nonneg _).trans (hX 0)
    exact nonneg_of_mul_nonneg_right this hg0
  have hζB : ∀ n, ‖ζ.getD n 0‖ ≤ B := by
    intro n
    by_cases hn : n < z.length
    · rw [hζv n hn, norm_mul, hwn]
      calc ‖X.getD (S + n) 0‖ * (1 / g) ≤ g * B * (1 / g) := mul_le_mul_of_nonneg_right (hX _) (by positivity)
        _ = B := by field_simp
    · rw [List.getD_eq_default _ _ (by omega)]
      simpa using hBg
  -- number of symbols
  obtain ⟨idx, f1, f2, f3⟩ := bits_indices symbs c.k hc.k hM bits
  rw [f1] at hsy
  obtain rfl := Option.some.inj hsy
  have hYl : idx.length ≤ Y.length := by
    rw [symdemap_long, List.length_map] at k3
    have e1 := congrArg List.length f3
    rw [symdemap_long, List.length_append, List.length_replicate, hb] at e1
    have hm : manque c.nbits c.k < c.k := Nat.mod_lt _ hc.k
    by_contra hcon
    have : (Y.length + 1) * c.k ≤ idx.length * c.k := Nat.mul_le_mul_right _ (by omega)
    rw [Nat.add_mul, Nat.one_mul] at this
    omega
  have hYb := (unSur_longueur c.osf hc.osf (F.drop c.retard)).2
  rw [← hY, List.length_drop, hFl, hret] at hYb
  have hdecide : ∀ m (hm : m < idx.length), (Y.map fun z => f (z.re, z.im))[m]? = some idx[m] := by
    intro m hm
    have hmY : m < Y.length := by omega
    have hin : a + c.osf + m * c.osf < z.length := by
      have : c.osf * (m + 1) ≤ c.osf * Y.length := Nat.mul_le_mul_left _ (by omega)
      rw [Nat.mul_add, Nat.mul_one, Nat.mul_comm c.osf m] at this
      omega
    have hsm : idx[m] < symbs.length := f2 _ (List.getElem_mem hm)
    have e1 : Y[m]? = some (F.getD (a + c.osf + m * c.osf) 0) := by
      rw [hY, unSur_get c.osf hc.osf _ m (by rw [List.length_drop, hFl, hret]; omega), List.getElem?_drop, hret, List.getD_eq_getElem _ _ (by rw [hFl]; exact hin), List.getElem?_eq_getElem (by rw [hFl]; exact hin)]
    have e2 := moyenne_proche c.osf a hc.osf h1 hl η B ε hη ζ hζB m (cplx symbs[idx[m]]) (fun r hr => by
      have hlt : m * c.osf + r < z.length := by omega
      rw [hζv _ hlt]
      have := hsig m (by simpa using hm) r hr
      rw [List.getElem_map, List.getD_eq_getElem _ _ hsm] at this
      calc ‖X.getD (S + (m * c.osf + r)) 0 * w - cplx symbs[idx[m]]‖ = ‖(X.getD (S + (m * c.osf + r)) 0 - g * exp (θ * I) * cplx symbs[idx[m]]) * w‖ := by
            congr 1
            linear_combination cplx symbs[idx[m]] * hwg
        _ = ‖X.getD (S + (m * c.osf + r)) 0 - g * exp (θ * I) * cplx symbs[idx[m]]‖ * (1 / g) := by rw [norm_mul, hwn]
        _ ≤ g * ε * (1 / g) := mul_le_mul_of_nonneg_right this (by positivity)
        _ = ε := by field_simp) (by rw [hζl]; exact hin)
    rw [← hh, ← hF] at e2
    rw [List.getElem?_map, e1, Option.map_some]
    congr 1
    have e3 := hdec idx[m] hsm ((F.getD (a + c.osf + m * c.osf) 0).re, (F.getD (a + c.osf + m * c.osf) 0).im) (by
      rw [dist2_norme, cplx_re_im]
      have : ‖F.getD (a + c.osf + m * c.osf) 0 - cplx symbs[idx[m]]‖ ^ 2 ≤ (ε + η * B) ^ 2 := pow_le_pow_left₀ (norm_nonneg _) e2 2
      linarith)
    rw [hf1] at e3
    exact Option.some.inj e3
  have hpref : (Y.map fun z => f (z.re, z.im)) = idx ++ (Y.map fun z => f (z.re, z.im)).drop idx.length := by
    conv_lhs => rw [← List.take_append_drop idx.length (Y.map fun z => f (z.re, z.im))]
    congr 1
    refine List.ext_getElem? fun m => ?_
    by_cases hm : m < idx.length
    · rw [List.getElem?_take_of_lt hm, hdecide m hm, List.getElem?_eq_getElem hm]
    · rw [List.getElem?_eq_none (by rw [List.length_take]; omega), List.getElem?_eq_none (by omega)]
  rw [k4, hpref, symdemap_append, f3, List.append_assoc, ← hb, List.take_left']
  rfl

/-- **C152 (reception of a frame).**  Same hypotheses, for a whole run of the receiver on the signal, cut in any way into calls: if the detection of the header is the last one of the block `b`, without detection in the blocks `b + 1`, …, `n - 2`, and if the `n` first blocks
contain enough samples, then a frame with exactly the bits sent is delivered. -/
theorem C152_reception {D : Type} (c : ConfigRec D Unit) (hc : ValideRec c) (symbs : List (ℝ × ℝ)) (hM : 2 ^ c.k ≤ symbs.length) (dec : ℝ × ℝ → Option ℕ) (d : ℝ) (hdec : ∀ i (h : i < symbs.length) p, 4 * dist2 p symbs[i] < d → dec p = some i)
    (htot : ∀ p, ∃ i, dec p = some i ∧ i < symbs.length) (hctx : c.demod.ctx = ctxSansMemoire symbs dec) (hp : c.demod.porteuse = false) (hg : c.demod.cag = false) (hh : c.h = List.replicate c.osf (1 / (c.osf : ℝ))) (a : ℕ) (hnc : c.nc = 2 * a + 1)
    (hdt : c.dtMod = 1 / 2) (h1 : List ℝ) (hi : c.itrp 1 = some h1) (hl : a + 1 < h1.length) (η B ε : ℝ) (hη : ∑ l ∈ Finset.range h1.length, |h1.getD l 0 - if l = a + 1 then 1 else 0| ≤ η)
    (d0 d1 : D) (s s' : RecepteurTrames D Unit) (h : RecepteurTrames.cree c d0 = some s) (xs : List (List ℂ)) (l : List (List TrameRec)) (hf : s.flux c xs = some (s', l)) (dets : List (List Fourier.Detection))
    (hd : fluxDet c.det d0 (Tampon.paquets c.Ne xs.flatten) = some (d1, dets)) (b n : ℕ) (hbn : b < n) (hn : n ≤ xs.flatten.length / c.Ne) (det : Fourier.Detection) (hdb : (dets.getD b []).getLast? = some det) (hv : ∀ j, b < j → j + 1 < n → dets.getD j [] = [])
    (hpos : det.positionPrec = some (det.position : ℝ)) (g θ : ℝ) (hg0 : 0 < g) (hdg : det.gain = some g) (hdθ : det.theta = some θ) (bits : List Bool) (hb : bits.length = c.nbits) (sy : List (ℝ × ℝ))
    (hsy : genereSymboles symbs c.k bits = some sy) (S : ℕ) (hS : (S : ℤ) = b * c.Ne + (det.position + 1) + c.M) (hnS : S + c.nspl ≤ n * c.Ne) (hX : ∀ n, ‖xs.flatten.getD n 0‖ ≤ g * B)
    (hsig : ∀ m (hm : m < sy.length) r, r < c.osf → ‖xs.flatten.getD (S + (m * c.osf + r)) 0 - g * exp (θ * I) * cplx sy[m]‖ ≤ g * ε) (hdm : 4 * (ε + η * B) ^ 2 < d) : ∃ t ∈ l.flatten, t.bs = bits := by
  have hfl : debutTrame c b det = S := by
    have hdi : c.dtItrp = 1 / 2 := by
      unfold ConfigRec.dtItrp
      rw [hnc, hh, List.length_replicate, show (2 * a + 1 + c.osf + c.osf) % 2 = 1 by omega]
      norm_num
    have hpre : c.precise det = some ((det.position : ℝ) + 1) := by
      unfold ConfigRec.precise
      rw [hpos, Option.bind_some, if_pos (by simp), hdt, hdi]
      congr 1
      ring
    unfold debutTrame
    rw [hpre, Option.getD_some, show ((det.position : ℝ) + 1) = ((det.position + 1 : ℤ) : ℝ) by push_cast; ring, Int.floor_intCast, hS]
  obtain ⟨t, t1, t2⟩ := C146_complet c hc d0 d1 s s' h xs l hf dets hd b n hbn hn det hdb hv (by rw [hfl]; exact_mod_cast hnS)
  exact ⟨t, t1, C152_nrz c hc symbs hM dec d hdec htot hctx hp hg hh a hnc hdt h1 hi hl η B ε hη det hpos g θ hg0 hdg hdθ bits hb sy hsy _ b S hS hX hsig hdm t t2⟩

/-! ### C151: the pattern of the detector -/

/-- The symbols of the beginning of a bit stream. -/
theorem genere_prefixe (symbs : List (ℝ × ℝ)) (k : ℕ) (hk : 0 < k) (hM : 2 ^ k ≤ symbs.length) (a b : List Bool) (ha : a.length % k = 0) : ∃ s r, genereSymboles symbs k a = some s ∧ genereSymboles symbs k (a ++ b) = some (s ++ r) ∧ s.length * k = a.length := by
  obtain ⟨s, f1, -, f3, f4, f5⟩ := C07_aller_retour a k hk
  obtain ⟨u, g1, -, g3, g4, g5⟩ := C07_aller_retour (a ++ b) k hk
  obtain ⟨q, hq⟩ := Nat.dvd_of_mod_eq_zero ha
  have hmap : ∀ l : List ℕ, (∀ v ∈ l, v < symbs.length) → l.mapM (fun i => symbs[i]?) = some (l.map fun i => symbs.getD i (0, 0)) := by
    intro l
    induction l with
    | nil => intro _; rfl
    | cons v l ih =>
      intro h
      have hv := h v List.mem_cons_self
      rw [List.mapM_cons, ih (fun w hw => h w (List.mem_cons_of_mem _ hw)), List.getElem?_eq_getElem hv, List.map_cons, List.getD_eq_getElem _ _ hv]
      rfl
  have hs : s.length = q := by
    rw [f3, hq, show k * q + k - 1 = (k - 1) + k * q by omega, Nat.add_mul_div_left _ _ hk, Nat.div_eq_of_lt (by omega), Nat.zero_add]
  have hu : q ≤ u.length := by
    rw [g3, List.length_append, hq, Nat.le_div_iff_mul_le hk, Nat.mul_comm]
    omega
  have hpre : u = s ++ u.drop q := by
    conv_lhs => rw [← List.take_append_drop q u]
    congr 1
    refine List.ext_getElem? fun i => ?_
    by_cases hi : i < q
    · rw [List.getElem?_take_of_lt hi, g5 i (by omega), f5 i (by omega)]
      have h1 : i * k + k ≤ a.length := by
        have : (i + 1) * k ≤ q * k := Nat.mul_le_mul_right k hi
        rw [Nat.add_mul, Nat.one_mul] at this
        rw [hq, Nat.mul_comm k q]
        exact this
      rw [List.drop_append_of_le_length (by omega), List.take_append_of_le_length (by rw [List.length_drop]; omega)]
    · rw [List.getElem?_eq_none (by rw [List.length_take]; omega), List.getElem?_eq_none (by omega)]
  refine ⟨s.map fun i => symbs.getD i (0, 0), (u.drop q).map fun i => symbs.getD i (0, 0), ?_, ?_, ?_⟩
  · simp only [genereSymboles, f1]
    exact hmap s fun v hv => lt_of_lt_of_le (f4 v hv) hM
  · simp only [genereSymboles, g1]
    rw [← List.map_append, ← hpre]
    exact hmap u fun v hv => lt_of_lt_of_le (g4 v hv) hM
  · rw [List.length_map, hs, hq, Nat.mul_comm]

/-- **C151 (pattern of the detector).**  For NRZ pulses, whatever the waveform, the oversampling factor and the header (completed up to a whole number of symbols), the pattern given to the detector is a zero followed by the modulated header without its last sample: it begins one sample before the header. -/
theorem C151_motif (symbs : List (ℝ × ℝ)) (k : ℕ) (hk : 0 < k) (hM : 2 ^ k ≤ symbs.length) (R : ℕ) (hR : 0 < R) (entete : List Bool) :
    ∃ sy, genereSymboles symbs k (padMultiple entete k) = some sy ∧ motifRec symbs k .nrz R entete = some ((0 :: sy.flatMap fun p : ℝ × ℝ => List.replicate R (cplx p)).take (sy.length * R)) := by
  obtain ⟨-, hp⟩ := pad_manque entete k hk
  set et := padMultiple entete k with het
  obtain ⟨h, hf, hl⟩ : ∃ h, MiseEnForme.nrz.coefs R = some h ∧ h.length = R := by
    unfold MiseEnForme.coefs
    rw [if_neg hR.ne']
    split
    · rename_i h1; exact ⟨[1], rfl, by simp [h1]⟩
    · exact ⟨_, rfl, by simp⟩
  have hdf : df2 h.length R / 2 = -1 := by
    unfold df2 Reechan.delaisUps2
    rw [hl, Nat.mod_self]
    simp only [ne_eq, not_true_eq_false, if_false]
    omega
  have h7 : (((-1 : ℤ) + 8) * (k : ℤ)).toNat = 7 * k := by omega
  obtain ⟨sy, r, e1, e2, e3⟩ := genere_prefixe symbs k hk hM et (List.replicate (7 * k) false) hp
  obtain ⟨s', m0, m, f1, f2, f3⟩ := C97_nrz symbs k hk hM R hR [et ++ List.replicate (7 * k) false] (by
    intro b hb
    rw [List.mem_singleton] at hb
    rw [hb, List.length_append, List.length_replicate, Nat.add_mul_mod_self_right]
    exact hp)
  rw [List.flatten_singleton, e2] at f1
  obtain rfl := Option.some.inj f1
  have f4 : m0.stepBits symbs k none (et ++ List.replicate (7 * k) false) = some (m, (sy ++ r).flatMap fun p : ℝ × ℝ => List.replicate R (cplx p)) := by
    have := f3
    simp only [Filtre.enchaine] at this
    cases hs : m0.stepBits symbs k none (et ++ List.replicate (7 * k) false) with
    | none => rw [hs] at this; cases this
    | some v =>
      rw [hs] at this
      simpa using this
  have hflen : ∀ l : List (ℝ × ℝ), (l.flatMap fun p : ℝ × ℝ => List.replicate R (cplx p)).length = l.length * R := by
    intro l
    induction l with
    | nil => simp
    | cons v l ih => rw [List.flatMap_cons, List.length_append, ih, List.length_replicate, List.length_cons]; ring
  have hMs : (et.length + k - 1) / k * R = sy.length * R := by
    congr 1
    rw [← e3, show sy.length * k + k - 1 = (k - 1) + k * sy.length by rw [Nat.mul_comm]; omega, Nat.add_mul_div_left _ _ hk, Nat.div_eq_of_lt (by omega), Nat.zero_add]
  refine ⟨sy, e1, ?_⟩
  unfold motifRec
  rw [f2, Option.bind_some, hf, Option.bind_some]
  simp only [hdf, ← het]
  rw [h7, f4, Option.bind_some]
  simp only [show ((-1 : ℤ) < 0) = True by simp, if_true, show (-1 : ℤ) + 1 = 0 by norm_num, Int.toNat_zero, Nat.zero_add, le_refl, true_and, List.drop_zero]
  rw [hMs, if_pos (by rw [List.length_cons, hflen, List.length_append, Nat.add_mul]; omega)]
  congr 1
  rw [List.flatMap_append, ← List.cons_append, List.take_append_of_le_length (by rw [List.length_cons, hflen]; omega)]

/-- **C151 (refutation: the pattern is not the header).**  For a header of at least one bit in BPSK, at any oversampling factor, the pattern differs from the modulated header (its first sample is 0 instead of a symbol): on the header alone the correlation of the detector is not the one of the exact pattern. -/
theorem C151_motif_refute (R : ℕ) (hR : 0 < R) (entete : List Bool) (he : entete ≠ []) : ∃ sy y, genereSymboles (pskConstellation 2) 1 entete = some sy ∧ motifRec (pskConstellation 2) 1 .nrz R entete = some y ∧ y.length = (sy.flatMap fun p : ℝ × ℝ => List.replicate R (cplx p)).length ∧
    y ≠ sy.flatMap fun p : ℝ × ℝ => List.replicate R (cplx p) := by
  obtain ⟨sy, e1, e2⟩ := C151_motif (pskConstellation 2) 1 one_pos (by rw [psk_longueur]; norm_num) R hR entete
  have hpad : padMultiple entete 1 = entete := by simp [padMultiple, Nat.mod_one]
  rw [hpad] at e1
  obtain ⟨idx, f1, f2, f3⟩ := bits_indices (pskConstellation 2) 1 one_pos (by rw [psk_longueur]; norm_num) entete
  have e1' := e1
  rw [show ((1 : ℕ) : ℤ) = 1 from rfl] at f1
  rw [show ((1 : ℕ) : ℤ) = 1 from rfl, f1] at e1'
  obtain rfl := Option.some.inj e1'
  have hflen : ∀ l : List (ℝ × ℝ), (l.flatMap fun p : ℝ × ℝ => List.replicate R (cplx p)).length = l.length * R := by
    intro l
    induction l with
    | nil => simp
    | cons v l ih => rw [List.flatMap_cons, List.length_append, ih, List.length_replicate, List.length_cons]; ring
  refine ⟨_, _, e1, e2, ?_, ?_⟩
  · rw [List.length_take, List.length_cons, hflen]
    omega
  · have hlen := congrArg List.length f3
    rw [symdemap_long, List.length_append, Nat.mul_one] at hlen
    cases idx with
    | nil =>
      have := List.length_pos_iff.2 he
      simp at hlen
      omega
    | cons v idx =>
      obtain ⟨R, rfl⟩ : ∃ R', R = R' + 1 := ⟨R - 1, by omega⟩
      intro hcon
      have h0 := congrArg (fun l : List ℂ => l.head?) hcon
      rw [List.length_map, List.length_cons, show (idx.length + 1) * (R + 1) = ((idx.length + 1) * R + idx.length) + 1 by ring] at h0
      simp only [List.take_succ_cons, List.head?_cons, List.map_cons, List.flatMap_cons, List.replicate_succ, List.cons_append, Option.some.injEq] at h0
      have hv := f2 v List.mem_cons_self
      rw [psk_longueur] at hv
      have hn : cplx ((pskConstellation 2).getD v (0, 0)) ≠ 0 := by
        rw [List.getD_eq_getElem _ _ (by rw [psk_longueur]; exact hv), psk_elt]
        intro h
        have h2 := congrArg Complex.re h
        have h3 := congrArg Complex.im h
        simp only [cplx, Complex.zero_re, Complex.zero_im] at h2 h3
        have := Real.sin_sq_add_cos_sq (anglePsk 2 v)
        rw [h2, h3] at this
        norm_num at this
      exact hn h0.symm

/-! ### A complete example -/

/-- Receiver of the example: BPSK, NRZ, one sample per symbol, blocks of 4 samples, header of 2 samples, frames of `n` bits, sinc interpolator with its default 15 coefficients (and the settings of the code for one sample per symbol); the detections are given in advance. -/
noncomputable def exempleNrz (n : ℕ) : ConfigRec (List (List Fourier.Detection)) Unit :=
  ⟨4, 2, n, 1, 1, 2, 15, Itrp.coefsSinc 15 1024 (1 / 2) true, [1], 1 / 2, exempleDemodRec, fun s _ => some (s.tail, s.headD [])⟩

theorem exempleNrz_valide (n : ℕ) : ValideRec (exempleNrz n) := by
  have h := exempleRec_valide n
  refine ⟨by simp [exempleNrz], by simp [exempleNrz], by simp [exempleNrz], by simp [exempleNrz], fun τ h1 h => ?_, h.demod, h.kd⟩
  have h' : Itrp.coefsSinc 15 1024 (1 / 2) true τ = some h1 := h
  by_cases hτ : 0 ≤ τ ∧ τ ≤ 1
  · obtain ⟨j, h2, e1, e2, -⟩ := Itrp.C153_coefs 15 1024 (by norm_num) (1 / 2) (by norm_num) le_rfl true τ hτ.1 hτ.2
    rw [h'] at e1
    obtain rfl := Option.some.inj e1
    intro h3
    rw [h3] at e2
    simp at e2
  · unfold Itrp.coefsSinc at h'
    rw [if_neg hτ] at h'
    cases h'

theorem script_complet (n : ℕ) (l : List (List ℂ)) : ∀ script : List (List Fourier.Detection), fluxDet (exempleNrz n).det script l = some (script.drop l.length, (List.range l.length).map fun i : ℕ => script.getD i []) := by
  induction l with
  | nil => intro script; simp [fluxDet]
  | cons x l ih =>
    intro script
    unfold fluxDet
    have h1 : (exempleNrz n).det script x = some (script.tail, script.headD []) := rfl
    rw [h1, Option.bind_some, ih script.tail, List.length_cons, List.range_succ_eq_map, List.map_cons, List.map_map]
    cases script <;> simp [Function.comp_def]

/-- Non-vacuity of C152: any bits, any noise shorter than 1/2 on the data (and samples at most 3/2 everywhere), 3 samples before the data (the header, and one before), at least 3 `n` + 13 after. -/
theorem exempleNrz_recoit (bits : List Bool) (X : List ℂ) (hX : X.length = 4 * (bits.length + 4)) (hB : ∀ n, ‖X.getD n 0‖ ≤ 3 / 2) (hs : ∀ (m : ℕ) (hm : m < bits.length), ‖X.getD (3 + m) 0 - (if bits[m] then 1 else -1)‖ ≤ 1 / 2) :
    ∃ s s' l, RecepteurTrames.cree (exempleNrz bits.length) [[], [exempleDet]] = some s ∧ s.flux (exempleNrz bits.length) [X] = some (s', l) ∧ ∃ t ∈ l.flatten, t.bs = bits := by
  have hc := exempleNrz_valide bits.length
  have hne : (exempleNrz bits.length).Ne = 4 := rfl
  have hpl : (Tampon.paquets 4 [X].flatten).length = bits.length + 4 := by rw [paquets_longueur, List.flatten_singleton, hX]; omega
  have hf := script_complet bits.length (Tampon.paquets 4 [X].flatten) [[], [exempleDet]]
  rw [hpl] at hf
  obtain ⟨s, s', l, e1, e2⟩ := C148_sans_erreur (exempleNrz bits.length) hc (pskConstellation 2) (pskPlusProche 2) bpsk_partout rfl rfl rfl (fun τ t0 t1 => by
    obtain ⟨j, h, e, -⟩ := Itrp.C153_coefs 15 1024 (by norm_num) (1 / 2) (by norm_num) le_rfl true τ t0 t1
    show Itrp.coefsSinc 15 1024 (1 / 2) true τ ≠ none
    rw [e]
    simp) (by simp [exempleNrz]) (by simp [exempleNrz]) (by norm_num [exempleNrz]) _ _ [X] _ hf (by
    intro D hD d hd
    obtain ⟨i, -, rfl⟩ := List.mem_map.1 hD
    have : d = exempleDet := by
      rcases i with _ | _ | i
      · cases hd
      · simpa using hd
      · simp at hd
    rw [this]
    exact ⟨by simp [exempleDet, exempleNrz], by simp [exempleDet], ⟨-4, rfl, by simp [exempleDet]⟩, ⟨1, rfl, one_ne_zero⟩, by simp [exempleDet]⟩)
  refine ⟨s, s', l, e1, e2, ?_⟩
  obtain ⟨sy, f1⟩ : ∃ sy, genereSymboles (pskConstellation 2) 1 bits = some sy ∧ sy = bits.map fun b : Bool => if b then ((1 : ℝ), (0 : ℝ)) else (-1, 0) := by
    obtain ⟨u, g1, -, g3, g4, g5⟩ := C07_aller_retour bits 1 one_pos
    refine ⟨bits.map fun b : Bool => if b then ((1 : ℝ), (0 : ℝ)) else (-1, 0), ?_, rfl⟩
    have hu : u = bits.map fun b : Bool => if b then 1 else 0 := by
      have hul : u.length = bits.length := by rw [g3]; simp
      refine List.ext_getElem? fun i => ?_
      by_cases hi : i < bits.length
      · rw [g5 i (by omega), List.getElem?_map, List.getElem?_eq_getElem hi, Nat.mul_one, List.drop_eq_getElem_cons hi]
        cases bits[i] <;> simp [valeur]
      · rw [List.getElem?_eq_none (by omega), List.getElem?_eq_none (by simp; omega)]
    simp only [genereSymboles]
    rw [show ((1 : ℤ)) = ((1 : ℕ) : ℤ) from rfl, g1, hu]
    clear hX hs e1 e2 hf hpl hne hc g1 g3 g4 g5 hu
    show List.mapM _ _ = _
    generalize bits = w
    induction w with
    | nil => rfl
    | cons b w ih =>
      rw [List.map_cons, List.mapM_cons, ih]
      cases b <;> simp [pskConstellation]
  have hh1 := Itrp.C153_entier 15 1024 (by norm_num) true 1 le_rfl
  rw [Nat.cast_one] at hh1
  refine C152_reception (exempleNrz bits.length) hc (pskConstellation 2) (by rw [psk_longueur]; rfl) (pskPlusProche 2) 4 (fun i h p hp => psk_decision 2 le_rfl i h p (by
      have : (2 * Real.sin (Real.pi / (2 : ℕ))) ^ 2 = 4 := by norm_num
      rw [this]
      exact hp)) bpsk_partout rfl rfl rfl (by simp [exempleNrz]) 7 rfl rfl _ hh1 (by simp) 0 (3 / 2) (1 / 2) (by
      rw [List.length_map, List.length_range]
      refine (Finset.sum_eq_zero fun i hi => ?_).le
      rw [Finset.mem_range] at hi
      rw [List.getD_eq_getElem _ _ (by simpa using hi)]
      simp) _ _ s s' e1 [X] l e2 _ hf 1 (bits.length + 4) (by omega) (by rw [List.flatten_singleton, hX, hne]; omega) exempleDet (by simp) (fun j h1 h2 => by
      rw [List.getD_eq_getElem _ _ (by simp; omega)]
      simp only [List.getElem_map, List.getElem_range]
      rw [List.getD_eq_default _ _ (by simp; omega)]) (by simp [exempleDet]) 1 0 one_pos rfl rfl bits rfl sy f1.1 3 (by simp [exempleNrz, exempleDet]) ?_ (by rw [List.flatten_singleton]; intro n; simpa using hB n) ?_ (by norm_num)
  · have : (exempleNrz bits.length).nspl = bits.length + 12 := by simp [ConfigRec.nspl, exempleNrz, ConfigRec.retard]
    rw [this, hne]
    omega
  · intro m hm r hr
    have hr0 : r = 0 := by
      have : (exempleNrz bits.length).osf = 1 := rfl
      omega
    subst hr0
    have hm' : m < bits.length := by rw [f1.2] at hm; simpa using hm
    have hs' := hs m hm'
    have h1 : (exempleNrz bits.length).osf = 1 := rfl
    have h2 : cplx sy[m] = if bits[m] then 1 else -1 := by
      simp only [f1.2, List.getElem_map]
      split
      · exact Complex.ext (by simp [cplx]) (by simp [cplx])
      · exact Complex.ext (by simp [cplx]) (by simp [cplx])
    rw [h1, Nat.mul_one, Nat.add_zero, List.flatten_singleton, h2]
    simpa using hs'

/-- Non-vacuity of `exempleNrz_recoit`, hence of C146, C148 and C152: a frame of two bits received without noise. -/
example : ∃ s s' l, RecepteurTrames.cree (exempleNrz 2) [[], [exempleDet]] = some s ∧ s.flux (exempleNrz 2) [List.replicate 3 0 ++ [1, -1] ++ List.replicate 19 0] = some (s', l) ∧ ∃ t ∈ l.flatten, t.bs = [true, false] := by
  refine exempleNrz_recoit [true, false] _ (by simp) (fun n => ?_) (fun m hm => ?_)
  · by_cases h : n < 24
    · rw [List.getD_eq_getElem _ _ (by simpa using h)]
      have : ∀ v ∈ (List.replicate 3 0 ++ [1, -1] ++ List.replicate 19 0 : List ℂ), ‖v‖ ≤ 3 / 2 := by
        intro v hv
        simp only [List.mem_append, List.mem_replicate, List.mem_cons, List.not_mem_nil, or_false] at hv
        rcases hv with (⟨-, rfl⟩ | rfl | rfl) | ⟨-, rfl⟩ <;> norm_num
      exact this _ (List.getElem_mem _)
    · rw [List.getD_eq_default _ _ (by simp; omega)]
      norm_num
  · have : m = 0 ∨ m = 1 := by simp at hm; omega
    rcases this with rfl | rfl <;> norm_num [List.replicate]

end Verif.Telecom
