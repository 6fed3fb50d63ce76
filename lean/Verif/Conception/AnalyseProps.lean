/-
C134: frequency responses of a design; C135: impulse and step responses.
-/
import Verif.Conception.Analyse
import Verif.Conception.AmplitudeProps
import Verif.Conception.CsProps
import Verif.Poly.Props
import Verif.Fourier.RfftProps
import Verif.Util.Props

namespace Verif.Conception

open Verif.Fourier Verif.FracRat Verif.Filtre Finset

/-- Specification: transfer function of a design at `z`: `Σ h_k z^{-k}` for a FIR filter, the quotient of the two polynomials otherwise. -/
noncomputable def Design.H (d : Design) (z : ℂ) : ℂ :=
  match d with
  | .rif h => ∑ k ∈ range h.length, (h.getD k 0 : ℂ) * (z⁻¹) ^ k
  | .reel f => f.numer.val Complex.ofRealHom z / f.denom.val Complex.ofRealHom z
  | .complexe f => f.numer.val (RingHom.id ℂ) z / f.denom.val (RingHom.id ℂ) z

theorem racines_complexe (x : ℂ) (l : List ℝ) : ∀ r : ℂ, hornerRacines (id : ℂ → ℂ) x (l.map fun v : ℝ => (v : ℂ)) r = hornerRacines (Complex.ofRealHom : ℝ → ℂ) x l r := by
  induction l with
  | nil => intro r; rfl
  | cons a l ih => intro r; rw [List.map_cons, hornerRacines, hornerRacines, ih]; rfl

theorem coefs_complexe (x : ℂ) (l : List ℝ) : ∀ r : ℂ, hornerCoefs (id : ℂ → ℂ) x (l.map fun v : ℝ => (v : ℂ)) r = hornerCoefs (Complex.ofRealHom : ℝ → ℂ) x l r := by
  induction l with
  | nil => intro r; rfl
  | cons a l ih => intro r; rw [List.map_cons, hornerCoefs, hornerCoefs, ih]; rfl

theorem horner_complexe (p : Poly ℝ) (x : ℂ) : (polyComplexe p).horner (id : ℂ → ℂ) x = p.horner (Complex.ofRealHom : ℝ → ℂ) x := by
  unfold Poly.horner polyComplexe
  simp only
  split_ifs
  · exact racines_complexe x _ _
  · rw [← List.map_reverse]
    cases p.coefs.reverse with
    | nil => rfl
    | cons c l => exact coefs_complexe x l _

theorem cercle_ne (f : ℝ) : cercle f ≠ 0 := Complex.exp_ne_zero _

theorem frat_H (d : Design) (hd : d ≠ .rif []) (z : ℂ) (hz : z ≠ 0) : d.fratComplexe.horner (id : ℂ → ℂ) z = d.H z := by
  cases d with
  | rif h =>
    have hh : h ≠ [] := fun e => hd (by rw [e])
    have := C31_rif Complex.ofRealHom h hh z hz
    rw [FRat.horner] at this ⊢
    simp only [Design.fratComplexe]
    rw [horner_complexe, horner_complexe, this]
    rfl
  | reel f =>
    rw [FRat.horner]
    simp only [Design.fratComplexe]
    rw [horner_complexe, horner_complexe]
    change _ = f.numer.val Complex.ofRealHom z / f.denom.val Complex.ofRealHom z
    rw [C30_horner, C30_horner]
  | complexe f =>
    rw [FRat.horner]
    simp only [Design.fratComplexe]
    change _ = f.numer.val (RingHom.id ℂ) z / f.denom.val (RingHom.id ℂ) z
    rw [← C30_horner, ← C30_horner]
    rfl


/-! ### C134: frequency responses -/

/-- A FIR design on the unit circle. -/
theorem H_cercle (h : List ℝ) (f : ℝ) : (Design.rif h).H (cercle f) = reponse h f := by
  unfold Design.H reponse cercle
  refine Finset.sum_congr rfl fun k _ => ?_
  rw [← Complex.exp_neg, ← Complex.exp_nat_mul]
  congr 2
  ring

/-- **C134 (`repfreq`).**  The response at every requested frequency is the transfer function at `e^{2πif}` — for a FIR filter, `Σ h_k e^{-2πifk}`. -/
theorem C134_repfreq (d : Design) (hd : d ≠ .rif []) (fr : List ℝ) :
    repfreq d fr = fr.map (fun f : ℝ => d.H (cercle f)) ∧ ∀ h : List ℝ, d = .rif h → repfreq d fr = fr.map (fun f : ℝ => reponse h f) := by
  have e : repfreq d fr = fr.map (fun f : ℝ => d.H (cercle f)) := List.map_congr_left fun f _ => frat_H d hd _ (cercle_ne f)
  refine ⟨e, fun h hh => ?_⟩
  rw [e]
  subst hh
  exact List.map_congr_left fun f _ => H_cercle h f

theorem grilleFreq_length (n : ℕ) : (grilleFreq n).length = n := (Util.C33_linspace _ _ _).1

theorem grilleFreq_getD (n i : ℕ) (hi : i < n) : (grilleFreq n).getD i 0 = (i : ℝ) / (2 * n) := grille_freq n i hi

theorem ecrit_zeros (n : ℕ) (h : List ℝ) (hl : h.length ≤ n) : ecrit (List.replicate n (0 : ℝ)) 0 h = some (h ++ List.replicate (n - h.length) 0) := by
  rw [ecrit, if_pos (by simpa using hl)]
  simp

/-- The magnitudes computed by Fourier transform. -/
theorem frmagRif_some (h : List ℝ) (npts : ℕ) (h1 : h.length ≤ 2 * max npts (h.length / 2)) (h0 : 0 < max npts (h.length / 2)) (h29 : 2 * max npts (h.length / 2) ≤ 2 ^ 29) :
    ∃ A, frmagRif h npts = some (grilleFreq (max npts (h.length / 2)), A) ∧ A.length = max npts (h.length / 2) ∧
      ∀ i, i < max npts (h.length / 2) → A.getD i 0 = ‖reponse h ((i : ℝ) / (2 * (max npts (h.length / 2) : ℕ)))‖ := by
  unfold frmagRif
  generalize max npts (h.length / 2) = n at *
  have e1 := ecrit_zeros (2 * n) h h1
  set h2 := h ++ List.replicate (2 * n - h.length) (0 : ℝ) with hh2
  have l2 : h2.length = 2 * n := by rw [hh2, List.length_append, List.length_replicate]; omega
  obtain ⟨H, e2, l3, t3⟩ := C49_rfft h2 (by omega) (by omega)
  simp only [e1, Option.bind_eq_bind, Option.bind_some, e2]
  rw [if_pos (by omega)]
  refine ⟨_, rfl, by simp; omega, fun i hi => ?_⟩
  rw [List.getD_eq_getElem?_getD, List.getElem?_map, List.getElem?_take_of_lt hi, List.getElem?_map, List.getElem?_eq_getElem (by omega), Option.map_some, Option.map_some, Option.getD_some]
  have g : H[i]'(by omega) = H.getD i 0 := by rw [List.getD_eq_getElem?_getD, List.getElem?_eq_getElem (by omega), Option.getD_some]
  have hnr : (0 : ℝ) < n := by exact_mod_cast h0
  have hs : (0 : ℝ) < Real.sqrt (2 * n) := Real.sqrt_pos.2 (by linarith)
  rw [g, t3 i (by omega), TFD, norm_div, enC_length, l2]
  have hn : ‖((Real.sqrt ((2 * n : ℕ) : ℝ) : ℝ) : ℂ)‖ = Real.sqrt (2 * n) := by
    rw [Complex.norm_real, Real.norm_of_nonneg (Real.sqrt_nonneg _)]
    push_cast
    rfl
  rw [hn, div_mul_cancel₀ _ hs.ne', reponse]
  congr 1
  rw [← Finset.sum_subset (Finset.range_subset_range.2 h1) ?_]
  · refine Finset.sum_congr rfl fun k hk => ?_
    rw [Finset.mem_range] at hk
    have : (enC h2).getD k 0 = (h.getD k 0 : ℂ) := by
      rw [hh2]
      simp [enC, List.getD_eq_getElem?_getD, List.getElem?_append_left, hk, List.getElem?_eq_getElem]
    rw [this]
    congr 2
    push_cast
    have : (n : ℂ) ≠ 0 := by exact_mod_cast h0.ne'
    field_simp
  · intro k hk hk2
    simp only [Finset.mem_range, not_lt] at hk hk2
    have : (enC h2).getD k 0 = 0 := by
      rw [hh2]
      simp only [enC, List.getD_eq_getElem?_getD, List.getElem?_map]
      rw [List.getElem?_append_right hk2, List.getElem?_replicate]
      split_ifs <;> simp
    rw [this, zero_mul]

/-- **C134 (`frmag`).**  For a non-empty FIR filter with at most `2 npts` coefficients, `frmag` returns the `npts` frequencies `i/(2 npts)` and the moduli of the response at
these frequencies; for any other design also (whatever the number of points). -/
theorem C134_frmag_partial (d : Design) (npts : ℕ) (hn : 0 < npts) (hd : ∀ h : List ℝ, d = .rif h → h ≠ [] ∧ h.length ≤ 2 * npts ∧ 2 * npts ≤ 2 ^ 29) :
    ∃ fr A, frmag d npts = some (fr, A) ∧ fr.length = npts ∧ A.length = npts ∧ (∀ i, i < npts → fr.getD i 0 = (i : ℝ) / (2 * npts)) ∧
      ∀ i, i < npts → A.getD i 0 = ‖d.H (cercle ((i : ℝ) / (2 * npts)))‖ := by
  have autre : ∀ d : Design, d ≠ .rif [] → (fun z : ℂ => ‖z‖) <$> repfreq d (grilleFreq npts) = (repfreq d (grilleFreq npts)).map (fun z : ℂ => ‖z‖) ∧
      ((repfreq d (grilleFreq npts)).map fun z : ℂ => ‖z‖).length = npts ∧ ∀ i, i < npts → ((repfreq d (grilleFreq npts)).map fun z : ℂ => ‖z‖).getD i 0 = ‖d.H (cercle ((i : ℝ) / (2 * npts)))‖ := by
    intro d hd
    refine ⟨rfl, by simp [repfreq, grilleFreq_length], fun i hi => ?_⟩
    have hl : i < (grilleFreq npts).length := by rw [grilleFreq_length]; exact hi
    have hg := grilleFreq_getD npts i hi
    rw [List.getD_eq_getElem?_getD, List.getElem?_eq_getElem hl, Option.getD_some] at hg
    rw [(C134_repfreq d hd _).1, List.getD_eq_getElem?_getD, List.getElem?_map, List.getElem?_map, List.getElem?_eq_getElem hl, Option.map_some, Option.map_some, Option.getD_some, hg]
  cases d with
  | rif h =>
    obtain ⟨h0, h1, h2⟩ := hd h rfl
    have hm : max npts (h.length / 2) = npts := max_eq_left (by omega)
    obtain ⟨A, e, l, g⟩ := frmagRif_some h npts (by omega) (by omega) (by rw [hm]; exact h2)
    rw [hm] at e l g
    exact ⟨_, A, e, grilleFreq_length _, l, fun i hi => grilleFreq_getD npts i hi, fun i hi => by rw [g i hi, H_cercle]⟩
  | reel f =>
    obtain ⟨-, b, c⟩ := autre (.reel f) (by simp)
    exact ⟨_, _, rfl, grilleFreq_length _, b, fun i hi => grilleFreq_getD npts i hi, c⟩
  | complexe f =>
    obtain ⟨-, b, c⟩ := autre (.complexe f) (by simp)
    exact ⟨_, _, rfl, grilleFreq_length _, b, fun i hi => grilleFreq_getD npts i hi, c⟩

example : ∃ fr A, frmag (.rif [1 / 2, 1 / 2]) 4 = some (fr, A) ∧ A.getD 0 0 = 1 := by
  obtain ⟨fr, A, e, -, -, -, g⟩ := C134_frmag_partial (.rif [1 / 2, 1 / 2]) 4 (by norm_num) (by simp)
  refine ⟨fr, A, e, ?_⟩
  rw [g 0 (by norm_num), H_cercle]
  norm_num [reponse, Finset.sum_range_succ]

/-- **C134 (both computations agree).**  The magnitudes computed by Fourier transform are the moduli of `repfreq` on the returned frequencies. -/
theorem C134_accord (h : List ℝ) (h0 : h ≠ []) (npts : ℕ) (h1 : h.length ≤ 2 * npts) (h29 : 2 * npts ≤ 2 ^ 29) :
    ∃ fr A, frmag (.rif h) npts = some (fr, A) ∧ A = (repfreq (.rif h) fr).map fun z : ℂ => ‖z‖ := by
  have hl := List.length_pos_iff.2 h0
  have hm : max npts (h.length / 2) = npts := max_eq_left (by omega)
  obtain ⟨A, e, l, g⟩ := frmagRif_some h npts (by omega) (by omega) (by rw [hm]; exact h29)
  rw [hm] at e l g
  refine ⟨_, A, e, ?_⟩
  rw [(C134_repfreq _ (by simpa using h0) _).2 h rfl]
  apply List.ext_getElem?
  intro i
  by_cases hi : i < npts
  · have hl : i < (grilleFreq npts).length := by rw [grilleFreq_length]; exact hi
    have hg := grilleFreq_getD npts i hi
    rw [List.getD_eq_getElem?_getD, List.getElem?_eq_getElem hl, Option.getD_some] at hg
    have ha := g i hi
    rw [List.getD_eq_getElem?_getD, List.getElem?_eq_getElem (by omega), Option.getD_some] at ha
    rw [List.getElem?_map, List.getElem?_map, List.getElem?_eq_getElem hl, hg, List.getElem?_eq_getElem (by omega), ha]
    rfl
  · rw [List.getElem?_eq_none (by omega), List.getElem?_eq_none (by simp [grilleFreq_length]; omega)]

/-- **C134 fails for long FIR filters**: with an odd number of coefficients larger than `2 npts` the computation stops on an error, and with an even number `N > 2 npts` the number of
points returned is `N/2`, not `npts`. -/
theorem C134_long_refute (h : List ℝ) (npts : ℕ) (h1 : 2 * npts < h.length) :
    (h.length % 2 = 1 → frmag (.rif h) npts = none) ∧ (h.length % 2 = 0 → h.length ≤ 2 ^ 29 → ∃ fr A, frmag (.rif h) npts = some (fr, A) ∧ fr.length = h.length / 2 ∧ fr.length ≠ npts) := by
  have hm : max npts (h.length / 2) = h.length / 2 := max_eq_right (by omega)
  constructor
  · intro hp
    change frmagRif h npts = none
    unfold frmagRif
    rw [hm]
    have : ecrit (List.replicate (2 * (h.length / 2)) (0 : ℝ)) 0 h = none := by
      rw [ecrit, if_neg]
      simp
      omega
    simp only [this]
    rfl
  · intro hp h29
    obtain ⟨A, e, l, g⟩ := frmagRif_some h npts (by omega) (by omega) (by omega)
    rw [hm] at e
    exact ⟨_, A, e, grilleFreq_length _, by rw [grilleFreq_length]; omega⟩

/-- **C134 (`frphase`).**  The phases are arguments of the response (congruent modulo `2π`), start with the principal argument, and two successive ones differ by at most `π`. -/
theorem C134_frphase (d : Design) (hd : d ≠ .rif []) (n : ℕ) (hn : 0 < n) :
    ∃ fr φ, frphase d n = some (fr, φ) ∧ fr.length = n ∧ φ.length = n ∧ (∀ i, i < n → fr.getD i 0 = (i : ℝ) / (2 * n)) ∧ φ.getD 0 0 = (d.H 1).arg ∧
      (∀ i, i < n → ∃ k : ℤ, φ.getD i 0 = (d.H (cercle ((i : ℝ) / (2 * n)))).arg + k * (2 * Real.pi)) ∧ ∀ i, i + 1 < n → |φ.getD (i + 1) 0 - φ.getD i 0| ≤ Real.pi := by
  rw [frphase, (C134_repfreq d hd _).1, List.map_map]
  set x : List ℝ := (grilleFreq n).map (Complex.arg ∘ fun f : ℝ => d.H (cercle f)) with hx
  have lx : x.length = n := by rw [hx, List.length_map, grilleFreq_length]
  have gx : ∀ i, i < n → x.getD i 0 = (d.H (cercle ((i : ℝ) / (2 * n)))).arg := by
    intro i hi
    have hl : i < (grilleFreq n).length := by rw [grilleFreq_length]; exact hi
    have hg := grilleFreq_getD n i hi
    rw [List.getD_eq_getElem?_getD, List.getElem?_eq_getElem hl, Option.getD_some] at hg
    rw [hx, List.getD_eq_getElem?_getD, List.getElem?_map, List.getElem?_eq_getElem hl, Option.map_some, Option.getD_some, hg]
    rfl
  obtain ⟨y, e, l, hh, c, s⟩ := Util.C34_deplie Real.pi Real.pi_pos x (by intro h0; rw [h0] at lx; simp at lx; omega)
  refine ⟨_, y, by rw [e]; rfl, grilleFreq_length _, by omega, fun i hi => grilleFreq_getD n i hi, ?_, fun i hi => ?_, fun i hi => ?_⟩
  · have h0 : y.getD 0 0 = x.getD 0 0 := by
      rw [List.getD_eq_getElem?_getD, List.getD_eq_getElem?_getD, ← List.head?_eq_getElem?, ← List.head?_eq_getElem?, hh]
    rw [h0, gx 0 hn]
    simp [cercle]
  · obtain ⟨k, hk⟩ := c i (by omega)
    exact ⟨k, by rw [hk, gx i hi]⟩
  · have := s i (by omega)
    linarith [this]

/-! ### C135: impulse and step responses -/

/-- **C135 (step response of a FIR filter).**  The samples are the cumulated sums of the coefficients; after the last coefficient the response stays at the gain at the null frequency; the default length is
twice the number of coefficients. -/
theorem C135_repech_rif (sois : List ℝ → Option (List ℝ)) (h : List ℝ) (hh : h ≠ []) (npts : Option ℕ) : ∃ y, repech sois (.rif h) npts = some y ∧ y.length = npts.getD (2 * h.length) ∧
    (∀ n, n < y.length → y.getD n 0 = (h.take (n + 1)).sum) ∧ ∀ n, n < y.length → h.length ≤ n + 1 → (y.getD n 0 : ℂ) = (Design.rif h).H 1 := by
  have hl := List.length_pos_iff.2 hh
  obtain ⟨y, e, l, g⟩ := convolRif_some h (List.replicate (npts.getD (2 * h.length)) 1) hl
  rw [List.length_replicate] at l g
  have cumul : ∀ m, ∑ k ∈ range m, h.getD k 0 = (h.take m).sum := by
    intro m
    induction m with
    | zero => simp
    | succ m ih =>
      rw [Finset.sum_range_succ, ih, List.take_add_one, List.sum_append, List.getD_eq_getElem?_getD]
      congr 1
      cases h[m]? <;> simp
  have hv : ∀ n, n < y.length → y.getD n 0 = (h.take (n + 1)).sum := by
    intro n hn
    rw [g n (by omega), convolution]
    rw [← cumul]
    have h1 : ∀ k, h.getD k 0 * passe (List.replicate (npts.getD (2 * h.length)) (1 : ℝ)) n k = if k < n + 1 then h.getD k 0 else 0 := by
      intro k
      unfold passe
      by_cases hk : k ≤ n
      · have : (List.replicate (npts.getD (2 * h.length)) (1 : ℝ)).getD (n - k) 0 = 1 := by
          rw [List.getD_eq_getElem?_getD, List.getElem?_replicate, if_pos (by omega), Option.getD_some]
        rw [if_pos hk, if_pos (by omega), this, mul_one]
      · rw [if_neg hk, if_neg (by omega), mul_zero]
    rw [Finset.sum_congr rfl fun k _ => h1 k, ← Finset.sum_filter]
    by_cases hc : n + 1 ≤ h.length
    · congr 1
      ext k
      simp
      omega
    · rw [Finset.filter_true_of_mem (by intro k hk; simp at hk; omega)]
      refine Finset.sum_subset (Finset.range_subset_range.2 (by omega)) fun k _ hk => ?_
      rw [Finset.mem_range, not_lt] at hk
      exact List.getD_eq_default _ _ hk
  refine ⟨y, e, l, hv, fun n hn hc => ?_⟩
  rw [hv n hn, List.take_of_length_le hc]
  simp only [Design.H, inv_one, one_pow, mul_one]
  rw [← Complex.ofReal_sum, cumul, List.take_length]

/-- The truncation keeps a non-empty prefix. -/
theorem tronque_spec : ∀ (k : ℕ) (r : List ℝ), r ≠ [] → r.length ≤ k → ∃ m, 0 < m ∧ m ≤ r.length ∧ tronque k r = r.take m ∧
    (m = 1 ∨ ((r.take m).map fun v : ℝ => |v|).sum / m * 0.01 ≤ |r.getD (m - 1) 0|) ∧ ∀ j, m < j → j ≤ r.length → |r.getD (j - 1) 0| < ((r.take j).map fun v : ℝ => |v|).sum / j * 0.01 := by
  intro k
  induction k with
  | zero => intro r h0 hl; exact absurd (List.length_eq_zero_iff.1 (by omega)) h0
  | succ k ih =>
    intro r h0 hl
    have hp := List.length_pos_iff.2 h0
    rw [tronque]
    split_ifs with hc
    · obtain ⟨m, m0, m1, e, f, g⟩ := ih (r.take (r.length - 1)) (by intro h1; have := congrArg List.length h1; simp at this; omega) (by simp; omega)
      rw [List.length_take, min_eq_left (by omega)] at m1 g
      have gd : ∀ j, j < r.length - 1 → (r.take (r.length - 1)).getD j 0 = r.getD j 0 := by
        intro j hj
        rw [List.getD_eq_getElem?_getD, List.getD_eq_getElem?_getD, List.getElem?_take_of_lt hj]
      have tk : ∀ j, j ≤ r.length - 1 → (r.take (r.length - 1)).take j = r.take j := by
        intro j hj
        rw [List.take_take, min_eq_left hj]
      refine ⟨m, m0, by omega, by rw [e, tk m m1], ?_, fun j hj hj2 => ?_⟩
      · rw [tk m m1, gd _ (by omega)] at f
        exact f
      · by_cases hlast : j = r.length
        · subst hlast
          rw [List.take_length]
          exact hc.2
        · have := g j hj (by omega)
          rwa [tk j (by omega), gd _ (by omega)] at this
    · refine ⟨r.length, hp, le_rfl, by simp, ?_, fun j hj hj2 => by omega⟩
      rw [List.take_length]
      rcases not_and_or.1 hc with h1 | h1
      · left; omega
      · right; exact not_lt.1 h1

theorem reels_ext (a b : List ℝ) (hl : a.length = b.length) (h : ∀ i, i < a.length → a.getD i 0 = b.getD i 0) : a = b := by
  refine List.ext_getElem hl fun i h1 h2 => ?_
  have := h i h1
  rwa [List.getD_eq_getElem?_getD, List.getD_eq_getElem?_getD, List.getElem?_eq_getElem h1, List.getElem?_eq_getElem h2] at this

/-- **C135 (impulse response).**  The impulse response of a FIR filter is its coefficients — the samples that the filter actually produces on an impulse followed by zeros. -/
theorem C135_repimp_rif (sois : List ℝ → Option (List ℝ)) (h : List ℝ) (hh : h ≠ []) (npts : Option ℕ) (n : ℕ) (hn : h.length ≤ n) : repimp sois (.rif h) npts = some h ∧
    ∃ y, filtrer sois (.rif h) (1 :: List.replicate (n - 1) 0) = some y ∧ y = h ++ List.replicate (n - h.length) 0 := by
  refine ⟨rfl, ?_⟩
  have hl := List.length_pos_iff.2 hh
  obtain ⟨y, e, l, g⟩ := convolRif_some h (1 :: List.replicate (n - 1) 0) hl
  rw [List.length_cons, List.length_replicate, show n - 1 + 1 = n by omega] at l g
  refine ⟨y, e, ?_⟩
  refine reels_ext y (h ++ List.replicate (n - h.length) 0) (by simp; omega) fun i hi => ?_
  rw [g i (by omega), convolution]
  have h1 : ∀ k, passe (1 :: List.replicate (n - 1) (0 : ℝ)) i k = if k = i then 1 else 0 := by
    intro k
    unfold passe
    by_cases hk : k ≤ i
    · rw [if_pos hk]
      by_cases hk2 : k = i
      · subst hk2; simp
      · rw [if_neg hk2, show i - k = (i - k - 1) + 1 by omega, List.getD_cons_succ, List.getD_eq_getElem?_getD, List.getElem?_replicate]
        split_ifs <;> rfl
    · rw [if_neg hk, if_neg (by omega)]
  simp only [h1, mul_ite, mul_one, mul_zero, Finset.sum_ite_eq', Finset.mem_range]
  by_cases hi2 : i < h.length
  · rw [if_pos hi2, List.getD_eq_getElem?_getD, List.getD_eq_getElem?_getD, List.getElem?_append_left hi2]
  · rw [if_neg hi2, List.getD_eq_getElem?_getD, List.getElem?_append_right (by omega), List.getElem?_replicate]
    split_ifs <;> rfl

/-- **C135 (other filters).**  For the other designs, the result is a non-empty prefix of the response to an impulse: all the removed samples are smaller than 1% of the mean modulus of the samples up to them, and the last sample kept
(except when it is the only one) is not. -/
theorem C135_repimp (sois : List ℝ → Option (List ℝ)) (d : Design) (hd : ∀ h, d ≠ .rif h) (npts : Option ℕ) (r : List ℝ) (hr : repimp sois d npts = some r) :
    ∃ y, filtrer sois d (1 :: List.replicate (npts.getD (d.nbCoefs * 20) - 1) 0) = some y ∧ (y ≠ [] → ∃ m, 0 < m ∧ m ≤ y.length ∧ r = y.take m ∧
      (m = 1 ∨ ((y.take m).map fun v : ℝ => |v|).sum / m * 0.01 ≤ |y.getD (m - 1) 0|) ∧ ∀ j, m < j → j ≤ y.length → |y.getD (j - 1) 0| < ((y.take j).map fun v : ℝ => |v|).sum / j * 0.01) := by
  have main : (if npts.getD (d.nbCoefs * 20) = 0 then none else (filtrer sois d (1 :: List.replicate (npts.getD (d.nbCoefs * 20) - 1) 0)).map fun r : List ℝ => tronque r.length r) = some r := by
    cases d with
    | rif h => exact absurd rfl (hd h)
    | reel f => exact hr
    | complexe f => exact hr
  split_ifs at main with h0
  rw [Option.map_eq_some_iff] at main
  obtain ⟨y, ey, hy⟩ := main
  refine ⟨y, ey, fun hy0 => ?_⟩
  obtain ⟨m, a, b, c, e, f⟩ := tronque_spec y.length y hy0 le_rfl
  exact ⟨m, a, b, by rw [← hy, c], e, f⟩

example : tronque 3 [1, 1 / 2, 1 / 1000] = [1, 1 / 2] := by
  norm_num [tronque]

end Verif.Conception
