import Verif.Fourier.Tfr
import Mathlib.Analysis.SpecialFunctions.Trigonometric.InverseDeriv
import Mathlib.MeasureTheory.Integral.IntervalIntegral.FundThmCalculus
import Mathlib.Tactic.FieldSimp
import Mathlib.Tactic.Linarith

/-!
# C193: dispersive channel (core/src/telecom/simulation.cc)

Exact arithmetic. The chain that draws the noise, filters and resamples it is abstract: a machine that, asked for `m` noise samples, gives some fading samples.
-/

namespace Verif.CanalDisp

open Real Verif.Fourier MeasureTheory

/-! ## Model -/

/-- `doppler_distri` at one frequency, core/src/telecom/simulation.cc:22-27. -/
noncomputable def doppler (fd fc f : ℝ) : ℝ := if fd ≤ |f - fc| then 0 else 1 / (π * fd * sqrt (1 - ((f - fc) / fd) ^ 2))

/-- State of `CanalDispersif`, core/src/telecom/simulation.cc:45-53: state of the noise chain, remaining fading samples, first call. -/
structure Etat (σ : Type) where
  chaine : σ
  reste : List ℂ
  premier : Bool

variable {σ : Type} (gen : σ → ℕ → σ × List ℂ)

/-- The step `premier_appel`, core/src/telecom/simulation.cc:101-105: 512 noise samples are drawn, the fading samples are dropped. -/
def amorce (s : Etat σ) : σ := if s.premier then (gen s.chaine 512).1 else s.chaine

/-- `step`, core/src/telecom/simulation.cc:92-121, `r` being `4 fd / fe` (`none`: negative size, segment out of range or violated assertion). -/
noncomputable def step (r : ℝ) (s : Etat σ) (x : List ℂ) : Option (Etat σ × List ℂ) :=
  let m : ℤ := ⌈((x.length : ℝ) - s.reste.length + 1) * r⌉
  if m < 0 then none else
  let g := gen (amorce gen s) m.toNat
  if x.length < s.reste.length then none else
  if g.2.length < x.length - s.reste.length then none else
  (segment x 0 s.reste.length).bind fun x1 : List ℂ =>
  (queue x (x.length - s.reste.length)).bind fun x2 : List ℂ =>
  (segment g.2 0 (x.length - s.reste.length)).bind fun f2 : List ℂ =>
  (queue g.2 (g.2.length - (x.length - s.reste.length))).map fun reste : List ℂ =>
  (⟨g.1, reste, false⟩, List.zipWith (· * ·) x1 s.reste ++ List.zipWith (· * ·) x2 f2)

/-- Successive calls: final state and whole output. -/
noncomputable def passe (r : ℝ) (s : Etat σ) : List (List ℂ) → Option (Etat σ × List ℂ)
  | [] => some (s, [])
  | x :: l => (step gen r s x).bind fun p : Etat σ × List ℂ => (passe r p.1 l).map fun q : Etat σ × List ℂ => (q.1, p.2 ++ q.2)

/-! ## Specification -/

/-- The fading samples a history of requests gives, after the state `s` of the chain. -/
def Evanouissements (s : σ) : List ℕ → List ℂ
  | [] => []
  | m :: l => (gen s m).2 ++ Evanouissements (gen s m).1 l

/-! ## Proofs -/

/-- **C193 (Doppler spectrum).** The spectrum is positive, symmetric around the carrier, null outside of the maximal shift, at least `1 / (π fd)` inside, and its integral is 1. -/
theorem C193_doppler (fd fc : ℝ) (hd : 0 < fd) :
    (∀ f, 0 ≤ doppler fd fc f) ∧ (∀ δ, doppler fd fc (fc + δ) = doppler fd fc (fc - δ)) ∧ (∀ f, fd ≤ |f - fc| → doppler fd fc f = 0) ∧ (∀ f, |f - fc| < fd → 1 / (π * fd) ≤ doppler fd fc f) ∧
    ∫ f in (fc - fd)..(fc + fd), doppler fd fc f = 1 := by
  have hpos : ∀ f, 0 ≤ doppler fd fc f := by
    intro f
    unfold doppler
    split
    · exact le_refl _
    · exact div_nonneg zero_le_one (mul_nonneg (mul_nonneg pi_pos.le hd.le) (sqrt_nonneg _))
  have hu : ∀ f, |f - fc| < fd → ((f - fc) / fd) ^ 2 < 1 := by
    intro f hf
    rw [sq_lt_one_iff_abs_lt_one, abs_div, abs_of_pos hd, div_lt_one hd]
    exact hf
  refine ⟨hpos, ?_, ?_, ?_, ?_⟩
  · intro δ
    unfold doppler
    rw [show fc + δ - fc = δ by ring, show fc - δ - fc = -δ by ring, abs_neg, neg_div, neg_sq]
  · intro f hf; rw [doppler, if_pos hf]
  · intro f hf
    rw [doppler, if_neg (not_le.2 hf)]
    have h0 := hu f hf
    refine one_div_le_one_div_of_le (mul_pos (mul_pos pi_pos hd) (sqrt_pos.2 (by linarith))) ?_
    have h1 : sqrt (1 - ((f - fc) / fd) ^ 2) ≤ 1 := sqrt_le_one.2 (by linarith [sq_nonneg ((f - fc) / fd)])
    exact mul_le_of_le_one_right (mul_pos pi_pos hd).le h1
  · have hc : ContinuousOn (fun f : ℝ => arcsin ((f - fc) / fd) / π) (Set.Icc (fc - fd) (fc + fd)) := by
      apply Continuous.continuousOn
      fun_prop
    have hder : ∀ f ∈ Set.Ioo (fc - fd) (fc + fd), HasDerivAt (fun f : ℝ => arcsin ((f - fc) / fd) / π) (doppler fd fc f) f := by
      intro f hf
      have hf' : |f - fc| < fd := abs_lt.2 ⟨by linarith [hf.1], by linarith [hf.2]⟩
      have h0 := hu f hf'
      have hlt := abs_lt.1 (sq_lt_one_iff_abs_lt_one _ |>.1 h0)
      have h1 : HasDerivAt (fun f : ℝ => (f - fc) / fd) (1 / fd) f := ((hasDerivAt_id f).sub_const fc).div_const fd
      have h2 := ((hasDerivAt_arcsin (by linarith [hlt.1]) (by linarith [hlt.2])).comp f h1).div_const π
      refine h2.congr_deriv ?_
      rw [doppler, if_neg (not_le.2 hf')]
      have hs : sqrt (1 - ((f - fc) / fd) ^ 2) ≠ 0 := (sqrt_pos.2 (by linarith)).ne'
      have := pi_pos.ne'
      field_simp
    have hle : fc - fd ≤ fc + fd := by linarith
    rw [intervalIntegral.integral_eq_sub_of_hasDerivAt_of_le hle hc hder]
    · rw [show (fc + fd - fc) / fd = 1 by rw [add_sub_cancel_left, div_self hd.ne'], show (fc - fd - fc) / fd = -1 by rw [sub_sub_cancel_left, neg_div, div_self hd.ne'], arcsin_one, arcsin_neg_one]
      have := pi_pos.ne'
      field_simp
      ring
    · apply intervalIntegral.intervalIntegrable_deriv_of_nonneg (g := fun f : ℝ => arcsin ((f - fc) / fd) / π)
      · rw [Set.uIcc_of_le hle]; exact hc
      · rw [min_eq_left hle, max_eq_right hle]; exact hder
      · intro f _; exact hpos f

theorem zip_suite (a b c d : List ℂ) (h : a.length = b.length) : List.zipWith (· * ·) (a ++ c) (b ++ d) = List.zipWith (· * ·) a b ++ List.zipWith (· * ·) c d := List.zipWith_append h

theorem step_some (r : ℝ) (s : Etat σ) (x : List ℂ) (m : ℕ) (hm : ⌈((x.length : ℝ) - s.reste.length + 1) * r⌉ = m) (h1 : s.reste.length ≤ x.length) (h2 : x.length - s.reste.length ≤ (gen (amorce gen s) m).2.length) :
    step gen r s x = some (⟨(gen (amorce gen s) m).1, (gen (amorce gen s) m).2.drop (x.length - s.reste.length), false⟩, List.zipWith (· * ·) x (s.reste ++ (gen (amorce gen s) m).2)) := by
  unfold step
  simp only [hm, Int.toNat_natCast]
  have hs : ∀ (a : List ℂ) (i n : ℕ), i + n ≤ a.length → Fourier.segment a i n = some ((a.drop i).take n) := fun a i n h => by rw [Fourier.segment, if_pos h]
  have hq : ∀ (a : List ℂ) (n : ℕ), n ≤ a.length → queue a n = some (a.drop (a.length - n)) := fun a n h => by
    rw [queue, if_pos h, hs _ _ _ (by omega), List.take_of_length_le (by rw [List.length_drop]; omega)]
  rw [if_neg (by omega), if_neg (by omega), if_neg (by omega), hs _ _ _ (by omega), Option.bind_some, hq _ _ (by omega), Option.bind_some, hs _ _ _ (by omega), Option.bind_some, hq _ _ (by omega), Option.map_some]
  simp only [List.drop_zero]
  congr 2
  · congr 2
    omega
  · conv_rhs => rw [← List.take_append_drop s.reste.length x, zip_suite _ _ _ _ (by simp [h1])]
    congr 1
    rw [show x.length - (x.length - s.reste.length) = s.reste.length by omega]
    have : ∀ (a b : List ℂ), List.zipWith (· * ·) a (b.take a.length) = List.zipWith (· * ·) a b := by
      intro a
      induction a with
      | nil => intro b; simp
      | cons u a ih => intro b; cases b with
        | nil => simp
        | cons v b => simp [ih]
    conv_rhs => rw [← this (x.drop s.reste.length), List.length_drop]

/-- **C193 (multiplicative channel).** Whatever the partition into blocks, as long as the calls succeed, the output is the input multiplied sample by sample by one and the same continuous sequence of fading samples: the ones the chain gives, in order, none being lost, repeated or reordered between the calls. -/
theorem C193_produit (r : ℝ) (l : List (List ℂ)) : ∀ (s s' : Etat σ) (y : List ℂ), passe gen r s l = some (s', y) →
    ∃ ms : List ℕ, ms.length = l.length ∧ y = List.zipWith (· * ·) l.flatten (s.reste ++ Evanouissements gen (amorce gen s) ms) ∧ y.length = l.flatten.length ∧
      (l ≠ [] → s'.reste = (s.reste ++ Evanouissements gen (amorce gen s) ms).drop l.flatten.length) := by
  induction l with
  | nil =>
    intro s s' y h
    cases h
    exact ⟨[], rfl, by simp, rfl, fun h => absurd rfl h⟩
  | cons x l ih =>
    intro s s' y h
    rw [passe] at h
    by_cases hm : ⌈((x.length : ℝ) - s.reste.length + 1) * r⌉ < 0
    · rw [step, if_pos hm] at h; exact absurd h (by simp)
    obtain ⟨m, hm'⟩ := Int.eq_ofNat_of_zero_le (not_lt.1 hm)
    have h1 : s.reste.length ≤ x.length := by
      by_contra hc
      unfold step at h
      simp only [if_neg hm, if_pos (not_le.1 hc)] at h
      exact absurd h (by simp)
    have h2 : x.length - s.reste.length ≤ (gen (amorce gen s) m).2.length := by
      by_contra hc
      unfold step at h
      simp only [hm', Int.toNat_natCast, if_neg (not_lt.2 h1), if_pos (not_le.1 hc)] at h
      rw [if_neg (by omega)] at h
      exact absurd h (by simp)
    rw [step_some gen r s x m hm' h1 h2, Option.bind_some] at h
    dsimp only at h
    obtain ⟨q, hq, hq2⟩ := Option.map_eq_some_iff.1 h
    obtain ⟨s2, y2⟩ := q
    cases hq2
    obtain ⟨ms, lms, ey, ly, er⟩ := ih _ _ _ hq
    dsimp only at ey er
    have ea : amorce gen (⟨(gen (amorce gen s) m).1, (gen (amorce gen s) m).2.drop (x.length - s.reste.length), false⟩ : Etat σ) = (gen (amorce gen s) m).1 := by simp [amorce]
    rw [ea] at ey er
    have lz : (List.zipWith (· * ·) x (s.reste ++ (gen (amorce gen s) m).2)).length = x.length := by rw [List.length_zipWith, List.length_append]; omega
    have hd : (s.reste ++ (gen (amorce gen s) m).2).drop x.length = (gen (amorce gen s) m).2.drop (x.length - s.reste.length) := by
      rw [List.drop_append, List.drop_of_length_le h1, List.nil_append]
    refine ⟨m :: ms, by simp [lms], ?_, ?_, ?_⟩
    · rw [ey, List.flatten_cons, Evanouissements, ← List.append_assoc]
      conv_rhs => rw [← List.take_append_drop x.length (s.reste ++ (gen (amorce gen s) m).2), List.append_assoc, zip_suite _ _ _ _ (by rw [List.length_take, List.length_append]; omega), hd]
      congr 1
      have : ∀ (a b : List ℂ), List.zipWith (· * ·) a b = List.zipWith (· * ·) a (b.take a.length) := by
        intro a
        induction a with
        | nil => intro b; simp
        | cons u a ih => intro b; cases b with
          | nil => simp
          | cons v b => simp [← ih]
      exact this _ _
    · rw [List.length_append, lz, ly, List.flatten_cons, List.length_append]
    · intro _
      rw [List.flatten_cons, List.length_append, Evanouissements, ← List.append_assoc]
      by_cases hl : l = []
      · subst hl
        cases ms with
        | nil =>
          cases hq
          simp only [Evanouissements, List.append_nil, List.flatten_nil, List.length_nil, Nat.add_zero, hd]
        | cons a b => simp at lms
      · rw [er hl, ← hd, ← List.drop_drop]
        conv_rhs => rw [List.drop_append_of_le_length (by rw [List.length_append]; omega)]

/-- **C193 (success).** A call whose block is at least as long as the remainder succeeds, provided the chain gives `1/r` fading samples per noise sample. -/
theorem C193_reussite (r : ℝ) (hr : 0 < r) (hg : ∀ (s : σ) (m : ℕ), (m : ℝ) ≤ (gen s m).2.length * r) (s : Etat σ) (x : List ℂ) (h : s.reste.length ≤ x.length) :
    ∃ s' y, step gen r s x = some (s', y) ∧ y.length = x.length := by
  have hp : (0 : ℝ) ≤ ((x.length : ℝ) - s.reste.length + 1) * r := by
    have : (s.reste.length : ℝ) ≤ x.length := by exact_mod_cast h
    exact mul_nonneg (by linarith) hr.le
  obtain ⟨m, hm⟩ := Int.eq_ofNat_of_zero_le (Int.ceil_nonneg hp)
  have h1 := hg (amorce gen s) m
  have h2 : ((x.length : ℝ) - s.reste.length + 1) * r ≤ m := by
    have := Int.le_ceil (((x.length : ℝ) - s.reste.length + 1) * r)
    rw [hm] at this
    exact_mod_cast this
  have h3 : ((x.length : ℝ) - s.reste.length + 1) ≤ (gen (amorce gen s) m).2.length := le_of_mul_le_mul_right (h2.trans h1) hr
  have h4 : (x.length : ℝ) < s.reste.length + (gen (amorce gen s) m).2.length := by linarith
  have h5 : x.length < s.reste.length + (gen (amorce gen s) m).2.length := by exact_mod_cast h4
  refine ⟨_, _, step_some gen r s x m hm h (by omega), ?_⟩
  rw [List.length_zipWith, List.length_append]
  omega

/-- **C193, violated for small blocks.** When the fading is slow with respect to the blocks (two successive blocks shorter than the period of the fading samples), the second call fails: the remainder does not fit in the block. -/
theorem C193_petits_blocs_refute (r : ℝ) (hr : 0 < r) (hg : ∀ (s : σ) (m : ℕ), (m : ℝ) ≤ (gen s m).2.length * r) (c : σ) (x1 x2 : List ℂ) (h : ((x1.length : ℝ) + x2.length) * r < 1) :
    (∃ s y, step gen r ⟨c, [], true⟩ x1 = some (s, y)) ∧ passe gen r ⟨c, [], true⟩ [x1, x2] = none := by
  have hp : (0 : ℝ) < ((x1.length : ℝ) - ([] : List ℂ).length + 1) * r := by
    have : (0 : ℝ) ≤ x1.length := Nat.cast_nonneg _
    exact mul_pos (by simp; linarith) hr
  obtain ⟨s, y, e, -⟩ := C193_reussite gen r hr hg ⟨c, [], true⟩ x1 (by simp)
  refine ⟨⟨s, y, e⟩, ?_⟩
  obtain ⟨m, hm⟩ := Int.eq_ofNat_of_zero_le (Int.ceil_nonneg hp.le)
  have hm1 : 1 ≤ m := by
    have := Int.ceil_pos.2 hp
    rw [hm] at this
    exact_mod_cast this
  have h1 := hg (amorce gen ⟨c, [], true⟩) m
  have h2 : ((x1.length : ℝ) + x2.length) < (gen (amorce gen ⟨c, [], true⟩) m).2.length := by
    have : ((x1.length : ℝ) + x2.length) * r < (gen (amorce gen ⟨c, [], true⟩) m).2.length * r := by
      refine h.trans_le (le_trans ?_ h1)
      exact_mod_cast hm1
    exact lt_of_mul_lt_mul_right this hr.le
  have h3 : x1.length + x2.length < (gen (amorce gen ⟨c, [], true⟩) m).2.length := by exact_mod_cast h2
  have e' := step_some gen r ⟨c, [], true⟩ x1 m hm (by simp) (by simp; omega)
  rw [passe, e', Option.bind_some, passe]
  have : step gen r (⟨(gen (amorce gen ⟨c, [], true⟩) m).1, (gen (amorce gen ⟨c, [], true⟩) m).2.drop (x1.length - ([] : List ℂ).length), false⟩ : Etat σ) x2 = none := by
    unfold step
    dsimp only
    split
    · rfl
    · rw [if_pos]
      simp
      omega
  dsimp only at this ⊢
  rw [this]
  rfl

/-- A chain that repeats each noise sample 100 times (`fe = 400 fd`) meets the hypotheses, and two blocks of 10 samples make the channel fail. -/
example : ∃ gen : Unit → ℕ → Unit × List ℂ, (∀ (s : Unit) (m : ℕ), (m : ℝ) ≤ (gen s m).2.length * (1 / 100)) ∧ (((List.replicate 10 (1 : ℂ)).length : ℝ) + (List.replicate 10 (1 : ℂ)).length) * (1 / 100) < 1 :=
  ⟨fun _ m => ((), List.replicate (100 * m) 1), fun _ m => by rw [List.length_replicate]; push_cast; linarith, by norm_num⟩

end Verif.CanalDisp
