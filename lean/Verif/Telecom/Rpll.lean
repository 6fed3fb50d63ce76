import Verif.Telecom.PorteuseProps
import Verif.Signaux.Props
import Mathlib.Analysis.SpecificLimits.Basic

/-!
# C194: phase-locked loop with a real output (core/src/telecom/carrier-rec.cc:200-290), choice of the phase detector (123-152)

Exact arithmetic. The base band filter (a FIR filter) is a parameter: a state machine `F`.
-/

namespace Verif.Telecom.Rpll

open Complex Filter

/-! ## Model -/

variable {σ : Type}

/-- Configuration, core/include/tsd/telecom.hpp:1676-1697. -/
structure Config where
  pll : ConfigPll
  freq : ℝ
  filtreActif : Bool

/-- State: oscillator, base band filter, inner loop. core/src/telecom/carrier-rec.cc:203-209. -/
structure Etat (σ : Type) where
  osc : Signaux.OHC
  rif : σ
  pll : Boucle

/-- After `configure_impl`, core/src/telecom/carrier-rec.cc:219-231. -/
noncomputable def init (c : Config) (f0 : σ) : Etat σ := ⟨Signaux.OHC.init.configure (-c.freq), f0, ⟨0, 0, 0⟩⟩

/-- `x2`, core/src/telecom/carrier-rec.cc:240-243. -/
noncomputable def bandeBase (F : σ → List ℂ → σ × List ℂ) (c : Config) (s : σ) (x1 : List ℂ) : σ × List ℂ := if c.filtreActif then F s x1 else (s, x1)

/-- `RPLL::step`, core/src/telecom/carrier-rec.cc:232-254. -/
noncomputable def step (F : σ → List ℂ → σ × List ℂ) (c : Config) (s : Etat σ) (x : List ℝ) : Etat σ × List ℝ :=
  let o := s.osc.step x.length
  let x1 := List.zipWith (fun (a : ℂ) (b : ℝ) => a * (b : ℂ)) o.2 x
  let x2 := bandeBase F c s.rif x1
  let x3 := pllStep c.pll s.pll x2.2
  (⟨o.1, x2.1, x3.1⟩, List.zipWith (fun (a b : ℂ) => ((starRingEnd ℂ) a * b).re) o.2 x3.2)

/-- Successive calls. -/
noncomputable def passe (F : σ → List ℂ → σ × List ℂ) (c : Config) : Etat σ → List (List ℝ) → List ℝ
  | _, [] => []
  | s, x :: l => (step F c s x).2 ++ passe F c (step F c s x).1 l

/-- Type of phase detector, core/include/tsd/telecom.hpp (`PedType`). -/
inductive PedType where
  | auto
  | costa
  | puissance
  | tan
  | decision
  deriving DecidableEq

/-- The automatic choice of `ped_init`, core/src/telecom/carrier-rec.cc:125-133. -/
def resout (t : PedType) (psk ask : Bool) : PedType := if t = .auto then (if psk then .puissance else if ask then .tan else .decision) else t

/-- The order of the loop in `ped_init`, core/src/telecom/carrier-rec.cc:135-137. -/
def ordre (M : ℕ) (ask : Bool) : ℕ := if ask then 2 else M

/-- `ped_init(type, wf)`, core/src/telecom/carrier-rec.cc:123-152; the detectors are those of `Porteuse`; `d` is the decision-directed one (which can fail). -/
noncomputable def pedInit (t : PedType) (M : ℕ) (psk ask : Bool) (d : ℂ → Option ℝ) : Option (ℂ → Option ℝ) :=
  match resout t psk ask with
  | .costa => (pedCosta (ordre M ask)).map fun (p : ℂ → ℝ) x => some (p x)
  | .puissance => some fun x => some (pedPloop (ordre M ask) x)
  | .tan => some fun x => some (pedTloop (ordre M ask) x)
  | .decision => some d
  | .auto => none

/-! ## Oscillator -/

/-- The oscillator after `k` samples. -/
noncomputable def etatOsc (f : ℝ) (k : ℕ) : Signaux.OHC := ⟨exp ((-(2 * Real.pi * f * k) : ℝ) * I), exp (I * (2 * Real.pi * ((-f : ℝ) : ℂ)))⟩

theorem osc_step (f : ℝ) (k n : ℕ) : (etatOsc f k).step n = (etatOsc f (k + n), (List.range n).map fun i => exp ((-(2 * Real.pi * f * (k + i : ℕ)) : ℝ) * I)) := by
  have hn : ‖exp ((-(2 * Real.pi * f * k) : ℝ) * I)‖ = 1 := norm_exp_ofReal_mul_I _
  have hp : ∀ i : ℕ, exp ((-(2 * Real.pi * f * k) : ℝ) * I) * exp (I * (2 * Real.pi * ((-f : ℝ) : ℂ))) ^ i = exp ((-(2 * Real.pi * f * (k + i : ℕ)) : ℝ) * I) := by
    intro i
    rw [← exp_nat_mul, ← exp_add]
    congr 1; push_cast; ring
  unfold Signaux.OHC.step etatOsc
  simp only [hn, ofReal_one, div_one, Signaux.boucle_eq, hp]

theorem init_osc (c : Config) (f0 : σ) : init c f0 = ⟨etatOsc c.freq 0, f0, ⟨0, 0, 0⟩⟩ := by
  simp [init, etatOsc, Signaux.OHC.init, Signaux.OHC.configure]

theorem osc_decoupe (f : ℝ) (k n m : ℕ) : (etatOsc f k).step (n + m) = (((etatOsc f k).step n).1.step m |>.1, ((etatOsc f k).step n).2 ++ (((etatOsc f k).step n).1.step m).2) := by
  rw [osc_step, osc_step, osc_step, List.range_add, List.map_append, List.map_map]
  simp only [Nat.add_assoc]
  rfl

/-! ## Blocks -/

theorem pll_longueur (c : ConfigPll) : ∀ (x : List ℂ) (s : Boucle), (pllStep c s x).2.length = x.length
  | [], _ => rfl
  | v :: x, s => by simp [pllStep, pll_longueur c x]

/-- **C194 (blocks).** The output does not depend on the way the signal is cut into calls, provided the base band filter has the same property. -/
theorem C194_blocs (F : σ → List ℂ → σ × List ℂ) (hF : ∀ s a b, F s (a ++ b) = ((F (F s a).1 b).1, (F s a).2 ++ (F (F s a).1 b).2)) (hl : ∀ s a, (F s a).2.length = a.length)
    (c : Config) (f0 : σ) (l : List (List ℝ)) : passe F c (init c f0) l = (step F c (init c f0) l.flatten).2 := by
  have hbb : ∀ s a b, bandeBase F c s (a ++ b) = ((bandeBase F c (bandeBase F c s a).1 b).1, (bandeBase F c s a).2 ++ (bandeBase F c (bandeBase F c s a).1 b).2) := by
    intro s a b
    unfold bandeBase
    split
    · exact hF s a b
    · rfl
  have hbl : ∀ s a, (bandeBase F c s a).2.length = a.length := by
    intro s a
    unfold bandeBase
    split
    · exact hl s a
    · rfl
  have cle : ∀ (l : List (List ℝ)) (k : ℕ) (r : σ) (p : Boucle), passe F c ⟨etatOsc c.freq k, r, p⟩ l = (step F c ⟨etatOsc c.freq k, r, p⟩ l.flatten).2 := by
    intro l
    induction l with
    | nil =>
      intro k r p
      simp only [passe, step, List.flatten_nil, List.length_nil, osc_step, List.range_zero, List.map_nil, List.zipWith_nil_left]
    | cons x l ih =>
      intro k r p
      rw [passe, List.flatten_cons]
      have h1 : (step F c ⟨etatOsc c.freq k, r, p⟩ x).1.osc = etatOsc c.freq (k + x.length) := by simp only [step, osc_step]
      rcases h : (step F c ⟨etatOsc c.freq k, r, p⟩ x).1 with ⟨o, r', p'⟩
      rw [h] at h1
      dsimp only at h1
      subst h1
      rw [ih]
      have h2 := h
      simp only [step, osc_step, Etat.mk.injEq, true_and] at h2
      obtain ⟨e1, e2⟩ := h2
      simp only [step]
      rw [List.length_append, osc_decoupe, osc_step c.freq k]
      dsimp only
      rw [List.zipWith_append (by simp), hbb, C102_decoupe, e1, e2, List.zipWith_append (by simp [pll_longueur, hbl])]
  rw [init_osc]
  exact cle l 0 f0 _

/-! ## Without the base band filter -/

theorem pll_phase (c : ConfigPll) : ∀ (x : List ℂ) (s : Boucle), ∃ θ : ℕ → ℝ, θ 0 = s.θ ∧ ∀ n, n < x.length → (pllStep c s x).2[n]? = some (x.getD n 0 * exp ((-θ n : ℝ) * I))
  | [], s => ⟨fun _ => s.θ, rfl, by simp⟩
  | v :: x, s => by
    obtain ⟨θ, h0, h⟩ := pll_phase c x (pllPas c s v).1
    refine ⟨fun n => if n = 0 then s.θ else θ (n - 1), by simp, ?_⟩
    intro n hn
    cases n with
    | zero => simp [pllStep, pllPas]
    | succ n =>
      have := h n (by simpa using hn)
      simpa [pllStep] using this

theorem conj_exp_mul (a : ℝ) (z : ℂ) : (starRingEnd ℂ) (exp ((-a : ℝ) * I)) * z = exp ((a : ℝ) * I) * z := by
  rw [← exp_conj, map_mul, conj_I, conj_ofReal]
  congr 2; push_cast; ring

theorem sortie (F : σ → List ℂ → σ × List ℂ) (c : Config) (f0 : σ) (x : List ℝ) (n : ℕ) (hn : n < x.length) (v : ℂ)
    (h : (pllStep c.pll ⟨0, 0, 0⟩ (bandeBase F c f0 ((List.range x.length).map fun i => exp ((-(2 * Real.pi * c.freq * (i : ℕ)) : ℝ) * I) * (x.getD i 0 : ℝ))).2).2[n]? = some v) :
    (step F c (init c f0) x).2[n]? = some (exp (((2 * Real.pi * c.freq * n : ℝ) : ℂ) * I) * v).re := by
  have hz : List.zipWith (fun (a : ℂ) (b : ℝ) => a * (b : ℂ)) ((List.range x.length).map fun i => exp ((-(2 * Real.pi * c.freq * (0 + i : ℕ)) : ℝ) * I)) x
      = (List.range x.length).map fun i => exp ((-(2 * Real.pi * c.freq * (i : ℕ)) : ℝ) * I) * (x.getD i 0 : ℝ) := by
    apply List.ext_getElem (by simp)
    intro i h1 h2
    have hi : i < x.length := by simpa using h2
    simp [List.getElem?_eq_getElem hi]
  rw [init_osc]
  simp only [step, osc_step, hz]
  rw [List.getElem?_zipWith, h, List.getElem?_map, List.getElem?_range hn]
  simp only [Option.map_some, Nat.zero_add, conj_exp_mul]

/-- **C194, violated without the base band filter** (the default): the output is the input multiplied by the cosine of the phase of the loop. So it is null where the input is, and never greater
than the input: this is not a carrier locked on the input, whatever the detector and the loop filter. -/
theorem C194_sans_filtre_refute (F : σ → List ℂ → σ × List ℂ) (c : Config) (hc : c.filtreActif = false) (f0 : σ) (x : List ℝ) :
    ∃ θ : ℕ → ℝ, θ 0 = 0 ∧ ∀ n, n < x.length → (step F c (init c f0) x).2[n]? = some (x.getD n 0 * Real.cos (θ n)) := by
  set x1 := (List.range x.length).map fun i => exp ((-(2 * Real.pi * c.freq * (i : ℕ)) : ℝ) * I) * (x.getD i 0 : ℝ) with hx1
  obtain ⟨θ, h0, h⟩ := pll_phase c.pll x1 ⟨0, 0, 0⟩
  refine ⟨θ, h0, fun n hn => ?_⟩
  have hl : x1.length = x.length := by simp [hx1]
  have hb : (bandeBase F c f0 x1).2 = x1 := by simp [bandeBase, hc]
  have := h n (by rw [hl]; exact hn)
  rw [sortie F c f0 x n hn _ (by rw [← hx1, hb]; exact this)]
  have hg : x1.getD n 0 = exp ((-(2 * Real.pi * c.freq * (n : ℕ)) : ℝ) * I) * (x.getD n 0 : ℝ) := by
    rw [hx1, List.getD_eq_getElem?_getD, List.getElem?_map, List.getElem?_range hn]; rfl
  rw [hg]
  have e : exp (((2 * Real.pi * c.freq * n : ℝ) : ℂ) * I) * (exp ((-(2 * Real.pi * c.freq * (n : ℕ)) : ℝ) * I) * (x.getD n 0 : ℝ) * exp ((-θ n : ℝ) * I)) = (x.getD n 0 : ℝ) * exp ((-θ n : ℝ) * I) := by
    have : exp (((2 * Real.pi * c.freq * n : ℝ) : ℂ) * I) * exp ((-(2 * Real.pi * c.freq * (n : ℕ)) : ℝ) * I) = 1 := by
      rw [← exp_add, ← exp_zero]; congr 1; push_cast; ring
    linear_combination ((x.getD n 0 : ℝ) * exp ((-θ n : ℝ) * I)) * this
  rw [e, re_ofReal_mul, exp_ofReal_mul_I_re, Real.cos_neg]

/-! ## With a base band filter that isolates the carrier -/

theorem pll_constant (c : ConfigPll) (hp : c.ped = none) (ho : c.ordre = 1) (htc : 0 < c.tc) (B φ : ℝ) (hB : 0 < B) (m : ℕ) : ∀ (s : Boucle) (e : ℝ), -Real.pi < e → e ≤ Real.pi →
    exp ((φ - s.θ : ℝ) * I) = exp ((e : ℝ) * I) →
    ∀ k, k < m → (pllStep c s (List.replicate m ((B : ℂ) * exp ((φ : ℝ) * I)))).2[k]? = some ((B : ℂ) * exp (((e * Real.exp (-k / c.tc) : ℝ) : ℂ) * I)) := by
  have hα : Conception.lexpTcVersCoef c.tc = 1 - Real.exp (-1 / c.tc) := Conception.C85_coef.2.2.2.2.1 c.tc htc.ne'
  induction m with
  | zero => intro s e _ _ _ k hk; omega
  | succ m ih =>
    intro s e h1 h2 h k hk
    have hy : (B : ℂ) * exp ((φ : ℝ) * I) * exp (((-s.θ : ℝ) : ℂ) * I) = (B : ℂ) * exp ((e : ℝ) * I) := by
      rw [← h, mul_assoc, ← exp_add]
      congr 2; push_cast; ring
    have hd : c.detecteur ((B : ℂ) * exp ((e : ℝ) * I)) = e := by
      simp only [ConfigPll.detecteur, hp, Option.getD_none]
      rw [arg_real_mul _ hB, arg_exp_mul_I, toIocMod_eq_self]
      refine ⟨h1, by linarith⟩
    have hs : (pllPas c s ((B : ℂ) * exp ((φ : ℝ) * I))).1.θ = s.θ + (1 - Real.exp (-1 / c.tc)) * e := by
      simp only [pllPas, hy, hd, ConfigPll.filtre, if_pos ho, lf1, hα]
    rw [List.replicate_succ]
    cases k with
    | zero =>
      simp only [pllStep, pllPas, hy, List.getElem?_cons_zero, CharP.cast_eq_zero, neg_zero, zero_div, Real.exp_zero, mul_one]
    | succ k =>
      have hq0 : 0 < Real.exp (-1 / c.tc) := Real.exp_pos _
      have hq1 : Real.exp (-1 / c.tc) ≤ 1 := by
        rw [Real.exp_le_one_iff]
        exact div_nonpos_of_nonpos_of_nonneg (by norm_num) htc.le
      have hpi := Real.pi_pos
      have := ih (pllPas c s ((B : ℂ) * exp ((φ : ℝ) * I))).1 (e * Real.exp (-1 / c.tc)) (by nlinarith) (by nlinarith) (by
        rw [hs]
        have : ((φ - (s.θ + (1 - Real.exp (-1 / c.tc)) * e) : ℝ) : ℂ) * I = ((φ - s.θ : ℝ) : ℂ) * I + (((-((1 - Real.exp (-1 / c.tc)) * e) : ℝ)) : ℂ) * I := by push_cast; ring
        rw [this, exp_add, h, ← exp_add]
        congr 1; push_cast; ring) k (by omega)
      simp only [pllStep, List.getElem?_cons_succ]
      rw [this]
      congr 4
      rw [mul_assoc, ← Real.exp_add]
      congr 2
      push_cast; ring

theorem phase_principale (a : ℝ) : ∃ e, -Real.pi < e ∧ e ≤ Real.pi ∧ exp ((a : ℝ) * I) = exp ((e : ℝ) * I) := by
  refine ⟨arg (exp ((a : ℝ) * I)), neg_pi_lt_arg _, arg_le_pi _, ?_⟩
  have := norm_mul_exp_arg_mul_I (exp ((a : ℝ) * I))
  rw [norm_exp_ofReal_mul_I, ofReal_one, one_mul] at this
  exact this.symm

/-- The base band signal, before the filter: the input moved to the null frequency. -/
noncomputable def transposee (f : ℝ) (x : List ℝ) : List ℂ := (List.range x.length).map fun i => exp ((-(2 * Real.pi * f * (i : ℕ)) : ℝ) * I) * (x.getD i 0 : ℝ)

/-- **C194 (lock).** First-order loop with the default detector. When the filter isolates a carrier of amplitude `B` and phase `φ` (its output is `B e^{iφ}` from the sample `n0`), the output is
from there `B cos(2π f n + ε)`, where the phase `ε` vanishes exponentially: a carrier at the expected frequency. -/
theorem C194_verrou (F : σ → List ℂ → σ × List ℂ) (c : Config) (hc : c.filtreActif = true) (hp : c.pll.ped = none) (ho : c.pll.ordre = 1) (htc : 0 < c.pll.tc) (f0 : σ) (x : List ℝ)
    (B φ : ℝ) (hB : 0 < B) (p : List ℂ) (m : ℕ) (hx : x.length = p.length + m) (hF : (F f0 (transposee c.freq x)).2 = p ++ List.replicate m ((B : ℂ) * exp ((φ : ℝ) * I))) :
    ∃ e, |e| ≤ Real.pi ∧ ∀ k, k < m → (step F c (init c f0) x).2[p.length + k]? = some (B * Real.cos (2 * Real.pi * c.freq * (p.length + k : ℕ) + e * Real.exp (-k / c.pll.tc))) := by
  obtain ⟨e, h1, h2, h3⟩ := phase_principale (φ - (pllStep c.pll ⟨0, 0, 0⟩ p).1.θ)
  refine ⟨e, abs_le.2 ⟨h1.le, h2⟩, fun k hk => ?_⟩
  have hb : (bandeBase F c f0 (transposee c.freq x)).2 = p ++ List.replicate m ((B : ℂ) * exp ((φ : ℝ) * I)) := by
    simp only [bandeBase, hc, if_true, hF]
  have hv := pll_constant c.pll hp ho htc B φ hB m _ e h1 h2 h3 k hk
  rw [sortie F c f0 x (p.length + k) (by omega) ((B : ℂ) * exp (((e * Real.exp (-k / c.pll.tc) : ℝ) : ℂ) * I)) (by
    show (pllStep c.pll ⟨0, 0, 0⟩ (bandeBase F c f0 (transposee c.freq x)).2).2[p.length + k]? = _
    rw [hb, C102_decoupe, List.getElem?_append_right (by rw [pll_longueur]; omega), pll_longueur, Nat.add_sub_cancel_left]
    exact hv)]
  rw [mul_left_comm, ← exp_add, re_ofReal_mul, ← add_mul, ← ofReal_add, exp_ofReal_mul_I_re]

/-- **C194, violated with the base band filter.** The loop is not locked on the phase of its input: whatever the phases `φ` and `ψ` of two carriers (for instance two opposite ones) the outputs
become the same one, `B cos(2π f n)`: the difference between both is at most `2 π B e^{-k/tc}`. -/
theorem C194_phase_refute (F : σ → List ℂ → σ × List ℂ) (c : Config) (hc : c.filtreActif = true) (hp : c.pll.ped = none) (ho : c.pll.ordre = 1) (htc : 0 < c.pll.tc) (f0 : σ) (x y : List ℝ)
    (B φ ψ : ℝ) (hB : 0 < B) (p q : List ℂ) (hpq : p.length = q.length) (m : ℕ) (hx : x.length = p.length + m) (hy : y.length = q.length + m)
    (hF : (F f0 (transposee c.freq x)).2 = p ++ List.replicate m ((B : ℂ) * exp ((φ : ℝ) * I))) (hG : (F f0 (transposee c.freq y)).2 = q ++ List.replicate m ((B : ℂ) * exp ((ψ : ℝ) * I))) :
    ∀ k, k < m → ∃ u v, (step F c (init c f0) x).2[p.length + k]? = some u ∧ (step F c (init c f0) y).2[p.length + k]? = some v ∧ |u - B * Real.cos (2 * Real.pi * c.freq * (p.length + k : ℕ))| ≤ B * Real.pi * Real.exp (-k / c.pll.tc) ∧
      |u - v| ≤ 2 * Real.pi * B * Real.exp (-k / c.pll.tc) := by
  intro k hk
  obtain ⟨e, he, h⟩ := C194_verrou F c hc hp ho htc f0 x B φ hB p m hx hF
  obtain ⟨e', he', h'⟩ := C194_verrou F c hc hp ho htc f0 y B ψ hB q m hy hG
  have lip : ∀ a b : ℝ, |Real.cos (a + b) - Real.cos a| ≤ |b| := by
    intro a b
    have := Real.abs_cos_sub_cos_le (a + b) a
    simpa using this
  have borne : ∀ ε a : ℝ, |ε| ≤ Real.pi → |B * Real.cos (a + ε * Real.exp (-k / c.pll.tc)) - B * Real.cos a| ≤ B * Real.pi * Real.exp (-k / c.pll.tc) := by
    intro ε a hε
    rw [← mul_sub, abs_mul, abs_of_pos hB, mul_assoc]
    refine mul_le_mul_of_nonneg_left ((lip a _).trans ?_) hB.le
    rw [abs_mul, abs_of_pos (Real.exp_pos _)]
    exact mul_le_mul_of_nonneg_right hε (Real.exp_pos _).le
  have b1 := borne e (2 * Real.pi * c.freq * (p.length + k : ℕ)) he
  have b2 := borne e' (2 * Real.pi * c.freq * (p.length + k : ℕ)) he'
  refine ⟨_, _, h k hk, by rw [hpq]; exact h' k hk, b1, ?_⟩
  rw [← hpq]
  have b3 := abs_sub_le (B * Real.cos (2 * Real.pi * c.freq * (p.length + k : ℕ) + e * Real.exp (-k / c.pll.tc))) (B * Real.cos (2 * Real.pi * c.freq * (p.length + k : ℕ))) (B * Real.cos (2 * Real.pi * c.freq * (p.length + k : ℕ) + e' * Real.exp (-k / c.pll.tc)))
  rw [abs_sub_comm (B * Real.cos (2 * Real.pi * c.freq * (p.length + k : ℕ)))] at b3
  linarith

/-! ## Choice of the detector -/

/-- **C194 (automatic choice).** Without a type, a PSK waveform gets the power loop of its order, another ASK waveform the tan loop of order 2, any other waveform the decision-directed detector;
a detector is always obtained, except the Costas loop for orders other than 2 and 4. -/
theorem C194_choix (M : ℕ) (psk ask : Bool) (d : ℂ → Option ℝ) :
    pedInit .auto M psk ask d = some (if psk then (fun x => some (pedPloop (if ask then 2 else M) x)) else if ask then (fun x => some (pedTloop 2 x)) else d) ∧
    (∀ t, pedInit t M psk ask d = none ↔ t = .costa ∧ ask = false ∧ M ≠ 2 ∧ M ≠ 4) := by
  constructor
  · cases psk <;> cases ask <;> rfl
  · intro t
    have hc : ∀ n : ℕ, pedCosta n = none ↔ n ≠ 2 ∧ n ≠ 4 := by
      intro n
      constructor
      · intro h
        refine ⟨?_, ?_⟩ <;> rintro rfl <;> simp [pedCosta] at h
      · rintro ⟨h2, h4⟩
        exact C100_costa_rejet n (by exact_mod_cast h2) (by exact_mod_cast h4)
    cases t
    · cases psk <;> cases ask <;> simp [pedInit, resout]
    · simp only [pedInit, resout, ordre]
      have h2 : pedCosta (2 : ℤ) ≠ none := by simp [pedCosta]
      cases ask <;> simp [hc, h2]
    · simp [pedInit, resout]
    · simp [pedInit, resout]
    · simp [pedInit, resout]

/-! ## Non-vacuity -/

/-- The mean of two successive samples, the state being the previous one. -/
noncomputable def moyenne2 : ℂ → List ℂ → ℂ × List ℂ
  | s, [] => (s, [])
  | s, v :: l => ((moyenne2 v l).1, (v + s) / 2 :: (moyenne2 v l).2)

/-- The filter `moyenne2` isolates every carrier at the quarter of the sampling frequency, after its first sample: the hypotheses of `C194_verrou` are met for every amplitude and phase, and
those of `C194_blocs` too. -/
example (A φ : ℝ) (m : ℕ) : ∃ p : List ℂ, p.length = 1 ∧ (moyenne2 0 (transposee (1 / 4) ((List.range (m + 1)).map fun n : ℕ => A * Real.cos (Real.pi / 2 * n + φ)))).2 =
    p ++ List.replicate m (((A / 2 : ℝ) : ℂ) * exp ((φ : ℝ) * I)) := by
  have hv : transposee (1 / 4) ((List.range (m + 1)).map fun n : ℕ => A * Real.cos (Real.pi / 2 * n + φ)) =
      (List.range (m + 1)).map fun n => ((A / 2 : ℝ) : ℂ) * exp ((φ : ℝ) * I) + (-1) ^ n * (((A / 2 : ℝ) : ℂ) * exp ((-φ : ℝ) * I)) := by
    unfold transposee
    rw [List.length_map, List.length_range]
    apply List.map_congr_left
    intro n hn
    have hn' : n < m + 1 := by simpa using hn
    rw [List.getD_eq_getElem?_getD, List.getElem?_map, List.getElem?_range hn']
    simp only [Option.map_some, Option.getD_some]
    have e1 : exp ((-(2 * Real.pi * (1 / 4) * n) : ℝ) * I) * exp (((Real.pi / 2 * n + φ : ℝ) : ℂ) * I) = exp ((φ : ℝ) * I) := by
      rw [← exp_add]; congr 1; push_cast; ring
    have e2 : exp ((-(2 * Real.pi * (1 / 4) * n) : ℝ) * I) * exp (-((Real.pi / 2 * n + φ : ℝ) : ℂ) * I) = (-1) ^ n * exp ((-φ : ℝ) * I) := by
      have : (-1 : ℂ) ^ n = exp (-(n * (Real.pi * I))) := by
        rw [exp_neg, exp_nat_mul, exp_pi_mul_I, ← inv_pow]; norm_num
      rw [this, ← exp_add, ← exp_add]; congr 1; push_cast; ring
    rw [ofReal_mul, ofReal_cos, Complex.cos]
    push_cast at e1 e2 ⊢
    linear_combination (A / 2 : ℂ) * e1 + (A / 2 : ℂ) * e2
  rw [hv]
  generalize ((A / 2 : ℝ) : ℂ) * exp ((φ : ℝ) * I) = u
  generalize ((A / 2 : ℝ) : ℂ) * exp ((-φ : ℝ) * I) = w
  have cle : ∀ (m k : ℕ), (moyenne2 (u + (-1) ^ k * w) ((List.range m).map fun n => u + (-1) ^ (n + k + 1) * w)).2 = List.replicate m u := by
    intro m
    induction m with
    | zero => intro k; rfl
    | succ m ih =>
      intro k
      rw [List.range_succ_eq_map, List.map_cons, List.map_map, moyenne2, List.replicate_succ]
      have := ih (k + 1)
      have hc : ((fun n : ℕ => u + (-1) ^ (n + k + 1) * w) ∘ Nat.succ) = fun n : ℕ => u + (-1) ^ (n + (k + 1) + 1) * w := by
        funext n; simp only [Function.comp]; congr 3; omega
      rw [hc, Nat.zero_add]
      dsimp only
      rw [this]
      congr 1
      rw [pow_succ]; ring
  refine ⟨[(u + w + 0) / 2], rfl, ?_⟩
  rw [List.range_succ_eq_map, List.map_cons, List.map_map, moyenne2]
  have := cle m 0
  have hc : ((fun n : ℕ => u + (-1) ^ n * w) ∘ Nat.succ) = fun n : ℕ => u + (-1) ^ (n + 0 + 1) * w := by
    funext n; rfl
  rw [hc, pow_zero, one_mul] at *
  rw [this]; rfl

end Verif.Telecom.Rpll
