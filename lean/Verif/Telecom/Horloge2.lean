import Verif.Telecom.DemodGen
import Mathlib.Data.List.GetD

/-!
# C177: the second clock recovery (core/src/telecom/clock-rec.cc:399-628), `ClockRec2`

Exact arithmetic instead of `float`; the interpolator is a parameter as in `Verif.Telecom.Horloge` (window, index of the oldest sample, abscissa; `none`: error). The debug figures are not modelled.
-/

namespace Verif.Telecom

open Filtre (Decoupable enchaine Bloc boucle)

/-! ## Model -/

/-- Configuration: oversampling factor, time constant, length of the window of the interpolator, interpolator, matched filter. core/src/telecom/clock-rec.cc:413-437. -/
structure ConfigHorloge2 where
  osf : ℕ
  tc : ℝ
  K : ℕ
  itrp : List ℂ → ℕ → ℝ → Option ℂ
  h : List ℂ

/-- `gain`, core/src/telecom/clock-rec.cc:426. -/
noncomputable def ConfigHorloge2.gain (c : ConfigHorloge2) : ℝ := c.osf * (1 - Real.exp (-1 / (c.tc * c.osf)))

/-- `dh`, derivative of the matched filter, core/src/telecom/clock-rec.cc:430-435; the first and last elements do not exist in an empty filter. -/
def derivee (h : List ℂ) : Option (List ℂ) :=
  if h.length = 0 then none
  else some ((List.range (h.length + 1)).map fun i => if i = 0 then h.getD 0 0 else if i = h.length then -h.getD (h.length - 1) 0 else h.getD i 0 - h.getD (i - 1) 0)

/-- Mutable state of the loop, core/src/telecom/clock-rec.cc:402-405. -/
structure Boucle2 where
  phase : ℝ
  fx : List ℂ
  fdx : List ℂ

/-- Whole state: matched filter, derivative filter, loop, core/src/telecom/clock-rec.cc:402-408. -/
abbrev Horloge2 := Filtre.Rif ℂ ℂ × Filtre.Rif ℂ ℂ × Boucle2

/-- The constructor, core/src/telecom/clock-rec.cc:413-455. -/
noncomputable def Horloge2.cree (c : ConfigHorloge2) : Option Horloge2 :=
  (derivee c.h).map fun dh => (Filtre.Rif.init 0 c.h, Filtre.Rif.init 0 dh, ⟨(c.osf : ℝ) / 2, List.replicate c.K 0, List.replicate c.K 0⟩)

/-- `maj_fenetre`, core/src/telecom/clock-rec.cc:454-462, for a non-empty window. -/
def glisse (w : List ℂ) (x : ℂ) : List ℂ := w.drop 1 ++ [x]

/-- `e`, core/src/telecom/clock-rec.cc:538. -/
def erreurMl (v dv : ℂ) : ℝ := (v * dv).re

/-- `dec`, core/src/telecom/clock-rec.cc:554-561. -/
noncomputable def correction2 (c : ConfigHorloge2) (e : ℝ) : ℝ := max (-(c.osf : ℝ) / 4) (min (c.gain * e) ((c.osf : ℝ) / 4))

/-- One sample of the filtered signal and of its derivative, core/src/telecom/clock-rec.cc:486-568: `none` for an empty window (index -1) and for a negative phase (`msg_erreur`). -/
noncomputable def Boucle2.pas (c : ConfigHorloge2) (s : Boucle2) (x dx : ℂ) : Option (Boucle2 × Option ℂ) :=
  if c.K = 0 then none
  else
    let fx := glisse s.fx x
    let fdx := glisse s.fdx dx
    let phase := s.phase - 1
    if 1 < phase then some (⟨phase, fx, fdx⟩, none)
    else if phase < 0 then none
    else
      (c.itrp fx 0 phase).bind fun v : ℂ => (c.itrp fdx 0 phase).bind fun dv : ℂ =>
        some (⟨phase + c.osf - correction2 c (erreurMl v dv), fx, fdx⟩, some v)

/-- `ClockRec2::step`, core/src/telecom/clock-rec.cc:464-572. -/
noncomputable def Horloge2.step (c : ConfigHorloge2) : Bloc Horloge2 ℂ ℂ := fun s x =>
  (Filtre.Rif.step 0 (fun a b : ℂ => a + b) (fun a b : ℂ => a * b) s.1 x).bind fun r : Filtre.Rif ℂ ℂ × List ℂ =>
    (Filtre.Rif.step 0 (fun a b : ℂ => a + b) (fun a b : ℂ => a * b) s.2.1 x).bind fun q : Filtre.Rif ℂ ℂ × List ℂ =>
      if r.2.length = q.2.length then
        (boucle (fun (b : Boucle2) (p : ℂ × ℂ) => b.pas c p.1 p.2) s.2.2 (r.2.zip q.2)).map fun t : Boucle2 × List (Option ℂ) => ((r.1, q.1, t.1), t.2.reduceOption)
      else none

/-! ## Proofs -/

/-- One sample of the whole block (used in the proofs). -/
noncomputable def Horloge2.ech (c : ConfigHorloge2) (s : Horloge2) (x : ℂ) : Option (Horloge2 × Option ℂ) :=
  (Filtre.Rif.ech 0 (fun a b : ℂ => a + b) (fun a b : ℂ => a * b) s.1 x).bind fun r : Filtre.Rif ℂ ℂ × ℂ =>
    (Filtre.Rif.ech 0 (fun a b : ℂ => a + b) (fun a b : ℂ => a * b) s.2.1 x).bind fun q : Filtre.Rif ℂ ℂ × ℂ =>
      (s.2.2.pas c r.2 q.2).map fun t : Boucle2 × Option ℂ => ((r.1, q.1, t.1), t.2)

theorem boucle_nil' {S X Y : Type} (f : S → X → Option (S × Y)) (s : S) : boucle f s [] = some (s, []) := rfl

theorem boucle_bind {S X Y : Type} (f : S → X → Option (S × Y)) (s : S) (x : X) (l : List X) :
    boucle f s (x :: l) = (f s x).bind fun r : S × Y => (boucle f r.1 l).map fun q : S × List Y => (q.1, r.2 :: q.2) := by
  show (match f s x with
    | none => none
    | some (s', y) => match boucle f s' l with
      | none => none
      | some (s'', ys) => some (s'', y :: ys)) = _
  cases f s x with
  | none => rfl
  | some r =>
    simp only [Option.bind_some]
    cases boucle f r.1 l <;> rfl

theorem boucle_longueur' {S X Y : Type} (f : S → X → Option (S × Y)) (l : List X) : ∀ (s s' : S) (y : List Y), boucle f s l = some (s', y) → y.length = l.length := by
  induction l with
  | nil => intro s s' y h; rw [boucle_nil'] at h; simp only [Option.some.injEq, Prod.mk.injEq] at h; rw [← h.2]; rfl
  | cons x l ih =>
    intro s s' y h
    rw [boucle_bind] at h
    obtain ⟨r, -, h⟩ := Option.bind_eq_some_iff.1 h
    obtain ⟨q, h1, h⟩ := Option.map_eq_some_iff.1 h
    simp only [Prod.mk.injEq] at h
    rw [← h.2, List.length_cons, ih _ _ _ h1, List.length_cons]

/-- Two synchronous blocks and a loop on their pairs of outputs, sample by sample. -/
theorem parallele {S T U X A B Y : Type} (f : S → X → Option (S × A)) (g : T → X → Option (T × B)) (p : U → A → B → Option (U × Y)) (l : List X) :
    ∀ (s : S) (t : T) (u : U),
      ((boucle f s l).bind fun r : S × List A => (boucle g t l).bind fun q : T × List B =>
        (boucle (fun (b : U) (z : A × B) => p b z.1 z.2) u (r.2.zip q.2)).map fun v : U × List Y => ((r.1, q.1, v.1), v.2)) =
      boucle (fun (s : S × T × U) (x : X) => (f s.1 x).bind fun r : S × A => (g s.2.1 x).bind fun q : T × B => (p s.2.2 r.2 q.2).map fun v : U × Y => ((r.1, q.1, v.1), v.2)) (s, t, u) l := by
  induction l with
  | nil => intro s t u; rfl
  | cons x l ih =>
    intro s t u
    rw [boucle_bind f, boucle_bind g, boucle_bind (fun (s : S × T × U) (x : X) => (f s.1 x).bind fun r : S × A => (g s.2.1 x).bind fun q : T × B => (p s.2.2 r.2 q.2).map fun v : U × Y => ((r.1, q.1, v.1), v.2))]
    dsimp only
    cases f s x with
    | none => rfl
    | some r =>
      simp only [Option.bind_some]
      cases g t x with
      | none =>
        simp only [Option.bind_none]
        cases boucle f r.1 l <;> rfl
      | some q =>
        simp only [Option.bind_some]
        cases hp : p u r.2 q.2 with
        | none =>
          simp only [Option.map_none, Option.bind_none]
          cases boucle f r.1 l with
          | none => rfl
          | some r' =>
            simp only [Option.map_some, Option.bind_some]
            cases boucle g q.1 l with
            | none => rfl
            | some q' =>
              simp only [Option.map_some, Option.bind_some, List.zip_cons_cons]
              rw [boucle_bind, hp]
              rfl
        | some v =>
          simp only [Option.map_some, Option.bind_some]
          rw [← ih]
          cases boucle f r.1 l with
          | none => rfl
          | some r' =>
            simp only [Option.map_some, Option.bind_some]
            cases boucle g q.1 l with
            | none => rfl
            | some q' =>
              simp only [Option.map_some, Option.bind_some, List.zip_cons_cons]
              rw [boucle_bind, hp]
              simp only [Option.bind_some]
              cases boucle (fun (b : U) (z : A × B) => p b z.1 z.2) v.1 (r'.2.zip q'.2) <;> rfl

theorem step2_ech (c : ConfigHorloge2) (s : Horloge2) (x : List ℂ) (h1 : s.1.K ≠ 0) (h2 : s.2.1.K ≠ 0) :
    Horloge2.step c s x = (boucle (Horloge2.ech c) s x).map fun r : Horloge2 × List (Option ℂ) => (r.1, r.2.reduceOption) := by
  unfold Horloge2.step Filtre.Rif.step
  rw [if_neg h1, if_neg h2]
  have := parallele (Filtre.Rif.ech 0 (fun a b : ℂ => a + b) (fun a b : ℂ => a * b)) (Filtre.Rif.ech 0 (fun a b : ℂ => a + b) (fun a b : ℂ => a * b)) (fun (b : Boucle2) (x dx : ℂ) => b.pas c x dx) x s.1 s.2.1 s.2.2
  unfold Horloge2.ech
  rw [← this]
  cases hf : boucle (Filtre.Rif.ech 0 (fun a b : ℂ => a + b) (fun a b : ℂ => a * b)) s.1 x with
  | none => rfl
  | some r =>
    simp only [Option.bind_some]
    cases hg : boucle (Filtre.Rif.ech 0 (fun a b : ℂ => a + b) (fun a b : ℂ => a * b)) s.2.1 x with
    | none => rfl
    | some q =>
      simp only [Option.bind_some]
      rw [if_pos (by rw [boucle_longueur' _ _ _ _ _ hf, boucle_longueur' _ _ _ _ _ hg])]
      cases boucle (fun (b : Boucle2) (z : ℂ × ℂ) => b.pas c z.1 z.2) s.2.2 (r.2.zip q.2) <;> rfl

theorem ech_K (s s' : Filtre.Rif ℂ ℂ) (x y : ℂ) (h : Filtre.Rif.ech 0 (fun a b : ℂ => a + b) (fun a b : ℂ => a * b) s x = some (s', y)) : s'.K = s.K := by
  unfold Filtre.Rif.ech at h
  split at h
  · cases h
  · split at h
    · dsimp only at h
      split at h
      · cases h
      · split at h
        · cases h
        · simp only [Option.some.injEq, Prod.mk.injEq] at h
          rw [← h.1]
    · cases h

/-- States in which both filters have coefficients (all those reachable from the constructor: `cree_sain`, `step2_decoupable`). -/
def Horloge2.Sain (s : Horloge2) : Prop := s.1.K ≠ 0 ∧ s.2.1.K ≠ 0

theorem step2_decoupable (c : ConfigHorloge2) : Decoupable (Horloge2.step c) Horloge2.Sain := by
  have hb := decoupable_image (Filtre.boucle_decoupable (Horloge2.ech c)) (fun l : List (Option ℂ) => l.reduceOption) (fun a b => List.reduceOption_append a b) rfl
  have hk : ∀ (l : List ℂ) (s s' : Horloge2) (y : List (Option ℂ)), boucle (Horloge2.ech c) s l = some (s', y) → s.Sain → s'.Sain := by
    intro l
    induction l with
    | nil => intro s s' y h hs; rw [boucle_nil'] at h; simp only [Option.some.injEq, Prod.mk.injEq] at h; rw [← h.1]; exact hs
    | cons x l ih =>
      intro s s' y h hs
      rw [boucle_bind] at h
      obtain ⟨r, h0, h⟩ := Option.bind_eq_some_iff.1 h
      obtain ⟨q, h1, h⟩ := Option.map_eq_some_iff.1 h
      simp only [Prod.mk.injEq] at h
      rw [← h.1]
      refine ih _ _ _ h1 ?_
      unfold Horloge2.ech at h0
      obtain ⟨a, g1, h0⟩ := Option.bind_eq_some_iff.1 h0
      obtain ⟨b, g2, h0⟩ := Option.bind_eq_some_iff.1 h0
      obtain ⟨t, g3, h0⟩ := Option.map_eq_some_iff.1 h0
      rw [← h0]
      exact ⟨by rw [ech_K _ _ _ _ g1]; exact hs.1, by rw [ech_K _ _ _ _ g2]; exact hs.2⟩
  refine ⟨fun s hs => ?_, fun s a s' y hs h => ?_, fun s a b hs => ?_⟩
  · rw [step2_ech c s _ hs.1 hs.2]; rfl
  · rw [step2_ech c s _ hs.1 hs.2] at h
    obtain ⟨r, h1, h⟩ := Option.map_eq_some_iff.1 h
    simp only [Prod.mk.injEq] at h
    rw [← h.1]
    exact hk _ _ _ _ h1 hs
  · have e := hb.2.2 s a b trivial
    dsimp only at e
    rw [step2_ech c s _ hs.1 hs.2, e, step2_ech c s _ hs.1 hs.2]
    cases h1 : boucle (Horloge2.ech c) s a with
    | none => rfl
    | some r =>
      have := hk _ _ _ _ h1 hs
      simp only [Option.map_some, step2_ech c r.1 b this.1 this.2]

/-- **C177 (cutting).** Whatever the configuration and the signal, the outputs (or the failure) do not depend on the cutting of the signal into blocks. -/
theorem C177_decoupe (c : ConfigHorloge2) (s0 : Horloge2) (h : Horloge2.cree c = some s0) (blocs : List (List ℂ)) :
    enchaine (Horloge2.step c) s0 blocs = Horloge2.step c s0 blocs.flatten := by
  obtain ⟨dh, h1, h2⟩ := Option.map_eq_some_iff.1 h
  refine Filtre.enchaine_eq _ _ (step2_decoupable c) blocs s0 ?_
  unfold derivee at h1
  split at h1
  · cases h1
  · rename_i h0
    rw [← h2, ← Option.some.inj h1]
    exact ⟨h0, by simp [Filtre.Rif.init]⟩

/-! ### The derivative filter -/

theorem derivee_coef (h dh : List ℂ) (e : derivee h = some dh) : dh.length = h.length + 1 ∧ ∀ i, dh.getD i 0 = h.getD i 0 - (if i = 0 then 0 else h.getD (i - 1) 0) := by
  unfold derivee at e
  split at e
  · cases e
  · rename_i h0
    rw [← Option.some.inj e]
    refine ⟨by simp, fun i => ?_⟩
    by_cases hi : i < h.length + 1
    · rw [List.getD_eq_getElem _ _ (by simpa using hi), List.getElem_map, List.getElem_range]
      by_cases h1 : i = 0
      · subst h1; simp
      · rw [if_neg h1, if_neg h1]
        by_cases h2 : i = h.length
        · rw [if_pos h2, h2, List.getD_eq_default _ _ (le_refl h.length)]
          simp
        · rw [if_neg h2]
    · rw [List.getD_eq_default _ _ (by simp; omega), List.getD_eq_default _ _ (by omega), if_neg (by omega), List.getD_eq_default _ _ (by omega), sub_zero]

theorem convolution_derivee (h dh x : List ℂ) (e : derivee h = some dh) (n : ℕ) :
    Filtre.convolution dh x n = Filtre.convolution h x n - (if n = 0 then 0 else Filtre.convolution h x (n - 1)) := by
  obtain ⟨hl, hc⟩ := derivee_coef h dh e
  have hb : ∀ (m : ℕ), (if m = 0 then (0 : ℂ) else Filtre.convolution h x (m - 1)) = ∑ k ∈ Finset.range h.length, h.getD k 0 * Filtre.passe x m (k + 1) := by
    intro m
    split
    · rename_i h0
      refine (Finset.sum_eq_zero fun k _ => ?_).symm
      rw [Filtre.passe, if_neg (by omega), mul_zero]
    · rename_i h0
      unfold Filtre.convolution
      refine Finset.sum_congr rfl fun k _ => ?_
      unfold Filtre.passe
      by_cases hk : k ≤ m - 1
      · rw [if_pos hk, if_pos (by omega), show m - 1 - k = m - (k + 1) by omega]
      · rw [if_neg hk, if_neg (by omega)]
  rw [hb]
  have ha : Filtre.convolution h x n = ∑ k ∈ Finset.range (h.length + 1), h.getD k 0 * Filtre.passe x n k := by
    rw [Finset.sum_range_succ, List.getD_eq_default _ _ (le_refl _), zero_mul, add_zero]
    rfl
  have hd : ∑ k ∈ Finset.range h.length, h.getD k 0 * Filtre.passe x n (k + 1) = ∑ k ∈ Finset.range (h.length + 1), (if k = 0 then 0 else h.getD (k - 1) 0) * Filtre.passe x n k := by
    rw [Finset.sum_range_succ' (fun k => (if k = 0 then 0 else h.getD (k - 1) 0) * Filtre.passe x n k)]
    simp
  rw [ha, hd, ← Finset.sum_sub_distrib]
  unfold Filtre.convolution
  rw [hl]
  refine Finset.sum_congr rfl fun k _ => ?_
  rw [hc, sub_mul]

/-- **C177 (derivative).** The second filter of the block outputs, for every matched filter and every signal, the difference of two consecutive samples of the output of the matched filter. -/
theorem C177_derivee (c : ConfigHorloge2) (s0 : Horloge2) (h : Horloge2.cree c = some s0) (x : List ℂ) : ∃ s t y dy,
    Filtre.Rif.step 0 (fun a b : ℂ => a + b) (fun a b : ℂ => a * b) s0.1 x = some (s, y) ∧ Filtre.Rif.step 0 (fun a b : ℂ => a + b) (fun a b : ℂ => a * b) s0.2.1 x = some (t, dy) ∧
    y.length = x.length ∧ dy.length = x.length ∧ ∀ n, n < x.length → dy.getD n 0 = y.getD n 0 - (if n = 0 then 0 else y.getD (n - 1) 0) := by
  obtain ⟨dh, h1, h2⟩ := Option.map_eq_some_iff.1 h
  have hl := (derivee_coef _ _ h1).1
  have h0 : 0 < c.h.length := by
    unfold derivee at h1
    split at h1
    · cases h1
    · omega
  obtain ⟨s, y, e1, l1, v1⟩ := Filtre.C19_convolution c.h h0 [x]
  obtain ⟨t, dy, e2, l2, v2⟩ := Filtre.C19_convolution dh (by omega) [x]
  have one : ∀ (r : Filtre.Rif ℂ ℂ), enchaine (Filtre.Rif.step (0 : ℂ) (· + ·) (· * ·)) r [x] = Filtre.Rif.step 0 (fun a b : ℂ => a + b) (fun a b : ℂ => a * b) r x := by
    intro r
    rw [Filtre.enchaine]
    cases Filtre.Rif.step (0 : ℂ) (· + ·) (· * ·) r x with
    | none => rfl
    | some q => simp [Filtre.enchaine]
  have fl : [x].flatten = x := by simp
  rw [one] at e1 e2
  rw [fl] at l1 l2
  simp only [fl] at v1 v2
  subst h2
  refine ⟨s, t, y, dy, e1, e2, l1, l2, fun n hn => ?_⟩
  have g : ∀ m, m < x.length → y.getD m 0 = Filtre.convolution c.h x m := fun m hm => by rw [List.getD_eq_getElem?_getD, v1 m (by omega)]; rfl
  rw [List.getD_eq_getElem?_getD, v2 n (by omega), Option.getD_some, convolution_derivee _ _ _ h1, g n hn]
  split
  · rfl
  · rw [g (n - 1) (by omega)]

/-! ### Rate -/

theorem correction2_borne (c : ConfigHorloge2) (e : ℝ) : -((c.osf : ℝ) / 4) ≤ correction2 c e ∧ correction2 c e ≤ (c.osf : ℝ) / 4 := by
  have : (0 : ℝ) ≤ c.osf := Nat.cast_nonneg _
  unfold correction2
  refine ⟨by rw [neg_div]; exact le_max_left _ _, max_le (by linarith) (min_le_right _ _)⟩

theorem boucle2_cadence (c : ConfigHorloge2) (hosf : 2 ≤ c.osf) (hK : 0 < c.K) (hi : ∀ w τ, w.length = c.K → 0 ≤ τ → τ ≤ 1 → (c.itrp w 0 τ).isSome) (l : List (ℂ × ℂ)) :
    ∀ s : Boucle2, 1 ≤ s.phase → s.fx.length = c.K → s.fdx.length = c.K → ∃ s' y, boucle (fun (b : Boucle2) (p : ℂ × ℂ) => b.pas c p.1 p.2) s l = some (s', y) ∧ 1 ≤ s'.phase ∧
      (y.reduceOption ≠ [] → s.phase - 1 + ((y.reduceOption.length : ℝ) - 1) * (3 / 4 * c.osf) ≤ l.length) ∧ s'.phase ≤ s.phase - l.length + 5 / 4 * c.osf * y.reduceOption.length := by
  have ho : (2 : ℝ) ≤ c.osf := by exact_mod_cast hosf
  induction l with
  | nil => intro s h1 h2 h3; exact ⟨s, [], rfl, h1, by simp, by simp⟩
  | cons p l ih =>
    intro s h1 h2 h3
    rw [boucle_bind]
    have lg : ∀ (w : List ℂ) (x : ℂ), w.length = c.K → (glisse w x).length = c.K := by intro w x hw; simp [glisse, hw]; omega
    unfold Boucle2.pas
    rw [if_neg (by omega)]
    dsimp only
    by_cases h4 : 1 < s.phase - 1
    · rw [if_pos h4]
      obtain ⟨s', y, e, g1, g2, g4⟩ := ih ⟨s.phase - 1, glisse s.fx p.1, glisse s.fdx p.2⟩ h4.le (lg _ _ h2) (lg _ _ h3)
      refine ⟨s', none :: y, by rw [Option.bind_some]; unfold Boucle2.pas at e; rw [e]; rfl, g1, ?_, ?_⟩
      · rw [List.reduceOption_cons_of_none]; intro h; have := g2 h; push_cast [List.length_cons]; dsimp only at this; linarith
      · rw [List.reduceOption_cons_of_none]; push_cast [List.length_cons]; dsimp only at g4; linarith
    · rw [if_neg h4, if_neg (by linarith)]
      obtain ⟨v, hv⟩ := Option.isSome_iff_exists.1 (hi (glisse s.fx p.1) (s.phase - 1) (lg _ _ h2) (by linarith) (by linarith))
      obtain ⟨dv, hdv⟩ := Option.isSome_iff_exists.1 (hi (glisse s.fdx p.2) (s.phase - 1) (lg _ _ h3) (by linarith) (by linarith))
      rw [hv, hdv]
      simp only [Option.bind_some]
      obtain ⟨b1, b2⟩ := correction2_borne c (erreurMl v dv)
      obtain ⟨s', y, e, g1, g2, g4⟩ := ih ⟨s.phase - 1 + c.osf - correction2 c (erreurMl v dv), glisse s.fx p.1, glisse s.fdx p.2⟩ (by dsimp only; linarith) (lg _ _ h2) (lg _ _ h3)
      refine ⟨s', some v :: y, by unfold Boucle2.pas at e; rw [e]; rfl, g1, ?_, ?_⟩
      · rw [List.reduceOption_cons_of_some]
        intro _
        have hl : (0 : ℝ) ≤ l.length := Nat.cast_nonneg _
        by_cases hy : y.reduceOption = []
        · rw [hy]; push_cast [List.length_cons, List.length_nil]; linarith
        · have := g2 hy; push_cast [List.length_cons]; dsimp only at this; linarith
      · rw [List.reduceOption_cons_of_some]; push_cast [List.length_cons]; dsimp only at g4; linarith

/-- **C177 (rate).** From two samples per symbol on, whatever the signal and its cutting into blocks, an interpolator defined on `[0, 1]` is never asked outside of this interval, the block never fails, and the number `m` of symbols after `n` samples is that of symbols
whose durations are between `3/4` and `5/4` of the nominal duration. -/
theorem C177_cadence (c : ConfigHorloge2) (hosf : 2 ≤ c.osf) (hK : 0 < c.K) (hh : 0 < c.h.length) (hi : ∀ w τ, w.length = c.K → 0 ≤ τ → τ ≤ 1 → (c.itrp w 0 τ).isSome) (blocs : List (List ℂ)) :
    ∃ s0 s y, Horloge2.cree c = some s0 ∧ enchaine (Horloge2.step c) s0 blocs = some (s, y) ∧
      (y ≠ [] → (c.osf : ℝ) / 2 - 1 + ((y.length : ℝ) - 1) * (3 / 4 * c.osf) ≤ blocs.flatten.length) ∧ (blocs.flatten.length : ℝ) ≤ (c.osf : ℝ) / 2 + y.length * (5 / 4 * c.osf) - 1 := by
  have ho : (2 : ℝ) ≤ c.osf := by exact_mod_cast hosf
  have hd : derivee c.h = some ((List.range (c.h.length + 1)).map fun i => if i = 0 then c.h.getD 0 0 else if i = c.h.length then -c.h.getD (c.h.length - 1) 0 else c.h.getD i 0 - c.h.getD (i - 1) 0) := if_neg (by omega)
  have hcr : ∃ s0, Horloge2.cree c = some s0 ∧ s0.2.2 = ⟨(c.osf : ℝ) / 2, List.replicate c.K 0, List.replicate c.K 0⟩ := ⟨_, by rw [Horloge2.cree, hd]; rfl, rfl⟩
  obtain ⟨s0, e0, e1⟩ := hcr
  obtain ⟨s, t, y, dy, f1, f2, l1, l2, -⟩ := C177_derivee c s0 e0 blocs.flatten
  obtain ⟨b, o, g0, g1, g2, g4⟩ := boucle2_cadence c hosf hK hi (y.zip dy) s0.2.2 (by rw [e1]; dsimp only; linarith) (by rw [e1]; simp) (by rw [e1]; simp)
  refine ⟨s0, (s, t, b), o.reduceOption, e0, ?_, ?_, ?_⟩
  · rw [C177_decoupe c s0 e0]
    unfold Horloge2.step
    rw [f1, f2]
    simp only [Option.bind_some]
    rw [if_pos (by omega), g0]
    rfl
  · intro hy
    have := g2 hy
    rw [List.length_zip, l1, l2, min_self, e1] at this
    exact this
  · rw [e1] at g4
    have hz : ((y.zip dy).length : ℝ) = blocs.flatten.length := by rw [List.length_zip, l1, l2, min_self]
    rw [hz] at g4
    dsimp only at g4
    linarith

/-! ### Defects -/

/-- **C177 (one sample per symbol).** With one sample per symbol the block always fails at the first sample. -/
theorem C177_osf1_refute (c : ConfigHorloge2) (h : c.osf = 1) (s0 : Horloge2) (e : Horloge2.cree c = some s0) (x : ℂ) (l : List ℂ) : Horloge2.step c s0 (x :: l) = none := by
  obtain ⟨s, t, y, dy, f1, f2, l1, l2, -⟩ := C177_derivee c s0 e (x :: l)
  obtain ⟨dh, h1, h2⟩ := Option.map_eq_some_iff.1 e
  unfold Horloge2.step
  rw [f1, f2]
  simp only [Option.bind_some]
  rw [if_pos (by omega)]
  match y, dy, l1, l2 with
  | a :: y, b :: dy, _, _ =>
    rw [List.zip_cons_cons, boucle_bind]
    have : s0.2.2.phase = 1 / 2 := by rw [← h2]; dsimp only; rw [h]; norm_num
    have : Boucle2.pas c s0.2.2 a b = none := by
      unfold Boucle2.pas
      split
      · rfl
      · dsimp only
        rw [this, if_neg (by norm_num), if_pos (by norm_num)]
    rw [this]
    rfl

/-- **C177 (sense, refuted).** The correction is in the wrong direction: when the interpolated value and its derivative are real and of the same sign (the magnitude is increasing: the sampling instant is before the maximum), the next symbol is taken
less than `osf` samples later, i.e. still further before the maximum; and conversely after the maximum. The abscissa of the next interpolation, counted from this one, is `s'.phase - (s.phase - 1)`. -/
theorem C177_sens_refute (c : ConfigHorloge2) (htc : 0 < c.tc) (hosf : 0 < c.osf) (s s' : Boucle2) (x dx v : ℂ) (h : s.pas c x dx = some (s', some v)) (a d : ℝ)
    (hv : c.itrp (glisse s.fx x) 0 (s.phase - 1) = some (a : ℂ)) (hd : c.itrp (glisse s.fdx dx) 0 (s.phase - 1) = some (d : ℂ)) :
    (0 < a * d → s'.phase - (s.phase - 1) < c.osf) ∧ (a * d < 0 → (c.osf : ℝ) < s'.phase - (s.phase - 1)) := by
  have ho : (0 : ℝ) < c.osf := by exact_mod_cast hosf
  have hg : 0 < c.gain := by
    unfold ConfigHorloge2.gain
    refine mul_pos ho (sub_pos.2 ?_)
    rw [Real.exp_lt_one_iff]
    exact div_neg_of_neg_of_pos (by norm_num) (mul_pos htc ho)
  unfold Boucle2.pas at h
  split at h
  · cases h
  · dsimp only at h
    split at h
    · simp at h
    · split at h
      · cases h
      · rw [hv, hd] at h
        simp only [Option.bind_some, Option.some.injEq, Prod.mk.injEq] at h
        rw [← h.1]
        dsimp only
        have he : erreurMl (a : ℂ) (d : ℂ) = a * d := by simp [erreurMl]
        rw [he]
        constructor
        · intro hp
          have : 0 < correction2 c (a * d) := lt_max_of_lt_right (lt_min (mul_pos hg hp) (by linarith))
          linarith
        · intro hp
          have : correction2 c (a * d) < 0 := max_lt (by linarith) (lt_of_le_of_lt (min_le_left _ _) (mul_neg_of_pos_of_neg hg hp))
          linarith

/-- **C177 (carrier phase, refuted).** The timing error is not invariant under a rotation of the signal: a quarter of turn inverts it. -/
theorem C177_rotation_refute (v dv : ℂ) : erreurMl (Complex.I * v) (Complex.I * dv) = -erreurMl v dv := by
  simp [erreurMl]

/-! ### Examples -/

/-- A concrete configuration: two samples per symbol, linear interpolator, matched filter of two coefficients. -/
noncomputable def exemple2 : ConfigHorloge2 := ⟨2, 1, 2, itrpLin, [1, 1]⟩

theorem exemple2_itrp (w : List ℂ) (τ : ℝ) (h : w.length = 2) (h0 : 0 ≤ τ) (_ : τ ≤ 1) : (itrpLin w 0 τ).isSome := by
  match w, h with
  | [u, v], _ => unfold itrpLin; rw [if_neg (by linarith)]; rfl

/-- It accepts every signal. -/
example (blocs : List (List ℂ)) : ∃ s0 s y, Horloge2.cree exemple2 = some s0 ∧ enchaine (Horloge2.step exemple2) s0 blocs = some (s, y) := by
  obtain ⟨s0, s, y, h1, h2, -⟩ := C177_cadence exemple2 (by decide) (by decide) (by decide) exemple2_itrp blocs
  exact ⟨s0, s, y, h1, h2⟩

/-- Its derivative filter. -/
example : derivee exemple2.h = some [1, 0, -1] := by
  simp [derivee, exemple2, List.range_succ]

/-- The hypotheses of the sense of correction: a rising edge. -/
example : ∃ (s s' : Boucle2) (x dx v : ℂ), s.pas exemple2 x dx = some (s', some v) ∧ itrpLin (glisse s.fx x) 0 (s.phase - 1) = some ((1 : ℝ) : ℂ) ∧ itrpLin (glisse s.fdx dx) 0 (s.phase - 1) = some ((1 : ℝ) : ℂ) := by
  refine ⟨⟨2, [0, 0], [0, 0]⟩, ⟨1 + 2 - correction2 exemple2 (erreurMl 1 1), [0, 1], [0, 1]⟩, 1, 1, 1, ?_, ?_, ?_⟩
  · unfold Boucle2.pas
    rw [if_neg (by decide)]
    norm_num [glisse, exemple2, itrpLin]
  · norm_num [glisse, itrpLin]
  · norm_num [glisse, itrpLin]

end Verif.Telecom
