import Verif.Fourier.Cqt

/-!
# C181: constant Q transform: regular sampling of the outputs (core/src/fourier/cqt.cc:369-421)

Exact arithmetic instead of `float`.
-/

namespace Verif.Fourier

/-! ## Model -/

/-- The local variables of `interpolation` for each frequency, core/src/fourier/cqt.cc:379-394: `décalages`, `lindex`, `lvalue`, and the matrix `A` (`A fr k` is `A(k,fr)`). -/
structure EtatItrpCqt where
  dec : ℕ → ℕ
  t0 : ℕ → ℝ
  y0 : ℕ → ℝ
  A : ℕ → ℕ → ℝ

/-- Initial values, core/src/fourier/cqt.cc:379-394. -/
def EtatItrpCqt.init : EtatItrpCqt := ⟨fun _ => 0, fun _ => 0, fun _ => 0, fun _ _ => 0⟩

open Classical in
/-- The value that is written, core/src/fourier/cqt.cc:410-413. -/
noncomputable def valItrp (t0 t1 y0 y1 t : ℝ) : ℝ := if t1 = t0 then y1 else y0 + ((t - t0) / (t1 - t0)) * (y1 - y0)

open Classical in
/-- The inner loop, core/src/fourier/cqt.cc:407-416, on one column of `onmax` rows: number of values written and new column; a write outside of the matrix is an error. -/
noncomputable def completer (onmax : ℕ) (oprd t0 t1 y0 y1 : ℝ) (dec : ℕ) (col : ℕ → ℝ) : Option (ℕ × (ℕ → ℝ)) :=
  if dec * oprd ≤ t1 then
    if dec < onmax then completer onmax oprd t0 t1 y0 y1 (dec + 1) (Function.update col dec (valItrp t0 t1 y0 y1 (dec * oprd)))
    else none
  else some (dec, col)
termination_by onmax - dec

/-- The loop on the outputs, core/src/fourier/cqt.cc:396-419. -/
noncomputable def boucleItrp (nfreqs onmax : ℕ) (oprd : ℝ) : EtatItrpCqt → List (ℕ × ℕ × ℝ) → Option EtatItrpCqt
  | s, [] => some s
  | s, (fr, t1, v) :: l =>
    if fr < nfreqs then (completer onmax oprd (s.t0 fr) t1 (s.y0 fr) |v| (s.dec fr) (s.A fr)).bind fun r : ℕ × (ℕ → ℝ) =>
      boucleItrp nfreqs onmax oprd ⟨Function.update s.dec fr r.1, Function.update s.t0 fr t1, Function.update s.y0 fr |v|, Function.update s.A fr r.2⟩ l
    else none

/-- `interpolation`, core/src/fourier/cqt.cc:369-421: number of rows, and matrix (`A fr k`: row `k`, frequency `fr`). Without any output the last one does not exist. -/
noncomputable def interpolationCqt (fs ofs : ℝ) (nfreqs : ℕ) (sorties : List (ℕ × ℕ × ℝ)) : Option (ℕ × (ℕ → ℕ → ℝ)) :=
  sorties.getLast?.bind fun d : ℕ × ℕ × ℝ =>
    let onmax := ⌈(d.2.1 : ℝ) / fs * ofs⌉₊
    (boucleItrp nfreqs onmax (fs / ofs) EtatItrpCqt.init sorties).map fun s : EtatItrpCqt => (onmax, s.A)

/-! ## Specification -/

/-- The points `l` (time, value) of one frequency have `v` as interpolated value at the time `t`: the first one if it is not before `t`, or the point of abscissa `t` on the segment between two consecutive points. -/
def Interpole (l : List (ℕ × ℝ)) (t v : ℝ) : Prop :=
  (∃ p, l.head? = some p ∧ t ≤ p.1 ∧ v = |p.2|) ∨
  ∃ (m : ℕ) (a b : ℕ × ℝ), l[m]? = some a ∧ l[m + 1]? = some b ∧ (a.1 : ℝ) < t ∧ t ≤ b.1 ∧ (v - |a.2|) * (b.1 - a.1) = (t - a.1) * (|b.2| - |a.2|)

/-- The outputs of one frequency as the analysis makes them: first one at the time 0, increasing times. -/
def Croissant (l : List (ℕ × ℝ)) : Prop := (∀ p, l.head? = some p → p.1 = 0) ∧ (l.map fun p => p.1).Pairwise (· < ·)

/-! ## Proofs -/

theorem completer_spec (onmax : ℕ) (oprd t0 t1 y0 y1 : ℝ) (ho : 0 < oprd) (dec : ℕ) (col : ℕ → ℝ) :
    (∀ r, completer onmax oprd t0 t1 y0 y1 dec col = some r → dec ≤ r.1 ∧ (r.1 ≤ onmax ∨ r.1 = dec) ∧ (∀ k, dec ≤ k → (k < r.1 ↔ k * oprd ≤ t1)) ∧
      ∀ k, r.2 k = if dec ≤ k ∧ k < r.1 then valItrp t0 t1 y0 y1 (k * oprd) else col k) ∧
    ((completer onmax oprd t0 t1 y0 y1 dec col).isSome ↔ ∀ k : ℕ, dec ≤ k → k * oprd ≤ t1 → k < onmax) := by
  rw [completer]
  by_cases h : dec * oprd ≤ t1
  · rw [if_pos h]
    by_cases h1 : dec < onmax
    · rw [if_pos h1]
      obtain ⟨i1, i2⟩ := completer_spec onmax oprd t0 t1 y0 y1 ho (dec + 1) (Function.update col dec (valItrp t0 t1 y0 y1 (dec * oprd)))
      refine ⟨fun r hr => ?_, ?_⟩
      · obtain ⟨j1, j2, j3, j4⟩ := i1 r hr
        refine ⟨by omega, by omega, fun k hk => ?_, fun k => ?_⟩
        · by_cases hd : k = dec
          · subst hd
            exact ⟨fun _ => h, fun _ => by omega⟩
          · exact j3 k (by omega)
        · rw [j4]
          by_cases hd : k = dec
          · subst hd
            rw [if_neg (by omega), if_pos (by omega), Function.update_self]
          · rw [Function.update_of_ne hd]
            by_cases hk : dec + 1 ≤ k ∧ k < r.1
            · rw [if_pos hk, if_pos (by omega)]
            · rw [if_neg hk, if_neg (by omega)]
      · rw [i2]
        refine ⟨fun g k hk ht => ?_, fun g k hk ht => g k (by omega) ht⟩
        by_cases hd : k = dec
        · subst hd; exact h1
        · exact g k (by omega) ht
    · rw [if_neg h1]
      refine ⟨fun r hr => (by cases hr), ?_⟩
      simp only [Option.isSome_none, Bool.false_eq_true, false_iff]
      intro g
      exact h1 (g dec (le_refl _) h)
  · rw [if_neg h]
    have hb : ∀ k : ℕ, dec ≤ k → ¬ (k * oprd ≤ t1) := fun k hk hc => h (le_trans (mul_le_mul_of_nonneg_right (by exact_mod_cast hk) ho.le) hc)
    refine ⟨fun r hr => ?_, ?_⟩
    · cases hr
      refine ⟨le_refl _, Or.inr rfl, fun k hk => ⟨fun h => by omega, fun h => absurd h (hb k hk)⟩, fun k => by rw [if_neg (by omega)]⟩
    · simp only [Option.isSome_some, true_iff]
      exact fun k hk ht => absurd ht (hb k hk)
termination_by onmax - dec

/-- Invariant for one frequency after the outputs `l` of this frequency. -/
def InvItrp (onmax : ℕ) (oprd : ℝ) (l : List (ℕ × ℝ)) (dec : ℕ) (t0 y0 : ℝ) (col : ℕ → ℝ) : Prop :=
  (l = [] → t0 = 0 ∧ y0 = 0 ∧ dec = 0) ∧ (∀ p, l.getLast? = some p → t0 = p.1 ∧ y0 = |p.2| ∧ ∀ k : ℕ, k < dec ↔ k * oprd ≤ p.1) ∧ dec ≤ onmax ∧
  (∀ k, dec ≤ k → col k = 0) ∧ ∀ k : ℕ, k < dec → Interpole l (k * oprd) (col k)

theorem interpole_append (l l' : List (ℕ × ℝ)) (t v : ℝ) (h : Interpole l t v) : Interpole (l ++ l') t v := by
  rcases h with ⟨p, h1, h2, h3⟩ | ⟨m, a, b, h1, h2, h3⟩
  · left
    refine ⟨p, ?_, h2, h3⟩
    rw [List.head?_append, h1]; rfl
  · right
    refine ⟨m, a, b, ?_, ?_, h3⟩
    · rw [List.getElem?_append_left (List.getElem?_eq_some_iff.1 h1).1]; exact h1
    · rw [List.getElem?_append_left (List.getElem?_eq_some_iff.1 h2).1]; exact h2

theorem inv_itrp_pas (onmax : ℕ) (oprd : ℝ) (ho : 0 < oprd) (l : List (ℕ × ℝ)) (dec : ℕ) (t0 y0 : ℝ) (col : ℕ → ℝ) (h : InvItrp onmax oprd l dec t0 y0 col) (t1 : ℕ) (v : ℝ)
    (hc : Croissant (l ++ [(t1, v)])) (r : ℕ × (ℕ → ℝ)) (hr : completer onmax oprd t0 t1 y0 |v| dec col = some r) : InvItrp onmax oprd (l ++ [(t1, v)]) r.1 t1 |v| r.2 := by
  obtain ⟨h1, h2, h3, h4, h5⟩ := h
  obtain ⟨j1, j2, j3, j4⟩ := (completer_spec onmax oprd t0 t1 y0 |v| ho dec col).1 r hr
  have hprec : ∀ k : ℕ, k < dec → (k : ℝ) * oprd ≤ t1 := by
    intro k hk
    rcases List.eq_nil_or_concat l with rfl | ⟨l', p, rfl⟩
    · have := (h1 rfl).2.2; omega
    · obtain ⟨-, -, g⟩ := h2 p (by simp)
      have hpt : p.1 < t1 := by
        have := hc.2
        simp only [List.concat_eq_append, List.map_append, List.map_cons, List.map_nil] at this
        rw [List.pairwise_append] at this
        exact this.2.2 p.1 (by simp) t1 (by simp)
      have := (g k).1 hk
      have h' : (p.1 : ℝ) ≤ t1 := by exact_mod_cast hpt.le
      linarith
  refine ⟨by simp, fun p hp => ?_, by omega, fun k hk => ?_, fun k hk => ?_⟩
  · rw [List.getLast?_append] at hp
    simp only [List.getLast?_singleton, Option.some_or, Option.some.injEq] at hp
    subst hp
    refine ⟨rfl, rfl, fun k => ?_⟩
    by_cases hk : dec ≤ k
    · exact j3 k hk
    · exact ⟨fun _ => hprec k (by omega), fun _ => by omega⟩
  · rw [j4, if_neg (by omega)]
    exact h4 k (by omega)
  · rw [j4]
    by_cases hd : dec ≤ k
    · rw [if_pos ⟨hd, hk⟩]
      have ht := (j3 k hd).1 hk
      rcases List.eq_nil_or_concat l with rfl | ⟨l', p, rfl⟩
      · left
        have h0 : t1 = 0 := hc.1 (t1, v) (by simp)
        refine ⟨(t1, v), by simp, ht, ?_⟩
        rw [valItrp, if_pos (by rw [(h1 rfl).1, h0]; simp)]
      · obtain ⟨g1, g2, g3⟩ := h2 p (by simp)
        have hpt : p.1 < t1 := by
          have := hc.2
          simp only [List.concat_eq_append, List.map_append, List.map_cons, List.map_nil] at this
          rw [List.pairwise_append] at this
          exact this.2.2 p.1 (by simp) t1 (by simp)
        have hpt' : (p.1 : ℝ) < t1 := by exact_mod_cast hpt
        right
        refine ⟨l'.length, p, (t1, v), by simp, by simp, ?_, ht, ?_⟩
        · have := (g3 k).not.1 (by omega)
          exact lt_of_not_ge this
        · rw [valItrp, if_neg (by rw [g1]; exact hpt'.ne'), g1, g2]
          have : (t1 : ℝ) - p.1 ≠ 0 := by linarith
          dsimp only
          field_simp
          ring
    · rw [if_neg (by omega)]
      exact interpole_append _ _ _ _ (h5 k (by omega))

theorem croissant_prefixe (l l' : List (ℕ × ℝ)) (h : Croissant (l ++ l')) : Croissant l := by
  refine ⟨fun p hp => h.1 p (by rw [List.head?_append, hp]; rfl), ?_⟩
  have := h.2
  rw [List.map_append, List.pairwise_append] at this
  exact this.1

theorem boucle_itrp (nfreqs onmax : ℕ) (oprd : ℝ) (ho : 0 < oprd) (l : List (ℕ × ℕ × ℝ)) : ∀ (fait : List (ℕ × ℕ × ℝ)) (s : EtatItrpCqt), (∀ fr, Croissant (deFreq fr (fait ++ l))) →
    (∀ fr, InvItrp onmax oprd (deFreq fr fait) (s.dec fr) (s.t0 fr) (s.y0 fr) (s.A fr)) →
    (∀ s', boucleItrp nfreqs onmax oprd s l = some s' → ∀ fr, InvItrp onmax oprd (deFreq fr (fait ++ l)) (s'.dec fr) (s'.t0 fr) (s'.y0 fr) (s'.A fr)) ∧
    ((boucleItrp nfreqs onmax oprd s l).isSome ↔ ∀ p ∈ l, p.1 < nfreqs ∧ ∀ k : ℕ, k * oprd ≤ p.2.1 → k < onmax) := by
  induction l with
  | nil =>
    intro fait s _ h
    refine ⟨fun s' hs => ?_, by simp [boucleItrp]⟩
    rw [boucleItrp] at hs
    cases hs
    simpa using h
  | cons p l ih =>
    intro fait s hc h
    obtain ⟨fr, t1, v⟩ := p
    have hcat : fait ++ (fr, t1, v) :: l = (fait ++ [(fr, t1, v)]) ++ l := by simp
    have hd : deFreq fr (fait ++ [(fr, t1, v)]) = deFreq fr fait ++ [(t1, v)] := by rw [deFreq_append]; simp [deFreq]
    have hd' : ∀ g, g ≠ fr → deFreq g (fait ++ [(fr, t1, v)]) = deFreq g fait := by
      intro g hg
      rw [deFreq_append]
      simp [deFreq, hg.symm]
    have hc1 : Croissant (deFreq fr fait ++ [(t1, v)]) := by
      rw [← hd]
      refine croissant_prefixe _ (deFreq fr l) ?_
      rw [← deFreq_append, ← hcat]
      exact hc fr
    rw [boucleItrp]
    by_cases hf : fr < nfreqs
    · rw [if_pos hf]
      have sp := completer_spec onmax oprd (s.t0 fr) t1 (s.y0 fr) |v| ho (s.dec fr) (s.A fr)
      cases hr : completer onmax oprd (s.t0 fr) t1 (s.y0 fr) |v| (s.dec fr) (s.A fr) with
      | none =>
        rw [hr] at sp
        refine ⟨fun s' hs => (by cases hs), ?_⟩
        have h2 := sp.2.not.1 (by simp)
        simp only [Option.bind_none, Option.isSome_none, Bool.false_eq_true, false_iff]
        intro g
        apply h2
        intro k _ hk
        exact (g _ List.mem_cons_self).2 k hk
      | some r =>
        rw [hr] at sp
        have hinv := inv_itrp_pas onmax oprd ho (deFreq fr fait) _ _ _ _ (h fr) t1 v hc1 r hr
        obtain ⟨i1, i2⟩ := ih (fait ++ [(fr, t1, v)]) ⟨Function.update s.dec fr r.1, Function.update s.t0 fr t1, Function.update s.y0 fr |v|, Function.update s.A fr r.2⟩ (by rw [← hcat]; exact hc) (by
          intro g
          by_cases hg : g = fr
          · subst hg
            simp only [Function.update_self]
            rw [hd]; exact hinv
          · simp only [Function.update_of_ne hg]
            rw [hd' g hg]; exact h g)
        rw [Option.bind_some]
        refine ⟨fun s' hs => ?_, ?_⟩
        · rw [hcat]; exact i1 s' hs
        · rw [i2]
          refine ⟨fun g q hq => ?_, fun g q hq => g q (List.mem_cons_of_mem _ hq)⟩
          rcases List.mem_cons.1 hq with rfl | hq
          · refine ⟨hf, fun k hk => ?_⟩
            obtain ⟨-, a2, b3, -⟩ := hinv
            exact lt_of_lt_of_le (((a2 (t1, v) (by simp)).2.2 k).2 hk) b3
          · exact g q hq
    · rw [if_neg hf]
      refine ⟨fun s' hs => (by cases hs), ?_⟩
      simp only [Option.isSome_none, Bool.false_eq_true, false_iff]
      intro g
      exact hf (g _ List.mem_cons_self).1

theorem inv_itrp_init (onmax : ℕ) (oprd : ℝ) (fr : ℕ) : InvItrp onmax oprd (deFreq fr []) (EtatItrpCqt.init.dec fr) (EtatItrpCqt.init.t0 fr) (EtatItrpCqt.init.y0 fr) (EtatItrpCqt.init.A fr) := by
  refine ⟨fun _ => ⟨rfl, rfl, rfl⟩, fun p hp => by simp [deFreq] at hp, Nat.zero_le _, fun _ _ => rfl, fun k hk => by simp [EtatItrpCqt.init] at hk⟩

/-- **C181 (values).** For positive rates and outputs of the analysis (times increasing from 0 for each frequency), a matrix that is returned has, for each frequency and at each row `k`, the value interpolated between the outputs of this frequency at the time `k fs / ofs` (in input samples) if
this time is not after the last output of this frequency, and 0 if it is; its number of rows is the time of the last output, in periods of the output rate, rounded up. -/
theorem C181_interpolation (fs ofs : ℝ) (h1 : 0 < fs) (h2 : 0 < ofs) (nfreqs : ℕ) (sorties : List (ℕ × ℕ × ℝ)) (hc : ∀ fr, Croissant (deFreq fr sorties)) (n : ℕ) (A : ℕ → ℕ → ℝ)
    (h : interpolationCqt fs ofs nfreqs sorties = some (n, A)) :
    (∃ d, sorties.getLast? = some d ∧ n = ⌈(d.2.1 : ℝ) / fs * ofs⌉₊) ∧
    ∀ (fr : ℕ) (p : ℕ × ℝ), (deFreq fr sorties).getLast? = some p → ∀ k : ℕ, ((k : ℝ) * (fs / ofs) ≤ p.1 → k < n ∧ Interpole (deFreq fr sorties) (k * (fs / ofs)) (A fr k)) ∧ ((p.1 : ℝ) < k * (fs / ofs) → A fr k = 0) := by
  unfold interpolationCqt at h
  obtain ⟨d, e1, e2⟩ := Option.bind_eq_some_iff.1 h
  obtain ⟨s, e3, e4⟩ := Option.map_eq_some_iff.1 e2
  cases e4
  refine ⟨⟨d, e1, rfl⟩, fun fr p hp k => ?_⟩
  obtain ⟨-, i2, i3, i4, i5⟩ := (boucle_itrp nfreqs _ (fs / ofs) (div_pos h1 h2) sorties [] EtatItrpCqt.init (by simpa using hc) (inv_itrp_init _ _)).1 s e3 fr
  rw [List.nil_append] at i2 i5
  obtain ⟨-, -, g⟩ := i2 p hp
  refine ⟨fun hk => ⟨lt_of_lt_of_le ((g k).2 hk) i3, i5 k ((g k).2 hk)⟩, fun hk => i4 k ?_⟩
  have := (g k).not.2 (not_le.2 hk)
  omega

/-- **C181 (failures).** In the same conditions, the interpolation succeeds if and only if there is at least one output and, for each of the outputs, the number of periods of the output rate before it is (strictly) less than the number of rows. -/
theorem C181_reussite (fs ofs : ℝ) (h1 : 0 < fs) (h2 : 0 < ofs) (nfreqs : ℕ) (sorties : List (ℕ × ℕ × ℝ)) (hc : ∀ fr, Croissant (deFreq fr sorties)) (hn : ∀ p ∈ sorties, p.1 < nfreqs) :
    (interpolationCqt fs ofs nfreqs sorties).isSome ↔ ∃ d, sorties.getLast? = some d ∧ ∀ p ∈ sorties, ⌊(p.2.1 : ℝ) * ofs / fs⌋₊ < ⌈(d.2.1 : ℝ) * ofs / fs⌉₊ := by
  unfold interpolationCqt
  have eqv : ∀ (p : ℕ × ℕ × ℝ) (n : ℕ), (∀ k : ℕ, (k : ℝ) * (fs / ofs) ≤ p.2.1 → k < n) ↔ ⌊(p.2.1 : ℝ) * ofs / fs⌋₊ < n := by
    intro p n
    have e : ∀ k : ℕ, (k : ℝ) * (fs / ofs) ≤ p.2.1 ↔ k ≤ ⌊(p.2.1 : ℝ) * ofs / fs⌋₊ := by
      intro k
      rw [Nat.le_floor_iff (by positivity), le_div_iff₀ h1, ← mul_div_assoc, div_le_iff₀ h2]
    simp only [e]
    exact ⟨fun h => h _ (le_refl _), fun h k hk => lt_of_le_of_lt hk h⟩
  cases hd : sorties.getLast? with
  | none => simp
  | some d =>
    rw [Option.bind_some]
    dsimp only
    rw [Option.isSome_map, (boucle_itrp nfreqs _ (fs / ofs) (div_pos h1 h2) sorties [] EtatItrpCqt.init (by simpa using hc) (inv_itrp_init _ _)).2]
    simp only [eqv]
    rw [show (d.2.1 : ℝ) / fs * ofs = d.2.1 * ofs / fs by ring]
    constructor
    · intro h
      exact ⟨d, rfl, fun p hp => (h p hp).2⟩
    · rintro ⟨d', e, h⟩ p hp
      cases e
      exact ⟨hn p hp, h p hp⟩

/-- **C181 (last row).** If the time of the last output is a whole number of periods of the output rate, the interpolation always fails (write after the last row of the matrix). -/
theorem C181_debordement_refute (fs ofs : ℝ) (h1 : 0 < fs) (h2 : 0 < ofs) (nfreqs : ℕ) (sorties : List (ℕ × ℕ × ℝ)) (hc : ∀ fr, Croissant (deFreq fr sorties)) (hn : ∀ p ∈ sorties, p.1 < nfreqs)
    (d : ℕ × ℕ × ℝ) (hd : sorties.getLast? = some d) (q : ℕ) (hq : (d.2.1 : ℝ) * ofs / fs = q) : interpolationCqt fs ofs nfreqs sorties = none := by
  rw [← Option.not_isSome_iff_eq_none, C181_reussite fs ofs h1 h2 nfreqs sorties hc hn]
  rintro ⟨d', e, h⟩
  rw [hd] at e
  cases e
  have := h d (List.mem_of_getLast? hd)
  rw [hq, Nat.floor_natCast, Nat.ceil_natCast] at this
  omega

/-- **C181 (same rate).** In particular it always fails when the output rate is the input rate. -/
theorem C181_meme_frequence_refute (fs : ℝ) (h1 : 0 < fs) (nfreqs : ℕ) (sorties : List (ℕ × ℕ × ℝ)) (hc : ∀ fr, Croissant (deFreq fr sorties)) (hn : ∀ p ∈ sorties, p.1 < nfreqs) : interpolationCqt fs fs nfreqs sorties = none := by
  cases hd : sorties.getLast? with
  | none => simp [interpolationCqt, hd]
  | some d => exact C181_debordement_refute fs fs h1 h1 nfreqs sorties hc hn d hd d.2.1 (by field_simp)

/-- The outputs of the analysis satisfy the hypothesis of the theorems on the interpolation. -/
theorem C181_planning (N : ℕ) (valeur : ℕ → List ℝ → ℕ → ℝ) (kts : List ℕ) (h2 : 2 ≤ N) (hev : N % 2 = 0) (hk : ∀ k ∈ kts, 0 < k / 2 ∧ k ≤ N) (blocs : List (List ℝ)) (s : EtatCqt)
    (h : suite1 N valeur (EtatCqt.cree N kts) blocs = some s) (fr : ℕ) (hfr : fr < kts.length) : Croissant (deFreq fr s.sorties) := by
  obtain ⟨-, g⟩ := C180_planning N valeur kts h2 hev hk blocs s h
  obtain ⟨M, g1, g2, -⟩ := g fr kts[fr] (List.getElem?_eq_getElem hfr)
  have hpos := (hk kts[fr] (List.getElem_mem hfr)).1
  refine ⟨fun p hp => ?_, ?_⟩
  · have : ((deFreq fr s.sorties).map fun p => p.1).head? = some p.1 := by rw [List.head?_map, hp]; rfl
    rw [g2, List.head?_map] at this
    cases M with
    | zero => simp at this
    | succ M =>
      rw [List.range_succ_eq_map] at this
      simpa using this.symm
  · rw [g2, List.pairwise_map]
    exact List.pairwise_lt_range.imp fun h => by exact Nat.mul_lt_mul_of_pos_right h hpos

/-- Non-vacuity: two outputs at the times 0 and 3, an output sample every two input samples. -/
example : (∀ fr, Croissant (deFreq fr [(0, 0, 5), (0, 3, -8)])) ∧ (interpolationCqt 2 1 1 [(0, 0, 5), (0, 3, -8)]).isSome := by
  have hc : ∀ fr, Croissant (deFreq fr [(0, 0, 5), (0, 3, -8)]) := by
    intro fr
    by_cases h : fr = 0
    · subst h; simp [deFreq, Croissant]
    · have : ¬ (0 = fr) := fun e => h e.symm
      simp [deFreq, Croissant, this]
  refine ⟨hc, ?_⟩
  rw [C181_reussite 2 1 (by norm_num) (by norm_num) 1 _ hc (by simp)]
  refine ⟨(0, 3, -8), by simp, fun p hp => ?_⟩
  have e : ⌈((3 : ℕ) : ℝ) * 1 / 2⌉₊ = 2 := by rw [Nat.ceil_eq_iff (by norm_num)]; norm_num
  rw [e, Nat.floor_lt (by positivity)]
  simp only [List.mem_cons, List.not_mem_nil, or_false] at hp
  rcases hp with rfl | rfl <;> norm_num

end Verif.Fourier
