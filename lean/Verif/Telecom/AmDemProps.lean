import Verif.Telecom.AmProps

/-!
# C110: AM demodulator
-/

namespace Verif.Telecom

open Complex

/-- Specification: the audio band-pass, difference of the two low-pass filters applied to the same block. -/
def passeBande {F R : Type} (c : FiltresAM F R) : Filtre.Bloc (F × F) ℝ ℝ := fun s x =>
  (c.lp s.1 x).bind fun a : F × List ℝ => (c.hp s.2 x).bind fun b : F × List ℝ =>
    if a.2.length = b.2.length then some ((a.1, b.1), List.zipWith (· - ·) a.2 b.2) else none

/-- **C110 refuted (double side-band).**  In the two double side-band modes (the default of the library is one of them) no call of the demodulator ever outputs a sample, whatever the input, the block sizes and the
resampler, as soon as the audio filters answer an empty block by an empty block: the demodulated signal is computed, then overwritten. -/
theorem C110_dsb_refute {F R : Type} (c : FiltresAM F R) (hlp : ∀ s s' y, c.lp s [] = some (s', y) → y = []) (mode : ModeAM) (hm : mode = .DSB ∨ mode = .DSBSansPorteuse) (f : ℝ) (slp shp : F) (sra : R)
    (s0 s : DemAM F R) (h0 : DemAM.cree mode f slp shp sra = some s0) (blocs : List (List ℂ)) (y : List ℝ) (h : Filtre.enchaine (DemAM.step c) s0 blocs = some (s, y)) : y = [] := by
  have hs0 : s0.mode.estBLU = false := by
    unfold DemAM.cree at h0
    rcases hm with rfl | rfl <;> simp [ModeAM.estBLU] at h0 <;> subst h0 <;> rfl
  clear h0
  induction blocs generalizing s0 y with
  | nil =>
    simp only [Filtre.enchaine, Option.some.injEq, Prod.mk.injEq] at h
    exact h.2.symm
  | cons b l ih =>
    simp only [Filtre.enchaine] at h
    cases e1 : s0.step c b with
    | none => rw [e1] at h; simp at h
    | some q =>
      obtain ⟨s1, y1⟩ := q
      rw [e1] at h
      simp only at h
      cases e2 : Filtre.enchaine (DemAM.step c) s1 l with
      | none => rw [e2] at h; simp at h
      | some q =>
        obtain ⟨s2, y2⟩ := q
        rw [e2] at h
        simp only [Option.some.injEq, Prod.mk.injEq] at h
        unfold DemAM.step at e1
        rw [if_neg (by simp [hs0])] at e1
        simp only [Option.bind_eq_some_iff] at e1
        obtain ⟨q, hq, e1⟩ := e1
        unfold DemAM.dsb at hq
        simp only [Option.bind_eq_some_iff] at hq
        obtain ⟨a, -, b', -, hq⟩ := hq
        split at hq
        · obtain ⟨r, -, rfl⟩ := Option.map_eq_some_iff.1 hq
          unfold DemAM.audio at e1
          simp only [Option.bind_eq_some_iff] at e1
          obtain ⟨a', ha', b'', hb'', e1⟩ := e1
          split at e1
          · simp only [Option.some.injEq, Prod.mk.injEq] at e1
            have hy1 : y1 = [] := by rw [← e1.2, hlp _ _ _ ha']; simp
            have hs1 : s1.mode.estBLU = false := by rw [← e1.1]; exact hs0
            rw [← h.2, hy1, ih s1 y2 (by rw [e2, h.1]) hs1, List.append_nil]
          · cases e1
        · cases hq

/-- Non-vacuity: filters that answer, and a block that is accepted. -/
example : ∃ s0, DemAM.cree .DSB 0 () () () = some s0 ∧ (Filtre.enchaine (DemAM.step (⟨fun s x => some (s, x), fun s x => some (s, x), fun s x => some (s, x)⟩ : FiltresAM Unit Unit)) s0 [[1, 2, 3]]).isSome := by
  refine ⟨_, rfl, ?_⟩
  simp [Filtre.enchaine, DemAM.step, DemAM.dsb, DemAM.audio, ModeAM.estBLU]

/-- The blocks after the mixer. -/
noncomputable def melange (f : ℝ) : ℕ → List (List ℂ) → List (List ℂ)
  | _, [] => []
  | k, b :: l => List.zipWith (· * ·) b (porteuse f k b.length) :: melange f (k + b.length) l

theorem melange_flatten (f : ℝ) (blocs : List (List ℂ)) (k : ℕ) : (melange f k blocs).flatten = List.zipWith (· * ·) blocs.flatten (porteuse f k blocs.flatten.length) := by
  induction blocs generalizing k with
  | nil => simp [melange]
  | cons b l ih => rw [melange, List.flatten_cons, ih, List.flatten_cons, List.length_append, porteuse_append, List.zipWith_append (by rw [porteuse_longueur])]

theorem rif_longueur (r r' : Filtre.Rif ℝ ℝ) (x y : List ℝ) (h : Filtre.Rif.step (0 : ℝ) (· + ·) (· * ·) r x = some (r', y)) : y.length = x.length := by
  unfold Filtre.Rif.step at h
  split at h
  · simp at h
  · exact Conception.boucle_length _ _ _ _ _ h

theorem retard_longueur (r r' : Filtre.Retard ℝ) (x y : List ℝ) (h : Filtre.Retard.step r x = some (r', y)) : y.length = x.length := by
  unfold Filtre.Retard.step at h
  split at h
  · simp only [Option.some.injEq, Prod.mk.injEq] at h; rw [h.2]
  · exact Conception.boucle_length _ _ _ _ _ h

theorem enchaine_cons_some {S X Y : Type} {f : Filtre.Bloc S X Y} {s s' : S} {b : List X} {l : List (List X)} {y : List Y} (h : Filtre.enchaine f s (b :: l) = some (s', y)) :
    ∃ s1 y1 y2, f s b = some (s1, y1) ∧ Filtre.enchaine f s1 l = some (s', y2) ∧ y = y1 ++ y2 := by
  simp only [Filtre.enchaine] at h
  cases e1 : f s b with
  | none => rw [e1] at h; simp at h
  | some q =>
    obtain ⟨s1, y1⟩ := q
    rw [e1] at h
    simp only at h
    cases e2 : Filtre.enchaine f s1 l with
    | none => rw [e2] at h; simp at h
    | some q =>
      obtain ⟨s2, y2⟩ := q
      rw [e2] at h
      simp only [Option.some.injEq, Prod.mk.injEq] at h
      exact ⟨s1, y1, y2, rfl, by rw [← h.1]; exact e2, h.2.symm⟩

theorem blu_dem {F R : Type} (c : FiltresAM F R) (f : ℝ) (blocs : List (List ℂ)) (s : DemAM F R) (hm : s.mode.estBLU = true) (k : ℕ) (ho : s.ol = ohcApres f k) (r r' : Filtre.Rif ℝ ℝ) (t t' : Filtre.Retard ℝ)
    (hb : s.blu = some (r, t)) (a b : List ℝ) (ea : Filtre.enchaine (Filtre.Rif.step (0 : ℝ) (· + ·) (· * ·)) r ((melange f k blocs).map fun l => l.map Complex.im) = some (r', a))
    (eb : Filtre.enchaine Filtre.Retard.step t ((melange f k blocs).map fun l => l.map Complex.re) = some (t', b)) :
    ∃ y1s : List (List ℝ), y1s.flatten = List.zipWith (· - ·) b a ∧ y1s.map List.length = blocs.map List.length ∧
      (Filtre.enchaine (DemAM.step c) s blocs).map Prod.snd = (Filtre.enchaine (passeBande c) (s.slp, s.shp) y1s).map Prod.snd := by
  induction blocs generalizing s k r t a b with
  | nil =>
    simp only [melange, List.map_nil, Filtre.enchaine, Option.some.injEq, Prod.mk.injEq] at ea eb
    exact ⟨[], by simp [← ea.2, ← eb.2], rfl, by simp [Filtre.enchaine]⟩
  | cons x l ih =>
    rw [melange, List.map_cons] at ea eb
    obtain ⟨r1, a1, a2, ea1, ea2, rfl⟩ := enchaine_cons_some ea
    obtain ⟨t1, b1, b2, eb1, eb2, rfl⟩ := enchaine_cons_some eb
    have la := rif_longueur _ _ _ _ ea1
    have lb := retard_longueur _ _ _ _ eb1
    simp only [List.length_map, List.length_zipWith, porteuse_longueur, min_self] at la lb
    set y1 := List.zipWith (· - ·) b1 a1 with hy1
    have e1 : s.step c x = (({ s with ol := ohcApres f (k + x.length), blu := some (r1, t1) } : DemAM F R)).audio c y1 := by
      unfold DemAM.step
      rw [if_pos hm]
      simp only [ho, ohc_apres_step]
      unfold DemAM.blu1
      simp only [hb, Option.bind_some]
      rw [ea1]
      simp only [Option.bind_some]
      rw [eb1]
      simp only [Option.bind_some]
      rw [if_pos (by omega)]
      simp only [Option.bind_some]
      rfl
    have key : ∀ (p q : F), ∃ y1s : List (List ℝ), y1s.flatten = List.zipWith (· - ·) b2 a2 ∧ y1s.map List.length = l.map List.length ∧
        (Filtre.enchaine (DemAM.step c) { s with ol := ohcApres f (k + x.length), blu := some (r1, t1), slp := p, shp := q } l).map Prod.snd = (Filtre.enchaine (passeBande c) (p, q) y1s).map Prod.snd :=
      fun p q => ih { s with ol := ohcApres f (k + x.length), blu := some (r1, t1), slp := p, shp := q } hm (k + x.length) rfl r1 t1 rfl a2 b2 ea2 eb2
    have hlen : y1.length = x.length := by rw [hy1, List.length_zipWith, la, lb, min_self]
    have hfl : ∀ y1s : List (List ℝ), y1s.flatten = List.zipWith (· - ·) b2 a2 → (y1 :: y1s).flatten = List.zipWith (· - ·) (b1 ++ b2) (a1 ++ a2) := by
      intro y1s h
      rw [List.flatten_cons, h, hy1, List.zipWith_append (by omega)]
    have hstep : s.step c x = (passeBande c (s.slp, s.shp) y1).map fun q => (({ s with ol := ohcApres f (k + x.length), blu := some (r1, t1), slp := q.1.1, shp := q.1.2 } : DemAM F R), q.2) := by
      rw [e1]
      unfold DemAM.audio passeBande
      cases c.lp s.slp y1 with
      | none => simp
      | some u =>
        cases c.hp s.shp y1 with
        | none => simp
        | some w =>
          simp only [Option.bind_some]
          split <;> simp
    cases hp : passeBande c (s.slp, s.shp) y1 with
    | none =>
      obtain ⟨y1s, h1, h2, -⟩ := key s.slp s.shp
      refine ⟨y1 :: y1s, hfl y1s h1, by simp [h2, hlen], ?_⟩
      rw [hp] at hstep
      simp [Filtre.enchaine, hstep, hp]
    | some q =>
      obtain ⟨⟨p1, p2⟩, z⟩ := q
      obtain ⟨y1s, h1, h2, h3⟩ := key p1 p2
      refine ⟨y1 :: y1s, hfl y1s h1, by simp [h2, hlen], ?_⟩
      rw [hp] at hstep
      simp only [Option.map_some] at hstep
      simp only [Filtre.enchaine, hstep, hp]
      cases h4 : Filtre.enchaine (DemAM.step c) { s with ol := ohcApres f (k + x.length), blu := some (r1, t1), slp := p1, shp := p2 } l with
      | none =>
        rw [h4] at h3
        cases h5 : Filtre.enchaine (passeBande c) (p1, p2) y1s with
        | none => simp
        | some v => rw [h5] at h3; simp at h3
      | some u =>
        rw [h4] at h3
        cases h5 : Filtre.enchaine (passeBande c) (p1, p2) y1s with
        | none => rw [h5] at h3; simp at h3
        | some v =>
          rw [h5] at h3
          simp only [Option.map_some, Option.some.injEq] at h3
          simp [h3]

/-- **C110 (upper side band).**  In the single side-band modes, a signal `exp(i(2π(f+ν)k + φ))` of the upper side band (`0 < ν < 1/2`), cut in any way, reaches the audio filters, once the filter is filled, as
`(1+G) cos(2πν(k-63) + φ)`, and the same tone of the lower side band as `(1-G) cos(2πν(k-63) - φ)`, with the same `G > 0`: the upper side band is demodulated, the lower one attenuated. -/
theorem C110_blu {F R : Type} (c : FiltresAM F R) (mode : ModeAM) (hm : mode = .USB ∨ mode = .LSB) (f ν : ℝ) (h0 : 0 < ν) (h1 : ν < 1 / 2) (slp shp : F) (sra : R) :
    ∃ G s0, 0 < G ∧ DemAM.cree mode f slp shp sra = some s0 ∧ ∀ (φ : ℝ) (σ : ℝ), (σ = 1 ∨ σ = -1) → ∀ (blocs : List (List ℂ)) (N : ℕ),
      blocs.flatten = ((List.range N).map fun k : ℕ => exp ((2 * Real.pi * (f + σ * ν) * k + φ : ℝ) * I)) → ∃ y1s : List (List ℝ), y1s.map List.length = blocs.map List.length ∧
        (∀ k, 126 ≤ k → k < N → y1s.flatten[k]? = some ((1 + σ * G) * Real.cos (2 * Real.pi * ν * (k - 63) + σ * φ))) ∧
        (Filtre.enchaine (DemAM.step c) s0 blocs).map Prod.snd = (Filtre.enchaine (passeBande c) (slp, shp) y1s).map Prod.snd := by
  obtain ⟨h, eh, hl, hG⟩ := Conception.C82_sinus 127 (by norm_num) (by norm_num) "hn" .hann (by decide) (by decide) (Conception.hann_milieu 127 (by norm_num) (by norm_num))
  have hω1 : 2 * Real.pi * ν < Real.pi := by nlinarith [Real.pi_pos]
  obtain ⟨hGp, hr⟩ := hG (2 * Real.pi * ν) (by have := Real.pi_pos; positivity) hω1
  have hmb : mode.estBLU = true := by rcases hm with rfl | rfl <;> rfl
  refine ⟨_, ⟨mode, ohcApres (-f) 0, some (Filtre.Rif.init 0 h, Filtre.Retard.init 0 (127 / 2)), slp, shp, sra⟩, hGp, ?_, fun φ σ hσ blocs N hb => ?_⟩
  · unfold DemAM.cree
    rw [hmb, if_pos rfl, eh, ohc_apres_initial]
    rfl
  generalize Conception.gainImpair h (2 * Real.pi * ν) = G at *
  have hN : blocs.flatten.length = N := by rw [hb]; simp
  -- the mixed signal
  have hmel : (melange (-f) 0 blocs).flatten = (List.range N).map fun k : ℕ => exp ((σ * (2 * Real.pi * ν * k + σ * φ) : ℝ) * I) := by
    rw [melange_flatten, hN, hb, porteuse, List.zipWith_map, List.zipWith_self]
    apply List.map_congr_left
    intro k _
    rw [← exp_add]
    refine congrArg exp ?_
    have hσ2 : σ * σ = 1 := by rcases hσ with rfl | rfl <;> norm_num
    have : σ * (2 * Real.pi * ν * k + σ * φ) = 2 * Real.pi * (f + σ * ν) * k + φ + 2 * Real.pi * (((0 + k : ℕ) : ℝ) * -f) := by
      push_cast
      linear_combination φ * hσ2
    rw [this]
    push_cast
    ring
  have hfi : ((melange (-f) 0 blocs).map fun l => l.map Complex.im).flatten = (List.range N).map fun k : ℕ => Real.cos (2 * Real.pi * ν * k + (σ * φ - σ * (Real.pi / 2))) * 1 := by
    rw [← List.map_flatten, hmel, List.map_map]
    apply List.map_congr_left
    intro k _
    simp only [Function.comp]
    rw [exp_ofReal_mul_I_im, mul_one]
    rcases hσ with rfl | rfl
    · rw [show 2 * Real.pi * ν * k + (1 * φ - 1 * (Real.pi / 2)) = (1 * (2 * Real.pi * ν * k + 1 * φ)) - Real.pi / 2 by ring, Real.cos_sub_pi_div_two]
    · rw [show 2 * Real.pi * ν * k + (-1 * φ - -1 * (Real.pi / 2)) = (2 * Real.pi * ν * k + -1 * φ) + Real.pi / 2 by ring, Real.cos_add_pi_div_two, ← Real.sin_neg]
      refine congrArg Real.sin ?_
      ring
  have hfr : ((melange (-f) 0 blocs).map fun l => l.map Complex.re).flatten = (List.range N).map fun k : ℕ => Real.cos (2 * Real.pi * ν * k + σ * φ) := by
    rw [← List.map_flatten, hmel, List.map_map]
    apply List.map_congr_left
    intro k _
    simp only [Function.comp]
    rw [exp_ofReal_mul_I_re]
    rcases hσ with rfl | rfl
    · rw [one_mul]
    · rw [neg_one_mul, Real.cos_neg]
  obtain ⟨r', a, ea, la, ha⟩ := Filtre.C19_convolution h (by omega) ((melange (-f) 0 blocs).map fun l => l.map Complex.im)
  obtain ⟨t', eb⟩ := Filtre.C21_retard (0 : ℝ) (127 / 2) ((melange (-f) 0 blocs).map fun l => l.map Complex.re)
  obtain ⟨y1s, q1, q2, q3⟩ := blu_dem c (-f) blocs ⟨mode, ohcApres (-f) 0, some (Filtre.Rif.init 0 h, Filtre.Retard.init 0 (127 / 2)), slp, shp, sra⟩ hmb 0 rfl _ r' _ t' rfl a _ ea eb
  refine ⟨y1s, q2, fun k hk hkN => ?_, q3⟩
  rw [q1, List.getElem?_zipWith]
  have hfl : ((melange (-f) 0 blocs).map fun l => l.map Complex.im).flatten.length = N := by rw [hfi]; simp
  have hak := ha k (by omega)
  have hbk : (Filtre.retarde (0 : ℝ) (127 / 2) ((melange (-f) 0 blocs).map fun l => l.map Complex.re).flatten)[k]? = some (Real.cos (2 * Real.pi * ν * (k - 63) + σ * φ)) := by
    rw [hfr, Filtre.retarde, List.getElem?_take_of_lt (by simpa using hkN), List.getElem?_append_right (by simp; omega), List.getElem?_map, List.length_replicate, List.getElem?_range (by omega), Option.map_some, Option.some.injEq, Nat.cast_sub (by omega)]
    norm_num
  rw [hak, hbk]
  simp only [Option.some.injEq]
  have hcv : Filtre.convolution h ((melange (-f) 0 blocs).map fun l => l.map Complex.im).flatten k = -(σ * (G * Real.cos (2 * Real.pi * ν * (k - 63) + σ * φ))) := by
    have q := hr (σ * φ - σ * (Real.pi / 2)) k
    have q2 := Conception.regime_convolution h (fun u : ℤ => Real.cos (2 * Real.pi * ν * u + (σ * φ - σ * (Real.pi / 2)))) N k (by omega) hkN
    rw [q] at q2
    rw [hfi]
    have q3 : (List.range N).map (fun i : ℕ => Real.cos (2 * Real.pi * ν * ((i : ℤ) : ℝ) + (σ * φ - σ * (Real.pi / 2)))) = (List.range N).map fun k : ℕ => Real.cos (2 * Real.pi * ν * k + (σ * φ - σ * (Real.pi / 2))) * 1 := by
      apply List.map_congr_left
      intro i _
      rw [Int.cast_natCast, mul_one]
    rw [q3] at q2
    rw [← q2]
    have hd : ((127 / 2 : ℕ) : ℝ) = 63 := by norm_num
    rw [hd, Int.cast_natCast]
    rcases hσ with rfl | rfl
    · rw [show 2 * Real.pi * ν * ((k : ℝ) - 63) + (1 * φ - 1 * (Real.pi / 2)) = (2 * Real.pi * ν * (k - 63) + 1 * φ) - Real.pi / 2 by ring, Real.sin_sub_pi_div_two]
      ring
    · rw [show 2 * Real.pi * ν * ((k : ℝ) - 63) + (-1 * φ - -1 * (Real.pi / 2)) = (2 * Real.pi * ν * (k - 63) + -1 * φ) + Real.pi / 2 by ring, Real.sin_add_pi_div_two]
      ring
  rw [hcv]
  ring

/-- **C110 refuted (lower side band).**  The configuration of the demodulator for the lower side band is ignored: whatever the signal, its cut and the filters, it outputs the same samples as for the upper side band. -/
theorem C110_lsb_refute {F R : Type} (c : FiltresAM F R) (f : ℝ) (slp shp : F) (sra : R) (blocs : List (List ℂ)) (s0 s1 : DemAM F R) (h0 : DemAM.cree .USB f slp shp sra = some s0)
    (h1 : DemAM.cree .LSB f slp shp sra = some s1) : (Filtre.enchaine (DemAM.step c) s1 blocs).map Prod.snd = (Filtre.enchaine (DemAM.step c) s0 blocs).map Prod.snd := by
  obtain ⟨h, eh, hl, -⟩ := Conception.C82_sinus 127 (by norm_num) (by norm_num) "hn" .hann (by decide) (by decide) (Conception.hann_milieu 127 (by norm_num) (by norm_num))
  unfold DemAM.cree at h0 h1
  simp only [ModeAM.estBLU, if_true, eh, Option.map_some, Option.some.injEq] at h0 h1
  subst h0 h1
  have key : ∀ (blocs : List (List ℂ)) (s0 s1 : DemAM F R), s0.mode = .USB → s1 = { s0 with mode := .LSB } →
      (Filtre.enchaine (DemAM.step c) s1 blocs).map Prod.snd = (Filtre.enchaine (DemAM.step c) s0 blocs).map Prod.snd := by
    intro blocs
    induction blocs with
    | nil => intro s0 s1 _ _; simp [Filtre.enchaine]
    | cons b l ih =>
      rintro s0 _ hm rfl
      have hs : DemAM.step c { s0 with mode := .LSB } b = (DemAM.step c s0 b).map (fun q : DemAM F R × List ℝ => (({ q.1 with mode := .LSB } : DemAM F R), q.2)) ∧ ∀ q, DemAM.step c s0 b = some q → q.1.mode = .USB := by
        unfold DemAM.step
        simp only [hm, ModeAM.estBLU, if_true]
        unfold DemAM.blu1 DemAM.audio
        cases s0.blu with
        | none => simp
        | some p =>
          simp only [Option.bind_some]
          cases Filtre.Rif.step (0 : ℝ) (· + ·) (· * ·) p.1 ((List.zipWith (· * ·) b (s0.ol.step b.length).2).map Complex.im) with
          | none => simp
          | some a =>
            simp only [Option.bind_some]
            cases Filtre.Retard.step p.2 ((List.zipWith (· * ·) b (s0.ol.step b.length).2).map Complex.re) with
            | none => simp
            | some d =>
              simp only [Option.bind_some]
              split
              · simp only [Option.bind_some]
                cases c.lp s0.slp (List.zipWith (· - ·) d.2 a.2) with
                | none => simp
                | some u =>
                  simp only [Option.bind_some]
                  cases c.hp s0.shp (List.zipWith (· - ·) d.2 a.2) with
                  | none => simp
                  | some w =>
                    simp only [Option.bind_some]
                    split
                    · simp only [Option.map_some, Option.some.injEq, forall_eq', true_and]
                    · simp
              · simp
      simp only [Filtre.enchaine, hs.1]
      cases e : DemAM.step c s0 b with
      | none => simp
      | some q =>
        have := ih q.1 { q.1 with mode := .LSB } (hs.2 q e) rfl
        simp only [Option.map_some]
        cases e1 : Filtre.enchaine (DemAM.step c) q.1 l with
        | none =>
          rw [e1] at this
          cases e2 : Filtre.enchaine (DemAM.step c) { q.1 with mode := .LSB } l with
          | none => simp
          | some v => rw [e2] at this; simp at this
        | some u =>
          rw [e1] at this
          cases e2 : Filtre.enchaine (DemAM.step c) { q.1 with mode := .LSB } l with
          | none => rw [e2] at this; simp at this
          | some v =>
            rw [e2] at this
            simp only [Option.map_some, Option.some.injEq] at this
            simp [this]
  exact key blocs _ _ rfl rfl

end Verif.Telecom
