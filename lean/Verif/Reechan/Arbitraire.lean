import Verif.Reechan.Props
import Verif.Reechan.PropsUps
import Verif.Itrp.Flux
import Verif.Itrp.Props
import Verif.Itrp.Sinc
import Verif.Conception.RifProps

/-!
# The arbitrary-ratio resampler (core/src/reechan/ra.cc:84-181)

Chain of half-band decimators, of over-samplers by two and of a windowed-sinc interpolator.  Exact real arithmetic instead of `float`, real samples.
-/

namespace Verif.Reechan
open Verif.Filtre Verif.Itrp

/-- `pour(auto &d: filtres) y = d->step(y);`, core/src/reechan/ra.cc:165-169: one block through a list of stages of the same kind, each with its own state. -/
def etages {S X : Type} (f : Bloc S X X) : Bloc (List S) X X
  | [], y => some ([], y)
  | s :: ss, y =>
    match f s y with
    | none => none
    | some (s', z) =>
      match etages f ss z with
      | none => none
      | some (ss', w) => some (s' :: ss', w)

/-- `AdaptationRythmeArbitraire`, core/src/reechan/ra.cc:86-98 (members). -/
structure Arb where
  decim : List (DemiBande ℝ ℝ)
  ups : List (RifUps ℝ ℝ)
  itrp : Ars ℝ ℝ
  facteur : ℝ
  ratio : ℝ

/-- `interpolateur->step(fenetre, 0, phase)` for `itrp_sinc<T>({15, 256, fcut, "hn"})` with `fcut = min(0.4f, facteur / 2)`, core/src/reechan/ra.cc:149-150
(`InterpolateurRIF::step`: coefficients of the delay, then scalar product). -/
noncomputable def itrpArb (facteur : ℝ) (fen : List ℝ) (τ : ℝ) : Option ℝ :=
  (Itrp.coefsSinc 15 256 (min (2 / 5) (facteur / 2)) true τ).bind fun h : List ℝ => Itrp.step 15 h fen 0

/-- The half-band decimator stage, core/src/reechan/ra.cc:138-140 (core/src/reechan/polyphase.cc:71-138). -/
noncomputable def etageD : Bloc (DemiBande ℝ ℝ) ℝ ℝ := DemiBande.step 0 (fun a b : ℝ => a + b) (fun a b : ℝ => a * b) (fun v : ℝ => 1 / 2 * v)

/-- The over-sampler stage, core/src/reechan/ra.cc:142-144 (core/src/reechan/polyphase.cc:278-330). -/
noncomputable def etageU : Bloc (RifUps ℝ ℝ) ℝ ℝ := RifUps.step 0 (fun a b : ℝ => a + b) (fun a b : ℝ => a * b)

/-- `configure_impl`, core/src/reechan/ra.cc:104-156 (an invalid ratio is replaced by 1). -/
noncomputable def Arb.init (ratio : ℝ) : Option Arb :=
  match decoupe 149 ratio with
  | none => none
  | some (nd, nu, f) =>
    (Conception.designRifFen 15 "lp" (1 / 4) "hn" 0).bind fun coefs : List ℝ =>
      (RifUps.init 0 0 (fun v : ℝ => v * 2) coefs 2).bind fun u : RifUps ℝ ℝ =>
        some ⟨List.replicate nd (DemiBande.init 0 coefs), List.replicate nu u, Ars.init 0 15, f, if ratio ≤ 0 ∨ ratio ≥ 1000000000 then 1 else ratio⟩

/-- `step`, core/src/reechan/ra.cc:158-180. -/
noncomputable def Arb.step : Bloc Arb ℝ ℝ := fun s x =>
  if s.ratio = 1 then some (s, x)
  else
    match etages etageD s.decim x with
    | none => none
    | some (d, y1) =>
      match etages etageU s.ups y1 with
      | none => none
      | some (u, y2) =>
        if |s.facteur - 1| < 1 / 10 ^ 6 then some (⟨d, u, s.itrp, s.facteur, s.ratio⟩, y2)
        else
          match Ars.step (itrpArb s.facteur) s.facteur s.itrp y2 with
          | none => none
          | some (i, y3) => some (⟨d, u, i, s.facteur, s.ratio⟩, y3)

/-! ## Streams -/

/-- From the state `s`, whatever the cutting of the input in blocks, the outputs put together are `F` of the whole input. -/
def Flux {S X Y : Type} (f : Bloc S X Y) (s : S) (F : List X → List Y) : Prop :=
  ∀ blocs : List (List X), ∃ s', enchaine f s blocs = some (s', F blocs.flatten)

theorem etages_cons {S X : Type} (f : Bloc S X X) : ∀ (blocs : List (List X)) (s s' : S) (ss : List S) (y : List X),
    enchaine f s blocs = some (s', y) → ∃ blocs' : List (List X), blocs'.flatten = y ∧
      ∀ ss' w, enchaine (etages f) ss blocs' = some (ss', w) → enchaine (etages f) (s :: ss) blocs = some (s' :: ss', w) := by
  intro blocs
  induction blocs with
  | nil =>
    intro s s' ss y h
    simp only [enchaine, Option.some.injEq, Prod.mk.injEq] at h
    obtain ⟨rfl, rfl⟩ := h
    refine ⟨[], rfl, fun ss' w h => ?_⟩
    simp only [enchaine, Option.some.injEq, Prod.mk.injEq] at h ⊢
    exact ⟨by rw [h.1], h.2⟩
  | cons b bs ih =>
    intro s s' ss y h
    rw [enchaine] at h
    cases hf : f s b with
    | none => rw [hf] at h; simp at h
    | some r =>
      obtain ⟨s1, z⟩ := r
      rw [hf] at h
      simp only at h
      cases hg : enchaine f s1 bs with
      | none => rw [hg] at h; simp at h
      | some r2 =>
        obtain ⟨s2, zs⟩ := r2
        rw [hg] at h
        simp only [Option.some.injEq, Prod.mk.injEq] at h
        obtain ⟨rfl, rfl⟩ := h
        cases he : etages f ss z with
        | none =>
          obtain ⟨bs', e1, -⟩ := ih s1 s2 ss zs hg
          refine ⟨z :: bs', by rw [List.flatten_cons, e1], fun ss' w h => ?_⟩
          rw [enchaine, he] at h
          simp at h
        | some r3 =>
          obtain ⟨ss1, w1⟩ := r3
          obtain ⟨bs', e1, e2⟩ := ih s1 s2 ss1 zs hg
          refine ⟨z :: bs', by rw [List.flatten_cons, e1], fun ss' w h => ?_⟩
          rw [enchaine, he] at h
          simp only at h
          cases hk : enchaine (etages f) ss1 bs' with
          | none => rw [hk] at h; simp at h
          | some r4 =>
            obtain ⟨ss2, ws⟩ := r4
            rw [hk] at h
            simp only [Option.some.injEq, Prod.mk.injEq] at h
            obtain ⟨rfl, rfl⟩ := h
            rw [enchaine, etages, hf]
            simp only [he]
            rw [e2 _ _ hk]

theorem etages_flux {S X : Type} (f : Bloc S X X) (s : S) (F : List X → List X) (h : Flux f s F) :
    ∀ n, Flux (etages f) (List.replicate n s) F^[n] := by
  intro n
  induction n with
  | zero =>
    intro blocs
    refine ⟨[], ?_⟩
    induction blocs with
    | nil => simp [enchaine]
    | cons b bs ih =>
      simp only [List.replicate_zero, Function.iterate_zero, id_eq] at ih ⊢
      rw [enchaine, etages]
      simp only [ih, List.flatten_cons]
  | succ n ih =>
    intro blocs
    obtain ⟨s', e⟩ := h blocs
    obtain ⟨bs', e1, e2⟩ := etages_cons f blocs s s' (List.replicate n s) _ e
    obtain ⟨ss', e3⟩ := ih bs'
    refine ⟨s' :: ss', ?_⟩
    rw [List.replicate_succ, e2 _ _ e3, e1, Function.iterate_succ_apply]

/-- One filter after another, block by block. -/
def compose {S S' X : Type} (f : Bloc S X X) (g : Bloc S' X X) : Bloc (S × S') X X := fun s x =>
  match f s.1 x with
  | none => none
  | some (s1, y) =>
    match g s.2 y with
    | none => none
    | some (s2, z) => some ((s1, s2), z)

theorem compose_enchaine {S S' X : Type} (f : Bloc S X X) (g : Bloc S' X X) : ∀ (blocs : List (List X)) (s s' : S) (t : S') (y : List X),
    enchaine f s blocs = some (s', y) → ∃ blocs' : List (List X), blocs'.flatten = y ∧
      ∀ t' w, enchaine g t blocs' = some (t', w) → enchaine (compose f g) (s, t) blocs = some ((s', t'), w) := by
  intro blocs
  induction blocs with
  | nil =>
    intro s s' t y h
    simp only [enchaine, Option.some.injEq, Prod.mk.injEq] at h
    obtain ⟨rfl, rfl⟩ := h
    refine ⟨[], rfl, fun t' w h => ?_⟩
    simp only [enchaine, Option.some.injEq, Prod.mk.injEq] at h ⊢
    exact ⟨⟨trivial, h.1⟩, h.2⟩
  | cons b bs ih =>
    intro s s' t y h
    rw [enchaine] at h
    cases hf : f s b with
    | none => rw [hf] at h; simp at h
    | some r =>
      obtain ⟨s1, z⟩ := r
      rw [hf] at h
      simp only at h
      cases hg : enchaine f s1 bs with
      | none => rw [hg] at h; simp at h
      | some r2 =>
        obtain ⟨s2, zs⟩ := r2
        rw [hg] at h
        simp only [Option.some.injEq, Prod.mk.injEq] at h
        obtain ⟨rfl, rfl⟩ := h
        cases he : g t z with
        | none =>
          obtain ⟨bs', e1, -⟩ := ih s1 s2 t zs hg
          refine ⟨z :: bs', by rw [List.flatten_cons, e1], fun t' w h => ?_⟩
          rw [enchaine, he] at h
          simp at h
        | some r3 =>
          obtain ⟨t1, w1⟩ := r3
          obtain ⟨bs', e1, e2⟩ := ih s1 s2 t1 zs hg
          refine ⟨z :: bs', by rw [List.flatten_cons, e1], fun t' w h => ?_⟩
          rw [enchaine, he] at h
          simp only at h
          cases hk : enchaine g t1 bs' with
          | none => rw [hk] at h; simp at h
          | some r4 =>
            obtain ⟨t2, ws⟩ := r4
            rw [hk] at h
            simp only [Option.some.injEq, Prod.mk.injEq] at h
            obtain ⟨rfl, rfl⟩ := h
            rw [enchaine, compose, hf]
            simp only [he]
            rw [e2 _ _ hk]

theorem compose_flux {S S' X : Type} (f : Bloc S X X) (g : Bloc S' X X) (s : S) (t : S') (F G : List X → List X)
    (hf : Flux f s F) (hg : Flux g t G) : Flux (compose f g) (s, t) (fun x => G (F x)) := by
  intro blocs
  obtain ⟨s', e⟩ := hf blocs
  obtain ⟨bs', e1, e2⟩ := compose_enchaine f g blocs s s' t _ e
  obtain ⟨t', e3⟩ := hg bs'
  exact ⟨(s', t'), by rw [e2 _ _ e3, e1]⟩

/-- Same filter seen through a change of the representation of the state. -/
theorem transporte {S S' X : Type} (f : Bloc S X X) (g : Bloc S' X X) (φ : S' → S)
    (h : ∀ s x, f (φ s) x = (g s x).map fun r : S' × List X => (φ r.1, r.2)) : ∀ (blocs : List (List X)) (s s' : S') (y : List X),
      enchaine g s blocs = some (s', y) → enchaine f (φ s) blocs = some (φ s', y) := by
  intro blocs
  induction blocs with
  | nil =>
    intro s s' y e
    simp only [enchaine, Option.some.injEq, Prod.mk.injEq] at e ⊢
    exact ⟨by rw [e.1], e.2⟩
  | cons b bs ih =>
    intro s s' y e
    rw [enchaine] at e
    cases hg : g s b with
    | none => rw [hg] at e; simp at e
    | some r =>
      obtain ⟨s1, z⟩ := r
      rw [hg] at e
      simp only at e
      cases hk : enchaine g s1 bs with
      | none => rw [hk] at e; simp at e
      | some r2 =>
        obtain ⟨s2, zs⟩ := r2
        rw [hk] at e
        simp only [Option.some.injEq, Prod.mk.injEq] at e
        obtain ⟨rfl, rfl⟩ := e
        rw [enchaine, h, hg]
        simp only [Option.map_some]
        rw [ih _ _ _ hk]

/-! ## The stages -/

theorem coefs_ok : ∃ c, Conception.designRifFen 15 "lp" (1 / 4) "hn" 0 = some c ∧ c.length = 15 := by
  obtain ⟨h, e, l, -⟩ := Conception.C80_phase_lineaire_nom 15 (by norm_num) "lp" (by simp [Conception.types]) (1 / 4) 0 "hn" .hann (by decide) (by decide)
  exact ⟨h, e, l⟩

theorem etageD_flux (c : List ℝ) (hc : 0 < c.length) : ∃ F : List ℝ → List ℝ, Flux etageD (DemiBande.init 0 c) F ∧ ∀ x, (F x).length = x.length / 2 := by
  refine ⟨fun x => (List.range (x.length / 2)).map fun m => outH 0 (fun a b : ℝ => a + b) (fun a b : ℝ => a * b) (fun v : ℝ => 1 / 2 * v) c (fun t => c.getD (t * 2) 0) (x.take ((m + 1) * 2)), ?_, fun x => by simp⟩
  intro blocs
  exact demi_valeur 0 _ _ _ c hc (fun t => c.getD (t * 2) 0) (fun t ht => by
    rw [List.getD_eq_getElem _ _ (by omega), List.getElem?_eq_getElem (by omega)]) blocs

theorem etageU_flux (c : List ℝ) (hc : 0 < c.length) : ∃ u, RifUps.init 0 0 (fun v : ℝ => v * 2) c 2 = some u ∧
    ∃ F : List ℝ → List ℝ, Flux etageU u F ∧ ∀ x, (F x).length = x.length * 2 := by
  obtain ⟨u, e, h⟩ := ups_valeur (T := ℝ) 0 (fun a b : ℝ => a + b) (fun a b : ℝ => a * b) 0 (fun v : ℝ => v * 2) c hc 2 (by norm_num)
  exact ⟨u, e, _, h, fun x => (sorties_fois 2 _ x).1⟩

theorem itrp_flux (f : ℝ) (h0 : 1 / 2 ≤ f) : ∃ F : List ℝ → List ℝ, Flux (Ars.step (itrpArb f) f) (Ars.init 0 15) F ∧
    ∀ x, (F x).length = ⌈f * (x.length : ℝ)⌉.toNat := by
  refine ⟨fun x => (List.range ⌈f * (x.length : ℝ)⌉.toNat).map (sortieIdeale 0 15 (fun fen τ => (itrpArb f fen τ).getD 0) f x), ?_, fun x => by simp⟩
  intro blocs
  refine C57_flux (itrpArb f) (fun fen τ => (itrpArb f fen τ).getD 0) 0 15 (by norm_num) f (by linarith) (fun fen τ hl t0 t1 => ?_) blocs
  obtain ⟨j, h, e, l, -⟩ := C153_coefs 15 256 (by norm_num) (min (2 / 5) (f / 2)) (le_min (by norm_num) (by linarith))
    ((min_le_left _ _).trans (by norm_num)) true τ t0 t1.le
  have e2 : itrpArb f fen τ = some (∑ i ∈ Finset.range h.length, h.getD i 0 * fen.getD i 0) := by
    have := step_zero h fen (by rw [hl, l])
    rw [l] at this
    rw [itrpArb, e, Option.bind_some, this, l]
  rw [e2, Option.getD_some]

theorem iterD_length (F : List ℝ → List ℝ) (h : ∀ x, (F x).length = x.length / 2) (n : ℕ) (x : List ℝ) : (F^[n] x).length = x.length / 2 ^ n := by
  induction n generalizing x with
  | zero => simp
  | succ n ih => rw [Function.iterate_succ_apply, ih, h, Nat.div_div_eq_div_mul, pow_succ']

theorem iterU_length (F : List ℝ → List ℝ) (h : ∀ x, (F x).length = x.length * 2) (n : ℕ) (x : List ℝ) : (F^[n] x).length = x.length * 2 ^ n := by
  induction n generalizing x with
  | zero => simp
  | succ n ih => rw [Function.iterate_succ_apply, ih, h, mul_assoc, pow_succ']

/-! ## The whole resampler -/

/-- After at least one decimation, the rest of the ratio is less than 1. -/
theorem decoupe_fin (ratio : ℝ) (h0 : 1 / 2 ^ 149 ≤ ratio) (h1 : ratio < 1000000000) (nd nu : ℕ) (f : ℝ) (e : decoupe 149 ratio = some (nd, nu, f)) :
    f < 1 ∨ nd = 0 := by
  have hp : 0 < ratio := lt_of_lt_of_le (by positivity) h0
  obtain ⟨n, f', em, -, -, hor⟩ := monte_some 149 ratio hp (by
    rw [div_le_iff₀ (by positivity)] at h0
    linarith)
  unfold decoupe at e
  rw [if_neg (by push Not; exact ⟨hp, h1⟩)] at e
  simp only [em] at e
  rcases hor with hor | hor
  · have : descend 149 f' = some (0, f') := by rw [descend, if_neg (by linarith)]
    rw [this] at e
    simp only [Option.some.injEq, Prod.mk.injEq] at e
    left
    rw [← e.2.2]
    exact hor
  · right
    cases hd : descend 149 f' with
    | none => rw [hd] at e; simp at e
    | some r =>
      rw [hd] at e
      simp only [Option.some.injEq, Prod.mk.injEq] at e
      omega


/-- The whole chain, for any split. -/
theorem arb_flux (nd nu : ℕ) (f ratio : ℝ) (hf : 1 / 2 ≤ f) (hr : ratio ≠ 1) (c : List ℝ) (hc : 0 < c.length) (u : RifUps ℝ ℝ)
    (hu : RifUps.init 0 0 (fun v : ℝ => v * 2) c 2 = some u) :
    ∃ F : List ℝ → List ℝ, Flux Arb.step ⟨List.replicate nd (DemiBande.init 0 c), List.replicate nu u, Ars.init 0 15, f, ratio⟩ F ∧
      ∀ x, (F x).length = if |f - 1| < 1 / 10 ^ 6 then x.length / 2 ^ nd * 2 ^ nu else ⌈f * ((x.length / 2 ^ nd * 2 ^ nu : ℕ) : ℝ)⌉.toNat := by
  obtain ⟨D, hD, lD⟩ := etageD_flux c hc
  obtain ⟨u', hu', U, hU, lU⟩ := etageU_flux c hc
  rw [hu] at hu'
  obtain rfl := Option.some.inj hu'
  have hDU := compose_flux _ _ _ _ _ _ (etages_flux _ _ _ hD nd) (etages_flux _ _ _ hU nu)
  have lDU : ∀ x, (U^[nu] (D^[nd] x)).length = x.length / 2 ^ nd * 2 ^ nu := fun x => by rw [iterU_length U lU, iterD_length D lD]
  by_cases hz : |f - 1| < 1 / 10 ^ 6
  · refine ⟨fun x => U^[nu] (D^[nd] x), ?_, fun x => by rw [if_pos hz]; exact lDU x⟩
    intro blocs
    obtain ⟨s', e⟩ := hDU blocs
    refine ⟨_, transporte Arb.step (compose (etages etageD) (etages etageU))
      (fun s : List (DemiBande ℝ ℝ) × List (RifUps ℝ ℝ) => (⟨s.1, s.2, Ars.init 0 15, f, ratio⟩ : Arb)) ?_ blocs _ _ _ e⟩
    intro s x
    unfold Arb.step compose
    rw [if_neg hr]
    cases h1 : etages etageD s.1 x with
    | none => simp [h1]
    | some r1 =>
      cases h2 : etages etageU s.2 r1.2 with
      | none => simp [h1, h2]
      | some r2 => simp only [h1, h2, if_pos hz, Option.map_some]
  · obtain ⟨I, hI, lI⟩ := itrp_flux f hf
    have hDUI := compose_flux _ _ _ _ _ _ hDU hI
    refine ⟨fun x => I (U^[nu] (D^[nd] x)), ?_, fun x => by rw [if_neg hz, lI, lDU]⟩
    intro blocs
    obtain ⟨s', e⟩ := hDUI blocs
    refine ⟨_, transporte Arb.step (compose (compose (etages etageD) (etages etageU)) (Ars.step (itrpArb f) f))
      (fun s : (List (DemiBande ℝ ℝ) × List (RifUps ℝ ℝ)) × Ars ℝ ℝ => (⟨s.1.1, s.1.2, s.2, f, ratio⟩ : Arb)) ?_ blocs _ _ _ e⟩
    intro s x
    unfold Arb.step compose
    rw [if_neg hr]
    cases h1 : etages etageD s.1.1 x with
    | none => simp [h1]
    | some r1 =>
      cases h2 : etages etageU s.1.2 r1.2 with
      | none => simp [h1, h2]
      | some r2 =>
        cases h3 : Ars.step (itrpArb f) f s.2 r2.2 with
        | none => simp only [h1, h2, if_neg hz, h3, Option.map_none]
        | some r3 => simp only [h1, h2, if_neg hz, h3, Option.map_some]

/-- **C207 (a stream, whatever the blocks).**  For every admissible ratio the resampler can be built; cutting the input in blocks in any way does not change the outputs put together; and the number of
output samples is the number of inputs times the ratio to less than one sample, however long the stream is, unless the part of the ratio left after the octaves differs from 1 by less than 10⁻⁶ (and is not 1). -/
theorem C207_flux (ratio : ℝ) (h0 : 1 / 2 ^ 149 ≤ ratio) (h1 : ratio < 1000000000) :
    ∃ s, Arb.init ratio = some s ∧ ∃ F : List ℝ → List ℝ, Flux Arb.step s F ∧
      ((∀ k : ℤ, ratio / 2 ^ k = 1 ∨ 1 / 10 ^ 6 ≤ |ratio / 2 ^ k - 1|) → ∀ x, |((F x).length : ℝ) - ratio * x.length| < 1) := by
  have hp : 0 < ratio := lt_of_lt_of_le (by positivity) h0
  obtain ⟨nd, nu, f, e, he, hf0, hf1, hor⟩ := C58_decoupe ratio h0 h1
  obtain ⟨c, ec, lc⟩ := coefs_ok
  obtain ⟨u, eu, -⟩ := etageU_flux c (by omega)
  refine ⟨_, by rw [Arb.init, e]; simp only [ec, Option.bind_some, eu]; rfl, ?_⟩
  rw [if_neg (by push Not; exact ⟨hp, h1⟩)]
  by_cases hr : ratio = 1
  · refine ⟨id, fun blocs => ⟨⟨List.replicate nd (DemiBande.init 0 c), List.replicate nu u, Ars.init 0 15, f, ratio⟩, ?_⟩, fun _ x => by simp [hr]⟩
    · induction blocs with
      | nil => simp [enchaine]
      | cons b bs ih =>
        rw [enchaine, Arb.step, if_pos (by exact hr)]
        simp only [id_eq] at ih ⊢
        rw [ih, List.flatten_cons]
  · obtain ⟨F, hF, lF⟩ := arb_flux nd nu f ratio hf0 hr c (by omega) u eu
    refine ⟨F, hF, fun hk x => ?_⟩
    have hN : ((x.length / 2 ^ nd * 2 ^ nu : ℕ) : ℝ) ≤ x.length * 2 ^ nu / 2 ^ nd ∧ (x.length : ℝ) * 2 ^ nu / 2 ^ nd < ((x.length / 2 ^ nd * 2 ^ nu : ℕ) : ℝ) + 1 := by
      rcases hor with rfl | rfl
      · simp
      · have hq := Nat.div_add_mod x.length (2 ^ nd)
        have hm := Nat.mod_lt x.length (show 0 < 2 ^ nd by positivity)
        have hp2 : (0 : ℝ) < 2 ^ nd := by positivity
        have hq' : (2 : ℝ) ^ nd * ((x.length / 2 ^ nd : ℕ) : ℝ) + ((x.length % 2 ^ nd : ℕ) : ℝ) = x.length := by exact_mod_cast hq
        have hm' : ((x.length % 2 ^ nd : ℕ) : ℝ) < 2 ^ nd := by exact_mod_cast hm
        have hm0 : (0 : ℝ) ≤ ((x.length % 2 ^ nd : ℕ) : ℝ) := Nat.cast_nonneg _
        simp only [pow_zero, mul_one]
        constructor
        · rw [le_div_iff₀ hp2]; linarith
        · rw [div_lt_iff₀ hp2]; linarith
    have hrx : ratio * x.length = f * (x.length * 2 ^ nu / 2 ^ nd) := by
      have hp2 : (2 : ℝ) ^ nd ≠ 0 := by positivity
      field_simp
      linarith [congrArg (fun v : ℝ => v * x.length) he]
    have hfk : f = 1 ∨ 1 / 10 ^ 6 ≤ |f - 1| := by
      have := hk ((nu : ℤ) - nd)
      have e2 : ratio / (2 : ℝ) ^ ((nu : ℤ) - nd) = f := by
        rw [zpow_sub₀ (by norm_num), zpow_natCast, zpow_natCast]
        field_simp
        linarith
      rwa [e2] at this
    rw [lF, hrx]
    by_cases hz : |f - 1| < 1 / 10 ^ 6
    · rw [if_pos hz]
      have : f = 1 := by
        rcases hfk with h | h
        · exact h
        · exact absurd hz (not_lt.2 h)
      rw [this, one_mul, abs_lt]
      constructor <;> linarith [hN.1, hN.2]
    · rw [if_neg hz]
      set M : ℝ := ((x.length / 2 ^ nd * 2 ^ nu : ℕ) : ℝ) with hM
      have hM0 : 0 ≤ M := Nat.cast_nonneg _
      have hc0 : 0 ≤ ⌈f * M⌉ := Int.ceil_nonneg (by positivity)
      have hc1 : ((⌈f * M⌉.toNat : ℕ) : ℝ) = (⌈f * M⌉ : ℝ) := by exact_mod_cast Int.toNat_of_nonneg hc0
      rw [hc1, abs_lt]
      have a1 := Int.le_ceil (f * M)
      have a2 := Int.ceil_lt_add_one (f * M)
      rcases hor with rfl | rfl
      · have hMe : M = x.length * 2 ^ nu / 2 ^ 0 := by rw [hM]; simp
        rw [← hMe]
        constructor <;> linarith
      · have hx : f * (x.length * 2 ^ 0 / 2 ^ nd) < f * M + 1 ∧ f * M ≤ f * (x.length * 2 ^ 0 / 2 ^ nd) := by
          constructor
          · by_cases hnd : nd = 0
            · subst hnd
              have : M = x.length * 2 ^ 0 / 2 ^ 0 := by rw [hM]; simp
              rw [← this]; linarith
            · have hf1' : f < 1 := by
                rcases decoupe_fin ratio h0 h1 _ _ _ e with h | h
                · exact h
                · exact absurd h hnd
              nlinarith [hN.2]
          · exact mul_le_mul_of_nonneg_left hN.1 (by linarith)
        constructor <;> linarith [hx.1, hx.2]

/-- The hypothesis on the rest of the ratio holds for the ratio 10/3, for instance. -/
example (k : ℤ) : (10 / 3 : ℝ) / 2 ^ k = 1 ∨ 1 / 10 ^ 6 ≤ |(10 / 3 : ℝ) / 2 ^ k - 1| := by
  right
  rcases le_or_gt k 1 with hk | hk
  · have : (2 : ℝ) ^ k ≤ 2 ^ (1 : ℤ) := zpow_le_zpow_right₀ (by norm_num) hk
    have hp : (0 : ℝ) < 2 ^ k := by positivity
    rw [zpow_one] at this
    have : (5 / 3 : ℝ) ≤ 10 / 3 / 2 ^ k := by rw [le_div_iff₀ hp]; linarith
    rw [le_abs]; left; norm_num; linarith
  · have : (2 : ℝ) ^ (2 : ℤ) ≤ 2 ^ k := zpow_le_zpow_right₀ (by norm_num) hk
    have hp : (0 : ℝ) < 2 ^ k := by positivity
    have h4 : (4 : ℝ) ≤ 2 ^ k := by norm_num at this; linarith
    have : (10 / 3 : ℝ) / 2 ^ k ≤ 5 / 6 := by rw [div_le_iff₀ hp]; linarith
    rw [le_abs]; right; norm_num; linarith

/-- **C207 (ratio 1 or invalid).**  With the ratio 1, as with a null, negative or too large ratio, the resampler is transparent: every block comes out unchanged. -/
theorem C207_transparent (ratio : ℝ) (h : ratio = 1 ∨ ratio ≤ 0 ∨ 1000000000 ≤ ratio) : ∃ s, Arb.init ratio = some s ∧ ∀ x, Arb.step s x = some (s, x) := by
  have hd : decoupe 149 ratio = some (0, 0, 1) := by
    rcases h with rfl | h
    · have := C58_invalide 149 (0 : ℝ) (Or.inl le_rfl)
      unfold decoupe at this ⊢
      rw [if_pos (Or.inl le_rfl)] at this
      rw [if_neg (by norm_num)]
      exact this
    · exact C58_invalide 149 ratio h
  obtain ⟨c, ec, lc⟩ := coefs_ok
  obtain ⟨u, eu, -⟩ := etageU_flux c (by omega)
  refine ⟨_, by rw [Arb.init, hd]; simp only [ec, Option.bind_some, eu]; rfl, fun x => ?_⟩
  rw [Arb.step, if_pos]
  rcases h with rfl | h
  · simp
  · simp only
    rw [if_pos h]

/-- **C207, refuted for the ratios close to 1 (or to a power of two).**  The interpolation is skipped when the rest of the ratio differs from 1 by less than 10⁻⁶: with the ratio `1 + 2⁻²¹` (a `float`), the resampler outputs exactly as many
samples as it receives, and the difference with the number of samples asked for grows without bound with the length of the stream. -/
theorem C207_derive_refute (B : ℝ) : ∃ s, Arb.init (1 + 1 / 2 ^ 21) = some s ∧ ∃ F : List ℝ → List ℝ, Flux Arb.step s F ∧
    ∃ x, (F x).length = x.length ∧ B < |((F x).length : ℝ) - (1 + 1 / 2 ^ 21) * x.length| := by
  have h0 : (1 : ℝ) / 2 ^ 149 ≤ 1 + 1 / 2 ^ 21 := by norm_num
  have h1 : (1 : ℝ) + 1 / 2 ^ 21 < 1000000000 := by norm_num
  have hd : decoupe 149 ((1 : ℝ) + 1 / 2 ^ 21) = some (0, 0, 1 + 1 / 2 ^ 21) := by
    unfold decoupe
    rw [if_neg (by norm_num)]
    have e1 : monte 149 ((1 : ℝ) + 1 / 2 ^ 21) = some (0, 1 + 1 / 2 ^ 21) := by rw [monte, if_neg (by norm_num)]
    have e2 : descend 149 ((1 : ℝ) + 1 / 2 ^ 21) = some (0, 1 + 1 / 2 ^ 21) := by rw [descend, if_neg (by norm_num)]
    simp only [e1, e2]
  obtain ⟨c, ec, lc⟩ := coefs_ok
  obtain ⟨u, eu, -⟩ := etageU_flux c (by omega)
  obtain ⟨F, hF, lF⟩ := arb_flux 0 0 (1 + 1 / 2 ^ 21) (1 + 1 / 2 ^ 21) (by norm_num) (by norm_num) c (by omega) u eu
  refine ⟨_, by rw [Arb.init, hd]; simp only [ec, Option.bind_some, eu]; rfl, F, ?_, ?_⟩
  · rw [if_neg (by norm_num)]; exact hF
  · have hl : ∀ x, (F x).length = x.length := fun x => by
      rw [lF, if_pos (by rw [abs_lt]; constructor <;> norm_num)]
      simp
    obtain ⟨n, hn⟩ := exists_nat_gt (B * 2 ^ 21)
    refine ⟨List.replicate n 0, hl _, ?_⟩
    rw [hl, List.length_replicate]
    have : (n : ℝ) - (1 + 1 / 2 ^ 21) * n = -(n / 2 ^ 21) := by ring
    rw [this, abs_neg, abs_of_nonneg (by positivity), lt_div_iff₀ (by positivity)]
    exact hn

end Verif.Reechan
