import Verif.Fourier.OlaFenetreFlux
import Verif.Fourier.OlaProps
import Verif.Conception.FenetresProps

/-!
# C209, C210: the windowed frequency-domain filter and the periodogram

Specification: the input is cut in overlapping frames, multiplied by the window; each frame goes through the DFT, the callback and the
inverse DFT; the results are added at the places of the frames.
-/

namespace Verif.Fourier

open Finset Complex Verif.Tampon

/-! ## Specification -/

/-- What the callback `t` makes of a (zero-padded, windowed) frame: inverse DFT of `t` of the DFT (C27). -/
noncomputable def sortieTrame (t : List ℂ → Option (List ℂ)) (p : List ℂ) : List ℂ := (((fft trigoC p).bind t).bind (ifft trigoC)).getD []

/-- The frame of the signal `x` at position `p`, windowed, with `nz` zeros before it. -/
noncomputable def trameEn (w : List ℂ) (nz : ℕ) (x : List ℂ) (p : ℤ) : List ℂ :=
  List.replicate nz 0 ++ (List.range w.length).map fun i : ℕ => ech x (p + i) * w.getD i 0

/-- Sample `j` of a processed frame `z` (of `n` samples preceded by the zeros): the samples in the place of the zeros are added to the last ones. -/
noncomputable def corps (n : ℕ) (z : List ℂ) (j : ℕ) : ℂ := z.getD (z.length - n + j) 0

/-- The samples of `z` in the place of the zeros, put at the end of the frame. -/
noncomputable def tete (n : ℕ) (z : List ℂ) (j : ℕ) : ℂ := if 2 * n ≤ j + z.length then z.getD (j + z.length - 2 * n) 0 else 0

/-- Sample `j` of the processed frame of the signal at position `p`, folded on the `n` samples of a frame. -/
noncomputable def replie (n : ℕ) (z : List ℂ) (j : ℕ) : ℂ := corps n z j + tete n z j

/-- A callback that accepts every spectrum of `N` coefficients and keeps the dimension. -/
def Rappel (N : ℕ) (t : List ℂ → Option (List ℂ)) : Prop := ∀ X : List ℂ, X.length = N → ∃ Y, t X = some Y ∧ Y.length = N

/-! ## The parts of a step -/

theorem estTfd_unique (avant : Bool) (x y z : List ℂ) (h1 : EstTfd trigoC avant x y) (h2 : EstTfd trigoC avant x z) : y = z :=
  list_ext_getD _ _ (by rw [h1.1, h2.1]) fun i hi => by rw [h1.2 i (by rw [← h1.1]; exact hi), h2.2 i (by rw [← h1.1]; exact hi)]

/-- Sound state of the plan. -/
def PlanBon (p : Plan ℂ) : Prop := Valide trigoC p ∧ p.sens = true

theorem transforme_some (t : List ℂ → Option (List ℂ)) (N : ℕ) (hN : 0 < N) (hN2 : N ≤ 2 ^ 29) (ht : Rappel N t) (s : OlaFen ℂ) (hs : s.N = N)
    (hl : s.padded.length = N) (hp : PlanBon s.plan) :
    ∃ p X, PlanBon p ∧ fft trigoC s.padded = some X ∧ X.length = N ∧ (sortieTrame t s.padded).length = N ∧
      s.transforme trigoC t = some { s with plan := p, x2 := sortieTrame t s.padded, vus := s.vus ++ [X] } := by
  obtain ⟨p1, X, e2, hp1, t1⟩ := step_tfd loisC true N s.padded s.plan hl hN hN2 hp.1
  have e2' : s.plan.step2 trigoC s.padded = some (p1, X) := by
    have hs := hp.2
    generalize s.plan = p at e2 hs
    obtain ⟨a, b, av, d, ch, q⟩ := p
    have : av = true := hs
    subst this
    exact e2
  have lX : X.length = N := by rw [t1.1, hl]
  obtain ⟨Y, eY, lY⟩ := ht X lX
  obtain ⟨p2, x2, e4, hp2, t2⟩ := step_tfd loisC false N Y p1 lY hN hN2 (.inr ⟨_, hp1⟩)
  obtain ⟨X', eX', tX'⟩ := fft_some s.padded (by omega) (by omega)
  obtain ⟨z', ez', tz'⟩ := ifft_some Y (by omega) (by omega)
  have hX := estTfd_unique true _ _ _ t1 tX'
  have hz := estTfd_unique false _ _ _ t2 tz'
  subst hX hz
  have hst : sortieTrame t s.padded = x2 := by
    unfold sortieTrame
    rw [eX', Option.bind_some, eY, Option.bind_some, ez']
    rfl
  have lx2 : x2.length = N := by rw [t2.1, lY]
  refine ⟨p2, X, ⟨.inr ⟨_, hp2⟩, ?_⟩, eX', lX, by rw [hst]; exact lx2, ?_⟩
  · rw [step_sens _ _ _ _ _ _ e4, step_sens _ _ _ _ _ _ e2, hp.2]
  · unfold OlaFen.transforme
    simp only [e2', Option.bind_eq_bind, Option.bind_some, eY, e4, hst]
    rw [if_neg (by rw [lx2, hs]; simp)]

theorem getD_zero (n i : ℕ) : (List.replicate n (0 : ℂ)).getD i 0 = 0 := by
  rw [List.getD_eq_getElem?_getD, List.getElem?_replicate]
  split <;> rfl

theorem ecrit_getD (y v : List ℂ) (i0 : ℕ) (h : i0 + v.length ≤ y.length) :
    ∃ y', ecrit y i0 v = some y' ∧ y'.length = y.length ∧ ∀ t, y'.getD t 0 = if i0 ≤ t ∧ t < i0 + v.length then v.getD (t - i0) 0 else y.getD t 0 := by
  obtain ⟨y', e, l, g⟩ := ecrit_some y v i0 h
  refine ⟨y', e, l, fun t => ?_⟩
  have := g t
  split at this
  · rw [if_pos (by assumption)]; exact getD_of_get _ _ _ _ this
  · rw [if_neg (by assumption)]; exact getD_of_get _ _ _ _ this

theorem ecritQueue_getD (y v : List ℂ) (h : v.length ≤ y.length) :
    ∃ y', ecritQueue y v = some y' ∧ y'.length = y.length ∧ ∀ t, t < y.length → y'.getD t 0 = if y.length - v.length ≤ t then v.getD (t - (y.length - v.length)) 0 else y.getD t 0 := by
  obtain ⟨y', e, l, g⟩ := ecrit_getD y v (y.length - v.length) (by omega)
  refine ⟨y', by rw [ecritQueue, if_pos h, e], l, fun t ht => ?_⟩
  rw [g t]
  by_cases h1 : y.length - v.length ≤ t
  · rw [if_pos (by omega), if_pos h1]
  · rw [if_neg (by omega), if_neg h1]

theorem segment_getD (x : List ℂ) (i0 n : ℕ) (h : i0 + n ≤ x.length) :
    ∃ y, segment x i0 n = some y ∧ y.length = n ∧ ∀ t, t < n → y.getD t 0 = x.getD (i0 + t) 0 := by
  obtain ⟨y, e, l, g⟩ := segment_some x i0 n h
  exact ⟨y, e, l, fun t ht => getD_of_get _ _ _ _ (g t ht)⟩

theorem queue_getD (x : List ℂ) (n : ℕ) (h : n ≤ x.length) :
    ∃ y, queue x n = some y ∧ y.length = n ∧ ∀ t, t < n → y.getD t 0 = x.getD (x.length - n + t) 0 := by
  obtain ⟨y, e, l, g⟩ := queue_some x n h
  exact ⟨y, e, l, fun t ht => getD_of_get _ _ _ _ (g t ht)⟩

/-- Dimensions of the state. -/
structure Dims (m N Nz : ℕ) (w : List ℂ) (s : OlaFen ℂ) : Prop where
  ne : s.Ne = 2 * m
  n : s.N = N
  nz : s.Nz = Nz
  fen : s.fen = w
  lp : s.padded.length = N
  ll : s.last.length = 2 * m
  plan : PlanBon s.plan

theorem ajoute_vue (m N Nz : ℕ) (w : List ℂ) (hN : N = Nz + 2 * m) (hz : Nz ≤ 2 * m) (s : OlaFen ℂ) (hs : Dims m N Nz w s) (hv : s.vue = true) (h2 : s.x2.length = N) :
    ∃ x2, s.ajoute = some { s with x2 := x2 } ∧ x2.length = N ∧ ∀ j, j < 2 * m → x2.getD (Nz + j) 0 = replie (2 * m) s.x2 j := by
  obtain ⟨v, e1, l1, g1⟩ := segment_getD s.x2 Nz (2 * m) (by omega)
  obtain ⟨q, e2, l2, g2⟩ := queue_getD v Nz (by omega)
  obtain ⟨h, e3, l3, g3⟩ := segment_getD s.x2 0 Nz (by omega)
  obtain ⟨q2, e4, l4, g4⟩ := somme_some q h (by omega)
  obtain ⟨v2, e5, l5, g5⟩ := ecritQueue_getD v q2 (by omega)
  obtain ⟨x2, e6, l6, g6⟩ := ecrit_getD s.x2 v2 Nz (by omega)
  refine ⟨x2, ?_, by omega, ?_⟩
  · unfold OlaFen.ajoute OlaFen.svg
    rw [if_pos hv, hs.nz, hs.ne]
    simp only [e1, e2, e3, e4, e5, Option.bind_eq_bind, Option.bind_some, OlaFen.poseSvg, hv, if_true, hs.nz, hs.ne, e6, Option.map_some]
  · intro j hj
    rw [g6, if_pos (by omega), g5 _ (by omega)]
    unfold replie corps tete
    rw [h2, show N - 2 * m = Nz by omega]
    by_cases h1 : v.length - q2.length ≤ Nz + j - Nz
    · rw [if_pos h1, if_pos (by omega), g4, g2 _ (by omega), g3 _ (by omega), g1 _ (by omega)]
      congr 2 <;> omega
    · rw [if_neg h1, if_neg (by omega), g1 _ (by omega), add_zero]
      congr 1
      omega

theorem ajoute_propre (m N Nz : ℕ) (w : List ℂ) (hN : N = Nz + 2 * m) (hz : Nz ≤ 2 * m) (s : OlaFen ℂ) (hs : Dims m N Nz w s) (hv : s.vue = false) (h2 : s.x2.length = N) (h3 : s.svgPropre.length = 2 * m) :
    ∃ v, s.ajoute = some { s with svgPropre := v } ∧ v.length = 2 * m ∧ ∀ j, j < 2 * m → v.getD j 0 = s.svgPropre.getD j 0 + tete (2 * m) s.x2 j := by
  obtain ⟨q, e2, l2, g2⟩ := queue_getD s.svgPropre Nz (by omega)
  obtain ⟨h, e3, l3, g3⟩ := segment_getD s.x2 0 Nz (by omega)
  obtain ⟨q2, e4, l4, g4⟩ := somme_some q h (by omega)
  obtain ⟨v2, e5, l5, g5⟩ := ecritQueue_getD s.svgPropre q2 (by omega)
  refine ⟨v2, ?_, by omega, ?_⟩
  · unfold OlaFen.ajoute OlaFen.svg
    rw [if_neg (by rw [hv]; simp), hs.nz]
    simp only [e2, e3, e4, e5, Option.bind_eq_bind, Option.bind_some, OlaFen.poseSvg, hv, Bool.false_eq_true, if_false, hs.nz]
  · intro j hj
    rw [g5 _ (by omega)]
    unfold tete
    rw [h2]
    by_cases h1 : s.svgPropre.length - q2.length ≤ j
    · rw [if_pos h1, if_pos (by omega), g4, g2 _ (by omega), g3 _ (by omega)]
      congr 2 <;> omega
    · rw [if_neg h1, if_neg (by omega), add_zero]

/-- The value of `svg`, and what `poseSvg` does with the end of `x2`. -/
theorem sort1_some (m N Nz : ℕ) (w : List ℂ) (hN : N = Nz + 2 * m) (s : OlaFen ℂ) (hs : Dims m N Nz w s) (h2 : s.x2.length = N) (v : List ℂ) (ev : s.svg = some v) (lv : v.length = 2 * m) :
    ∃ s' y z, s.sort1 = some (s', if 0 ≤ s.cnt then y else []) ∧ Dims m N Nz w s' ∧ s'.padded = s.padded ∧ s'.vue = s.vue ∧ s'.cnt = s.cnt + m ∧ s'.vus = s.vus ∧
      s'.x2.length = N ∧ (s.vue = false → s'.x2 = s.x2 ∧ s'.svgPropre = z) ∧ z.length = 2 * m ∧ (∀ j, j < 2 * m → z.getD j 0 = s.x2.getD (Nz + j) 0) ∧
      y.length = 2 * m ∧ (∀ j, j < m → y.getD j 0 = s.last.getD j 0 ∧ y.getD (m + j) 0 = s.last.getD (m + j) 0 + v.getD j 0 / 2) ∧
      (∀ j, j < m → s'.last.getD j 0 = v.getD (m + j) 0 / 2 ∧ s'.last.getD (m + j) 0 = 0) := by
  have ll := hs.ll
  have hm : s.Ne / 2 = m := by rw [hs.ne]; omega
  obtain ⟨a, e1, l1, g1⟩ := queue_getD s.last m (by omega)
  obtain ⟨h, e2, l2, g2⟩ := segment_getD v 0 m (by omega)
  obtain ⟨a2, e3, l3, g3⟩ := somme_some a (h.map (· / 2)) (by rw [List.length_map]; omega)
  obtain ⟨y, e4, l4, g4⟩ := ecritQueue_getD s.last a2 (by omega)
  obtain ⟨q, e5, l5, g5⟩ := queue_getD v m (by omega)
  obtain ⟨b, e6, l6, g6⟩ := ecrit_getD y (q.map (· / 2)) 0 (by rw [List.length_map]; omega)
  obtain ⟨c, e7, l7, g7⟩ := ecritQueue_getD b (List.replicate m 0) (by rw [List.length_replicate]; omega)
  obtain ⟨z, e8, l8, g8⟩ := queue_getD s.x2 (2 * m) (by omega)
  obtain ⟨x2, e9, l9, -⟩ := ecrit_getD s.x2 z Nz (by omega)
  rw [List.length_map] at g6
  rw [List.length_replicate] at g7
  have hlast : ∀ j, j < m → c.getD j 0 = v.getD (m + j) 0 / 2 ∧ c.getD (m + j) 0 = 0 := by
    intro j hj
    refine ⟨?_, ?_⟩
    · rw [g7 _ (by omega), if_neg (by omega), g6, if_pos (by omega), getD_map _ _ _ (by omega), g5 _ (by omega)]
      congr 2
      omega
    · rw [g7 _ (by omega), if_pos (by omega), getD_zero]
  have hy : ∀ j, j < m → y.getD j 0 = s.last.getD j 0 ∧ y.getD (m + j) 0 = s.last.getD (m + j) 0 + v.getD j 0 / 2 := by
    intro j hj
    refine ⟨?_, ?_⟩
    · rw [g4 _ (by omega), if_neg (by omega)]
    · rw [g4 _ (by omega), if_pos (by omega), g3, g1 _ (by omega), getD_map _ _ _ (by omega), g2 _ (by omega)]
      rw [show m + j - (s.last.length - a2.length) = j by omega, show s.last.length - m + j = m + j by omega, Nat.zero_add]
  have hzz : ∀ j, j < 2 * m → z.getD j 0 = s.x2.getD (Nz + j) 0 := by
    intro j hj
    rw [g8 _ hj]
    congr 1
    omega
  by_cases hv : s.vue = true
  · refine ⟨{ s with x2 := x2, last := c, cnt := s.cnt + m }, y, z, ?_, ⟨hs.ne, hs.n, hs.nz, hs.fen, hs.lp, by simp only; omega, hs.plan⟩, rfl, rfl, rfl, rfl, l9.trans h2,
      fun hf => absurd (hv.symm.trans hf) (by simp), l8, hzz, by omega, hy, hlast⟩
    unfold OlaFen.sort1
    simp only [show 2 * m / 2 = m by omega, hs.ne, ev, e1, e2, e3, e4, e5, e6, e7, e8, Option.bind_eq_bind, Option.bind_some, OlaFen.poseSvg, hv, if_true, hs.nz, e9, Option.map_some]
  · have hv : s.vue = false := by simpa using hv
    refine ⟨{ s with svgPropre := z, last := c, cnt := s.cnt + m }, y, z, ?_, ⟨hs.ne, hs.n, hs.nz, hs.fen, hs.lp, by simp only; omega, hs.plan⟩, rfl, rfl, rfl, rfl, h2,
      fun _ => ⟨rfl, rfl⟩, l8, hzz, by omega, hy, hlast⟩
    unfold OlaFen.sort1
    simp only [show 2 * m / 2 = m by omega, hs.ne, ev, e1, e2, e3, e4, e5, e6, e7, e8, Option.bind_eq_bind, Option.bind_some, OlaFen.poseSvg, hv, Bool.false_eq_true, if_false]

theorem sort2_some (m N Nz : ℕ) (w : List ℂ) (s : OlaFen ℂ) (hs : Dims m N Nz w s) (v : List ℂ) (ev : s.svg = some v) (lv : v.length = 2 * m) :
    ∃ l, s.sort2 = some { s with last := l, vue := true, cnt := s.cnt + m } ∧ l.length = 2 * m ∧ ∀ j, j < 2 * m → l.getD j 0 = s.last.getD j 0 + v.getD j 0 / 2 := by
  have ll := hs.ll
  have hm : s.Ne / 2 = m := by rw [hs.ne]; omega
  obtain ⟨l, e, ll2, g⟩ := somme_some s.last (v.map (· / 2)) (by rw [List.length_map]; omega)
  refine ⟨l, ?_, by omega, fun j hj => ?_⟩
  · unfold OlaFen.sort2
    simp only [hm, ev, e, Option.bind_eq_bind, Option.bind_some]
  · rw [g, getD_map _ _ _ (by omega)]

theorem trameEn_get (w : List ℂ) (nz : ℕ) (x : List ℂ) (p : ℤ) : (trameEn w nz x p).length = nz + w.length ∧
    ∀ i, i < nz + w.length → (trameEn w nz x p).getD i 0 = if nz ≤ i then ech x (p + (i - nz : ℕ)) * w.getD (i - nz) 0 else 0 := by
  refine ⟨by simp [trameEn], fun i hi => ?_⟩
  unfold trameEn
  by_cases h : nz ≤ i
  · rw [if_pos h, List.getD_append_right _ _ _ _ (by simpa using h), List.length_replicate, List.getD_eq_getElem _ _ (by simp; omega)]
    simp
  · rw [if_neg h, List.getD_append _ _ _ _ (by simpa using h), getD_zero]

theorem trame1_some (m N Nz : ℕ) (w : List ℂ) (hw : w.length = 2 * m) (hN : N = Nz + 2 * m) (s : OlaFen ℂ) (hs : Dims m N Nz w s) (hist x : List ℂ) (hx : x.length = 2 * m)
    (hz : ∀ i, i < Nz → s.padded.getD i 0 = 0) (hg : ∀ i, i < m → s.padded.getD (Nz + i) 0 = ech hist ((hist.length : ℤ) - m + i)) :
    s.trame1 x = some { s with padded := trameEn w Nz (hist ++ x) ((hist.length : ℤ) - m) } := by
  have lp := hs.lp
  obtain ⟨h, e1, l1, g1⟩ := segment_getD x 0 m (by omega)
  obtain ⟨p, e2, l2, g2⟩ := ecritQueue_getD s.padded h (by omega)
  obtain ⟨q, e3, l3, g3⟩ := queue_getD p (2 * m) (by omega)
  obtain ⟨q2, e4, l4, g4⟩ := produit_some q w (by omega)
  obtain ⟨p2, e5, l5, g5⟩ := ecritQueue_getD p q2 (by omega)
  obtain ⟨lt, gt⟩ := trameEn_get w Nz (hist ++ x) ((hist.length : ℤ) - m)
  have : p2 = trameEn w Nz (hist ++ x) ((hist.length : ℤ) - m) := by
    refine list_ext_getD _ _ (by omega) fun i hi => ?_
    rw [gt i (by omega), g5 i (by omega)]
    by_cases h1 : Nz ≤ i
    · rw [if_pos h1, if_pos (by omega), g4, g3 _ (by omega), show i - (p.length - q2.length) = i - Nz by omega,
        show p.length - 2 * m + (i - Nz) = i by omega, g2 _ (by omega)]
      congr 1
      rw [ech_append]
      by_cases h3 : i - Nz < m
      · rw [if_neg (by omega), show s.padded.getD i 0 = s.padded.getD (Nz + (i - Nz)) 0 by congr 1; omega, hg _ h3]
        have : ech x ((hist.length : ℤ) - m + (i - Nz : ℕ) - hist.length) = 0 := by unfold ech; rw [if_neg (by omega)]
        rw [this, add_zero]
      · rw [if_pos (by omega), g1 _ (by omega), Nat.zero_add, ech_fin hist _ (by omega), zero_add]
        unfold ech
        rw [if_pos (by omega)]
        exact congrArg (fun z => x.getD z 0) (by omega)
    · rw [if_neg h1, if_neg (by omega), g2 _ (by omega), if_neg (by omega), hz _ (by omega)]
  unfold OlaFen.trame1
  rw [hs.ne, show 2 * m / 2 = m by omega, hs.fen]
  simp only [e1, e2, e3, e4, e5, Option.bind_eq_bind, Option.bind_some, this]

theorem trame2_some (m N Nz : ℕ) (w : List ℂ) (hw : w.length = 2 * m) (hN : N = Nz + 2 * m) (s : OlaFen ℂ) (hs : Dims m N Nz w s) (hist x : List ℂ) (hx : x.length = 2 * m)
    (hz : ∀ i, i < Nz → s.padded.getD i 0 = 0) :
    s.trame2 x = some { s with padded := trameEn w Nz (hist ++ x) hist.length } := by
  have lp := hs.lp
  obtain ⟨q, e1, l1, g1⟩ := produit_some x w (by omega)
  obtain ⟨p, e2, l2, g2⟩ := ecritQueue_getD s.padded q (by omega)
  obtain ⟨lt, gt⟩ := trameEn_get w Nz (hist ++ x) hist.length
  have : p = trameEn w Nz (hist ++ x) hist.length := by
    refine list_ext_getD _ _ (by omega) fun i hi => ?_
    rw [gt i (by omega), g2 i (by omega)]
    by_cases h1 : Nz ≤ i
    · rw [if_pos h1, if_pos (by omega), g1, show i - (s.padded.length - q.length) = i - Nz by omega]
      congr 1
      rw [ech_append, ech_fin hist _ (by omega), zero_add]
      unfold ech
      rw [if_pos (by omega)]
      congr 1
      omega
    · rw [if_neg h1, if_neg (by omega), hz _ (by omega)]
  unfold OlaFen.trame2
  rw [hs.fen]
  simp only [e1, e2, Option.bind_eq_bind, Option.bind_some, this]

theorem garde_some (m N Nz : ℕ) (w : List ℂ) (hN : N = Nz + 2 * m) (s : OlaFen ℂ) (hs : Dims m N Nz w s) (hist x : List ℂ) (hx : x.length = 2 * m) (hz : ∀ i, i < Nz → s.padded.getD i 0 = 0) :
    ∃ p, s.garde x = some { s with padded := p } ∧ p.length = N ∧ (∀ i, i < Nz → p.getD i 0 = 0) ∧ ∀ i, i < m → p.getD (Nz + i) 0 = ech (hist ++ x) (((hist ++ x).length : ℤ) - m + i) := by
  have lp := hs.lp
  obtain ⟨q, e1, l1, g1⟩ := queue_getD x m (by omega)
  obtain ⟨p, e2, l2, g2⟩ := ecrit_getD s.padded q Nz (by omega)
  refine ⟨p, ?_, by omega, fun i hi => ?_, fun i hi => ?_⟩
  · unfold OlaFen.garde
    rw [hs.ne, show 2 * m / 2 = m by omega, hs.nz]
    simp only [e1, e2, Option.bind_eq_bind, Option.bind_some]
  · rw [g2, if_neg (by omega), hz i hi]
  · rw [g2, if_pos (by omega), g1 _ (by omega), List.length_append, ech_append, ech_fin hist _ (by push_cast; omega), zero_add]
    unfold ech
    rw [if_pos (by push_cast; omega)]
    congr 1
    push_cast
    omega

/-- State between two blocks, `hist` being the samples received. -/
structure InvFen (m N Nz : ℕ) (w : List ℂ) (s : OlaFen ℂ) (hist : List ℂ) : Prop where
  dims : Dims m N Nz w s
  zp : ∀ i, i < Nz → s.padded.getD i 0 = 0
  gp : ∀ i, i < m → s.padded.getD (Nz + i) 0 = ech hist ((hist.length : ℤ) - m + i)

/-- The processed frame at position `p` of `x`. -/
noncomputable def traitee (t : List ℂ → Option (List ℂ)) (w : List ℂ) (nz : ℕ) (x : List ℂ) (p : ℤ) : List ℂ := sortieTrame t (trameEn w nz x p)

/-- The two halves of a step, up to the output: common part of the proofs. -/
theorem bloc_vue (m N Nz : ℕ) (w : List ℂ) (t : List ℂ → Option (List ℂ)) (hm : 0 < m) (hw : w.length = 2 * m) (hN : N = Nz + 2 * m) (hz : Nz ≤ 2 * m) (hN2 : N ≤ 2 ^ 29) (ht : Rappel N t)
    (s : OlaFen ℂ) (hist x : List ℂ) (hs : InvFen m N Nz w s hist) (hx : x.length = 2 * m) (hv : s.vue = true) (hc : 0 ≤ s.cnt) :
    ∃ s' y X1 X2, s.stepInterne trigoC t x = some (s', y) ∧ InvFen m N Nz w s' (hist ++ x) ∧ s'.vue = true ∧ 0 ≤ s'.cnt ∧ s'.vus = s.vus ++ [X1, X2] ∧
      fft trigoC (trameEn w Nz (hist ++ x) ((hist.length : ℤ) - m)) = some X1 ∧ fft trigoC (trameEn w Nz (hist ++ x) hist.length) = some X2 ∧ y.length = 2 * m ∧
      (∀ j, j < m → y.getD j 0 = s.last.getD j 0 ∧ y.getD (m + j) 0 = s.last.getD (m + j) 0 + replie (2 * m) (traitee t w Nz (hist ++ x) ((hist.length : ℤ) - m)) j / 2) ∧
      (∀ j, j < m → s'.last.getD j 0 = (replie (2 * m) (traitee t w Nz (hist ++ x) ((hist.length : ℤ) - m)) (m + j) + replie (2 * m) (traitee t w Nz (hist ++ x) hist.length) j) / 2 ∧
        s'.last.getD (m + j) 0 = replie (2 * m) (traitee t w Nz (hist ++ x) hist.length) (m + j) / 2) := by
  have d := hs.dims
  obtain ⟨lt1, gt1⟩ := trameEn_get w Nz (hist ++ x) ((hist.length : ℤ) - m)
  obtain ⟨lt2, gt2⟩ := trameEn_get w Nz (hist ++ x) hist.length
  set p1 := trameEn w Nz (hist ++ x) ((hist.length : ℤ) - m) with hp1
  set p2 := trameEn w Nz (hist ++ x) hist.length with hp2
  have e1 := trame1_some m N Nz w hw hN s d hist x hx hs.zp hs.gp
  rw [← hp1] at e1
  have d1 : Dims m N Nz w { s with padded := p1 } := ⟨d.ne, d.n, d.nz, d.fen, by simp only; omega, d.ll, d.plan⟩
  obtain ⟨q1, X1, b1, f1, lX1, lz1, e2⟩ := transforme_some t N (by omega) hN2 ht _ d1.n d1.lp d1.plan
  have d2 : Dims m N Nz w { s with padded := p1, plan := q1, x2 := sortieTrame t p1, vus := s.vus ++ [X1] } := ⟨d.ne, d.n, d.nz, d.fen, by simp only; omega, d.ll, b1⟩
  obtain ⟨x2a, e3, l3, g3⟩ := ajoute_vue m N Nz w hN hz _ d2 hv lz1
  obtain ⟨va, eva, lva, gva⟩ := segment_getD x2a Nz (2 * m) (by omega)
  have d3 : Dims m N Nz w { s with padded := p1, plan := q1, x2 := x2a, vus := s.vus ++ [X1] } := ⟨d.ne, d.n, d.nz, d.fen, by simp only; omega, d.ll, b1⟩
  obtain ⟨s4, y, z, e4, d4, pp4, pv4, pc4, pu4, lx4, -, -, -, ly, gy, gl⟩ := sort1_some m N Nz w hN _ d3 l3 va (by unfold OlaFen.svg; simp only [hv, if_true, d.nz, d.ne]; exact eva) lva
  simp only [hc, if_true] at e4
  have e5 := trame2_some m N Nz w hw hN s4 d4 hist x hx (fun i hi => by rw [pp4]; show p1.getD i 0 = 0; rw [gt1 i (by omega), if_neg (by omega)])
  rw [← hp2] at e5
  have d5 : Dims m N Nz w { s4 with padded := p2 } := ⟨d4.ne, d4.n, d4.nz, d4.fen, by simp only; omega, d4.ll, d4.plan⟩
  obtain ⟨q2, X2, b2, f2, lX2, lz2, e6⟩ := transforme_some t N (by omega) hN2 ht _ d5.n d5.lp d5.plan
  have d6 : Dims m N Nz w { s4 with padded := p2, plan := q2, x2 := sortieTrame t p2, vus := s4.vus ++ [X2] } := ⟨d4.ne, d4.n, d4.nz, d4.fen, by simp only; omega, d4.ll, b2⟩
  obtain ⟨x2b, e7, l7, g7⟩ := ajoute_vue m N Nz w hN hz _ d6 (pv4.trans hv) lz2
  obtain ⟨vb, evb, lvb, gvb⟩ := segment_getD x2b Nz (2 * m) (by omega)
  have d7 : Dims m N Nz w { s4 with padded := p2, plan := q2, x2 := x2b, vus := s4.vus ++ [X2] } := ⟨d4.ne, d4.n, d4.nz, d4.fen, by simp only; omega, d4.ll, b2⟩
  have hv4 : s4.vue = true := pv4.trans hv
  obtain ⟨l, e8, ll8, g8⟩ := sort2_some m N Nz w _ d7 vb (by unfold OlaFen.svg; simp only [hv4, if_true, d4.nz, d4.ne]; exact evb) lvb
  have d8 : Dims m N Nz w { s4 with padded := p2, plan := q2, x2 := x2b, vus := s4.vus ++ [X2], last := l, vue := true, cnt := s4.cnt + m } := ⟨d4.ne, d4.n, d4.nz, d4.fen, by simp only; omega, ll8, b2⟩
  obtain ⟨p, e9, lp9, zp9, gp9⟩ := garde_some m N Nz w hN _ d8 hist x hx (fun i hi => by show p2.getD i 0 = 0; rw [gt2 i (by omega), if_neg (by omega)])
  refine ⟨{ s4 with padded := p, plan := q2, x2 := x2b, vus := s4.vus ++ [X2], last := l, vue := true, cnt := s4.cnt + m }, y, X1, X2, ?_, ⟨⟨d4.ne, d4.n, d4.nz, d4.fen, lp9, ll8, b2⟩, zp9, gp9⟩, rfl, by simp only [pc4]; omega, by simp only [pu4]; simp, f1, f2, ly, ?_, ?_⟩
  · unfold OlaFen.stepInterne
    rw [if_neg (by rw [d.ne]; simpa using hx)]
    simp only [e1, e2, e3, e4, e5, e6, e7, e8, e9, Option.bind_eq_bind, Option.bind_some]
  · intro j hj
    obtain ⟨a, b⟩ := gy j hj
    refine ⟨a, ?_⟩
    rw [b, gva _ (by omega), g3 _ (by omega)]
    rfl
  · intro j hj
    obtain ⟨a, b⟩ := gl j hj
    refine ⟨?_, ?_⟩
    · show l.getD j 0 = _
      rw [g8 _ (by omega), gvb _ (by omega), g7 _ (by omega)]
      simp only
      rw [a, gva _ (by omega), g3 _ (by omega)]
      simp only [traitee]
      ring
    · show l.getD (m + j) 0 = _
      rw [g8 _ (by omega), gvb _ (by omega), g7 _ (by omega)]
      simp only
      rw [b, zero_add]
      rfl

/-- The first block: the results of its two frames are combined at the same place, and nothing is output. -/
theorem bloc_premier (m N Nz : ℕ) (w : List ℂ) (t : List ℂ → Option (List ℂ)) (hm : 0 < m) (hw : w.length = 2 * m) (hN : N = Nz + 2 * m) (hz : Nz ≤ 2 * m) (hN2 : N ≤ 2 ^ 29) (ht : Rappel N t)
    (s : OlaFen ℂ) (x : List ℂ) (hs : InvFen m N Nz w s []) (hx : x.length = 2 * m) (hv : s.vue = false) (hc : s.cnt = -(m : ℤ)) (hg : s.svgPropre = List.replicate (2 * m) 0) :
    ∃ s' X1 X2, s.stepInterne trigoC t x = some (s', []) ∧ InvFen m N Nz w s' x ∧ s'.vue = true ∧ 0 ≤ s'.cnt ∧ s'.vus = s.vus ++ [X1, X2] ∧
      fft trigoC (trameEn w Nz x (-(m : ℤ))) = some X1 ∧ fft trigoC (trameEn w Nz x 0) = some X2 ∧
      (∀ j, j < m → s'.last.getD j 0 = (tete (2 * m) (traitee t w Nz x (-(m : ℤ))) (m + j) + corps (2 * m) (traitee t w Nz x (-(m : ℤ))) j + tete (2 * m) (traitee t w Nz x 0) j) / 2 ∧
        s'.last.getD (m + j) 0 = (corps (2 * m) (traitee t w Nz x (-(m : ℤ))) (m + j) + tete (2 * m) (traitee t w Nz x 0) (m + j)) / 2) := by
  have d := hs.dims
  have hgl : s.svgPropre.length = 2 * m := by rw [hg, List.length_replicate]
  obtain ⟨lt1, gt1⟩ := trameEn_get w Nz x (-(m : ℤ))
  obtain ⟨lt2, gt2⟩ := trameEn_get w Nz x 0
  have e1 := trame1_some m N Nz w hw hN s d [] x hx hs.zp hs.gp
  simp only [List.nil_append, List.length_nil, Nat.cast_zero, zero_sub] at e1
  set p1 := trameEn w Nz x (-(m : ℤ)) with hp1
  set p2 := trameEn w Nz x 0 with hp2
  have d1 : Dims m N Nz w { s with padded := p1 } := ⟨d.ne, d.n, d.nz, d.fen, by simp only; omega, d.ll, d.plan⟩
  obtain ⟨q1, X1, b1, f1, lX1, lz1, e2⟩ := transforme_some t N (by omega) hN2 ht _ d1.n d1.lp d1.plan
  have d2 : Dims m N Nz w { s with padded := p1, plan := q1, x2 := sortieTrame t p1, vus := s.vus ++ [X1] } := ⟨d.ne, d.n, d.nz, d.fen, by simp only; omega, d.ll, b1⟩
  obtain ⟨va, e3, lva, gva⟩ := ajoute_propre m N Nz w hN hz _ d2 hv lz1 hgl
  have d3 : Dims m N Nz w { s with padded := p1, plan := q1, x2 := sortieTrame t p1, vus := s.vus ++ [X1], svgPropre := va } := ⟨d.ne, d.n, d.nz, d.fen, by simp only; omega, d.ll, b1⟩
  obtain ⟨s4, y, z, e4, d4, pp4, pv4, pc4, pu4, lx4, px4, lz, gz, ly, gy, gl⟩ := sort1_some m N Nz w hN _ d3 lz1 va (by unfold OlaFen.svg; simp only [hv, Bool.false_eq_true, if_false]) lva
  obtain ⟨px4, ps4⟩ := px4 hv
  have hcn : ¬ 0 ≤ s.cnt := by omega
  simp only [hcn, if_false] at e4
  have e5 := trame2_some m N Nz w hw hN s4 d4 [] x hx (fun i hi => by rw [pp4]; show p1.getD i 0 = 0; rw [gt1 i (by omega), if_neg (by omega)])
  simp only [List.nil_append, List.length_nil, Nat.cast_zero] at e5
  rw [← hp2] at e5
  have d5 : Dims m N Nz w { s4 with padded := p2 } := ⟨d4.ne, d4.n, d4.nz, d4.fen, by simp only; omega, d4.ll, d4.plan⟩
  obtain ⟨q2, X2, b2, f2, lX2, lz2, e6⟩ := transforme_some t N (by omega) hN2 ht _ d5.n d5.lp d5.plan
  have d6 : Dims m N Nz w { s4 with padded := p2, plan := q2, x2 := sortieTrame t p2, vus := s4.vus ++ [X2] } := ⟨d4.ne, d4.n, d4.nz, d4.fen, by simp only; omega, d4.ll, b2⟩
  have hv4 : s4.vue = false := pv4.trans hv
  obtain ⟨vb, e7, lvb, gvb⟩ := ajoute_propre m N Nz w hN hz _ d6 hv4 lz2 (by simp only [ps4]; exact lz)
  have d7 : Dims m N Nz w { s4 with padded := p2, plan := q2, x2 := sortieTrame t p2, vus := s4.vus ++ [X2], svgPropre := vb } := ⟨d4.ne, d4.n, d4.nz, d4.fen, by simp only; omega, d4.ll, b2⟩
  obtain ⟨l, e8, ll8, g8⟩ := sort2_some m N Nz w _ d7 vb (by unfold OlaFen.svg; simp only [hv4, Bool.false_eq_true, if_false]) lvb
  have d8 : Dims m N Nz w { s4 with padded := p2, plan := q2, x2 := sortieTrame t p2, vus := s4.vus ++ [X2], svgPropre := vb, last := l, vue := true, cnt := s4.cnt + m } := ⟨d4.ne, d4.n, d4.nz, d4.fen, by simp only; omega, ll8, b2⟩
  obtain ⟨p, e9, lp9, zp9, gp9⟩ := garde_some m N Nz w hN _ d8 [] x hx (fun i hi => by show p2.getD i 0 = 0; rw [gt2 i (by omega), if_neg (by omega)])
  simp only [List.nil_append] at gp9
  refine ⟨{ s4 with padded := p, plan := q2, x2 := sortieTrame t p2, vus := s4.vus ++ [X2], svgPropre := vb, last := l, vue := true, cnt := s4.cnt + m }, X1, X2, ?_,
    ⟨⟨d4.ne, d4.n, d4.nz, d4.fen, lp9, ll8, b2⟩, zp9, gp9⟩, rfl, by simp only [pc4]; omega, by simp only [pu4]; simp, f1, f2, ?_⟩
  · unfold OlaFen.stepInterne
    rw [if_neg (by rw [d.ne]; simpa using hx)]
    simp only [e1, e2, e3, e4, e5, e6, e7, e8, e9, Option.bind_eq_bind, Option.bind_some]
  · intro j hj
    obtain ⟨a, b⟩ := gl j hj
    have cz : ∀ k, k < 2 * m → z.getD k 0 = corps (2 * m) (sortieTrame t p1) k := by
      intro k hk
      rw [gz k hk]
      unfold corps
      simp only at lz1 ⊢
      rw [lz1, show N - 2 * m = Nz by omega]
    refine ⟨?_, ?_⟩
    · show l.getD j 0 = _
      rw [g8 _ (by omega), gvb _ (by omega)]
      simp only
      rw [a, gva _ (by omega), ps4, cz _ (by omega)]
      simp only [hg, getD_zero, zero_add, traitee]
      ring
    · show l.getD (m + j) 0 = _
      rw [g8 _ (by omega), gvb _ (by omega)]
      simp only
      rw [b, ps4, cz _ (by omega)]
      simp only [zero_add, traitee]
      rfl

/-! ## The stream -/

/-- Specification of the output at time `n`: half the sum of the processed frames that cover `n`, at positions multiple of `m` (the frames
have `2 * m` samples). -/
noncomputable def olaSpec (t : List ℂ → Option (List ℂ)) (w : List ℂ) (nz m : ℕ) (x : List ℂ) (n : ℕ) : ℂ :=
  (replie (2 * m) (traitee t w nz x (((n / m : ℕ) : ℤ) * m)) (n % m) + replie (2 * m) (traitee t w nz x (((n / m : ℕ) : ℤ) * m - m)) (m + n % m)) / 2

theorem trameEn_debut (w : List ℂ) (nz : ℕ) (a b : List ℂ) (p : ℤ) (h : p + w.length ≤ a.length) : trameEn w nz (a ++ b) p = trameEn w nz a p := by
  unfold trameEn
  congr 1
  refine List.map_congr_left fun i hi => ?_
  have := List.mem_range.1 hi
  rw [ech_append]
  have : ech b (p + i - a.length) = 0 := by unfold ech; rw [if_neg (by omega)]
  rw [this, add_zero]

theorem olaSpec_debut (t : List ℂ → Option (List ℂ)) (w : List ℂ) (nz m : ℕ) (hw : w.length = 2 * m) (a b : List ℂ) (n : ℕ) (h : n / m * m + 2 * m ≤ a.length) :
    olaSpec t w nz m (a ++ b) n = olaSpec t w nz m a n := by
  have h' : ((n / m : ℕ) : ℤ) * m + 2 * m ≤ a.length := by exact_mod_cast h
  unfold olaSpec traitee
  rw [trameEn_debut w nz a b _ (by rw [hw]; push_cast; exact h'), trameEn_debut w nz a b _ (by rw [hw]; push_cast; push_cast at h'; linarith [Int.natCast_nonneg m])]

/-- The pending output is the one of the specification. -/
structure Regulier (m : ℕ) (w : List ℂ) (nz : ℕ) (t : List ℂ → Option (List ℂ)) (s : OlaFen ℂ) (hist : List ℂ) (k : ℕ) : Prop where
  long : hist.length = (2 * k + 2) * m
  debut : ∀ j, j < m → s.last.getD j 0 = olaSpec t w nz m hist (2 * k * m + j)
  fin : ∀ j, j < m → s.last.getD (m + j) 0 = replie (2 * m) (traitee t w nz hist ((2 * k * m : ℕ) : ℤ)) (m + j) / 2

theorem spec_pos (t : List ℂ → Option (List ℂ)) (w : List ℂ) (nz m : ℕ) (x : List ℂ) (q j : ℕ) (hj : j < m) :
    olaSpec t w nz m x (q * m + j) = (replie (2 * m) (traitee t w nz x ((q * m : ℕ) : ℤ)) j + replie (2 * m) (traitee t w nz x (((q * m : ℕ) : ℤ) - m)) (m + j)) / 2 := by
  unfold olaSpec
  have h1 : (q * m + j) / m = q := by rw [Nat.mul_comm, Nat.mul_add_div (by omega), Nat.div_eq_of_lt hj, add_zero]
  have h2 : (q * m + j) % m = j := by rw [Nat.mul_comm, Nat.mul_add_mod, Nat.mod_eq_of_lt hj]
  rw [h1, h2]
  push_cast
  rfl

/-- After any block that is not the first one, the pending output is regular. -/
theorem regulier_suivant (m : ℕ) (w : List ℂ) (nz : ℕ) (t : List ℂ → Option (List ℂ)) (s' : OlaFen ℂ) (hist x : List ℂ) (k : ℕ) (hh : hist.length = (2 * k) * m) (hx : x.length = 2 * m)
    (hl : ∀ j, j < m → s'.last.getD j 0 = (replie (2 * m) (traitee t w nz (hist ++ x) ((hist.length : ℤ) - m)) (m + j) + replie (2 * m) (traitee t w nz (hist ++ x) hist.length) j) / 2 ∧
        s'.last.getD (m + j) 0 = replie (2 * m) (traitee t w nz (hist ++ x) hist.length) (m + j) / 2) : Regulier m w nz t s' (hist ++ x) k := by
  refine ⟨by rw [List.length_append, hh, hx]; ring, fun j hj => ?_, fun j hj => ?_⟩
  · rw [(hl j hj).1, spec_pos _ _ _ _ _ _ _ hj, hh, add_comm]
  · rw [(hl j hj).2, hh]

theorem blocs_reguliers (m N Nz : ℕ) (w : List ℂ) (t : List ℂ → Option (List ℂ)) (hm : 0 < m) (hw : w.length = 2 * m) (hN : N = Nz + 2 * m) (hz : Nz ≤ 2 * m) (hN2 : N ≤ 2 ^ 29) (ht : Rappel N t)
    (bs : List (List ℂ)) : ∀ (s : OlaFen ℂ) (hist : List ℂ) (k : ℕ), (∀ b ∈ bs, b.length = 2 * m) → InvFen m N Nz w s hist → s.vue = true → 0 ≤ s.cnt → hist.length = (2 * k + 2) * m →
    ∃ s' ys V, s.blocs trigoC t bs = some (s', ys) ∧ ys.flatten.length = bs.flatten.length ∧
      (Regulier m w Nz t s hist k → ∀ i, i < ys.flatten.length → ys.flatten.getD i 0 = olaSpec t w Nz m (hist ++ bs.flatten) (2 * k * m + i)) ∧
      (∀ b r, bs = b :: r → (∀ j, j < m → ys.flatten.getD j 0 = s.last.getD j 0 ∧
          ys.flatten.getD (m + j) 0 = s.last.getD (m + j) 0 + replie (2 * m) (traitee t w Nz (hist ++ bs.flatten) ((hist.length : ℤ) - m)) j / 2) ∧
        ∀ i, 2 * m ≤ i → i < ys.flatten.length → ys.flatten.getD i 0 = olaSpec t w Nz m (hist ++ bs.flatten) (2 * k * m + i)) ∧
      s'.vus = s.vus ++ V ∧ V.length = 2 * bs.length ∧ ∀ r, r < V.length → fft trigoC (trameEn w Nz (hist ++ bs.flatten) ((hist.length : ℤ) + r * m - m)) = V[r]? := by
  induction bs with
  | nil =>
    intro s hist k _ _ _ _ _
    exact ⟨s, [], [], rfl, rfl, by simp, by simp, by simp, rfl, by simp⟩
  | cons b bs ih =>
    intro s hist k hb hs hv hc hh
    have lb := hb b List.mem_cons_self
    obtain ⟨s1, y, X1, X2, e1, i1, v1, c1, u1, f1, f2, ly, gy, gl⟩ := bloc_vue m N Nz w t hm hw hN hz hN2 ht s hist b hs lb hv hc
    have reg1 : Regulier m w Nz t s1 (hist ++ b) (k + 1) := regulier_suivant m w Nz t s1 hist b (k + 1) (by rw [hh]; ring) lb gl
    obtain ⟨s2, ys, V, e2, l2, r2, -, u2, lV, gV⟩ := ih s1 (hist ++ b) (k + 1) (fun b' h' => hb b' (List.mem_cons_of_mem _ h')) i1 v1 c1 reg1.long
    have r2 := r2 reg1
    have hfl : hist ++ (b :: bs).flatten = (hist ++ b) ++ bs.flatten := by rw [List.flatten_cons, List.append_assoc]
    have hh' : (hist.length : ℤ) = (2 * k + 2) * m := by rw [hh]; push_cast; ring
    have hhb : ((hist ++ b).length : ℤ) = (2 * k + 2) * m + 2 * m := by rw [List.length_append, hh, lb]; push_cast; ring
    have tr1 : trameEn w Nz (hist ++ (b :: bs).flatten) ((hist.length : ℤ) - m) = trameEn w Nz (hist ++ b) ((hist.length : ℤ) - m) := by
      rw [hfl, trameEn_debut w Nz (hist ++ b) _ _ (by rw [hw]; push_cast at hhb ⊢; linarith [Int.natCast_nonneg m])]
    have tr2 : trameEn w Nz (hist ++ (b :: bs).flatten) hist.length = trameEn w Nz (hist ++ b) hist.length := by
      rw [hfl, trameEn_debut w Nz (hist ++ b) _ _ (by rw [hw]; push_cast at hhb ⊢; linarith [Int.natCast_nonneg m])]
    have suite : ∀ i, 2 * m ≤ i → i < (y :: ys).flatten.length → (y :: ys).flatten.getD i 0 = olaSpec t w Nz m (hist ++ (b :: bs).flatten) (2 * k * m + i) := by
      intro i h1 h2
      rw [List.flatten_cons, List.length_append] at h2
      rw [List.flatten_cons, List.getD_append_right _ _ _ _ (by omega), r2 _ (by omega), hfl]
      congr 1
      rw [ly]
      have : 2 * (k + 1) * m = 2 * k * m + 2 * m := by ring
      omega
    have tete : ∀ j, j < m → (y :: ys).flatten.getD j 0 = s.last.getD j 0 ∧
          (y :: ys).flatten.getD (m + j) 0 = s.last.getD (m + j) 0 + replie (2 * m) (traitee t w Nz (hist ++ (b :: bs).flatten) ((hist.length : ℤ) - m)) j / 2 := by
      intro j hj
      rw [List.flatten_cons, List.getD_append _ _ _ _ (by omega), List.getD_append _ _ _ _ (by omega)]
      refine ⟨(gy j hj).1, ?_⟩
      rw [(gy j hj).2]
      unfold traitee
      rw [tr1]
    refine ⟨s2, y :: ys, X1 :: X2 :: V, by simp only [OlaFen.blocs, e1, e2], by simp [l2, ly, lb], ?_, ?_, ?_, ?_, ?_⟩
    · intro hr i hi
      by_cases h2 : 2 * m ≤ i
      · exact suite i h2 hi
      · by_cases h1 : i < m
        · rw [(tete i h1).1, hr.debut i h1]
          exact (olaSpec_debut t w Nz m hw hist _ _ (by
            rw [show (2 * k * m + i) / m = 2 * k by rw [Nat.mul_comm, Nat.mul_add_div (by omega), Nat.div_eq_of_lt h1, add_zero], hh]
            exact le_of_eq (by ring))).symm
        · obtain ⟨j, rfl⟩ := Nat.exists_eq_add_of_le (not_lt.1 h1)
          have hj : j < m := by omega
          rw [(tete j hj).2, hr.fin j hj, show 2 * k * m + (m + j) = (2 * k + 1) * m + j by ring, spec_pos _ _ _ _ _ _ _ hj]
          have q1 : (((2 * k + 1) * m : ℕ) : ℤ) = (hist.length : ℤ) - m := by rw [hh]; push_cast; ring
          have q2 : (((2 * k + 1) * m : ℕ) : ℤ) - m = ((2 * k * m : ℕ) : ℤ) := by push_cast; ring
          rw [q2, q1]
          unfold traitee
          rw [trameEn_debut w Nz hist _ ((2 * k * m : ℕ) : ℤ) (by rw [hw, hh']; push_cast; linarith)]
          ring
    · intro b' r' _
      exact ⟨tete, suite⟩
    · rw [u2, u1]
      simp
    · simp [lV]; ring
    · intro r hr
      rcases r with _ | _ | r
      · rw [Nat.cast_zero, zero_mul, add_zero, tr1, f1]; rfl
      · rw [show (hist.length : ℤ) + ((0 + 1 : ℕ) : ℤ) * m - m = hist.length by push_cast; ring, tr2, f2]; rfl
      · have := gV r (by simpa using hr)
        rw [hfl, show (hist.length : ℤ) + ((r + 1 + 1 : ℕ) : ℤ) * m - m = ((hist ++ b).length : ℤ) + r * m - m by rw [hhb, hh']; push_cast; ring, this]
        rfl

end Verif.Fourier
