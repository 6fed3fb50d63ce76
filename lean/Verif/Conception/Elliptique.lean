import Verif.Conception.RiiProps
import Mathlib.Analysis.SpecialFunctions.Trigonometric.Deriv
import Mathlib.Analysis.SpecialFunctions.Arsinh
import Mathlib.Data.List.GetD

/-!
# Elliptic prototype

Model of `elliptique_analogique` (core/src/filtrage/rii.cc:219-332) for the orders `n ≥ 2` (order 1 is in C92), in exact arithmetic. The conversions to `float` are not modelled. A division by
zero or the square root of a negative number (not a number) is `none`, and so is the loop on the moduli when it does not end within the given number of turns.
-/

namespace Verif.Elliptique

open Verif.FracRat Verif.Rii

/-! ## Model -/

/-- `e0`, core/src/filtrage/rii.cc:237-241. -/
noncomputable def e0 (rp : ℝ) : ℝ := Real.sqrt (2 * Real.exp (Real.log 10 / 20 * rp) * Real.sinh (Real.log 10 / 20 * rp))

/-- `g[0]`, core/src/filtrage/rii.cc:242 (`none`: division by zero or square root of a negative number). -/
noncomputable def g0 (rp rs : ℝ) : Option ℝ :=
  if 0 < Real.exp (2 * (Real.log 10 / 20 * rs)) - 1 then some (e0 rp / Real.sqrt (Real.exp (2 * (Real.log 10 / 20 * rs)) - 1)) else none

/-- The body of the loop on the moduli, core/src/filtrage/rii.cc:246. -/
noncomputable def landen (v : ℝ) : ℝ := (v / (1 + Real.sqrt (1 - v * v))) ^ 2

/-- The list `g` from the current value `v`, core/src/filtrage/rii.cc:243-248 (`none`: square root of a negative number, or more than `carburant` turns). -/
noncomputable def suite : ℕ → ℝ → Option (List ℝ)
  | 0, _ => none
  | c + 1, v => if 1e-150 < v then if 1 < v * v then none else (suite c (landen v)).map fun l : List ℝ => v :: l else some [v]

/-- The value of `ek(m1-1)` for an index, core/src/filtrage/rii.cc:259. -/
noncomputable def debut (n : ℕ) (gl : ℝ) (index : ℕ) : ℝ := 4 * (gl / 4) ^ ((2 : ℝ) ^ index / n)

/-- The loop on the index, core/src/filtrage/rii.cc:256-262: `r` turns are still allowed after this one. -/
noncomputable def amorce (n : ℕ) (gl : ℝ) : ℕ → ℕ → ℕ
  | 0, i => i
  | r + 1, i => if debut n gl i < 1e-14 then i else amorce n gl r (i + 1)

/-- One step of the computation of `ek`, core/src/filtrage/rii.cc:264. -/
noncomputable def monte (k : ℝ) : ℝ := 2 * Real.sqrt k / (1 + k)

/-- The vector `ek`, core/src/filtrage/rii.cc:254-264, from `m1` and the value of `ek(m1-1)`; the elements after are null. -/
noncomputable def ek (m1 : ℕ) (v : ℝ) (i : ℕ) : ℝ := if i < m1 then monte^[m1 - 1 - i] v else 0

/-- `e(m2-1)`, core/src/filtrage/rii.cc:268-275, 279. -/
noncomputable def eDernier (e : ℝ) (g : List ℝ) : ℝ := g.tail.foldl (fun e gi => (1 + gi) * e / 2 + Real.sqrt ((1 + gi) * e / 2 * ((1 + gi) * e / 2) + gi)) e

/-- `u2`, core/src/filtrage/rii.cc:280. -/
noncomputable def u2 (el : ℝ) (n : ℕ) : ℝ := Real.log ((1 + Real.sqrt (1 + el * el)) / el) / n

/-- `cosc`, core/src/filtrage/rii.cc:285-288. -/
noncomputable def cosc (x y : ℝ) : ℂ := ⟨Real.cos x * Real.cosh y, -Real.sin x * Real.sinh y⟩

/-- The start value of `c`, core/src/filtrage/rii.cc:293. -/
noncomputable def c0 (u1 u2 : ℝ) : ℂ := -Complex.I / cosc (-u1) u2

/-- The loops on `c` and `a`, core/src/filtrage/rii.cc:297-301, 313-314: `t` turns are left, and the next turn uses `k t` (`none`: division by zero). -/
noncomputable def descend {K : Type} [Field K] (k : ℕ → K) : ℕ → K → Option K
  | 0, c => some c
  | t + 1, c => @ite _ (c = 0) (Classical.dec _) none (descend k t ((c - k (t + 1) / c) / (1 + k (t + 1))))

/-- The loop on `d`, core/src/filtrage/rii.cc:297-301. -/
noncomputable def monteZero (k : ℕ → ℝ) : ℕ → ℝ → ℝ
  | 0, d => d
  | t + 1, d => monteZero k t ((d + k (t + 1) / d) / (1 + k (t + 1)))

/-- The final `1 / c` of a pole, core/src/filtrage/rii.cc:302 (`none`: division by zero). -/
noncomputable def inverse {K : Type} [Field K] (c : K) : Option K := @ite _ (c = 0) (Classical.dec _) none (some (1 / c))

/-- `u1`, core/src/filtrage/rii.cc:292. -/
noncomputable def u1 (n i : ℕ) : ℝ := (2 * i + 1) * Real.pi / (2 * n)

/-- The pole of the angle `u`, core/src/filtrage/rii.cc:293, 297-302. -/
noncomputable def pole (k : ℕ → ℝ) (m1 : ℕ) (u u2 : ℝ) : Option ℂ := (descend (fun i => (k i : ℂ)) (m1 - 1) (c0 u u2)).bind inverse

/-- The real pole of the odd orders, core/src/filtrage/rii.cc:310-316: the turn `j` uses `ek(j)`. -/
noncomputable def poleReel (k : ℕ → ℝ) (m1 : ℕ) (u2 : ℝ) : Option ℝ := ((descend (fun i => k (i + 1)) (m1 - 1) (1 / Real.sinh u2)).bind inverse).map fun p : ℝ => -p

/-- The pairs of poles, core/src/filtrage/rii.cc:290-303. -/
noncomputable def paires (k : ℕ → ℝ) (m1 n : ℕ) (u2 : ℝ) : List ℕ → Option (List ℂ)
  | [] => some []
  | i :: l => (pole k m1 (u1 n i) u2).bind fun p : ℂ => (paires k m1 n u2 l).map fun q : List ℂ => p :: (starRingEnd ℂ) p :: q

/-- All the poles, core/src/filtrage/rii.cc:290-316. -/
noncomputable def poles (k : ℕ → ℝ) (m1 n : ℕ) (u2 : ℝ) : Option (List ℂ) :=
  (paires k m1 n u2 (List.range (n / 2))).bind fun l : List ℂ => if n % 2 = 1 then (poleReel k m1 u2).map fun p : ℝ => l ++ [(p : ℂ)] else some l

/-- The zeros, core/src/filtrage/rii.cc:294-305. -/
noncomputable def zeros (k : ℕ → ℝ) (m1 n : ℕ) : List ℂ :=
  (List.range (n / 2)).flatMap fun i : ℕ => [⟨0, monteZero k (m1 - 1) (1 / Real.cos (u1 n i)) / k 0⟩, ⟨0, -(monteZero k (m1 - 1) (1 / Real.cos (u1 n i)) / k 0)⟩]

/-- The intermediate values: `m1`, `ek` and `u2`, core/src/filtrage/rii.cc:237-282. -/
noncomputable def parametres (n : ℕ) (rp rs : ℝ) (carburant : ℕ) : Option (ℕ × (ℕ → ℝ) × ℝ) :=
  (g0 rp rs).bind fun v : ℝ => (suite carburant v).map fun g : List ℝ =>
    let i := amorce n (g.getLastD 0) 10 0
    let m1 := g.length + i
    (m1, ek m1 (debut n (g.getLastD 0) i), u2 (eDernier (e0 rp) g) n)

/-- The rational function of given zeros and poles, core/src/filtrage/rii.cc:318-319, 327-330. -/
noncomputable def assemble (z p : List ℂ) : FRat ℂ :=
  ⟨{ Poly.deRacines z with mlt := ((((p.map fun r : ℂ => -r).prod / (z.map fun r : ℂ => -r).prod).re : ℝ) : ℂ) }, Poly.deRacines p⟩

/-- `elliptique_analogique(n, rp, rs)` for `n ≥ 2`, core/src/filtrage/rii.cc:219-332 (order 1, which is not a number for `rp > 0`, is in C92). -/
noncomputable def elliptique (n : ℕ) (rp rs : ℝ) (carburant : ℕ) : Option (FRat ℂ) :=
  if n < 2 then none else
  (parametres n rp rs carburant).bind fun q : ℕ × (ℕ → ℝ) × ℝ => (poles q.2.1 q.1 n q.2.2).map fun p : List ℂ => assemble (zeros q.2.1 q.1 n) p

/-! ## Moduli -/

theorem e0_carre (rp : ℝ) (h : 0 < rp) : 0 < e0 rp ∧ e0 rp ^ 2 = (10 : ℝ) ^ (rp / 10) - 1 := by
  have h10 : (0 : ℝ) < Real.log 10 := Real.log_pos (by norm_num)
  have hs : 0 < Real.sinh (Real.log 10 / 20 * rp) := Real.sinh_pos_iff.2 (by positivity)
  refine ⟨Real.sqrt_pos.2 (by positivity), ?_⟩
  rw [e0, Real.sq_sqrt (by positivity), Real.sinh_eq, Real.rpow_def_of_pos (by norm_num)]
  have h1 : Real.exp (Real.log 10 / 20 * rp) * Real.exp (-(Real.log 10 / 20 * rp)) = 1 := by rw [← Real.exp_add]; simp
  have h2 : Real.exp (Real.log 10 / 20 * rp) * Real.exp (Real.log 10 / 20 * rp) = Real.exp (Real.log 10 * (rp / 10)) := by
    rw [← Real.exp_add]; congr 1; ring
  linear_combination h2 - h1

theorem db_un (r : ℝ) (h : 0 < r) : 1 < (10 : ℝ) ^ (r / 10) := Real.one_lt_rpow (by norm_num) (by positivity)

theorem g0_valeur (rp rs : ℝ) (h0 : 0 < rp) (h1 : 0 < rs) :
    ∃ v, g0 rp rs = some v ∧ 0 < v ∧ v ^ 2 = ((10 : ℝ) ^ (rp / 10) - 1) / ((10 : ℝ) ^ (rs / 10) - 1) := by
  have e : Real.exp (2 * (Real.log 10 / 20 * rs)) = (10 : ℝ) ^ (rs / 10) := by
    rw [Real.rpow_def_of_pos (by norm_num)]; congr 1; ring
  have hs := db_un rs h1
  obtain ⟨hp, he⟩ := e0_carre rp h0
  rw [g0, e, if_pos (by linarith)]
  refine ⟨_, rfl, div_pos hp (Real.sqrt_pos.2 (by linarith)), ?_⟩
  rw [div_pow, he, Real.sq_sqrt (by linarith)]

theorem landen_borne (v : ℝ) (h0 : 0 < v) (h1 : v < 1) : 0 < landen v ∧ landen v ≤ v ^ 2 := by
  have hs := Real.sqrt_nonneg (1 - v * v)
  unfold landen
  refine ⟨by positivity, ?_⟩
  refine pow_le_pow_left₀ (by positivity) ?_ 2
  rw [div_le_iff₀ (by linarith)]
  nlinarith

theorem suite_fin : ∀ (t : ℕ) (v : ℝ), 0 < v → v < 1 → v ^ (t + 1) ≤ 1e-150 →
    ∃ l, suite (t + 1) v = some (v :: l) ∧ (∀ x ∈ v :: l, 0 < x ∧ x < 1) ∧ (v :: l).getLastD 0 ≤ 1e-150 ∧ (1e-150 < v → l ≠ [])
  | 0, v, h0, h1, h => by
    rw [zero_add, pow_one] at h
    refine ⟨[], by rw [suite, if_neg (by linarith)], by simp [h0, h1], by simpa using h, fun h' => absurd h' (by linarith)⟩
  | t + 1, v, h0, h1, h => by
    by_cases hv : 1e-150 < v
    · obtain ⟨l0, l1⟩ := landen_borne v h0 h1
      have hl : landen v ^ (t + 1) ≤ 1e-150 := by
        refine le_trans (pow_le_pow_left₀ l0.le l1 _) ?_
        rw [← pow_mul]
        exact le_trans (pow_le_pow_of_le_one h0.le h1.le (by omega)) h
      obtain ⟨l, e, hp, hd, -⟩ := suite_fin t (landen v) l0 (lt_of_le_of_lt l1 (by nlinarith)) hl
      refine ⟨landen v :: l, by rw [suite, if_pos hv, if_neg (by nlinarith), e, Option.map_some], ?_, ?_, by simp⟩
      · intro x hx
        rcases List.mem_cons.1 hx with rfl | hx
        · exact ⟨h0, h1⟩
        · exact hp x hx
      · rw [List.getLastD_cons] at hd ⊢
        rw [List.getLastD_cons]
        exact hd
    · refine ⟨[], by rw [suite, if_neg hv], by simp [h0, h1], by simpa using hv, fun h' => absurd h' hv⟩

theorem suite_un (c : ℕ) : suite c 1 = none := by
  induction c with
  | zero => rfl
  | succ c ih =>
    have : landen 1 = 1 := by simp [landen]
    rw [suite, if_pos (by norm_num), if_neg (by norm_num), this, ih, Option.map_none]

/-- **C197 (termination).** For positive ripple `rp` and attenuation `rs` (in dB), the computation of the moduli ends if and only if `rp < rs`. -/
theorem C197_fin (rp rs : ℝ) (h0 : 0 < rp) (h1 : 0 < rs) (n : ℕ) : (∃ c q, parametres n rp rs c = some q) ↔ rp < rs := by
  obtain ⟨v, e, hv, h2⟩ := g0_valeur rp rs h0 h1
  have hp := db_un rp h0
  have hs := db_un rs h1
  have hlt : rp < rs ↔ v < 1 := by
    have : v < 1 ↔ v ^ 2 < 1 := by rw [sq_lt_one_iff₀ hv.le]
    rw [this, h2, div_lt_one (by linarith), sub_lt_sub_iff_right, Real.rpow_lt_rpow_left_iff (by norm_num)]
    constructor <;> intro h <;> linarith
  rw [hlt]
  constructor
  · rintro ⟨c, q, hq⟩
    by_contra hge
    rw [parametres, e, Option.bind_some] at hq
    have : suite c v = none := by
      rcases (not_lt.1 hge).lt_or_eq with h | h
      · cases c with
        | zero => rfl
        | succ c =>
          have h150 : (1e-150 : ℝ) < 1 := by norm_num
          rw [suite, if_pos (by linarith), if_pos (by nlinarith)]
      · rw [← h, suite_un]
    rw [this, Option.map_none] at hq
    exact absurd hq (by simp)
  · intro h
    obtain ⟨t, ht⟩ := exists_pow_lt_of_lt_one (show (0 : ℝ) < 1e-150 by norm_num) h
    obtain ⟨l, el, -⟩ := suite_fin t v hv h (by
      refine le_trans (pow_le_pow_of_le_one hv.le h.le (Nat.le_succ t)) ht.le)
    refine ⟨t + 1, _, by rw [parametres, e, Option.bind_some, el, Option.map_some]⟩

/-- **C197, violated: equal ripple and attenuation.** With `rp = rs > 0` the function never returns. -/
theorem C197_infini_refute (n : ℕ) (r : ℝ) (h : 0 < r) (c : ℕ) : elliptique n r r c = none := by
  have : parametres n r r c = none := by
    cases hq : parametres n r r c with
    | none => rfl
    | some q => exact absurd ((C197_fin r r h h n).1 ⟨c, q, hq⟩) (lt_irrefl _)
  rw [elliptique, this]
  split <;> rfl

theorem monte_borne (k : ℝ) (h0 : 0 < k) (h1 : k < 1) : 0 < monte k ∧ monte k < 1 := by
  have hs := Real.sqrt_pos.2 h0
  have h2 := Real.sq_sqrt h0.le
  have h3 : Real.sqrt k < 1 := by rw [Real.sqrt_lt' one_pos]; simpa using h1
  unfold monte
  refine ⟨by positivity, ?_⟩
  rw [div_lt_one (by linarith)]
  nlinarith [sq_pos_of_pos (sub_pos.2 h3)]

theorem monte_iter (k : ℝ) (h0 : 0 < k) (h1 : k < 1) (i : ℕ) : 0 < monte^[i] k ∧ monte^[i] k < 1 := by
  induction i with
  | zero => exact ⟨h0, h1⟩
  | succ i ih => rw [Function.iterate_succ_apply']; exact monte_borne _ ih.1 ih.2

theorem amorce_fin (n : ℕ) (gl : ℝ) : ∀ r i, amorce n gl r i ≤ r + i ∧ (debut n gl (amorce n gl r i) < 1e-14 ∨ amorce n gl r i = r + i)
  | 0, i => by simp [amorce]
  | r + 1, i => by
    rw [amorce]
    split
    · rename_i h
      exact ⟨by omega, Or.inl h⟩
    · obtain ⟨a, b⟩ := amorce_fin n gl r (i + 1)
      exact ⟨by omega, b.imp_right (fun h => by omega)⟩

theorem debut_borne (n : ℕ) (hn : 0 < n) (hN : n < 256000) (gl : ℝ) (h0 : 0 < gl) (h1 : gl ≤ 1e-150) :
    0 < debut n gl (amorce n gl 10 0) ∧ debut n gl (amorce n gl 10 0) < 1 := by
  refine ⟨by unfold debut; positivity, ?_⟩
  rcases (amorce_fin n gl 10 0).2 with h | h
  · linarith [show (1e-14 : ℝ) < 1 by norm_num]
  · rw [h, debut]
    have hb : gl / 4 ≤ (1 / 4 : ℝ) ^ (250 : ℝ) := by
      have : ((1 / 4 : ℝ) ^ (250 : ℝ)) = (1 / 4 : ℝ) ^ (250 : ℕ) := by rw [← Real.rpow_natCast]; norm_num
      rw [this]
      refine le_trans (div_le_div_of_nonneg_right h1 (by norm_num)) ?_
      norm_num
    have hnr : (0 : ℝ) < n := by exact_mod_cast hn
    have he : (0 : ℝ) < (2 : ℝ) ^ (10 + 0) / n := by positivity
    have h2 := Real.rpow_le_rpow (by positivity) hb he.le
    rw [← Real.rpow_mul (by norm_num)] at h2
    have hlt : (1 / 4 : ℝ) ^ (250 * ((2 : ℝ) ^ (10 + 0) / n)) < 1 / 4 := by
      conv_rhs => rw [← Real.rpow_one (1 / 4 : ℝ)]
      refine Real.rpow_lt_rpow_of_exponent_gt (by norm_num) (by norm_num) ?_
      rw [← mul_div_assoc, lt_div_iff₀ hnr]
      have : (n : ℝ) < 256000 := by exact_mod_cast hN
      norm_num
      linarith
    linarith

theorem eDernier_pos (e : ℝ) (g : List ℝ) (he : 0 < e) (hg : ∀ x ∈ g, 0 < x) : 0 < eDernier e g := by
  have : ∀ (l : List ℝ) (e : ℝ), 0 < e → (∀ x ∈ l, 0 < x) →
      0 < l.foldl (fun e gi => (1 + gi) * e / 2 + Real.sqrt ((1 + gi) * e / 2 * ((1 + gi) * e / 2) + gi)) e := by
    intro l
    induction l with
    | nil => intro e he _; exact he
    | cons a l ih =>
      intro e he h
      have ha := h a (by simp)
      rw [List.foldl_cons]
      refine ih _ ?_ fun x hx => h x (by simp [hx])
      have := Real.sqrt_nonneg ((1 + a) * e / 2 * ((1 + a) * e / 2) + a)
      positivity
  exact this _ e he fun x hx => hg x (List.mem_of_mem_tail hx)

theorem u2_pos (el : ℝ) (h : 0 < el) (n : ℕ) (hn : 0 < n) : 0 < u2 el n := by
  have hnr : (0 : ℝ) < n := by exact_mod_cast hn
  refine div_pos (Real.log_pos ?_) hnr
  rw [lt_div_iff₀ h, one_mul]
  have : el < Real.sqrt (1 + el * el) := by
    rw [Real.lt_sqrt h.le]; nlinarith
  linarith

theorem dernier_mem : ∀ (l : List ℝ) (v : ℝ), l.getLastD v ∈ v :: l
  | [], v => by simp
  | a :: l, v => by rw [List.getLastD_cons]; exact List.mem_cons_of_mem _ (dernier_mem l a)

theorem parametres_forme (n : ℕ) (hn : 0 < n) (hN : n < 256000) (rp rs : ℝ) (h0 : 0 < rp) (h : rp < rs) :
    ∃ c m1 v u, parametres n rp rs c = some (m1, ek m1 v, u) ∧ 1 ≤ m1 ∧ 0 < v ∧ v < 1 ∧ 0 < u ∧ ((10 : ℝ) ^ (rs / 10) - 1 < ((10 : ℝ) ^ 150) ^ 2 * ((10 : ℝ) ^ (rp / 10) - 1) → 2 ≤ m1) := by
  have h1 : 0 < rs := h0.trans h
  obtain ⟨v, e, hv, h2⟩ := g0_valeur rp rs h0 h1
  have hp := db_un rp h0
  have hs := db_un rs h1
  have hlt : v < 1 := by
    rw [← sq_lt_one_iff₀ hv.le, h2, div_lt_one (by linarith), sub_lt_sub_iff_right, Real.rpow_lt_rpow_left_iff (by norm_num)]
    linarith
  obtain ⟨t, ht⟩ := exists_pow_lt_of_lt_one (show (0 : ℝ) < 1e-150 by norm_num) hlt
  obtain ⟨l, el, hg, hd, hl⟩ := suite_fin t v hv hlt (le_trans (pow_le_pow_of_le_one hv.le hlt.le (Nat.le_succ t)) ht.le)
  have hlast : 0 < (v :: l).getLastD 0 := by
    rw [List.getLastD_cons]
    have hm : l.getLastD v ∈ v :: l := dernier_mem l v
    exact (hg _ hm).1
  obtain ⟨d0, d1⟩ := debut_borne n hn hN _ hlast hd
  refine ⟨t + 1, _, _, _, by rw [parametres, e, Option.bind_some, el, Option.map_some], by rw [List.length_cons]; omega, d0, d1,
    u2_pos _ (eDernier_pos _ _ (e0_carre rp h0).1 fun x hx => (hg x hx).1) n hn, fun hd => ?_⟩
  have : l ≠ [] := hl (by
    refine lt_of_pow_lt_pow_left₀ 2 hv.le ?_
    rw [h2, lt_div_iff₀ (by linarith)]
    have hq : (1e-150 : ℝ) = ((10 : ℝ) ^ 150)⁻¹ := by norm_num
    have hX : (0 : ℝ) < (10 : ℝ) ^ 150 := by positivity
    rw [hq]
    generalize (10 : ℝ) ^ 150 = X at hd hX ⊢
    rw [inv_pow, inv_mul_lt_iff₀ (by positivity)]
    exact hd)
  cases l with
  | nil => exact absurd rfl this
  | cons a l => simp only [List.length_cons]; omega

/-! ## Poles and zeros -/

theorem ek_borne (m1 : ℕ) (v : ℝ) (h0 : 0 < v) (h1 : v < 1) (i : ℕ) (hi : i < m1) : 0 < ek m1 v i ∧ ek m1 v i < 1 := by
  rw [ek, if_pos hi]; exact monte_iter v h0 h1 _

theorem ek_nonneg (m1 : ℕ) (v : ℝ) (h0 : 0 < v) (h1 : v < 1) (i : ℕ) : 0 ≤ ek m1 v i := by
  by_cases hi : i < m1
  · exact (ek_borne m1 v h0 h1 i hi).1.le
  · rw [ek, if_neg hi]

theorem u1_intervalle (n i : ℕ) (hi : i < n / 2) : 0 < u1 n i ∧ u1 n i < Real.pi / 2 := by
  have hpi := Real.pi_pos
  have hn : (0 : ℝ) < n := by exact_mod_cast (by omega : 0 < n)
  have h : (2 * i + 1 : ℝ) < n := by exact_mod_cast (by omega : 2 * i + 1 < n)
  unfold u1
  refine ⟨by positivity, ?_⟩
  rw [div_lt_div_iff₀ (by positivity) (by norm_num)]
  nlinarith

theorem monteZero_borne (k : ℕ → ℝ) (h : ∀ i, 0 ≤ k i) (h1 : ∀ i, k i ≤ 1) : ∀ t d, 1 < d → 1 < monteZero k t d
  | 0, d, hd => hd
  | t + 1, d, hd => by
    rw [monteZero]
    refine monteZero_borne k h h1 t _ ?_
    have hk := h (t + 1)
    have hk1 := h1 (t + 1)
    have h2 : d * (k (t + 1) / d) = k (t + 1) := by field_simp
    rw [lt_div_iff₀ (by linarith), one_mul]
    have hd0 : 0 < d := by linarith
    by_contra hc
    have : d * (d + k (t + 1) / d) ≤ d * (1 + k (t + 1)) := mul_le_mul_of_nonneg_left (not_lt.1 hc) hd0.le
    have h3 : (d - 1) * (d - k (t + 1)) ≤ 0 := by nlinarith
    nlinarith [mul_pos (sub_pos.2 hd) (show 0 < d - k (t + 1) by linarith)]

theorem pas_im (c : ℂ) (k : ℝ) (hk : 0 ≤ k) (h : c.im < 0) : ((c - (k : ℂ) / c) / (1 + (k : ℂ))).im < 0 := by
  have e : (1 + (k : ℂ)) = ((1 + k : ℝ) : ℂ) := by push_cast; ring
  have hn : 0 < Complex.normSq c := Complex.normSq_pos.2 fun h0 => by rw [h0] at h; exact lt_irrefl _ h
  have e2 : ((k : ℂ) / c).im = -(k * c.im / Complex.normSq c) := by
    rw [Complex.div_im]; simp
  rw [e, Complex.div_ofReal_im, Complex.sub_im, e2]
  refine div_neg_of_neg_of_pos ?_ (by linarith)
  have : k * c.im / Complex.normSq c ≤ 0 := div_nonpos_of_nonpos_of_nonneg (mul_nonpos_of_nonneg_of_nonpos hk h.le) hn.le
  linarith

theorem descend_im (k : ℕ → ℝ) (hk : ∀ i, 0 ≤ k i) : ∀ t (c : ℂ), c.im < 0 → ∃ c', descend (fun i => (k i : ℂ)) t c = some c' ∧ c'.im < 0
  | 0, c, h => ⟨c, rfl, h⟩
  | t + 1, c, h => by
    rw [descend, if_neg (fun h0 => by rw [h0] at h; exact lt_irrefl _ h)]
    exact descend_im k hk t _ (pas_im c (k (t + 1)) (hk _) h)

theorem c0_im (u v : ℝ) (h : 0 < Real.cos u) : (c0 u v).im < 0 := by
  have hc := mul_pos h (Real.cosh_pos v)
  have hn : 0 < Complex.normSq (cosc (-u) v) := Complex.normSq_pos.2 fun h0 => by
    have := congrArg Complex.re h0
    simp only [cosc, Real.cos_neg, Complex.zero_re] at this
    linarith
  rw [c0, Complex.div_im]
  have : (cosc (-u) v).re = Real.cos u * Real.cosh v := by simp [cosc]
  simp only [Complex.neg_im, Complex.neg_re, Complex.I_im, Complex.I_re, this]
  have : 0 < Real.cos u * Real.cosh v / Complex.normSq (cosc (-u) v) := div_pos hc hn
  rw [neg_zero, zero_mul, zero_div, sub_zero, neg_one_mul, neg_div]
  linarith

theorem pole_existe (k : ℕ → ℝ) (hk : ∀ i, 0 ≤ k i) (m1 : ℕ) (u v : ℝ) (h : 0 < Real.cos u) : ∃ p, pole k m1 u v = some p ∧ 0 < p.im := by
  obtain ⟨c, e, hc⟩ := descend_im k hk (m1 - 1) _ (c0_im u v h)
  have hne : c ≠ 0 := fun h0 => by rw [h0] at hc; exact lt_irrefl _ hc
  refine ⟨1 / c, by rw [pole, e, Option.bind_some, inverse, if_neg hne], ?_⟩
  rw [one_div, Complex.inv_im]
  exact div_pos (by linarith) (Complex.normSq_pos.2 hne)

theorem paires_forme (k : ℕ → ℝ) (hk : ∀ i, 0 ≤ k i) (m1 n : ℕ) (v : ℝ) : ∀ l : List ℕ, (∀ i ∈ l, i < n / 2) →
    ∃ p : List ℂ, paires k m1 n v l = some (p.flatMap fun r : ℂ => [r, (starRingEnd ℂ) r]) ∧ p.length = l.length ∧ (∀ r ∈ p, 0 < r.im) ∧
      ∀ j, j < l.length → pole k m1 (u1 n (l.getD j 0)) v = some (p.getD j 0)
  | [], _ => ⟨[], rfl, rfl, by simp, by simp⟩
  | i :: l, h => by
    have hi := u1_intervalle n i (h i (by simp))
    obtain ⟨r, er, hr⟩ := pole_existe k hk m1 (u1 n i) v (Real.cos_pos_of_mem_Ioo ⟨by linarith [Real.pi_pos], hi.2⟩)
    obtain ⟨p, ep, lp, hp, hj⟩ := paires_forme k hk m1 n v l fun i hi => h i (by simp [hi])
    refine ⟨r :: p, by rw [paires, er, Option.bind_some, ep, Option.map_some]; simp, by simp [lp], ?_, ?_⟩
    · intro x hx
      rcases List.mem_cons.1 hx with rfl | hx
      · exact hr
      · exact hp x hx
    · intro j hj'
      cases j with
      | zero => simpa using er
      | succ j => simpa using hj j (by simpa using hj')

theorem produit_conj (p : List ℂ) : ∃ x : ℝ, ((p.flatMap fun r : ℂ => [r, (starRingEnd ℂ) r]).map fun r : ℂ => -r).prod = (x : ℂ) := by
  induction p with
  | nil => exact ⟨1, by simp⟩
  | cons a l ih =>
    obtain ⟨x, hx⟩ := ih
    refine ⟨Complex.normSq a * x, ?_⟩
    rw [List.flatMap_cons, List.map_append, List.prod_append, hx]
    simp only [List.map_cons, List.map_nil, List.prod_cons, List.prod_nil, mul_one, neg_mul_neg, Complex.mul_conj]
    push_cast
    ring

/-- The zeros, seen as conjugate pairs. -/
theorem zeros_paires (k : ℕ → ℝ) (m1 n : ℕ) : zeros k m1 n =
    ((List.range (n / 2)).map fun i : ℕ => (⟨0, monteZero k (m1 - 1) (1 / Real.cos (u1 n i)) / k 0⟩ : ℂ)).flatMap fun r : ℂ => [r, (starRingEnd ℂ) r] := by
  rw [zeros, List.flatMap_map]
  rfl

theorem zeros_valeur (m1 : ℕ) (v : ℝ) (h0 : 0 < v) (h1 : v < 1) (hm : 1 ≤ m1) (n : ℕ) : ∀ z ∈ zeros (ek m1 v) m1 n, z.re = 0 ∧ 1 < |z.im| := by
  intro z hz
  obtain ⟨i, hi, hz⟩ := List.mem_flatMap.1 hz
  have hu := u1_intervalle n i (List.mem_range.1 hi)
  have hc : 0 < Real.cos (u1 n i) := Real.cos_pos_of_mem_Ioo ⟨by linarith [Real.pi_pos], hu.2⟩
  have hc1 : Real.cos (u1 n i) < 1 := by
    rw [← Real.cos_zero]
    exact Real.cos_lt_cos_of_nonneg_of_le_pi_div_two le_rfl hu.2.le hu.1
  have hd : 1 < monteZero (ek m1 v) (m1 - 1) (1 / Real.cos (u1 n i)) :=
    monteZero_borne _ (ek_nonneg m1 v h0 h1) (fun i => by
      by_cases hi : i < m1
      · exact (ek_borne m1 v h0 h1 i hi).2.le
      · rw [ek, if_neg hi]; norm_num) _ _ (by rw [lt_div_iff₀ hc]; linarith)
  obtain ⟨k0, k1⟩ := ek_borne m1 v h0 h1 0 hm
  have hq : 1 < monteZero (ek m1 v) (m1 - 1) (1 / Real.cos (u1 n i)) / ek m1 v 0 := by
    rw [lt_div_iff₀ k0]; linarith
  rcases List.mem_cons.1 hz with rfl | hz
  · exact ⟨rfl, by simp only; rw [abs_of_pos (by linarith)]; exact hq⟩
  · rw [List.mem_singleton.1 hz]
    exact ⟨rfl, by simp only; rw [abs_neg, abs_of_pos (by linarith)]; exact hq⟩

theorem assemble_continu (z p : List ℂ) (x y : ℝ) (hz : (z.map fun r : ℂ => -r).prod = (x : ℂ)) (hp : (p.map fun r : ℂ => -r).prod = (y : ℂ)) (hx : x ≠ 0) (hy : y ≠ 0) :
    valeur (assemble z p) 0 = 1 := by
  rw [valeur_racines _ rfl rfl]
  simp only [assemble, Poly.deRacines, zero_sub, hz, hp]
  have hx' : (x : ℂ) ≠ 0 := by exact_mod_cast hx
  have hy' : (y : ℂ) ≠ 0 := by exact_mod_cast hy
  rw [← Complex.ofReal_div, Complex.ofReal_re]
  push_cast
  field_simp

theorem produit_ne (l : List ℂ) (x : ℝ) (h : (l.map fun r : ℂ => -r).prod = (x : ℂ)) (hl : ∀ r ∈ l, r ≠ 0) : x ≠ 0 := by
  intro h0
  rw [h0, Complex.ofReal_zero, List.prod_eq_zero_iff] at h
  obtain ⟨r, hr, e⟩ := List.mem_map.1 h
  exact hl r hr (neg_eq_zero.1 e)

theorem suite_plus : ∀ (c : ℕ) (v : ℝ) (g : List ℝ) (d : ℕ), suite c v = some g → suite (c + d) v = some g
  | 0, v, g, d, h => absurd h (by simp [suite])
  | c + 1, v, g, d, h => by
    rw [show c + 1 + d = c + d + 1 by omega]
    rw [suite] at h ⊢
    split
    · rename_i h1
      rw [if_pos h1] at h
      split
      · rename_i h2
        rw [if_pos h2] at h
        exact h
      · rename_i h2
        rw [if_neg h2] at h
        obtain ⟨l, e, rfl⟩ := Option.map_eq_some_iff.1 h
        rw [suite_plus c _ l d e, Option.map_some]
    · rename_i h1
      rw [if_neg h1] at h
      exact h

theorem parametres_unique (n : ℕ) (rp rs : ℝ) (c c' : ℕ) (q q' : ℕ × (ℕ → ℝ) × ℝ) (h : parametres n rp rs c = some q) (h' : parametres n rp rs c' = some q') : q = q' := by
  unfold parametres at h h'
  cases e : g0 rp rs with
  | none => rw [e] at h; exact absurd h (by simp)
  | some v =>
    rw [e, Option.bind_some] at h h'
    obtain ⟨g, eg, rfl⟩ := Option.map_eq_some_iff.1 h
    obtain ⟨g', eg', rfl⟩ := Option.map_eq_some_iff.1 h'
    have h1 := suite_plus c v g c' eg
    have h2 := suite_plus c' v g' c eg'
    rw [add_comm c' c, h1] at h2
    rw [Option.some.inj h2]

/-! ## Specification -/

/-- An analog low-pass in root form: `nz` zeros on the imaginary axis, strictly outside of the pass-band `[-1, 1]`, in conjugate pairs; `np` poles; gain 1 at the zero frequency. -/
def PasseBas (H : FRat ℂ) (nz np : ℕ) : Prop :=
  H.numer.racines = true ∧ H.denom.racines = true ∧ H.numer.coefs.length = nz ∧ H.denom.coefs.length = np ∧
  (∀ z ∈ H.numer.coefs, z.re = 0 ∧ 1 < |z.im| ∧ (starRingEnd ℂ) z ∈ H.numer.coefs) ∧ (∀ p ∈ H.denom.coefs, p ≠ 0 ∧ (starRingEnd ℂ) p ∈ H.denom.coefs) ∧ valeur H 0 = 1

theorem conj_mem (p : List ℂ) : ∀ z ∈ p.flatMap fun r : ℂ => [r, (starRingEnd ℂ) r], (starRingEnd ℂ) z ∈ p.flatMap fun r : ℂ => [r, (starRingEnd ℂ) r] := by
  intro z hz
  obtain ⟨r, hr, hz⟩ := List.mem_flatMap.1 hz
  refine List.mem_flatMap.2 ⟨r, hr, ?_⟩
  rcases List.mem_cons.1 hz with rfl | hz
  · simp
  · rw [List.mem_singleton.1 hz]; simp

theorem flatMap_longueur (p : List ℂ) : (p.flatMap fun r : ℂ => [r, (starRingEnd ℂ) r]).length = 2 * p.length := by
  induction p with
  | nil => rfl
  | cons a l ih => rw [List.flatMap_cons, List.length_append, ih]; simp; omega

/-- **C197 (structure of the design).** For every order `2 ≤ n < 256000` and `0 < rp < rs`: whatever the design returns is a low-pass with `2⌊n/2⌋` zeros on the imaginary axis strictly outside of the
pass-band and `n` poles, both in conjugate pairs (the real pole of an odd order is its own conjugate), and gain 1 at the zero frequency; for an even order the design succeeds. -/
theorem C197_structure (n : ℕ) (hn : 2 ≤ n) (hN : n < 256000) (rp rs : ℝ) (h0 : 0 < rp) (h : rp < rs) :
    (∀ c H, elliptique n rp rs c = some H → PasseBas H (2 * (n / 2)) n) ∧ (n % 2 = 0 → ∃ c H, elliptique n rp rs c = some H) := by
  obtain ⟨c1, m1, v, u, e, hm, v0, v1, hu, -⟩ := parametres_forme n (by omega) hN rp rs h0 h
  obtain ⟨p, ep, lp, hp, -⟩ := paires_forme (ek m1 v) (ek_nonneg m1 v v0 v1) m1 n u (List.range (n / 2)) fun i hi => List.mem_range.1 hi
  rw [List.length_range] at lp
  have hpne : ∀ r ∈ p.flatMap fun r : ℂ => [r, (starRingEnd ℂ) r], r ≠ 0 := by
    intro r hr h0
    obtain ⟨x, hx, hr⟩ := List.mem_flatMap.1 hr
    have := hp x hx
    rcases List.mem_cons.1 hr with rfl | hr
    · rw [h0] at this; exact lt_irrefl _ this
    · rw [List.mem_singleton.1 hr, map_eq_zero] at h0
      rw [h0] at this; exact lt_irrefl _ this
  have hz := zeros_valeur m1 v v0 v1 hm n
  have hzc : ∀ z ∈ zeros (ek m1 v) m1 n, (starRingEnd ℂ) z ∈ zeros (ek m1 v) m1 n := by
    rw [zeros_paires]; exact conj_mem _
  have hzl : (zeros (ek m1 v) m1 n).length = 2 * (n / 2) := by
    rw [zeros_paires, flatMap_longueur, List.length_map, List.length_range]
  obtain ⟨x, hx⟩ : ∃ x : ℝ, ((zeros (ek m1 v) m1 n).map fun r : ℂ => -r).prod = (x : ℂ) := by
    rw [zeros_paires]; exact produit_conj _
  have hxne : x ≠ 0 := produit_ne _ x hx fun r hr h0 => by
    have := (hz r hr).2
    rw [h0] at this
    simp at this
    linarith
  obtain ⟨y, hy⟩ := produit_conj p
  have hyne : y ≠ 0 := produit_ne _ y hy hpne
  constructor
  · intro c H hH
    rw [elliptique, if_neg (by omega)] at hH
    cases hq : parametres n rp rs c with
    | none => rw [hq] at hH; exact absurd hH (by simp)
    | some q =>
      rw [hq, Option.bind_some, parametres_unique n rp rs c c1 q _ hq e] at hH
      dsimp only at hH
      rw [poles, ep, Option.bind_some] at hH
      by_cases hpar : n % 2 = 1
      · rw [if_pos hpar] at hH
        cases hr : poleReel (ek m1 v) m1 u with
        | none => rw [hr] at hH; exact absurd hH (by simp)
        | some r =>
          rw [hr] at hH
          rw [← Option.some.inj hH]
          have hrne : (r : ℂ) ≠ 0 := by
            intro h0
            have h0 : r = 0 := by exact_mod_cast h0
            unfold poleReel at hr
            obtain ⟨a, ha, hra⟩ := Option.map_eq_some_iff.1 hr
            obtain ⟨b, -, hb⟩ := Option.bind_eq_some_iff.1 ha
            unfold inverse at hb
            split at hb
            · exact absurd hb (by simp)
            · rename_i hbne
              rw [← Option.some.inj hb, h0, neg_eq_zero] at hra
              exact one_div_ne_zero hbne hra
          have hpr : (((p.flatMap fun r : ℂ => [r, (starRingEnd ℂ) r]) ++ [(r : ℂ)]).map fun r : ℂ => -r).prod = ((y * -r : ℝ) : ℂ) := by
            rw [List.map_append, List.prod_append, hy]; simp
          refine ⟨rfl, rfl, hzl, ?_, fun z h => ⟨(hz z h).1, (hz z h).2, hzc z h⟩, ?_, assemble_continu _ _ x _ hx hpr hxne (mul_ne_zero hyne ?_)⟩
          · show (_ ++ [_]).length = n
            rw [List.length_append, flatMap_longueur, lp, List.length_singleton]; omega
          · intro z hzm
            rcases List.mem_append.1 hzm with h | h
            · exact ⟨hpne z h, List.mem_append_left _ (conj_mem p z h)⟩
            · rw [List.mem_singleton.1 h]
              exact ⟨hrne, List.mem_append_right _ (by simp)⟩
          · exact neg_ne_zero.2 fun h0 => hrne (by rw [h0, Complex.ofReal_zero])
      · rw [if_neg hpar] at hH
        rw [← Option.some.inj hH]
        refine ⟨rfl, rfl, hzl, ?_, fun z h => ⟨(hz z h).1, (hz z h).2, hzc z h⟩, fun z h => ⟨hpne z h, conj_mem p z h⟩, assemble_continu _ _ x y hx hy hxne hyne⟩
        show (List.flatMap _ p).length = n
        rw [flatMap_longueur, lp]; omega
  · intro hpar
    refine ⟨c1, _, by rw [elliptique, if_neg (by omega), e, Option.bind_some, poles, ep, Option.bind_some, if_neg (by omega), Option.map_some]⟩

theorem descend_dernier {K : Type} [Field K] (k : ℕ → K) : ∀ (t : ℕ) (a : K),
    descend k (t + 1) a = (descend (fun i => k (i + 1)) t a).bind fun b : K => @ite _ (b = 0) (Classical.dec _) none (some ((b - k 1 / b) / (1 + k 1)))
  | 0, a => by simp only [descend, Option.bind_some, zero_add]
  | t + 1, a => by
    rw [descend]
    conv_rhs => rw [descend]
    split
    · rfl
    · exact descend_dernier k t _

theorem descend_neg {K : Type} [Field K] (k : ℕ → K) : ∀ (t : ℕ) (a : K), descend k t (-a) = (descend k t a).map fun b : K => -b
  | 0, a => rfl
  | t + 1, a => by
    rw [descend, descend]
    by_cases h : a = 0
    · rw [if_pos (by rw [h, neg_zero]), if_pos h, Option.map_none]
    · rw [if_neg (neg_ne_zero.2 h), if_neg h, ← descend_neg k t]
      congr 1
      rw [div_neg, ← neg_sub', neg_div]

theorem descend_reel (k : ℕ → ℝ) : ∀ (t : ℕ) (a : ℝ), descend (fun i => (k i : ℂ)) t (a : ℂ) = (descend k t a).map fun b : ℝ => (b : ℂ)
  | 0, a => rfl
  | t + 1, a => by
    rw [descend, descend]
    by_cases h : a = 0
    · rw [if_pos (by rw [h, Complex.ofReal_zero]), if_pos h, Option.map_none]
    · rw [if_neg (by exact_mod_cast h), if_neg h, ← descend_reel k t]
      congr 1
      push_cast
      rfl

theorem c0_milieu (v : ℝ) (hv : 0 < v) : c0 (Real.pi / 2) v = -((1 / Real.sinh v : ℝ) : ℂ) := by
  have hs := Real.sinh_pos_iff.2 hv
  have e : cosc (-(Real.pi / 2)) v = ((Real.sinh v : ℝ) : ℂ) * Complex.I := by
    apply Complex.ext <;> simp [cosc, -Complex.ofReal_sinh]
  rw [c0, e]
  have : ((Real.sinh v : ℝ) : ℂ) ≠ 0 := by exact_mod_cast hs.ne'
  push_cast at this ⊢
  have hI := Complex.I_ne_zero
  field_simp

/-- Specification: the descending Landen transformation of a modulus, `(1 - k') / (1 + k')` with `k'` the complementary modulus. -/
noncomputable def Landen (k : ℝ) : ℝ := (1 - Real.sqrt (1 - k ^ 2)) / (1 + Real.sqrt (1 - k ^ 2))

theorem monte_Landen (k : ℝ) (h0 : 0 < k) (h1 : k < 1) : Landen (monte k) = k := by
  have h : Real.sqrt (1 - monte k ^ 2) = (1 - k) / (1 + k) := by
    rw [show 1 - monte k ^ 2 = ((1 - k) / (1 + k)) ^ 2 by
      rw [monte, div_pow, mul_pow, Real.sq_sqrt h0.le]
      have : (1 + k) ≠ 0 := by linarith
      field_simp
      ring]
    exact Real.sqrt_sq (div_nonneg (by linarith) (by linarith))
  rw [Landen, h]
  have : (1 + k) ≠ 0 := by linarith
  field_simp
  ring

theorem landen_Landen (k : ℝ) (h0 : 0 < k) (h1 : k < 1) : landen k = Landen k := by
  have hs : 0 ≤ Real.sqrt (1 - k ^ 2) := Real.sqrt_nonneg _
  have hq : Real.sqrt (1 - k ^ 2) ^ 2 = 1 - k ^ 2 := Real.sq_sqrt (by nlinarith)
  rw [landen, Landen, ← sq, div_pow, div_eq_div_iff (by positivity) (by positivity)]
  generalize Real.sqrt (1 - k ^ 2) = q at hs hq
  rw [show k ^ 2 = 1 - q ^ 2 by linarith]
  ring

theorem suite_nonneg : ∀ (c : ℕ) (v : ℝ) (g : List ℝ), 0 ≤ v → suite c v = some g → g ≠ [] ∧ ∀ x ∈ g, 0 ≤ x
  | 0, v, g, _, h => absurd h (by simp [suite])
  | c + 1, v, g, hv, h => by
    rw [suite] at h
    split at h
    · split at h
      · exact absurd h (by simp)
      · obtain ⟨l, e, rfl⟩ := Option.map_eq_some_iff.1 h
        refine ⟨by simp, fun x hx => ?_⟩
        rcases List.mem_cons.1 hx with rfl | hx
        · exact hv
        · exact (suite_nonneg c _ l (by rw [landen]; positivity) e).2 x hx
    · rw [← Option.some.inj h]
      exact ⟨by simp, fun x hx => by rw [List.mem_singleton.1 hx]; exact hv⟩

theorem suite_chaine : ∀ (c : ℕ) (v : ℝ) (g : List ℝ), 0 < v → v < 1 → suite c v = some g → g.head? = some v ∧ ∀ j, j + 1 < g.length → g.getD (j + 1) 0 = Landen (g.getD j 0)
  | 0, v, g, _, _, h => absurd h (by simp [suite])
  | c + 1, v, g, hv, h1, h => by
    rw [suite] at h
    split at h
    · split at h
      · exact absurd h (by simp)
      · obtain ⟨l, e, rfl⟩ := Option.map_eq_some_iff.1 h
        obtain ⟨b0, b1⟩ := landen_borne v hv h1
        obtain ⟨hh, hc⟩ := suite_chaine c (landen v) l b0 (by nlinarith) e
        refine ⟨rfl, fun j hj => ?_⟩
        cases j with
        | zero =>
          cases l with
          | nil => simp at hh
          | cons a l =>
            simp only [List.head?_cons, Option.some.injEq] at hh
            simp [hh, landen_Landen v hv h1]
        | succ j =>
          simpa using hc j (by simpa using hj)
    · rw [← Option.some.inj h]
      exact ⟨rfl, fun j hj => by simp at hj⟩

/-- **C197 (moduli).** For every `0 < rp < rs` and `2 ≤ n < 256000`: the moduli used for the zeros and the poles are a descending Landen chain of `m1` numbers of `(0, 1)`, and the last one is tied by the (first order) degree
equation to the last term `γ` of the chain which starts at the discrimination factor: `(k/4)^n = (γ/4)^(2^i)` after `i` more steps. -/
theorem C197_modules (n : ℕ) (hn : 0 < n) (hN : n < 256000) (rp rs : ℝ) (h0 : 0 < rp) (h : rp < rs) (c m1 : ℕ) (k : ℕ → ℝ) (u : ℝ) (hp : parametres n rp rs c = some (m1, k, u)) :
    (∀ i, i < m1 → 0 < k i ∧ k i < 1) ∧ (∀ i, i + 1 < m1 → k (i + 1) = Landen (k i)) ∧
    ∃ γ i, i < m1 ∧ (k (m1 - 1) / 4) ^ n = (γ / 4) ^ (2 ^ i) ∧ ∃ v g, g0 rp rs = some v ∧ suite c v = some g ∧ g.getLast? = some γ ∧ g.length + i = m1 ∧ g.head? = some v ∧ v ^ 2 = ((10 : ℝ) ^ (rp / 10) - 1) / ((10 : ℝ) ^ (rs / 10) - 1) ∧
      ∀ j, j + 1 < g.length → g.getD (j + 1) 0 = Landen (g.getD j 0) := by
  obtain ⟨c1, m1', v', u', e, hm, v0, v1, -, -⟩ := parametres_forme n hn hN rp rs h0 h
  have e' := parametres_unique n rp rs c c1 _ _ hp e
  have hk : k = ek m1' v' := (Prod.mk.inj (Prod.mk.inj e').2).1
  have hm' : m1 = m1' := (Prod.mk.inj e').1
  subst hm' hk
  refine ⟨fun i hi => ek_borne m1 v' v0 v1 i hi, fun i hi => ?_, ?_⟩
  · have hb := ek_borne m1 v' v0 v1 (i + 1) hi
    have : ek m1 v' i = monte (ek m1 v' (i + 1)) := by
      rw [ek, ek, if_pos (by omega), if_pos hi, show m1 - 1 - i = m1 - 1 - (i + 1) + 1 by omega, Function.iterate_succ_apply']
    rw [this, monte_Landen _ hb.1 hb.2]
  · unfold parametres at hp
    obtain ⟨v, ev, hp⟩ := Option.bind_eq_some_iff.1 hp
    obtain ⟨g, eg, hp⟩ := Option.map_eq_some_iff.1 hp
    obtain ⟨w, ew, hw, hw2⟩ := g0_valeur rp rs h0 (h0.trans h)
    have hp1 := db_un rp h0
    have hs1 := db_un rs (h0.trans h)
    have hlt : w < 1 := by
      rw [← sq_lt_one_iff₀ hw.le, hw2, div_lt_one (by linarith), sub_lt_sub_iff_right, Real.rpow_lt_rpow_left_iff (by norm_num)]
      linarith
    rw [ev] at ew
    have evw : v = w := Option.some.inj ew
    obtain ⟨ch, cc⟩ := suite_chaine c v g (by rw [evw]; exact hw) (by rw [evw]; exact hlt) eg
    obtain ⟨hgne, hg0⟩ := suite_nonneg c v g (by rw [Option.some.inj ew]; exact hw.le) eg
    obtain ⟨γ, hγ⟩ := Option.isSome_iff_exists.1 (by rw [List.getLast?_isSome]; exact hgne : g.getLast?.isSome)
    have hD : g.getLastD 0 = γ := by rw [List.getLastD_eq_getLast?, hγ]; rfl
    have p1 : g.length + amorce n (g.getLastD 0) 10 0 = m1 := (Prod.mk.inj hp).1
    have p2 : ek (g.length + amorce n (g.getLastD 0) 10 0) (debut n (g.getLastD 0) (amorce n (g.getLastD 0) 10 0)) = ek m1 v' := (Prod.mk.inj (Prod.mk.inj hp).2).1
    have hl : 0 < g.length := List.length_pos_iff.2 hgne
    refine ⟨γ, amorce n γ 10 0, by rw [← hD]; omega, ?_, v, g, ev, eg, hγ, by rw [← hD]; exact p1, ch, by rw [evw]; exact hw2, cc⟩
    rw [← p2, p1, ek, if_pos (by omega), Nat.sub_self, Function.iterate_zero, id, hD, debut]
    have hγ0 : 0 ≤ γ := hg0 γ (List.mem_of_getLast? hγ)
    have hnr : (n : ℝ) ≠ 0 := by exact_mod_cast (by omega : n ≠ 0)
    rw [mul_div_cancel_left₀ _ (by norm_num : (4 : ℝ) ≠ 0), ← Real.rpow_natCast, ← Real.rpow_mul (by positivity), div_mul_cancel₀ _ hnr, ← Real.rpow_natCast _ (2 ^ _), ← Real.rpow_natCast 2]
    push_cast
    rw [Real.rpow_natCast]

/-- **C197, violated: the real pole of the odd orders.** The poles of an elliptic filter of order `n` are the values of one function at the angles `(2i+1)π/(2n)`, the middle one (`π/2`) being real
for an odd order. For every odd order `3 ≤ n < 256000`, `0 < rp < rs` (and a discrimination below 3000 dB), the real pole which the design returns is not the value at the angle `π/2`. -/
theorem C197_impair_refute (n : ℕ) (hn : 3 ≤ n) (hodd : n % 2 = 1) (hN : n < 256000) (rp rs : ℝ) (h0 : 0 < rp) (h : rp < rs)
    (hd : (10 : ℝ) ^ (rs / 10) - 1 < ((10 : ℝ) ^ 150) ^ 2 * ((10 : ℝ) ^ (rp / 10) - 1)) :
    ∃ c m1 k u, parametres n rp rs c = some (m1, k, u) ∧ u1 n (n / 2) = Real.pi / 2 ∧ ∀ c' H, elliptique n rp rs c' = some H → ∃ p, H.denom.coefs.getLast? = some p ∧ pole k m1 (u1 n (n / 2)) u ≠ some p ∧
      ∀ i, i < n / 2 → pole k m1 (u1 n i) u = some (H.denom.coefs.getD (2 * i) 0) := by
  obtain ⟨c1, m1, v, u, e, -, v0, v1, hu, hm⟩ := parametres_forme n (by omega) hN rp rs h0 h
  have hm := hm hd
  have hmid : u1 n (n / 2) = Real.pi / 2 := by
    have hnr : (0 : ℝ) < n := by exact_mod_cast (by omega : 0 < n)
    have : (2 * ((n / 2 : ℕ) : ℝ) + 1) = n := by exact_mod_cast (by omega : 2 * (n / 2) + 1 = n)
    rw [u1, this]; field_simp
  refine ⟨c1, m1, ek m1 v, u, e, hmid, fun c H hH => ?_⟩
  obtain ⟨p, ep, lp, hp, hj⟩ := paires_forme (ek m1 v) (ek_nonneg m1 v v0 v1) m1 n u (List.range (n / 2)) fun i hi => List.mem_range.1 hi
  rw [elliptique, if_neg (by omega)] at hH
  cases hq : parametres n rp rs c with
  | none => rw [hq] at hH; exact absurd hH (by simp)
  | some q =>
    rw [hq, Option.bind_some, parametres_unique n rp rs c c1 q _ hq e] at hH
    dsimp only at hH
    rw [poles, ep, Option.bind_some, if_pos hodd] at hH
    cases hr : poleReel (ek m1 v) m1 u with
    | none => rw [hr] at hH; exact absurd hH (by simp)
    | some r =>
      rw [hr] at hH
      rw [← Option.some.inj hH]
      refine ⟨r, by simp [assemble, Poly.deRacines], ?_, ?_⟩
      · obtain ⟨t, rfl⟩ : ∃ t, m1 = t + 2 := ⟨m1 - 2, by omega⟩
        have hs := Real.sinh_pos_iff.2 hu
        have k1 := ek_borne (t + 2) v v0 v1 1 (by omega)
        have hk : ek (t + 2) v (t + 1 + 1) = 0 := by rw [ek, if_neg (by omega)]
        have ha : 1 / Real.sinh u ≠ 0 := by positivity
        -- the first turn of the loop does nothing
        have hpr : descend (fun i => ek (t + 2) v (i + 1)) (t + 1) (1 / Real.sinh u) = descend (fun i => ek (t + 2) v (i + 1)) t (1 / Real.sinh u) := by
          rw [descend, if_neg ha, hk]; simp
        unfold poleReel at hr
        rw [show t + 2 - 1 = t + 1 by omega, hpr] at hr
        obtain ⟨a, hb, hra⟩ := Option.map_eq_some_iff.1 hr
        obtain ⟨b, hb, hib⟩ := Option.bind_eq_some_iff.1 hb
        unfold inverse at hib
        split at hib
        · exact absurd hib (by simp)
        rename_i hb0
        have hib := Option.some.inj hib
        rw [pole, hmid, c0_milieu u hu, descend_neg, descend_reel, show t + 2 - 1 = t + 1 by omega, descend_dernier, hb, Option.bind_some, if_neg hb0, Option.map_some, Option.map_some, Option.bind_some]
        unfold inverse
        split
        · simp
        · intro heq
          have heq := Option.some.inj heq
          rw [← hra, ← hib] at heq
          have heq : 1 / -((b - ek (t + 2) v 1 / b) / (1 + ek (t + 2) v 1)) = -(1 / b) := by exact_mod_cast heq
          have h2 : (b - ek (t + 2) v 1 / b) / (1 + ek (t + 2) v 1) = b := by
            rw [one_div, one_div, ← inv_neg, inv_inj, neg_inj] at heq
            exact heq
          rw [div_eq_iff (by linarith), sub_eq_iff_eq_add] at h2
          field_simp at h2
          nlinarith [sq_nonneg b, mul_pos k1.1 (sq_pos_of_ne_zero hb0 : 0 < b ^ 2)]
      · intro i hi
        have := hj i (by rw [List.length_range]; exact hi)
        rw [List.getD_eq_getElem _ _ (by rw [List.length_range]; exact hi), List.getElem_range] at this
        rw [this]
        congr 1
        have hg : ∀ (l : List ℂ) (i : ℕ), i < l.length → ((l.flatMap fun r : ℂ => [r, (starRingEnd ℂ) r]) ++ [(r : ℂ)]).getD (2 * i) 0 = l.getD i 0 := by
          intro l
          induction l with
          | nil => intro i hi; exact absurd hi (by simp)
          | cons a l ih =>
            intro i hi
            cases i with
            | zero => simp
            | succ i =>
              have := ih i (by simpa using hi)
              rw [show 2 * (i + 1) = 2 * i + 1 + 1 by omega]
              simpa using this
        exact (hg p i (by rw [lp, List.length_range]; exact hi)).symm

/-- The order 4 with 0.1 dB of ripple and 60 dB of attenuation: the hypotheses are met, and the design returns a low-pass. -/
example : ∃ c H, elliptique 4 0.1 60 c = some H ∧ PasseBas H 4 4 := by
  obtain ⟨h1, h2⟩ := C197_structure 4 (by norm_num) (by norm_num) 0.1 60 (by norm_num) (by norm_num)
  obtain ⟨c, H, e⟩ := h2 rfl
  exact ⟨c, H, e, h1 c H e⟩

/-- The order 3 with 1 dB of ripple and 40 dB of attenuation meets the hypotheses of `C197_impair_refute`. -/
example : (10 : ℝ) ^ ((40 : ℝ) / 10) - 1 < ((10 : ℝ) ^ 150) ^ 2 * ((10 : ℝ) ^ ((1 : ℝ) / 10) - 1) := by
  have h : (1 : ℝ) + 1 / 10 ≤ (10 : ℝ) ^ ((1 : ℝ) / 10) := by
    have : (1.1 : ℝ) = ((1.1 : ℝ) ^ (10 : ℝ)) ^ ((1 : ℝ) / 10) := by rw [← Real.rpow_mul (by norm_num)]; norm_num
    have h2 : (1.1 : ℝ) ^ (10 : ℝ) ≤ 10 := by
      rw [show (10 : ℝ) = ((10 : ℕ) : ℝ) by norm_num, Real.rpow_natCast]; norm_num
    have := Real.rpow_le_rpow (by positivity) h2 (show (0 : ℝ) ≤ 1 / 10 by norm_num)
    linarith
  have e : (10 : ℝ) ^ ((40 : ℝ) / 10) = 10000 := by
    rw [show (40 : ℝ) / 10 = ((4 : ℕ) : ℝ) by norm_num, Real.rpow_natCast]; norm_num
  have hX : (10 : ℝ) ^ 6 ≤ (10 : ℝ) ^ 150 := pow_le_pow_right₀ (by norm_num) (by norm_num)
  rw [e]
  generalize (10 : ℝ) ^ 150 = X at hX ⊢
  nlinarith [sq_nonneg X]

end Verif.Elliptique
