/-
C95: π/4-QPSK. C96: QAM and ASK.
-/
import Verif.Telecom.FormesProps

namespace Verif.Telecom

/-! ### π/4-QPSK -/

/-- Specification: the angle of symbol `r` at the even (`false`) or odd (`true`) positions. -/
noncomputable def anglePi4 (odd : Bool) (r : ℕ) : ℝ := Real.pi / 4 + r * (Real.pi / 2) + if odd then Real.pi / 4 else 0

theorem pi4_longueur (odd : Bool) : (pi4Symbs odd).length = 4 := by
  unfold pi4Symbs
  split <;> simp [psk_longueur]

theorem pi4_elt (odd : Bool) (r : ℕ) (h : r < (pi4Symbs odd).length) : (pi4Symbs odd)[r] = (Real.cos (anglePi4 odd r), Real.sin (anglePi4 odd r)) := by
  have ha : anglePsk 4 r = Real.pi / 4 + r * (Real.pi / 2) := by
    unfold anglePsk
    norm_num
    ring
  cases odd with
  | false =>
    have e : pi4Symbs false = pskConstellation 4 := by simp [pi4Symbs]
    simp only [e]
    rw [psk_elt, ha]
    simp [anglePi4]
  | true =>
    have e : pi4Symbs true = (pskConstellation 4).map fun s => mulC s (Real.cos (Real.pi / 4), Real.sin (Real.pi / 4)) := by simp [pi4Symbs]
    simp only [e, List.getElem_map]
    rw [psk_elt, ha]
    simp only [mulC, anglePi4, if_true]
    rw [Real.cos_add (Real.pi / 4 + r * (Real.pi / 2)), Real.sin_add (Real.pi / 4 + r * (Real.pi / 2))]
    exact Prod.ext rfl (add_comm _ _)

theorem pi4_dist (odd : Bool) (i j : ℕ) (hi : i < (pi4Symbs odd).length) (hj : j < (pi4Symbs odd).length) (hij : i ≠ j) :
    2 ≤ dist2 (pi4Symbs odd)[i] (pi4Symbs odd)[j] := by
  have hi' := hi
  have hj' := hj
  rw [pi4_longueur] at hi' hj'
  rw [pi4_elt, pi4_elt, d2_angles]
  have e : (anglePi4 odd i - anglePi4 odd j) / 2 = Real.pi * ((i : ℝ) - j) / (4 : ℕ) := by
    unfold anglePi4
    push_cast
    ring
  have h := sin_dist 4 i j hi' hj' hij
  rw [e]
  have h4 : Real.sin (Real.pi / (4 : ℕ)) ^ 2 = 1 / 2 := by
    push_cast
    rw [Real.sin_pi_div_four, div_pow, Real.sq_sqrt (by norm_num)]
    norm_num
  rw [h4] at h
  linarith

theorem pi4_borne (odd : Bool) : ∀ s ∈ pi4Symbs odd, ∀ t ∈ pi4Symbs odd, dist2 s t ≤ 4 := by
  intro s hs t ht
  obtain ⟨i, hi, rfl⟩ := List.getElem_of_mem hs
  obtain ⟨j, hj, rfl⟩ := List.getElem_of_mem ht
  rw [pi4_elt, pi4_elt, d2_angles]
  nlinarith [Real.sin_sq_le_one ((anglePi4 odd i - anglePi4 odd j) / 2)]

/-- The symbols of a list of indices, from position `n`. -/
noncomputable def pi4Suite (n : ℕ) : List ℕ → List (ℝ × ℝ)
  | [] => []
  | v :: s => (Real.cos (anglePi4 (n % 2 = 1) v), Real.sin (anglePi4 (n % 2 = 1) v)) :: pi4Suite (n + 1) s

theorem pi4_genere (s : List ℕ) : ∀ n, (∀ v ∈ s, v < 4) → (s.zipIdx n).mapM (fun p : ℕ × ℕ => (pi4Symbs (p.2 % 2 = 1))[p.1]?) = some (pi4Suite n s) := by
  induction s with
  | nil => intro n _; rfl
  | cons v s ih =>
    intro n hv
    have hvl : v < (pi4Symbs (n % 2 = 1)).length := by rw [pi4_longueur]; exact hv v (by simp)
    rw [List.zipIdx_cons, List.mapM_cons, ih (n + 1) (fun w hw => hv w (by simp [hw])), List.getElem?_eq_getElem hvl, pi4_elt]
    rfl

theorem pi4_decode (s : List ℕ) : ∀ n, (∀ v ∈ s, v < 4) → ∀ r, List.Forall₂ (fun r y => 4 * dist2 r y < 2) r (pi4Suite n s) →
    (r.zipIdx n).mapM (fun p : (ℝ × ℝ) × ℕ => symbolePlusProche (pi4Symbs (p.2 % 2 = 1)) p.1) = some s := by
  induction s with
  | nil =>
    intro n _ r hr
    cases hr
    rfl
  | cons v s ih =>
    intro n hv r hr
    have hvl : v < (pi4Symbs (n % 2 = 1)).length := by rw [pi4_longueur]; exact hv v (by simp)
    cases hr with
    | @cons a _ l _ ha hb =>
      rw [← pi4_elt _ v hvl] at ha
      rw [List.zipIdx_cons, List.mapM_cons, ih (n + 1) (fun w hw => hv w (by simp [hw])) l hb,
        plusProche_marge _ 2 4 (by norm_num) (by norm_num) (fun i j hi hj hij => pi4_dist _ i j hi hj hij) (pi4_borne _) v hvl a ha]
      rfl

/-- **C95 (noise).** Any bit stream sent with the π/4-QPSK and received with an error shorter than `√2/2` on each symbol is decoded back to the bits (completed by one
zero if needed). -/
theorem C95_bruit (x : List Bool) : ∃ y, pi4Genere x = some y ∧ y.length = (x.length + 1) / 2 ∧
    ∀ r, List.Forall₂ (fun r y => dist2 r y < 1 / 2) r y → pi4Decode r = some (x ++ List.replicate (manque x.length 2) false) := by
  obtain ⟨s, e, hdm, hl, hlt, _⟩ := C07_aller_retour x 2 (by norm_num)
  have hlt' : ∀ v ∈ s, v < 4 := fun v hv => hlt v hv
  have hls : ∀ n (s : List ℕ), (pi4Suite n s).length = s.length := by
    intro n s
    induction s generalizing n with
    | nil => rfl
    | cons v s ih => simp [pi4Suite, ih]
  refine ⟨pi4Suite 0 s, ?_, by rw [hls, hl]; rfl, fun r hr => ?_⟩
  · unfold pi4Genere
    have e : symmap x 2 = some s := e
    rw [e, Option.bind_some]
    exact pi4_genere s 0 hlt'
  · unfold pi4Decode
    rw [pi4_decode s 0 hlt' r (hr.imp fun a b h => by linarith), Option.map_some, hdm]

/-- **C95 (demodulation context).** The context returned by `get_ctx` recovers, sample by sample, the indices and the exact symbols of any transmitted stream. -/
theorem C95_contexte (s : List ℕ) (hs : ∀ v ∈ s, v < 4) : ∃ y, (s.zipIdx).mapM (fun p : ℕ × ℕ => (pi4Symbs (p.2 % 2 = 1))[p.1]?) = some y ∧
    pi4CtxFlux 0 y = some (s.zip y) := by
  refine ⟨pi4Suite 0 s, pi4_genere s 0 hs, ?_⟩
  have key : ∀ n v, v < 4 → pi4Ctx n (Real.cos (anglePi4 (n % 2 = 1) v), Real.sin (anglePi4 (n % 2 = 1) v)) =
      some (n + 1, v, (Real.cos (anglePi4 (n % 2 = 1) v), Real.sin (anglePi4 (n % 2 = 1) v))) := by
    intro n v hv
    have hq : ∀ v, v < 4 → decodeQPSK (Real.cos (anglePi4 false v), Real.sin (anglePi4 false v)) = v := by
      intro v hv
      have h2 : 0 < Real.sqrt 2 / 2 := by positivity
      have hl : v < (pi4Symbs false).length := by rw [pi4_longueur]; exact hv
      rw [← pi4_elt false v hl]
      have e : pi4Symbs false = pskConstellation 4 := by simp [pi4Symbs]
      simp only [e, qpsk_points]
      have : v = 0 ∨ v = 1 ∨ v = 2 ∨ v = 3 := by omega
      have h3 : ¬ (0 ≤ -(Real.sqrt 2 / 2)) := by linarith
      rcases this with rfl | rfl | rfl | rfl <;> simp only [List.getElem_cons_zero, List.getElem_cons_succ, decodeQPSK, h2.le, h3, if_true, if_false]
    have hx : (if n % 2 = 1 then mulC (Real.cos (anglePi4 (n % 2 = 1) v), Real.sin (anglePi4 (n % 2 = 1) v)) (Real.cos (-Real.pi / 4), Real.sin (-Real.pi / 4))
        else (Real.cos (anglePi4 (n % 2 = 1) v), Real.sin (anglePi4 (n % 2 = 1) v))) = (Real.cos (anglePi4 false v), Real.sin (anglePi4 false v)) := by
      by_cases h : n % 2 = 1
      · simp only [h, if_true, mulC, decide_true]
        have e : anglePi4 false v = anglePi4 true v + -Real.pi / 4 := by
          simp only [anglePi4, if_true]
          simp
          ring
        rw [e, Real.cos_add, Real.sin_add]
        ring_nf
      · simp [h]
    have hp : decide ((n + 1 + 1) % 2 = 1) = decide (n % 2 = 1) := by
      congr 1
      rw [Nat.add_assoc, Nat.add_mod_right]
    unfold pi4Ctx
    simp only [hx, hq v hv, hp]
    have hvl : v < (pi4Symbs (decide (n % 2 = 1))).length := by rw [pi4_longueur]; exact hv
    rw [List.getElem?_eq_getElem hvl, pi4_elt]
    rfl
  have gen : ∀ s n, (∀ v ∈ s, v < 4) → pi4CtxFlux n (pi4Suite n s) = some (s.zip (pi4Suite n s)) := by
    intro s
    induction s with
    | nil => intro n _; rfl
    | cons v s ih =>
      intro n hv
      simp only [pi4Suite, pi4CtxFlux, List.zip_cons_cons]
      rw [key n v (hv v (by simp))]
      simp only [Option.bind_some]
      rw [ih (n + 1) (fun w hw => hv w (by simp [hw]))]
      rfl
  exact gen s 0 hs

/-- The phase jump between an even and an odd position is an odd multiple of π/4. -/
theorem pi4_saut (n v w : ℕ) : ∃ m : ℤ, anglePi4 ((n + 1) % 2 = 1) w - anglePi4 (n % 2 = 1) v = (2 * m + 1) * (Real.pi / 4) := by
  rcases Nat.mod_two_eq_zero_or_one n with h | h
  · have h' : (n + 1) % 2 = 1 := by omega
    refine ⟨(w : ℤ) - v, ?_⟩
    simp only [h, h', anglePi4]
    push_cast
    norm_num
    ring
  · have h' : (n + 1) % 2 = 0 := by omega
    refine ⟨(w : ℤ) - v - 1, ?_⟩
    simp only [h, h', anglePi4]
    push_cast
    norm_num
    ring

theorem cos_saut (m : ℤ) : -(Real.sqrt 2 / 2) ≤ Real.cos ((2 * m + 1) * (Real.pi / 4)) := by
  have h2 : Real.cos (2 * ((2 * m + 1) * (Real.pi / 4))) = 0 := by
    rw [show 2 * ((2 * (m : ℝ) + 1) * (Real.pi / 4)) = m * Real.pi + Real.pi / 2 by ring, Real.cos_add_pi_div_two, Real.sin_int_mul_pi, neg_zero]
  rw [Real.cos_two_mul] at h2
  have hs : (Real.sqrt 2) ^ 2 = 2 := Real.sq_sqrt (by norm_num)
  have : 0 ≤ Real.sqrt 2 := Real.sqrt_nonneg 2
  nlinarith

/-- **C95 (envelope).** In any stream, between two consecutive symbols the straight line stays at a distance of at least `cos(3π/8)` from the origin
(`cos²(3π/8) = (2-√2)/4`): no transition through zero. -/
theorem C95_enveloppe (x : List Bool) (y : List (ℝ × ℝ)) (hy : pi4Genere x = some y) (n : ℕ) (hn : n + 1 < y.length) (t : ℝ) :
    (2 - Real.sqrt 2) / 4 ≤ dist2 ((1 - t) * (y[n]).1 + t * (y[n + 1]).1, (1 - t) * (y[n]).2 + t * (y[n + 1]).2) (0, 0) := by
  obtain ⟨s, e, _, _, hlt, _⟩ := C07_aller_retour x 2 (by norm_num)
  have hlt' : ∀ v ∈ s, v < 4 := fun v hv => hlt v hv
  have hy' : y = pi4Suite 0 s := by
    unfold pi4Genere at hy
    have e : symmap x 2 = some s := e
    rw [e, Option.bind_some] at hy
    have := pi4_genere s 0 hlt'
    rw [this] at hy
    exact (Option.some.inj hy).symm
  have elt : ∀ (s : List ℕ) n k (h : k < (pi4Suite n s).length), ∃ v, (pi4Suite n s)[k] = (Real.cos (anglePi4 ((n + k) % 2 = 1) v), Real.sin (anglePi4 ((n + k) % 2 = 1) v)) := by
    intro s
    induction s with
    | nil => intro n k h; simp [pi4Suite] at h
    | cons v s ih =>
      intro n k h
      cases k with
      | zero => exact ⟨v, rfl⟩
      | succ k =>
        obtain ⟨w, hw⟩ := ih (n + 1) k (by simpa [pi4Suite] using h)
        refine ⟨w, ?_⟩
        simp only [pi4Suite, List.getElem_cons_succ, hw]
        rw [show n + 1 + k = n + (k + 1) by omega]
  subst hy'
  obtain ⟨v, hv⟩ := elt s 0 n (by omega)
  obtain ⟨w, hw⟩ := elt s 0 (n + 1) hn
  rw [hv, hw]
  simp only [Nat.zero_add]
  obtain ⟨m, hm⟩ := pi4_saut n v w
  have hc := cos_saut m
  rw [← hm, Real.cos_sub] at hc
  generalize anglePi4 (n % 2 = 1) v = a at *
  generalize anglePi4 ((n + 1) % 2 = 1) w = b at *
  have e1 := Real.sin_sq_add_cos_sq a
  have e2 := Real.sin_sq_add_cos_sq b
  have hup : Real.cos b * Real.cos a + Real.sin b * Real.sin a ≤ 1 := by
    rw [← Real.cos_sub]
    exact Real.cos_le_one _
  simp only [dist2, sub_zero]
  have key : ((1 - t) * Real.cos a + t * Real.cos b) * ((1 - t) * Real.cos a + t * Real.cos b) + ((1 - t) * Real.sin a + t * Real.sin b) * ((1 - t) * Real.sin a + t * Real.sin b) =
      (1 - t) ^ 2 + t ^ 2 + 2 * t * (1 - t) * (Real.cos b * Real.cos a + Real.sin b * Real.sin a) := by
    linear_combination (1 - t) ^ 2 * e1 + t ^ 2 * e2
  rw [key]
  generalize Real.cos b * Real.cos a + Real.sin b * Real.sin a = c at *
  nlinarith [mul_nonneg (sub_nonneg.2 hup) (sq_nonneg (1 - 2 * t))]

/-- **C95 (cutting, refuted).** The parity restarts at 0 at each call: cutting a stream after an odd number of symbols changes the symbols. -/
theorem C95_decoupe_refute : ∃ a b ya yb y, pi4Genere a = some ya ∧ pi4Genere b = some yb ∧ pi4Genere (a ++ b) = some y ∧ y ≠ ya ++ yb := by
  have h1 := pi4_genere [0] 0 (by simp)
  have h2 := pi4_genere [0, 0] 0 (by simp)
  refine ⟨[false, false], [false, false], pi4Suite 0 [0], pi4Suite 0 [0], pi4Suite 0 [0, 0], ?_, ?_, ?_, ?_⟩
  · unfold pi4Genere
    rw [show symmap [false, false] 2 = some [0] by simp [symmap, symbBoucle, List.range_succ]]
    exact h1
  · unfold pi4Genere
    rw [show symmap [false, false] 2 = some [0] by simp [symmap, symbBoucle, List.range_succ]]
    exact h1
  · unfold pi4Genere
    rw [show symmap ([false, false] ++ [false, false]) 2 = some [0, 0] by simp [symmap, symbBoucle, List.range_succ]]
    exact h2
  · simp only [pi4Suite, anglePi4, List.singleton_append, ne_eq, List.cons.injEq, true_and, and_true, Prod.mk.injEq, not_and]
    intro h
    norm_num at h
    rw [show Real.pi / 4 + Real.pi / 4 = Real.pi / 2 by ring, Real.cos_pi_div_two] at h
    have : 0 < Real.sqrt 2 := by positivity
    linarith

/-! ### QAM and ASK -/

theorem qam_some (m : ℕ) (hm : 2 ≤ m) : qamConstellation (m * m) =
    some ((List.range (m * m)).map fun i : ℕ => (((i % m : ℕ) : ℝ) / ((m : ℝ) - 1) * 2 - 1, ((i / m : ℕ) : ℝ) / ((m : ℝ) - 1) * 2 - 1)) := by
  unfold qamConstellation
  simp only [Nat.sqrt_eq]
  rw [if_neg (by omega)]

/-- Two distinct points of a grid of step `q`. -/
theorem grille_dist (q a b c d : ℝ) (i j k l : ℕ) (ha : a = q * i - 1) (hb : b = q * j - 1) (hc : c = q * k - 1) (hd : d = q * l - 1) (h : i ≠ k ∨ j ≠ l) :
    q ^ 2 ≤ dist2 (a, b) (c, d) := by
  have sq1 : ∀ i k : ℕ, i ≠ k → 1 ≤ ((i : ℝ) - k) ^ 2 := by
    intro i k h
    have : (1 : ℤ) ≤ ((i : ℤ) - k) ^ 2 := by
      have : ((i : ℤ) - k) ≠ 0 := by omega
      have := sq_pos_of_ne_zero this
      omega
    exact_mod_cast this
  simp only [dist2, ha, hb, hc, hd]
  rcases h with h | h
  · have := sq1 i k h
    nlinarith [sq_nonneg (q * j - 1 - (q * l - 1)), mul_nonneg (sq_nonneg q) (sub_nonneg.2 this)]
  · have := sq1 j l h
    nlinarith [sq_nonneg (q * i - 1 - (q * k - 1)), mul_nonneg (sq_nonneg q) (sub_nonneg.2 this)]

/-- **C96 (QAM constellation).** For every `m ≥ 2`, `forme_onde_qam(m²)` has `m²` symbols, all in the square [-1, 1]², any two of them at least `2/(m-1)` apart. -/
theorem C96_qam (m : ℕ) (hm : 2 ≤ m) : ∃ c, qamConstellation (m * m) = some c ∧ c.length = m * m ∧ (∀ s ∈ c, |s.1| ≤ 1 ∧ |s.2| ≤ 1) ∧
    ∀ i j (hi : i < c.length) (hj : j < c.length), i ≠ j → (2 / ((m : ℝ) - 1)) ^ 2 ≤ dist2 c[i] c[j] := by
  have hm1 : (0 : ℝ) < (m : ℝ) - 1 := by
    have : (2 : ℝ) ≤ m := by exact_mod_cast hm
    linarith
  have hb : ∀ u : ℕ, u < m → |(u : ℝ) / ((m : ℝ) - 1) * 2 - 1| ≤ 1 := by
    intro u hu
    have h1 : (u : ℝ) ≤ (m : ℝ) - 1 := by
      have : (u : ℝ) + 1 ≤ m := by exact_mod_cast hu
      linarith
    have h2 : (u : ℝ) / ((m : ℝ) - 1) ≤ 1 := (div_le_one hm1).2 h1
    have h3 : 0 ≤ (u : ℝ) / ((m : ℝ) - 1) := div_nonneg (Nat.cast_nonneg u) hm1.le
    rw [abs_le]
    constructor <;> linarith
  refine ⟨_, qam_some m hm, by simp, ?_, ?_⟩
  · intro s hs
    simp only [List.mem_map, List.mem_range] at hs
    obtain ⟨i, hi, rfl⟩ := hs
    exact ⟨hb _ (Nat.mod_lt _ (by omega)), hb _ (Nat.div_lt_of_lt_mul hi)⟩
  · intro i j hi hj hij
    simp only [List.getElem_map, List.getElem_range]
    refine grille_dist _ _ _ _ _ (i % m) (i / m) (j % m) (j / m) (by ring) (by ring) (by ring) (by ring) ?_
    by_contra h
    simp only [not_or, not_not] at h
    apply hij
    rw [← Nat.mod_add_div i m, ← Nat.mod_add_div j m, h.1, h.2]

/-- **C96 (QAM, noise).** Any bit stream sent with a square QAM of `m²` points (`m ≥ 2`) and received with an error shorter than `1/(m-1)` on each symbol is
decoded back to the bits. -/
theorem C96_qam_bruit (m : ℕ) (hm : 2 ≤ m) (x : List Bool) : ∃ c y, qamConstellation (m * m) = some c ∧
    genereSymboles c (nbBits (m * m)) x = some y ∧ y.length = (x.length + nbBits (m * m) - 1) / nbBits (m * m) ∧
    ∀ r, List.Forall₂ (fun r y => dist2 r y < (1 / ((m : ℝ) - 1)) ^ 2) r y →
      decodeSymboles c (nbBits (m * m)) r = some (x ++ List.replicate (manque x.length (nbBits (m * m))) false) := by
  obtain ⟨c, hc, hl, hb, hd⟩ := C96_qam m hm
  have hm1 : (1 : ℝ) ≤ (m : ℝ) - 1 := by
    have : (2 : ℝ) ≤ m := by exact_mod_cast hm
    linarith
  have hq : (2 / ((m : ℝ) - 1)) ^ 2 ≤ 8 := by
    have : 2 / ((m : ℝ) - 1) ≤ 2 := by
      rw [div_le_iff₀ (by linarith)]
      linarith
    have h0 : 0 ≤ 2 / ((m : ℝ) - 1) := by positivity
    nlinarith
  have h4 : 2 ≤ m * m := by nlinarith
  obtain ⟨y, h1, h2, h3⟩ := chaine_bruit c (nbBits (m * m)) (Nat.log_pos (by norm_num) h4) (by rw [hl]; exact Nat.pow_log_le_self 2 (by omega))
    (symbolePlusProche c) ((2 / ((m : ℝ) - 1)) ^ 2) (fun i h p hp => plusProche_marge c _ 8 (by norm_num) hq hd (by
      intro s hs t ht
      obtain ⟨a1, a2⟩ := hb s hs
      obtain ⟨b1, b2⟩ := hb t ht
      rw [abs_le] at a1 a2 b1 b2
      simp only [dist2]
      nlinarith) i h p hp) x
  refine ⟨c, y, hc, h1, h2, fun r hr => ?_⟩
  have h := h3 r (hr.imp fun a b hab => by
    rw [show (2 / ((m : ℝ) - 1)) ^ 2 = 4 * (1 / ((m : ℝ) - 1)) ^ 2 by ring]
    linarith)
  unfold decodeSymboles
  cases hx : r.mapM (symbolePlusProche c) with
  | none => rw [hx] at h; simp at h
  | some s =>
    rw [hx] at h
    exact h

/-- Sum of the squared coordinates on one axis. -/
theorem somme_axe (m : ℕ) (hm : 2 ≤ m) : ∑ u ∈ Finset.range m, ((u : ℝ) / ((m : ℝ) - 1) * 2 - 1) ^ 2 = m * (m + 1) / (3 * ((m : ℝ) - 1)) := by
  have hm1 : (m : ℝ) - 1 ≠ 0 := by
    have : (2 : ℝ) ≤ m := by exact_mod_cast hm
    linarith
  have gen : ∀ n : ℕ, ∀ q : ℝ, ∑ u ∈ Finset.range n, ((u : ℝ) * q - 1) ^ 2 = q ^ 2 * (n * (n - 1) * (2 * n - 1) / 6) - q * (n * (n - 1)) + n := by
    intro n q
    induction n with
    | zero => simp
    | succ n ih =>
      rw [Finset.sum_range_succ, ih]
      push_cast
      ring
  have e : ∀ u : ℕ, ((u : ℝ) / ((m : ℝ) - 1) * 2 - 1) ^ 2 = ((u : ℝ) * (2 / ((m : ℝ) - 1)) - 1) ^ 2 := fun u => by ring
  simp only [e]
  rw [gen]
  field_simp
  ring

/-- **C96 (QAM, mean energy).** The mean energy of the symbols is `2 (m+1) / (3 (m-1))` (it is *not* normalised to 1: 2 for the QPSK-like 4-QAM, 10/9 for the 16-QAM). -/
theorem C96_qam_energie (m : ℕ) (hm : 2 ≤ m) : ∃ c, qamConstellation (m * m) = some c ∧
    (c.map fun s => dist2 s (0, 0)).sum / (m * m : ℕ) = 2 * (m + 1) / (3 * ((m : ℝ) - 1)) := by
  refine ⟨_, qam_some m hm, ?_⟩
  have hm0 : (m : ℝ) ≠ 0 := by
    have : m ≠ 0 := by omega
    exact_mod_cast this
  have hm1 : (m : ℝ) - 1 ≠ 0 := by
    have : (2 : ℝ) ≤ m := by exact_mod_cast hm
    linarith
  have hL : ∀ (f : ℕ → ℝ) n, ((List.range n).map f).sum = ∑ i ∈ Finset.range n, f i := by
    intro f n
    induction n with
    | zero => simp
    | succ n ih => rw [List.range_succ, List.map_append, List.sum_append, ih, Finset.sum_range_succ]; simp
  rw [List.map_map, hL, Reechan.somme_blocs]
  have hin : ∀ u ∈ Finset.range m, ∑ r ∈ Finset.range m, ((fun s : ℝ × ℝ => dist2 s (0, 0)) ∘ fun i : ℕ =>
      (((i % m : ℕ) : ℝ) / ((m : ℝ) - 1) * 2 - 1, ((i / m : ℕ) : ℝ) / ((m : ℝ) - 1) * 2 - 1)) (u * m + r) =
      m * (m + 1) / (3 * ((m : ℝ) - 1)) + m * ((u : ℝ) / ((m : ℝ) - 1) * 2 - 1) ^ 2 := by
    intro u _
    have : ∀ r ∈ Finset.range m, ((fun s : ℝ × ℝ => dist2 s (0, 0)) ∘ fun i : ℕ =>
        (((i % m : ℕ) : ℝ) / ((m : ℝ) - 1) * 2 - 1, ((i / m : ℕ) : ℝ) / ((m : ℝ) - 1) * 2 - 1)) (u * m + r) =
        ((r : ℝ) / ((m : ℝ) - 1) * 2 - 1) ^ 2 + ((u : ℝ) / ((m : ℝ) - 1) * 2 - 1) ^ 2 := by
      intro r hr
      have hr' := Finset.mem_range.1 hr
      have e1 : (u * m + r) % m = r := by rw [Nat.mul_comm, Nat.mul_add_mod, Nat.mod_eq_of_lt hr']
      have e2 : (u * m + r) / m = u := by rw [Nat.mul_comm, Nat.mul_add_div (by omega), Nat.div_eq_of_lt hr', Nat.add_zero]
      simp only [Function.comp, e1, e2, dist2, sub_zero]
      ring
    rw [Finset.sum_congr rfl this, Finset.sum_add_distrib, somme_axe m hm, Finset.sum_const, Finset.card_range, nsmul_eq_mul]
  rw [Finset.sum_congr rfl hin, Finset.sum_add_distrib, ← Finset.mul_sum, somme_axe m hm, Finset.sum_const, Finset.card_range, nsmul_eq_mul]
  push_cast
  field_simp
  ring

/-- **C96 (ASK).** For every `M ≥ 2` and `K2 ≠ 0`, `forme_onde_ask(M, K1, K2)` has `M` symbols from `K1` to `K1 + K2` at regular steps `K2/(M-1)`. -/
theorem C96_ask (M : ℕ) (hM : 2 ≤ M) (K1 K2 : ℝ) : ∃ c, askConstellation M K1 K2 = some c ∧ c.length = M ∧
    (∀ i (h : i < c.length), c[i] = (K1 + i * (K2 / ((M : ℝ) - 1)), 0)) ∧ c[M - 1]? = some (K1 + K2, 0) := by
  have hm1 : (M : ℝ) - 1 ≠ 0 := by
    have : (2 : ℝ) ≤ M := by exact_mod_cast hM
    linarith
  obtain ⟨hl, he, _⟩ := Util.C33_linspace (0 : ℝ) ((M : ℝ) - 1) M
  have helt : ∀ i, i < M → ((Util.linspace (0 : ℝ) ((M : ℝ) - 1) M).map fun v : ℝ => ((K1 + v * (K2 / ((M : ℝ) - 1)), 0) : ℝ × ℝ))[i]? =
      some (K1 + i * (K2 / ((M : ℝ) - 1)), 0) := by
    intro i hi
    rw [List.getElem?_map, he i hi, Option.map_some]
    congr 2
    rw [zero_add, sub_zero, div_self hm1, mul_one]
  refine ⟨(Util.linspace (0 : ℝ) ((M : ℝ) - 1) M).map fun v : ℝ => (K1 + v * (K2 / ((M : ℝ) - 1)), 0), ?_, by simp [hl], ?_, ?_⟩
  · unfold askConstellation
    rw [if_neg (by omega)]
  · intro i hi
    have := helt i (by simpa [hl] using hi)
    rw [List.getElem?_eq_getElem hi] at this
    exact Option.some.inj this
  · rw [helt (M - 1) (by omega)]
    congr 2
    rw [Nat.cast_sub (by omega), Nat.cast_one]
    field_simp

/-- **C96 (ASK, noise).** Any bit stream sent with an ASK of any size `M ≥ 2` and received with an error shorter than half the step is decoded back to the bits. -/
theorem C96_ask_bruit (M : ℕ) (hM : 2 ≤ M) (K1 K2 : ℝ) (hB : |K2| ≤ 10 ^ 40) (x : List Bool) : ∃ c y, askConstellation M K1 K2 = some c ∧
    genereSymboles c (nbBits M) x = some y ∧ y.length = (x.length + nbBits M - 1) / nbBits M ∧
    ∀ r, List.Forall₂ (fun r y => dist2 r y < (K2 / (2 * ((M : ℝ) - 1))) ^ 2) r y →
      decodeSymboles c (nbBits M) r = some (x ++ List.replicate (manque x.length (nbBits M)) false) := by
  obtain ⟨c, hc, hl, he, _⟩ := C96_ask M hM K1 K2
  have hm1 : (1 : ℝ) ≤ (M : ℝ) - 1 := by
    have : (2 : ℝ) ≤ M := by exact_mod_cast hM
    linarith
  have hK2 : K2 ^ 2 ≤ 10 ^ 80 := by
    rw [← sq_abs]
    calc |K2| ^ 2 ≤ (10 ^ 40) ^ 2 := pow_le_pow_left₀ (abs_nonneg _) hB 2
      _ = 10 ^ 80 := by norm_num
  have hq0 : (K2 / ((M : ℝ) - 1)) ^ 2 ≤ K2 ^ 2 := by
    rw [div_pow]
    apply div_le_self (sq_nonneg _)
    nlinarith
  have sq1 : ∀ i k : ℕ, i ≠ k → 1 ≤ ((i : ℝ) - k) ^ 2 := by
    intro i k h
    have : (1 : ℤ) ≤ ((i : ℤ) - k) ^ 2 := by
      have : ((i : ℤ) - k) ≠ 0 := by omega
      have := sq_pos_of_ne_zero this
      omega
    exact_mod_cast this
  have hd : ∀ i j (hi : i < c.length) (hj : j < c.length), dist2 c[i] c[j] = ((i : ℝ) - j) ^ 2 * (K2 / ((M : ℝ) - 1)) ^ 2 := by
    intro i j hi hj
    rw [he, he]
    simp only [dist2]
    ring
  obtain ⟨y, h1, h2, h3⟩ := chaine_bruit c (nbBits M) (Nat.log_pos (by norm_num) hM) (by rw [hl]; exact Nat.pow_log_le_self 2 (by omega))
    (symbolePlusProche c) ((K2 / ((M : ℝ) - 1)) ^ 2) (fun i h p hp => plusProche_marge c _ (10 ^ 80) (by norm_num) (hq0.trans hK2) (fun i j hi hj hij => by
      rw [hd]
      nlinarith [sq1 i j hij, sq_nonneg (K2 / ((M : ℝ) - 1))]) (by
      intro s hs t ht
      obtain ⟨i, hi, rfl⟩ := List.getElem_of_mem hs
      obtain ⟨j, hj, rfl⟩ := List.getElem_of_mem ht
      rw [hd, div_pow, mul_div_assoc', div_le_iff₀ (by positivity)]
      have h5 : ((i : ℝ) - j) ^ 2 ≤ ((M : ℝ) - 1) ^ 2 := by
        have hi' : (i : ℝ) + 1 ≤ M := by exact_mod_cast (by omega : i + 1 ≤ M)
        have hj' : (j : ℝ) + 1 ≤ M := by exact_mod_cast (by omega : j + 1 ≤ M)
        have i0 : (0 : ℝ) ≤ i := Nat.cast_nonneg i
        have j0 : (0 : ℝ) ≤ j := Nat.cast_nonneg j
        apply sq_le_sq'
        · linarith
        · linarith
      calc ((i : ℝ) - j) ^ 2 * K2 ^ 2 ≤ ((M : ℝ) - 1) ^ 2 * 10 ^ 80 := mul_le_mul h5 hK2 (sq_nonneg _) (sq_nonneg _)
        _ = 10 ^ 80 * ((M : ℝ) - 1) ^ 2 := by ring) i h p hp) x
  refine ⟨c, y, hc, h1, h2, fun r hr => ?_⟩
  have h := h3 r (hr.imp fun a b hab => by
    rw [show (K2 / ((M : ℝ) - 1)) ^ 2 = 4 * (K2 / (2 * ((M : ℝ) - 1))) ^ 2 by rw [mul_comm 2, ← div_div]; ring]
    linarith)
  unfold decodeSymboles
  cases hx : r.mapM (symbolePlusProche c) with
  | none => rw [hx] at h; simp at h
  | some s =>
    rw [hx] at h
    exact h

/-- **C96 (rejected sizes).** A QAM of non-square size throws; the sizes `M = 1` of the three waveforms divide by zero. -/
theorem C96_rejets : (∀ M, (∀ m, m * m ≠ M) → qamConstellation M = none) ∧ qamConstellation 1 = none ∧ (∀ K1 K2, askConstellation 1 K1 K2 = none) := by
  refine ⟨fun M hM => ?_, ?_, fun K1 K2 => by simp [askConstellation]⟩
  · unfold qamConstellation
    simp only []
    rw [if_pos (Or.inl (hM _))]
  · unfold qamConstellation
    simp only []
    rw [if_pos (Or.inr (by simp))]

/-- Non-vacuity: a stream of 7 bits through the π/4-QPSK has 4 symbols, and the transmitted symbols themselves satisfy the hypothesis on the noise. -/
example : ∃ y, pi4Genere [true, false, true, true, false, false, true] = some y ∧ y.length = 4 ∧ List.Forall₂ (fun r y => dist2 r y < 1 / 2) y y := by
  obtain ⟨y, h1, h2, _⟩ := C95_bruit [true, false, true, true, false, false, true]
  refine ⟨y, h1, h2, ?_⟩
  rw [List.forall₂_same]
  intro s _
  simp [dist2]

end Verif.Telecom
