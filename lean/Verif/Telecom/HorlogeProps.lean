import Verif.Telecom.Horloge
import Verif.Filtre.Props
import Mathlib.Tactic.Linarith
import Mathlib.Tactic.FieldSimp
import Mathlib.Tactic.Ring

/-!
# C106: clock recovery
-/

namespace Verif.Telecom

/-! ### Specification: the recovery without limit on the number of symbols -/

theorem correction_borne (c : ConfigHorloge) (e : ℝ) : |correctionHorloge c e| ≤ (c.K1 : ℝ) / 4 := by
  unfold correctionHorloge
  have : (0 : ℝ) ≤ (c.K1 : ℝ) := Nat.cast_nonneg _
  rw [abs_le]
  constructor
  · exact le_trans (by linarith) (le_max_left _ _)
  · exact max_le (by linarith) (min_le_right _ _)

/-- Monotony in the room. -/
theorem boucle_place (c : ConfigHorloge) (l : List ℂ) (p : ℕ) (s : Horloge) (r : Horloge × List ℂ) (h : Horloge.boucle c p s l = some r) (q : ℕ) :
    r.2.length ≤ p ∧ (r.2.length ≤ q → Horloge.boucle c q s l = some r) ∧ (q < r.2.length → Horloge.boucle c q s l = none) := by
  induction l generalizing p q s r with
  | nil =>
    simp only [Horloge.boucle, Option.some.injEq] at h
    subst h
    exact ⟨by simp, fun _ => rfl, fun hq => by simp at hq⟩
  | cons x l ih =>
    simp only [Horloge.boucle] at h ⊢
    obtain ⟨⟨s1, o⟩, h1, h⟩ := Option.bind_eq_some_iff.1 h
    rw [h1]
    simp only [Option.bind_some]
    cases o with
    | none => exact ih p s1 r h q
    | some v =>
      cases p with
      | zero => simp at h
      | succ p =>
        simp only at h
        obtain ⟨t, ht, rfl⟩ := Option.map_eq_some_iff.1 h
        dsimp only
        cases q with
        | zero => exact ⟨by have := (ih p s1 t ht 0).1; simpa using this, fun hq => by simp at hq, fun _ => rfl⟩
        | succ q =>
          obtain ⟨a, b, d⟩ := ih p s1 t ht q
          refine ⟨by simpa using a, fun hq => ?_, fun hq => ?_⟩
          · show Option.map _ (Horloge.boucle c q s1 l) = _
            rw [b (by simpa using hq)]; rfl
          · show Option.map _ (Horloge.boucle c q s1 l) = _
            rw [d (by simpa using hq)]; rfl

theorem boucle_append (c : ConfigHorloge) (a b : List ℂ) (p q : ℕ) (s sa sb : Horloge) (ya yb : List ℂ) (ha : Horloge.boucle c p s a = some (sa, ya)) (hb : Horloge.boucle c q sa b = some (sb, yb)) :
    Horloge.boucle c (ya.length + yb.length) s (a ++ b) = some (sb, ya ++ yb) := by
  induction a generalizing p s ya with
  | nil =>
    simp only [Horloge.boucle, Option.some.injEq, Prod.mk.injEq] at ha
    obtain ⟨rfl, rfl⟩ := ha
    simpa using (boucle_place c b q s _ hb yb.length).2.1 le_rfl
  | cons x a ih =>
    simp only [Horloge.boucle, List.cons_append] at ha ⊢
    obtain ⟨⟨s1, o⟩, h1, h⟩ := Option.bind_eq_some_iff.1 ha
    rw [h1]
    simp only [Option.bind_some]
    cases o with
    | none => exact ih p s1 ya h
    | some v =>
      cases p with
      | zero => simp at h
      | succ p =>
        simp only at h
        obtain ⟨t, ht, h⟩ := Option.map_eq_some_iff.1 h
        simp only [Prod.mk.injEq] at h
        obtain ⟨rfl, rfl⟩ := h
        have := ih p s1 t.2 ht
        rw [List.length_cons, show t.2.length + 1 + yb.length = (t.2.length + yb.length) + 1 by omega]
        show Option.map _ (Horloge.boucle c (t.2.length + yb.length) s1 (a ++ b)) = _
        rw [this]
        rfl

/-- **C106 (cutting).** If two consecutive blocks are accepted, the outputs of the whole signal are the concatenation of the outputs of the blocks, unless they exceed the room `2 + n/osf` of one call, in which case the
call with the whole signal fails. -/
theorem C106_decoupe_partial (c : ConfigHorloge) (a b : List ℂ) (s sa sb : Horloge) (ya yb : List ℂ) (ha : s.step c a = some (sa, ya)) (hb : sa.step c b = some (sb, yb)) :
    s.step c (a ++ b) = if ya.length + yb.length ≤ 2 + (a.length + b.length) / c.K1 then some (sb, ya ++ yb) else none := by
  unfold Horloge.step at ha hb ⊢
  split at ha
  · cases ha
  rename_i hK
  rw [if_neg hK] at hb ⊢
  have h := boucle_place c (a ++ b) _ s _ (boucle_append c a b _ _ s sa sb ya yb ha hb) (2 + (a ++ b).length / c.K1)
  simp only [List.length_append] at h ⊢
  split_ifs with hl
  · exact h.2.1 hl
  · exact h.2.2 (by omega)

/-! ### Rate -/

/-- Reasonable configurations: `osf / K2` is at least `1 + osf/4`, so that the next interpolation is never in the past. For the Gardner detector (`K2 = 2`) this is `osf ≥ 4`. -/
def Saine (c : ConfigHorloge) : Prop := 0 < c.K2 ∧ 0 < c.K ∧ 2 < c.K1 ∧ (1 : ℝ) ≤ (c.K1 : ℝ) / c.K2 - (c.K1 : ℝ) / 4

/-- Window of the interpolator. -/
def Fenetre (c : ConfigHorloge) (s : Horloge) : Prop := s.fen.length = c.K ∧ s.idx < c.K

/-- One sample in a reasonable configuration. -/
theorem pas_saine {c : ConfigHorloge} (hc : Saine c) (hi : ∀ w i τ, w.length = c.K → i < c.K → 0 < τ → τ ≤ 1 → (c.itrp w i τ).isSome) {s : Horloge} (hs : 1 < s.phase) (hn : s.cnt < c.K2) (hw : Fenetre c s) (x : ℂ) :
    ∃ s' o, s.pas c x = some (s', o) ∧ 1 < s'.phase ∧ s'.cnt < c.K2 ∧ Fenetre c s' ∧
      ((o = none ∧ s'.phase + (c.K1 : ℝ) / c.K2 * s.cnt = s.phase - 1 + (c.K1 : ℝ) / c.K2 * s'.cnt) ∨
       ((∃ v, o = some v) ∧ s.cnt + 1 = c.K2 ∧ s'.cnt = 0 ∧ s.phase ≤ 2 ∧ |s'.phase - (s.phase - 1 + (c.K1 : ℝ) / c.K2)| ≤ (c.K1 : ℝ) / 4)) := by
  obtain ⟨h1, h2, h3, h4⟩ := hc
  have hK1 : (0 : ℝ) ≤ c.K1 := Nat.cast_nonneg _
  have hw' : (s.fen.set s.idx x).length = c.K ∧ (s.idx + 1) % c.K < c.K := ⟨by rw [List.length_set]; exact hw.1, Nat.mod_lt _ h2⟩
  unfold Horloge.pas
  rw [if_neg (by omega)]
  dsimp only
  by_cases hp : 1 < s.phase - 1
  · rw [if_pos hp]
    exact ⟨_, none, rfl, hp, hn, hw', Or.inl ⟨rfl, rfl⟩⟩
  · rw [if_neg hp]
    obtain ⟨v, hv⟩ := Option.isSome_iff_exists.1 (hi (s.fen.set s.idx x) ((s.idx + 1) % c.K) (s.phase - 1) hw'.1 hw'.2 (by linarith) (by linarith))
    rw [hv, Option.map_some]
    by_cases hl : s.cnt = c.K2 - 1
    · rw [if_pos hl]
      have hb := correction_borne c (erreurHorloge s.x1 s.x2 v)
      refine ⟨_, some v, rfl, ?_, h1, hw', Or.inr ⟨⟨v, rfl⟩, by omega, rfl, by linarith, ?_⟩⟩
      · have := (abs_le.1 hb).2
        show 1 < s.phase - 1 + (c.K1 : ℝ) / c.K2 - correctionHorloge c (erreurHorloge s.x1 s.x2 v)
        linarith
      · show |s.phase - 1 + (c.K1 : ℝ) / c.K2 - correctionHorloge c (erreurHorloge s.x1 s.x2 v) - (s.phase - 1 + (c.K1 : ℝ) / c.K2)| ≤ _
        rw [show s.phase - 1 + (c.K1 : ℝ) / c.K2 - correctionHorloge c (erreurHorloge s.x1 s.x2 v) - (s.phase - 1 + (c.K1 : ℝ) / c.K2) = -correctionHorloge c (erreurHorloge s.x1 s.x2 v) by ring, abs_neg]
        exact hb
    · rw [if_neg hl]
      refine ⟨_, none, rfl, ?_, by show s.cnt + 1 < c.K2; omega, hw', Or.inl ⟨rfl, ?_⟩⟩
      · show 1 < s.phase - 1 + (c.K1 : ℝ) / c.K2
        linarith
      · show s.phase - 1 + (c.K1 : ℝ) / c.K2 + (c.K1 : ℝ) / c.K2 * s.cnt = s.phase - 1 + (c.K1 : ℝ) / c.K2 * ((s.cnt + 1 : ℕ) : ℝ)
        push_cast; ring

theorem boucle_saine {c : ConfigHorloge} (hc : Saine c) (hi : ∀ w i τ, w.length = c.K → i < c.K → 0 < τ → τ ≤ 1 → (c.itrp w i τ).isSome) (l : List ℂ) (s : Horloge) (hs : 1 < s.phase) (hn : s.cnt < c.K2) (hw : Fenetre c s) :
    ∃ s' y, (∀ p, y.length ≤ p → Horloge.boucle c p s l = some (s', y)) ∧ (∀ p, p < y.length → Horloge.boucle c p s l = none) ∧ 1 < s'.phase ∧ s'.cnt < c.K2 ∧ Fenetre c s' ∧
      (0 < y.length → s.phase - 1 + (c.K1 : ℝ) / c.K2 * (c.K2 - 1 - s.cnt) + ((y.length : ℝ) - 1) * (3 / 4 * c.K1) ≤ l.length) ∧
      (l.length : ℝ) ≤ s.phase + (c.K1 : ℝ) / c.K2 * (c.K2 - 1 - s.cnt) + y.length * (5 / 4 * c.K1) := by
  have h1 := hc.1
  have hK2 : (0 : ℝ) < c.K2 := by exact_mod_cast h1
  have hK1 : (0 : ℝ) < c.K1 := by exact_mod_cast (by have := hc.2.2.1; omega : 0 < c.K1)
  have hr : (c.K1 : ℝ) / c.K2 * c.K2 = c.K1 := by field_simp
  have hr0 : 0 < (c.K1 : ℝ) / c.K2 := by positivity
  generalize hR : (c.K1 : ℝ) / c.K2 = R at *
  induction l generalizing s with
  | nil =>
    refine ⟨s, [], fun _ _ => by simp [Horloge.boucle], fun p hp => by simp at hp, hs, hn, hw, fun h => by simp at h, ?_⟩
    have : (s.cnt : ℝ) + 1 ≤ c.K2 := by exact_mod_cast hn
    have := mul_nonneg hr0.le (by linarith : 0 ≤ (c.K2 : ℝ) - 1 - s.cnt)
    simp
    linarith
  | cons x l ih =>
    obtain ⟨s1, o, e, hp1, hn1, hw1, ho⟩ := pas_saine hc hi hs hn hw x
    obtain ⟨s', y, f1, f2, f3, f4, f4w, f5, f6⟩ := ih s1 hp1 hn1 hw1
    rw [hR] at ho
    rcases ho with ⟨rfl, he⟩ | ⟨⟨v, rfl⟩, hl, h0, hp, he⟩
    · refine ⟨s', y, fun p hp => by simp [Horloge.boucle, e, f1 p hp], fun p hp => by simp [Horloge.boucle, e, f2 p hp], f3, f4, f4w, fun hy => ?_, ?_⟩
      · have := f5 hy
        push_cast [List.length_cons]
        nlinarith
      · push_cast [List.length_cons]
        nlinarith
    · refine ⟨s', v :: y, fun p hp => ?_, fun p hp => ?_, f3, f4, f4w, fun _ => ?_, ?_⟩
      · cases p with
        | zero => simp at hp
        | succ p => simp [Horloge.boucle, e, f1 p (by simpa using hp)]
      · cases p with
        | zero => simp [Horloge.boucle, e]
        | succ p => simp [Horloge.boucle, e, f2 p (by simpa using hp)]
      · have hcl : (c.K2 : ℝ) - 1 - s.cnt = 0 := by rw [← hl]; push_cast; ring
        rw [hcl]
        push_cast [List.length_cons]
        rcases Nat.eq_zero_or_pos y.length with hy | hy
        · rw [hy]
          have : (0 : ℝ) ≤ l.length := Nat.cast_nonneg _
          simp
          linarith
        · have := f5 hy
          rw [h0] at this
          have := (abs_le.1 he).1
          push_cast at *
          nlinarith
      · have hcl : (c.K2 : ℝ) - 1 - s.cnt = 0 := by rw [← hl]; push_cast; ring
        rw [hcl]
        rw [h0] at f6
        have := (abs_le.1 he).2
        push_cast [List.length_cons] at *
        nlinarith

theorem place_suffit (K n m : ℕ) (hK : 0 < K) (hn : n < 3 * K) (h : ((m : ℝ) - 1) * (3 / 4 * K) < n) : m ≤ 2 + n / K := by
  by_contra hc
  have hq := Nat.div_add_mod n K
  have hr := Nat.mod_lt n hK
  generalize n / K = q at *
  generalize n % K = r at *
  have hq3 : q < 3 := by
    by_contra h3
    have := Nat.mul_le_mul_left K (by omega : 3 ≤ q)
    omega
  have hm : (q : ℝ) + 3 ≤ m := by exact_mod_cast (by omega : q + 3 ≤ m)
  have hnn : (n : ℝ) < (q + 1) * K := by
    have : n < (q + 1) * K := by nlinarith
    exact_mod_cast this
  have hq2 : (q : ℝ) ≤ 2 := by exact_mod_cast (by omega : q ≤ 2)
  have hK0 : (0 : ℝ) < K := by exact_mod_cast hK
  have h1 : ((q : ℝ) + 2) * (3 / 4 * K) < (q + 1) * K := by nlinarith
  nlinarith

/-- A block shorter than three symbols is always accepted. -/
theorem step_court {c : ConfigHorloge} (hc : Saine c) (hi : ∀ w i τ, w.length = c.K → i < c.K → 0 < τ → τ ≤ 1 → (c.itrp w i τ).isSome) (l : List ℂ) (hl : l.length < 3 * c.K1) (s : Horloge) (hs : 1 < s.phase) (hn : s.cnt < c.K2) (hw : Fenetre c s) :
    ∃ s' y, s.step c l = some (s', y) ∧ 1 < s'.phase ∧ s'.cnt < c.K2 ∧ Fenetre c s' := by
  obtain ⟨s', y, f1, -, f3, f4, f4w, f5, -⟩ := boucle_saine hc hi l s hs hn hw
  have hK := hc.2.2.1
  refine ⟨s', y, ?_, f3, f4, f4w⟩
  unfold Horloge.step
  rw [if_neg (by omega)]
  apply f1
  rcases Nat.eq_zero_or_pos y.length with h0 | h0
  · rw [h0]; exact Nat.zero_le _
  · apply place_suffit c.K1 _ _ (by omega) hl
    have h5 := f5 h0
    have h6 : (0 : ℝ) ≤ (c.K1 : ℝ) / c.K2 * (c.K2 - 1 - s.cnt) := by
      have : (s.cnt : ℝ) + 1 ≤ c.K2 := by exact_mod_cast hn
      exact mul_nonneg (by positivity) (by linarith)
    linarith

theorem appels_courts {c : ConfigHorloge} (hc : Saine c) (hi : ∀ w i τ, w.length = c.K → i < c.K → 0 < τ → τ ≤ 1 → (c.itrp w i τ).isSome) (b : List (List ℂ)) (hb : ∀ l ∈ b, l.length < 3 * c.K1) (s : Horloge) (hs : 1 < s.phase)
    (hn : s.cnt < c.K2) (hw : Fenetre c s) : ∃ s' y, Filtre.enchaine (Horloge.step c) s b = some (s', y) ∧ Horloge.boucle c y.length s b.flatten = some (s', y) := by
  induction b generalizing s with
  | nil => exact ⟨s, [], rfl, by simp [Horloge.boucle]⟩
  | cons l b ih =>
    obtain ⟨s1, y1, e1, h1, h2, h3⟩ := step_court hc hi l (hb l (by simp)) s hs hn hw
    obtain ⟨s2, y2, e2, e3⟩ := ih (fun l' h => hb l' (by simp [h])) s1 h1 h2 h3
    refine ⟨s2, y1 ++ y2, by simp [Filtre.enchaine, e1, e2], ?_⟩
    rw [List.flatten_cons, List.length_append]
    unfold Horloge.step at e1
    split at e1
    · cases e1
    · exact boucle_append c l b.flatten _ _ s s1 s2 y1 y2 e1 e3

/-- **C106 (rate).** Whatever the signal, in a reasonable configuration (Gardner: `osf ≥ 4`), calls with less than three symbols of samples never fail, the abscissas of the interpolations are always in `(0, 1]`, and the
number `m` of symbols after `n` samples is that of symbols whose durations are between `3/4` and `5/4` of the nominal duration `osf`. -/
theorem C106_cadence_partial (c : ConfigHorloge) (hc : Saine c) (hi : ∀ w i τ, w.length = c.K → i < c.K → 0 < τ → τ ≤ 1 → (c.itrp w i τ).isSome) (b : List (List ℂ)) (hb : ∀ l ∈ b, l.length < 3 * c.K1) :
    ∃ s0 s y, Horloge.cree c = some s0 ∧ Filtre.enchaine (Horloge.step c) s0 b = some (s, y) ∧
      (y ≠ [] → (c.K1 : ℝ) / 2 - 1 + (c.K1 - (c.K1 : ℝ) / c.K2) + ((y.length : ℝ) - 1) * (3 / 4 * c.K1) ≤ b.flatten.length) ∧
      (b.flatten.length : ℝ) ≤ (c.K1 : ℝ) / 2 + (c.K1 - (c.K1 : ℝ) / c.K2) + y.length * (5 / 4 * c.K1) := by
  have h1 := hc.1
  have hK2 : (0 : ℝ) < c.K2 := by exact_mod_cast h1
  have hK1 : (2 : ℝ) < c.K1 := by exact_mod_cast hc.2.2.1
  have hp : (1 : ℝ) < (c.K1 : ℝ) / 2 := by linarith
  obtain ⟨s, y, e1, e2⟩ := appels_courts hc hi b hb ⟨(c.K1 : ℝ) / 2, 0, List.replicate c.K 0, 0, 0, 0, 0⟩ hp h1 ⟨by simp, hc.2.1⟩
  obtain ⟨s', y', f1, f2, -, -, -, f5, f6⟩ := boucle_saine hc hi b.flatten ⟨(c.K1 : ℝ) / 2, 0, List.replicate c.K 0, 0, 0, 0, 0⟩ hp h1 ⟨by simp, hc.2.1⟩
  have hy : y' = y := by
    have hle : y'.length ≤ y.length := by
      by_contra hlt
      rw [f2 y.length (by omega)] at e2
      cases e2
    have := f1 y.length hle
    rw [e2] at this
    simp only [Option.some.injEq, Prod.mk.injEq] at this
    exact this.2.symm
  subst hy
  have hr : (c.K1 : ℝ) / c.K2 * ((c.K2 : ℝ) - 1 - ((0 : ℕ) : ℝ)) = c.K1 - (c.K1 : ℝ) / c.K2 := by field_simp; simp
  rw [hr] at f5 f6
  exact ⟨_, s, y', by rw [Horloge.cree, if_neg (by omega)], e1, fun h => f5 (List.length_pos_iff.2 h), f6⟩

/-- The Gardner detector (`K2 = 2`) with at least four samples per symbol is a reasonable configuration. -/
theorem gardner_saine (c : ConfigHorloge) (h2 : c.K2 = 2) (h4 : 4 ≤ c.K1) (hK : 0 < c.K) : Saine c := by
  refine ⟨by omega, hK, by omega, ?_⟩
  rw [h2]
  have : (4 : ℝ) ≤ c.K1 := by exact_mod_cast h4
  push_cast
  linarith

/-! ### Sense of the correction -/

/-- **C106 (sense).** On a transition that crosses zero with the slope `b`, sampled `τ` samples late (`x1 = bτ` at the middle, `x0`, `x2` half a symbol before and after), the correction has the sign of the delay and, if
`gain b² osf ≤ 2`, it does not increase the absolute value of the delay; null delay, null correction. -/
theorem C106_sens (c : ConfigHorloge) (htc : 0 < c.tc) (hK : 0 < c.K1) (b : ℂ) (τ : ℝ) :
    let d := correctionHorloge c (erreurHorloge (b * ((τ - (c.K1 : ℝ) / 2 : ℝ) : ℂ)) (b * (τ : ℂ)) (b * ((τ + (c.K1 : ℝ) / 2 : ℝ) : ℂ)))
    0 ≤ d * τ ∧ (τ = 0 → d = 0) ∧ (b ≠ 0 → τ ≠ 0 → d ≠ 0) ∧ (c.gain * ‖b‖ ^ 2 * c.K1 ≤ 2 → |τ - d| ≤ |τ|) := by
  have hK0 : (0 : ℝ) < c.K1 := by exact_mod_cast hK
  have hg : 0 < c.gain := by
    unfold ConfigHorloge.gain
    have : Real.exp (-1 / (c.tc * c.K1)) < 1 := by
      rw [Real.exp_lt_one_iff]
      exact div_neg_of_neg_of_pos (by norm_num) (by positivity)
    exact mul_pos hK0 (by linarith)
  have he : erreurHorloge (b * ((τ - (c.K1 : ℝ) / 2 : ℝ) : ℂ)) (b * (τ : ℂ)) (b * ((τ + (c.K1 : ℝ) / 2 : ℝ) : ℂ)) = ‖b‖ ^ 2 * c.K1 * τ := by
    unfold erreurHorloge
    rw [← Complex.normSq_eq_norm_sq, Complex.normSq_apply]
    simp
    ring
  intro d
  have hd : d = max (-(c.K1 : ℝ) / 4) (min (c.gain * (‖b‖ ^ 2 * c.K1 * τ)) ((c.K1 : ℝ) / 4)) := by show correctionHorloge c _ = _; rw [he]; rfl
  have hA : 0 ≤ c.gain * ‖b‖ ^ 2 * c.K1 := by positivity
  have hA' : b ≠ 0 → 0 < c.gain * ‖b‖ ^ 2 * c.K1 := fun hb => by have := norm_pos_iff.2 hb; positivity
  rw [show c.gain * (‖b‖ ^ 2 * c.K1 * τ) = (c.gain * ‖b‖ ^ 2 * c.K1) * τ by ring] at hd
  generalize c.gain * ‖b‖ ^ 2 * c.K1 = A at *
  clear_value d
  subst hd
  rcases lt_trichotomy τ 0 with h | h | h
  · have h1 : A * τ ≤ 0 := mul_nonpos_of_nonneg_of_nonpos hA h.le
    rw [min_eq_left (by linarith)]
    rcases le_total (-(c.K1 : ℝ) / 4) (A * τ) with h2 | h2
    · rw [max_eq_right h2]
      refine ⟨by nlinarith, fun h0 => by linarith, fun hb _ => (mul_neg_of_pos_of_neg (hA' hb) h).ne, fun hA2 => ?_⟩
      rw [abs_of_neg h, abs_le]
      constructor <;> nlinarith
    · rw [max_eq_left h2]
      refine ⟨by nlinarith, fun h0 => by linarith, fun _ _ => by linarith, fun hA2 => ?_⟩
      rw [abs_of_neg h, abs_le]
      constructor <;> nlinarith
  · subst h
    simp only [mul_zero, zero_sub, abs_neg]
    rw [min_eq_left (by linarith), max_eq_right (by linarith)]
    simp
  · have h1 : 0 ≤ A * τ := mul_nonneg hA h.le
    rcases le_total (A * τ) ((c.K1 : ℝ) / 4) with h2 | h2
    · rw [min_eq_left h2, max_eq_right (by linarith)]
      refine ⟨by nlinarith, fun h0 => by linarith, fun hb _ => (mul_pos (hA' hb) h).ne', fun hA2 => ?_⟩
      rw [abs_of_pos h, abs_le]
      constructor <;> nlinarith
    · rw [min_eq_right h2, max_eq_right (by linarith)]
      refine ⟨by nlinarith, fun h0 => by linarith, fun _ _ => by linarith, fun hA2 => ?_⟩
      rw [abs_of_pos h, abs_le]
      constructor <;> nlinarith

/-! ### Defects -/

/-- Linear interpolation in a circular window of two samples (`InterpolateurLineaire`, see C32), with the domain of the cubic splines for the abscissas (`C32_cspline_rejets`). -/
noncomputable def itrpLin (w : List ℂ) (i : ℕ) (τ : ℝ) : Option ℂ :=
  if τ ≤ -1 / 256 then none
  else match w[i % 2]?, w[(i + 1) % 2]? with
    | some a, some b => some ((1 - τ : ℝ) * a + (τ : ℝ) * b)
    | _, _ => none

theorem itrpLin_un (w : List ℂ) (hw : w.length = 2) (i : ℕ) (hi : i < 2) (x : ℂ) : itrpLin (w.set i x) ((i + 1) % 2) 1 = some x := by
  match w, hw with
  | [u, v], _ =>
    have : i = 0 ∨ i = 1 := by omega
    rcases this with rfl | rfl <;> norm_num [itrpLin]

theorem gain_pos (c : ConfigHorloge) (htc : 0 < c.tc) (hK : 0 < c.K1) : 0 < c.gain := by
  have hK0 : (0 : ℝ) < c.K1 := by exact_mod_cast hK
  unfold ConfigHorloge.gain
  have : Real.exp (-1 / (c.tc * c.K1)) < 1 := by
    rw [Real.exp_lt_one_iff]
    exact div_neg_of_neg_of_pos (by norm_num) (by positivity)
  exact mul_pos hK0 (by linarith)

theorem bloc_trois (tc : ℝ) (s : Horloge) (hp : s.phase = 2) (hn : s.cnt = 0) (hf : s.fen.length = 2) (hi : s.idx < 2) (a b d : ℂ)
    (he : 1 ≤ (⟨4, 2, tc, 2, itrpLin⟩ : ConfigHorloge).gain * ((d - s.x2) * (starRingEnd ℂ) a).re) (l : List ℂ) :
    ∃ s', s'.phase = 2 ∧ s'.cnt = 0 ∧ s'.fen.length = 2 ∧ s'.idx < 2 ∧ s'.x2 = d ∧
      Horloge.boucle ⟨4, 2, tc, 2, itrpLin⟩ 0 s (a :: b :: d :: l) = none ∧
      ∀ p, Horloge.boucle ⟨4, 2, tc, 2, itrpLin⟩ (p + 1) s (a :: b :: d :: l) = (Horloge.boucle ⟨4, 2, tc, 2, itrpLin⟩ p s' l).map fun q => (q.1, d :: q.2) := by
  generalize hc : (⟨4, 2, tc, 2, itrpLin⟩ : ConfigHorloge) = c at *
  have c1 : c.K1 = 4 := by rw [← hc]
  have c2 : c.K2 = 2 := by rw [← hc]
  have c3 : c.K = 2 := by rw [← hc]
  have c4 : c.itrp = itrpLin := by rw [← hc]
  have e1 : s.pas c a = some (⟨3, 1, s.fen.set s.idx a, (s.idx + 1) % 2, s.x1, s.x2, a⟩, none) := by
    unfold Horloge.pas
    rw [c3, if_neg (by norm_num)]
    dsimp only
    rw [hp, if_neg (by norm_num), c4, show (2 : ℝ) - 1 = 1 by norm_num, itrpLin_un _ hf _ hi, Option.map_some, hn, c2, if_neg (by norm_num), c1]
    norm_num
  have e2 : (⟨3, 1, s.fen.set s.idx a, (s.idx + 1) % 2, s.x1, s.x2, a⟩ : Horloge).pas c b =
      some (⟨2, 1, (s.fen.set s.idx a).set ((s.idx + 1) % 2) b, ((s.idx + 1) % 2 + 1) % 2, s.x1, s.x2, a⟩, none) := by
    unfold Horloge.pas
    rw [c3, if_neg (by norm_num)]
    dsimp only
    rw [if_pos (by norm_num), show (3 : ℝ) - 1 = 2 by norm_num]
  have hcor : correctionHorloge c (erreurHorloge s.x2 a d) = 1 := by
    unfold correctionHorloge erreurHorloge
    rw [c1]
    push_cast
    rw [min_eq_right (by linarith), max_eq_right (by norm_num)]
    norm_num
  have e3 : (⟨2, 1, (s.fen.set s.idx a).set ((s.idx + 1) % 2) b, ((s.idx + 1) % 2 + 1) % 2, s.x1, s.x2, a⟩ : Horloge).pas c d =
      some (⟨2, 0, ((s.fen.set s.idx a).set ((s.idx + 1) % 2) b).set (((s.idx + 1) % 2 + 1) % 2) d, (((s.idx + 1) % 2 + 1) % 2 + 1) % 2, s.x2, a, d⟩, some d) := by
    unfold Horloge.pas
    rw [c3, if_neg (by norm_num)]
    dsimp only
    rw [if_neg (by norm_num), c4, show (2 : ℝ) - 1 = 1 by norm_num, itrpLin_un _ (by simpa using hf) _ (by omega), Option.map_some, c2, if_pos (by norm_num), c1, hcor]
    norm_num
  refine ⟨⟨2, 0, ((s.fen.set s.idx a).set ((s.idx + 1) % 2) b).set (((s.idx + 1) % 2 + 1) % 2) d, (((s.idx + 1) % 2 + 1) % 2 + 1) % 2, s.x2, a, d⟩, rfl, rfl, by simpa using hf,
    Nat.mod_lt _ (by norm_num), rfl, ?_, fun p => ?_⟩
  · simp only [Horloge.boucle, e1, e2, e3, Option.bind_some]
  · simp only [Horloge.boucle, e1, e2, e3, Option.bind_some]

/-- Ramp of `m` blocks of three samples, from the block `k`. -/
noncomputable def rampe (A : ℝ) : ℕ → ℕ → List ℂ
  | _, 0 => []
  | k, m + 1 => ((A * (3 * k + 1) : ℝ) : ℂ) :: ((A * (3 * k + 2) : ℝ) : ℂ) :: ((A * (3 * k + 3) : ℝ) : ℂ) :: rampe A (k + 1) m

theorem rampe_longueur (A : ℝ) (k m : ℕ) : (rampe A k m).length = 3 * m := by
  induction m generalizing k with
  | zero => rfl
  | succ m ih => simp [rampe, ih]; omega

theorem rampe_deborde (tc A : ℝ) (hA : 1 ≤ A) (hg : 1 ≤ (⟨4, 2, tc, 2, itrpLin⟩ : ConfigHorloge).gain * A) (m : ℕ) (k p : ℕ) (hp : p < m) (s : Horloge) (h1 : s.phase = 2) (h2 : s.cnt = 0) (h3 : s.fen.length = 2)
    (h4 : s.idx < 2) (h5 : s.x2 = ((A * (3 * k) : ℝ) : ℂ)) : Horloge.boucle ⟨4, 2, tc, 2, itrpLin⟩ p s (rampe A k m) = none := by
  induction m generalizing k p s with
  | zero => omega
  | succ m ih =>
    obtain ⟨s', g1, g2, g3, g4, g5, g6, g7⟩ := bloc_trois tc s h1 h2 h3 h4 ((A * (3 * k + 1) : ℝ) : ℂ) ((A * (3 * k + 2) : ℝ) : ℂ) ((A * (3 * k + 3) : ℝ) : ℂ) (by
      rw [h5, Complex.conj_ofReal, ← Complex.ofReal_sub, ← Complex.ofReal_mul, Complex.ofReal_re]
      have hk : (0 : ℝ) ≤ k := Nat.cast_nonneg k
      generalize (⟨4, 2, tc, 2, itrpLin⟩ : ConfigHorloge).gain = g at *
      have h6 : (A * (3 * (k : ℝ) + 3) - A * (3 * k)) * (A * (3 * k + 1)) = A * (A * (3 * (3 * k + 1))) := by ring
      rw [h6, ← mul_assoc]
      have h7 : (1 : ℝ) ≤ A * (3 * (3 * k + 1)) := by nlinarith
      nlinarith) (rampe A (k + 1) m)
    rw [rampe]
    cases p with
    | zero => exact g6
    | succ p => rw [g7 p, ih (k + 1) p (by omega) s' g1 g2 g3 g4 (by rw [g5]; push_cast; ring_nf)]; rfl

/-- **C106 (overflow).** Gardner detector, four samples per symbol, linear interpolator: whatever the time constant there is a signal of 27 samples for which the assertion on the number of symbols of one call is
violated, though the same signal in three calls is accepted (`C106_cadence_partial`). -/
theorem C106_debordement_refute (tc : ℝ) (htc : 0 < tc) : ∃ s0, Horloge.cree ⟨4, 2, tc, 2, itrpLin⟩ = some s0 ∧ ∃ x : List ℂ, x.length = 27 ∧ s0.step ⟨4, 2, tc, 2, itrpLin⟩ x = none := by
  have hg := gain_pos ⟨4, 2, tc, 2, itrpLin⟩ htc (by norm_num)
  refine ⟨⟨2, 0, [0, 0], 0, 0, 0, 0⟩, by norm_num [Horloge.cree, List.replicate_succ], rampe (1 + 1 / (⟨4, 2, tc, 2, itrpLin⟩ : ConfigHorloge).gain) 0 9, rampe_longueur _ _ _, ?_⟩
  unfold Horloge.step
  rw [if_neg (by norm_num), rampe_longueur]
  refine rampe_deborde tc _ ?_ ?_ 9 0 _ (by norm_num) _ rfl rfl rfl (by norm_num) (by simp)
  · have : 0 ≤ 1 / (⟨4, 2, tc, 2, itrpLin⟩ : ConfigHorloge).gain := by positivity
    linarith
  · rw [mul_add, mul_one_div, div_self hg.ne']
    linarith

/-- **C106 (two samples per symbol).** With `osf = 2` the correction can put the next interpolation in the past: the abscissa is negative and the interpolator of cubic splines fails. Whatever the time constant, there is a signal
of 5 samples for which the call fails. -/
theorem C106_osf2_refute (tc : ℝ) (htc : 0 < tc) : ∃ s0, Horloge.cree ⟨2, 2, tc, 2, itrpLin⟩ = some s0 ∧ ∃ x : List ℂ, x.length = 5 ∧ s0.step ⟨2, 2, tc, 2, itrpLin⟩ x = none := by
  have hg := gain_pos ⟨2, 2, tc, 2, itrpLin⟩ htc (by norm_num)
  have hA : 1 ≤ 1 + 1 / (⟨2, 2, tc, 2, itrpLin⟩ : ConfigHorloge).gain := by
    have : 0 ≤ 1 / (⟨2, 2, tc, 2, itrpLin⟩ : ConfigHorloge).gain := by positivity
    linarith
  have hgA : 1 ≤ (⟨2, 2, tc, 2, itrpLin⟩ : ConfigHorloge).gain * (1 + 1 / (⟨2, 2, tc, 2, itrpLin⟩ : ConfigHorloge).gain) := by
    rw [mul_add, mul_one_div, div_self hg.ne']
    linarith
  generalize hc : (⟨2, 2, tc, 2, itrpLin⟩ : ConfigHorloge) = c at *
  have c1 : c.K1 = 2 := by rw [← hc]
  have c2 : c.K2 = 2 := by rw [← hc]
  have c3 : c.K = 2 := by rw [← hc]
  have c4 : c.itrp = itrpLin := by rw [← hc]
  generalize 1 + 1 / c.gain = A at *
  have z : erreurHorloge 0 0 0 = 0 := by simp [erreurHorloge]
  have k0 : correctionHorloge c 0 = 0 := by
    unfold correctionHorloge
    rw [c1]
    norm_num
  have k1 : correctionHorloge c (erreurHorloge 0 (A : ℂ) (A : ℂ)) = 1 / 2 := by
    unfold correctionHorloge erreurHorloge
    rw [c1, sub_zero, Complex.conj_ofReal, ← Complex.ofReal_mul, Complex.ofReal_re]
    have : 1 ≤ c.gain * (A * A) := by nlinarith
    push_cast
    rw [min_eq_right (by linarith), max_eq_right (by norm_num)]
    norm_num
  have e1 : (⟨1, 0, [0, 0], 0, 0, 0, 0⟩ : Horloge).pas c 0 = some (⟨1, 1, [0, 0], 1, 0, 0, 0⟩, none) := by
    norm_num [Horloge.pas, c1, c2, c3, c4, itrpLin]
  have e2 : (⟨1, 1, [0, 0], 1, 0, 0, 0⟩ : Horloge).pas c A = some (⟨1, 0, [0, A], 0, 0, 0, 0⟩, some 0) := by
    norm_num [Horloge.pas, c1, c2, c3, c4, itrpLin, z, k0]
  have e3 : (⟨1, 0, [0, (A : ℂ)], 0, 0, 0, 0⟩ : Horloge).pas c A = some (⟨1, 1, [A, A], 1, 0, 0, A⟩, none) := by
    norm_num [Horloge.pas, c1, c2, c3, c4, itrpLin]
  have e4 : (⟨1, 1, [(A : ℂ), A], 1, 0, 0, A⟩ : Horloge).pas c 0 = some (⟨1 / 2, 0, [A, 0], 0, 0, A, A⟩, some (A : ℂ)) := by
    norm_num [Horloge.pas, c1, c2, c3, c4, itrpLin, k1]
  have e5 : (⟨1 / 2, 0, [(A : ℂ), 0], 0, 0, A, A⟩ : Horloge).pas c 0 = none := by
    norm_num [Horloge.pas, c3, c4, itrpLin]
  refine ⟨⟨1, 0, [0, 0], 0, 0, 0, 0⟩, by norm_num [Horloge.cree, c1, c2, c3, List.replicate_succ], [0, (A : ℂ), A, 0, 0], rfl, ?_⟩
  unfold Horloge.step
  rw [c1, if_neg (by norm_num)]
  norm_num [Horloge.boucle, e1, e2, e3, e4, e5]

/-- Non-vacuity of `C106_cadence_partial`: Gardner detector, four samples per symbol, linear interpolator. -/
example : Saine ⟨4, 2, 5, 2, itrpLin⟩ ∧ ∀ w i τ, w.length = 2 → i < 2 → 0 < τ → τ ≤ 1 → (itrpLin w i τ).isSome := by
  refine ⟨gardner_saine _ rfl (by norm_num) (by norm_num), fun w i τ hw hi h0 h1 => ?_⟩
  match w, hw with
  | [u, v], _ =>
    have : i = 0 ∨ i = 1 := by omega
    have h2 : ¬ τ ≤ -1 / 256 := by linarith
    rcases this with rfl | rfl <;> simp [itrpLin, h2]

end Verif.Telecom
