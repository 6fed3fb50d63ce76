import Verif.Itrp.Props
import Mathlib.Tactic.Linarith

/-! # Interpolation filter (C57) and splitting of arbitrary ratios (C58) -/

namespace Verif.Itrp

set_option linter.unusedSectionVars false

open Verif.Filtre

variable {K : Type} [Field K] [LinearOrder K] [IsStrictOrderedRing K] [FloorRing K] {T : Type}

/-! ## Specification -/

/-- The `nf` last samples (oldest first) of the stream `x` when its sample `q` has just arrived, the past being `zero`. -/
def fenetreA (zero : T) (nf : Nat) (x : List T) (q : Nat) : List T := (List.replicate nf zero ++ x.take (q + 1)).drop (q + 1)

/-- The output `m` of an ideal interpolation filter: interpolation at the abscissa `m / ratio` of the input stream. -/
def sortieIdeale (zero : T) (nf : Nat) (g : List T → K → T) (ratio : K) (x : List T) (m : Nat) : T :=
  g (fenetreA zero nf x ⌊(m : K) / ratio⌋.toNat) (Int.fract ((m : K) / ratio))

/-! ## Number of outputs -/

/-- Number of outputs for `i` inputs. -/
def nbSorties (ratio : K) (i : Nat) : Nat := ⌈ratio * (i : K)⌉.toNat

theorem nb_cast (ratio : K) (hr : 0 < ratio) (i : Nat) : ((nbSorties ratio i : Nat) : Int) = ⌈ratio * (i : K)⌉ := by
  unfold nbSorties
  exact Int.toNat_of_nonneg (Int.ceil_nonneg (by positivity))

theorem nb_le (ratio : K) (hr : 0 < ratio) (i m : Nat) : nbSorties ratio i ≤ m ↔ (i : K) ≤ (m : K) * (1 / ratio) := by
  have h1 : nbSorties ratio i ≤ m ↔ ⌈ratio * (i : K)⌉ ≤ (m : Int) := by rw [← nb_cast ratio hr i]; exact_mod_cast Iff.rfl
  rw [h1, Int.ceil_le, Int.cast_natCast, mul_one_div, le_div_iff₀ hr, mul_comm]

theorem nb_mono (ratio : K) (hr : 0 < ratio) (i n : Nat) : nbSorties ratio i ≤ nbSorties ratio (i + n) := by
  rw [nb_le ratio hr]
  have := (nb_le ratio hr (i + n) _).1 le_rfl
  push_cast at this
  have hn : (0 : K) ≤ (n : K) := Nat.cast_nonneg n
  linarith

theorem nb_diff (ratio : K) (hr : 0 < ratio) (i n : Nat) : nbSorties ratio (i + n) - nbSorties ratio i ≤ (⌈ratio * (n : K)⌉ + 10).toNat := by
  have h1 := nb_cast ratio hr (i + n)
  have h2 := nb_cast ratio hr i
  have h3 : ⌈ratio * ((i + n : Nat) : K)⌉ ≤ ⌈ratio * (i : K)⌉ + ⌈ratio * (n : K)⌉ := by
    push_cast
    rw [mul_add]
    exact Int.ceil_add_le _ _
  omega

theorem nb_zero (ratio : K) : nbSorties ratio 0 = 0 := by simp [nbSorties]

/-! ## The loop -/

theorem sorties_some (itrp : List T → K → Option T) (g : List T → K → T) (inc : K) (fen : List T) (i : Nat)
    (hg : ∀ τ, 0 ≤ τ → τ < 1 → itrp fen τ = some (g fen τ)) (hinc : 0 < inc) (M : Nat) (hM : ((i : K) + 1) ≤ (M : K) * inc) :
    ∀ d m reste, m + d = M → (∀ m', m' < M → (m' : K) * inc < (i : K) + 1) → (i : K) ≤ (m : K) * inc → d ≤ reste →
      Ars.sorties itrp inc fen reste ((m : K) * inc - i) =
        some ((M : K) * inc - i, (List.range' m d).map (fun m' : Nat => g fen ((m' : K) * inc - i)), reste - d)
  | 0, m, reste, hm, _, _, _ => by
    have e : m = M := by omega
    subst e
    cases reste with
    | zero => rw [Ars.sorties, if_neg (by rw [not_lt]; linarith)]; simp
    | succ reste => rw [Ars.sorties, if_neg (by rw [not_lt]; linarith)]; simp
  | d + 1, m, reste, hm, hlt, hge, hr => by
    obtain ⟨r, rfl⟩ : ∃ r, reste = r + 1 := ⟨reste - 1, by omega⟩
    have h1 := hlt m (by omega)
    have hs : (m : K) * inc - i + inc = ((m + 1 : Nat) : K) * inc - i := by push_cast; ring
    rw [Ars.sorties, if_pos (by linarith), hg _ (by linarith) (by linarith)]
    simp only []
    rw [hs, sorties_some itrp g inc fen i hg hinc M hM d (m + 1) r (by omega) hlt (by push_cast; nlinarith) (by omega)]
    simp only [List.range'_succ, List.map_cons]
    congr 3
    omega

/-- The state after `i` samples of the stream `X`. -/
def Ars.Rep (zero : T) (nf : Nat) (ratio : K) (X : List T) (i : Nat) (s : Ars T K) : Prop :=
  s.phase = (nbSorties ratio i : K) * (1 / ratio) - i ∧ s.fenetre = (List.replicate nf zero ++ X.take i).drop i

theorem fenetre_suivante (zero : T) (nf : Nat) (hnf : 0 < nf) (X : List T) (i : Nat) (x : T) (hx : X[i]? = some x) :
    ((List.replicate nf zero ++ X.take i).drop i).drop 1 ++ [x] = (List.replicate nf zero ++ X.take (i + 1)).drop (i + 1) := by
  have hi : i < X.length := by
    by_contra hc
    rw [List.getElem?_eq_none (by omega)] at hx
    simp at hx
  rw [List.take_add_one, hx, Option.toList_some, ← List.append_assoc,
    List.drop_append_of_le_length (l₁ := List.replicate nf zero ++ X.take i) (by simp; omega), List.drop_drop]

theorem boucle_some (itrp : List T → K → Option T) (g : List T → K → T) (zero : T) (nf : Nat) (hnf : 0 < nf) (ratio : K) (hr : 0 < ratio)
    (hg : ∀ fen τ, fen.length = nf → 0 ≤ τ → τ < 1 → itrp fen τ = some (g fen τ)) (X : List T) :
    ∀ xs i reste s suite, Ars.Rep zero nf ratio X i s → X.drop i = xs ++ suite →
      nbSorties ratio (i + xs.length) - nbSorties ratio i ≤ reste →
      ∃ s', Ars.boucle itrp (1 / ratio) s reste xs = some (s', (List.range' (nbSorties ratio i)
        (nbSorties ratio (i + xs.length) - nbSorties ratio i)).map (sortieIdeale zero nf g ratio X)) ∧
        Ars.Rep zero nf ratio X (i + xs.length) s'
  | [], i, reste, s, suite, hrep, _, _ => ⟨s, by simp [Ars.boucle], hrep⟩
  | x :: xs, i, reste, s, suite, hrep, hX, hres => by
    have hget : X[i]? = some x := by
      have := congrArg (fun l => l[0]?) hX
      simpa using this
    have hi : i < X.length := by
      by_contra hc
      rw [List.getElem?_eq_none (by omega)] at hget
      simp at hget
    have hX' : X.drop (i + 1) = xs ++ suite := by
      have := congrArg (fun l => l.drop 1) hX
      simpa [List.drop_drop] using this
    have hlen : s.fenetre.length = nf := by rw [hrep.2]; simp; omega
    unfold Ars.boucle
    rw [if_neg (by omega)]
    simp only []
    rw [hrep.2, fenetre_suivante zero nf hnf X i x hget, hrep.1]
    have hinc : 0 < 1 / ratio := by positivity
    have m1 := nb_mono ratio hr i 1
    have m2 := nb_mono ratio hr (i + 1) xs.length
    have hlen2 : ((List.replicate nf zero ++ X.take (i + 1)).drop (i + 1)).length = nf := by simp; omega
    simp only [List.length_cons] at hres
    rw [show i + (xs.length + 1) = i + 1 + xs.length by omega] at hres
    have hsup := (nb_le ratio hr (i + 1) _).1 le_rfl
    push_cast at hsup
    have hinf : ∀ m', m' < nbSorties ratio (i + 1) → (m' : K) * (1 / ratio) < (i : K) + 1 := by
      intro m' hm'
      have := mt (nb_le ratio hr (i + 1) m').2 (by omega)
      push_cast at this
      exact not_le.1 this
    rw [sorties_some itrp g (1 / ratio) _ i (fun τ a b => hg _ τ hlen2 a b) hinc (nbSorties ratio (i + 1)) hsup
      (nbSorties ratio (i + 1) - nbSorties ratio i) (nbSorties ratio i) reste (by omega) hinf ((nb_le ratio hr i _).1 le_rfl) (by omega)]
    simp only []
    obtain ⟨s', e, hrep'⟩ := boucle_some itrp g zero nf hnf ratio hr hg X xs (i + 1) (reste - (nbSorties ratio (i + 1) - nbSorties ratio i))
      ⟨(nbSorties ratio (i + 1) : K) * (1 / ratio) - i - 1, (List.replicate nf zero ++ X.take (i + 1)).drop (i + 1)⟩ suite
      ⟨by push_cast; ring, rfl⟩ hX' (by omega)
    rw [e]
    refine ⟨s', ?_, by rw [List.length_cons, show i + (xs.length + 1) = i + 1 + xs.length by omega]; exact hrep'⟩
    simp only [List.length_cons]
    congr 2
    have hsplit : nbSorties ratio (i + (xs.length + 1)) - nbSorties ratio i =
        (nbSorties ratio (i + 1) - nbSorties ratio i) + (nbSorties ratio (i + 1 + xs.length) - nbSorties ratio (i + 1)) := by
      rw [show i + (xs.length + 1) = i + 1 + xs.length by omega]
      omega
    rw [hsplit, ← List.range'_append_1, List.map_append, show nbSorties ratio i + (nbSorties ratio (i + 1) - nbSorties ratio i) =
      nbSorties ratio (i + 1) by omega]
    congr 1
    refine List.map_congr_left fun m hm => ?_
    rw [List.mem_range'_1] at hm
    have hge := (nb_le ratio hr i m).1 hm.1
    have hlt := hinf m (by omega)
    rw [mul_one_div] at hge hlt
    have hfl : ⌊(m : K) / ratio⌋ = (i : Int) := by
      rw [Int.floor_eq_iff]
      exact ⟨by push_cast; exact hge, by push_cast; exact hlt⟩
    unfold sortieIdeale fenetreA
    rw [hfl, Int.toNat_natCast, Int.fract, hfl, mul_one_div]
    simp

/-- C57: for every division of the input in blocks, every ratio `> 0`, every window size and every interpolator defined on `[0, 1)`, the
interpolation filter succeeds (its internal buffer is always long enough) and outputs, all blocks together, `⌈ratio · N⌉` samples, the `m`-th
being the interpolation of the input stream at the abscissa `m / ratio`. -/
theorem C57_flux (itrp : List T → K → Option T) (g : List T → K → T) (zero : T) (nf : Nat) (hnf : 0 < nf) (ratio : K) (hr : 0 < ratio)
    (hg : ∀ fen τ, fen.length = nf → 0 ≤ τ → τ < 1 → itrp fen τ = some (g fen τ)) (blocs : List (List T)) :
    ∃ s, enchaine (Ars.step itrp ratio) (Ars.init zero nf) blocs =
      some (s, (List.range ⌈ratio * (blocs.flatten.length : K)⌉.toNat).map (sortieIdeale zero nf g ratio blocs.flatten)) := by
  have key : ∀ (X : List T) (bs : List (List T)) (i : Nat) (s : Ars T K), Ars.Rep zero nf ratio X i s → X.drop i = bs.flatten →
      ∃ s', enchaine (Ars.step itrp ratio) s bs = some (s', (List.range' (nbSorties ratio i)
        (nbSorties ratio (i + bs.flatten.length) - nbSorties ratio i)).map (sortieIdeale zero nf g ratio X)) := by
    intro X bs
    induction bs with
    | nil => intro i s _ _; exact ⟨s, by simp [enchaine]⟩
    | cons b bs ih =>
      intro i s hrep hX
      rw [List.flatten_cons] at hX
      obtain ⟨s1, e1, hrep1⟩ : ∃ s1, Ars.step itrp ratio s b = some (s1, (List.range' (nbSorties ratio i)
          (nbSorties ratio (i + b.length) - nbSorties ratio i)).map (sortieIdeale zero nf g ratio X)) ∧
          Ars.Rep zero nf ratio X (i + b.length) s1 := by
        unfold Ars.step
        by_cases hb : b.length = 0
        · rw [if_pos hb, hb]
          exact ⟨s, by simp, hrep⟩
        · rw [if_neg hb]
          exact boucle_some itrp g zero nf hnf ratio hr hg X b i _ s bs.flatten hrep hX (nb_diff ratio hr i b.length)
      have hX1 : X.drop (i + b.length) = bs.flatten := by
        rw [← List.drop_drop, hX, List.drop_left]
      obtain ⟨s2, e2⟩ := ih (i + b.length) s1 hrep1 hX1
      refine ⟨s2, ?_⟩
      rw [enchaine, e1]
      simp only []
      rw [e2]
      simp only []
      congr 2
      rw [List.flatten_cons, List.length_append, ← List.map_append]
      congr 1
      have m1 := nb_mono ratio hr i b.length
      have m2 := nb_mono ratio hr (i + b.length) bs.flatten.length
      have : nbSorties ratio (i + (b.length + bs.flatten.length)) - nbSorties ratio i = (nbSorties ratio (i + b.length) - nbSorties ratio i) +
          (nbSorties ratio (i + b.length + bs.flatten.length) - nbSorties ratio (i + b.length)) := by
        rw [← Nat.add_assoc]
        omega
      rw [this, ← List.range'_append_1, show nbSorties ratio i + (nbSorties ratio (i + b.length) - nbSorties ratio i) =
        nbSorties ratio (i + b.length) by omega]
  obtain ⟨s, e⟩ := key blocs.flatten blocs 0 (Ars.init zero nf)
    ⟨by simp [Ars.init, nb_zero], by simp [Ars.init]⟩ (by simp)
  refine ⟨s, ?_⟩
  rw [e, nb_zero, Nat.zero_add, Nat.sub_zero, List.range_eq_range']
  rfl

/-- The linear interpolator as used by the filter: `interpolateur->step(fenetre, 0, phase)`. -/
def itrpLin (fen : List K) (τ : K) : Option K := step 2 (coefsLin τ) fen 0

/-- C57: with the linear interpolator, an affine input `a + b i` gives the affine output `a + b (m / ratio - 1)` (as soon as the window is
full), whatever the blocks. -/
theorem C57_affine (a b ratio : K) (hr : 0 < ratio) (blocs : List (List K))
    (hx : ∀ i, i < blocs.flatten.length → blocs.flatten.getD i 0 = a + b * i) :
    ∃ s y, enchaine (Ars.step itrpLin ratio) (Ars.init 0 2) blocs = some (s, y) ∧
      y.length = ⌈ratio * (blocs.flatten.length : K)⌉.toNat ∧
      ∀ m, m < y.length → 1 ≤ (m : K) / ratio → y.getD m 0 = a + b * ((m : K) / ratio - 1) := by
  have hg : ∀ (fen : List K) (τ : K), fen.length = 2 → 0 ≤ τ → τ < 1 →
      itrpLin fen τ = some ((1 - τ) * fen.getD 0 0 + τ * fen.getD 1 0) := by
    intro fen τ hl _ _
    match fen, hl with
    | [u, v], _ => simp [itrpLin, step, stepBoucle, coefsLin]
  obtain ⟨s, e⟩ := C57_flux itrpLin _ (0 : K) 2 (by omega) ratio hr hg blocs
  refine ⟨s, _, e, by simp, fun m hm h1 => ?_⟩
  rw [List.length_map, List.length_range] at hm
  rw [List.getD_eq_getElem _ _ (by simpa using hm)]
  simp only [List.getElem_map, List.getElem_range]
  have h0 : 0 ≤ (m : K) / ratio := by positivity
  have hm2 : (m : K) / ratio < blocs.flatten.length := by
    have := mt (nb_le ratio hr blocs.flatten.length m).2 (by unfold nbSorties; omega)
    rw [mul_one_div] at this
    exact not_le.1 this
  generalize hX : blocs.flatten = X at *
  obtain ⟨q, hq⟩ : ∃ q : Nat, ⌊(m : K) / ratio⌋ = q + 1 := by
    have : 1 ≤ ⌊(m : K) / ratio⌋ := Int.le_floor.2 (by exact_mod_cast h1)
    exact ⟨(⌊(m : K) / ratio⌋ - 1).toNat, by omega⟩
  have hqx : q + 1 < X.length := by
    have h2 := Int.floor_le ((m : K) / ratio)
    rw [hq] at h2
    have h3 := lt_of_le_of_lt h2 hm2
    push_cast at h3
    exact_mod_cast h3
  have hfr : Int.fract ((m : K) / ratio) = (m : K) / ratio - ((q : K) + 1) := by rw [Int.fract, hq]; push_cast; ring
  unfold sortieIdeale fenetreA
  rw [hq, hfr, show ((q : Int) + 1).toNat = q + 1 by omega]
  have g0 : ((List.replicate 2 (0 : K) ++ X.take (q + 1 + 1)).drop (q + 1 + 1)).getD 0 0 = X.getD q 0 := by
    rw [List.getD_eq_getElem?_getD, List.getElem?_drop, List.getElem?_append_right (by simp), List.getElem?_take]
    simp only [List.length_replicate]
    rw [if_pos (by omega), show q + 1 + 1 + 0 - 2 = q by omega, List.getD_eq_getElem?_getD]
  have g1 : ((List.replicate 2 (0 : K) ++ X.take (q + 1 + 1)).drop (q + 1 + 1)).getD 1 0 = X.getD (q + 1) 0 := by
    rw [List.getD_eq_getElem?_getD, List.getElem?_drop, List.getElem?_append_right (by simp), List.getElem?_take]
    simp only [List.length_replicate]
    rw [if_pos (by omega), show q + 1 + 1 + 1 - 2 = q + 1 by omega, List.getD_eq_getElem?_getD]
  simp only []
  rw [g0, g1, hx q (by omega), hx (q + 1) hqx]
  push_cast
  ring

example : ((Ars.step itrpLin (2 : ℚ) (Ars.init 0 2) [1, 2, 3]).map Prod.snd) = some [0, 1 / 2, 1, 3 / 2, 2, 5 / 2] := by
  have h : ⌈(2 : ℚ) * ((([1, 2, 3] : List ℚ).length : Nat) : ℚ)⌉ = 6 := by
    rw [show (2 : ℚ) * ((([1, 2, 3] : List ℚ).length : Nat) : ℚ) = ((6 : Int) : ℚ) by norm_num, Int.ceil_intCast]
  unfold Ars.step
  rw [h]
  rw [show ((6 : Int) + 10).toNat = 16 from rfl]
  norm_num [Ars.boucle, Ars.sorties, itrpLin, step, stepBoucle, coefsLin, Ars.init]

/-! ## C58 -/

theorem monte_some : ∀ fuel (f : K), 0 < f → 1 / 2 ≤ f * 2 ^ fuel → ∃ n f', monte fuel f = some (n, f') ∧ f' = f * 2 ^ n ∧ 1 / 2 ≤ f' ∧
    (f' < 1 ∨ n = 0)
  | 0, f, h0, h => ⟨0, f, by rw [monte, if_neg (by rw [not_lt]; simpa using h)], by simp, by simpa using h, .inr rfl⟩
  | fuel + 1, f, h0, h => by
    by_cases hf : f < 1 / 2
    · obtain ⟨n, f', e, h1, h2, h3⟩ := monte_some fuel (f * 2) (by linarith) (by rw [mul_assoc, ← pow_succ']; exact h)
      refine ⟨n + 1, f', by rw [monte, if_pos hf, e]; rfl, by rw [h1, pow_succ]; ring, h2, ?_⟩
      rcases h3 with h3 | h3
      · exact .inl h3
      · left; rw [h1, h3]; linarith
    · exact ⟨0, f, by rw [monte, if_neg hf], by simp, not_lt.1 hf, .inr rfl⟩

theorem descend_some : ∀ fuel (f : K), 1 / 2 ≤ f → f < 2 * 2 ^ fuel → ∃ n f', descend fuel f = some (n, f') ∧ f = f' * 2 ^ n ∧ 1 / 2 ≤ f' ∧
    f' < 2 ∧ (n = 0 ∨ 2 ≤ f)
  | 0, f, h0, h => ⟨0, f, by rw [descend, if_neg (by simpa using h)], by simp, h0, by simpa using h, .inl rfl⟩
  | fuel + 1, f, h0, h => by
    by_cases hf : f ≥ 2
    · obtain ⟨n, f', e, h1, h2, h3, h4⟩ := descend_some fuel (f / 2) (by linarith) (by rw [pow_succ] at h; linarith)
      refine ⟨n + 1, f', by rw [descend, if_pos hf, e]; rfl, by rw [pow_succ, ← mul_assoc, ← h1]; ring, h2, h3, .inr hf⟩
    · exact ⟨0, f, by rw [descend, if_neg hf], by simp, h0, not_le.1 hf, .inl rfl⟩

/-- C58: every admissible ratio (positive, below 10⁹, at least the smallest positive `float`) is split in `nd` decimations by 2 or `nu`
over-samplings by 2 (not both) and a remaining ratio in `[1/2, 2)` whose combination is exactly the ratio. -/
theorem C58_decoupe (ratio : K) (h0 : 1 / 2 ^ 149 ≤ ratio) (h1 : ratio < 1000000000) :
    ∃ nd nu f, decoupe 149 ratio = some (nd, nu, f) ∧ ratio * 2 ^ nd = f * 2 ^ nu ∧ 1 / 2 ≤ f ∧ f < 2 ∧ (nd = 0 ∨ nu = 0) := by
  have hp : 0 < ratio := lt_of_lt_of_le (by positivity) h0
  unfold decoupe
  rw [if_neg (by rw [not_or, not_le, not_le]; exact ⟨hp, h1⟩)]
  obtain ⟨nd, f, e, a, b, c⟩ := monte_some 149 ratio hp (by
    rw [div_le_iff₀ (by positivity)] at h0
    linarith)
  have hf2 : f < 2 * 2 ^ 149 := by
    rcases c with c | c
    · refine lt_of_lt_of_le c ?_
      norm_num
    · rw [a, c, pow_zero, mul_one]
      refine lt_trans h1 ?_
      norm_num
  obtain ⟨nu, f', e2, a2, b2, c2, d2⟩ := descend_some 149 f b hf2
  refine ⟨nd, nu, f', ?_, by rw [← a, a2], b2, c2, ?_⟩
  · simp only [e, e2]
  · rcases c with c | c
    · right
      rcases d2 with d2 | d2
      · exact d2
      · linarith
    · exact .inl c

/-- C58: an invalid ratio (null, negative, or at least 10⁹) is treated as 1: no decimation, no over-sampling, no interpolation. -/
theorem C58_invalide (fuel : Nat) (ratio : K) (h : ratio ≤ 0 ∨ 1000000000 ≤ ratio) : decoupe fuel ratio = some (0, 0, 1) := by
  unfold decoupe
  rw [if_pos h]
  have e1 : monte fuel (1 : K) = some (0, 1) := by
    have : ¬ (1 : K) < 1 / 2 := by norm_num
    cases fuel <;> rw [monte, if_neg this]
  have e2 : descend fuel (1 : K) = some (0, 1) := by
    have : ¬ (1 : K) ≥ 2 := by norm_num
    cases fuel <;> rw [descend, if_neg this]
  simp only [e1, e2]

example : (1 : ℚ) / 2 ^ 149 ≤ 10 / 3 ∧ (10 / 3 : ℚ) < 1000000000 := by norm_num

end Verif.Itrp
