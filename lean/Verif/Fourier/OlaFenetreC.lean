import Verif.Fourier.OlaFenetreProps

/-! # C209 (reconstruction by the windowed frequency-domain filter) and C210 (periodogram) -/

namespace Verif.Fourier

open Finset Complex Verif.Tampon

/-! ## The window -/

theorem fenetreOla_hann (m : ℕ) (hm : 0 < m) : (fenetreOla (2 * m)).length = 2 * m ∧ (∀ j, j < m → (fenetreOla (2 * m)).getD j 0 + (fenetreOla (2 * m)).getD (m + j) 0 = 1) ∧
    (fenetreOla (2 * m)).getD m 0 = 1 := by
  obtain ⟨v, e, l, -, -, -, -, -, c⟩ := Conception.C78_symetrie .hann (by decide) (2 * m) false
  have hn : Conception.fenetreNom "hn" (2 * m) false = some v := by
    unfold Conception.fenetreNom
    rw [show Conception.parseFenetre "hn" = some .hann by decide, Option.bind_some, e]
  have hg : ∀ j, j < 2 * m → (fenetreOla (2 * m)).getD j 0 = (v.getD j 0 : ℂ) := by
    intro j hj
    unfold fenetreOla
    rw [hn, Option.getD_some, List.getD_eq_getElem _ _ (by rw [List.length_map]; omega), List.getElem_map, List.getD_eq_getElem _ _ (by omega)]
  refine ⟨by unfold fenetreOla; rw [hn, Option.getD_some, List.length_map, l], fun j hj => ?_, ?_⟩
  · obtain ⟨v', e', h'⟩ := Conception.C78_recouvrement .hann (.inl rfl) m j hj
    rw [e] at e'
    cases e'
    rw [if_neg (by decide)] at h'
    rw [hg _ (by omega), hg _ (by omega), add_comm m j, ← Complex.ofReal_add, h', Complex.ofReal_one]
  · rw [hg _ (by omega)]
    have := c rfl (by omega) (by omega)
    rw [show 2 * m / 2 = m by omega] at this
    rw [this, Complex.ofReal_one]

/-- Parameters for which the filter runs: even block dimension `2 * m`, and no more zeros than samples. -/
structure ParamFen (m nz N : ℕ) : Prop where
  pos : 0 < m
  puiss : N = 2 ^ Nat.clog 2 (2 * m + nz)
  zeros : N ≤ 4 * m
  borne : N ≤ 2 ^ 29

theorem ParamFen.min {m nz N : ℕ} (h : ParamFen m nz N) : 2 * m ≤ N := by
  rw [h.puiss]
  exact le_trans (by omega) (Nat.le_pow_clog (by norm_num) (2 * m + nz))

/-- The filter as created. -/
noncomputable def filtreFen (m nz : ℕ) : OlaF ℂ := OlaF.creation (OlaFen.configure trigoC fenetreOla ((2 * m : ℕ) : ℤ) nz)

theorem configure_fen (m nz N : ℕ) (h : ParamFen m nz N) : let s := OlaFen.configure trigoC fenetreOla ((2 * m : ℕ) : ℤ) nz
    InvFen m N (N - 2 * m) (fenetreOla (2 * m)) s [] ∧ s.vue = false ∧ s.cnt = -(m : ℤ) ∧ s.svgPropre = List.replicate (2 * m) 0 ∧ s.vus = [] := by
  have hm := h.pos
  have e : (if ((2 * m : ℕ) : ℤ) ≤ 0 then 512 else ((2 * m : ℕ) : ℤ).toNat) = 2 * m := by rw [if_neg (by omega)]; omega
  have hp : trigoC.pp2 (2 * m + nz) = N := by rw [h.puiss]; rfl
  have hc : OlaFen.configure trigoC fenetreOla ((2 * m : ℕ) : ℤ) nz = { Ne := 2 * m, N := N, Nz := N - 2 * m, fen := fenetreOla (2 * m), padded := List.replicate N 0, last := List.replicate (2 * m) 0, x2 := [], svgPropre := List.replicate (2 * m) 0, vue := false, cnt := -((2 * m / 2 : Nat) : Int), plan := Plan.neuf, vus := [] } := by
    unfold OlaFen.configure
    simp only [e, hp]
  simp only [hc]
  refine ⟨⟨⟨rfl, rfl, rfl, rfl, by simp, by simp, .inl rfl, rfl⟩, fun i _ => getD_zero _ _, fun i hi => ?_⟩, trivial, by omega, trivial, trivial⟩
  simp only
  rw [getD_zero]
  unfold ech
  simp

theorem longueur_blocs (n : ℕ) (bs : List (List ℂ)) (h : ∀ b ∈ bs, b.length = n) : bs.flatten.length = bs.length * n := by
  induction bs with
  | nil => simp
  | cons b bs ih => rw [List.flatten_cons, List.length_append, ih fun b' h' => h b' (List.mem_cons_of_mem _ h'), h b List.mem_cons_self, List.length_cons]; ring

/-- What the filter does with the blocks, from its creation. -/
theorem fen_blocs (m nz N : ℕ) (h : ParamFen m nz N) (t : List ℂ → Option (List ℂ)) (ht : Rappel N t) (bs : List (List ℂ)) (hb : ∀ b ∈ bs, b.length = 2 * m) :
    ∃ s' ys V, (OlaFen.configure trigoC fenetreOla ((2 * m : ℕ) : ℤ) nz).blocs trigoC t bs = some (s', ys) ∧ ys.flatten.length = (bs.length - 1) * (2 * m) ∧
      (∀ i, 2 * m ≤ i → i < ys.flatten.length → ys.flatten.getD i 0 = olaSpec t (fenetreOla (2 * m)) (N - 2 * m) m bs.flatten i) ∧
      (2 ≤ bs.length → ∀ j, j < m →
        ys.flatten.getD j 0 = (tete (2 * m) (traitee t (fenetreOla (2 * m)) (N - 2 * m) bs.flatten (-(m : ℤ))) (m + j) + corps (2 * m) (traitee t (fenetreOla (2 * m)) (N - 2 * m) bs.flatten (-(m : ℤ))) j + tete (2 * m) (traitee t (fenetreOla (2 * m)) (N - 2 * m) bs.flatten 0) j) / 2 ∧
        ys.flatten.getD (m + j) 0 = (corps (2 * m) (traitee t (fenetreOla (2 * m)) (N - 2 * m) bs.flatten (-(m : ℤ))) (m + j) + tete (2 * m) (traitee t (fenetreOla (2 * m)) (N - 2 * m) bs.flatten 0) (m + j)) / 2 +
          replie (2 * m) (traitee t (fenetreOla (2 * m)) (N - 2 * m) bs.flatten m) j / 2) ∧
      s'.vus = V ∧ V.length = 2 * bs.length ∧ ∀ r, r < V.length → fft trigoC (trameEn (fenetreOla (2 * m)) (N - 2 * m) bs.flatten ((r : ℤ) * m - m)) = V[r]? := by
  obtain ⟨hi, hv, hc, hg, hu⟩ := configure_fen m nz N h
  have hmin := h.min
  have hw := (fenetreOla_hann m h.pos).1
  have hz := h.zeros
  generalize OlaFen.configure trigoC fenetreOla ((2 * m : ℕ) : ℤ) nz = s at hi hv hc hg hu ⊢
  generalize fenetreOla (2 * m) = w at hw hi ⊢
  rcases bs with _ | ⟨b, bs⟩
  · refine ⟨s, [], [], rfl, by simp, by simp, by simp, hu, rfl, by simp⟩
  have lb := hb b List.mem_cons_self
  have hb' : ∀ b' ∈ bs, b'.length = 2 * m := fun b' h' => hb b' (List.mem_cons_of_mem _ h')
  obtain ⟨s1, X1, X2, e1, i1, v1, c1, u1, f1, f2, gl⟩ := bloc_premier m N (N - 2 * m) w t h.pos hw (by omega) (by omega) h.borne ht s b hi lb hv hc hg
  obtain ⟨s2, ys, V, e2, l2, -, r2, u2, lV, gV⟩ := blocs_reguliers m N (N - 2 * m) w t h.pos hw (by omega) (by omega) h.borne ht bs s1 b 0 hb' i1 v1 c1 (by rw [lb])
  have lf := longueur_blocs (2 * m) bs hb'
  have hq : ∀ p : ℤ, p ≤ 0 → trameEn w (N - 2 * m) (b ++ bs.flatten) p = trameEn w (N - 2 * m) b p := fun p hp => trameEn_debut w _ b _ p (by rw [hw, lb]; omega)
  refine ⟨s2, [] :: ys, X1 :: X2 :: V, by simp only [OlaFen.blocs, e1, e2], by simp [l2, lf], ?_, ?_, ?_, ?_, ?_⟩
  · intro i h1 h2
    rw [List.flatten_cons, List.nil_append] at h2 ⊢
    rcases bs with _ | ⟨b2, bs⟩
    · rw [l2] at h2
      simp at h2
    · rw [(r2 b2 bs rfl).2 i h1 h2]
      congr 1
      omega
  · intro h2 j hj
    rw [List.flatten_cons, List.flatten_cons, List.nil_append]
    rcases bs with _ | ⟨b2, bs⟩
    · simp at h2
    · obtain ⟨a, c⟩ := (r2 b2 bs rfl).1 j hj
      rw [a, c, (gl j hj).1, (gl j hj).2]
      unfold traitee
      rw [hq _ (by omega), hq 0 le_rfl]
      refine ⟨rfl, ?_⟩
      rw [lb, show ((2 * m : ℕ) : ℤ) - m = m by push_cast; ring]
  · rw [u2, u1, hu]; simp
  · simp [lV]; ring
  · intro r hr
    rw [List.flatten_cons]
    rcases r with _ | _ | r
    · rw [Nat.cast_zero, zero_mul, zero_sub, hq _ (by omega), f1]; rfl
    · rw [show ((0 + 1 : ℕ) : ℤ) * m - m = 0 by push_cast; ring, hq _ le_rfl, f2]; rfl
    · have := gV r (by simpa using hr)
      rw [lb] at this
      rw [show ((r + 1 + 1 : ℕ) : ℤ) * m - m = ((2 * m : ℕ) : ℤ) + r * m - m by push_cast; ring, this]
      rfl

/-- The samples used, for a signal of `n` samples. -/
theorem paquets_fen (m : ℕ) (hm : 0 < m) (x : List ℂ) : (paquets (2 * m) x).length = x.length / (2 * m) ∧ (∀ b ∈ paquets (2 * m) x, b.length = 2 * m) ∧
    (paquets (2 * m) x).flatten = x.take (x.length / (2 * m) * (2 * m)) :=
  ⟨by simp [paquets], fun b hb => paquets_mem _ _ _ hb, paquets_flatten _ (by omega) _⟩

theorem configure_ne (m nz : ℕ) (hm : 0 < m) : (OlaFen.configure trigoC fenetreOla ((2 * m : ℕ) : ℤ) nz).Ne = 2 * m := by
  unfold OlaFen.configure
  simp only
  rw [if_neg (by omega)]
  omega

/-- **C209.**  The windowed filter, for any callback that keeps the dimension of the spectra and any cutting of the input into calls: one block
of `2 * m` samples is output for every complete block received but the first; sample `i`, from the second output block on, is half the sum
of the processed frames (windowed, with a shift of `m` samples, aligned with the input) that cover the time `i`. -/
theorem C209_sortie (m nz N : ℕ) (h : ParamFen m nz N) (t : List ℂ → Option (List ℂ)) (ht : Rappel N t) (xs : List (List ℂ)) :
    ∃ f' y, (filtreFen m nz).flux trigoC t xs = some (f', y) ∧ y.length = (xs.flatten.length / (2 * m) - 1) * (2 * m) ∧
      ∀ i, 2 * m ≤ i → i < y.length → y.getD i 0 = olaSpec t (fenetreOla (2 * m)) (N - 2 * m) m xs.flatten i := by
  have hm := h.pos
  obtain ⟨lp, bp, fp⟩ := paquets_fen m hm xs.flatten
  obtain ⟨s', ys, V, e, l, g, -, -⟩ := fen_blocs m nz N h t ht (paquets (2 * m) xs.flatten) bp
  have hf := olaF_creation_flux trigoC t (OlaFen.configure trigoC fenetreOla ((2 * m : ℕ) : ℤ) nz) (by rw [configure_ne m nz hm]; omega) xs
  rw [configure_ne m nz hm, e, Option.map_some] at hf
  obtain ⟨⟨f', y⟩, ef, hfy⟩ := Option.map_eq_some_iff.1 hf
  simp only [Prod.mk.injEq] at hfy
  refine ⟨f', y, ef, by rw [hfy.2, l, lp], fun i h1 h2 => ?_⟩
  rw [hfy.2] at h2 ⊢
  rw [g i h1 h2, fp]
  rw [l, lp] at h2
  set q := xs.flatten.length / (2 * m) with hq
  have hqL : q * (2 * m) ≤ xs.flatten.length := Nat.div_mul_le_self _ _
  have hd := Nat.div_mul_le_self i m
  have h3 : (q - 1) * (2 * m) + 2 * m = q * (2 * m) := by
    rcases q with _ | q
    · simp at h2
    · rw [Nat.add_sub_cancel]; ring
  conv_rhs => rw [← List.take_append_drop (q * (2 * m)) xs.flatten]
  rw [olaSpec_debut _ _ _ _ (fenetreOla_hann m hm).1]
  rw [List.length_take, Nat.min_eq_left hqL]
  omega

/-! ## A callback that does nothing -/

theorem sortie_identite (p : List ℂ) (h0 : 0 < p.length) (h1 : p.length ≤ 2 ^ 29) : sortieTrame some p = p := by
  obtain ⟨⟨y, e1, e2⟩, -⟩ := C27_inverse p h0 h1
  unfold sortieTrame
  rw [e1, Option.bind_some, Option.bind_some, e2]
  rfl

theorem identite_trame (m nz N : ℕ) (h : ParamFen m nz N) (w : List ℂ) (hw : w.length = 2 * m) (x : List ℂ) (p : ℤ) (j : ℕ) (hj : j < 2 * m) :
    corps (2 * m) (traitee some w (N - 2 * m) x p) j = ech x (p + j) * w.getD j 0 ∧ tete (2 * m) (traitee some w (N - 2 * m) x p) j = 0 ∧
    replie (2 * m) (traitee some w (N - 2 * m) x p) j = ech x (p + j) * w.getD j 0 := by
  obtain ⟨lt, gt⟩ := trameEn_get w (N - 2 * m) x p
  have hmin := h.min
  have hb := h.borne
  have hp := h.pos
  have hl : (trameEn w (N - 2 * m) x p).length = N := by omega
  have hs : traitee some w (N - 2 * m) x p = trameEn w (N - 2 * m) x p := by
    unfold traitee
    exact sortie_identite _ (by omega) (by omega)
  have a : corps (2 * m) (traitee some w (N - 2 * m) x p) j = ech x (p + j) * w.getD j 0 := by
    unfold corps
    rw [hs, hl, gt _ (by omega), if_pos (by omega), show N - 2 * m + j - (N - 2 * m) = j by omega]
  have b : tete (2 * m) (traitee some w (N - 2 * m) x p) j = 0 := by
    unfold tete
    rw [hs, hl]
    split
    · rw [gt _ (by omega), if_neg (by omega)]
    · rfl
  exact ⟨a, b, by unfold replie; rw [a, b, add_zero]⟩

theorem rappel_identite (N : ℕ) : Rappel N some := fun X hX => ⟨X, rfl, hX⟩

theorem ech_nat (x : List ℂ) (n : ℤ) (k : ℕ) (h : n = k) : ech x n = x.getD k 0 := by
  unfold ech
  rw [if_pos (by omega), show n.toNat = k by omega]

/-- **C209 (reconstruction).**  With a callback that leaves the spectra unchanged, for any cutting of the input into calls: from the second output block
on, the output is exactly HALF the input, without delay; the first output block is not: `m` zeros, then a mixture of the two halves of the
first input block. -/
theorem C209_reconstruction (m nz N : ℕ) (h : ParamFen m nz N) (xs : List (List ℂ)) :
    ∃ f' y, (filtreFen m nz).flux trigoC some xs = some (f', y) ∧ y.length = (xs.flatten.length / (2 * m) - 1) * (2 * m) ∧
      (∀ i, 2 * m ≤ i → i < y.length → y.getD i 0 = xs.flatten.getD i 0 / 2) ∧
      (0 < y.length → ∀ j, j < m → y.getD j 0 = 0 ∧
        y.getD (m + j) 0 = (xs.flatten.getD j 0 * (fenetreOla (2 * m)).getD (m + j) 0 + xs.flatten.getD (m + j) 0 * (fenetreOla (2 * m)).getD j 0) / 2) := by
  have hm := h.pos
  obtain ⟨hw, hs, -⟩ := fenetreOla_hann m hm
  obtain ⟨f', y, e, l, g⟩ := C209_sortie m nz N h some (rappel_identite N) xs
  refine ⟨f', y, e, l, fun i h1 h2 => ?_, fun h0 => ?_⟩
  · have hi : i % m < m := Nat.mod_lt _ hm
    have hd := Nat.div_add_mod' i m
    have hd' : ((i / m : ℕ) : ℤ) * m + ((i % m : ℕ) : ℤ) = i := by exact_mod_cast hd
    rw [g i h1 h2]
    unfold olaSpec
    rw [(identite_trame m nz N h _ hw _ _ _ (by omega)).2.2, (identite_trame m nz N h _ hw _ _ _ (by omega)).2.2]
    rw [ech_nat _ _ i hd', ech_nat _ _ i (by push_cast; push_cast at hd'; linarith)]
    rw [← mul_add, hs _ hi, mul_one]
  · obtain ⟨lp, bp, fp⟩ := paquets_fen m hm xs.flatten
    obtain ⟨s', ys, V, e', l', -, g', -⟩ := fen_blocs m nz N h some (rappel_identite N) (paquets (2 * m) xs.flatten) bp
    have hf := olaF_creation_flux trigoC some (OlaFen.configure trigoC fenetreOla ((2 * m : ℕ) : ℤ) nz) (by rw [configure_ne m nz hm]; omega) xs
    rw [configure_ne m nz hm, e', Option.map_some] at hf
    have e2 := e
    unfold filtreFen at e2
    rw [e2, Option.map_some, Option.some.injEq, Prod.mk.injEq] at hf
    have hy : y = ys.flatten := hf.2
    have hq : 2 ≤ xs.flatten.length / (2 * m) := by
      by_contra hc
      rw [l, show xs.flatten.length / (2 * m) - 1 = 0 by omega, zero_mul] at h0
      exact absurd h0 (lt_irrefl 0)
    have hqL : xs.flatten.length / (2 * m) * (2 * m) ≤ xs.flatten.length := Nat.div_mul_le_self _ _
    have h4 : 2 * (2 * m) ≤ xs.flatten.length / (2 * m) * (2 * m) := Nat.mul_le_mul_right _ hq
    have tk : ∀ k, k < 4 * m → ((xs.flatten).take (xs.flatten.length / (2 * m) * (2 * m))).getD k 0 = xs.flatten.getD k 0 := by
      intro k hk
      rw [List.getD_eq_getElem?_getD, List.getElem?_take, if_pos (by omega), ← List.getD_eq_getElem?_getD]
    intro j hj
    obtain ⟨a, b⟩ := g' (by omega) j hj
    rw [fp] at a b
    rw [hy]
    rw [(identite_trame m nz N h _ hw _ _ _ (by omega)).1, (identite_trame m nz N h _ hw _ _ _ (by omega)).2.1, (identite_trame m nz N h _ hw _ _ _ (by omega)).2.1] at a
    rw [(identite_trame m nz N h _ hw _ _ _ (by omega)).1, (identite_trame m nz N h _ hw _ _ _ (by omega)).2.1, (identite_trame m nz N h _ hw _ _ _ (by omega)).2.2] at b
    refine ⟨?_, ?_⟩
    · rw [a]
      have : ech (List.take (xs.flatten.length / (2 * m) * (2 * m)) xs.flatten) (-(m : ℤ) + j) = 0 := by unfold ech; rw [if_neg (by omega)]
      rw [this]
      ring
    · rw [b, ech_nat _ _ j (by push_cast; ring), ech_nat _ _ (m + j) (by push_cast; ring), tk _ (by omega), tk _ (by omega)]
      ring

/-- The parameters of the test of the library (512 samples, no zeros) and with zero padding. -/
example : ParamFen 256 0 512 ∧ ParamFen 6 0 16 ∧ ParamFen 8 10 32 :=
  ⟨⟨by norm_num, by decide +kernel, by norm_num, by norm_num⟩, ⟨by norm_num, by decide +kernel, by norm_num, by norm_num⟩, ⟨by norm_num, by decide +kernel, by norm_num, by norm_num⟩⟩

/-- C209, refuted: the "perfect reconstruction" announced does not hold up to a gain and a delay either: for no gain and no delay is the output the delayed input times the
gain (an impulse in the first half block comes out `m` samples later, an impulse in the third block without delay). -/
theorem C209_reconstruction_refute (m nz N : ℕ) (h : ParamFen m nz N) :
    ¬ ∃ (g : ℂ) (d : ℤ), ∀ (x : List ℂ) (f' : OlaF ℂ) (y : List ℂ), (filtreFen m nz).flux trigoC some [x] = some (f', y) → ∀ i, i < y.length → y.getD i 0 = g * ech x ((i : ℤ) - d) := by
  rintro ⟨g, d, hgd⟩
  have hm := h.pos
  obtain ⟨hw, -, hmil⟩ := fenetreOla_hann m hm
  have imp : ∀ k n, k < n → ∀ i : ℤ, ech ((List.replicate n (0 : ℂ)).set k 1) i = if i = k then 1 else 0 := by
    intro k n hk i
    unfold ech
    by_cases h0 : 0 ≤ i
    · rw [if_pos h0, List.getD_eq_getElem?_getD, List.getElem?_set]
      by_cases h1 : i = k
      · rw [if_pos h1, if_pos (by omega), List.length_replicate, if_pos (by omega)]
        rfl
      · rw [if_neg h1, if_neg (by omega), ← List.getD_eq_getElem?_getD, getD_zero]
    · rw [if_neg h0, if_neg (by omega)]
  have gimp : ∀ k n, k < n → ∀ i : ℕ, ((List.replicate n (0 : ℂ)).set k 1).getD i 0 = if i = k then 1 else 0 := by
    intro k n hk i
    have := imp k n hk i
    rw [ech_nat _ _ i rfl] at this
    rw [this]
    norm_cast
  have hdiv : 8 * m / (2 * m) = 4 := by
    rw [show 8 * m = 4 * (2 * m) by ring, Nat.mul_div_cancel _ (by omega)]
  obtain ⟨f1, y1, e1, l1, -, a1⟩ := C209_reconstruction m nz N h [(List.replicate (8 * m) (0 : ℂ)).set 0 1]
  obtain ⟨f2, y2, e2, l2, a2, -⟩ := C209_reconstruction m nz N h [(List.replicate (8 * m) (0 : ℂ)).set (4 * m) 1]
  have r1 := hgd _ _ _ e1 m
  have r2 := hgd _ _ _ e2 (4 * m)
  simp only [List.flatten_cons, List.flatten_nil, List.append_nil, List.length_set, List.length_replicate, hdiv] at l1 l2 a1 a2
  have r1 := r1 (by omega)
  have r2 := r2 (by omega)
  have b1 := (a1 (by omega) 0 hm).2
  rw [gimp _ _ (by omega), if_pos rfl, gimp _ _ (by omega), if_neg (by omega), add_zero, hmil, r1, imp _ _ (by omega)] at b1
  have b2 := a2 (4 * m) (by omega) (by omega)
  rw [gimp _ _ (by omega), if_pos rfl, r2, imp _ _ (by omega)] at b2
  by_cases h1 : ((m : ℕ) : ℤ) - d = ((0 : ℕ) : ℤ)
  · rw [if_neg (by omega)] at b2
    norm_num at b2
  · rw [if_neg h1] at b1
    norm_num at b1

/-! ## The periodogram -/

/-- **C210.**  `periodogramme_tfd(x, 2 m)`, for a signal of at least one block: two rows per complete block; row `r`, column `k` (of the first
half of the spectrum) is the level in decibels, `10 log10(|X_k|² + 1e-20)`, of the orthonormal DFT of the windowed frame of `2 m` samples that starts
at sample `(r - 1) m` (samples before the signal being 0), preceded by zeros up to a power of two. -/
theorem C210_periodogramme (indet : List ℝ) (m N : ℕ) (h : ParamFen m 0 N) (x : List ℂ) (hx : 2 * m ≤ x.length) :
    ∃ M, periodogramme indet x ((2 * m : ℕ) : ℤ) = some M ∧ M.length = 2 * (x.length / (2 * m)) ∧
      ∀ r, r < M.length → (M.getD r []).length = N / 2 ∧ ∀ k, k < N / 2 →
        (M.getD r []).getD k 0 = 10 * Real.logb 10 (normSq (TFD (-1) (trameEn (fenetreOla (2 * m)) (N - 2 * m) x ((r : ℤ) * m - m)) k) + 1 / 10 ^ 20) := by
  have hm := h.pos
  have hmin := h.min
  have hbo := h.borne
  obtain ⟨hw, -, -⟩ := fenetreOla_hann m hm
  obtain ⟨lp, bp, fp⟩ := paquets_fen m hm x
  obtain ⟨s', ys, V, e', l', -, -, hV, lV, gV⟩ := fen_blocs m 0 N h some (rappel_identite N) (paquets (2 * m) x) bp
  have hf := olaF_creation_flux trigoC some (OlaFen.configure trigoC fenetreOla ((2 * m : ℕ) : ℤ) 0) (by rw [configure_ne m 0 hm]; omega) [x]
  rw [configure_ne m 0 hm, List.flatten_cons, List.flatten_nil, List.append_nil, e', Option.map_some] at hf
  have hq : 1 ≤ x.length / (2 * m) := (Nat.one_le_div_iff (by omega)).2 hx
  have hst : ∃ f y, (OlaF.creation (OlaFen.configure trigoC fenetreOla ((2 * m : ℕ) : ℤ) 0)).step trigoC some x = some (f, y) ∧ f.coeur = s' := by
    obtain ⟨⟨f, y⟩, ef, hfy⟩ := Option.map_eq_some_iff.1 hf
    simp only [OlaF.flux] at ef
    cases hs : (OlaF.creation (OlaFen.configure trigoC fenetreOla ((2 * m : ℕ) : ℤ) 0)).step trigoC some x with
    | none => rw [hs] at ef; cases ef
    | some r =>
      rw [hs] at ef
      simp only [Option.some.injEq, Prod.mk.injEq] at ef hfy
      exact ⟨r.1, r.2, rfl, by rw [ef.1]; exact hfy.1⟩
  obtain ⟨f, y, es, ef⟩ := hst
  have hne : f.coeur.vus ≠ [] := by
    rw [ef, hV]
    intro hc
    rw [hc] at lV
    simp only [List.length_nil] at lV
    omega
  refine ⟨V.map niveauxDb, ?_, by rw [List.length_map, lV, lp], fun r hr => ?_⟩
  · unfold periodogramme
    simp only [es]
    rw [if_neg hne, ef, hV]
  · rw [List.length_map] at hr
    have hrm := lV ▸ hr
    rw [lp] at hrm
    have hg := gV r hr
    have hqL : x.length / (2 * m) * (2 * m) ≤ x.length := Nat.div_mul_le_self _ _
    have htr : trameEn (fenetreOla (2 * m)) (N - 2 * m) (paquets (2 * m) x).flatten ((r : ℤ) * m - m) = trameEn (fenetreOla (2 * m)) (N - 2 * m) x ((r : ℤ) * m - m) := by
      rw [fp]
      conv_rhs => rw [← List.take_append_drop (x.length / (2 * m) * (2 * m)) x]
      rw [trameEn_debut]
      rw [hw, List.length_take, Nat.min_eq_left hqL]
      have h1 : (r + 1) * m ≤ 2 * (x.length / (2 * m)) * m := Nat.mul_le_mul_right m (by omega)
      have h2 : (((r + 1) * m : ℕ) : ℤ) ≤ ((2 * (x.length / (2 * m)) * m : ℕ) : ℤ) := by exact_mod_cast h1
      push_cast at h2 ⊢
      nlinarith
    rw [htr] at hg
    obtain ⟨lt, -⟩ := trameEn_get (fenetreOla (2 * m)) (N - 2 * m) x ((r : ℤ) * m - m)
    obtain ⟨X, eX, lX, gX⟩ := C27_fft (trameEn (fenetreOla (2 * m)) (N - 2 * m) x ((r : ℤ) * m - m)) (by omega) (by omega)
    rw [eX] at hg
    have hM : (V.map niveauxDb).getD r [] = niveauxDb X := by
      rw [List.getD_eq_getElem?_getD, List.getElem?_map, ← hg]
      rfl
    rw [hM]
    have lXN : X.length = N := by omega
    refine ⟨by unfold niveauxDb; rw [List.length_map, List.length_take, lXN]; omega, fun k hk => ?_⟩
    unfold niveauxDb
    rw [List.getD_eq_getElem _ _ (by rw [List.length_map, List.length_take, lXN]; omega), List.getElem_map, List.getElem_take, ← gX k (by omega),
      List.getD_eq_getElem _ _ (by omega)]

/-- C210, refuted for shorter signals: the periodogram of a signal of less than one block, instead of having no row, has one row of memory that nothing has
written. -/
theorem C210_court_refute (indet : List ℝ) (m N : ℕ) (h : ParamFen m 0 N) (x : List ℂ) (hx : x.length < 2 * m) :
    periodogramme indet x ((2 * m : ℕ) : ℤ) = some [indet.take (N / 2)] := by
  have hm := h.pos
  obtain ⟨-, -, -, -, hu⟩ := configure_fen m 0 N h
  have hf := olaF_creation_flux trigoC some (OlaFen.configure trigoC fenetreOla ((2 * m : ℕ) : ℤ) 0) (by rw [configure_ne m 0 hm]; omega) [x]
  rw [configure_ne m 0 hm, List.flatten_cons, List.flatten_nil, List.append_nil, paquets_court _ _ hx] at hf
  simp only [OlaFen.blocs, Option.map_some, List.flatten_nil] at hf
  obtain ⟨⟨f, y⟩, ef, hfy⟩ := Option.map_eq_some_iff.1 hf
  simp only [OlaF.flux] at ef
  have hN : (OlaFen.configure trigoC fenetreOla ((2 * m : ℕ) : ℤ) 0).N = N := (configure_fen m 0 N h).1.dims.n
  unfold periodogramme
  simp only []
  cases hs : (OlaF.creation (OlaFen.configure trigoC fenetreOla ((2 * m : ℕ) : ℤ) 0)).step trigoC some x with
  | none => rw [hs] at ef; cases ef
  | some r =>
    rw [hs] at ef
    simp only [Option.some.injEq, Prod.mk.injEq] at ef hfy
    simp only [ef.1, hfy.1]
    rw [if_pos hu, hN]

end Verif.Fourier
