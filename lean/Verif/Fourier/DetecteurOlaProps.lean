import Verif.Fourier.OlaCorr
import Verif.Fourier.DetecteurEv

/-!
# C114: pattern detector with overlap-add correlation (default mode)
-/

namespace Verif.Fourier

open Finset

/-! ### Specification -/

/-- The documented score of the window that ends at `k`; correlations (divided by the norm of the pattern) below `φ` are null, the energy is increased by `M 10⁻²⁰`. -/
noncomputable def scoreSeuil (φ : ℝ) (h x : List ℂ) (k : ℤ) : ℝ :=
  if ‖correl h x k‖ / Real.sqrt (enMotif h) ≤ φ then 0
  else ‖correl h x k‖ / Real.sqrt ((enFen h.length x k + h.length / 10 ^ 20) * enMotif h)

/-- Complex gain of the pattern in the window that ends at `k`, null when the correlation is below the floor `φ`. -/
noncomputable def gainSeuil (φ : ℝ) (h x : List ℂ) (k : ℤ) : ℂ := if ‖correl h x k‖ / Real.sqrt (enMotif h) ≤ φ then 0 else correl h x k / (enMotif h : ℂ)

/-- Expected description of a peak of the score at the window that ends at `k`; `n0`: first sample of the current block. -/
def DecritSeuil (φ : ℝ) (h x : List ℂ) (n0 : ℕ) (k : ℤ) (d : Detection) : Prop :=
  let δ := sommet (scoreSeuil φ h x (k - 1)) (scoreSeuil φ h x k) (scoreSeuil φ h x (k + 1))
  let g := gainSeuil φ h x k - (gainSeuil φ h x (k - 1) - gainSeuil φ h x (k + 1)) * (δ : ℂ) * (1 / 4)
  d.position = k - ((h.length : ℤ) - 1) - n0 ∧ d.positionPrec = some (d.position + δ) ∧ d.score = scoreSeuil φ h x k ∧ d.gain = some ‖g‖ ∧ d.theta = some (Complex.arg g)

/-- Floor of the code in this mode, for a transform of `N` samples. -/
noncomputable def planche (N : ℕ) : ℝ := Real.sqrt N / 10 ^ 6

/-! ### Search of the peaks, from the values of the correlation and of the score -/

/-- What the search remembers after `n` samples, `sc` being the scores and `g` the correlations. -/
structure MemCh (M N delais : ℕ) (seuil norme : ℝ) (sc : ℤ → ℝ) (g : ℤ → ℂ) (n : ℕ) (ch : Chercheur) : Prop where
  M : ch.M = M
  N : ch.N = N
  delais : ch.delais = delais
  limite : ch.seuil = seuil
  norme : ch.norme = norme
  alc : ch.alc = sc ((n : ℤ) - 1)
  alc0 : ch.alc0 = sc ((n : ℤ) - 2)
  lc : ch.lc = g ((n : ℤ) - 1)
  lc0 : ch.lc0 = g ((n : ℤ) - 2)
  pic : ∀ d, ch.picFinal = some d → seuil < sc ((n : ℤ) - 1)

theorem memch_step (M N delais : ℕ) (seuil norme : ℝ) (h0 : 0 ≤ seuil) (hM : 2 ≤ M) (sc : ℤ → ℝ) (g : ℤ → ℂ) (n : ℕ) (ch : Chercheur) (hc : MemCh M N delais seuil norme sc g n ch)
    (corr : List ℂ) (en : List ℝ) (L : ℕ) (hL : 2 ≤ L) (lc : corr.length = L) (le : en.length = L)
    (vc : ∀ i, i < L → (seuille corr).getD i 0 = g ((n + i : ℕ) : ℤ)) (vy : ∀ i, i < L → (normaliseCorr N M (seuille corr) en).getD i 0 = sc ((n + i : ℕ) : ℤ)) :
    ∃ ch' y r, ch.step corr en = some (ch', y, r.1) ∧ MemCh M N delais seuil norme sc g (n + L) ch' ∧ y.length = L ∧ (∀ i, i < L → y.getD i 0 = sc ((n + i : ℕ) : ℤ)) ∧
      boucleDet ch y (seuille corr) ((if ch.picFinal.isSome then [none] else []) ++ (pics M seuil y).map some) = some r := by
  have ly : (normaliseCorr N M (seuille corr) en).length = L := by simp [normaliseCorr, seuille]; omega
  obtain ⟨r, hr⟩ : ∃ r, boucleDet ch (normaliseCorr N M (seuille corr) en) (seuille corr) ((if ch.picFinal.isSome then [none] else []) ++ (pics M seuil (normaliseCorr N M (seuille corr) en)).map some) = some r := by
    refine boucleDet_some ch _ _ (by rw [hc.M]; exact hM) (by omega) _ ?_
    intro hn
    by_contra hcon
    rw [if_neg hcon] at hn
    simp at hn
  have c1 : ((n + (L - 1) : ℕ) : ℤ) = ((n + L : ℕ) : ℤ) - 1 := by omega
  have c2 : ((n + (L - 2) : ℕ) : ℤ) = ((n + L : ℕ) : ℤ) - 2 := by omega
  refine ⟨⟨M, N, delais, seuil, norme, (seuille corr).getD (L - 1) 0, (seuille corr).getD (L - 2) 0, (normaliseCorr N M (seuille corr) en).getD (L - 1) 0, (normaliseCorr N M (seuille corr) en).getD (L - 2) 0, r.2, L⟩, normaliseCorr N M (seuille corr) en, r, ?_, ⟨rfl, rfl, rfl, rfl, rfl, ?_, ?_, ?_, ?_, ?_⟩, ly, vy, hr⟩
  · unfold Chercheur.step
    rw [if_neg (by omega)]
    simp only
    rw [hc.N, hc.M, hc.limite, hr]
    simp only [Option.map_some, ly, hc.delais, hc.norme]
  · simp only
    rw [vy _ (by omega), c1]
  · simp only
    rw [vy _ (by omega), c2]
  · simp only
    rw [vc _ (by omega), c1]
  · simp only
    rw [vc _ (by omega), c2]
  · intro d hd
    simp only at hd
    obtain ⟨i, hi, ht⟩ := (boucle_rapport _ _ _ _ _ hr).2 d hd
    cases i with
    | none =>
      simp only [traite] at ht
      split at ht
      · simp at ht
      · split at ht <;> simp at ht
    | some i =>
      have hi' : i ∈ pics M seuil (normaliseCorr N M (seuille corr) en) := by
        rcases List.mem_append.1 hi with h1 | h1
        · split at h1 <;> simp at h1
        · simpa using h1
      have hcand := candidat_prop M (by omega) seuil h0 _ _ (pics_candidats _ _ _ _ hi')
      cases i with
      | zero =>
        simp only [traite] at ht
        split at ht
        · simp at ht
        · split at ht <;> simp at ht
      | succ i =>
        simp only [traite] at ht
        split at ht
        · have e1 : i + 1 = L - 1 := by omega
          have := hcand.2.1
          rw [e1, vy _ (by omega), c1] at this
          exact this
        · simp at ht

/-! ### The state of the detector -/

/-- What the detector remembers after the blocks `xs`. -/
structure MemOla (h : List ℂ) (seuil : ℝ) (Ne N : ℕ) (xs : List (List ℂ)) (s : DetOla) : Prop where
  T : SpectreMotif N (h.map fun v : ℂ => v / (normeMotif h : ℂ)) s.T
  ola : ∃ y, (Ola.creation (OlaCoeur.configure trigoC (Ne : ℤ) (h.length - 1))).flux trigoC (fun X => produit X s.T) xs = some (s.ola, y)
  mg : ∃ e, Filtre.enchaine (Filtre.Mg.step (· + ·) (· - ·) (fun a : ℝ => a * (1 / (h.length : ℝ)))) (Filtre.Mg.init 0 h.length) (xs.map fun x => x.map fun v : ℂ => ‖v‖ ^ 2) = some (s.mg, e)
  lar : ∃ (es : List (List ℝ)) (l : List ℝ), Filtre.enchaine Filtre.Retard.step (Filtre.Retard.init 0 (Ne + 1 - h.length)) es = some (s.lar, l) ∧ es.flatten.length = xs.flatten.length ∧
    ∀ i, i < xs.flatten.length → es.flatten.getD i 0 = enFen h.length xs.flatten i / h.length
  M : s.ch.M = h.length

/-- Scores delivered by the detector: the sample `g` corresponds to the window that starts at `g - Ne`. -/
noncomputable def scOla (Ne N : ℕ) (h x : List ℂ) (g : ℤ) : ℝ := scoreSeuil (planche N) h x (g - Ne + h.length - 1)

theorem ola_flux_append {K : Type} [Field K] (A : Trigo K) (t : List K → Option (List K)) (a : List (List K)) : ∀ (s : Ola K) (x : List K),
    s.flux A t (a ++ [x]) = (s.flux A t a).bind fun r : Ola K × List K => (r.1.step A t x).map fun q : Ola K × List K => (q.1, r.2 ++ q.2) := by
  induction a with
  | nil =>
    intro s x
    simp only [List.nil_append, Ola.flux, Option.bind_some]
    cases s.step A t x with
    | none => rfl
    | some q => simp
  | cons b a ih =>
    intro s x
    simp only [List.cons_append, Ola.flux]
    cases s.step A t b with
    | none => rfl
    | some q =>
      simp only
      rw [ih]
      cases Ola.flux A t q.1 a with
      | none => rfl
      | some r =>
        simp only [Option.bind_some]
        cases r.1.step A t x with
        | none => rfl
        | some q => simp

theorem corrDeb_correl (h x : List ℂ) (r : ℝ) (s : ℤ) : corrDeb (h.map fun v : ℂ => v / (r : ℂ)) x s = correl h x (s + h.length - 1) / (r : ℂ) := by
  unfold corrDeb correl
  rw [List.length_map, sum_div]
  refine sum_congr rfl fun a ha => ?_
  have ha := mem_range.1 ha
  rw [List.getD_eq_getElem _ _ (by simpa using ha), List.getElem_map, List.getD_eq_getElem _ _ ha]
  unfold fen
  rw [show s + (h.length : ℤ) - 1 - ((h.length : ℤ) - 1) + a = s + a by ring, RCLike.star_def, map_div₀, Complex.conj_ofReal]
  ring

theorem valeur_ola (h : List ℂ) (x : List ℂ) (k : ℤ) (hM : 0 < h.length) (hH : 0 < enMotif h) (N : ℕ) (hN : 0 < N) (c : ℂ) (hc : c = correl h x k / (normeMotif h : ℂ) / (Real.sqrt N : ℂ)) :
    (if ‖c‖ ≤ 1 / 10 ^ 6 then (0 : ℂ) else c) = gainSeuil (planche N) h x k * ((normeMotif h / Real.sqrt N : ℝ) : ℂ) ∧
    Real.sqrt N / Real.sqrt h.length * Real.sqrt (‖if ‖c‖ ≤ 1 / 10 ^ 6 then (0 : ℂ) else c‖ ^ 2 / (enFen h.length x k / h.length + 1 / 10 ^ 20)) = scoreSeuil (planche N) h x k := by
  have hMr : (0 : ℝ) < h.length := by exact_mod_cast hM
  have hNr : (0 : ℝ) < N := by exact_mod_cast hN
  have hsN := Real.sqrt_pos.2 hNr
  have hE : 0 ≤ enFen h.length x k := sum_nonneg fun _ _ => by positivity
  have hr : 0 < normeMotif h := by rw [normeMotif_carre]; exact Real.sqrt_pos.2 hH
  have hn : ‖c‖ = ‖correl h x k‖ / Real.sqrt (enMotif h) / Real.sqrt N := by
    rw [hc, norm_div, norm_div, Complex.norm_real, Complex.norm_real, Real.norm_eq_abs, Real.norm_eq_abs, abs_of_pos hsN, normeMotif_carre, abs_of_nonneg (Real.sqrt_nonneg _)]
  have hiff : ‖c‖ ≤ 1 / 10 ^ 6 ↔ ‖correl h x k‖ / Real.sqrt (enMotif h) ≤ planche N := by
    rw [hn, div_le_iff₀ hsN]
    unfold planche
    rw [show (1 : ℝ) / 10 ^ 6 * Real.sqrt N = Real.sqrt N / 10 ^ 6 by ring]
  have h2 : (normeMotif h : ℂ) * (normeMotif h : ℂ) = (enMotif h : ℂ) := by
    rw [← Complex.ofReal_mul, normeMotif_carre, Real.mul_self_sqrt hH.le]
  have hrc : (normeMotif h : ℂ) ≠ 0 := by exact_mod_cast hr.ne'
  have hsc : (Real.sqrt N : ℂ) ≠ 0 := by exact_mod_cast hsN.ne'
  unfold gainSeuil scoreSeuil
  simp only [hiff]
  split
  · simp
  · refine ⟨?_, ?_⟩
    · rw [hc, ← h2, Complex.ofReal_div]
      field_simp
    · have hcn : ‖c‖ ^ 2 = ‖correl h x k‖ ^ 2 / enMotif h / N := by
        rw [hn, div_pow, div_pow, Real.sq_sqrt hH.le, Real.sq_sqrt hNr.le]
      rw [hcn, ← Real.sqrt_div' _ hMr.le, ← Real.sqrt_mul (by positivity), ← Real.sqrt_sq (norm_nonneg (correl h x k)), ← Real.sqrt_div' _ (by positivity), Real.sqrt_sq (norm_nonneg _)]
      congr 1
      field_simp

theorem score_seuil_debut (φ : ℝ) (h a b : List ℂ) (k : ℤ) (hk : k < a.length) : scoreSeuil φ h (a ++ b) k = scoreSeuil φ h a k ∧ gainSeuil φ h (a ++ b) k = gainSeuil φ h a k ∧ enFen h.length (a ++ b) k = enFen h.length a k := by
  have hf : ∀ i, i < h.length → fen h.length (a ++ b) k i = fen h.length a k i := by
    intro i hi
    unfold fen
    rw [ech_debut _ _ _ (by omega)]
  have hc : correl h (a ++ b) k = correl h a k := by
    unfold correl
    exact sum_congr rfl fun i hi => by rw [hf i (mem_range.1 hi)]
  have he : enFen h.length (a ++ b) k = enFen h.length a k := by
    unfold enFen
    exact sum_congr rfl fun i hi => by rw [hf i (mem_range.1 hi)]
  unfold scoreSeuil gainSeuil
  rw [hc, he]
  exact ⟨rfl, rfl, rfl⟩

/-- Parameters for which the detector is created. -/
structure ParamOla (h : List ℂ) (Ne N : ℕ) : Prop where
  motif : 2 ≤ h.length
  nonNul : 0 < enMotif h
  bloc : 0 < Ne
  dim : N = 2 ^ Nat.clog 2 (Ne + h.length - 1)
  deux : 2 * h.length ≤ N
  recouvre : N ≤ 2 * Ne
  limite : N ≤ 2 ^ 29

theorem ParamOla.pp2 {h : List ℂ} {Ne N : ℕ} (p : ParamOla h Ne N) : trigoC.pp2 (Ne + (h.length - 1)) = N := by
  show 2 ^ Nat.clog 2 (Ne + (h.length - 1)) = N
  rw [p.dim]
  have := p.motif
  congr 2
  omega

theorem ParamOla.ge {h : List ℂ} {Ne N : ℕ} (p : ParamOla h Ne N) : Ne + h.length ≤ N + 1 := by
  have := Nat.le_pow_clog (b := 2) (by norm_num) (Ne + h.length - 1)
  rw [← p.dim] at this
  omega

theorem ola_init (h : List ℂ) (seuil : ℝ) (Ne N : ℕ) (p : ParamOla h Ne N) : ∃ s, DetOla.cree h seuil Ne = some s ∧ MemOla h seuil Ne N [] s ∧
    ∀ X : List ℂ, MemCh h.length N Ne seuil (normeMotif h) (scOla Ne N h X) (fun g => gainSeuil (planche N) h X (g - Ne + h.length - 1) * ((normeMotif h / Real.sqrt N : ℝ) : ℂ)) 0 s.ch := by
  have hr : 0 < normeMotif h := by rw [normeMotif_carre]; exact Real.sqrt_pos.2 p.nonNul
  have hge := p.ge
  have h2 := p.deux
  have h3 := p.recouvre
  have hM := p.motif
  have hNe := p.bloc
  obtain ⟨T, hT, hS⟩ := spectre_motif N (by omega) p.limite (h.map fun v : ℂ => v / (normeMotif h : ℂ)) (by rw [List.length_map]; omega)
  rw [List.length_map] at hT
  have hI := corr_creation Ne N h p.bloc p.pp2
  refine ⟨⟨Ola.creation (OlaCoeur.configure trigoC (Ne : ℤ) (h.length - 1)), T.map star, Filtre.Mg.init 0 h.length, Filtre.Retard.init 0 (Ne + 1 - h.length), ⟨h.length, N, Ne, seuil, normeMotif h, 0, 0, 0, 0, none, 0⟩⟩, ?_, ⟨hS, ⟨[], rfl⟩, ⟨[], rfl⟩, ⟨[], [], rfl, rfl, by simp⟩, rfl⟩, ?_⟩
  · unfold DetOla.cree
    simp only
    rw [if_neg hr.ne', if_neg (by omega), Option.bind_some]
    simp only [hI.n, hI.ne]
    rw [if_pos ⟨h2, by omega⟩, hT, Option.map_some]
  · intro X
    have hz : ∀ k : ℤ, k < 0 → correl h X k = 0 := by
      intro k hk
      unfold correl fen ech
      refine sum_eq_zero fun i hi => ?_
      have := mem_range.1 hi
      rw [if_neg (by omega), zero_mul]
    have hs : ∀ k : ℤ, k < 0 → scoreSeuil (planche N) h X k = 0 ∧ gainSeuil (planche N) h X k = 0 := by
      intro k hk
      unfold scoreSeuil gainSeuil
      rw [hz k hk]
      simp [planche]
    refine ⟨rfl, rfl, rfl, rfl, rfl, ?_, ?_, ?_, ?_, by simp⟩
    · simp only [scOla]; rw [(hs _ (by omega)).1]
    · simp only [scOla]; rw [(hs _ (by omega)).1]
    · simp only; rw [(hs _ (by omega)).2, zero_mul]
    · simp only; rw [(hs _ (by omega)).2, zero_mul]

/-- The filters on one more block. -/
theorem ola_filtres (h : List ℂ) (seuil : ℝ) (Ne N : ℕ) (p : ParamOla h Ne N) (xs : List (List ℂ)) (s : DetOla) (hs : MemOla h seuil Ne N xs s) (x : List ℂ)
    (hd : Ne ∣ xs.flatten.length) :
    ∃ m' e l' l o c, Filtre.Mg.step (· + ·) (· - ·) (fun a : ℝ => a * (1 / (h.length : ℝ))) s.mg (x.map fun v : ℂ => ‖v‖ ^ 2) = some (m', e) ∧ Filtre.Retard.step s.lar e = some (l', l) ∧
      s.ola.step trigoC (fun X => produit X s.T) x = some (o, c) ∧ l.length = x.length ∧ c.length = x.length / Ne * Ne ∧
      (∀ ch, ch.M = h.length → MemOla h seuil Ne N (xs ++ [x]) ⟨o, s.T, m', l', ch⟩) ∧
      (∀ i, i < c.length → c.getD i 0 = correl h (xs ++ [x]).flatten (((xs.flatten.length + i : ℕ) : ℤ) - Ne + h.length - 1) / (normeMotif h : ℂ) / (Real.sqrt N : ℂ)) ∧
      (∀ i, i < x.length → l.getD i 0 = enFen h.length (xs ++ [x]).flatten (((xs.flatten.length + i : ℕ) : ℤ) - Ne + h.length - 1) / h.length) := by
  have hM := p.motif
  have hNe := p.bloc
  have hge := p.ge
  have hrec := p.recouvre
  have hdeux := p.deux
  have ntot : (xs ++ [x]).flatten.length = xs.flatten.length + x.length := by rw [List.flatten_append, List.length_append]; simp
  have hXe : (xs ++ [x]).flatten = xs.flatten ++ x := by simp
  -- energy
  obtain ⟨e1, he1⟩ := hs.mg
  obtain ⟨ma, za, wa, ka, -⟩ := Filtre.C23_moyenne h.length (by omega) (xs.map fun x => x.map fun v : ℂ => ‖v‖ ^ 2)
  obtain ⟨mb, zb, wb, kb, ub⟩ := Filtre.C23_moyenne h.length (by omega) ((xs ++ [x]).map fun x => x.map fun v : ℂ => ‖v‖ ^ 2)
  have hflt : ∀ l : List (List ℂ), (l.map fun x => x.map fun v : ℂ => ‖v‖ ^ 2).flatten = l.flatten.map fun v : ℂ => ‖v‖ ^ 2 := fun l => by rw [List.map_flatten]
  rw [hflt, List.length_map] at ka kb
  rw [hflt] at ub
  rw [he1, Option.some.injEq, Prod.mk.injEq] at wa
  have wb' := wb
  rw [List.map_append, Telecom.enchaine_concat, he1, Option.bind_some] at wb'
  simp only [Option.map_eq_some_iff] at wb'
  obtain ⟨⟨m2, e2⟩, hw, hw2⟩ := wb'
  simp only [Prod.mk.injEq] at hw2
  obtain ⟨m3, e3, e4, f1, f2, f3⟩ := enchaine_cons (by rw [List.map_cons, List.map_nil] at hw; exact hw)
  simp only [Filtre.enchaine, Option.some.injEq, Prod.mk.injEq] at f2
  obtain ⟨rfl, rfl⟩ := f2
  rw [List.append_nil] at f3
  subst f3
  have l2 := mg_long _ _ _ _ _ f1
  rw [List.length_map] at l2
  have n2 : e1.length = xs.flatten.length := by rw [wa.2]; exact ka
  have ve : ∀ i, i < x.length → e2.getD i 0 = enFen h.length (xs ++ [x]).flatten ((xs.flatten.length + i : ℕ) : ℤ) / h.length := by
    intro i hi
    have := ub (xs.flatten.length + i) (by omega)
    rw [moyenne_energie] at this
    rw [List.getD_eq_getElem?_getD]
    have e : e2[i]? = zb[xs.flatten.length + i]? := by
      rw [← hw2.2, List.getElem?_append_right (by omega), n2]
      congr 1; omega
    rw [e, this]; rfl
  -- delay line
  obtain ⟨es, l1, hl1, hes, ves⟩ := hs.lar
  obtain ⟨la, qa⟩ := Filtre.C21_retard (0 : ℝ) (Ne + 1 - h.length) es
  obtain ⟨lb, qb⟩ := Filtre.C21_retard (0 : ℝ) (Ne + 1 - h.length) (es ++ [e2])
  rw [hl1, Option.some.injEq, Prod.mk.injEq] at qa
  have qb' := qb
  rw [Telecom.enchaine_concat, hl1, Option.bind_some] at qb'
  simp only [Option.map_eq_some_iff] at qb'
  obtain ⟨⟨r2, c2⟩, hq, hq2⟩ := qb'
  simp only [Prod.mk.injEq] at hq2
  obtain ⟨r3, c3, c4, g1, g2, g3⟩ := enchaine_cons hq
  simp only [Filtre.enchaine, Option.some.injEq, Prod.mk.injEq] at g2
  obtain ⟨rfl, rfl⟩ := g2
  rw [List.append_nil] at g3
  subst g3
  have hel : (es ++ [e2]).flatten.length = xs.flatten.length + x.length := by rw [List.flatten_append, List.length_append, hes]; simp; omega
  have hret : (Filtre.retarde (0 : ℝ) (Ne + 1 - h.length) (es ++ [e2]).flatten).length = xs.flatten.length + x.length := by
    unfold Filtre.retarde
    rw [List.length_take, List.length_append, hel]; omega
  have hl1l : l1.length = xs.flatten.length := by
    rw [qa.2]
    unfold Filtre.retarde
    rw [List.length_take, List.length_append, hes]; omega
  have lc2 : c2.length = x.length := by
    have := congrArg List.length hq2.2
    rw [List.length_append, hret, hl1l] at this
    omega
  have ves2 : ∀ i, i < xs.flatten.length + x.length → (es ++ [e2]).flatten.getD i 0 = enFen h.length (xs ++ [x]).flatten i / h.length := by
    intro i hi
    have hee : (es ++ [e2]).flatten = es.flatten ++ e2 := by simp
    rw [hee]
    by_cases hlt : i < xs.flatten.length
    · rw [List.getD_append _ _ _ _ (by omega), ves i hlt, hXe, (score_seuil_debut 0 h _ x i (by omega)).2.2]
    · rw [List.getD_append_right _ _ _ _ (by omega), ve _ (by omega), hes]
      congr 2; omega
  have vl : ∀ i, i < x.length → c2.getD i 0 = enFen h.length (xs ++ [x]).flatten (((xs.flatten.length + i : ℕ) : ℤ) - Ne + h.length - 1) / h.length := by
    intro i hi
    have e : c2.getD i 0 = (Filtre.retarde (0 : ℝ) (Ne + 1 - h.length) (es ++ [e2]).flatten).getD (xs.flatten.length + i) 0 := by
      rw [← hq2.2, List.getD_append_right _ _ _ _ (by omega), hl1l]
      congr 1; omega
    rw [e]
    unfold Filtre.retarde
    rw [List.getD_eq_getElem?_getD, List.getElem?_take, if_pos (by rw [hel]; omega)]
    by_cases hlt : xs.flatten.length + i < Ne + 1 - h.length
    · rw [List.getElem?_append_left (by simpa using hlt), List.getElem?_replicate, if_pos hlt]
      have : enFen h.length (xs ++ [x]).flatten (((xs.flatten.length + i : ℕ) : ℤ) - Ne + h.length - 1) = 0 := by
        unfold enFen fen ech
        refine sum_eq_zero fun j hj => ?_
        have := mem_range.1 hj
        rw [if_neg (by omega)]; simp
      rw [this]; simp
    · rw [List.getElem?_append_right (by rw [List.length_replicate]; omega), List.length_replicate, ← List.getD_eq_getElem?_getD, ves2 _ (by omega)]
      congr 2
      omega
  -- correlation
  obtain ⟨y1, hy1⟩ := hs.ola
  have hml : (h.map fun v : ℂ => v / (normeMotif h : ℂ)).length = h.length := List.length_map _
  have hcs := fun l => corr_sortie Ne N (h.map fun v : ℂ => v / (normeMotif h : ℂ)) s.T hNe p.limite (by rw [hml]; exact p.pp2) hrec (by omega) (by omega) (by omega) hs.T l
  rw [hml] at hcs
  obtain ⟨oa, ya, pa, la', -⟩ := hcs xs
  obtain ⟨ob, yb, pb, lb', vb'⟩ := hcs (xs ++ [x])
  rw [hy1, Option.some.injEq, Prod.mk.injEq] at pa
  have pb' := pb
  rw [ola_flux_append, hy1, Option.bind_some, Option.map_eq_some_iff] at pb'
  obtain ⟨⟨o2, c5⟩, ho, ho2⟩ := pb'
  simp only [Prod.mk.injEq] at ho2
  have hy1l : y1.length = xs.flatten.length := by rw [pa.2, la', Nat.div_mul_cancel hd]
  have lc5 : c5.length = x.length / Ne * Ne := by
    have := congrArg List.length ho2.2
    rw [List.length_append, lb', hy1l, ntot] at this
    obtain ⟨q, hq⟩ := hd
    rw [hq, Nat.mul_add_div hNe, Nat.add_mul, Nat.mul_comm q] at this
    omega
  refine ⟨_, e2, _, c2, o2, c5, f1, g1, ho, lc2, lc5, ?_, ?_, vl⟩
  · intro ch hch
    refine ⟨hs.T, ⟨yb, ?_⟩, ⟨zb, ?_⟩, ⟨es ++ [e2], Filtre.retarde 0 (Ne + 1 - h.length) (es ++ [e2]).flatten, ?_, ?_, ?_⟩, hch⟩
    · rw [pb, ho2.1]
    · rw [wb, hw2.1]
    · rw [qb, hq2.1]
    · rw [hel, ntot]
    · intro i hi
      exact ves2 i (by omega)
  · intro i hi
    have e : c5.getD i 0 = yb.getD (xs.flatten.length + i) 0 := by
      rw [← ho2.2, List.getD_append_right _ _ _ _ (by omega), hy1l]
      congr 1; omega
    rw [e, vb' _ (by have := congrArg List.length ho2.2; rw [List.length_append] at this; omega), corrDeb_correl]
    rfl

/-- Correlations delivered by the filter (after the suppression of the small ones). -/
noncomputable def gOla (Ne N : ℕ) (h x : List ℂ) (g : ℤ) : ℂ := gainSeuil (planche N) h x (g - Ne + h.length - 1) * ((normeMotif h / Real.sqrt N : ℝ) : ℂ)

theorem memch_congr (M N delais : ℕ) (seuil norme : ℝ) (sc sc' : ℤ → ℝ) (g g' : ℤ → ℂ) (n : ℕ) (ch : Chercheur) (h : MemCh M N delais seuil norme sc g n ch)
    (h1 : ∀ k : ℤ, k < n → sc k = sc' k) (h2 : ∀ k : ℤ, k < n → g k = g' k) : MemCh M N delais seuil norme sc' g' n ch :=
  ⟨h.M, h.N, h.delais, h.limite, h.norme, by rw [h.alc, h1 _ (by omega)], by rw [h.alc0, h1 _ (by omega)], by rw [h.lc, h2 _ (by omega)], by rw [h.lc0, h2 _ (by omega)], fun d hd => by rw [← h1 _ (by omega)]; exact h.pic d hd⟩

/-- One more block, of a multiple of `Ne` samples. -/
theorem ola_step (h : List ℂ) (seuil : ℝ) (h0 : 0 ≤ seuil) (Ne N : ℕ) (p : ParamOla h Ne N) (xs : List (List ℂ)) (s : DetOla) (hs : MemOla h seuil Ne N xs s) (x : List ℂ)
    (hd : Ne ∣ xs.flatten.length) (hdx : Ne ∣ x.length) (hx : 2 ≤ x.length) (X : List ℂ) (hX : X = (xs ++ [x]).flatten)
    (hc : MemCh h.length N Ne seuil (normeMotif h) (scOla Ne N h X) (gOla Ne N h X) xs.flatten.length s.ch) :
    ∃ s' y corr r, s.step x = some (s', y, r.1) ∧ MemOla h seuil Ne N (xs ++ [x]) s' ∧ MemCh h.length N Ne seuil (normeMotif h) (scOla Ne N h X) (gOla Ne N h X) (xs.flatten.length + x.length) s'.ch ∧ y.length = x.length ∧
      (∀ i, i < x.length → y.getD i 0 = scOla Ne N h X ((xs.flatten.length + i : ℕ) : ℤ)) ∧
      (∀ i, i < x.length → corr.getD i 0 = gOla Ne N h X ((xs.flatten.length + i : ℕ) : ℤ)) ∧
      boucleDet s.ch y corr ((if s.ch.picFinal.isSome then [none] else []) ++ (pics h.length seuil y).map some) = some r := by
  subst hX
  obtain ⟨m', e, l', l, o, c, f1, f2, f3, ll, lc, fm, vc, vl⟩ := ola_filtres h seuil Ne N p xs s hs x hd
  rw [Nat.div_mul_cancel hdx] at lc
  have hM := p.motif
  have hdeux := p.deux
  have hv := fun (i : ℕ) (hi : i < x.length) => valeur_ola h (xs ++ [x]).flatten (((xs.flatten.length + i : ℕ) : ℤ) - Ne + h.length - 1) (by omega) p.nonNul N (by omega) (c.getD i 0) (vc i (by omega))
  have vcs : ∀ i, i < x.length → (seuille c).getD i 0 = gOla Ne N h (xs ++ [x]).flatten ((xs.flatten.length + i : ℕ) : ℤ) := by
    intro i hi
    unfold seuille gOla
    rw [← (hv i hi).1, List.getD_eq_getElem _ _ (by rw [List.length_map]; omega), List.getElem_map, List.getD_eq_getElem _ _ (by omega)]
  obtain ⟨ch', y, r, k1, k2, k3, k4, k5⟩ := memch_step h.length N Ne seuil (normeMotif h) h0 hM _ _ _ _ hc c l x.length hx lc ll vcs (by
    intro i hi
    unfold normaliseCorr seuille scOla
    rw [← (hv i hi).2, ← vl i hi, List.getD_eq_getElem _ _ (by simp; omega), List.getElem_zipWith, List.getElem_map, List.getD_eq_getElem _ _ (by omega), List.getD_eq_getElem l _ (by omega)])
  refine ⟨⟨o, s.T, m', l', ch'⟩, y, seuille c, r, ?_, fm ch' k2.M, k2, k3, k4, vcs, k5⟩
  unfold DetOla.step
  rw [hs.M, f1, Option.bind_some]
  simp only
  rw [f2, Option.bind_some]
  simp only
  rw [f3, Option.bind_some]
  simp only
  rw [k1]
  rfl

theorem ola_det_append (s : DetOla) (a : List (List ℂ)) (x : List ℂ) :
    s.flux (a ++ [x]) = (s.flux a).bind fun r : DetOla × List ℝ × List (List Detection) => (DetOla.step r.1 x).map fun q : DetOla × List ℝ × List Detection => (q.1, r.2.1 ++ q.2.1, r.2.2 ++ [q.2.2]) := by
  induction a generalizing s with
  | nil =>
    simp only [List.nil_append, DetOla.flux, Option.bind_some]
    cases s.step x <;> simp
  | cons b a ih =>
    simp only [List.cons_append, DetOla.flux]
    cases s.step b with
    | none => simp
    | some q =>
      simp only [Option.bind_some]
      rw [ih]
      cases DetOla.flux q.1 a with
      | none => simp
      | some r =>
        simp only [Option.bind_some, Option.map_some, Option.map_map]
        cases DetOla.step r.1 x <;> simp

theorem sc_debut (Ne N : ℕ) (h a b : List ℂ) (hNe : h.length ≤ Ne) (k : ℤ) (hk : k < a.length) : scOla Ne N h (a ++ b) k = scOla Ne N h a k ∧ gOla Ne N h (a ++ b) k = gOla Ne N h a k := by
  have := score_seuil_debut (planche N) h a b (k - Ne + h.length - 1) (by omega)
  unfold scOla gOla
  rw [this.1, this.2.1]
  exact ⟨rfl, rfl⟩

theorem ola_flux_mem (h : List ℂ) (seuil : ℝ) (h0 : 0 ≤ seuil) (Ne N : ℕ) (p : ParamOla h Ne N) (xs : List (List ℂ)) (hb : ∀ b ∈ xs, 2 ≤ b.length ∧ Ne ∣ b.length) :
    ∃ s0 s y d, DetOla.cree h seuil Ne = some s0 ∧ s0.flux xs = some (s, y, d) ∧ MemOla h seuil Ne N xs s ∧
      MemCh h.length N Ne seuil (normeMotif h) (scOla Ne N h xs.flatten) (gOla Ne N h xs.flatten) xs.flatten.length s.ch ∧ Ne ∣ xs.flatten.length ∧ d.length = xs.length ∧ y.length = xs.flatten.length ∧
      ∀ g, g < xs.flatten.length → y.getD g 0 = scOla Ne N h xs.flatten g := by
  have hdeux := p.deux
  have hrec := p.recouvre
  induction xs using List.reverseRecOn with
  | nil =>
    obtain ⟨s, h1, h2, h3⟩ := ola_init h seuil Ne N p
    exact ⟨s, s, [], [], h1, rfl, h2, h3 _, by simp, rfl, rfl, by simp⟩
  | append_singleton xs x ih =>
    obtain ⟨s0, s, y, d, h1, h2, h3, h4, h5, h6, h7, h8⟩ := ih fun b h => hb b (by simp [h])
    have hXe : (xs ++ [x]).flatten = xs.flatten ++ x := by simp
    have hbx := hb x (by simp)
    have h4' := memch_congr _ _ _ _ _ _ (scOla Ne N h (xs ++ [x]).flatten) _ (gOla Ne N h (xs ++ [x]).flatten) _ _ h4
      (fun k hk => by rw [hXe, (sc_debut Ne N h _ x (by omega) k hk).1]) (fun k hk => by rw [hXe, (sc_debut Ne N h _ x (by omega) k hk).2])
    obtain ⟨s', y', corr, r, g1, g2, g3, g4, g5, g6, g7⟩ := ola_step h seuil h0 Ne N p xs s h3 x h5 hbx.2 hbx.1 _ rfl h4'
    have hl : (xs ++ [x]).flatten.length = xs.flatten.length + x.length := by rw [hXe, List.length_append]
    refine ⟨s0, s', y ++ y', d ++ [r.1], h1, ?_, g2, by rw [hl]; exact g3, by rw [hl]; exact Dvd.dvd.add h5 hbx.2, by simp [h6], by rw [List.length_append, hl, h7, g4], ?_⟩
    · rw [ola_det_append, h2, Option.bind_some]
      simp only [g1, Option.map_some]
    · intro g hg
      by_cases hlt : g < xs.flatten.length
      · rw [List.getD_append _ _ _ _ (by omega), h8 g hlt, hXe, (sc_debut Ne N h _ x (by omega) g (by omega)).1]
      · rw [List.getD_append_right _ _ _ _ (by omega), g5 _ (by omega)]
        congr 2
        omega

/-! ### Theorems -/

/-- **C114 (score).**  For every non-null pattern of `M ≥ 2` samples and every block size `Ne` such that the transform size `N` (the power of two from `Ne + M - 1`) lies between `2M` and `2Ne`, the
detector in its default mode is created, accepts every sequence of blocks whose sizes are multiples of `Ne`, and its output `g` is the documented score of the window that starts at
the sample `g - Ne`, however the blocks are arranged. -/
theorem C114_score (h : List ℂ) (seuil : ℝ) (h0 : 0 ≤ seuil) (Ne N : ℕ) (hM : 2 ≤ h.length) (hH : ∃ v ∈ h, v ≠ 0) (hNe : 0 < Ne) (hN : N = 2 ^ Nat.clog 2 (Ne + h.length - 1)) (h2 : 2 * h.length ≤ N) (h3 : N ≤ 2 * Ne) (h4 : N ≤ 2 ^ 29)
    (xs : List (List ℂ)) (hb : ∀ b ∈ xs, 2 ≤ b.length ∧ Ne ∣ b.length) :
    ∃ s0 s y d, DetOla.cree h seuil Ne = some s0 ∧ s0.flux xs = some (s, y, d) ∧ d.length = xs.length ∧ y.length = xs.flatten.length ∧
      ∀ g, g < y.length → y[g]? = some (scoreSeuil (planche N) h xs.flatten ((g : ℤ) - Ne + ((h.length : ℤ) - 1))) := by
  obtain ⟨s0, s, y, d, e1, e2, e3, e4, e5, e6, e7, e8⟩ := ola_flux_mem h seuil h0 Ne N ⟨hM, motif_pos h hH, hNe, hN, h2, h3, h4⟩ xs hb
  refine ⟨s0, s, y, d, e1, e2, e6, e7, fun g hg => ?_⟩
  have := e8 g (by omega)
  rw [List.getD_eq_getElem _ _ hg] at this
  rw [List.getElem?_eq_getElem hg, this]
  unfold scOla
  congr 2
  ring

/-- **C114 (every clear peak is reported).**  After any accepted blocks, when the last score was not above the threshold, every sample of the next block (first and last excepted) whose score is
above the threshold and strictly larger than those at less than a pattern length gives the documented detection: position of the start of the pattern (between `-Ne` and `n - Ne`), score, interpolated
position, gain and phase. -/
theorem C114_complet (h : List ℂ) (seuil : ℝ) (h0 : 0 ≤ seuil) (Ne N : ℕ) (hM : 2 ≤ h.length) (hH : ∃ v ∈ h, v ≠ 0) (hNe : 0 < Ne) (hN : N = 2 ^ Nat.clog 2 (Ne + h.length - 1)) (h2 : 2 * h.length ≤ N) (h3 : N ≤ 2 * Ne) (h4 : N ≤ 2 ^ 29)
    (xs : List (List ℂ)) (x : List ℂ) (hb : ∀ b ∈ xs ++ [x], 2 ≤ b.length ∧ Ne ∣ b.length) (X : List ℂ) (hX : X = (xs ++ [x]).flatten) (n0 : ℕ) (hn0 : n0 = xs.flatten.length)
    (sc : ℤ → ℝ) (hsc : ∀ g, sc g = scoreSeuil (planche N) h X (g - Ne + ((h.length : ℤ) - 1))) (hcalme : sc ((n0 : ℤ) - 1) ≤ seuil) (i : ℕ) (hi0 : 0 < i) (hi1 : i + 1 < x.length)
    (hs : seuil < sc ((n0 + i : ℕ) : ℤ)) (hmax : ∀ j, j < x.length → j ≠ i → |(i : ℤ) - (j : ℤ)| < h.length → sc ((n0 + j : ℕ) : ℤ) < sc ((n0 + i : ℕ) : ℤ)) :
    ∃ s0 s y d D, DetOla.cree h seuil Ne = some s0 ∧ s0.flux (xs ++ [x]) = some (s, y, d ++ [D]) ∧ d.length = xs.length ∧ ∃ det ∈ D, det.position = (i : ℤ) - Ne ∧ DecritSeuil (planche N) h X n0 (((n0 + i : ℕ) : ℤ) - Ne + ((h.length : ℤ) - 1)) det := by
  have p : ParamOla h Ne N := ⟨hM, motif_pos h hH, hNe, hN, h2, h3, h4⟩
  obtain ⟨s0, s, y, d, e1, e2, e3, e4, e5, e6, e7, e8⟩ := ola_flux_mem h seuil h0 Ne N p xs fun b h => hb b (by simp [h])
  have hXe : (xs ++ [x]).flatten = xs.flatten ++ x := by simp
  have hbx := hb x (by simp)
  have hscs : ∀ g, sc g = scOla Ne N h X g := by
    intro g; rw [hsc]; unfold scOla; congr 1; ring
  simp only [hscs] at hcalme hs hmax
  subst hX hn0
  have e4' := memch_congr _ _ _ _ _ _ (scOla Ne N h (xs ++ [x]).flatten) _ (gOla Ne N h (xs ++ [x]).flatten) _ _ e4
    (fun k hk => by rw [hXe, (sc_debut Ne N h _ x (by omega) k hk).1]) (fun k hk => by rw [hXe, (sc_debut Ne N h _ x (by omega) k hk).2])
  obtain ⟨s', y', corr, r, g1, g2, g3, g4, g5, g6, g7⟩ := ola_step h seuil h0 Ne N p xs s e3 x e5 hbx.2 hbx.1 _ rfl e4'
  have hpf : s.ch.picFinal = none := by
    cases e : s.ch.picFinal with
    | none => rfl
    | some q =>
      have := e4'.pic q e
      linarith
  rw [hpf] at g7
  simp only [Option.isSome_none, Bool.false_eq_true, if_false, List.nil_append] at g7
  have hpic : i ∈ pics h.length seuil y' := by
    refine pic_stricte h.length (by omega) seuil y' i (by omega) (by rw [g5 i (by omega)]; exact hs) fun j hj hne hd => ?_
    rw [g5 i (by omega), g5 j (by omega)]
    exact hmax j (by omega) hne hd
  have hmem := boucle_atteint s.ch y' corr i (by omega) hi0 _ (pics_ordre _ _ _) hpic (by
    intro hz
    have := (candidat_prop h.length (by omega) seuil h0 _ _ (pics_candidats _ _ _ _ hz)).2.1
    rw [e4'.alc]
    linarith) r g7
  have k1 : ((xs.flatten.length + (i - 1) : ℕ) : ℤ) = ((xs.flatten.length + i : ℕ) : ℤ) - 1 := by omega
  have k2 : ((xs.flatten.length + (i + 1) : ℕ) : ℤ) = ((xs.flatten.length + i : ℕ) : ℤ) + 1 := by push_cast; ring
  have m1 := hmax (i - 1) (by omega) (by omega) (by rw [abs_lt]; omega)
  have m2 := hmax (i + 1) (by omega) (by omega) (by rw [abs_lt]; omega)
  rw [k1] at m1
  rw [k2] at m2
  rw [g5 _ (by omega), g5 _ (by omega), g5 _ (by omega), g6 _ (by omega), g6 _ (by omega), g6 _ (by omega), k1, k2] at hmem
  have hpos : (brute s.ch y' corr i).position = (i : ℤ) - Ne := by simp only [brute, e4'.delais]
  refine ⟨s0, s', y ++ y', d, r.1, e1, by rw [ola_det_append, e2, Option.bind_some]; simp only [g1, Option.map_some], e6, _, hmem, by rw [(affine_champs _ _ _ _ _ _ _ _).1, hpos], ?_⟩
  have hr : 0 < normeMotif h := by rw [normeMotif_carre]; exact Real.sqrt_pos.2 p.nonNul
  have hNp : 0 < Real.sqrt N := Real.sqrt_pos.2 (by have : 0 < N := by omega
                                                    exact_mod_cast this)
  have hg : ∀ (a b c : ℂ) (δ : ℝ), (b * ((normeMotif h / Real.sqrt N : ℝ) : ℂ) - (a * ((normeMotif h / Real.sqrt N : ℝ) : ℂ) - c * ((normeMotif h / Real.sqrt N : ℝ) : ℂ)) * (δ : ℂ) * (1 / 4)) * ((Real.sqrt s.ch.N / s.ch.norme : ℝ) : ℂ) = b - (a - c) * (δ : ℂ) * (1 / 4) := by
    intro a b c δ
    have hrc : (normeMotif h : ℂ) ≠ 0 := by exact_mod_cast hr.ne'
    have hsc : (Real.sqrt N : ℂ) ≠ 0 := by exact_mod_cast hNp.ne'
    rw [e4'.N, e4'.norme, Complex.ofReal_div, Complex.ofReal_div]
    field_simp
  have w0 : ((xs.flatten.length + i : ℕ) : ℤ) - 1 - Ne + h.length - 1 = ((xs.flatten.length + i : ℕ) : ℤ) - Ne + ((h.length : ℤ) - 1) - 1 := by ring
  have w1 : ((xs.flatten.length + i : ℕ) : ℤ) - Ne + h.length - 1 = ((xs.flatten.length + i : ℕ) : ℤ) - Ne + ((h.length : ℤ) - 1) := by ring
  have w2 : ((xs.flatten.length + i : ℕ) : ℤ) + 1 - Ne + h.length - 1 = ((xs.flatten.length + i : ℕ) : ℤ) - Ne + ((h.length : ℤ) - 1) + 1 := by ring
  unfold DecritSeuil
  unfold scOla at m1 m2 ⊢
  unfold gOla
  rw [w0, w1] at m1
  rw [w1, w2] at m2
  rw [w0, w1, w2]
  unfold affine
  rw [(qint_pic _ _ _ m1 m2).1]
  simp only [hg]
  refine ⟨?_, ?_, ?_, ?_, ?_⟩
  · rw [hpos]; push_cast; ring
  · simp [brute]
  · simp only [brute]; rw [g5 _ (by omega)]; unfold scOla; rw [w1]
  · trivial
  · trivial

/-- **C114 (refuted: blocks of any size).**  After any accepted blocks, a block whose size is not a multiple of `Ne` is an error (failed assertion). -/
theorem C114_taille_refute (h : List ℂ) (seuil : ℝ) (h0 : 0 ≤ seuil) (Ne N : ℕ) (hM : 2 ≤ h.length) (hH : ∃ v ∈ h, v ≠ 0) (hNe : 0 < Ne) (hN : N = 2 ^ Nat.clog 2 (Ne + h.length - 1)) (h2 : 2 * h.length ≤ N) (h3 : N ≤ 2 * Ne) (h4 : N ≤ 2 ^ 29)
    (xs : List (List ℂ)) (hb : ∀ b ∈ xs, 2 ≤ b.length ∧ Ne ∣ b.length) (x : List ℂ) (hx : ¬ Ne ∣ x.length) :
    ∃ s0, DetOla.cree h seuil Ne = some s0 ∧ s0.flux (xs ++ [x]) = none := by
  have p : ParamOla h Ne N := ⟨hM, motif_pos h hH, hNe, hN, h2, h3, h4⟩
  obtain ⟨s0, s, y, d, e1, e2, e3, e4, e5, e6, e7, e8⟩ := ola_flux_mem h seuil h0 Ne N p xs hb
  refine ⟨s0, e1, ?_⟩
  obtain ⟨m', e, l', l, o, c, f1, f2, f3, ll, lc, -⟩ := ola_filtres h seuil Ne N p xs s e3 x e5
  rw [ola_det_append, e2, Option.bind_some]
  have : s.step x = none := by
    unfold DetOla.step
    rw [e3.M, f1, Option.bind_some]
    simp only
    rw [f2, Option.bind_some]
    simp only
    rw [f3, Option.bind_some]
    simp only [Chercheur.step]
    rw [if_pos, Option.map_none]
    left
    rw [lc, ll]
    intro heq
    exact hx ⟨x.length / Ne, by rw [Nat.mul_comm]; exact heq.symm⟩
  simp only [this, Option.map_none]

/-- Non-vacuity of the hypotheses: pattern of 5 samples, blocks of 12 samples, transform of 16; and blocks of 8 samples, transform of 16. -/
example : (16 = 2 ^ Nat.clog 2 (12 + 5 - 1) ∧ 2 * 5 ≤ 16 ∧ 16 ≤ 2 * 12) ∧ (16 = 2 ^ Nat.clog 2 (8 + 5 - 1) ∧ 2 * 5 ≤ 16 ∧ 16 ≤ 2 * 8) := by
  refine ⟨⟨?_, by norm_num, by norm_num⟩, ?_, by norm_num, by norm_num⟩ <;> decide

end Verif.Fourier
