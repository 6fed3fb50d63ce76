import Verif.Fourier.DetecteurProps
import Verif.Telecom.EmetteurProps

/-!
# C113: detections of the pattern detector (filter mode)
-/

namespace Verif.Fourier

open Finset

/-! ### Specification -/

/-- Complex gain of the pattern in the window that ends at `k`: `∑ x h* / ∑ |h|²` (null when the correlation is below the floor of the code). -/
noncomputable def gainDet (h x : List ℂ) (k : ℤ) : ℂ := if ‖correl h x k‖ / Real.sqrt (enMotif h) ≤ 1 / 10 ^ 6 then 0 else correl h x k / (enMotif h : ℂ)

/-- Abscissa of the top of the parabola through `(-1, ym)`, `(0, y0)`, `(1, yp)`. -/
noncomputable def sommet (ym y0 yp : ℝ) : ℝ := (yp - ym) / (2 * (2 * y0 - yp - ym))

/-- The expected description of a peak of the score at the sample `k` of the signal `x`, `n0` being the index of the first sample of the
current block: position of the start of the pattern relative to the block, fractional position, score, gain and phase (interpolated). -/
def Decrit (h x : List ℂ) (n0 : ℕ) (k : ℤ) (d : Detection) : Prop :=
  let δ := sommet (scoreDet h x (k - 1)) (scoreDet h x k) (scoreDet h x (k + 1))
  let g := gainDet h x k - (gainDet h x (k - 1) - gainDet h x (k + 1)) * (δ : ℂ) * (1 / 4)
  d.position = k - n0 - ((h.length : ℤ) - 1) ∧ d.positionPrec = some (d.position + δ) ∧ d.score = scoreDet h x k ∧ d.gain = some ‖g‖ ∧ d.theta = some (Complex.arg g)

/-! ### Search of the peaks -/

theorem erosion_elt (M : ℕ) (y : List ℝ) (j : ℕ) (hj : j < y.length) :
    (erosion M y).getD j 0 = if j = j / M * M + indexMax ((y.drop (j / M * M)).take M) then y.getD j 0 else 0 := by
  unfold erosion
  rw [List.getD_eq_getElem _ _ (by simpa using hj), List.getElem_map, List.getElem_range]

theorem segment_elt (M : ℕ) (y : List ℝ) (b t : ℕ) (ht : t < M) (hb : b + t < y.length) : ((y.drop b).take M).getD t 0 = y.getD (b + t) 0 := by
  rw [List.getD_eq_getElem _ _ (by simp; omega), List.getD_eq_getElem _ _ hb, List.getElem_take, List.getElem_drop]

theorem mem_candidats (M : ℕ) (seuil : ℝ) (y : List ℝ) (j : ℕ) : j ∈ candidats M seuil y ↔ j < y.length ∧ seuil < (erosion M y).getD j 0 := by
  unfold candidats
  rw [List.mem_filter, List.mem_range, decide_eq_true_eq]

/-- A candidate is above the threshold and is the largest value of its segment. -/
theorem candidat_prop (M : ℕ) (hM : 0 < M) (seuil : ℝ) (hs : 0 ≤ seuil) (y : List ℝ) (j : ℕ) (h : j ∈ candidats M seuil y) :
    j < y.length ∧ seuil < y.getD j 0 ∧ ∀ t, t / M = j / M → t < y.length → y.getD t 0 ≤ y.getD j 0 := by
  rw [mem_candidats] at h
  obtain ⟨h1, h2⟩ := h
  rw [erosion_elt _ _ _ h1] at h2
  split at h2
  · rename_i he
    refine ⟨h1, h2, fun t ht hl => ?_⟩
    have hdt := Nat.div_add_mod t M
    have hdj := Nat.div_add_mod j M
    have hmt := Nat.mod_lt t hM
    rw [ht] at hdt
    have hb : j / M * M = M * (j / M) := Nat.mul_comm _ _
    have hm := indexMax_max ((y.drop (j / M * M)).take M) (t % M) (by simp; omega)
    rw [segment_elt M y _ _ hmt (by omega), show j / M * M + t % M = t by omega] at hm
    have hi : indexMax ((y.drop (j / M * M)).take M) = j % M := by omega
    rw [hi, segment_elt M y _ _ (Nat.mod_lt _ hM) (by omega), show j / M * M + j % M = j by omega] at hm
    exact hm
  · linarith

/-- A value above the threshold that is strictly larger than those at less than `M` samples is a candidate and a peak. -/
theorem pic_stricte (M : ℕ) (hM : 0 < M) (seuil : ℝ) (y : List ℝ) (i : ℕ) (hi : i < y.length) (hs : seuil < y.getD i 0)
    (hmax : ∀ j, j < y.length → j ≠ i → |(i : ℤ) - (j : ℤ)| < M → y.getD j 0 < y.getD i 0) : i ∈ pics M seuil y := by
  have hc : i ∈ candidats M seuil y := by
    rw [mem_candidats]
    refine ⟨hi, ?_⟩
    rw [erosion_elt _ _ _ hi, if_pos, ]
    · exact hs
    · have hd := Nat.div_add_mod i M
      have hm := Nat.mod_lt i hM
      have hb : i / M * M = M * (i / M) := Nat.mul_comm _ _
      set g := (y.drop (i / M * M)).take M with hg
      have hgl : i % M < g.length := by rw [hg]; simp; omega
      obtain ⟨h1, -⟩ := indexMax_spec g (by omega)
      have h2 := indexMax_max g (i % M) hgl
      have h3 : indexMax g < M ∧ i / M * M + indexMax g < y.length := by
        rw [hg] at h1 ⊢; simp at h1 ⊢; omega
      rw [hg, segment_elt M y _ _ hm (by omega), ← hg, show i / M * M + i % M = i by omega] at h2
      rw [show g.getD (indexMax g) 0 = y.getD (i / M * M + indexMax g) 0 from by conv_lhs => rw [hg]
                                                                                 exact segment_elt M y _ _ h3.1 h3.2] at h2
      by_contra hne
      have := hmax (i / M * M + indexMax g) h3.2 (fun h => hne h.symm) (by
        have hc : (i : ℤ) - ((i / M * M + indexMax g : ℕ) : ℤ) = ((i % M : ℕ) : ℤ) - (indexMax g : ℕ) := by
          have : i = i / M * M + i % M := by omega
          generalize i / M * M = B at this ⊢
          generalize i % M = C at this ⊢
          omega
        rw [hc, abs_lt]; constructor <;> omega)
      linarith
  unfold pics
  rw [List.mem_filter]
  refine ⟨hc, ?_⟩
  simp only [decide_eq_true_eq, not_exists, not_and, not_lt]
  intro j hj hlt
  rw [mem_candidats] at hj
  by_contra hcon
  have hne : j ≠ i := fun h => by rw [h] at hlt; exact lt_irrefl _ hlt
  have := hmax j hj.1 hne (not_le.1 hcon)
  linarith

theorem pics_candidats (M : ℕ) (seuil : ℝ) (y : List ℝ) (i : ℕ) (h : i ∈ pics M seuil y) : i ∈ candidats M seuil y := by
  unfold pics at h
  exact (List.mem_filter.1 h).1

theorem pics_ordre (M : ℕ) (seuil : ℝ) (y : List ℝ) : (pics M seuil y).Pairwise (· < ·) := by
  unfold pics candidats
  exact (List.pairwise_lt_range.filter _).filter _

/-! ### The loop -/

theorem boucle_rapport (s : Chercheur) (y : List ℝ) (corr : List ℂ) (l : List (Option ℕ)) : ∀ r, boucleDet s y corr l = some r →
    (∀ d ∈ r.1, ∃ i ∈ l, traite s y corr i = some (.inr d)) ∧ ∀ d, r.2 = some d → ∃ i ∈ l, traite s y corr i = some (.inl (some d)) := by
  induction l with
  | nil => intro r h; simp only [boucleDet, Option.some.injEq] at h; subst h; exact ⟨by simp, by simp⟩
  | cons i l ih =>
    intro r h
    simp only [boucleDet] at h
    cases e : traite s y corr i with
    | none => rw [e] at h; simp at h
    | some q =>
      rw [e] at h
      cases q with
      | inl p =>
        simp only [Option.some.injEq] at h
        subst h
        refine ⟨by simp, fun d hd => ⟨i, by simp, ?_⟩⟩
        simp only at hd
        rw [e, hd]
      | inr d1 =>
        simp only at h
        split at h
        · simp at h
        · cases e2 : boucleDet s y corr l with
          | none => rw [e2] at h; simp at h
          | some q =>
            rw [e2, Option.map_some, Option.some.injEq] at h
            subst h
            obtain ⟨f1, f2⟩ := ih q e2
            refine ⟨fun d hd => ?_, fun d hd => ?_⟩
            · rcases List.mem_cons.1 hd with rfl | hd
              · exact ⟨i, by simp, e⟩
              · obtain ⟨i', hi', ht⟩ := f1 d hd
                exact ⟨i', by simp [hi'], ht⟩
            · obtain ⟨i', hi', ht⟩ := f2 d hd
              exact ⟨i', by simp [hi'], ht⟩

theorem boucle_atteint (s : Chercheur) (y : List ℝ) (corr : List ℂ) (i : ℕ) (hi : i + 1 < y.length) (h0 : 0 < i) : ∀ (l : List ℕ), l.Pairwise (· < ·) → i ∈ l →
    (0 ∈ l → ¬ y.getD 0 0 < s.alc) → ∀ r, boucleDet s y corr (l.map some) = some r →
    affine s (brute s y corr i) (y.getD (i - 1) 0) (y.getD i 0) (y.getD (i + 1) 0) (corr.getD (i - 1) 0) (corr.getD i 0) (corr.getD (i + 1) 0) ∈ r.1 := by
  intro l
  induction l with
  | nil => intro _ h; simp at h
  | cons a l ih =>
    intro hp hm hz r hr
    have hle : a ≤ i := by
      rcases List.mem_cons.1 hm with rfl | h
      · exact le_rfl
      · exact ((List.pairwise_cons.1 hp).1 i h).le
    have ht : ∃ d, traite s y corr (some a) = some (.inr d) ∧ (a = i → d = affine s (brute s y corr i) (y.getD (i - 1) 0) (y.getD i 0) (y.getD (i + 1) 0) (corr.getD (i - 1) 0) (corr.getD i 0) (corr.getD (i + 1) 0)) := by
      cases a with
      | zero =>
        simp only [traite]
        rw [if_neg (by omega), if_neg (hz (by simp))]
        exact ⟨_, rfl, fun h => by omega⟩
      | succ a =>
        simp only [traite]
        rw [if_neg (by omega)]
        refine ⟨_, rfl, fun h => ?_⟩
        subst h
        rfl
    obtain ⟨d, hd, hda⟩ := ht
    rw [List.map_cons, boucleDet, hd] at hr
    simp only at hr
    split at hr
    · simp at hr
    · cases e2 : boucleDet s y corr (l.map some) with
      | none => rw [e2] at hr; simp at hr
      | some q =>
        rw [e2, Option.map_some, Option.some.injEq] at hr
        subst hr
        rcases List.mem_cons.1 hm with h | h
        · rw [← hda h.symm]; simp
        · exact List.mem_cons_of_mem _ (ih (List.pairwise_cons.1 hp).2 h (fun h => hz (by simp [h])) q e2)

/-! ### State after a stream -/

theorem det_flux_append (s : DetRif) (a b : List (List ℂ)) :
    s.flux (a ++ b) = (s.flux a).bind fun r : DetRif × List ℝ × List (List Detection) => (DetRif.flux r.1 b).map fun q : DetRif × List ℝ × List (List Detection) => (q.1, r.2.1 ++ q.2.1, r.2.2 ++ q.2.2) := by
  induction a generalizing s with
  | nil =>
    simp only [List.nil_append, DetRif.flux, Option.bind_some]
    cases DetRif.flux s b <;> simp
  | cons x a ih =>
    simp only [List.cons_append, DetRif.flux]
    cases s.step x with
    | none => simp
    | some p =>
      simp only [Option.bind_some]
      rw [ih]
      cases DetRif.flux p.1 a with
      | none => simp
      | some q =>
        simp only [Option.bind_some, Option.map_some, Option.map_map]
        cases DetRif.flux q.1 b <;> simp

/-- What the detector remembers: the filters, and the last value of the score, and a pending peak only if this value is above the threshold. -/
structure Memoire (h : List ℂ) (seuil : ℝ) (xs : List (List ℂ)) (s : DetRif) : Prop where
  rif : ∃ c, Filtre.enchaine (Filtre.Rif.step (0 : ℂ) (· + ·) (· * ·)) (Filtre.Rif.init 0 (h.reverse.map fun v : ℂ => (starRingEnd ℂ) v / (normeMotif h : ℂ))) xs = some (s.rif, c)
  mg : ∃ e, Filtre.enchaine (Filtre.Mg.step (· + ·) (· - ·) (fun a : ℝ => a * (1 / (h.length : ℝ)))) (Filtre.Mg.init 0 h.length) (xs.map fun x => x.map fun v : ℂ => ‖v‖ ^ 2) = some (s.mg, e)
  M : s.ch.M = h.length
  N : s.ch.N = 1
  delais : s.ch.delais = h.length - 1
  limite : s.ch.seuil = seuil
  norme : s.ch.norme = normeMotif h
  alc : s.ch.alc = scoreDet h xs.flatten ((xs.flatten.length : ℤ) - 1)
  alc0 : s.ch.alc0 = scoreDet h xs.flatten ((xs.flatten.length : ℤ) - 2)
  lc : s.ch.lc = gainDet h xs.flatten ((xs.flatten.length : ℤ) - 1) * (normeMotif h : ℂ)
  lc0 : s.ch.lc0 = gainDet h xs.flatten ((xs.flatten.length : ℤ) - 2) * (normeMotif h : ℂ)
  pic : ∀ d, s.ch.picFinal = some d → d.position = (s.ch.dernierN : ℤ) - h.length ∧ d.positionPrec = some (d.position : ℝ) ∧ d.score = scoreDet h xs.flatten ((xs.flatten.length : ℤ) - 1) ∧ seuil < d.score ∧ xs ≠ []

theorem ech_debut (a b : List ℂ) (k : ℤ) (hk : k < a.length) : ech (a ++ b) k = ech a k := by
  unfold ech
  split
  · rw [List.getD_append _ _ _ _ (by omega)]
  · rfl

theorem score_debut (h a b : List ℂ) (k : ℤ) (hk : k < a.length) : scoreDet h (a ++ b) k = scoreDet h a k ∧ gainDet h (a ++ b) k = gainDet h a k := by
  have hf : ∀ i, i < h.length → fen h.length (a ++ b) k i = fen h.length a k i := by
    intro i hi
    unfold fen
    rw [ech_debut _ _ _ (by omega)]
  have hc : correl h (a ++ b) k = correl h a k := by
    unfold correl
    exact sum_congr rfl fun i hi => by rw [hf i (mem_range.1 hi)]
  have he : enFen h.length (a ++ b) k = enFen h.length a k := by
    unfold enFen
    exact sum_congr rfl fun i hi => by rw [hf i (mem_range.1 hi)]
  unfold scoreDet gainDet
  rw [hc, he]
  exact ⟨rfl, rfl⟩

theorem gain_norme (h x : List ℂ) (k : ℤ) (hE : 0 < enMotif h) (c : ℂ) (hc : c = correl h x k / (normeMotif h : ℂ)) :
    (if ‖c‖ ≤ 1 / 10 ^ 6 then (0 : ℂ) else c) = gainDet h x k * (normeMotif h : ℂ) := by
  have hr : 0 < normeMotif h := by rw [normeMotif_carre]; exact Real.sqrt_pos.2 hE
  have h2 : (normeMotif h : ℂ) * (normeMotif h : ℂ) = (enMotif h : ℂ) := by
    rw [← Complex.ofReal_mul, normeMotif_carre, Real.mul_self_sqrt hE.le]
  have hn : ‖c‖ = ‖correl h x k‖ / Real.sqrt (enMotif h) := by
    rw [hc, normeMotif_carre, norm_div, Complex.norm_real, Real.norm_eq_abs, abs_of_nonneg (Real.sqrt_nonneg _)]
  unfold gainDet
  rw [hn]
  split
  · simp
  · have : (normeMotif h : ℂ) ≠ 0 := by exact_mod_cast hr.ne'
    rw [hc, ← h2]
    field_simp

theorem bloc_suivant (h : List ℂ) (seuil : ℝ) (hM : 0 < h.length) (hE : 0 < enMotif h) (xs : List (List ℂ)) (s : DetRif) (hs : Memoire h seuil xs s) (x : List ℂ) :
    ∃ r' c m' e, Filtre.Rif.step (0 : ℂ) (· + ·) (· * ·) s.rif x = some (r', c) ∧ Filtre.Mg.step (· + ·) (· - ·) (fun a : ℝ => a * (1 / (h.length : ℝ))) s.mg (x.map fun v : ℂ => ‖v‖ ^ 2) = some (m', e) ∧
      c.length = x.length ∧ e.length = x.length ∧
      (∀ i, i < x.length → (seuille c).getD i 0 = gainDet h (xs ++ [x]).flatten ((xs.flatten.length + i : ℕ) : ℤ) * (normeMotif h : ℂ)) ∧
      (∀ i, i < x.length → (normaliseCorr 1 h.length (seuille c) e).getD i 0 = scoreDet h (xs ++ [x]).flatten ((xs.flatten.length + i : ℕ) : ℤ)) ∧
      (∃ c', Filtre.enchaine (Filtre.Rif.step (0 : ℂ) (· + ·) (· * ·)) (Filtre.Rif.init 0 (h.reverse.map fun v : ℂ => (starRingEnd ℂ) v / (normeMotif h : ℂ))) (xs ++ [x]) = some (r', c')) ∧
      (∃ e', Filtre.enchaine (Filtre.Mg.step (· + ·) (· - ·) (fun a : ℝ => a * (1 / (h.length : ℝ)))) (Filtre.Mg.init 0 h.length) ((xs ++ [x]).map fun x => x.map fun v : ℂ => ‖v‖ ^ 2) = some (m', e')) := by
  obtain ⟨c1, hc1⟩ := hs.rif
  obtain ⟨e1, he1⟩ := hs.mg
  obtain ⟨ra, ya, qa, la, -⟩ := Filtre.C19_convolution (h.reverse.map fun v : ℂ => (starRingEnd ℂ) v / (normeMotif h : ℂ)) (by simp; omega) xs
  obtain ⟨rb, yb, qb, lb, vb⟩ := Filtre.C19_convolution (h.reverse.map fun v : ℂ => (starRingEnd ℂ) v / (normeMotif h : ℂ)) (by simp; omega) (xs ++ [x])
  obtain ⟨ma, za, wa, ka, -⟩ := Filtre.C23_moyenne h.length (by omega) (xs.map fun x => x.map fun v : ℂ => ‖v‖ ^ 2)
  obtain ⟨mb, zb, wb, kb, ub⟩ := Filtre.C23_moyenne h.length (by omega) ((xs ++ [x]).map fun x => x.map fun v : ℂ => ‖v‖ ^ 2)
  have hflt : ∀ l : List (List ℂ), (l.map fun x => x.map fun v : ℂ => ‖v‖ ^ 2).flatten = l.flatten.map fun v : ℂ => ‖v‖ ^ 2 := fun l => by rw [List.map_flatten]
  rw [hflt, List.length_map] at ka kb
  rw [hflt] at ub
  rw [hc1, Option.some.injEq, Prod.mk.injEq] at qa
  rw [he1, Option.some.injEq, Prod.mk.injEq] at wa
  have qb' := qb
  have wb' := wb
  rw [Telecom.enchaine_concat, hc1, Option.bind_some] at qb'
  rw [List.map_append, Telecom.enchaine_concat, he1, Option.bind_some] at wb'
  simp only [Option.map_eq_some_iff] at qb' wb'
  obtain ⟨⟨r2, c2⟩, hq, hq2⟩ := qb'
  obtain ⟨⟨m2, e2⟩, hw, hw2⟩ := wb'
  simp only [Prod.mk.injEq] at hq2 hw2
  obtain ⟨r3, c3, c4, g1, g2, g3⟩ := enchaine_cons hq
  obtain ⟨m3, e3, e4, f1, f2, f3⟩ := enchaine_cons (by rw [List.map_cons, List.map_nil] at hw; exact hw)
  simp only [Filtre.enchaine, Option.some.injEq, Prod.mk.injEq] at g2 f2
  obtain ⟨rfl, rfl⟩ := g2
  obtain ⟨rfl, rfl⟩ := f2
  rw [List.append_nil] at g3 f3
  subst g3 f3
  have l1 := rif_long _ _ _ _ g1
  have l2 := mg_long _ _ _ _ _ f1
  rw [List.length_map] at l2
  have n1 : c1.length = xs.flatten.length := by rw [qa.2]; exact la
  have n2 : e1.length = xs.flatten.length := by rw [wa.2]; exact ka
  have ntot : (xs ++ [x]).flatten.length = xs.flatten.length + x.length := by rw [List.flatten_append, List.length_append]; simp
  have vc : ∀ i, i < x.length → c2[i]? = some (correl h (xs ++ [x]).flatten ((xs.flatten.length + i : ℕ) : ℤ) / (normeMotif h : ℂ)) := by
    intro i hi
    have := vb (xs.flatten.length + i) (by omega)
    rw [convol_correl] at this
    rw [← this, ← hq2.2, List.getElem?_append_right (by omega), n1]
    congr 1; omega
  have ve : ∀ i, i < x.length → e2[i]? = some (enFen h.length (xs ++ [x]).flatten ((xs.flatten.length + i : ℕ) : ℤ) / h.length) := by
    intro i hi
    have := ub (xs.flatten.length + i) (by omega)
    rw [moyenne_energie] at this
    rw [← this, ← hw2.2, List.getElem?_append_right (by omega), n2]
    congr 1; omega
  have vg : ∀ i, i < x.length → (seuille c2)[i]? = some (gainDet h (xs ++ [x]).flatten ((xs.flatten.length + i : ℕ) : ℤ) * (normeMotif h : ℂ)) := by
    intro i hi
    unfold seuille
    rw [List.getElem?_map, vc i hi, Option.map_some, gain_norme h _ _ hE _ rfl]
  refine ⟨_, c2, _, e2, g1, f1, l1, l2, ?_, ?_, ⟨yb, ?_⟩, ⟨zb, ?_⟩⟩
  · intro i hi
    rw [List.getD_eq_getElem?_getD, vg i hi]; rfl
  · intro i hi
    rw [List.getD_eq_getElem?_getD]
    unfold normaliseCorr
    unfold seuille
    rw [List.getElem?_zipWith, List.getElem?_map, vc i hi, ve i hi]
    simp only [Option.map_some, Option.getD_some]
    refine valeur_score h _ _ hM hE 1 (by norm_num) _ (by rw [normeMotif_carre]; simp) ?_
    congr 1
    rw [normeMotif_carre, norm_div, Complex.norm_real, Real.norm_eq_abs, abs_of_nonneg (Real.sqrt_nonneg _)]
  · rw [qb, hq2.1]
  · rw [wb, hw2.1]

/-- One block: the state stays in accordance with the stream; the detections come from the loop. -/
theorem memoire_step (h : List ℂ) (seuil : ℝ) (h0 : 0 ≤ seuil) (hM : 2 ≤ h.length) (hE : 0 < enMotif h) (xs : List (List ℂ)) (s : DetRif) (hs : Memoire h seuil xs s) (x : List ℂ) (hx : 2 ≤ x.length) :
    ∃ s' y corr r, s.step x = some (s', y, r.1) ∧ Memoire h seuil (xs ++ [x]) s' ∧ y.length = x.length ∧
      (∀ i, i < x.length → y.getD i 0 = scoreDet h (xs ++ [x]).flatten ((xs.flatten.length + i : ℕ) : ℤ)) ∧
      (∀ i, i < x.length → corr.getD i 0 = gainDet h (xs ++ [x]).flatten ((xs.flatten.length + i : ℕ) : ℤ) * (normeMotif h : ℂ)) ∧
      boucleDet s.ch y corr ((if s.ch.picFinal.isSome then [none] else []) ++ (pics h.length seuil y).map some) = some r ∧ s'.ch.picFinal = r.2 := by
  obtain ⟨r', c, m', e, g1, f1, lc, le, vc, vy, p1, p2⟩ := bloc_suivant h seuil (by omega) hE xs s hs x
  have hstep : ∃ r, boucleDet s.ch (normaliseCorr 1 h.length (seuille c) e) (seuille c) ((if s.ch.picFinal.isSome then [none] else []) ++ (pics h.length seuil (normaliseCorr 1 h.length (seuille c) e)).map some) = some r := by
    refine boucleDet_some s.ch _ _ (by rw [hs.M]; exact hM) (by simp [normaliseCorr, seuille]; omega) _ ?_
    intro hn
    by_contra hc
    rw [if_neg hc] at hn
    simp at hn
  obtain ⟨r, hr⟩ := hstep
  have ly : (normaliseCorr 1 h.length (seuille c) e).length = x.length := by simp [normaliseCorr, seuille]; omega
  have ntot : (xs ++ [x]).flatten.length = xs.flatten.length + x.length := by rw [List.flatten_append, List.length_append]; simp
  have dl : ∀ k : ℤ, ((xs ++ [x]).flatten.length : ℤ) - k = (xs.flatten.length : ℤ) + x.length - k := by intro k; rw [ntot]; push_cast; ring
  have c1 : ((xs.flatten.length + (x.length - 1) : ℕ) : ℤ) = ((xs ++ [x]).flatten.length : ℤ) - 1 := by rw [ntot]; omega
  have c2 : ((xs.flatten.length + (x.length - 2) : ℕ) : ℤ) = ((xs ++ [x]).flatten.length : ℤ) - 2 := by rw [ntot]; omega
  refine ⟨⟨r', m', ⟨h.length, 1, h.length - 1, seuil, normeMotif h, (seuille c).getD (x.length - 1) 0, (seuille c).getD (x.length - 2) 0, (normaliseCorr 1 h.length (seuille c) e).getD (x.length - 1) 0, (normaliseCorr 1 h.length (seuille c) e).getD (x.length - 2) 0, r.2, x.length⟩⟩, normaliseCorr 1 h.length (seuille c) e, seuille c, r, ?_, ⟨p1, p2, rfl, rfl, rfl, rfl, rfl, ?_, ?_, ?_, ?_, ?_⟩, ly, vy, vc, hr, rfl⟩
  · unfold DetRif.step
    rw [hs.M, f1, Option.bind_some]
    simp only
    rw [g1, Option.bind_some]
    simp only [Chercheur.step]
    rw [if_neg (by omega), hs.N, hs.M, hs.limite, hr]
    simp only [Option.map_some, ly, hs.delais, hs.norme]
  · simp only
    rw [vy _ (by omega), c1]
  · simp only
    rw [vy _ (by omega), c2]
  · simp only
    rw [vc _ (by omega), c1]
  · simp only
    rw [vc _ (by omega), c2]
  · intro d hd
    simp only at hd
    obtain ⟨i, hi, ht⟩ := (boucle_rapport _ _ _ _ _ hr).2 d hd
    cases i with
    | none =>
      simp only [traite] at ht
      split at ht
      · simp at ht
      · split at ht <;> simp at ht
    | some i =>
      have hi' : i ∈ pics h.length seuil (normaliseCorr 1 h.length (seuille c) e) := by
        rcases List.mem_append.1 hi with h1 | h1
        · split at h1 <;> simp at h1
        · simpa using h1
      have hcand := candidat_prop h.length (by omega) seuil h0 _ _ (pics_candidats _ _ _ _ hi')
      cases i with
      | zero =>
        simp only [traite] at ht
        split at ht
        · simp at ht
        · split at ht <;> simp at ht
      | succ i =>
        simp only [traite] at ht
        split at ht
        · rename_i hn
          simp only [Option.some.injEq, Sum.inl.injEq] at ht
          have e1 : i + 1 = x.length - 1 := by omega
          subst ht
          refine ⟨?_, ?_, ?_, ?_, by simp⟩
          · simp only [brute, hs.delais]; omega
          · simp only [brute]
          · simp only [brute]
            rw [e1, vy _ (by omega), c1]
          · exact hcand.2.1
        · simp at ht

theorem memoire_init (h : List ℂ) (seuil : ℝ) (hE : 0 < enMotif h) (hf : Franc h) : ∃ s, DetRif.cree h seuil = some s ∧ Memoire h seuil [] s := by
  have hr : 0 < normeMotif h := by rw [normeMotif_carre]; exact Real.sqrt_pos.2 hE
  have hz : ∀ k : ℤ, correl h [] k = 0 := by
    intro k
    unfold correl fen ech
    simp
  have hs : ∀ k : ℤ, scoreDet h [] k = 0 ∧ gainDet h [] k = 0 := by
    intro k
    unfold scoreDet gainDet
    rw [hz k]
    simp
  refine ⟨⟨Filtre.Rif.init 0 (h.reverse.map fun v : ℂ => (starRingEnd ℂ) v / (normeMotif h : ℂ)), Filtre.Mg.init 0 h.length, ⟨h.length, 1, h.length - 1, seuil, normeMotif h, 0, 0, 0, 0, none, 0⟩⟩, ?_, ?_⟩
  · unfold DetRif.cree
    simp only
    rw [if_neg hr.ne', coefs_franc h _ hr hf hE]
  · refine ⟨⟨_, rfl⟩, ⟨_, rfl⟩, rfl, rfl, rfl, rfl, rfl, ?_, ?_, ?_, ?_, ?_⟩ <;> simp [hs]

/-! ### Description of a peak -/

theorem qint_pic (a0 a1 a2 : ℝ) (h0 : a0 < a1) (h2 : a2 < a1) : qintDet a0 a1 a2 = some (sommet a0 a1 a2) ∧ |sommet a0 a1 a2| < 1 / 2 := by
  have hd : 0 < 2 * a1 - a2 - a0 := by linarith
  have hb : |sommet a0 a1 a2| < 1 / 2 := by
    unfold sommet
    rw [abs_div, abs_of_pos (show 0 < 2 * (2 * a1 - a2 - a0) by linarith), div_lt_iff₀ (by linarith), abs_lt]
    constructor <;> linarith
  refine ⟨?_, hb⟩
  unfold qintDet
  rw [if_neg hd.ne']
  have hb' := abs_lt.1 hb
  simp only
  rw [show (a2 - a0) / (2 * (2 * a1 - a2 - a0)) = sommet a0 a1 a2 from rfl, if_neg]
  rintro (h | h) <;> linarith [hb'.1, hb'.2]

theorem affine_decrit (h x : List ℂ) (n0 : ℕ) (k : ℤ) (s : Chercheur) (d : Detection) (hE : 0 < enMotif h) (hN : s.N = 1) (hn : s.norme = normeMotif h)
    (hp : d.position = k - n0 - ((h.length : ℤ) - 1)) (hq : d.positionPrec = some (d.position : ℝ)) (hsc : d.score = scoreDet h x k)
    (h0 : scoreDet h x (k - 1) < scoreDet h x k) (h2 : scoreDet h x (k + 1) < scoreDet h x k) :
    Decrit h x n0 k (affine s d (scoreDet h x (k - 1)) (scoreDet h x k) (scoreDet h x (k + 1)) (gainDet h x (k - 1) * (normeMotif h : ℂ)) (gainDet h x k * (normeMotif h : ℂ)) (gainDet h x (k + 1) * (normeMotif h : ℂ))) := by
  have hr : 0 < normeMotif h := by rw [normeMotif_carre]; exact Real.sqrt_pos.2 hE
  have hrc : (normeMotif h : ℂ) ≠ 0 := by exact_mod_cast hr.ne'
  have hg : ∀ (a b c : ℂ) (δ : ℝ), (b * (normeMotif h : ℂ) - (a * (normeMotif h : ℂ) - c * (normeMotif h : ℂ)) * (δ : ℂ) * (1 / 4)) * ((Real.sqrt s.N / s.norme : ℝ) : ℂ) = b - (a - c) * (δ : ℂ) * (1 / 4) := by
    intro a b c δ
    rw [hN, hn, Nat.cast_one, Real.sqrt_one, Complex.ofReal_div, Complex.ofReal_one]
    field_simp
  unfold affine Decrit
  rw [(qint_pic _ _ _ h0 h2).1]
  simp only [hg]
  refine ⟨hp, by rw [hq]; rfl, hsc, ?_, ?_⟩ <;> trivial

theorem affine_champs (s : Chercheur) (d : Detection) (a0 a1 a2 : ℝ) (c0 c1 c2 : ℂ) : (affine s d a0 a1 a2 c0 c1 c2).position = d.position ∧ (affine s d a0 a1 a2 c0 c1 c2).score = d.score := by
  unfold affine
  split <;> exact ⟨rfl, rfl⟩

theorem memoire_flux (h : List ℂ) (seuil : ℝ) (h0 : 0 ≤ seuil) (hM : 2 ≤ h.length) (hE : 0 < enMotif h) (hf : Franc h) (xs : List (List ℂ)) (hb : ∀ b ∈ xs, 2 ≤ b.length) :
    ∃ s0 s y d, DetRif.cree h seuil = some s0 ∧ s0.flux xs = some (s, y, d) ∧ Memoire h seuil xs s := by
  induction xs using List.reverseRecOn with
  | nil =>
    obtain ⟨s, h1, h2⟩ := memoire_init h seuil hE hf
    exact ⟨s, s, [], [], h1, rfl, h2⟩
  | append_singleton xs x ih =>
    obtain ⟨s0, s, y, d, h1, h2, h3⟩ := ih fun b h => hb b (by simp [h])
    obtain ⟨s', y', corr, r, g1, g2, -⟩ := memoire_step h seuil h0 hM hE xs s h3 x (hb x (by simp))
    refine ⟨s0, s', y ++ y', d ++ [r.1], h1, ?_, g2⟩
    rw [det_flux_append, h2, Option.bind_some]
    simp only [DetRif.flux, g1, Option.bind_some, Option.map_some, List.append_nil]

theorem motif_pos (h : List ℂ) (hH : ∃ v ∈ h, v ≠ 0) : 0 < enMotif h := by
  obtain ⟨v, hv, h0⟩ := hH
  obtain ⟨i, hi, rfl⟩ := List.getElem_of_mem hv
  refine sum_pos' (fun _ _ => by positivity) ⟨i, mem_range.2 hi, ?_⟩
  rw [List.getD_eq_getElem _ _ hi]
  have := norm_pos_iff.2 h0
  positivity

/-- **C113 (every clear peak is reported).**  After any blocks, when the last score was not above the threshold, every sample of the next block (its first and last
samples excepted) whose score is above the threshold and strictly larger than the scores of the block at less than a pattern length gives exactly the documented
detection: position of the start of the pattern, fractional correction by the parabola (less than half a sample), score, gain and phase. -/
theorem C113_complet (h : List ℂ) (seuil : ℝ) (h0 : 0 ≤ seuil) (hM : 2 ≤ h.length) (hH : ∃ v ∈ h, v ≠ 0) (hf : Franc h) (xs : List (List ℂ)) (x : List ℂ) (hb : ∀ b ∈ xs ++ [x], 2 ≤ b.length)
    (hcalme : scoreDet h xs.flatten ((xs.flatten.length : ℤ) - 1) ≤ seuil) (i : ℕ) (hi0 : 0 < i) (hi1 : i + 1 < x.length) (X : List ℂ) (hX : X = (xs ++ [x]).flatten) (n0 : ℕ) (hn0 : n0 = xs.flatten.length)
    (hs : seuil < scoreDet h X ((n0 + i : ℕ) : ℤ)) (hmax : ∀ j, j < x.length → j ≠ i → |(i : ℤ) - (j : ℤ)| < h.length → scoreDet h X ((n0 + j : ℕ) : ℤ) < scoreDet h X ((n0 + i : ℕ) : ℤ)) :
    ∃ s0 s y d D, DetRif.cree h seuil = some s0 ∧ s0.flux (xs ++ [x]) = some (s, y, d) ∧ d[xs.length]? = some D ∧ ∃ det ∈ D, Decrit h X n0 ((n0 + i : ℕ) : ℤ) det ∧
      |sommet (scoreDet h X (((n0 + i : ℕ) : ℤ) - 1)) (scoreDet h X ((n0 + i : ℕ) : ℤ)) (scoreDet h X (((n0 + i : ℕ) : ℤ) + 1))| < 1 / 2 := by
  have hE := motif_pos h hH
  obtain ⟨s0, s, y, d, h1, h2, h3⟩ := memoire_flux h seuil h0 hM hE hf xs fun b h => hb b (by simp [h])
  obtain ⟨s', y', corr, r, g1, g2, ly, vy, vc, hr, -⟩ := memoire_step h seuil h0 hM hE xs s h3 x (hb x (by simp))
  have hfl : s0.flux (xs ++ [x]) = some (s', y ++ y', d ++ [r.1]) := by
    rw [det_flux_append, h2, Option.bind_some]
    simp only [DetRif.flux, g1, Option.bind_some, Option.map_some, List.append_nil]
  have hdl : d.length = xs.length := by
    have : ∀ (l : List (List ℂ)) (s : DetRif) s' y d, s.flux l = some (s', y, d) → d.length = l.length := by
      intro l
      induction l with
      | nil => intro s s' y d h; simp only [DetRif.flux, Option.some.injEq, Prod.mk.injEq] at h; rw [← h.2.2]; rfl
      | cons a l ih =>
        intro s s' y d h
        simp only [DetRif.flux] at h
        cases e : s.step a with
        | none => rw [e] at h; simp at h
        | some p =>
          rw [e, Option.bind_some, Option.map_eq_some_iff] at h
          obtain ⟨q, hq, hq2⟩ := h
          have := ih _ _ _ _ hq
          simp only [Prod.mk.injEq] at hq2
          rw [← hq2.2.2, List.length_cons, List.length_cons, this]
    exact this _ _ _ _ _ h2
  subst hX hn0
  have hpf : s.ch.picFinal = none := by
    cases e : s.ch.picFinal with
    | none => rfl
    | some q =>
      obtain ⟨-, -, q2, q3, -⟩ := h3.pic q e
      rw [q2] at q3
      linarith
  rw [hpf] at hr
  simp only [Option.isSome_none, Bool.false_eq_true, if_false, List.nil_append] at hr
  have hpic : i ∈ pics h.length seuil y' := by
    refine pic_stricte h.length (by omega) seuil y' i (by omega) (by rw [vy i (by omega)]; exact hs) fun j hj hne hd => ?_
    rw [vy i (by omega), vy j (by omega)]
    exact hmax j (by omega) hne hd
  have hmem := boucle_atteint s.ch y' corr i (by omega) hi0 _ (pics_ordre _ _ _) hpic (by
    intro hz
    have := (candidat_prop h.length (by omega) seuil h0 _ _ (pics_candidats _ _ _ _ hz)).2.1
    rw [h3.alc]
    linarith) r hr
  have k1 : ((xs.flatten.length + (i - 1) : ℕ) : ℤ) = ((xs.flatten.length + i : ℕ) : ℤ) - 1 := by omega
  have k2 : ((xs.flatten.length + (i + 1) : ℕ) : ℤ) = ((xs.flatten.length + i : ℕ) : ℤ) + 1 := by push_cast; ring
  have m1 := hmax (i - 1) (by omega) (by omega) (by rw [abs_lt]; omega)
  have m2 := hmax (i + 1) (by omega) (by omega) (by rw [abs_lt]; omega)
  rw [k1] at m1
  rw [k2] at m2
  rw [vy _ (by omega), vy _ (by omega), vy _ (by omega), vc _ (by omega), vc _ (by omega), vc _ (by omega), k1, k2] at hmem
  refine ⟨s0, s', _, _, r.1, h1, hfl, ?_, _, hmem, ?_, (qint_pic _ _ _ m1 m2).2⟩
  · rw [← hdl, List.getElem?_append_right le_rfl]; simp
  · refine affine_decrit h _ _ _ s.ch _ hE h3.N h3.norme ?_ rfl ?_ m1 m2
    · simp only [brute, h3.delais]; omega
    · simp only [brute]; rw [vy _ (by omega)]

/-- **C113 (what a detection means).**  Every detection reported while processing the block `x` has a score above the threshold, which is the score of a sample of the block (or of the last sample of
the previous one); its position is the start of the corresponding window relative to the block, and no larger score exists in the same segment of `M` samples of the block
(for the last sample of the previous block: the first score of the block is not larger). -/
theorem C113_sur (h : List ℂ) (seuil : ℝ) (h0 : 0 ≤ seuil) (hM : 2 ≤ h.length) (hH : ∃ v ∈ h, v ≠ 0) (hf : Franc h) (xs : List (List ℂ)) (x : List ℂ) (hb : ∀ b ∈ xs ++ [x], 2 ≤ b.length)
    (X : List ℂ) (hX : X = (xs ++ [x]).flatten) (n0 : ℕ) (hn0 : n0 = xs.flatten.length) :
    ∃ s0 s y d D, DetRif.cree h seuil = some s0 ∧ s0.flux (xs ++ [x]) = some (s, y, d ++ [D]) ∧ ∀ det ∈ D, ∃ i : ℤ, -1 ≤ i ∧ i < (x.length : ℤ) - 1 ∧
      det.position = i - ((h.length : ℤ) - 1) ∧ det.score = scoreDet h X (n0 + i) ∧ seuil < det.score ∧
      (i = -1 → xs ≠ [] ∧ scoreDet h X n0 ≤ det.score) ∧ ∀ j : ℕ, 0 ≤ i → j < x.length → j / h.length = i.toNat / h.length → scoreDet h X ((n0 + j : ℕ) : ℤ) ≤ det.score := by
  have hE := motif_pos h hH
  obtain ⟨s0, s, y, d, h1, h2, h3⟩ := memoire_flux h seuil h0 hM hE hf xs fun b h => hb b (by simp [h])
  have hx := hb x (by simp)
  obtain ⟨s', y', corr, r, g1, g2, ly, vy, vc, hr, -⟩ := memoire_step h seuil h0 hM hE xs s h3 x hx
  have hfl : s0.flux (xs ++ [x]) = some (s', y ++ y', d ++ [r.1]) := by
    rw [det_flux_append, h2, Option.bind_some]
    simp only [DetRif.flux, g1, Option.bind_some, Option.map_some, List.append_nil]
  refine ⟨s0, s', _, d, r.1, h1, hfl, fun det hdet => ?_⟩
  subst hX hn0
  have hXe : (xs ++ [x]).flatten = xs.flatten ++ x := by simp
  obtain ⟨oi, hoi, ht⟩ := (boucle_rapport _ _ _ _ _ hr).1 det hdet
  cases oi with
  | none =>
    cases e : s.ch.picFinal with
    | none => simp only [traite, e] at ht; simp at ht
    | some q =>
      obtain ⟨q1, -, q2, q3, q4⟩ := h3.pic q e
      simp only [traite, e] at ht
      split at ht
      · simp at ht
      · rename_i hlt
        simp only [Option.some.injEq, Sum.inr.injEq] at ht
        subst ht
        refine ⟨-1, le_rfl, by omega, ?_, ?_, ?_, fun _ => ⟨q4, ?_⟩, fun j hj => by omega⟩
        · rw [(affine_champs _ _ _ _ _ _ _ _).1]; simp only; omega
        · rw [(affine_champs _ _ _ _ _ _ _ _).2]; simp only
          rw [q2, hXe, (score_debut h _ x _ (by omega)).1]; rfl
        · rw [(affine_champs _ _ _ _ _ _ _ _).2]; exact q3
        · rw [(affine_champs _ _ _ _ _ _ _ _).2]; simp only
          rw [q2, ← h3.alc]
          have := vy 0 (by omega)
          rw [Nat.add_zero] at this
          rw [← this]
          exact not_lt.1 hlt
  | some i =>
    have hi' : i ∈ pics h.length seuil y' := by
      rcases List.mem_append.1 hoi with h1 | h1
      · split at h1 <;> simp at h1
      · simpa using h1
    have hcand := candidat_prop h.length (by omega) seuil h0 _ _ (pics_candidats _ _ _ _ hi')
    have key : det.position = (brute s.ch y' corr i).position ∧ det.score = (brute s.ch y' corr i).score ∧ i ≠ y'.length - 1 := by
      cases i with
      | zero =>
        simp only [traite] at ht
        split at ht
        · simp at ht
        · split at ht
          · simp at ht
          · simp only [Option.some.injEq, Sum.inr.injEq] at ht
            subst ht
            exact ⟨(affine_champs _ _ _ _ _ _ _ _).1, (affine_champs _ _ _ _ _ _ _ _).2, by omega⟩
      | succ i =>
        simp only [traite] at ht
        split at ht
        · simp at ht
        · rename_i hne
          simp only [Option.some.injEq, Sum.inr.injEq] at ht
          subst ht
          exact ⟨(affine_champs _ _ _ _ _ _ _ _).1, (affine_champs _ _ _ _ _ _ _ _).2, hne⟩
    have hsc : det.score = y'.getD i 0 := by rw [key.2.1]; rfl
    refine ⟨i, by omega, by have := hcand.1; have := key.2.2; omega, ?_, ?_, ?_, fun h => by omega, fun j _ hj hjd => ?_⟩
    · rw [key.1]; simp only [brute, h3.delais]; omega
    · rw [hsc, vy i (by have := hcand.1; omega)]; push_cast; rfl
    · rw [hsc]; exact hcand.2.1
    · rw [hsc, ← vy j hj]
      exact hcand.2.2 j (by simpa using hjd) (by omega)

/-! ### Concrete cases: the pattern (1, 1) and signals of zeros and ones -/

/-- Score of a half pattern and of a full pattern. -/
noncomputable def demi : ℝ := 1 / Real.sqrt ((1 + 2 / 10 ^ 20) * 2)
/-- Score of a full pattern. -/
noncomputable def plein : ℝ := 2 / Real.sqrt ((2 + 2 / 10 ^ 20) * 2)

theorem demi_plein : 1 / 2 < demi ∧ demi < plein ∧ plein < 1 := by
  unfold demi plein
  have h1 : Real.sqrt ((1 + 2 / 10 ^ 20) * 2) < 2 := by rw [Real.sqrt_lt' (by norm_num)]; norm_num
  have h2 : 2 < Real.sqrt ((2 + 2 / 10 ^ 20) * 2) := by apply Real.lt_sqrt_of_sq_lt; norm_num
  have h3 : Real.sqrt ((2 + 2 / 10 ^ 20) * 2) < 2 * Real.sqrt ((1 + 2 / 10 ^ 20) * 2) := by
    rw [Real.sqrt_lt' (by positivity), mul_pow, Real.sq_sqrt (by norm_num)]; norm_num
  have h4 : 0 < Real.sqrt ((1 + 2 / 10 ^ 20) * 2) := Real.sqrt_pos.2 (by norm_num)
  refine ⟨?_, ?_, ?_⟩
  · rw [div_lt_div_iff₀ (by norm_num) h4]; linarith
  · rw [div_lt_div_iff₀ h4 (by linarith)]; linarith
  · rw [div_lt_one (by linarith)]; exact h2

theorem motif11 : enMotif [1, 1] = 2 := by
  unfold enMotif
  simp [sum_range_succ]; norm_num

theorem score11 (x : List ℂ) (k : ℤ) (a b : ℂ) (ha : ech x (k - 1) = a) (hb : ech x k = b) :
    scoreDet [1, 1] x k = if ‖a + b‖ / Real.sqrt 2 ≤ 1 / 10 ^ 6 then 0 else ‖a + b‖ / Real.sqrt ((‖a‖ ^ 2 + ‖b‖ ^ 2 + 2 / 10 ^ 20) * 2) := by
  have f0 : fen 2 x k 0 = a := by unfold fen; rw [← ha]; congr 1; push_cast; ring
  have f1 : fen 2 x k 1 = b := by unfold fen; rw [← hb]; congr 1; push_cast; ring
  unfold scoreDet
  rw [motif11]
  have hc : correl [1, 1] x k = a + b := by
    unfold correl
    simp only [List.length_cons, List.length_nil, Nat.zero_add, Nat.reduceAdd, sum_range_succ, range_zero, sum_empty, f0, f1]
    simp
  have he : enFen ([1, 1] : List ℂ).length x k = ‖a‖ ^ 2 + ‖b‖ ^ 2 := by
    unfold enFen
    simp only [List.length_cons, List.length_nil, Nat.zero_add, Nat.reduceAdd, sum_range_succ, range_zero, sum_empty, f0, f1]
    ring
  rw [hc, he]
  norm_num

theorem racine_deux : Real.sqrt 2 < 2 := by rw [Real.sqrt_lt' (by norm_num)]; norm_num

theorem score_00 (x : List ℂ) (k : ℤ) (ha : ech x (k - 1) = 0) (hb : ech x k = 0) : scoreDet [1, 1] x k = 0 := by
  rw [score11 x k 0 0 ha hb]; simp

theorem score_demi (x : List ℂ) (k : ℤ) (h : ech x (k - 1) = 0 ∧ ech x k = 1 ∨ ech x (k - 1) = 1 ∧ ech x k = 0) : scoreDet [1, 1] x k = demi := by
  have hs := racine_deux
  have hp : 0 < Real.sqrt 2 := by positivity
  have hn : ¬ (1 : ℝ) / Real.sqrt 2 ≤ 1 / 10 ^ 6 := by
    rw [not_le, div_lt_div_iff₀ (by norm_num) hp]; linarith
  rcases h with ⟨ha, hb⟩ | ⟨ha, hb⟩
  · rw [score11 x k 0 1 ha hb, zero_add, norm_one, if_neg hn]; unfold demi; simp
  · rw [score11 x k 1 0 ha hb, add_zero, norm_one, if_neg hn]; unfold demi; simp

theorem score_plein (x : List ℂ) (k : ℤ) (ha : ech x (k - 1) = 1) (hb : ech x k = 1) : scoreDet [1, 1] x k = plein := by
  have hs := racine_deux
  have hp : 0 < Real.sqrt 2 := by positivity
  have h2 : ‖(1 : ℂ) + 1‖ = 2 := by norm_num
  have hn : ¬ (2 : ℝ) / Real.sqrt 2 ≤ 1 / 10 ^ 6 := by
    rw [not_le, div_lt_div_iff₀ (by norm_num) hp]; linarith
  rw [score11 x k 1 1 ha hb, h2, norm_one, if_neg hn]; unfold plein; norm_num

theorem franc11 : (∃ v ∈ ([1, 1] : List ℂ), v ≠ 0) ∧ Franc [1, 1] := ⟨⟨1, by simp, one_ne_zero⟩, Or.inl (by simp)⟩

/-- Non-vacuity of C113_complet: a copy of (1, 1) in the middle of zeros. -/
example : scoreDet [1, 1] ([] : List ℂ) (-1) ≤ 1 / 2 ∧ (1 / 2 : ℝ) < scoreDet [1, 1] [0, 1, 1, 0] 2 ∧
    ∀ j : ℕ, j < 4 → j ≠ 2 → |(2 : ℤ) - (j : ℤ)| < 2 → scoreDet [1, 1] [0, 1, 1, 0] (j : ℤ) < scoreDet [1, 1] [0, 1, 1, 0] 2 := by
  obtain ⟨h1, h2, h3⟩ := demi_plein
  have e2 : scoreDet [1, 1] [0, 1, 1, 0] 2 = plein := score_plein _ _ (by simp [ech]) (by simp [ech])
  have e1 : scoreDet [1, 1] [0, 1, 1, 0] 1 = demi := score_demi _ _ (Or.inl ⟨by simp [ech], by simp [ech]⟩)
  have e3 : scoreDet [1, 1] [0, 1, 1, 0] 3 = demi := score_demi _ _ (Or.inr ⟨by simp [ech], by simp [ech]⟩)
  refine ⟨?_, by rw [e2]; linarith, ?_⟩
  · rw [score_00 _ _ (by simp [ech]) (by simp [ech])]; norm_num
  · intro j hj hne hd
    rw [e2]
    rw [abs_lt] at hd
    have : j = 1 ∨ j = 3 := by omega
    rcases this with rfl | rfl
    · exact_mod_cast e1 ▸ h2
    · exact_mod_cast e3 ▸ h2

theorem liste_de (y : List ℝ) (l : List ℝ) (hl : y.length = l.length) (h : ∀ i, i < l.length → y.getD i 0 = l.getD i 0) : y = l := by
  refine List.ext_getElem hl fun i h1 h2 => ?_
  have := h i h2
  rwa [List.getD_eq_getElem _ _ h1, List.getD_eq_getElem _ _ h2] at this

/-- **C113 (refuted: no higher peak in the neighbourhood).**  The detector reports a window although the score of the preceding sample is larger: signal 0 1 1 1 0 0,
pattern 1 1, threshold 1/2. -/
theorem C113_voisinage_refute : ∃ s0 s y D det, DetRif.cree [1, 1] (1 / 2) = some s0 ∧ s0.flux [[0, 1, 1, 1, 0, 0]] = some (s, y, [D]) ∧ det ∈ D ∧ det.position = 3 ∧
    det.score = scoreDet [1, 1] [0, 1, 1, 1, 0, 0] 4 ∧ det.score < scoreDet [1, 1] [0, 1, 1, 1, 0, 0] 3 := by
  obtain ⟨h1, h2, h3⟩ := demi_plein
  have hE : 0 < enMotif [1, 1] := by rw [motif11]; norm_num
  obtain ⟨s0, hc, hm⟩ := memoire_init [1, 1] (1 / 2) hE franc11.2
  obtain ⟨s', y, corr, r, g1, g2, ly, vy, vc, hr, -⟩ := memoire_step [1, 1] (1 / 2) (by norm_num) (by simp) hE [] s0 hm [0, 1, 1, 1, 0, 0] (by simp)
  have e0 : scoreDet [1, 1] [0, 1, 1, 1, 0, 0] 0 = 0 := score_00 _ _ (by simp [ech]) (by simp [ech])
  have e1 : scoreDet [1, 1] [0, 1, 1, 1, 0, 0] 1 = demi := score_demi _ _ (Or.inl ⟨by simp [ech], by simp [ech]⟩)
  have e2 : scoreDet [1, 1] [0, 1, 1, 1, 0, 0] 2 = plein := score_plein _ _ (by simp [ech]) (by simp [ech])
  have e3 : scoreDet [1, 1] [0, 1, 1, 1, 0, 0] 3 = plein := score_plein _ _ (by simp [ech]) (by simp [ech])
  have e4 : scoreDet [1, 1] [0, 1, 1, 1, 0, 0] 4 = demi := score_demi _ _ (Or.inr ⟨by simp [ech], by simp [ech]⟩)
  have e5 : scoreDet [1, 1] [0, 1, 1, 1, 0, 0] 5 = 0 := score_00 _ _ (by simp [ech]) (by simp [ech])
  have hy : y = [0, demi, plein, plein, demi, 0] := by
    refine liste_de _ _ (by simpa using ly) fun i hi => ?_
    rw [vy i (by simpa using hi)]
    simp only [List.length_cons, List.length_nil] at hi
    simp only [List.nil_append, List.flatten_cons, List.flatten_nil, List.append_nil, List.length_nil, Nat.zero_add]
    interval_cases i
    · exact e0
    · exact e1
    · exact e2
    · exact e3
    · exact e4
    · exact e5
  have hpf : s0.ch.picFinal = none := by
    cases e : s0.ch.picFinal with
    | none => rfl
    | some q => exact absurd rfl (hm.pic q e).2.2.2.2
  have hd0 : 0 < demi := by linarith
  have hp : 4 ∈ pics 2 (1 / 2) y := by
    have c4 : 4 ∈ candidats 2 (1 / 2) y := by
      rw [mem_candidats, hy]
      refine ⟨by simp, ?_⟩
      rw [erosion_elt _ _ _ (by simp)]
      simp [indexMax, indexMaxDe, hd0.not_gt]
      linarith
    unfold pics
    rw [List.mem_filter]
    refine ⟨c4, ?_⟩
    simp only [decide_eq_true_eq, not_exists, not_and, not_lt]
    intro j hj hlt
    rw [mem_candidats] at hj
    obtain ⟨j1, j2⟩ := hj
    rw [erosion_elt _ _ _ j1] at j2
    by_contra hcon
    have hd := abs_lt.1 (not_le.1 hcon)
    have : j = 3 ∨ j = 4 ∨ j = 5 := by push_cast at hd; omega
    rw [hy] at j2 hlt
    rcases this with rfl | rfl | rfl
    · simp [indexMax, indexMaxDe] at j2; linarith
    · exact lt_irrefl _ hlt
    · simp at hlt; linarith
  rw [hpf] at hr
  simp only [Option.isSome_none, Bool.false_eq_true, if_false, List.nil_append] at hr
  have hmem := boucle_atteint s0.ch y corr 4 (by rw [hy]; simp) (by norm_num) _ (pics_ordre _ _ _) hp (by
    intro _
    rw [hm.alc, hy, score_00 _ _ (by simp [ech]) (by simp [ech])]; simp) r hr
  refine ⟨s0, s', y, r.1, _, hc, ?_, hmem, ?_, ?_, ?_⟩
  · simp only [DetRif.flux, g1, Option.bind_some, Option.map_some, List.append_nil]
  · rw [(affine_champs _ _ _ _ _ _ _ _).1]; simp [brute, hm.delais]
  · rw [(affine_champs _ _ _ _ _ _ _ _).2, e4, hy]; simp [brute]
  · rw [(affine_champs _ _ _ _ _ _ _ _).2, e3, hy]; simpa [brute] using h2

/-- **C113 (refuted: finite fields).**  On a constant signal with a constant pattern, a detection is reported whose fractional position, gain and phase are not numbers
(the interpolation divides zero by zero). -/
theorem C113_plateau_refute : ∃ s0 s y D det, DetRif.cree [1, 1] (1 / 2) = some s0 ∧ s0.flux [[1, 1, 1, 1, 1, 1]] = some (s, y, [D]) ∧ det ∈ D ∧ det.position = 1 ∧
    det.positionPrec = none ∧ det.gain = none ∧ det.theta = none := by
  obtain ⟨h1, h2, h3⟩ := demi_plein
  have hE : 0 < enMotif [1, 1] := by rw [motif11]; norm_num
  obtain ⟨s0, hc, hm⟩ := memoire_init [1, 1] (1 / 2) hE franc11.2
  obtain ⟨s', y, corr, r, g1, g2, ly, vy, vc, hr, -⟩ := memoire_step [1, 1] (1 / 2) (by norm_num) (by simp) hE [] s0 hm [1, 1, 1, 1, 1, 1] (by simp)
  have hy : y = [demi, plein, plein, plein, plein, plein] := by
    refine liste_de _ _ (by simpa using ly) fun i hi => ?_
    rw [vy i (by simpa using hi)]
    simp only [List.length_cons, List.length_nil] at hi
    simp only [List.nil_append, List.flatten_cons, List.flatten_nil, List.append_nil, List.length_nil, Nat.zero_add]
    interval_cases i
    · exact score_demi _ _ (Or.inl ⟨by simp [ech], by simp [ech]⟩)
    all_goals exact score_plein _ _ (by simp [ech]) (by simp [ech])
  have hpf : s0.ch.picFinal = none := by
    cases e : s0.ch.picFinal with
    | none => rfl
    | some q => exact absurd rfl (hm.pic q e).2.2.2.2
  have hp : 2 ∈ pics 2 (1 / 2) y := by
    have c4 : 2 ∈ candidats 2 (1 / 2) y := by
      rw [mem_candidats, hy]
      refine ⟨by simp, ?_⟩
      rw [erosion_elt _ _ _ (by simp)]
      simp [indexMax, indexMaxDe]
      linarith
    unfold pics
    rw [List.mem_filter]
    refine ⟨c4, ?_⟩
    simp only [decide_eq_true_eq, not_exists, not_and, not_lt]
    intro j hj hlt
    rw [mem_candidats, hy] at hj
    rw [hy] at hlt
    exfalso
    have hj1 := hj.1
    simp only [List.length_cons, List.length_nil] at hj1
    interval_cases j <;> simp at hlt
    linarith
  rw [hpf] at hr
  simp only [Option.isSome_none, Bool.false_eq_true, if_false, List.nil_append] at hr
  have hmem := boucle_atteint s0.ch y corr 2 (by rw [hy]; simp) (by norm_num) _ (pics_ordre _ _ _) hp (by
    intro _
    rw [hm.alc, hy, score_00 _ _ (by simp [ech]) (by simp [ech])]; simp; linarith) r hr
  have hq : qintDet (y.getD (2 - 1) 0) (y.getD 2 0) (y.getD (2 + 1) 0) = none := by
    rw [hy]
    simp only [Nat.add_one_sub_one, List.getD_cons_succ, List.getD_cons_zero, Nat.reduceAdd]
    unfold qintDet
    rw [if_pos (by ring), if_pos rfl]
  refine ⟨s0, s', y, r.1, _, hc, ?_, hmem, ?_, ?_, ?_, ?_⟩
  · simp only [DetRif.flux, g1, Option.bind_some, Option.map_some, List.append_nil]
  · rw [(affine_champs _ _ _ _ _ _ _ _).1]; simp [brute, hm.delais]
  all_goals unfold affine; rw [hq]

/-- **C113 (refuted: independence of the cutting).**  In one block, the copy of the pattern 1 1 at the samples 7 and 8 of 0 0 1 1 0 0 0 1 1 0 0 is reported; when the
same signal is given as 0 0 1 and 1 0 0 0 1 1 0 0, no detection at all is reported (the last sample of the first block is a pending peak that turns out not to be the maximum, and
all the detections of the second block are then dropped). -/
theorem C113_coupure_refute : (∃ s0 s y D det, DetRif.cree [1, 1] (1 / 2) = some s0 ∧ s0.flux [[0, 0, 1, 1, 0, 0, 0, 1, 1, 0, 0]] = some (s, y, [D]) ∧ det ∈ D ∧ det.position = 7 ∧ det.score = plein) ∧
    ∃ s0 s y, DetRif.cree [1, 1] (1 / 2) = some s0 ∧ s0.flux [[0, 0, 1], [1, 0, 0, 0, 1, 1, 0, 0]] = some (s, y, [[], []]) := by
  obtain ⟨h1, h2, h3⟩ := demi_plein
  have hE : 0 < enMotif [1, 1] := by rw [motif11]; norm_num
  set X : List ℂ := [0, 0, 1, 1, 0, 0, 0, 1, 1, 0, 0] with hX
  have e0 : scoreDet [1, 1] X 0 = 0 := score_00 _ _ (by simp [ech]) (by simp [ech, hX])
  have e1 : scoreDet [1, 1] X 1 = 0 := score_00 _ _ (by simp [ech, hX]) (by simp [ech, hX])
  have e2 : scoreDet [1, 1] X 2 = demi := score_demi _ _ (Or.inl ⟨by simp [ech, hX], by simp [ech, hX]⟩)
  have e3 : scoreDet [1, 1] X 3 = plein := score_plein _ _ (by simp [ech, hX]) (by simp [ech, hX])
  have e7 : scoreDet [1, 1] X 7 = demi := score_demi _ _ (Or.inl ⟨by simp [ech, hX], by simp [ech, hX]⟩)
  have e8 : scoreDet [1, 1] X 8 = plein := score_plein _ _ (by simp [ech, hX]) (by simp [ech, hX])
  have e9 : scoreDet [1, 1] X 9 = demi := score_demi _ _ (Or.inr ⟨by simp [ech, hX], by simp [ech, hX]⟩)
  constructor
  · obtain ⟨s0, s, y, d, D, a1, a2, a3, det, a4, a5, -⟩ := C113_complet [1, 1] (1 / 2) (by norm_num) (by simp) franc11.1 franc11.2 [] X (by simp [hX])
      (by rw [score_00 _ _ (by simp [ech]) (by simp [ech])]; norm_num) 8 (by norm_num) (by simp [hX]) X (by simp) 0 (by simp)
      (by norm_num; rw [e8]; linarith) (by
        intro j hj hne hd
        have hd' := abs_lt.1 hd
        simp only [List.length_cons, List.length_nil] at hd'
        have : j = 7 ∨ j = 9 := by omega
        norm_num
        rw [e8]
        rcases this with rfl | rfl
        · norm_num; rw [e7]; exact h2
        · norm_num; rw [e9]; exact h2)
    have hd : d = [D] := by
      have := (C112_rif [1, 1] (1 / 2) (by simp) franc11.1 franc11.2 [X] (by simp [hX]))
      obtain ⟨s1, s2, y2, d2, b1, b2, b3, -⟩ := this
      rw [a1, Option.some.injEq] at b1
      subst b1
      simp only [List.nil_append] at a2
      rw [a2, Option.some.injEq, Prod.mk.injEq, Prod.mk.injEq] at b2
      rw [← b2.2.2] at b3
      match d, b3, a3 with
      | [q], _, a3 => simp at a3; rw [a3]
    subst hd
    refine ⟨s0, s, y, D, det, a1, a2, a4, ?_, ?_⟩
    · have := a5.1
      simp at this
      rw [this]
    · have := a5.2.2.1
      norm_num at this
      rw [this, e8]
  · obtain ⟨s0, hc, hm⟩ := memoire_init [1, 1] (1 / 2) hE franc11.2
    obtain ⟨s1, y, corr, r, g1, g2, ly, vy, vc, hr, hpf1⟩ := memoire_step [1, 1] (1 / 2) (by norm_num) (by simp) hE [] s0 hm [0, 0, 1] (by simp)
    have hXa : X = [0, 0, 1] ++ [1, 0, 0, 0, 1, 1, 0, 0] := rfl
    have hy : y = [0, 0, demi] := by
      refine liste_de _ _ (by simpa using ly) fun i hi => ?_
      rw [vy i (by simpa using hi)]
      simp only [List.length_cons, List.length_nil] at hi
      simp only [List.nil_append, List.flatten_cons, List.flatten_nil, List.append_nil, List.length_nil, Nat.zero_add]
      rw [← (score_debut [1, 1] [0, 0, 1] [1, 0, 0, 0, 1, 1, 0, 0] (i : ℤ) (by simp; omega)).1, ← hXa]
      interval_cases i
      · exact e0
      · exact e1
      · exact e2
    have hpf : s0.ch.picFinal = none := by
      cases e : s0.ch.picFinal with
      | none => rfl
      | some q => exact absurd rfl (hm.pic q e).2.2.2.2
    rw [hpf] at hr
    simp only [Option.isSome_none, Bool.false_eq_true, if_false, List.nil_append] at hr
    have hd0 : 0 < demi := by linarith
    have hcand : candidats 2 (1 / 2) y = [2] := by
      rw [hy]
      unfold candidats erosion
      simp [List.range_succ, indexMax, indexMaxDe]
      norm_num
      linarith
    have hp : pics 2 (1 / 2) y = [2] := by
      unfold pics
      rw [hcand]
      simp
    rw [show ([1, 1] : List ℂ).length = 2 from rfl, hp] at hr
    have hr2 : r = ([], some (brute s0.ch y corr 2)) := by
      simp only [List.map_cons, boucleDet, traite] at hr
      rw [if_pos (by rw [hy]; rfl)] at hr
      simpa using hr.symm
    obtain ⟨s2, y2, corr2, r2, k1, k2, ly2, vy2, vc2, hr2', -⟩ := memoire_step [1, 1] (1 / 2) (by norm_num) (by simp) hE ([] ++ [[0, 0, 1]]) s1 g2 [1, 0, 0, 0, 1, 1, 0, 0] (by simp)
    rw [hpf1, hr2] at hr2'
    simp only [Option.isSome_some, if_true, List.cons_append, boucleDet, traite] at hr2'
    rw [hpf1, hr2] at hr2'
    simp only at hr2'
    have ha : s1.ch.alc < y2.getD 0 0 := by
      rw [g2.alc, vy2 0 (by simp)]
      have : (([] ++ [[0, 0, 1]] ++ [[1, 0, 0, 0, 1, 1, 0, 0]]) : List (List ℂ)).flatten = X := rfl
      rw [this]
      have e2' : scoreDet [1, 1] [0, 0, 1] 2 = demi := by
        rw [← (score_debut [1, 1] [0, 0, 1] [1, 0, 0, 0, 1, 1, 0, 0] 2 (by simp)).1, ← hXa]; exact e2
      norm_num
      rw [e2', e3]
      exact h2
    rw [if_pos ha] at hr2'
    simp only [Option.some.injEq] at hr2'
    refine ⟨s0, s2, y ++ y2, hc, ?_⟩
    simp only [DetRif.flux, g1, k1, Option.bind_some, Option.map_some, List.append_nil, hr2, ← hr2']

end Verif.Fourier
