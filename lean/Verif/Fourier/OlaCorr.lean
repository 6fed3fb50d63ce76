import Verif.Fourier.DetecteurOla
import Verif.Fourier.OlaProps
import Verif.Fourier.CorrProps

/-!
# Overlap-add correlation with a pattern, for every block size
-/

namespace Verif.Fourier

open Finset Complex
open Verif.Tampon

/-- Correlation of the pattern `m` with the window of `x` that starts at `s`. -/
noncomputable def corrDeb (m x : List ℂ) (s : ℤ) : ℂ := ∑ a ∈ range m.length, ech x (s + a) * star (m.getD a 0)

theorem corrDeb_append (m a b : List ℂ) (s : ℤ) : corrDeb m (a ++ b) s = corrDeb m a s + corrDeb m b (s - a.length) := by
  unfold corrDeb
  rw [← sum_add_distrib]
  refine sum_congr rfl fun j _ => ?_
  rw [ech_append, add_mul]
  congr 3
  omega

theorem corrDeb_avant (m x : List ℂ) (s : ℤ) (h : s + m.length ≤ 0) : corrDeb m x s = 0 := by
  refine sum_eq_zero fun j hj => ?_
  have := mem_range.1 hj
  unfold ech
  rw [if_neg (by omega), zero_mul]

theorem corrDeb_apres (m x : List ℂ) (s : ℤ) (h : (x.length : ℤ) ≤ s) : corrDeb m x s = 0 := by
  refine sum_eq_zero fun j hj => ?_
  rw [ech_fin x _ (by omega), zero_mul]

/-- The conjugate spectrum of the pattern, padded to `N` samples. -/
def SpectreMotif (N : ℕ) (m T : List ℂ) : Prop :=
  T.length = N ∧ ∀ k, k < N → T.getD k 0 = dft (ratio trigoC N true)⁻¹ N (fun j => star ((m ++ List.replicate (N - m.length) 0).getD j 0)) k / trigoC.racine N

theorem spectre_motif (N : ℕ) (hN : 0 < N) (hN2 : N ≤ 2 ^ 29) (m : List ℂ) (hm : m.length ≤ N) :
    ∃ T, fft trigoC (m ++ List.replicate (N - m.length) 0) = some T ∧ SpectreMotif N m (T.map star) := by
  set y := m ++ List.replicate (N - m.length) (0 : ℂ) with hy
  have ly : y.length = N := by rw [hy]; simp; omega
  obtain ⟨T, e, l, g⟩ := C27_fft y (by omega) (by omega)
  refine ⟨T, e, by rw [List.length_map]; omega, fun k hk => ?_⟩
  have h9 := dft_TFD false (y.map star) k
  rw [List.length_map, ly, ratio_not] at h9
  simp only [Bool.false_eq_true, if_false] at h9
  rw [getD_map _ _ _ (by omega), g k (by omega), star_TFD, ← h9]
  congr 1
  refine dft_congr _ _ _ _ _ fun j hj => ?_
  rw [getD_map _ _ _ (by omega)]

/-- Invariant of the overlap-add filter after the blocks whose concatenation is `hist`. -/
structure CorrInv (Ne N : ℕ) (m : List ℂ) (c : OlaCoeur ℂ) (hist : List ℂ) : Prop where
  ne : c.Ne = Ne
  n : c.N = N
  nz : c.Nz = N - Ne
  lp : c.padded.length = N
  zp : ∀ i, i < N - Ne → c.padded.getD i 0 = 0
  plan : Valide trigoC c.plan
  sens : c.plan.sens = true
  ls : c.svg.length = Ne
  svg : ∀ i, i < Ne → c.svg.getD i 0 = corrDeb m hist ((hist.length : ℤ) + i - Ne) / trigoC.racine N

theorem corr_bloc (Ne N : ℕ) (m T : List ℂ) (hNe : 0 < Ne) (hN2 : N ≤ 2 ^ 29) (h1 : Ne + m.length ≤ N + 1) (h2 : N ≤ 2 * Ne) (h3 : Ne < N) (hm : m.length ≤ N) (hT : SpectreMotif N m T) (c : OlaCoeur ℂ)
    (hist x : List ℂ) (hc : CorrInv Ne N m c hist) (hx : x.length = Ne) :
    ∃ c' y, c.stepInterne trigoC (fun X => produit X T) x = some (c', y) ∧ CorrInv Ne N m c' (hist ++ x) ∧ y.length = Ne ∧
      ∀ i, i < Ne → y.getD i 0 = corrDeb m (hist ++ x) ((hist.length : ℤ) + i - Ne) / trigoC.racine N := by
  obtain ⟨lT, gT⟩ := hT
  obtain ⟨padded, e1, l1, g1⟩ := ecritQueue_some c.padded x (by rw [hc.lp]; omega)
  rw [hc.lp] at l1
  simp only [hc.lp, hx] at g1
  have gp : ∀ a, a < N → padded.getD a 0 = ech x ((a : ℤ) - (N - Ne : ℕ)) := by
    intro a ha
    unfold ech
    by_cases h5 : N - Ne ≤ a
    · rw [if_pos (by omega)]; exact getD_of_get _ _ _ _ (by rw [g1 a, if_pos (by omega)]; congr 1; omega)
    · rw [if_neg (by omega)]
      exact (getD_of_get _ _ _ _ (by rw [g1 a, if_neg (by omega)])).trans (hc.zp a (by omega))
  obtain ⟨p1, X, e2, hp1, t1⟩ := step_tfd loisC true N padded c.plan l1 (by omega) (by omega) hc.plan
  have e2' : c.plan.step2 trigoC padded = some (p1, X) := by
    have hs := hc.sens
    generalize c.plan = p at e2 hs
    obtain ⟨a, b, av, d, ch, s⟩ := p
    have : av = true := hs
    subst this
    exact e2
  have lX : X.length = N := by rw [t1.1, l1]
  obtain ⟨P, e3, l3, g3⟩ := produit_some X T (by omega)
  obtain ⟨p2, x2, e4, hp2, t2⟩ := step_tfd loisC false N P p1 (by omega) (by omega) (by omega) (.inr ⟨_, hp1⟩)
  have lx2 : x2.length = N := by rw [t2.1]; omega
  have lP : P.length = N := by omega
  have hpos : 0 < N := by omega
  have hrac := loisC.racine_ne N hpos
  have hconv : ∀ t, t < N → x2.getD t 0 = corrDeb m x ((t : ℤ) - (N - Ne : ℕ)) / trigoC.racine N := by
    intro t ht
    have hb : x2.getD t 0 = (∑ a ∈ range N, star ((m ++ List.replicate (N - m.length) 0).getD a 0) * padded.getD ((a + t) % N) 0) / trigoC.racine N := by
      rw [t2.2 t (by omega), lP]
      have hcg : dft (ratio trigoC N false) N (fun j => P.getD j 0) t =
          dft (ratio trigoC N true)⁻¹ N (fun k => dft (ratio trigoC N true)⁻¹ N (fun j => star ((m ++ List.replicate (N - m.length) 0).getD j 0)) k *
            dft (ratio trigoC N true)⁻¹⁻¹ N (fun j => padded.getD j 0) k) t / (trigoC.racine N * trigoC.racine N) := by
        rw [ratio_not, inv_inv]
        unfold dft
        rw [sum_div]
        refine sum_congr rfl fun k hk => ?_
        have hk := mem_range.1 hk
        simp only []
        have h5 := t1.2 k (by omega)
        rw [l1] at h5
        rw [g3 k, h5, gT k hk]
        unfold dft
        ring
      rw [hcg, dft_correlation _ _ hpos (ratio_prim loisC N hpos true).inv, loisC.racine_carre]
      have hne : (N : ℂ) ≠ 0 := by exact_mod_cast hpos.ne'
      rw [mul_div_cancel_left₀ _ hne]
    rw [hb]
    congr 1
    unfold corrDeb
    have hsplit : ∑ a ∈ range N, star ((m ++ List.replicate (N - m.length) 0).getD a 0) * padded.getD ((a + t) % N) 0 =
        ∑ a ∈ range m.length, star ((m ++ List.replicate (N - m.length) 0).getD a 0) * padded.getD ((a + t) % N) 0 := by
      obtain ⟨d, hd⟩ := Nat.exists_eq_add_of_le hm
      have hr : range N = range (m.length + d) := by rw [← hd]
      rw [hr, sum_range_add]
      have hz : ∑ b ∈ range d, star ((m ++ List.replicate (N - m.length) 0).getD (m.length + b) 0) * padded.getD ((m.length + b + t) % N) 0 = 0 := by
        refine sum_eq_zero fun b _ => ?_
        rw [List.getD_append_right _ _ _ _ (by omega), List.getD_eq_getElem?_getD, List.getElem?_replicate]
        split <;> simp
      rw [hz, add_zero]
    rw [hsplit]
    refine sum_congr rfl fun a ha => ?_
    have ha := mem_range.1 ha
    rw [List.getD_append _ _ _ _ ha, mul_comm]
    congr 1
    by_cases hw : a + t < N
    · rw [Nat.mod_eq_of_lt hw, gp _ hw]
      congr 1
      push_cast
      omega
    · rw [Nat.mod_eq_sub_mod (by omega), Nat.mod_eq_of_lt (by omega), gp _ (by omega)]
      unfold ech
      rw [if_neg (by omega), if_pos (by omega), List.getD_eq_default _ _ (by omega)]
  obtain ⟨q, e5, l5, g5⟩ := queue_some c.svg (N - Ne) (by rw [hc.ls]; omega)
  obtain ⟨hd, e6, l6, g6⟩ := segment_some x2 0 (N - Ne) (by omega)
  obtain ⟨q2, e7, l7, g7⟩ := somme_some q hd (by omega)
  obtain ⟨y, e8, l8, g8⟩ := ecritQueue_some c.svg q2 (by rw [hc.ls]; omega)
  obtain ⟨svg, e9, l9, g9⟩ := queue_some x2 Ne (by omega)
  refine ⟨{ c with padded := padded, svg := svg, plan := p2 }, y, ?_, ?_, by rw [l8, hc.ls], ?_⟩
  · unfold OlaCoeur.stepInterne
    rw [if_neg (by rw [hc.ne]; simpa using hx)]
    simp only [e1, Option.bind_eq_bind, Option.bind_some, e2', e3, e4, hc.nz, hc.ne, e5, e6, e7, e8, e9]
  · refine ⟨hc.ne, hc.n, hc.nz, l1, ?_, .inr ⟨_, hp2⟩, ?_, l9, ?_⟩
    · intro i hi
      show padded.getD i 0 = 0
      rw [gp i (by omega)]
      unfold ech
      rw [if_neg (by omega)]
    · show p2.sens = true
      rw [step_sens _ _ _ _ _ _ e4, step_sens _ _ _ _ _ _ e2, hc.sens]
    · intro i hi
      show svg.getD i 0 = _
      rw [getD_of_get _ _ _ _ (g9 i hi), hconv _ (by omega), corrDeb_append, List.length_append, corrDeb_apres m hist _ (by push_cast; omega),
        zero_add]
      congr 2
      push_cast
      omega
  · intro i hi
    have ls := hc.ls
    rw [corrDeb_append, add_div, ← hc.svg i hi]
    by_cases hlt : i < Ne - (N - Ne)
    · have e : y.getD i 0 = c.svg.getD i 0 := getD_of_get _ _ _ _ (by rw [g8 i, if_neg (by omega)])
      rw [e, corrDeb_avant m x _ (by omega)]
      simp
    · have e : y.getD i 0 = q2.getD (i - (Ne - (N - Ne))) 0 := getD_of_get _ _ _ _ (by
        rw [g8 i, if_pos (by omega)]; congr 1; omega)
      have eq : q.getD (i - (Ne - (N - Ne))) 0 = c.svg.getD i 0 := getD_of_get _ _ _ _ (by rw [g5 _ (by omega)]; congr 1; omega)
      have eh : hd.getD (i - (Ne - (N - Ne))) 0 = x2.getD (i - (Ne - (N - Ne))) 0 := getD_of_get _ _ _ _ (by rw [g6 _ (by omega), Nat.zero_add])
      rw [e, g7, eq, eh, hconv _ (by omega)]
      congr 3
      omega

theorem corr_blocs (Ne N : ℕ) (m T : List ℂ) (hNe : 0 < Ne) (hN2 : N ≤ 2 ^ 29) (h1 : Ne + m.length ≤ N + 1) (h2 : N ≤ 2 * Ne) (h3 : Ne < N) (hm : m.length ≤ Ne) (hT : SpectreMotif N m T) (bs : List (List ℂ)) :
    ∀ (c : OlaCoeur ℂ) (hist : List ℂ), CorrInv Ne N m c hist → (∀ b ∈ bs, b.length = Ne) →
    ∃ c' ys, c.blocs trigoC (fun X => produit X T) bs = some (c', ys) ∧ ys.flatten.length = bs.flatten.length ∧
      ∀ i, i < ys.flatten.length →
        ys.flatten.getD i 0 = corrDeb m (hist ++ bs.flatten) ((hist.length : ℤ) + i - Ne) / trigoC.racine N := by
  induction bs with
  | nil => intro c hist _ _; exact ⟨c, [], rfl, rfl, by simp⟩
  | cons b bs ih =>
    intro c hist hc hb
    have lb := hb b List.mem_cons_self
    obtain ⟨c1, y, e1, i1, ly, gy⟩ := corr_bloc Ne N m T hNe hN2 h1 h2 h3 (by omega) hT c hist b hc lb
    obtain ⟨c2, ys, e2, l2, g2⟩ := ih c1 (hist ++ b) i1 fun b' h' => hb b' (List.mem_cons_of_mem _ h')
    refine ⟨c2, y :: ys, by simp only [OlaCoeur.blocs, e1, e2], by simp [l2, ly, lb], ?_⟩
    intro i hi
    rw [List.flatten_cons] at hi ⊢
    by_cases h5 : i < Ne
    · rw [List.getD_append _ _ _ _ (by omega), gy i h5, List.flatten_cons, ← List.append_assoc, corrDeb_append m (hist ++ b)]
      rw [corrDeb_avant m bs.flatten _ (by rw [List.length_append]; push_cast; omega), add_zero]
    · rw [List.length_append] at hi
      rw [List.getD_append_right _ _ _ _ (by omega), g2 _ (by omega), List.flatten_cons, List.append_assoc]
      congr 2
      rw [List.length_append]
      push_cast
      omega

theorem corr_creation (Ne N : ℕ) (m : List ℂ) (hNe : 0 < Ne) (hN : trigoC.pp2 (Ne + (m.length - 1)) = N) : CorrInv Ne N m (OlaCoeur.configure trigoC (Ne : ℤ) (m.length - 1)) [] := by
  have hif : (if (Ne : ℤ) ≤ 0 then 512 else (Ne : ℤ).toNat) = Ne := by rw [if_neg (by omega)]; simp
  have hz : ∀ n i : ℕ, (List.replicate n (0 : ℂ)).getD i 0 = 0 := by
    intro n i
    rw [List.getD_eq_getElem?_getD, List.getElem?_replicate]
    split <;> rfl
  unfold OlaCoeur.configure
  simp only [hif, hN]
  refine ⟨rfl, rfl, rfl, by simp, fun i _ => hz _ _, .inl rfl, rfl, by simp, fun i _ => ?_⟩
  simp only [hz]
  unfold corrDeb ech
  simp

/-- The overlap-add correlator: for every cutting, the complete blocks of `Ne` samples are delivered, sample `g` being the correlation with the window that starts at `g - Ne`. -/
theorem corr_sortie (Ne N : ℕ) (m T : List ℂ) (hNe : 0 < Ne) (hN2 : N ≤ 2 ^ 29) (hN : trigoC.pp2 (Ne + (m.length - 1)) = N) (h2 : N ≤ 2 * Ne) (h3 : Ne < N) (hm : m.length ≤ Ne) (h0 : 0 < m.length) (hT : SpectreMotif N m T) (xs : List (List ℂ)) :
    ∃ o y, (Ola.creation (OlaCoeur.configure trigoC (Ne : ℤ) (m.length - 1))).flux trigoC (fun X => produit X T) xs = some (o, y) ∧
      y.length = xs.flatten.length / Ne * Ne ∧ ∀ i, i < y.length → y.getD i 0 = corrDeb m xs.flatten ((i : ℤ) - Ne) / trigoC.racine N := by
  have hI := corr_creation Ne N m hNe hN
  have hge : Ne + m.length ≤ N + 1 := by
    obtain ⟨k, e, k1, k2⟩ := loisC.pp2 (Ne + (m.length - 1)) (by omega)
    rw [← hN, e]
    omega
  obtain ⟨c', ys, e3, l3, g3⟩ := corr_blocs Ne N m T hNe hN2 hge h2 h3 hm hT (paquets Ne xs.flatten) _ [] hI (fun b hb => paquets_mem Ne _ b hb)
  have e4 := ola_creation_flux trigoC (fun X => produit X T) (OlaCoeur.configure trigoC (Ne : ℤ) (m.length - 1)) (by rw [hI.ne]; omega) xs
  rw [hI.ne, e3] at e4
  have hdm := Nat.div_mul_le_self xs.flatten.length Ne
  have hl : ys.flatten.length = xs.flatten.length / Ne * Ne := by
    rw [l3, paquets_flatten Ne hNe, List.length_take]
    omega
  cases h6 : (Ola.creation (OlaCoeur.configure trigoC (Ne : ℤ) (m.length - 1))).flux trigoC (fun X => produit X T) xs with
  | none => rw [h6] at e4; cases e4
  | some r =>
    rw [h6] at e4
    simp only [Option.map_some, Option.some.injEq, Prod.mk.injEq] at e4
    refine ⟨r.1, r.2, rfl, by rw [e4.2, hl], ?_⟩
    intro i hi
    rw [e4.2] at hi ⊢
    rw [g3 i hi, List.nil_append, paquets_flatten Ne hNe]
    congr 1
    have hd := List.take_append_drop (xs.flatten.length / Ne * Ne) xs.flatten
    conv_rhs => rw [← hd]
    rw [corrDeb_append, corrDeb_avant m (List.drop _ _) _ (by rw [List.length_take]; omega), add_zero]
    congr 1
    simp

end Verif.Fourier
