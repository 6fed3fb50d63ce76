import Verif.Fourier.Ola
import Verif.Fourier.RfftProps
import Verif.Tampon.Props

/-!
# C50: the FFT-based FIR filter

Specification: the (infinite) convolution of the whole input, samples before the first one being 0, delayed by `512 - M` samples.
-/

namespace Verif.Fourier

open Finset Complex Verif.Tampon

/-! ## Chunking -/

theorem blocs_append {K : Type} [Field K] (A : Trigo K) (t : List K → Option (List K)) (a b : List (List K)) : ∀ c : OlaCoeur K,
    c.blocs A t (a ++ b) = match c.blocs A t a with
      | none => none
      | some (c', ys) => match c'.blocs A t b with
        | none => none
        | some (c'', zs) => some (c'', ys ++ zs) := by
  induction a with
  | nil =>
    intro c
    simp only [List.nil_append, OlaCoeur.blocs]
    cases c.blocs A t b with
    | none => rfl
    | some r => rfl
  | cons x a ih =>
    intro c
    simp only [List.cons_append, OlaCoeur.blocs]
    cases c.stepInterne A t x with
    | none => rfl
    | some r =>
      simp only [ih]
      cases OlaCoeur.blocs A t r.1 a with
      | none => rfl
      | some r2 =>
        simp only []
        cases OlaCoeur.blocs A t r2.1 b with
        | none => rfl
        | some r3 => rfl

theorem stepInterne_Ne {K : Type} [Field K] (A : Trigo K) (t : List K → Option (List K)) (c c' : OlaCoeur K) (x y : List K)
    (h : c.stepInterne A t x = some (c', y)) : c'.Ne = c.Ne := by
  unfold OlaCoeur.stepInterne at h
  split at h
  · cases h
  · simp only [Option.bind_eq_bind, Option.bind_eq_some_iff] at h
    obtain ⟨_, _, ⟨_, _⟩, _, _, _, ⟨_, _⟩, _, _, _, _, _, _, _, _, _, _, _, h⟩ := h
    cases h
    rfl

theorem blocs_Ne {K : Type} [Field K] (A : Trigo K) (t : List K → Option (List K)) (bs : List (List K)) : ∀ (c c' : OlaCoeur K) ys,
    c.blocs A t bs = some (c', ys) → c'.Ne = c.Ne := by
  induction bs with
  | nil => intro c c' ys h; simp only [OlaCoeur.blocs, Option.some.injEq, Prod.mk.injEq] at h; rw [h.1]
  | cons b bs ih =>
    intro c c' ys h
    simp only [OlaCoeur.blocs] at h
    cases h1 : c.stepInterne A t b with
    | none => rw [h1] at h; cases h
    | some r =>
      rw [h1] at h
      simp only [] at h
      cases h2 : OlaCoeur.blocs A t r.1 bs with
      | none => rw [h2] at h; cases h
      | some r2 =>
        rw [h2] at h
        cases h
        rw [ih r.1 r2.1 r2.2 h2, stepInterne_Ne A t c r.1 b r.2 h1]

/-- The calls process exactly the complete packets of the concatenated input. -/
theorem ola_flux {K : Type} [Field K] (A : Trigo K) (t : List K → Option (List K)) (Ne : Nat) (hN : 0 < Ne) (xs : List (List K)) :
    ∀ (s : Ola K) (hr : List K), s.coeur.Ne = Ne → Rep Ne s.tampon hr → (s.vide = true → hr = []) →
    ∃ pk, paquets Ne (hr ++ xs.flatten) = paquets Ne hr ++ pk ∧
      (s.flux A t xs).map (fun r => (r.1.coeur, r.2)) = (s.coeur.blocs A t pk).map (fun r => (r.1, r.2.flatten)) := by
  induction xs with
  | nil =>
    intro s hr _ _ _
    exact ⟨[], by simp, by simp [Ola.flux, OlaCoeur.blocs]⟩
  | cons x xs ih =>
    intro s hr hNe hrep hv
    rw [Ola.flux, Ola.step]
    by_cases hd : s.vide = true ∧ x.length = s.coeur.Ne
    · rw [if_pos hd]
      have h0 := hv hd.1
      subst h0
      cases h1 : s.coeur.stepInterne A t x with
      | none =>
        refine ⟨x :: paquets Ne xs.flatten, ?_, by simp [OlaCoeur.blocs, h1]⟩
        rw [List.flatten_cons, List.nil_append, paquets_append Ne hN x _ 1 (by omega), paquets_un Ne hN x (by omega),
          paquets_court Ne [] (by simpa using hN)]
        rfl
      | some r =>
        obtain ⟨pk, e1, e2⟩ := ih { s with coeur := r.1 } [] (by rw [← hNe]; exact stepInterne_Ne A t _ _ _ _ h1) hrep (fun _ => rfl)
        refine ⟨x :: pk, ?_, ?_⟩
        · rw [List.flatten_cons, List.nil_append, paquets_append Ne hN x _ 1 (by omega), paquets_un Ne hN x (by omega),
            paquets_court Ne [] (by simpa using hN)]
          rw [paquets_court Ne [] (by simpa using hN)] at e1
          rw [List.nil_append] at e1
          rw [e1]
          rfl
        · simp only [OlaCoeur.blocs, h1]
          simp only [] at e2
          cases h2 : Ola.flux A t { s with coeur := r.1 } xs with
          | none =>
            rw [h2] at e2
            cases h3 : OlaCoeur.blocs A t r.1 pk with
            | none => rfl
            | some q => rw [h3] at e2; cases e2
          | some q =>
            rw [h2] at e2
            cases h3 : OlaCoeur.blocs A t r.1 pk with
            | none => rw [h3] at e2; cases e2
            | some q3 =>
              rw [h3] at e2
              simp only [Option.map_some, Option.some.injEq, Prod.mk.injEq] at e2
              simp only [Option.map_some, List.flatten_cons, e2.1, e2.2]
    · rw [if_neg hd]
      obtain ⟨tp, p, e1, r1, k1⟩ := step_rep (0 : K) Ne hN s.tampon hr x hrep
      simp only [e1]
      cases h1 : s.coeur.blocs A t p with
      | none =>
        obtain ⟨pk, e3, _⟩ := ih { coeur := s.coeur, tampon := tp, vide := false } (hr ++ x) hNe r1 (by simp)
        refine ⟨p ++ pk, ?_, ?_⟩
        · rw [List.flatten_cons, ← List.append_assoc, e3, k1, List.append_assoc]
        · rw [blocs_append, h1]
          rfl
      | some r =>
        obtain ⟨pk, e3, e4⟩ := ih { coeur := r.1, tampon := tp, vide := false } (hr ++ x) (by
          rw [← hNe]; exact blocs_Ne A t p _ _ _ h1) r1 (by simp)
        refine ⟨p ++ pk, ?_, ?_⟩
        · rw [List.flatten_cons, ← List.append_assoc, e3, k1, List.append_assoc]
        · rw [blocs_append, h1]
          simp only [] at e4 ⊢
          cases h2 : Ola.flux A t { coeur := r.1, tampon := tp, vide := false } xs with
          | none =>
            rw [h2] at e4
            cases h3 : OlaCoeur.blocs A t r.1 pk with
            | none => rfl
            | some q => rw [h3] at e4; cases e4
          | some q =>
            rw [h2] at e4
            cases h3 : OlaCoeur.blocs A t r.1 pk with
            | none => rw [h3] at e4; cases e4
            | some q3 =>
              rw [h3] at e4
              simp only [Option.map_some, Option.some.injEq, Prod.mk.injEq] at e4
              simp only [Option.map_some, List.flatten_append, e4.1, e4.2]

theorem ola_creation_flux {K : Type} [Field K] (A : Trigo K) (t : List K → Option (List K)) (c : OlaCoeur K) (hN : 0 < c.Ne)
    (xs : List (List K)) :
    ((Ola.creation c).flux A t xs).map (fun r => (r.1.coeur, r.2)) =
      (c.blocs A t (paquets c.Ne xs.flatten)).map (fun r => (r.1, r.2.flatten)) := by
  obtain ⟨pk, e1, e2⟩ := ola_flux A t c.Ne hN xs (Ola.creation c) [] rfl (rep_vide c.Ne hN _ rfl rfl (Or.inr rfl)) (fun _ => rfl)
  rw [List.nil_append, paquets_court c.Ne [] (by simpa using hN), List.nil_append] at e1
  rw [e1]
  exact e2

/-! ## The direction of a plan is kept by its calls -/

/-- Direction of a plan. -/
def Plan.sens {K : Type} : Plan K → Bool
  | .mk _ _ av _ _ _ => av

theorem configure_sens {K : Type} [Field K] (A : Trigo K) (p : Plan K) (n : Nat) (av : Bool) : (p.configure A n av).sens = av := by
  obtain ⟨a, b, c, d, ch, s⟩ := p
  rw [Plan.configure]
  split
  · split <;> rfl
  · rfl

theorem assure_sens {K : Type} [Field K] (A : Trigo K) (p : Plan K) (n : Nat) : (p.assure A n).sens = p.sens := by
  obtain ⟨a, b, c, d, ch, s⟩ := p
  rw [Plan.assure]
  split
  · exact configure_sens A _ n c
  · rfl

theorem step_sens {K : Type} [Field K] (A : Trigo K) (p p' : Plan K) (x y : List K) (avant : Bool)
    (h : p.step A x avant = some (p', y)) : p'.sens = p.sens := by
  rw [← assure_sens A p x.length]
  unfold Plan.step at h
  split at h
  · cases h
  · generalize p.assure A x.length = p1 at h
    obtain ⟨a, b, c, d, ch, s⟩ := p1
    simp only [] at h
    split at h
    · split at h
      · cases h
      · split at h
        · cases h; rfl
        · split at h
          · cases h
          · cases h; rfl
    · split at h
      · split at h
        · cases h
        · cases h; rfl
      · split at h
        · split at h
          · cases h
          · split at h
            · cases h
            · split at h
              · cases h
              · split at h
                · cases h
                · cases h; rfl
        · cases h

/-! ## Convolution -/

/-- Sample `n` of a signal, 0 outside. -/
noncomputable def ech (x : List ℂ) (n : Int) : ℂ := if 0 ≤ n then x.getD n.toNat 0 else 0

/-- Specification: sample `n` of the convolution of the coefficients `h` with the signal `x`. -/
noncomputable def convol (h : List ℝ) (x : List ℂ) (n : Int) : ℂ := ∑ j ∈ range h.length, (h.getD j 0 : ℂ) * ech x (n - j)

theorem ech_append (a b : List ℂ) (n : Int) : ech (a ++ b) n = ech a n + ech b (n - a.length) := by
  unfold ech
  by_cases h0 : 0 ≤ n
  · rw [if_pos h0, if_pos h0]
    by_cases h1 : n < a.length
    · rw [if_neg (by omega), add_zero, List.getD_append _ _ _ _ (by omega)]
    · rw [if_pos (by omega), List.getD_append_right _ _ _ _ (by omega), List.getD_eq_default a _ (by omega), zero_add]
      congr 1
      omega
  · rw [if_neg h0, if_neg h0, if_neg (by omega), add_zero]

theorem ech_fin (a : List ℂ) (n : Int) (h : (a.length : Int) ≤ n) : ech a n = 0 := by
  unfold ech
  rw [if_pos (by omega), List.getD_eq_default _ _ (by omega)]

theorem convol_append (h : List ℝ) (a b : List ℂ) (n : Int) : convol h (a ++ b) n = convol h a n + convol h b (n - a.length) := by
  unfold convol
  rw [← sum_add_distrib]
  refine sum_congr rfl fun j _ => ?_
  rw [ech_append, mul_add]
  congr 3
  omega

theorem convol_fin (h : List ℝ) (a : List ℂ) (n : Int) (hn : (a.length : Int) + h.length ≤ n + 1) : convol h a n = 0 := by
  refine sum_eq_zero fun j hj => ?_
  have := mem_range.1 hj
  rw [ech_fin a _ (by omega), mul_zero]

theorem conv_comm (N : Nat) (hN : 0 < N) (u v : Nat → ℂ) (t : Nat) (ht : t < N) :
    ∑ a ∈ range N, u a * v ((t + N - a) % N) = ∑ a ∈ range N, v a * u ((t + N - a) % N) := by
  have h := ratio_prim loisC N hN true
  have e1 := dft_convolution _ N hN h u v t ht
  have e2 := dft_convolution _ N hN h v u t ht
  have e3 : (fun i => dft (ratio trigoC N true) N u i * dft (ratio trigoC N true) N v i) =
      (fun i => dft (ratio trigoC N true) N v i * dft (ratio trigoC N true) N u i) := funext fun i => mul_comm _ _
  rw [e3, e2] at e1
  have hne : (N : ℂ) ≠ 0 := by exact_mod_cast hN.ne'
  exact (mul_left_cancel₀ hne e1).symm

/-- The padded impulse response. -/
theorem enC_getD (h : List ℝ) (j : Nat) : (enC h).getD j 0 = (h.getD j 0 : ℂ) := by
  by_cases hj : j < h.length
  · rw [List.getD_eq_getElem _ _ (by rw [enC_length]; exact hj), List.getD_eq_getElem _ _ hj]; simp [enC]
  · rw [List.getD_eq_default _ _ (by rw [enC_length]; omega), List.getD_eq_default _ _ (by omega)]; simp

theorem somme_fin (N M : Nat) (h : M ≤ N) (f : Nat → ℂ) (z : ∀ b, b < N - M → f b = 0) :
    ∑ b ∈ range N, f b = ∑ j ∈ range M, f (N - M + j) := by
  obtain ⟨d, rfl⟩ := Nat.exists_eq_add_of_le' h
  rw [Nat.add_sub_cancel] at z ⊢
  rw [sum_range_add, sum_eq_zero (s := range d) fun b hb => z b (mem_range.1 hb), zero_add]

theorem ecritQueue_replicate {T : Type} (N : Nat) (z : T) (h : List T) (hN : h.length ≤ N) :
    ecritQueue (List.replicate N z) h = some (List.replicate (N - h.length) z ++ h) := by
  rw [ecritQueue, if_pos (by rw [List.length_replicate]; omega), ecrit, if_pos (by rw [List.length_replicate]; omega)]
  rw [List.length_replicate, List.take_replicate, List.drop_replicate, show N - (N - h.length + h.length) = 0 by omega,
    Nat.min_eq_left (by omega), List.replicate_zero, List.append_nil]

/-! ## One block of the filter -/

/-- Invariant of the filter after the blocks whose concatenation is `hist`. -/
structure RifInv (h : List ℝ) (c : OlaCoeur ℂ) (hist : List ℂ) : Prop where
  ne : c.Ne = 512
  n : c.N = 1024
  nz : c.Nz = 512
  lp : c.padded.length = 1024
  zp : ∀ i, i < 512 → c.padded.getD i 0 = 0
  plan : Valide trigoC c.plan
  sens : c.plan.sens = true
  ls : c.svg.length = 512
  svg : ∀ i, i < 512 → c.svg.getD i 0 = convol h hist ((hist.length : Int) + i - (512 - h.length))

/-- The frequency response: DFT (not normalised) of the coefficients at the end of 1024 samples. -/
def RepFreq (h : List ℝ) (H h2 : List ℂ) : Prop :=
  h2.length = 1024 ∧ (∀ b, b < 1024 → h2.getD b 0 = if 1024 - h.length ≤ b then (h.getD (b - (1024 - h.length)) 0 : ℂ) else 0) ∧
  H.length = 1024 ∧ ∀ k, k < 1024 → H.getD k 0 = dft (ratio trigoC 1024 true) 1024 (fun j => h2.getD j 0) k

theorem rif_bloc (h : List ℝ) (h1 : 0 < h.length) (h512 : h.length ≤ 512) (H h2 : List ℂ) (hH : RepFreq h H h2) (c : OlaCoeur ℂ)
    (hist x : List ℂ) (hc : RifInv h c hist) (hx : x.length = 512) :
    ∃ c' y, c.stepInterne trigoC (fun X => produit X H) x = some (c', y) ∧ RifInv h c' (hist ++ x) ∧ y.length = 512 ∧
      ∀ i, i < 512 → y.getD i 0 = convol h (hist ++ x) ((hist.length : Int) + i - (512 - h.length)) := by
  obtain ⟨lh2, gh2, lH, gH⟩ := hH
  obtain ⟨padded, e1, l1, g1⟩ := ecritQueue_some c.padded x (by rw [hc.lp]; omega)
  rw [hc.lp] at l1
  simp only [hc.lp, hx] at g1
  have gp : ∀ a, a < 1024 → padded.getD a 0 = if 512 ≤ a then x.getD (a - 512) 0 else 0 := by
    intro a ha
    by_cases h5 : 512 ≤ a
    · rw [if_pos h5]; exact getD_of_get _ _ _ _ (by rw [g1 a, if_pos (by omega)])
    · rw [if_neg h5]
      exact (getD_of_get _ _ _ _ (by rw [g1 a, if_neg (by omega)])).trans (hc.zp a (by omega))
  obtain ⟨p1, X, e2, hp1, t1⟩ := step_tfd loisC true 1024 padded c.plan l1 (by omega) (by omega) hc.plan
  have e2' : c.plan.step2 trigoC padded = some (p1, X) := by
    have hs := hc.sens
    generalize c.plan = p at e2 hs
    obtain ⟨a, b, av, d, ch, s⟩ := p
    have : av = true := hs
    subst this
    exact e2
  have lX : X.length = 1024 := by rw [t1.1, l1]
  obtain ⟨P, e3, l3, g3⟩ := produit_some X H (by omega)
  obtain ⟨p2, x2, e4, hp2, t2⟩ := step_tfd loisC false 1024 P p1 (by omega) (by omega) (by omega) (.inr ⟨_, hp1⟩)
  have lx2 : x2.length = 1024 := by rw [t2.1]; omega
  have lP : P.length = 1024 := by omega
  -- the circular convolution
  have hconv : ∀ t, t < 1024 → x2.getD t 0 = convol h x ((t : Int) - (512 - h.length)) := by
    intro t ht
    have hpos : 0 < 1024 := by omega
    have hb : x2.getD t 0 = ∑ a ∈ range 1024, padded.getD a 0 * h2.getD ((t + 1024 - a) % 1024) 0 := by
      rw [t2.2 t (by omega), lP]
      have hcg : dft (ratio trigoC 1024 false) 1024 (fun j => P.getD j 0) t =
          dft (ratio trigoC 1024 true)⁻¹ 1024 (fun i => dft (ratio trigoC 1024 true) 1024 (fun j => padded.getD j 0) i *
            dft (ratio trigoC 1024 true) 1024 (fun j => h2.getD j 0) i) t / trigoC.racine 1024 := by
        rw [ratio_not]
        unfold dft
        rw [sum_div]
        refine sum_congr rfl fun k hk => ?_
        have hk := mem_range.1 hk
        simp only []
        have h5 := t1.2 k (by omega)
        rw [l1] at h5
        rw [g3 k, h5, gH k hk]
        unfold dft
        ring
      rw [hcg, dft_convolution _ _ hpos (ratio_prim loisC 1024 hpos true) _ _ _ ht, div_div, loisC.racine_carre]
      norm_num
    rw [hb, conv_comm 1024 hpos (fun a => padded.getD a 0) (fun b => h2.getD b 0) t ht]
    unfold convol
    have hsplit : ∑ b ∈ range 1024, h2.getD b 0 * padded.getD ((t + 1024 - b) % 1024) 0 =
        ∑ j ∈ range h.length, h2.getD (1024 - h.length + j) 0 * padded.getD ((t + 1024 - (1024 - h.length + j)) % 1024) 0 := by
      exact somme_fin 1024 h.length (by omega) (fun b => h2.getD b 0 * padded.getD ((t + 1024 - b) % 1024) 0) fun b hb => by
        rw [gh2 b (by omega), if_neg (by omega), zero_mul]
    rw [hsplit]
    refine sum_congr rfl fun j hj => ?_
    have hj := mem_range.1 hj
    rw [gh2 _ (by omega), if_pos (by omega), show 1024 - h.length + j - (1024 - h.length) = j by omega]
    refine congrArg (fun z => ((h.getD j 0 : ℝ) : ℂ) * z) ?_
    rw [show t + 1024 - (1024 - h.length + j) = t + h.length - j by omega]
    by_cases hw : t + h.length - j < 1024
    · rw [Nat.mod_eq_of_lt hw, gp _ hw]
      unfold ech
      by_cases h5 : 512 ≤ t + h.length - j
      · rw [if_pos h5, if_pos (by omega)]
        exact congrArg (fun z => x.getD z 0) (by omega)
      · rw [if_neg h5, if_neg (by omega)]
    · rw [Nat.mod_eq_sub_mod (by omega), Nat.mod_eq_of_lt (by omega), gp _ (by omega), if_neg (by omega), ech_fin _ _ (by omega)]
  obtain ⟨q, e5, l5, g5⟩ := queue_some c.svg 512 (by rw [hc.ls])
  obtain ⟨hd, e6, l6, g6⟩ := segment_some x2 0 512 (by omega)
  obtain ⟨q2, e7, l7, g7⟩ := somme_some q hd (by omega)
  obtain ⟨y, e8, l8, g8⟩ := ecritQueue_some c.svg q2 (by rw [hc.ls]; omega)
  obtain ⟨svg, e9, l9, g9⟩ := queue_some x2 512 (by omega)
  refine ⟨{ c with padded := padded, svg := svg, plan := p2 }, y, ?_, ?_, by rw [l8, hc.ls], ?_⟩
  · unfold OlaCoeur.stepInterne
    rw [if_neg (by rw [hc.ne]; simpa using hx)]
    simp only [e1, Option.bind_eq_bind, Option.bind_some, e2', e3, e4, hc.nz, hc.ne, e5, e6, e7, e8, e9]
  · refine ⟨hc.ne, hc.n, hc.nz, l1, ?_, .inr ⟨_, hp2⟩, ?_, l9, ?_⟩
    · intro i hi
      show padded.getD i 0 = 0
      rw [gp i (by omega), if_neg (by omega)]
    · show p2.sens = true
      rw [step_sens _ _ _ _ _ _ e4, step_sens _ _ _ _ _ _ e2, hc.sens]
    · intro i hi
      show svg.getD i 0 = _
      rw [getD_of_get _ _ _ _ (g9 i hi), hconv _ (by omega), convol_append, List.length_append, convol_fin h hist _ (by push_cast; omega),
        zero_add]
      congr 1
      push_cast
      omega
  · intro i hi
    have hq2 : q2.length = 512 := by omega
    have ls := hc.ls
    have e : y.getD i 0 = q2.getD i 0 := getD_of_get _ _ _ _ (by
      rw [g8 i, if_pos (by omega)]; congr 1; omega)
    have eq : q.getD i 0 = c.svg.getD i 0 := getD_of_get _ _ _ _ (by rw [g5 i hi]; congr 1; omega)
    have eh : hd.getD i 0 = x2.getD i 0 := getD_of_get _ _ _ _ (by rw [g6 i hi, Nat.zero_add])
    rw [e, g7, eq, eh, hc.svg i hi, hconv i (by omega), convol_append]
    congr 2
    omega

theorem rif_blocs (h : List ℝ) (h1 : 0 < h.length) (h512 : h.length ≤ 512) (H h2 : List ℂ) (hH : RepFreq h H h2) (bs : List (List ℂ)) :
    ∀ (c : OlaCoeur ℂ) (hist : List ℂ), RifInv h c hist → (∀ b ∈ bs, b.length = 512) →
    ∃ c' ys, c.blocs trigoC (fun X => produit X H) bs = some (c', ys) ∧ ys.flatten.length = bs.flatten.length ∧
      ∀ i, i < ys.flatten.length →
        ys.flatten.getD i 0 = convol h (hist ++ bs.flatten) ((hist.length : Int) + i - (512 - h.length)) := by
  induction bs with
  | nil => intro c hist _ _; exact ⟨c, [], rfl, rfl, by simp⟩
  | cons b bs ih =>
    intro c hist hc hb
    have lb := hb b List.mem_cons_self
    obtain ⟨c1, y, e1, i1, ly, gy⟩ := rif_bloc h h1 h512 H h2 hH c hist b hc lb
    obtain ⟨c2, ys, e2, l2, g2⟩ := ih c1 (hist ++ b) i1 fun b' h' => hb b' (List.mem_cons_of_mem _ h')
    refine ⟨c2, y :: ys, by simp only [OlaCoeur.blocs, e1, e2], by simp [l2, ly, lb], ?_⟩
    intro i hi
    rw [List.flatten_cons] at hi ⊢
    by_cases h5 : i < 512
    · rw [List.getD_append _ _ _ _ (by omega), gy i h5, List.flatten_cons, ← List.append_assoc, convol_append h (hist ++ b)]
      have hz : convol h bs.flatten ((hist.length : Int) + i - (512 - h.length) - (hist ++ b).length) = 0 := by
        refine sum_eq_zero fun j _ => ?_
        unfold ech
        rw [if_neg (by rw [List.length_append]; push_cast; omega), mul_zero]
      rw [hz, add_zero]
    · rw [List.length_append] at hi
      rw [List.getD_append_right _ _ _ _ (by omega), g2 _ (by omega), List.flatten_cons, List.append_assoc]
      congr 1
      rw [List.length_append]
      push_cast
      omega

/-- After construction with `1 ≤ M ≤ 512` coefficients. -/
theorem rif_creation (h : List ℝ) (h1 : 0 < h.length) (h512 : h.length ≤ 512) :
    ∃ f h2, RifFft.creation trigoC reC I (enC h) = some f ∧ f.ola = Ola.creation (OlaCoeur.configure trigoC 0 h.length) ∧
      RepFreq h f.H h2 ∧ RifInv h (OlaCoeur.configure trigoC 0 h.length) [] := by
  have hpp : trigoC.pp2 (512 + h.length) = 1024 := by
    obtain ⟨k, e, k1, k2⟩ := loisC.pp2 (512 + h.length) (by omega)
    rw [e]
    have h10 : k = 10 := by
      by_contra hc
      rcases Nat.lt_or_ge k 10 with hk | hk
      · have : 2 ^ k ≤ 2 ^ 9 := Nat.pow_le_pow_right (by omega) (by omega)
        omega
      · have : 2 ^ 11 ≤ 2 ^ k := Nat.pow_le_pow_right (by omega) (by omega)
        omega
    rw [h10]
    norm_num
  have hN : (OlaCoeur.configure trigoC 0 h.length).N = 1024 := hpp
  have hNe : (OlaCoeur.configure trigoC 0 h.length).Ne = 512 := rfl
  have hNz : (OlaCoeur.configure trigoC 0 h.length).Nz = 512 := by
    show trigoC.pp2 (512 + h.length) - 512 = 512
    rw [hpp]
  obtain ⟨h2r, hr⟩ : ∃ l, l = List.replicate (1024 - h.length) (0 : ℝ) ++ h := ⟨_, rfl⟩
  have hE : enC h2r = (List.replicate (1024 - h.length) (0 : ℂ)) ++ enC h := by
    rw [hr]
    unfold enC
    rw [List.map_append, List.map_replicate, ofReal_zero]
  obtain ⟨h2, e1, l1, g1⟩ := ecritQueue_some (List.replicate 1024 (0 : ℂ)) (enC h) (by rw [List.length_replicate, enC_length]; omega)
  have hE2 : h2 = enC h2r := by
    rw [ecritQueue_replicate 1024 0 (enC h) (by rw [enC_length]; omega), enC_length] at e1
    rw [hE]
    exact (Option.some.inj e1).symm
  rw [List.length_replicate] at l1
  have lh2r : h2r.length = 1024 := by rw [hr, List.length_append, List.length_replicate]; omega
  obtain ⟨H, e2, l2, g2⟩ := C49_rfft h2r (by omega) (by omega)
  refine ⟨{ ola := Ola.creation (OlaCoeur.configure trigoC 0 h.length), H := H.map (· * trigoC.racine 1024) }, h2, ?_, rfl,
    ⟨l1, ?_, by rw [List.length_map]; omega, ?_⟩, ?_⟩
  · unfold RifFft.creation
    rw [enC_length]
    simp only [hN, e1, Option.bind_eq_bind, Option.bind_some, hE2, e2]
  · intro b hb
    simp only [List.length_replicate, enC_length] at g1
    by_cases hc : 1024 - h.length ≤ b
    · rw [if_pos hc, ← enC_getD]
      exact getD_of_get _ _ _ _ (by rw [g1 b, if_pos (by omega)])
    · rw [if_neg hc, List.getD_eq_getElem?_getD, g1 b, if_neg (by omega), List.getElem?_replicate]
      split <;> rfl
  · intro k hk
    have h3 := dft_TFD true (enC h2r) k
    simp only [if_true] at h3
    rw [enC_length, lh2r] at h3
    rw [getD_map _ _ _ (by omega), g2 k (by omega), ← h3, hE2]
    have hne := loisC.racine_ne 1024 (by omega)
    field_simp
  · refine ⟨hNe, hN, hNz, ?_, ?_, .inl rfl, rfl, ?_, ?_⟩
    · show (List.replicate (trigoC.pp2 (512 + h.length)) (0 : ℂ)).length = 1024
      rw [List.length_replicate, hpp]
    · intro i _
      show (List.replicate (trigoC.pp2 (512 + h.length)) (0 : ℂ)).getD i 0 = 0
      rw [List.getD_eq_getElem?_getD, List.getElem?_replicate]
      split <;> rfl
    · show (List.replicate 512 (0 : ℂ)).length = 512
      exact List.length_replicate
    · intro i _
      show (List.replicate 512 (0 : ℂ)).getD i 0 = _
      have hz : (List.replicate 512 (0 : ℂ)).getD i 0 = 0 := by
        rw [List.getD_eq_getElem?_getD, List.getElem?_replicate]
        split <;> rfl
      rw [hz]
      symm
      refine sum_eq_zero fun j _ => ?_
      unfold ech
      simp

theorem rif_flux (xs : List (List ℂ)) : ∀ f : RifFft ℂ,
    (f.flux trigoC reC xs).map Prod.snd = (f.ola.flux trigoC (fun X => produit X f.H) xs).map (fun r => r.2.map reC) := by
  induction xs with
  | nil => intro f; rfl
  | cons x xs ih =>
    intro f
    simp only [RifFft.flux, Ola.flux, RifFft.step]
    cases h1 : f.ola.step trigoC (fun X => produit X f.H) x with
    | none => rfl
    | some r =>
      simp only []
      have := ih { f with ola := r.1 }
      simp only [] at this
      cases h2 : RifFft.flux trigoC reC { f with ola := r.1 } xs with
      | none =>
        rw [h2] at this
        cases h3 : Ola.flux trigoC (fun X => produit X f.H) r.1 xs with
        | none => rfl
        | some q => rw [h3] at this; cases this
      | some q =>
        rw [h2] at this
        cases h3 : Ola.flux trigoC (fun X => produit X f.H) r.1 xs with
        | none => rw [h3] at this; cases this
        | some q3 =>
          rw [h3] at this
          simp only [Option.map_some, Option.some.injEq] at this
          simp only [Option.map_some, List.map_append, this]

theorem paquets_mem {T : Type} (N : Nat) (x b : List T) (h : b ∈ paquets N x) : b.length = N := by
  unfold paquets at h
  rw [List.mem_map] at h
  obtain ⟨k, hk, rfl⟩ := h
  have hk := List.mem_range.1 hk
  have : (k + 1) * N ≤ x.length / N * N := Nat.mul_le_mul_right N hk
  have h2 := Nat.div_mul_le_self x.length N
  rw [Nat.add_mul, Nat.one_mul] at this
  rw [List.length_take, List.length_drop]
  omega

theorem paquets_flatten {T : Type} (N : Nat) (hN : 0 < N) (x : List T) : (paquets N x).flatten = x.take (x.length / N * N) := by
  unfold paquets
  have : ∀ q, q * N ≤ x.length → ((List.range q).map fun k => (x.drop (k * N)).take N).flatten = x.take (q * N) := by
    intro q
    induction q with
    | zero => intro _; simp
    | succ q ih =>
      intro h
      rw [Nat.add_mul, Nat.one_mul] at h
      rw [List.range_succ, List.map_append, List.flatten_append, ih (by omega)]
      simp only [List.map_cons, List.map_nil, List.flatten_cons, List.flatten_nil, List.append_nil]
      rw [Nat.add_mul, Nat.one_mul, List.take_add]
  exact this _ (Nat.div_mul_le_self _ _)

/-- What the filter computes for every chunking of every (complex) input. -/
theorem rif_sortie (h : List ℝ) (h1 : 0 < h.length) (h512 : h.length ≤ 512) (xs : List (List ℂ)) :
    ∃ f f' y, RifFft.creation trigoC reC I (enC h) = some f ∧ f.flux trigoC reC xs = some (f', y) ∧
      y.length = xs.flatten.length / 512 * 512 ∧
      ∀ i, i < y.length → y.getD i 0 = reC (convol h xs.flatten ((i : Int) - (512 - h.length))) := by
  obtain ⟨f, h2, e1, e2, hH, hI⟩ := rif_creation h h1 h512
  have hNe : (OlaCoeur.configure trigoC 0 h.length).Ne = 512 := rfl
  obtain ⟨c', ys, e3, l3, g3⟩ := rif_blocs h h1 h512 f.H h2 hH (paquets 512 xs.flatten) _ [] hI (fun b hb => paquets_mem 512 _ b hb)
  have e4 := ola_creation_flux trigoC (fun X => produit X f.H) (OlaCoeur.configure trigoC 0 h.length) (by rw [hNe]; omega) xs
  rw [hNe, e3, ← e2] at e4
  have e5 := rif_flux xs f
  cases h6 : f.ola.flux trigoC (fun X => produit X f.H) xs with
  | none => rw [h6] at e4; cases e4
  | some r =>
    rw [h6] at e4 e5
    simp only [Option.map_some, Option.some.injEq, Prod.mk.injEq] at e4
    cases h7 : f.flux trigoC reC xs with
    | none => rw [h7] at e5; cases e5
    | some r2 =>
      rw [h7] at e5
      simp only [Option.map_some, Option.some.injEq] at e5
      have hl : ys.flatten.length = xs.flatten.length / 512 * 512 := by
        have := Nat.div_mul_le_self xs.flatten.length 512
        rw [l3, paquets_flatten 512 (by omega), List.length_take]
        omega
      refine ⟨f, r2.1, r2.2, e1, h7, by rw [e5, List.length_map, e4.2, hl], ?_⟩
      intro i hi
      rw [e5, List.length_map, e4.2] at hi
      rw [e5, e4.2, getD_map _ _ _ hi, g3 i hi]
      congr 1
      rw [List.nil_append, paquets_flatten 512 (by omega)]
      have hd := List.take_append_drop (xs.flatten.length / 512 * 512) xs.flatten
      conv_rhs => rw [← hd]
      rw [convol_append]
      have hz : convol h (List.drop (xs.flatten.length / 512 * 512) xs.flatten)
          ((i : Int) - (512 - h.length) - (List.take (xs.flatten.length / 512 * 512) xs.flatten).length) = 0 := by
        refine sum_eq_zero fun j _ => ?_
        have := Nat.div_mul_le_self xs.flatten.length 512
        unfold ech
        rw [if_neg (by rw [List.length_take]; omega), mul_zero]
      rw [hz, add_zero]
      congr 1
      simp

/-! ## Theorems -/

/-- C50: for every impulse response of 1 to 512 real coefficients, every real input and every way of cutting it into calls (chunks of any
sizes, empty ones included), the filter never fails, has delivered exactly the complete blocks of 512 samples, and its output is the FIR
convolution delayed by `512 - M` samples, exactly as if the signal had been filtered in one go. -/
theorem C50_rif (h : List ℝ) (h1 : 0 < h.length) (h512 : h.length ≤ 512) (xs : List (List ℝ)) :
    ∃ f f' y, RifFft.creation trigoC reC I (enC h) = some f ∧ f.flux trigoC reC (xs.map enC) = some (f', y) ∧
      y.length = xs.flatten.length / 512 * 512 ∧
      ∀ i, i < y.length → y.getD i 0 = convol h (enC xs.flatten) ((i : Int) - (512 - h.length)) := by
  obtain ⟨f, f', y, e1, e2, l, g⟩ := rif_sortie h h1 h512 (xs.map enC)
  have hf : (xs.map enC).flatten = enC xs.flatten := by
    unfold enC
    rw [← List.map_flatten]
  rw [hf] at l g
  rw [enC_length] at l
  refine ⟨f, f', y, e1, e2, l, fun i hi => ?_⟩
  rw [g i hi]
  refine conj_eq_iff_re.1 ?_
  unfold convol
  rw [map_sum]
  refine sum_congr rfl fun j _ => ?_
  rw [map_mul, conj_ofReal]
  congr 1
  unfold ech
  split
  · exact enC_star _ _
  · simp

/-- C50: the output does not depend on how the input is cut. -/
theorem C50_decoupage (h : List ℝ) (h1 : 0 < h.length) (h512 : h.length ≤ 512) (xs ys : List (List ℂ)) (hxy : xs.flatten = ys.flatten) :
    ∃ f f1 f2 y, RifFft.creation trigoC reC I (enC h) = some f ∧ f.flux trigoC reC xs = some (f1, y) ∧
      f.flux trigoC reC ys = some (f2, y) := by
  obtain ⟨f, f1, y, e1, e2, l, g⟩ := rif_sortie h h1 h512 xs
  obtain ⟨f', f2, y', e1', e2', l', g'⟩ := rif_sortie h h1 h512 ys
  rw [e1] at e1'
  cases e1'
  refine ⟨f, f1, f2, y, e1, e2, ?_⟩
  rw [e2']
  congr 2
  rw [← hxy] at l' g'
  exact list_ext_getD _ _ (by omega) fun i hi => by rw [g i (by omega), g' i (by omega)]

/-- C50, refuted for complex signals: `filtre_rif_fft<cfloat>` keeps only the real part of the output. With the single coefficient 1
and a block starting with `i`, the output sample that should be `i` is 0. -/
theorem C50_complexe_refute : ∃ (x : List ℂ) (f f' : RifFft ℂ) (y : List ℂ),
    RifFft.creation trigoC reC I (enC [1]) = some f ∧ f.flux trigoC reC [x] = some (f', y) ∧
      511 < y.length ∧ convol [1] x ((511 : Int) - (512 - 1)) = I ∧ y.getD 511 0 = 0 := by
  obtain ⟨f, f', y, e1, e2, l, g⟩ := rif_sortie [1] (by simp) (by simp) [I :: List.replicate 511 0]
  have hl : y.length = 512 := by
    rw [l, List.flatten_cons, List.flatten_nil, List.append_nil, List.length_cons, List.length_replicate]
  have h0 : ∀ l : List ℂ, convol [1] (I :: l) ((511 : Int) - (512 - 1)) = I := by
    intro l
    simp [convol, ech]
  refine ⟨I :: List.replicate 511 0, f, f', y, e1, e2, by omega, h0 _, ?_⟩
  rw [g 511 (by omega), List.flatten_cons]
  have h1 := h0 (List.replicate 511 0 ++ [].flatten)
  rw [← List.cons_append] at h1
  refine (congrArg reC h1).trans ?_
  simp [reC]

/-- C50, refuted for long filters (the case for which it is recommended): with more than 512 coefficients, the first complete block of 512
samples makes the filter access memory before the start of its output buffer (`svg.tail(N_zeros)` with `N_zeros > Ne`). -/
theorem C50_long_refute (h : List ℝ) (h512 : 512 < h.length) (f : RifFft ℂ)
    (hf : RifFft.creation trigoC reC I (enC h) = some f) (x : List ℂ) (hx : x.length = 512) : f.step trigoC reC x = none := by
  have hNz : 512 < trigoC.pp2 (512 + h.length) - 512 := by
    obtain ⟨k, e, k1, _⟩ := loisC.pp2 (512 + h.length) (by omega)
    rw [e]
    have : 11 ≤ k := by
      by_contra hc
      have : 2 ^ k ≤ 2 ^ 10 := Nat.pow_le_pow_right (by omega) (by omega)
      omega
    have : 2 ^ 11 ≤ 2 ^ k := Nat.pow_le_pow_right (by omega) (by omega)
    omega
  have hola : f.ola = Ola.creation (OlaCoeur.configure trigoC 0 h.length) := by
    unfold RifFft.creation at hf
    simp only [Option.bind_eq_bind, Option.bind_eq_some_iff, enC_length] at hf
    obtain ⟨h2, _, H, _, e⟩ := hf
    cases e
    rfl
  have hn : ∀ t, (OlaCoeur.configure trigoC 0 h.length : OlaCoeur ℂ).stepInterne trigoC t x = none := by
    intro t
    unfold OlaCoeur.stepInterne
    split
    · rfl
    · have hq : queue (OlaCoeur.configure trigoC 0 h.length : OlaCoeur ℂ).svg (OlaCoeur.configure trigoC 0 h.length : OlaCoeur ℂ).Nz = none := by
        unfold queue
        rw [if_neg]
        show ¬ trigoC.pp2 (512 + h.length) - 512 ≤ (List.replicate 512 (0 : ℂ)).length
        rw [List.length_replicate]
        omega
      rw [hq]
      simp only [Option.bind_eq_bind, Option.bind_none]
      cases ecritQueue (OlaCoeur.configure trigoC 0 h.length : OlaCoeur ℂ).padded x with
      | none => rfl
      | some p =>
        simp only [Option.bind_some]
        cases Plan.step2 trigoC (OlaCoeur.configure trigoC 0 h.length : OlaCoeur ℂ).plan p with
        | none => rfl
        | some r =>
          simp only [Option.bind_some]
          cases t r.2 with
          | none => rfl
          | some X =>
            simp only [Option.bind_some]
            cases Plan.step trigoC r.1 X false with
            | none => rfl
            | some r2 => rfl
  have hc : (Ola.creation (OlaCoeur.configure trigoC 0 h.length) : Ola ℂ).coeur.Ne = 512 := rfl
  unfold RifFft.step Ola.step
  rw [hola, if_pos ⟨rfl, by rw [hc]; exact hx⟩]
  have hco : (Ola.creation (OlaCoeur.configure trigoC 0 h.length) : Ola ℂ).coeur = OlaCoeur.configure trigoC 0 h.length := rfl
  rw [hco, hn]

example : ∃ f, RifFft.creation trigoC reC I (enC [1, 2, 3]) = some f :=
  let ⟨f, _, h, _⟩ := rif_creation [1, 2, 3] (by simp) (by simp)
  ⟨f, h⟩

end Verif.Fourier
