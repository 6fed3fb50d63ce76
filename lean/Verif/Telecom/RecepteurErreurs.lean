import Verif.Telecom.RecepteurTheo
import Verif.Telecom.DemodDecSymb

/-!
# Receiver: errors, positions, lost frames
-/

namespace Verif.Telecom

open Filtre (boucle)

/-! ### Errors -/

/-- A detection that can be processed: its samples are in the previous and the current block, and the demodulation is defined. -/
def Recevable {D C : Type} (c : ConfigRec D C) (d : Fourier.Detection) : Prop := ∃ p, c.precise d = some p ∧ 0 ≤ ⌊p⌋ + c.Ne + c.M ∧ ⌊p⌋ + c.M ≤ c.Ne ∧ ∀ z, horsLigne c d z ≠ none

theorem detections_total {D C : Type} (c : ConfigRec D C) (hc : ValideRec c) (ofs : ℕ → ℕ) (l : List (List ℂ)) (x : List ℂ) (hx : x.length = c.Ne) (ds : List Fourier.Detection) : ∀ s : EtatRec D C, InvRec c l s → s.cnt = ofs l.length → (∀ d ∈ ds, Recevable c d) →
    ∃ s', EtatRec.detections c x s ds = some s' := by
  induction ds with
  | nil => intro s _ _ _; exact ⟨s, rfl⟩
  | cons d ds ih =>
    intro s hs hn hd
    have hL := flatten_longueur c.Ne l hs.taille
    have hl : s.last.length = c.Ne := by rw [hs.last]; simp [hL]
    obtain ⟨p, r1, r2, r3, r4⟩ := hd d List.mem_cons_self
    rcases detecte_val c hc x s hs.calme hl hx d with ⟨h1, h2⟩ | ⟨p', r, -, -, -, -, h4⟩
    · exact absurd (h2 p r1 r2 r3) (r4 _)
    · obtain ⟨k1, -, k2, -⟩ := detecte_suite c hc ofs l x hx s _ hs hn d h4
      obtain ⟨s', h5⟩ := ih _ k1 (k2.trans hn) fun d' hd' => hd d' (List.mem_cons_of_mem _ hd')
      refine ⟨s', ?_⟩
      unfold EtatRec.detections
      rw [h4, Option.bind_some, h5]

theorem blocs_total {D C : Type} (c : ConfigRec D C) (hc : ValideRec c) (ofs : ℕ → ℕ) (xs : List (List ℂ)) : ∀ (l : List (List ℂ)) (s : EtatRec D C) (d1 : D) (ds : List (List Fourier.Detection)) (E : List (ℕ × Fourier.Detection)), InvRec c l s →
    (∀ j : ℕ, j < xs.length → s.cnt + j * c.Ne = ofs (l.length + j)) → SaineRec c ofs l.flatten E s → (∀ p ∈ E, Recevable c p.2) → (∀ x ∈ xs, x.length = c.Ne) → fluxDet c.det s.det xs = some (d1, ds) → (∀ D ∈ ds, ∀ d ∈ D, Recevable c d) →
    ∃ s', EtatRec.blocs c s xs = some s' := by
  induction xs with
  | nil => intro l s _ _ _ _ _ _ _ _ _ _; exact ⟨s, rfl⟩
  | cons x xs ih =>
    intro l s d1 ds E h1 hn h2 h3 h4 h5 h6
    have hx : x.length = c.Ne := h4 x List.mem_cons_self
    have hn0 : s.cnt = ofs l.length := by simpa using hn 0 (by simp)
    unfold fluxDet at h5
    obtain ⟨r, f1, f2⟩ := Option.bind_eq_some_iff.1 h5
    obtain ⟨q, f3, f4⟩ := Option.map_eq_some_iff.1 f2
    simp only [Prod.mk.injEq] at f4
    obtain ⟨-, rfl⟩ := f4
    obtain ⟨s1, g1⟩ : ∃ s1, EtatRec.reprend c x { s with det := r.1 } = some s1 := by
      obtain ⟨L, P, k1, k2, k3⟩ := h2
      unfold EtatRec.reprend
      rcases k1 with ⟨-, k1⟩ | ⟨b, d, rfl, rr, bits, y, k4, k5, -⟩
      · simp only [k1]
        exact ⟨_, rfl⟩
      · simp only [k4]
        obtain ⟨p, -, -, -, r4⟩ := h3 (b, d) (k2.subset (by simp))
        rcases suit_step c hc d _ _ rr k5 x with ⟨-, m1⟩ | ⟨r', m1, -⟩
        · exact absurd m1 (r4 _)
        · rw [m1]
          exact ⟨_, rfl⟩
    obtain ⟨a1, a2, a0, a3, a4, a5⟩ := reprend_suite c hc ofs l x { s with det := r.1 } s1 E (conclut_inv c l s h1 r.1) h2 g1
    obtain ⟨s2, g2⟩ := detections_total c hc ofs l x hx r.2 s1 a1 (a0.trans hn0) (h6 r.2 List.mem_cons_self)
    have hstep : s.stepNe c x = some { s2 with last := x, cnt := s2.cnt + c.Ne } := by
      unfold EtatRec.stepNe
      rw [if_neg (by simp [hx]), f1, Option.bind_some, g1, Option.bind_some, g2]
      rfl
    obtain ⟨ds', m1, m2, m0, m3, m4, -⟩ := stepNe_suite c hc ofs l x s _ h1 hn0 E h2 hstep
    rw [f1] at m1
    simp only [Option.some.injEq, Prod.ext_iff] at m1
    obtain ⟨m1, m5⟩ := m1
    obtain ⟨s', h7⟩ := ih (l ++ [x]) _ q.1 q.2 _ m2 (fun j hj => by
        rw [m0, List.length_append, List.length_singleton, Nat.add_assoc l.length, Nat.add_comm 1, ← hn (j + 1) (by simpa using hj)]
        ring) (by simpa using m4) (fun p hp => by
        rcases List.mem_append.1 hp with hp | hp
        · exact h3 p hp
        · obtain ⟨d, hd, rfl⟩ := List.mem_map.1 hp
          rw [← m5] at hd
          exact h6 r.2 List.mem_cons_self d hd) (fun x hx => h4 x (List.mem_cons_of_mem _ hx)) (by rw [← m1]; exact f3) (fun D hD => h6 D (List.mem_cons_of_mem _ hD))
    refine ⟨s', ?_⟩
    unfold EtatRec.blocs
    rw [hstep, Option.bind_some, h7]

/-- Without carrier loop nor AGC, and with a memoryless decision defined everywhere, the demodulation in one go is defined. -/
theorem horsLigne_val {D : Type} (c : ConfigRec D Unit) (hc : ValideRec c) (symbs : List (ℝ × ℝ)) (d : ℝ × ℝ → Option ℕ) (dec : ℂ → ℕ) (hd : ∀ z, d (z.re, z.im) = some (dec z) ∧ dec z < symbs.length) (hctx : c.demod.ctx = ctxSansMemoire symbs d)
    (hp : c.demod.porteuse = false) (hg : c.demod.cag = false) (e : Fourier.Detection) (p : ℝ) (h1 : c.precise e = some p) (h2 : List ℝ) (h3 : c.itrp (1 - Int.fract p) = some h2) (g : ℂ) (h4 : correctionRec e = some g) (z : List ℂ) :
    horsLigne c e z = some (symdemap ((Filtre.unSur c.osf ((filtree c.h (filtree h2 (z.map fun v : ℂ => v * g))).drop c.retard)).map dec) c.k, Filtre.unSur c.osf ((filtree c.h (filtree h2 (z.map fun v : ℂ => v * g))).drop c.retard)) := by
  unfold horsLigne
  rw [h1, Option.bind_some, h3, Option.bind_some, h4, Option.bind_some]
  generalize Filtre.unSur c.osf ((filtree c.h (filtree h2 (z.map fun v : ℂ => v * g))).drop c.retard) = y
  unfold DemodDec.step
  by_cases hy : y = []
  · subst hy
    rw [if_pos rfl]
    rfl
  · rw [if_neg hy]
    obtain ⟨s', l, e1, e2⟩ := boucle_sans_boucles symbs d dec hd c.demod hctx (by rw [hc.demod.osf]; norm_num) hc.demod.horloge hp hg _ y le_rfl (demodNeuf c.demod c.nbEntete).etat (by rw [hc.demod.osf]; rfl)
    have hs : symboleSur c.demod.osf y = y := by
      rw [hc.demod.osf]
      unfold symboleSur
      refine List.ext_getElem (by simp) fun n h5 h6 => ?_
      simp [h6]
    rw [hs] at e2
    show ((Avant.step ⟨none, none⟩ y).bind _).map _ = _
    simp only [Avant.step, Avant.stepTranspo, Avant.stepFiltre, Option.bind_some, Option.map_some]
    rw [e1]
    simp only [Option.map_some, e2, hc.kd, List.map_map]
    rfl

/-- **C148 (no error).**  For every valid configuration without carrier loop nor AGC in the demodulator, with a memoryless decision, and whose interpolator is defined for the delays of `[0, 1]`: if the header is at least one sample long and `M + 1 ≤ Ne`, and if the detector
does not fail and reports positions between `-Ne` and `-1` (the mode of the receiver), precise positions at less than one sample of them, non-zero gains, then no call of any size fails. -/
theorem C148_sans_erreur {D : Type} (c : ConfigRec D Unit) (hc : ValideRec c) (symbs : List (ℝ × ℝ)) (dec : ℝ × ℝ → Option ℕ) (hd : ∀ p, ∃ i, dec p = some i ∧ i < symbs.length) (hctx : c.demod.ctx = ctxSansMemoire symbs dec) (hp : c.demod.porteuse = false)
    (hg : c.demod.cag = false) (hi : ∀ τ, 0 ≤ τ → τ ≤ 1 → c.itrp τ ≠ none) (hM1 : 1 ≤ c.M) (hM2 : c.M + 1 ≤ c.Ne) (hdt : 0 ≤ c.dtMod ∧ c.dtMod < 1) (d0 d1 : D) (xs : List (List ℂ)) (dets : List (List Fourier.Detection))
    (hf : fluxDet c.det d0 (Tampon.paquets c.Ne xs.flatten) = some (d1, dets))
    (hv : ∀ D ∈ dets, ∀ d ∈ D, -(c.Ne : ℤ) ≤ d.position ∧ d.position < 0 ∧ (∃ q, d.positionPrec = some q ∧ |q - d.position| < 1) ∧ (∃ g, d.gain = some g ∧ g ≠ 0) ∧ d.theta ≠ none) :
    ∃ s s' l, RecepteurTrames.cree c d0 = some s ∧ s.flux c xs = some (s', l) := by
  obtain ⟨s, hs⟩ := recepteur_existe c hc d0
  refine ⟨s, ?_⟩
  obtain ⟨h1, h2, h3, h4, h5, h6, h7⟩ := recepteur_neuf c hc.Ne d0 s hs
  obtain ⟨i1, i2⟩ := inv_neuf c hc d0 s hs
  choose f hf1 hf2 using hd
  have hrec : ∀ D ∈ dets, ∀ d ∈ D, Recevable c d := by
    intro D hD d hd
    obtain ⟨v1, v2, ⟨q, v3, v4⟩, ⟨g, v5, v6⟩, v7⟩ := hv D hD d hd
    obtain ⟨th, v8⟩ := Option.ne_none_iff_exists'.1 v7
    have e1 : c.precise d = some (q + c.dtMod + c.dtItrp) := by
      unfold ConfigRec.precise
      rw [v3, Option.bind_some, if_pos v4]
    have e2 : 0 ≤ c.dtItrp ∧ c.dtItrp ≤ 1 / 2 := by
      unfold ConfigRec.dtItrp
      have : (c.nc + c.h.length + c.osf) % 2 = 0 ∨ (c.nc + c.h.length + c.osf) % 2 = 1 := by omega
      rcases this with e | e <;> rw [e] <;> norm_num
    obtain ⟨e3, e4⟩ := abs_lt.1 v4
    refine ⟨_, e1, ?_, ?_, fun z => ?_⟩
    · have : d.position - 1 ≤ ⌊q + c.dtMod + c.dtItrp⌋ := by
        refine Int.le_floor.2 ?_
        push_cast
        linarith [hdt.1, e2.1]
      omega
    · have : ⌊q + c.dtMod + c.dtItrp⌋ < d.position + 3 := by
        refine Int.floor_lt.2 ?_
        push_cast
        linarith [hdt.2, e2.2]
      omega
    · obtain ⟨h2, e5⟩ := Option.ne_none_iff_exists'.1 (hi (1 - Int.fract (q + c.dtMod + c.dtItrp)) (by linarith [Int.fract_lt_one (q + c.dtMod + c.dtItrp)]) (by linarith [Int.fract_nonneg (q + c.dtMod + c.dtItrp)]))
      have e6 : correctionRec d = some (((1 / g : ℝ) : ℂ) * Complex.exp ((-th : ℝ) * Complex.I)) := by
        unfold correctionRec
        rw [v5, v8, Option.bind_some, Option.bind_some, if_neg v6]
      rw [horsLigne_val c hc symbs dec (fun z => f (z.re, z.im)) (fun z => ⟨hf1 _, hf2 _⟩) hctx hp hg d _ e1 h2 e5 _ e6 z]
      simp
  obtain ⟨e, he⟩ := blocs_total c hc (fun j => j * c.Ne) (Tampon.paquets c.Ne xs.flatten) [] s.etat d1 dets [] i1 (fun j _ => by rw [h6]; simp) (i2 _) (fun p hp => (by cases hp)) (paquets_taille _ _) (by rw [h4]; exact hf) hrec
  rcases recepteur_blocs c hc.Ne d0 s hs xs with ⟨-, k⟩ | ⟨s1, l1, _, k, -⟩
  · rw [he] at k; cases k
  · exact ⟨s1, l1, hs, k⟩

/-- **C148 (errors).**  A detection whose precise position is not a number (equal scores on both sides of the peak, see C113), is at one sample or more of the position, or whose gain is zero or not a number, or whose data begin after the end of the block, makes the call fail: the block is lost for the caller. -/
theorem C148_erreur_refute {D C : Type} (c : ConfigRec D C) (x : List ℂ) (s : EtatRec D C) (d : Fourier.Detection)
    (h : d.positionPrec = none ∨ (∃ q, d.positionPrec = some q ∧ 1 ≤ |q - d.position|) ∨ d.gain = none ∨ d.gain = some 0 ∨ d.theta = none ∨ ∃ p, c.precise d = some p ∧ (c.Ne : ℤ) < ⌊p⌋ + c.M) : s.detecte c x d = none := by
  unfold EtatRec.detecte
  cases DemodDec.reset c.demod c.nbEntete s.demod with
  | none => rfl
  | some m =>
    rw [Option.bind_some]
    cases hp : c.precise d with
    | none => rfl
    | some p =>
      rw [Option.bind_some]
      cases c.front (p - ⌊p⌋) with
      | none => rfl
      | some f =>
        rw [Option.bind_some]
        have hstep : ∀ y cnt, correctionRec d = none → Reception.step c ⟨f, m, ⟨c.reporte cnt d, [], [], []⟩⟩ y = none := by
          intro y cnt hg
          unfold Reception.step
          split
          · rfl
          · rw [show correctionRec (c.reporte cnt d) = correctionRec d from rfl, hg]
            rfl
        have key : correctionRec d = none ∨ (c.Ne : ℤ) < ⌊p⌋ + c.M := by
          unfold ConfigRec.precise at hp
          rcases h with h | ⟨q, h1, h2⟩ | h | h | h | ⟨p', h1, h2⟩
          · rw [h] at hp; cases hp
          · rw [h1, Option.bind_some, if_neg (by linarith)] at hp; cases hp
          · left; unfold correctionRec; rw [h]; rfl
          · left
            unfold correctionRec
            rw [h]
            cases d.theta <;> simp
          · left
            unfold correctionRec
            rw [h]
            cases d.gain <;> rfl
          · right
            unfold ConfigRec.precise at h1
            rw [hp] at h1
            obtain rfl := Option.some.inj h1
            exact h2
        rcases key with key | key
        · cases extraitRec c.Ne (⌊p⌋ + c.Ne + c.M) c.nspl s.last x with
          | none => rfl
          | some y => rw [Option.bind_some, hstep y _ key]; rfl
        · have : extraitRec c.Ne (⌊p⌋ + c.Ne + c.M) c.nspl s.last x = none := by
            unfold extraitRec
            rw [if_pos (by omega)]
            dsimp only
            rw [if_pos (by omega)]
          rw [this]
          rfl

end Verif.Telecom
