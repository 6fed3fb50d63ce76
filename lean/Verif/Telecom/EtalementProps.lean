import Verif.Telecom.CanalProps

/-!
# C123–C126: spread spectrum, dispersive channel, channel formulas
-/

namespace Verif.Telecom

open Complex

/-! ### C123: frequency hopping -/

/-- All the oscillators of a list have accumulator and rotation of modulus 1. -/
def Unitaires (l : List Signaux.OHC) : Prop := ∀ o ∈ l, ‖o.acc‖ = 1 ∧ ‖o.rotation‖ = 1

theorem ohc_boucle_unit (rot : ℂ) (hr : ‖rot‖ = 1) (n : ℕ) (a : ℂ) (ha : ‖a‖ = 1) : ‖(Signaux.OHC.boucle rot n a).1‖ = 1 ∧ (Signaux.OHC.boucle rot n a).2.length = n ∧ ∀ z ∈ (Signaux.OHC.boucle rot n a).2, ‖z‖ = 1 := by
  induction n generalizing a with
  | zero => exact ⟨ha, rfl, by simp [Signaux.OHC.boucle]⟩
  | succ n ih =>
    obtain ⟨h1, h2, h3⟩ := ih (a * rot) (by rw [norm_mul, ha, hr, one_mul])
    simp only [Signaux.OHC.boucle]
    exact ⟨h1, by simp [h2], fun z hz => by rcases List.mem_cons.1 hz with rfl | hz <;> [exact ha; exact h3 z hz]⟩

theorem ohc_step_unit (o : Signaux.OHC) (h : ‖o.acc‖ = 1 ∧ ‖o.rotation‖ = 1) (n : ℕ) : (‖(o.step n).1.acc‖ = 1 ∧ ‖(o.step n).1.rotation‖ = 1) ∧ (o.step n).2.length = n ∧ ∀ z ∈ (o.step n).2, ‖z‖ = 1 := by
  have := ohc_boucle_unit o.rotation h.2 n (o.acc / (‖o.acc‖ : ℂ)) (by rw [h.1]; simp [h.1])
  exact ⟨⟨this.1, h.2⟩, this.2⟩

theorem zip_module (x y : List ℂ) (hl : x.length = y.length) (hy : ∀ z ∈ y, ‖z‖ = 1) : (List.zipWith (· * ·) x y).map (fun z : ℂ => ‖z‖) = x.map fun z : ℂ => ‖z‖ := by
  induction x generalizing y with
  | nil => simp
  | cons a x ih =>
    cases y with
    | nil => simp at hl
    | cons b y => rw [List.zipWith_cons_cons, List.map_cons, List.map_cons, ih y (by simpa using hl) fun z hz => hy z (List.mem_cons_of_mem _ hz), norm_mul, hy b List.mem_cons_self, mul_one]

theorem fhss_boucle_module (d : ℕ) (f i : ℕ) (ol ol' : List Signaux.OHC) (y y' : List ℂ) (ho : Unitaires ol) (h : fhssBoucle d f i ol y = some (ol', y')) :
    Unitaires ol' ∧ y'.map (fun z : ℂ => ‖z‖) = y.map fun z : ℂ => ‖z‖ := by
  induction f generalizing i ol ol' y y' with
  | zero =>
    simp only [fhssBoucle, Option.some.injEq, Prod.mk.injEq] at h
    rw [← h.1, ← h.2]; exact ⟨ho, rfl⟩
  | succ f ih =>
    simp only [fhssBoucle] at h
    split at h
    · cases h
    split at h
    · simp only [Option.some.injEq, Prod.mk.injEq] at h
      rw [← h.1, ← h.2]; exact ⟨ho, rfl⟩
    · rename_i h0 h1
      rw [Option.bind_eq_some_iff] at h
      obtain ⟨o, e, h⟩ := h
      rw [Option.map_eq_some_iff] at h
      obtain ⟨q, hq, h⟩ := h
      have hoo : ‖o.acc‖ = 1 ∧ ‖o.rotation‖ = 1 := ho o (List.mem_of_getElem? e)
      obtain ⟨u1, u2, u3⟩ := ohc_step_unit o hoo d
      obtain ⟨g1, g2⟩ := ih (i + d) _ q.1 (y.drop d) q.2 (by
        intro o' ho'
        rcases List.mem_or_eq_of_mem_set ho' with h | h
        · exact ho o' h
        · rw [h]; exact u1) hq
      simp only [Prod.mk.injEq] at h
      rw [← h.1, ← h.2]
      refine ⟨g1, ?_⟩
      rw [List.map_append, g2, zip_module _ _ (by rw [u2, List.length_take]; omega) u3, ← List.map_append, List.take_append_drop]

/-- **C123 (modulus).**  Every successful call of the frequency-hopping modulator keeps the modulus of every sample of its resampler (only phases are changed), whatever the sequence, the slot duration and the history. -/
theorem C123_module {F : Type} (c : FhssConfig) (ra : Filtre.Bloc F ℂ ℂ) (r0 : F) (blocs : List (List ℂ)) (s : Fhss F) (y : List ℂ) (h : Filtre.enchaine (Fhss.step c ra) (Fhss.cree c r0) blocs = some (s, y)) :
    ∃ r' z, Filtre.enchaine ra r0 blocs = some (r', z) ∧ y.map (fun z : ℂ => ‖z‖) = z.map fun z : ℂ => ‖z‖ := by
  have h0 : Unitaires (Fhss.cree c r0).ol := by
    intro o ho
    simp only [Fhss.cree, List.mem_map] at ho
    obtain ⟨i, -, rfl⟩ := ho
    refine ⟨by simp [Signaux.OHC.init, Signaux.OHC.configure], ?_⟩
    have e : I * (2 * Real.pi * (((i : ℝ) / c.seq.length : ℝ) : ℂ)) = ((2 * Real.pi * ((i : ℝ) / c.seq.length) : ℝ) : ℂ) * I := by push_cast; ring
    show ‖exp (I * (2 * Real.pi * (((i : ℝ) / c.seq.length : ℝ) : ℂ)))‖ = 1
    rw [e, Complex.norm_exp_ofReal_mul_I]
  have main : ∀ (blocs : List (List ℂ)) (s0 : Fhss F) (y : List ℂ), Unitaires s0.ol → Filtre.enchaine (Fhss.step c ra) s0 blocs = some (s, y) →
      ∃ r' z, Filtre.enchaine ra s0.ra blocs = some (r', z) ∧ y.map (fun z : ℂ => ‖z‖) = z.map fun z : ℂ => ‖z‖ := by
    intro blocs
    induction blocs with
    | nil =>
      intro s0 y _ h
      simp only [Filtre.enchaine, Option.some.injEq, Prod.mk.injEq] at h
      exact ⟨s0.ra, [], rfl, by rw [← h.2]⟩
    | cons b l ih =>
      intro s0 y hu h
      obtain ⟨s1, y1, y2, e1, e2, rfl⟩ := enchaine_cons_some h
      unfold Fhss.step at e1
      rw [Option.bind_eq_some_iff] at e1
      obtain ⟨q, hq, e1⟩ := e1
      rw [Option.map_eq_some_iff] at e1
      obtain ⟨w, hw, e1⟩ := e1
      obtain ⟨u1, u2⟩ := fhss_boucle_module _ _ _ _ w.1 _ w.2 hu hw
      simp only [Prod.mk.injEq] at e1
      obtain ⟨r', z, k1, k2⟩ := ih s1 y2 (by rw [← e1.1]; exact u1) e2
      refine ⟨r', q.2 ++ z, ?_, ?_⟩
      · rw [← e1.1] at k1
        simp only [Filtre.enchaine, hq, k1]
      · rw [List.map_append, List.map_append, k2, ← e1.2, u2]
  exact main blocs (Fhss.cree c r0) y h0 h

/-- **C123 (refuted: the hops follow the sequence).**  The content of the sequence and the frequency step are ignored: two sequences of the same length give the same output, for every input and every history. -/
theorem C123_sequence_refute {F : Type} (ra : Filtre.Bloc F ℂ ℂ) (r0 : F) (seq seq' : List ℤ) (hl : seq.length = seq'.length) (df df' : ℝ) (d : ℕ) (blocs : List (List ℂ)) :
    Filtre.enchaine (Fhss.step ⟨seq, df, d⟩ ra) (Fhss.cree ⟨seq, df, d⟩ r0) blocs = Filtre.enchaine (Fhss.step ⟨seq', df', d⟩ ra) (Fhss.cree ⟨seq', df', d⟩ r0) blocs := by
  have h1 : (Fhss.cree ⟨seq, df, d⟩ r0 : Fhss F) = Fhss.cree ⟨seq', df', d⟩ r0 := by unfold Fhss.cree; simp only [hl]
  rw [h1]
  rfl

/-- **C123 (refuted: blocks of several slots).**  When the slot is at least as long as the sequence, every block of two slots or more fails (access out of the table of oscillators), and the default slot duration (0) makes every
call fail (endless loop), whatever the object. -/
theorem C123_slots_refute {F : Type} (c : FhssConfig) (ra : Filtre.Bloc F ℂ ℂ) (s : Fhss F) (x : List ℂ) (r' : F) (z : List ℂ) (hr : ra s.ra x = some (r', z)) :
    (0 < c.duree → s.ol.length ≤ c.duree → 2 * c.duree ≤ z.length → Fhss.step c ra s x = none) ∧ (c.duree = 0 → Fhss.step c ra s x = none) := by
  unfold Fhss.step
  rw [hr, Option.bind_some]
  constructor
  · intro h0 h1 h2
    obtain ⟨f, hf⟩ : ∃ f, z.length + 1 = f + 2 := ⟨z.length - 1, by omega⟩
    simp only
    rw [hf]
    simp only [fhssBoucle]
    rw [if_neg (by omega), if_neg (by omega)]
    cases e : s.ol[0]? with
    | none => rfl
    | some o =>
      rw [Option.bind_some, if_neg (by omega : ¬ c.duree = 0), if_neg (by rw [List.length_drop]; omega)]
      have : (s.ol.set 0 (o.step c.duree).1)[0 + c.duree]? = none := by
        rw [List.getElem?_eq_none]; rw [List.length_set]; omega
      rw [this]
      rfl
  · intro h0
    simp only [fhssBoucle]
    rw [if_pos h0]
    rfl

/-- **C123 (refuted: the first slot is shifted).**  Whatever the sequence (not empty), the first slot of the first block leaves the resampler's output unchanged (null frequency). -/
theorem C123_premier_refute {F : Type} (c : FhssConfig) (h0 : 0 < c.duree) (hs : 0 < c.seq.length) (ra : Filtre.Bloc F ℂ ℂ) (r0 : F) (x : List ℂ) (r' : F) (z : List ℂ) (hr : ra r0 x = some (r', z)) (hz : z.length = c.duree) :
    ∃ s, Fhss.step c ra (Fhss.cree c r0) x = some (s, z) := by
  unfold Fhss.step
  rw [show (Fhss.cree c r0).ra = r0 from rfl, hr, Option.bind_some]
  obtain ⟨f, hf⟩ : ∃ f, z.length + 1 = f + 2 := ⟨z.length - 1, by omega⟩
  simp only
  rw [hf]
  have e : (Fhss.cree c r0).ol[0]? = some (ohcApres 0 0) := by
    simp only [Fhss.cree]
    rw [List.getElem?_map, List.getElem?_range hs, Option.map_some, ← ohc_apres_initial]
    simp
  have hp : porteuse 0 0 c.duree = List.replicate c.duree 1 := by
    unfold porteuse
    refine List.ext_getElem (by simp) fun i h1 h2 => ?_
    simp
  simp only [fhssBoucle]
  rw [if_neg (by omega), if_neg (by omega), e, Option.bind_some, if_neg (by omega : ¬ c.duree = 0), if_pos (by rw [List.length_drop]; omega)]
  simp only [Option.map_some, ohc_apres_step, hp]
  refine ⟨⟨r', (Fhss.cree c r0).ol.set 0 (ohcApres 0 (0 + c.duree))⟩, ?_⟩
  congr 2
  have h1 : z.take c.duree = z := List.take_of_length_le (by omega)
  have h2 : z.drop c.duree = [] := List.drop_eq_nil_of_le (by omega)
  rw [h1, h2, List.append_nil]
  refine List.ext_getElem (by simp [hz]) fun i h1 h2 => ?_
  simp

/-! ### C124: direct sequence -/

theorem dsss_boucle (chips : List ℝ) (hc : 0 < chips.length) (i : ℕ) (x : List ℂ) : dsssBoucle chips i x = some (i + x.length, (List.range x.length).map fun j : ℕ => x.getD j 0 * ((chips.getD ((i + j) % chips.length) 0 : ℝ) : ℂ)) := by
  induction x generalizing i with
  | nil => rfl
  | cons z l ih =>
    have h : chips[i % chips.length]? = some (chips.getD (i % chips.length) 0) := by
      rw [List.getElem?_eq_getElem (Nat.mod_lt _ hc), List.getD_eq_getElem _ _ (Nat.mod_lt _ hc)]
    simp only [dsssBoucle, h, Option.bind_some, ih, Option.map_some, List.length_cons, List.range_succ_eq_map, List.map_cons, List.map_map]
    congr 2
    · omega
    · refine congrArg₂ _ (by simp) ?_
      refine List.map_congr_left fun j _ => ?_
      simp only [Function.comp, List.getD_cons_succ]
      congr 4
      omega

theorem dsss_suite {F : Type} (chips : List ℝ) (hc : 0 < chips.length) (osf : ℕ) (ra : Filtre.Bloc F ℂ ℂ) (blocs : List (List ℂ)) (hb : ∀ b ∈ blocs, b.length % osf = 0) (r0 r' : F) (i : ℕ) (z : List ℂ) (h : Filtre.enchaine ra r0 blocs = some (r', z)) :
    Filtre.enchaine (Dsss.step chips osf ra) ⟨r0, i⟩ blocs = some (⟨r', i + z.length⟩, (List.range z.length).map fun j : ℕ => z.getD j 0 * ((chips.getD ((i + j) % chips.length) 0 : ℝ) : ℂ)) := by
  induction blocs generalizing r0 i z with
  | nil =>
    simp only [Filtre.enchaine, Option.some.injEq, Prod.mk.injEq] at h
    rw [← h.1, ← h.2]; rfl
  | cons b l ih =>
    obtain ⟨r1, z1, z2, e1, e2, rfl⟩ := enchaine_cons_some h
    have := ih (fun b hb' => hb b (List.mem_cons_of_mem _ hb')) r1 (i + z1.length) z2 e2
    have hst : Dsss.step chips osf ra ⟨r0, i⟩ b = some (⟨r1, i + z1.length⟩, (List.range z1.length).map fun j : ℕ => z1.getD j 0 * ((chips.getD ((i + j) % chips.length) 0 : ℝ) : ℂ)) := by
      unfold Dsss.step
      rw [if_neg (by have := hb b List.mem_cons_self; omega)]
      simp only [e1, Option.bind_some, dsss_boucle chips hc, Option.map_some]
    simp only [Filtre.enchaine, hst, this]
    rw [List.length_append, Nat.add_assoc, List.range_add, List.map_append, List.map_map]
    congr 3
    · refine List.map_congr_left fun j hj => ?_
      rw [List.mem_range] at hj
      rw [List.getD_append _ _ _ _ hj]
    · refine List.map_congr_left fun j hj => ?_
      simp only [Function.comp]
      rw [List.getD_append_right _ _ _ _ (by omega)]
      rw [show z1.length + j - z1.length = j by omega, show i + z1.length + j = i + (z1.length + j) by omega]

/-- **C124 (spreading).**  Sample `j` of the whole output is sample `j` of the resampler times chip `j mod n`, however the input is cut into blocks of whole symbols: the sequence goes on from one block to the next. -/
theorem C124_etalement {F : Type} (chips : List ℝ) (osf : ℕ) (h0 : 0 < osf) (hc : 0 < chips.length) (hm : chips.length % osf = 0) (ra : Filtre.Bloc F ℂ ℂ) (r0 r' : F) (blocs : List (List ℂ)) (hb : ∀ b ∈ blocs, b.length % osf = 0) (z : List ℂ)
    (h : Filtre.enchaine ra r0 blocs = some (r', z)) :
    ∃ s0 s, Dsss.cree chips osf r0 = some s0 ∧ Filtre.enchaine (Dsss.step chips osf ra) s0 blocs = some (s, (List.range z.length).map fun j : ℕ => z.getD j 0 * ((chips.getD (j % chips.length) 0 : ℝ) : ℂ)) := by
  refine ⟨⟨r0, 0⟩, ⟨r', 0 + z.length⟩, by rw [Dsss.cree, if_neg (by omega)], ?_⟩
  rw [dsss_suite chips hc osf ra blocs hb r0 r' 0 z h]
  simp

/-- **C124 (despreading).**  With chips equal to 1 or -1, multiplying the output by the periodic sequence gives back the output of the resampler. -/
theorem C124_desetalement {F : Type} (chips : List ℝ) (osf : ℕ) (h0 : 0 < osf) (hc : 0 < chips.length) (hm : chips.length % osf = 0) (hpm : ∀ v ∈ chips, v = 1 ∨ v = -1) (ra : Filtre.Bloc F ℂ ℂ) (r0 r' : F) (blocs : List (List ℂ))
    (hb : ∀ b ∈ blocs, b.length % osf = 0) (z : List ℂ) (h : Filtre.enchaine ra r0 blocs = some (r', z)) :
    ∃ s0 s y, Dsss.cree chips osf r0 = some s0 ∧ Filtre.enchaine (Dsss.step chips osf ra) s0 blocs = some (s, y) ∧ ((List.range y.length).map fun j : ℕ => y.getD j 0 * ((chips.getD (j % chips.length) 0 : ℝ) : ℂ)) = z := by
  obtain ⟨s0, s, h1, h2⟩ := C124_etalement chips osf h0 hc hm ra r0 r' blocs hb z h
  refine ⟨s0, s, _, h1, h2, ?_⟩
  refine List.ext_getElem (by simp) fun j j1 j2 => ?_
  simp only [List.getElem_map, List.getElem_range]
  rw [List.getD_eq_getElem _ _ (by simpa using j2), List.getElem_map, List.getElem_range, mul_assoc, ← Complex.ofReal_mul, List.getD_eq_getElem _ _ j2]
  have hv : chips.getD (j % chips.length) 0 = 1 ∨ chips.getD (j % chips.length) 0 = -1 := by
    rw [List.getD_eq_getElem _ _ (Nat.mod_lt _ hc)]
    exact hpm _ (List.getElem_mem _)
  rcases hv with hv | hv <;> rw [hv] <;> simp

/-- **C124 (refusals).**  The creation fails exactly when the number of chips is not a multiple of the oversampling (or that one is 0), and a block that is not made of whole symbols fails. -/
theorem C124_refus {F : Type} (chips : List ℝ) (osf : ℕ) (r0 : F) (ra : Filtre.Bloc F ℂ ℂ) : (Dsss.cree chips osf r0 = none ↔ (osf = 0 ∨ ¬ osf ∣ chips.length)) ∧ ∀ (s : Dsss F) (x : List ℂ), ¬ osf ∣ x.length → Dsss.step chips osf ra s x = none := by
  constructor
  · unfold Dsss.cree
    rw [Nat.dvd_iff_mod_eq_zero]
    split <;> simp_all
  · intro s x hx
    unfold Dsss.step
    rw [if_pos (by rwa [Nat.dvd_iff_mod_eq_zero] at hx)]

/-- Non-vacuity: identity resampler, 2 chips, one sample per symbol. -/
example : ∃ s0 s y, Dsss.cree [1, -1] 1 () = some s0 ∧ Filtre.enchaine (Dsss.step [1, -1] 1 fun s x => some (s, x)) s0 [[1], [2, 3]] = some (s, y) ∧ ((List.range y.length).map fun j : ℕ => y.getD j 0 * ((([1, -1] : List ℝ).getD (j % 2) 0 : ℝ) : ℂ)) = [1, 2, 3] :=
  C124_desetalement [1, -1] 1 one_pos (by simp) (by simp) (by simp) (fun s x => some (s, x)) () () [[1], [2, 3]] (by simp [Nat.mod_one]) [1, 2, 3] (by simp [Filtre.enchaine])

/-! ### C125: dispersive channel -/

/-- Successive calls: blocks with the gains generated by each call. -/
noncomputable def canalSuite : List ℂ → List (List ℂ × List ℂ) → Option (List ℂ × List ℂ)
  | r, [] => some (r, [])
  | r, b :: l => (canalStep r b.1 b.2).bind fun q : List ℂ × List ℂ => (canalSuite q.1 l).map fun w : List ℂ × List ℂ => (w.1, q.2 ++ w.2)

theorem drop_debut (T U : List ℂ) (k n : ℕ) (h : T.length = k) : (T ++ U).drop (k + n) = U.drop n := by
  rw [← List.drop_drop, ← h, List.drop_left]

/-- **C125 (gains).**  When all the calls succeed, the output is the product of the stream with the sequence of all the generated gains, each one used once and in order: sample `t` is multiplied by gain `t`, whatever the cut into
blocks, and the unused gains are kept for the next call. -/
theorem C125_gains (r : List ℂ) (l : List (List ℂ × List ℂ)) (r' y : List ℂ) (h : canalSuite r l = some (r', y)) :
    y = List.zipWith (· * ·) (l.flatMap Prod.fst) (r ++ l.flatMap Prod.snd) ∧ r' = (r ++ l.flatMap Prod.snd).drop (l.flatMap Prod.fst).length ∧ (l.flatMap Prod.fst).length ≤ (r ++ l.flatMap Prod.snd).length := by
  induction l generalizing r y with
  | nil =>
    simp only [canalSuite, Option.some.injEq, Prod.mk.injEq] at h
    rw [← h.1, ← h.2]; simp
  | cons b l ih =>
    obtain ⟨x, g⟩ := b
    simp only [canalSuite, Option.bind_eq_some_iff, Option.map_eq_some_iff] at h
    obtain ⟨q, hq, w, hw, h⟩ := h
    simp only [Prod.mk.injEq] at h
    unfold canalStep at hq
    split at hq
    · cases hq
    split at hq
    · cases hq
    rename_i h1 h2
    simp only [Option.some.injEq] at hq
    obtain ⟨k1, k2, k3⟩ := ih q.1 w.2 (by rw [hw, ← h.1])
    have hq1 : q.1 = g.drop (x.length - r.length) := by rw [← hq]
    have hq2 : q.2 = List.zipWith (· * ·) x ((r ++ g).take x.length) := by
      have hx := List.zipWith_append (f := fun u v : ℂ => u * v) (l₁ := x.take r.length) (l₂ := r) (l₁' := x.drop r.length) (l₂' := g.take (x.length - r.length)) (by rw [List.length_take]; omega)
      rw [List.take_append_drop] at hx
      rw [← hq, List.take_append, List.take_of_length_le (by omega : r.length ≤ x.length), hx]
    have hsplit : r ++ (g ++ l.flatMap Prod.snd) = (r ++ g).take x.length ++ (q.1 ++ l.flatMap Prod.snd) := by
      rw [hq1, List.take_append, List.take_of_length_le (by omega : r.length ≤ x.length)]
      simp only [List.append_assoc]
      rw [← List.append_assoc (List.take _ g), List.take_append_drop]
    simp only [List.flatMap_cons]
    have hlen : ((r ++ g).take x.length).length = x.length := by rw [List.length_take, List.length_append]; omega
    rw [hsplit]
    refine ⟨?_, ?_, ?_⟩
    · rw [← h.2, hq2, k1, List.zipWith_append (by rw [hlen])]
    · rw [k2, List.length_append, drop_debut _ _ _ _ hlen]
    · rw [List.length_append, List.length_append, hlen]; omega

/-- **C125 (refuted: blocks of any size).**  A call with fewer samples than the unused gains of the previous calls fails, whatever the gains it generates; a call that generates more gains than needed leaves such a rest. -/
theorem C125_court_refute : (∀ (r x g : List ℂ), x.length < r.length → canalStep r x g = none) ∧ ∃ r y, canalStep [] [1] [1, 1, 1] = some (r, y) ∧ ∀ g, canalStep r [1] g = none := by
  refine ⟨fun r x g h => by rw [canalStep, if_pos h], [1, 1], [1], by simp [canalStep], fun g => by rw [canalStep, if_pos (by simp)]⟩

/-- **C125 (Rayleigh).**  Without dominant path the noise is the one drawn. -/
theorem C125_rayleigh (racine : ℂ → ℂ) (K : ℝ) (b : List ℂ) : genBruit racine false K b = b := rfl

/-- **C125 (Rice, what is normalised).**  With a dominant path the mean of the complex squares is 1, as soon as that of the draws plus `√K` is not null. -/
theorem C125_rice (racine : ℂ → ℂ) (hr : ∀ z, racine z ^ 2 = z) (K : ℝ) (b : List ℂ) (h0 : ((b.map fun z : ℂ => (z + Real.sqrt K) ^ 2).sum / b.length : ℂ) ≠ 0) :
    ((genBruit racine true K b).map fun z : ℂ => z ^ 2).sum / ((genBruit racine true K b).length : ℂ) = 1 := by
  unfold genBruit
  simp only [if_true, List.length_map, List.map_map]
  have e : ((fun z : ℂ => z ^ 2) ∘ fun z : ℂ => z + Real.sqrt K) = fun z : ℂ => (z + Real.sqrt K) ^ 2 := rfl
  rw [e]
  set S := (b.map fun z : ℂ => (z + Real.sqrt K) ^ 2).sum / (b.length : ℂ) with hS
  have e2 : ((fun z : ℂ => z ^ 2) ∘ (fun z : ℂ => z / racine S) ∘ fun z : ℂ => z + Real.sqrt K) = fun z : ℂ => (z + Real.sqrt K) ^ 2 * S⁻¹ := by
    funext z
    simp only [Function.comp]
    rw [div_pow, hr, div_eq_mul_inv]
  rw [e2, List.sum_map_mul_right, mul_div_right_comm, ← hS, mul_inv_cancel₀ h0]

/-- **C125 (refuted: unit power).**  The power of the gains of a Rice channel is not normalised to 1: the draws 2 and `i` (with `K = 0`) give a power of 5/3, and the draws 1 and `i` are divided by 0. -/
theorem C125_puissance_refute (racine : ℂ → ℂ) (hr : ∀ z, racine z ^ 2 = z) :
    ((genBruit racine true 0 [2, I]).map fun z : ℂ => ‖z‖ ^ 2).sum / 2 = 5 / 3 ∧ racine ((([1, I] : List ℂ).map fun z : ℂ => (z + Real.sqrt 0) ^ 2).sum / 2) = 0 := by
  constructor
  · unfold genBruit
    simp only [if_true, List.map_cons, List.map_nil, List.sum_cons, List.sum_nil, List.length_cons, List.length_nil, Real.sqrt_zero, Complex.ofReal_zero, add_zero, norm_div, div_pow]
    have hn : ‖racine ((2 ^ 2 + I ^ 2) / ((0 + 1 + 1 : ℕ) : ℂ))‖ ^ 2 = 3 / 2 := by
      rw [← norm_pow, hr, Complex.I_sq]
      have : ((2 : ℂ) ^ 2 + -1) / ((0 + 1 + 1 : ℕ) : ℂ) = ((3 / 2 : ℝ) : ℂ) := by push_cast; norm_num
      rw [this, Complex.norm_real]
      norm_num
    rw [hn]
    simp only [Complex.norm_I, Complex.norm_ofNat]
    norm_num
  · have h := hr ((([1, I] : List ℂ).map fun z : ℂ => (z + Real.sqrt 0) ^ 2).sum / 2)
    have h2 : ((([1, I] : List ℂ).map fun z : ℂ => (z + Real.sqrt 0) ^ 2).sum / 2) = 0 := by simp
    rw [h2] at h ⊢
    exact pow_eq_zero_iff (two_ne_zero) |>.1 h

/-- Non-vacuity of C125_rice: a complex square root exists and one draw of 1 has a mean square of 1. -/
example : (∀ z : ℂ, (z ^ (1 / 2 : ℂ)) ^ 2 = z) ∧ ((([1] : List ℂ).map fun z : ℂ => (z + Real.sqrt 0) ^ 2).sum / (([1] : List ℂ).length : ℂ)) ≠ 0 := by
  refine ⟨fun z => ?_, by simp⟩
  rw [one_div]
  exact Complex.cpow_nat_inv_pow z two_ne_zero

/-! ### C126: formulas -/

/-- **C126 (capacity).**  The capacity is 0 without signal, increases strictly with the signal to noise ratio, is proportional to the bandwidth, and one more bit per second and per hertz needs `1 + snr` to double. -/
theorem C126_capacite (B : ℝ) (hB : 0 < B) : capaciteCanal 0 B = 0 ∧ (∀ s s', 0 ≤ s → s < s' → capaciteCanal s B < capaciteCanal s' B) ∧ (∀ s k, capaciteCanal s (k * B) = k * capaciteCanal s B) ∧
    ∀ s, 0 ≤ s → capaciteCanal (2 * (1 + s) - 1) B = capaciteCanal s B + B := by
  refine ⟨by simp [capaciteCanal], fun s s' h0 h => ?_, fun s k => by unfold capaciteCanal; ring, fun s hs => ?_⟩
  · unfold capaciteCanal
    exact mul_lt_mul_of_pos_left (Real.logb_lt_logb (by norm_num) (by linarith) (by linarith)) hB
  · unfold capaciteCanal
    have : 1 + (2 * (1 + s) - 1) = 2 * (1 + s) := by ring
    rw [this, Real.logb_mul (by norm_num) (by linarith), Real.logb_self_eq_one (by norm_num)]
    ring

/-- **C126 (thermal noise).**  The power is null at -273.15 °C, proportional to the bandwidth, and increases with the temperature in proportion to the absolute temperature. -/
theorem C126_thermique (bp : ℝ) (T : ℝ) : bruitThermique bp (-273.15) = 0 ∧ (∀ k, bruitThermique (k * bp) T = k * bruitThermique bp T) ∧ ∀ k, bruitThermique bp (k * (T + 273.15) - 273.15) = k * bruitThermique bp T := by
  refine ⟨by norm_num [bruitThermique], fun k => by unfold bruitThermique; ring, fun k => by unfold bruitThermique; ring⟩

/-- **C126 (Doppler distribution).**  For `fd > 0`: the density is non-negative, symmetric around `fc`, null outside `]fc - fd, fc + fd[`, and its integral between two frequencies of that interval is the one of the arcsine law; it
tends to 1 over the whole interval. -/
theorem C126_doppler (fd fc : ℝ) (hfd : 0 < fd) : (∀ f, 0 ≤ dopplerDistri fd fc f) ∧ (∀ u, dopplerDistri fd fc (fc + u) = dopplerDistri fd fc (fc - u)) ∧ (∀ f, fd ≤ |f - fc| → dopplerDistri fd fc f = 0) ∧
    ∀ a b, -1 < a → a ≤ b → b < 1 → ∫ f in (fc + a * fd)..(fc + b * fd), dopplerDistri fd fc f = (Real.arcsin b - Real.arcsin a) / Real.pi := by
  refine ⟨fun f => ?_, fun u => ?_, fun f h => by rw [dopplerDistri, if_pos h], fun a b ha hab hb => ?_⟩
  · unfold dopplerDistri
    split
    · exact le_rfl
    · have := Real.pi_pos
      positivity
  · unfold dopplerDistri
    have e1 : fc + u - fc = u := by ring
    have e2 : fc - u - fc = -u := by ring
    rw [e1, e2, abs_neg, neg_div, neg_sq]
  · have hle : fc + a * fd ≤ fc + b * fd := by nlinarith
    have hin : ∀ f ∈ Set.uIcc (fc + a * fd) (fc + b * fd), |(f - fc) / fd| < 1 := by
      intro f hf
      rw [Set.uIcc_of_le hle] at hf
      have h1 : a ≤ (f - fc) / fd := by rw [le_div_iff₀ hfd]; linarith [hf.1]
      have h2 : (f - fc) / fd ≤ b := by rw [div_le_iff₀ hfd]; linarith [hf.2]
      rw [abs_lt]; constructor <;> linarith
    have hval : ∀ f ∈ Set.uIcc (fc + a * fd) (fc + b * fd), dopplerDistri fd fc f = 1 / Real.sqrt (1 - ((f - fc) / fd) ^ 2) * (1 / fd) / Real.pi := by
      intro f hf
      have h := hin f hf
      rw [abs_div, abs_of_pos hfd, div_lt_one hfd] at h
      rw [dopplerDistri, if_neg (not_le.2 h)]
      have := Real.pi_pos
      rw [one_div_mul_one_div, div_div, one_div]
      rw [one_div]
      congr 1
      ring
    have hd : ∀ f ∈ Set.uIcc (fc + a * fd) (fc + b * fd), HasDerivAt (fun f => Real.arcsin ((f - fc) / fd) / Real.pi) (dopplerDistri fd fc f) f := by
      intro f hf
      rw [hval f hf]
      have h := abs_lt.1 (hin f hf)
      have h1 := (Real.hasDerivAt_arcsin (ne_of_gt h.1) (ne_of_lt h.2))
      have h2 : HasDerivAt (fun f : ℝ => (f - fc) / fd) (1 / fd) f := ((hasDerivAt_id f).sub_const fc).div_const fd
      exact (h1.comp f h2).div_const Real.pi
    have hc : ContinuousOn (dopplerDistri fd fc) (Set.uIcc (fc + a * fd) (fc + b * fd)) := by
      refine ContinuousOn.congr ?_ hval
      refine ContinuousOn.div_const (ContinuousOn.mul ?_ continuousOn_const) _
      refine ContinuousOn.div continuousOn_const (by fun_prop) fun f hf => ?_
      have h := abs_lt.1 (hin f hf)
      have h' : ((f - fc) / fd) ^ 2 < 1 := by rw [sq_lt_one_iff_abs_lt_one]; exact hin f hf
      exact (Real.sqrt_pos.2 (by linarith)).ne'
    rw [intervalIntegral.integral_eq_sub_of_hasDerivAt hd hc.intervalIntegrable]
    have e1 : (fc + b * fd - fc) / fd = b := by field_simp; ring
    have e2 : (fc + a * fd - fc) / fd = a := by field_simp; ring
    rw [e1, e2]
    ring

end Verif.Telecom
