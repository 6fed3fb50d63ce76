import Verif.Telecom.RecepteurProps

/-!
# Receiver: the way the signal is cut does not matter, and the main theorems on the frames
-/

namespace Verif.Telecom

/-- Specification: a frame without the position of its detection. -/
def TrameRec.sansPosition (t : TrameRec) : TrameRec := { t with det := { t.det with position := 0, positionPrec := none } }

/-- The same frame in progress, up to the reported position. -/
def Reception.sansPosition {C : Type} (r : Reception C) : Reception C := { r with trame := r.trame.sansPosition }

/-- Same state, up to the reported positions and the number of samples of the call. -/
structure PareilRec {D C : Type} (s s' : EtatRec D C) : Prop where
  det : s.det = s'.det
  last : s.last = s'.last
  cours : s.cours.map Reception.sansPosition = s'.cours.map Reception.sansPosition
  demod : s.demod = s'.demod
  trames : s.trames.map TrameRec.sansPosition = s'.trames.map TrameRec.sansPosition

/-- Same result, up to the reported positions. -/
def PareilsRec {D C : Type} (a b : Option (EtatRec D C)) : Prop := (a = none ∧ b = none) ∨ ∃ s s', a = some s ∧ b = some s' ∧ PareilRec s s'

theorem reception_sansPosition {D C : Type} (c : ConfigRec D C) (r r' : Reception C) (h : r.sansPosition = r'.sansPosition) (x : List ℂ) :
    (r.step c x).map Reception.sansPosition = (r'.step c x).map Reception.sansPosition := by
  obtain ⟨f, m, ⟨⟨p, q, sc, g, th⟩, bs, xx, x1⟩⟩ := r
  obtain ⟨f', m', ⟨⟨p', q', sc', g', th'⟩, bs', xx', x1'⟩⟩ := r'
  simp only [Reception.sansPosition, TrameRec.sansPosition, Reception.mk.injEq, TrameRec.mk.injEq, Fourier.Detection.mk.injEq, true_and] at h
  obtain ⟨rfl, rfl, ⟨rfl, rfl, rfl⟩, rfl, rfl, rfl⟩ := h
  unfold Reception.step
  split
  · rfl
  · simp only [correctionRec]
    cases g with
    | none => rfl
    | some g =>
      cases th with
      | none => rfl
      | some th =>
        simp only [Option.bind_some]
        split
        · rfl
        · simp only [Option.bind_some]
          generalize f.step _ x = y
          cases y with
          | none => rfl
          | some y =>
            simp only [Option.bind_some]
            generalize DemodDec.step c.demod m y.2 = w
            cases w with
            | none => rfl
            | some w => rfl

theorem conclut_pareil {D C : Type} (c : ConfigRec D C) (s s' : EtatRec D C) (h : PareilRec s s') (r r' : Reception C) (hr : r.sansPosition = r'.sansPosition) : PareilRec (s.conclut c r) (s'.conclut c r') := by
  have hb : r.trame.bs = r'.trame.bs := congrArg (f := fun u : Reception C => u.trame.bs) (a₁ := r.sansPosition) (a₂ := r'.sansPosition) hr
  have hd : r.demod = r'.demod := congrArg (f := fun u : Reception C => u.demod) (a₁ := r.sansPosition) (a₂ := r'.sansPosition) hr
  have ht : r.trame.sansPosition = r'.trame.sansPosition := congrArg (fun u : Reception C => u.trame) hr
  unfold EtatRec.conclut
  rw [hb]
  split
  · exact ⟨h.det, h.last, rfl, hd, by rw [List.map_append, List.map_append, h.trames, List.map_singleton, List.map_singleton, ht]⟩
  · exact ⟨h.det, h.last, by rw [Option.map_some, Option.map_some, hr], hd, h.trames⟩

theorem detecte_pareil {D C : Type} (c : ConfigRec D C) (x : List ℂ) (s s' : EtatRec D C) (h : PareilRec s s') (d : Fourier.Detection) : PareilsRec (s.detecte c x d) (s'.detecte c x d) := by
  unfold EtatRec.detecte
  rw [h.demod, h.last]
  cases DemodDec.reset c.demod c.nbEntete s'.demod with
  | none => exact Or.inl ⟨rfl, rfl⟩
  | some m =>
    simp only [Option.bind_some]
    cases c.precise d with
    | none => exact Or.inl ⟨rfl, rfl⟩
    | some p =>
      simp only [Option.bind_some]
      cases c.front (p - ⌊p⌋) with
      | none => exact Or.inl ⟨rfl, rfl⟩
      | some f =>
        simp only [Option.bind_some]
        cases extraitRec c.Ne (⌊p⌋ + c.Ne + c.M) c.nspl s'.last x with
        | none => exact Or.inl ⟨rfl, rfl⟩
        | some y =>
          simp only [Option.bind_some]
          have k := reception_sansPosition c ⟨f, m, ⟨c.reporte s.cnt d, [], [], []⟩⟩ ⟨f, m, ⟨c.reporte s'.cnt d, [], [], []⟩⟩ rfl y
          revert k
          generalize Reception.step c ⟨f, m, ⟨c.reporte s.cnt d, [], [], []⟩⟩ y = a
          generalize Reception.step c ⟨f, m, ⟨c.reporte s'.cnt d, [], [], []⟩⟩ y = b
          intro k
          cases a with
          | none =>
            cases b with
            | none => exact Or.inl ⟨rfl, rfl⟩
            | some b => simp at k
          | some a =>
            cases b with
            | none => simp at k
            | some b =>
              right
              exact ⟨_, _, rfl, rfl, conclut_pareil c s s' h a b (by simpa using k)⟩

theorem detections_pareil {D C : Type} (c : ConfigRec D C) (x : List ℂ) (ds : List Fourier.Detection) : ∀ s s' : EtatRec D C, PareilRec s s' → PareilsRec (EtatRec.detections c x s ds) (EtatRec.detections c x s' ds) := by
  induction ds with
  | nil => intro s s' h; exact Or.inr ⟨s, s', rfl, rfl, h⟩
  | cons d ds ih =>
    intro s s' h
    unfold EtatRec.detections
    rcases detecte_pareil c x s s' h d with ⟨h1, h2⟩ | ⟨a, b, h1, h2, h3⟩
    · rw [h1, h2]; exact Or.inl ⟨rfl, rfl⟩
    · rw [h1, h2]
      exact ih a b h3

theorem stepNe_pareil {D C : Type} (c : ConfigRec D C) (x : List ℂ) (s s' : EtatRec D C) (h : PareilRec s s') : PareilsRec (s.stepNe c x) (s'.stepNe c x) := by
  unfold EtatRec.stepNe
  split
  · exact Or.inl ⟨rfl, rfl⟩
  rw [h.det]
  cases c.det s'.det x with
  | none => exact Or.inl ⟨rfl, rfl⟩
  | some e =>
    simp only [Option.bind_some]
    have hA : PareilsRec (EtatRec.reprend c x { s with det := e.1 }) (EtatRec.reprend c x { s' with det := e.1 }) := by
      have hP : PareilRec ({ s with det := e.1 } : EtatRec D C) { s' with det := e.1 } := ⟨rfl, h.last, h.cours, h.demod, h.trames⟩
      have hcc := h.cours
      unfold EtatRec.reprend
      split <;> rename_i h1 <;> split <;> rename_i h2
      · exact Or.inr ⟨_, _, rfl, rfl, hP⟩
      · rw [h1, h2] at hcc; simp at hcc
      · rw [h1, h2] at hcc; simp at hcc
      · rename_i r r'
        simp only at h1 h2
        rw [h1, h2] at hcc
        have k := reception_sansPosition c _ _ (by simpa using hcc) x
        rcases ha : Reception.step c _ x with _ | a
        · rw [ha] at k
          have hb := Option.map_eq_none_iff.1 k.symm
          rw [hb]
          exact Or.inl ⟨rfl, rfl⟩
        · rw [ha] at k
          obtain ⟨b, hb, hb2⟩ := Option.map_eq_some_iff.1 k.symm
          rw [hb]
          exact Or.inr ⟨_, _, rfl, rfl, conclut_pareil c _ _ hP a b hb2.symm⟩
    rcases hA with ⟨h1, h2⟩ | ⟨a, b, h1, h2, h3⟩
    · rw [h1, h2]; exact Or.inl ⟨rfl, rfl⟩
    · rw [h1, h2]
      simp only [Option.bind_some]
      rcases detections_pareil c x e.2 a b h3 with ⟨k1, k2⟩ | ⟨a', b', k1, k2, k3⟩
      · rw [k1, k2]; exact Or.inl ⟨rfl, rfl⟩
      · rw [k1, k2]
        exact Or.inr ⟨_, _, rfl, rfl, k3.det, rfl, k3.cours, k3.demod, k3.trames⟩

theorem blocs_pareil {D C : Type} (c : ConfigRec D C) (l : List (List ℂ)) : ∀ s s' : EtatRec D C, PareilRec s s' → PareilsRec (EtatRec.blocs c s l) (EtatRec.blocs c s' l) := by
  induction l with
  | nil => intro s s' h; exact Or.inr ⟨s, s', rfl, rfl, h⟩
  | cons x l ih =>
    intro s s' h
    unfold EtatRec.blocs
    rcases stepNe_pareil c x s s' h with ⟨h1, h2⟩ | ⟨a, b, h1, h2, h3⟩
    · rw [h1, h2]; exact Or.inl ⟨rfl, rfl⟩
    · rw [h1, h2]
      exact ih a b h3

theorem blocs_append {D C : Type} (c : ConfigRec D C) (l l' : List (List ℂ)) : ∀ s : EtatRec D C, EtatRec.blocs c s (l ++ l') = (EtatRec.blocs c s l).bind fun s' : EtatRec D C => EtatRec.blocs c s' l' := by
  induction l with
  | nil => intro s; rfl
  | cons x l ih =>
    intro s
    show (s.stepNe c x).bind (fun s' : EtatRec D C => EtatRec.blocs c s' (l ++ l')) = ((s.stepNe c x).bind fun s' : EtatRec D C => EtatRec.blocs c s' l).bind _
    cases s.stepNe c x with
    | none => rfl
    | some s' => exact ih s'

/-! ### Frames already delivered -/

/-- The frames already delivered play no role. -/
theorem conclut_avant {D C : Type} (c : ConfigRec D C) (T : List TrameRec) (s : EtatRec D C) (r : Reception C) :
    ({ s with trames := T ++ s.trames } : EtatRec D C).conclut c r = { (s.conclut c r) with trames := T ++ (s.conclut c r).trames } := by
  unfold EtatRec.conclut
  split
  · simp
  · rfl

theorem detecte_avant {D C : Type} (c : ConfigRec D C) (T : List TrameRec) (x : List ℂ) (s : EtatRec D C) (d : Fourier.Detection) :
    ({ s with trames := T ++ s.trames } : EtatRec D C).detecte c x d = (s.detecte c x d).map fun a : EtatRec D C => { a with trames := T ++ a.trames } := by
  unfold EtatRec.detecte
  simp only [conclut_avant, Option.map_bind, Option.map_map, Function.comp_def]

theorem detections_avant {D C : Type} (c : ConfigRec D C) (T : List TrameRec) (x : List ℂ) (ds : List Fourier.Detection) : ∀ s : EtatRec D C,
    EtatRec.detections c x { s with trames := T ++ s.trames } ds = (EtatRec.detections c x s ds).map fun a : EtatRec D C => { a with trames := T ++ a.trames } := by
  induction ds with
  | nil => intro s; rfl
  | cons d ds ih =>
    intro s
    unfold EtatRec.detections
    rw [detecte_avant]
    cases s.detecte c x d with
    | none => rfl
    | some s' => exact ih s'

theorem stepNe_avant {D C : Type} (c : ConfigRec D C) (T : List TrameRec) (x : List ℂ) (s : EtatRec D C) :
    ({ s with trames := T ++ s.trames } : EtatRec D C).stepNe c x = (s.stepNe c x).map fun a : EtatRec D C => { a with trames := T ++ a.trames } := by
  unfold EtatRec.stepNe
  split
  · rfl
  simp only
  cases c.det s.det x with
  | none => rfl
  | some e =>
    simp only [Option.bind_some]
    have hA : EtatRec.reprend c x ({ s with trames := T ++ s.trames, det := e.1 } : EtatRec D C) = (EtatRec.reprend c x { s with det := e.1 }).map fun a : EtatRec D C => { a with trames := T ++ a.trames } := by
      unfold EtatRec.reprend
      simp only
      split
      · rfl
      · rw [Option.map_map]
        congr 1
        funext r'
        exact conclut_avant c T { s with det := e.1 } r'
    rw [hA]
    generalize EtatRec.reprend c x { s with det := e.1 } = a
    cases a with
    | none => rfl
    | some a =>
      simp only [Option.map_some, Option.bind_some]
      rw [detections_avant]
      cases EtatRec.detections c x a e.2 with
      | none => rfl
      | some b => rfl

theorem blocs_avant {D C : Type} (c : ConfigRec D C) (T : List TrameRec) (l : List (List ℂ)) : ∀ s : EtatRec D C,
    EtatRec.blocs c { s with trames := T ++ s.trames } l = (EtatRec.blocs c s l).map fun a : EtatRec D C => { a with trames := T ++ a.trames } := by
  induction l with
  | nil => intro s; rfl
  | cons x l ih =>
    intro s
    unfold EtatRec.blocs
    rw [stepNe_avant]
    cases s.stepNe c x with
    | none => rfl
    | some s' => exact ih s'

/-! ### Calls of any size -/

/-- The state of the buffer after the samples `h`: some of them (whole blocks) went directly to the processing. -/
def TamponRec {D C : Type} (Ne : ℕ) (h : List ℂ) (s : RecepteurTrames D C) : Prop := ∃ h1 h2, h = h1 ++ h2 ∧ h1.length % Ne = 0 ∧ Tampon.Rep Ne s.tampon h2 ∧ (s.vide = true → h2 = [])

/-- A call: the blocks completed by the call. -/
theorem recepteur_step {D C : Type} (c : ConfigRec D C) (hN : 0 < c.Ne) (s : RecepteurTrames D C) (h x : List ℂ) (hr : TamponRec c.Ne h s) :
    ∃ p t v, Tampon.paquets c.Ne (h ++ x) = Tampon.paquets c.Ne h ++ p ∧ (∀ e : EtatRec D C, TamponRec c.Ne (h ++ x) ⟨t, v, e⟩) ∧
      s.step c x = (EtatRec.blocs c { s.etat with cnt := 0 } p).map fun e : EtatRec D C => (⟨t, v, { e with trames := [] }⟩, e.trames) := by
  obtain ⟨h1, h2, rfl, k1, k2, k3⟩ := hr
  obtain ⟨q, hq⟩ : ∃ q, h1.length = q * c.Ne := ⟨h1.length / c.Ne, (Nat.div_mul_cancel (Nat.dvd_of_mod_eq_zero k1)).symm⟩
  unfold RecepteurTrames.step
  by_cases hv : s.vide = true ∧ x.length = c.Ne
  · rw [if_pos hv]
    have h0 := k3 hv.1
    subst h0
    refine ⟨[x], s.tampon, true, ?_, fun e => ⟨h1 ++ x, [], by simp, by rw [List.length_append, hv.2]; simp [k1], k2, fun _ => rfl⟩, ?_⟩
    · rw [List.append_nil, Tampon.paquets_append _ hN _ _ q hq, Tampon.paquets_un _ hN x hv.2]
    · unfold EtatRec.blocs
      cases EtatRec.stepNe c { s.etat with cnt := 0 } x with
      | none => rfl
      | some e => rfl
  · rw [if_neg hv]
    obtain ⟨t, p, e1, e2, e3⟩ := Tampon.step_rep (0 : ℂ) c.Ne hN s.tampon h2 x k2
    refine ⟨p, t, false, ?_, fun e => ⟨h1, h2 ++ x, by simp, k1, e2, fun hf => by cases hf⟩, ?_⟩
    · rw [List.append_assoc, Tampon.paquets_append _ hN _ _ q hq, Tampon.paquets_append _ hN _ _ q hq, e3, List.append_assoc]
    · rw [e1]
      rfl

theorem recepteur_flux {D C : Type} (c : ConfigRec D C) (hN : 0 < c.Ne) (xs : List (List ℂ)) : ∀ (s : RecepteurTrames D C) (e : EtatRec D C) (h : List ℂ) (T : List TrameRec), TamponRec c.Ne h s →
    PareilRec { s.etat with trames := T } e → s.etat.trames = [] →
    ∃ p, Tampon.paquets c.Ne (h ++ xs.flatten) = Tampon.paquets c.Ne h ++ p ∧ ((s.flux c xs = none ∧ EtatRec.blocs c e p = none) ∨
      ∃ s' l e', s.flux c xs = some (s', l) ∧ EtatRec.blocs c e p = some e' ∧ (T ++ l.flatten).map TrameRec.sansPosition = e'.trames.map TrameRec.sansPosition ∧ s'.etat.det = e'.det) := by
  induction xs with
  | nil =>
    intro s e h T h1 h2 h3
    refine ⟨[], by simp, Or.inr ⟨s, [], e, rfl, rfl, by simpa using h2.trames, h2.det⟩⟩
  | cons x xs ih =>
    intro s e h T h1 h2 h3
    obtain ⟨p, t, v, e1, e2, e3⟩ := recepteur_step c hN s h x h1
    have hP : PareilRec ({ s.etat with cnt := 0, trames := T ++ ({ s.etat with cnt := 0 } : EtatRec D C).trames } : EtatRec D C) e := by
      simp only
      rw [h3, List.append_nil]
      exact ⟨h2.det, h2.last, h2.cours, h2.demod, h2.trames⟩
    have hB := blocs_pareil c p _ _ hP
    rw [show ({ s.etat with cnt := 0, trames := T ++ ({ s.etat with cnt := 0 } : EtatRec D C).trames } : EtatRec D C) = { ({ s.etat with cnt := 0 } : EtatRec D C) with trames := T ++ ({ s.etat with cnt := 0 } : EtatRec D C).trames } from rfl, blocs_avant] at hB
    unfold RecepteurTrames.flux
    rw [e3]
    rcases hB with ⟨k1, k2⟩ | ⟨a, b, k1, k2, k3⟩
    · rw [Option.map_eq_none_iff.1 k1]
      obtain ⟨p', j⟩ : ∃ p', Tampon.paquets c.Ne (h ++ x ++ xs.flatten) = Tampon.paquets c.Ne (h ++ x) ++ p' := by
        obtain ⟨p', j, -⟩ := ih ⟨t, v, { s.etat with trames := [] }⟩ { s.etat with trames := [] } (h ++ x) [] (e2 _) ⟨rfl, rfl, rfl, rfl, rfl⟩ rfl
        exact ⟨p', j⟩
      refine ⟨p ++ p', ?_, Or.inl ⟨rfl, ?_⟩⟩
      · rw [List.flatten_cons, ← List.append_assoc, j, e1, List.append_assoc]
      · rw [blocs_append, k2]; rfl
    · obtain ⟨a', k4, rfl⟩ := Option.map_eq_some_iff.1 k1
      rw [k4]
      simp only [Option.map_some, Option.bind_some]
      obtain ⟨p', j1, j2⟩ := ih ⟨t, v, { a' with trames := [] }⟩ b (h ++ x) (T ++ a'.trames) (e2 _) ⟨k3.det, k3.last, k3.cours, k3.demod, k3.trames⟩ rfl
      refine ⟨p ++ p', ?_, ?_⟩
      · rw [List.flatten_cons, ← List.append_assoc, j1, e1, List.append_assoc]
      · rw [blocs_append, k2, Option.bind_some]
        rcases j2 with ⟨j2, j3⟩ | ⟨s', l, e', j2, j3, j4, j5⟩
        · rw [j2]
          exact Or.inl ⟨rfl, j3⟩
        · rw [j2]
          refine Or.inr ⟨s', a'.trames :: l, e', rfl, j3, ?_, j5⟩
          rw [← j4, List.flatten_cons, List.append_assoc]

/-- State of the processing of a new receiver. -/
theorem recepteur_neuf {D C : Type} (c : ConfigRec D C) (hN : 0 < c.Ne) (d0 : D) (s : RecepteurTrames D C) (h : RecepteurTrames.cree c d0 = some s) :
    TamponRec c.Ne [] s ∧ s.etat.trames = [] ∧ s.etat.cours = none ∧ s.etat.det = d0 ∧ s.etat.last = List.replicate c.Ne 0 ∧ s.etat.cnt = 0 ∧ DemodDec.cree c.demod = some s.etat.demod := by
  obtain ⟨m, hm, rfl⟩ := Option.map_eq_some_iff.1 h
  exact ⟨⟨[], [], rfl, by simp, Tampon.rep_vide _ hN _ rfl rfl (Or.inr rfl), fun _ => rfl⟩, rfl, rfl, rfl, rfl, rfl, hm⟩

/-- The frames of a receiver are those of the successive blocks of `Ne` samples of the signal. -/
theorem recepteur_blocs {D C : Type} (c : ConfigRec D C) (hN : 0 < c.Ne) (d0 : D) (s : RecepteurTrames D C) (h : RecepteurTrames.cree c d0 = some s) (xs : List (List ℂ)) :
    (s.flux c xs = none ∧ EtatRec.blocs c s.etat (Tampon.paquets c.Ne xs.flatten) = none) ∨
      ∃ s' l e, s.flux c xs = some (s', l) ∧ EtatRec.blocs c s.etat (Tampon.paquets c.Ne xs.flatten) = some e ∧ l.flatten.map TrameRec.sansPosition = e.trames.map TrameRec.sansPosition ∧ s'.etat.det = e.det := by
  obtain ⟨h1, h2, -⟩ := recepteur_neuf c hN d0 s h
  obtain ⟨p, e1, e2⟩ := recepteur_flux c hN xs s s.etat [] [] h1 ⟨rfl, rfl, rfl, rfl, by rw [h2]⟩ h2
  rw [List.nil_append, Tampon.paquets_court _ [] (by simpa using hN), List.nil_append] at e1
  rw [e1]
  simpa using e2

end Verif.Telecom
