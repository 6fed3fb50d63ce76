import Verif.Telecom.RecepteurErreurs
import Verif.Telecom.DemodDecRefut

/-!
# Receiver: reported positions, lost frames, examples
-/

namespace Verif.Telecom

/-! ### Reported positions -/

theorem listeDet_mem (dets : List (List Fourier.Detection)) (b : ℕ) (d : Fourier.Detection) : (b, d) ∈ listeDet dets ↔ d ∈ dets.getD b [] := by
  induction dets using List.reverseRecOn with
  | nil => simp [listeDet]
  | append_singleton dets ds ih =>
    rw [listeDet_snoc, List.mem_append, ih]
    by_cases hb : b < dets.length
    · rw [List.getD_append _ _ _ _ hb]
      simp only [List.mem_map, Prod.mk.injEq, or_iff_left_iff_imp, forall_exists_index, and_imp]
      intro a _ h _
      omega
    · rw [List.getD_eq_default _ _ (by omega)]
      by_cases hb2 : b = dets.length
      · rw [hb2, List.getD_append_right _ _ _ _ (le_refl _), Nat.sub_self]
        simp
      · rw [List.getD_eq_default _ _ (by simp; omega)]
        simp only [List.not_mem_nil, List.mem_map, Prod.mk.injEq, false_or, iff_false, not_exists, not_and]
        intro a _ h
        omega

theorem fluxDet_longueur {D : Type} (det : D → List ℂ → Option (D × List Fourier.Detection)) (l : List (List ℂ)) (s s2 : D) (ds : List (List Fourier.Detection)) (h : fluxDet det s l = some (s2, ds)) : ds.length = l.length := by
  obtain ⟨s1, a, b, -, h2, h3, h4⟩ := fluxDet_coupe det l [] s s2 ds (by simpa using h)
  simp only [fluxDet, Option.some.injEq, Prod.mk.injEq] at h2
  rw [h3, ← h2.2, List.append_nil, h4]

/-- Calls that are multiples of the block size. -/
theorem decalage_aligne (Ne : ℕ) (hN : 0 < Ne) (xs : List (List ℂ)) : ∀ (n b : ℕ), Ne ∣ n → (∀ x ∈ xs, Ne ∣ x.length) → n ≤ b * Ne → b * Ne < n + xs.flatten.length →
    ∃ avant x apres, xs = avant ++ x :: apres ∧ n + avant.flatten.length ≤ b * Ne ∧ b * Ne < n + avant.flatten.length + x.length ∧ n + avant.flatten.length + decalageRec Ne n xs b = b * Ne := by
  induction xs with
  | nil => intro n b _ _ h1 h2; simp at h2; omega
  | cons x xs ih =>
    intro n b hn hx h1 h2
    have hxd := hx x List.mem_cons_self
    obtain ⟨u, rfl⟩ := hn
    obtain ⟨v, hv⟩ := hxd
    have e1 : (Ne * u + x.length) / Ne = u + v := by rw [hv, ← Nat.mul_add, Nat.mul_div_cancel_left _ hN]
    unfold decalageRec
    rw [e1]
    by_cases hb : b < u + v
    · rw [if_pos hb, Nat.mul_div_cancel_left _ hN]
      have hu : u ≤ b := by
        rw [Nat.mul_comm] at h1
        exact Nat.le_of_mul_le_mul_right h1 hN
      refine ⟨[], x, xs, rfl, by simpa using h1, ?_, ?_⟩
      · rw [List.flatten_nil, List.length_nil, Nat.add_zero, hv, ← Nat.mul_add, Nat.mul_comm Ne]
        exact Nat.mul_lt_mul_of_pos_right hb hN
      · rw [List.flatten_nil, List.length_nil, Nat.add_zero, Nat.mul_comm Ne, ← Nat.add_mul, Nat.add_sub_cancel' hu]
    · rw [if_neg hb]
      have h3 : Ne * u + x.length ≤ b * Ne := by
        rw [hv, ← Nat.mul_add, Nat.mul_comm]
        exact Nat.mul_le_mul_right _ (by omega)
      rw [List.flatten_cons, List.length_append] at h2
      obtain ⟨avant, y, apres, k1, k2, k3, k4⟩ := ih (Ne * u + x.length) b ⟨u + v, by rw [hv, Nat.mul_add]⟩ (fun y hy => hx y (List.mem_cons_of_mem _ hy)) h3 (by omega)
      refine ⟨x :: avant, y, apres, by rw [k1]; rfl, ?_, ?_, ?_⟩ <;> rw [List.flatten_cons, List.length_append] <;> omega

theorem flatten_divise (Ne : ℕ) (xs : List (List ℂ)) (hx : ∀ x ∈ xs, Ne ∣ x.length) : Ne ∣ xs.flatten.length := by
  induction xs with
  | nil => simp
  | cons y ys ih =>
    rw [List.flatten_cons, List.length_append]
    exact dvd_add (hx y List.mem_cons_self) (ih (fun x hx' => hx x (List.mem_cons_of_mem _ hx')))

theorem forall2_membre {α β : Type} {R : α → β → Prop} {L : List α} {T : List β} (h : List.Forall₂ R L T) (t : β) (ht : t ∈ T) : ∃ p ∈ L, R p t := by
  induction h with
  | nil => cases ht
  | cons h1 _ ih =>
    rcases List.mem_cons.1 ht with rfl | ht
    · exact ⟨_, List.mem_cons_self, h1⟩
    · obtain ⟨p, hp, h2⟩ := ih ht
      exact ⟨p, List.mem_cons_of_mem _ hp, h2⟩

/-- **C149 (reported positions).**  When the size of every call is a multiple of the block size `Ne`, the position reported in a frame is relative to the beginning of the buffer of the call in which its header was detected: added to the number of samples given by the previous
calls, it is the absolute position of the header found by the detector (the position in the block `b`, which begins at the sample `b Ne`); the precise position is shifted in the same way, with the fractional delay of the modulator. -/
theorem C149_position {D C : Type} (c : ConfigRec D C) (hc : ValideRec c) (d0 : D) (s s' : RecepteurTrames D C) (h : RecepteurTrames.cree c d0 = some s) (xs : List (List ℂ)) (hx : ∀ x ∈ xs, c.Ne ∣ x.length) (l : List (List TrameRec)) (hf : s.flux c xs = some (s', l)) :
    ∃ d1 dets, fluxDet c.det d0 (Tampon.paquets c.Ne xs.flatten) = some (d1, dets) ∧ ∀ t ∈ l.flatten, ∃ b, ∃ d ∈ dets.getD b [], Livree c xs.flatten b d t ∧ ∃ avant x apres, xs = avant ++ x :: apres ∧ avant.flatten.length ≤ b * c.Ne ∧ b * c.Ne < avant.flatten.length + x.length ∧
      avant.flatten.length + t.det.position = b * c.Ne + d.position ∧ ∀ q, d.positionPrec = some q → ∃ q', t.det.positionPrec = some q' ∧ avant.flatten.length + q' = b * c.Ne + q + c.dtMod := by
  obtain ⟨d1, dets, L, k1, k2, k3⟩ := C146_trames c hc d0 s s' h xs l hf
  refine ⟨d1, dets, k1, fun t ht => ?_⟩
  obtain ⟨p, hp, h1, -, h3⟩ := forall2_membre k3 t ht
  have hmem := (listeDet_mem dets p.1 p.2).1 (k2.subset hp)
  have hlen := fluxDet_longueur _ _ _ _ _ k1
  rw [paquets_longueur] at hlen
  have hb : p.1 < xs.flatten.length / c.Ne := by
    by_contra hcon
    rw [List.getD_eq_default _ _ (by omega)] at hmem
    cases hmem
  obtain ⟨avant, x, apres, e1, e2, e3, e4⟩ := decalage_aligne c.Ne hc.Ne xs 0 p.1 (dvd_zero _) hx (Nat.zero_le _) (by
    rw [Nat.zero_add]
    have := (Nat.lt_div_iff_mul_lt' (flatten_divise c.Ne xs hx) _).1 hb
    rw [Nat.mul_comm]
    exact this)
  rw [Nat.zero_add] at e2 e3 e4
  refine ⟨p.1, p.2, hmem, h1, avant, x, apres, e1, e2, e3, ?_, fun q hq => ?_⟩
  · rw [h3]
    show (avant.flatten.length : ℤ) + (p.2.position + (decalageRec c.Ne 0 xs p.1 : ℕ)) = _
    have : ((avant.flatten.length + decalageRec c.Ne 0 xs p.1 : ℕ) : ℤ) = ((p.1 * c.Ne : ℕ) : ℤ) := by rw [e4]
    push_cast at this
    linarith
  · rw [h3]
    refine ⟨q + (decalageRec c.Ne 0 xs p.1 : ℕ) + c.dtMod, ?_, ?_⟩
    · show p.2.positionPrec.map _ = _
      rw [hq]
      rfl
    · have : ((avant.flatten.length + decalageRec c.Ne 0 xs p.1 : ℕ) : ℝ) = ((p.1 * c.Ne : ℕ) : ℝ) := by rw [e4]
      push_cast at this
      linarith

/-! ### An example of receiver -/

/-- Demodulator of the example: BPSK, one sample per symbol. -/
noncomputable def exempleDemodRec : ConfigDec Unit := ⟨1, 0, .nrz, false, 1, 0, fun _ _ => none, false, 0, 1, false, 1, false, 1, (), ctxSansMemoire (pskConstellation 2) (pskPlusProche 2)⟩

/-- Example of receiver: BPSK, one sample per symbol, blocks of 4 samples, header of 2 samples, frames of `n` bits; the detections are given in advance. -/
noncomputable def exempleRec (n : ℕ) : ConfigRec (List (List Fourier.Detection)) Unit :=
  ⟨4, 2, n, 1, 1, 2, 1, fun _ => some [1], [1], 0, exempleDemodRec, fun s _ => some (s.tail, s.headD [])⟩

/-- A detection at the beginning of the previous block. -/
noncomputable def exempleDet : Fourier.Detection := ⟨-4, some (-4), 1, some 1, some 0⟩

theorem exempleRec_valide (n : ℕ) : ValideRec (exempleRec n) := by
  refine ⟨by simp [exempleRec], by simp [exempleRec], by simp [exempleRec], by simp [exempleRec], fun τ h1 h => ?_, ⟨rfl, rfl, rfl, fun s y r h => ?_⟩, rfl⟩
  · simp only [exempleRec, Option.some.injEq] at h
    rw [← h]
    simp
  · simp only [exempleRec, exempleDemodRec, ctxSansMemoire] at h
    obtain ⟨i, -, h⟩ := Option.bind_eq_some_iff.1 h
    obtain ⟨v, -, h⟩ := Option.map_eq_some_iff.1 h
    rw [← h]
    simp only
    omega

theorem bpsk_partout (p : ℝ × ℝ) : ∃ i, pskPlusProche 2 p = some i ∧ i < (pskConstellation 2).length := by
  refine ⟨bpskDecision p, by simp [pskPlusProche], ?_⟩
  rw [psk_longueur]
  unfold bpskDecision
  split <;> omega

theorem exempleRec_flux (n : ℕ) (xs : List (List ℂ)) (script : List (List Fourier.Detection)) (hs : ∀ D ∈ script, ∀ d ∈ D, d = exempleDet) (d1 : List (List Fourier.Detection)) (dets : List (List Fourier.Detection))
    (hf : fluxDet (exempleRec n).det script (Tampon.paquets 4 xs.flatten) = some (d1, dets)) : ∃ s s' l, RecepteurTrames.cree (exempleRec n) script = some s ∧ s.flux (exempleRec n) xs = some (s', l) := by
  refine C148_sans_erreur (exempleRec n) (exempleRec_valide n) (pskConstellation 2) (pskPlusProche 2) bpsk_partout rfl rfl rfl (fun τ _ _ => by simp [exempleRec]) (by simp [exempleRec]) (by simp [exempleRec]) (by simp [exempleRec]) script d1 xs dets hf ?_
  have key : ∀ (bl : List (List ℂ)) (sc : List (List Fourier.Detection)) d1 dets, (∀ D ∈ sc, ∀ d ∈ D, d = exempleDet) → fluxDet (exempleRec n).det sc bl = some (d1, dets) → ∀ D ∈ dets, ∀ d ∈ D, d = exempleDet := by
    intro bl
    induction bl with
    | nil =>
      intro sc d1 dets _ h
      simp only [fluxDet, Option.some.injEq, Prod.mk.injEq] at h
      rw [← h.2]
      intro D hD
      cases hD
    | cons x bl ih =>
      intro sc d1 dets hsc h
      unfold fluxDet at h
      obtain ⟨r, h1, h⟩ := Option.bind_eq_some_iff.1 h
      obtain ⟨q, h2, h⟩ := Option.map_eq_some_iff.1 h
      simp only [Prod.mk.injEq] at h
      simp only [exempleRec, Option.some.injEq] at h1
      subst h1
      rw [← h.2]
      intro D hD
      rcases List.mem_cons.1 hD with rfl | hD
      · cases sc with
        | nil => intro d hd; simp at hd
        | cons a sc => exact hsc a List.mem_cons_self
      · exact ih _ _ _ (fun D hD => hsc D (List.mem_of_mem_tail hD)) h2 D hD
  intro D hD d hd
  rw [key _ _ _ _ hs hf D hD d hd]
  exact ⟨by simp [exempleDet, exempleRec], by simp [exempleDet], ⟨-4, rfl, by simp [exempleDet]⟩, ⟨1, rfl, one_ne_zero⟩, by simp [exempleDet]⟩

theorem exempleDet_precise (n : ℕ) : (exempleRec n).precise exempleDet = some (-4 + 1 / 2) := by
  unfold ConfigRec.precise ConfigRec.dtItrp
  have h0 : |(-4 : ℝ) - ((-4 : ℤ) : ℝ)| < 1 := by norm_num
  show (if |(-4 : ℝ) - ((-4 : ℤ) : ℝ)| < 1 then some ((-4 : ℝ) + (0 : ℝ) + (((1 + 1 + 1) % 2 : ℕ) : ℝ) / 2) else none) = _
  rw [if_pos h0]
  norm_num

theorem exempleDet_debut (n b : ℕ) : debutTrame (exempleRec n) b exempleDet = 4 * b - 2 := by
  unfold debutTrame
  rw [exempleDet_precise]
  have : ⌊((some (-4 + 1 / 2 : ℝ)).getD 0 : ℝ)⌋ = -4 := by
    rw [Int.floor_eq_iff]
    norm_num
  rw [this]
  simp only [exempleRec]
  push_cast
  ring

theorem exempleRec_nspl (n : ℕ) : (exempleRec n).nspl = n + 5 := by
  simp [ConfigRec.nspl, exempleRec, ConfigRec.retard]

theorem paquets_4 (a b : List ℂ) (ha : a.length = 4) : Tampon.paquets 4 (a ++ b) = a :: Tampon.paquets 4 b := by
  rw [Tampon.paquets_append 4 (by norm_num) a b 1 (by omega), Tampon.paquets_un 4 (by norm_num) a ha]
  rfl

theorem horsLigne_borne {D C : Type} (c : ConfigRec D C) (hc : ValideRec c) (d : Fourier.Detection) (z : List ℂ) (bits : List Bool) (y : List ℂ) (h : horsLigne c d z = some (bits, y)) : c.osf * y.length < (z.length - c.retard) + c.osf := by
  unfold horsLigne at h
  obtain ⟨p, -, h⟩ := Option.bind_eq_some_iff.1 h
  obtain ⟨h1, -, h⟩ := Option.bind_eq_some_iff.1 h
  obtain ⟨g, -, h⟩ := Option.bind_eq_some_iff.1 h
  obtain ⟨b, h3, h⟩ := Option.map_eq_some_iff.1 h
  simp only [Prod.mk.injEq] at h
  obtain ⟨rfl, rfl⟩ := h
  have := (unSur_longueur c.osf hc.osf ((filtree c.h (filtree h1 (z.map fun v : ℂ => v * g))).drop c.retard)).2
  simpa [filtree] using this

/-- A frame of `n` bits needs `n + 1` samples in the example. -/
theorem exempleRec_court (n : ℕ) (X : List ℂ) (b : ℕ) (hb : 1 ≤ b) (t : TrameRec) (h : Livree (exempleRec n) X b exempleDet t) (hn : 0 < n) : 4 * b - 2 + n + 1 ≤ X.length := by
  obtain ⟨z, bits, y, h1, h2, h3, -⟩ := h
  have k1 := horsLigne_longueur _ (exempleRec_valide n) _ _ _ _ h2
  have k2 := horsLigne_borne _ (exempleRec_valide n) _ _ _ _ h2
  have k3 := h1.length_le
  unfold apresSignal at k3
  rw [exempleDet_debut, List.length_append, List.length_replicate, List.length_drop] at k3
  have e1 : (exempleRec n).osf = 1 := rfl
  have e2 : (exempleRec n).k = 1 := rfl
  have e3 : (exempleRec n).nbits = n := rfl
  have e4 : (exempleRec n).retard = 1 := by simp [ConfigRec.retard, exempleRec]
  rw [e1, e4] at k2
  rw [e2] at k1
  rw [e3] at h3
  omega

/-- **C149 (refutation: calls that are not multiples of the block size).**  The samples kept in the input buffer are forgotten: with blocks of 4 samples, two calls of 2 and 6 samples, and a header found at the absolute position 0, the frame delivered by the second call has
the position 0 relative to the buffer of this call, i.e. the absolute position 2. -/
theorem C149_tampon_refute (x y : List ℂ) (hx : x.length = 2) (hy : y.length = 6) : ∃ s s' l, RecepteurTrames.cree (exempleRec 1) [[], [exempleDet]] = some s ∧ s.flux (exempleRec 1) [x, y] = some (s', l) ∧
    ∃ t ∈ l.flatten, t.det.position = 0 ∧ (x.length : ℤ) + t.det.position ≠ 1 * (exempleRec 1).Ne + exempleDet.position := by
  have hpk : Tampon.paquets 4 [x, y].flatten = [x ++ y.take 2, y.drop 2] := by
    rw [List.flatten_cons, List.flatten_singleton, ← List.take_append_drop 2 y, ← List.append_assoc, paquets_4 _ _ (by simp; omega), Tampon.paquets_un 4 (by norm_num) _ (by simp; omega), List.take_append_drop]
  have hf : fluxDet (exempleRec 1).det [[], [exempleDet]] (Tampon.paquets 4 [x, y].flatten) = some ([], [[], [exempleDet]]) := by
    rw [hpk]
    simp [fluxDet, exempleRec]
  obtain ⟨s, s', l, e1, e2⟩ := exempleRec_flux 1 [x, y] [[], [exempleDet]] (by simp) _ _ hf
  refine ⟨s, s', l, e1, e2, ?_⟩
  obtain ⟨t, ht, hl⟩ := C146_complet (exempleRec 1) (exempleRec_valide 1) _ _ s s' e1 [x, y] l e2 _ hf 1 2 (by norm_num) (by simp [hx, hy, exempleRec]) exempleDet (by simp) (fun j h1 h2 => by omega) (by
    rw [exempleDet_debut, exempleRec_nspl]
    simp [exempleRec])
  obtain ⟨d1, dets, L, k1, k2, k3⟩ := C146_trames (exempleRec 1) (exempleRec_valide 1) _ s s' e1 [x, y] l e2
  rw [show (exempleRec 1).Ne = 4 from rfl, hf] at k1
  simp only [Option.some.injEq, Prod.mk.injEq] at k1
  obtain ⟨-, rfl⟩ := k1
  have hpos : t.det = (exempleRec 1).reporte 4 exempleDet := by
    obtain ⟨p, hp, -, -, h3⟩ := forall2_membre k3 t ht
    have hp := k2.subset hp
    simp only [listeDet, List.zipIdx_cons, List.zipIdx_nil, List.map_cons, List.map_nil, List.flatten_cons, List.flatten_nil, List.append_nil, List.nil_append, List.mem_singleton] at hp
    rw [h3, hp]
    congr 1
    simp [decalageRec, exempleRec, hx, hy]
  refine ⟨t, ht, ?_, ?_⟩ <;> rw [hpos] <;> simp [ConfigRec.reporte, exempleDet, exempleRec, hx]

/-! ### Refutations that need several calls -/

theorem flux_coupe {D C : Type} (c : ConfigRec D C) (l l' : List (List ℂ)) : ∀ (s s2 : RecepteurTrames D C) (r : List (List TrameRec)), s.flux c (l ++ l') = some (s2, r) →
    ∃ s1 a b, s.flux c l = some (s1, a) ∧ s1.flux c l' = some (s2, b) ∧ r = a ++ b ∧ a.length = l.length := by
  induction l with
  | nil => intro s s2 r h; exact ⟨s, [], r, rfl, h, rfl, rfl⟩
  | cons x l ih =>
    intro s s2 r h
    rw [List.cons_append] at h
    unfold RecepteurTrames.flux at h
    obtain ⟨r1, h3, h⟩ := Option.bind_eq_some_iff.1 h
    obtain ⟨q, h4, h⟩ := Option.map_eq_some_iff.1 h
    simp only [Prod.mk.injEq] at h
    obtain ⟨rfl, rfl⟩ := h
    obtain ⟨s1, a, b, k1, k2, k3, k4⟩ := ih _ _ _ h4
    refine ⟨s1, r1.2 :: a, b, ?_, k2, by rw [k3]; rfl, by simp [k4]⟩
    unfold RecepteurTrames.flux
    rw [h3, Option.bind_some, k1]
    rfl

theorem exemple_script (n : ℕ) (l : List (List ℂ)) : ∀ script : List (List Fourier.Detection), l.length ≤ script.length → fluxDet (exempleRec n).det script l = some (script.drop l.length, script.take l.length) := by
  induction l with
  | nil => intro script _; simp [fluxDet]
  | cons x l ih =>
    intro script h
    cases script with
    | nil => simp at h
    | cons a sc =>
      simp only [List.length_cons, Nat.add_le_add_iff_right] at h
      unfold fluxDet
      simp only [exempleRec, List.tail_cons, List.headD_cons, Option.bind_some]
      have := ih sc h
      simp only [exempleRec] at this
      rw [this]
      simp

/-- **C149 (refutation: position relative to the call that delivers the frame).**  Calls of exactly one block of 4 samples, a header found at the absolute position 0 during the second call, a frame of 6 bits delivered by a later call: its reported position is `-4`, relative to
the buffer of the second call; whatever the call `k` that delivers it, the position relative to the buffer of this call is wrong. -/
theorem C149_appel_refute (x0 x1 x2 x3 : List ℂ) (h0 : x0.length = 4) (h1 : x1.length = 4) (h2 : x2.length = 4) (h3 : x3.length = 4) : ∃ s s' l, RecepteurTrames.cree (exempleRec 6) [[], [exempleDet], [], []] = some s ∧
    s.flux (exempleRec 6) [x0, x1, x2, x3] = some (s', l) ∧ l.flatten ≠ [] ∧ ∀ k, ∀ t ∈ l.getD k [], t.det.position = -4 ∧ (k * 4 : ℤ) + t.det.position ≠ 1 * (exempleRec 6).Ne + exempleDet.position := by
  have hlen : [x0, x1, x2, x3].flatten.length = 16 := by simp [h0, h1, h2, h3]
  have hf : fluxDet (exempleRec 6).det [[], [exempleDet], [], []] (Tampon.paquets 4 [x0, x1, x2, x3].flatten) = some ([], [[], [exempleDet], [], []]) := by
    rw [exemple_script _ _ _ (by rw [paquets_longueur, hlen]; simp), paquets_longueur, hlen]
    rfl
  obtain ⟨s, s', l, e1, e2⟩ := exempleRec_flux 6 [x0, x1, x2, x3] [[], [exempleDet], [], []] (by simp) _ _ hf
  refine ⟨s, s', l, e1, e2, ?_, ?_⟩
  · obtain ⟨t, ht, -⟩ := C146_complet (exempleRec 6) (exempleRec_valide 6) _ _ s s' e1 _ l e2 _ hf 1 4 (by norm_num) (by rw [hlen]; simp [exempleRec]) exempleDet (by simp) (fun j h1 h2 => by
      have : j = 2 := by omega
      subst this
      rfl) (by
      rw [exempleDet_debut, exempleRec_nspl]
      simp [exempleRec])
    exact List.ne_nil_of_mem ht
  · obtain ⟨sa, a, b, f1, f2, rfl, f4⟩ := flux_coupe (exempleRec 6) [x0, x1] [x2, x3] s s' l e2
    have ha : a.flatten = [] := by
      obtain ⟨d1, dets, L, k1, k2, k3⟩ := C146_trames (exempleRec 6) (exempleRec_valide 6) _ s sa e1 [x0, x1] a f1
      have hl2 : [x0, x1].flatten.length = 8 := by simp [h0, h1]
      rw [show (exempleRec 6).Ne = 4 from rfl, exemple_script _ _ _ (by rw [paquets_longueur, hl2]; simp), paquets_longueur, hl2] at k1
      simp only [Option.some.injEq, Prod.mk.injEq] at k1
      obtain ⟨-, rfl⟩ := k1
      by_contra hne
      obtain ⟨t, ht⟩ := List.exists_mem_of_ne_nil _ hne
      obtain ⟨p, hp, m1, -⟩ := forall2_membre k3 t ht
      have hp := k2.subset hp
      have hp' : p = (1, exempleDet) := by simpa [listeDet] using hp
      rw [hp'] at m1
      have := exempleRec_court 6 _ 1 (le_refl _) t m1 (by norm_num)
      rw [hl2] at this
      omega
    intro k t ht
    have hk : 2 ≤ k := by
      by_contra hk
      have : t ∈ a.flatten := by
        rw [List.getD_append _ _ _ _ (by rw [f4]; simp; omega)] at ht
        refine List.mem_flatten.2 ⟨a.getD k [], ?_, ht⟩
        rw [List.getD_eq_getElem _ _ (by rw [f4]; simp; omega)]
        exact List.getElem_mem _
      rw [ha] at this
      cases this
    obtain ⟨d1, dets, L, k1, k2, k3⟩ := C146_trames (exempleRec 6) (exempleRec_valide 6) _ s s' e1 _ _ e2
    rw [show (exempleRec 6).Ne = 4 from rfl, hf] at k1
    simp only [Option.some.injEq, Prod.mk.injEq] at k1
    obtain ⟨-, rfl⟩ := k1
    have htm : t ∈ (a ++ b).flatten := by
      by_cases hk2 : k < (a ++ b).length
      · refine List.mem_flatten.2 ⟨(a ++ b).getD k [], ?_, ht⟩
        rw [List.getD_eq_getElem _ _ hk2]
        exact List.getElem_mem _
      · rw [List.getD_eq_default _ _ (by omega)] at ht
        cases ht
    obtain ⟨p, hp, -, -, m3⟩ := forall2_membre k3 t htm
    have hp := k2.subset hp
    have hp' : p = (1, exempleDet) := by simpa [listeDet] using hp
    have hpos : t.det.position = -4 := by
      rw [m3, hp']
      simp [decalageRec, exempleRec, h0, h1, h2, h3, ConfigRec.reporte, exempleDet]
    refine ⟨hpos, ?_⟩
    rw [hpos]
    simp only [exempleRec, exempleDet]
    push_cast
    omega

/-- **C150 (refutation: a header found during a frame makes the frame lost).**  Frames of 10 bits, 24 samples cut in any way into calls, two headers detected, at the samples 0 and 4: the signal contains all the samples of both frames, but only one frame is delivered (the second one): a detection
abandons the frame in progress. -/
theorem C150_perdue_refute (xs : List (List ℂ)) (hx : xs.flatten.length = 24) : ∃ s s' l, RecepteurTrames.cree (exempleRec 10) [[], [exempleDet], [exempleDet], [], [], []] = some s ∧ s.flux (exempleRec 10) xs = some (s', l) ∧
    debutTrame (exempleRec 10) 1 exempleDet + (exempleRec 10).nspl ≤ xs.flatten.length ∧ debutTrame (exempleRec 10) 2 exempleDet + (exempleRec 10).nspl ≤ xs.flatten.length ∧ l.flatten.length = 1 ∧ ∃ t ∈ l.flatten, Livree (exempleRec 10) xs.flatten 2 exempleDet t := by
  have hf : fluxDet (exempleRec 10).det [[], [exempleDet], [exempleDet], [], [], []] (Tampon.paquets 4 xs.flatten) = some ([], [[], [exempleDet], [exempleDet], [], [], []]) := by
    rw [exemple_script _ _ _ (by rw [paquets_longueur, hx]; simp), paquets_longueur, hx]
    rfl
  obtain ⟨s, s', l, e1, e2⟩ := exempleRec_flux 10 xs [[], [exempleDet], [exempleDet], [], [], []] (by simp) _ _ hf
  have hc := exempleRec_valide 10
  obtain ⟨t, ht, hl⟩ := C146_complet (exempleRec 10) hc _ _ s s' e1 _ l e2 _ hf 2 6 (by norm_num) (by rw [hx]; simp [exempleRec]) exempleDet (by simp) (fun j h1 h2 => by
      have : j = 3 ∨ j = 4 := by omega
      rcases this with rfl | rfl <;> rfl) (by
      rw [exempleDet_debut, exempleRec_nspl]
      simp [exempleRec])
  refine ⟨s, s', l, e1, e2, by rw [exempleDet_debut, exempleRec_nspl, hx]; norm_num, by rw [exempleDet_debut, exempleRec_nspl, hx]; norm_num, ?_, t, ht, hl⟩
  have hge : 1 ≤ l.flatten.length := List.length_pos_of_mem ht
  refine le_antisymm ?_ hge
  rcases recepteur_blocs _ hc.Ne _ s e1 xs with ⟨k, -⟩ | ⟨s1, l1, e, k1, k2, k3, -⟩
  · rw [e2] at k; cases k
  rw [e2] at k1
  simp only [Option.some.injEq, Prod.mk.injEq] at k1
  obtain ⟨rfl, rfl⟩ := k1
  have hlen : l.flatten.length = e.trames.length := by
    have := congrArg List.length k3
    rw [List.length_map, List.length_map] at this
    exact this
  rw [hlen]
  obtain ⟨h1, h2, h3, h4, h5, h6, h7⟩ := recepteur_neuf _ hc.Ne _ s e1
  obtain ⟨i1, i2⟩ := inv_neuf _ hc _ s e1
  rw [show (exempleRec 10).Ne = 4 from rfl] at k2
  set P := Tampon.paquets 4 xs.flatten with hP
  have hPl : P.length = 6 := by rw [hP, paquets_longueur, hx]
  have hPt : ∀ q ∈ P, q.length = 4 := paquets_taille _ _
  rw [← List.take_append_drop 3 P, blocs_append] at k2
  obtain ⟨sA, eA, eB⟩ := Option.bind_eq_some_iff.1 k2
  have hAl : (P.take 3).length = 3 := by rw [List.length_take]; omega
  have hBl : (P.drop 3).length = 3 := by rw [List.length_drop]; omega
  set ofs : ℕ → ℕ := fun j => j * 4 with hofs
  obtain ⟨ds1, q1, q2, q3, q0, q4, q5⟩ := blocs_suite _ hc ofs (P.take 3) [] s.etat sA [] i1 (fun j _ => by rw [h6]; simp [hofs, exempleRec]) rfl (i2 _) eA
  rw [List.nil_append] at q3 q5
  rw [h4, exemple_script _ _ _ (by rw [hAl]; simp), hAl] at q1
  simp only [Option.some.injEq, Prod.mk.injEq] at q1
  obtain ⟨hdA, rfl⟩ := q1
  have hX : (P.take 3).flatten.length = 12 := by rw [flatten_longueur 4 _ (fun x hx => hPt x (List.mem_of_mem_take hx)), hAl]
  obtain ⟨L, Q, m1, m2, m3⟩ := q5
  have hLs : L = [] := by
    by_contra hne
    obtain ⟨p, hp⟩ := List.exists_mem_of_ne_nil _ hne
    obtain ⟨t', ht', m4, -⟩ := forall2_membre (m3.flip) p hp
    have hp' := m2.subset (List.mem_append_left Q hp)
    have hp2 : p = (1, exempleDet) ∨ p = (2, exempleDet) := by simpa [listeDet] using hp'
    rcases hp2 with rfl | rfl
    · have := exempleRec_court 10 _ 1 (le_refl _) t' m4 (by norm_num)
      rw [hX] at this
      omega
    · have := exempleRec_court 10 _ 2 (by norm_num) t' m4 (by norm_num)
      rw [hX] at this
      omega
  subst hLs
  have hQ : Q.length ≤ 1 := by
    rcases m1 with ⟨rfl, -⟩ | ⟨b, d, rfl, -⟩ <;> simp
  -- the following blocks have no detection
  have key : ∀ (ys : List (List ℂ)) (l : List (List ℂ)) (a a' : EtatRec (List (List Fourier.Detection)) Unit), InvRec (exempleRec 10) l a → (∀ j : ℕ, j < ys.length → a.cnt + j * 4 = ofs (l.length + j)) → (∀ D ∈ a.det, D = []) → SaineRec (exempleRec 10) ofs l.flatten Q a →
      EtatRec.blocs (exempleRec 10) a ys = some a' → a'.trames.length ≤ 1 := by
    intro ys
    induction ys with
    | nil =>
      intro l a a' _ _ _ g h
      obtain rfl := Option.some.inj h
      obtain ⟨L', Q', -, n2, n3⟩ := g
      rw [← n3.length_eq]
      have := n2.length_le
      rw [List.length_append] at this
      omega
    | cons y ys ih =>
      intro l a a' g1 gn gd g h
      unfold EtatRec.blocs at h
      obtain ⟨a1, j1, j2⟩ := Option.bind_eq_some_iff.1 h
      have hn0 : a.cnt = ofs l.length := by simpa using gn 0 (by simp)
      obtain ⟨ds, n1, n2, n0, -, n3, -⟩ := stepNe_suite (exempleRec 10) hc ofs l y a a1 g1 hn0 Q g j1
      have n1' : (a.det.tail, a.det.headD []) = (a1.det, ds) := by simpa [exempleRec] using n1
      simp only [Prod.mk.injEq] at n1'
      obtain ⟨r1, r2⟩ := n1'
      have hds : ds = [] := by
        rw [← r2]
        cases hd : a.det with
        | nil => rfl
        | cons D _ => exact gd D (by rw [hd]; exact List.mem_cons_self)
      subst hds
      refine ih (l ++ [y]) a1 a' n2 (fun j hj => ?_) (fun D hD => gd D (List.mem_of_mem_tail (by rw [r1]; exact hD))) (by simpa using n3) j2
      have := gn (j + 1) (by simpa using hj)
      rw [n0, show (exempleRec 10).Ne = 4 from rfl, List.length_append, List.length_singleton, Nat.add_assoc l.length, Nat.add_comm 1, ← this]
      ring
  refine key (P.drop 3) (P.take 3) sA e q3 (fun j _ => ?_) ?_ ⟨[], Q, m1, List.Sublist.refl _, m3⟩ eB
  · rw [q0, h6, hAl, hofs]
    simp only [exempleRec]
    ring
  · rw [← hdA]
    simp

end Verif.Telecom
