import Verif.Telecom.RecepteurBase

/-!
# Receiver: a frame received in several blocks is the frame received in one block
-/

namespace Verif.Telecom

open Filtre (Decoupable enchaine boucle)

/-- Valid configurations of a receiver: non-empty blocks, filters and symbols, demodulator at one sample per symbol. -/
structure ValideRec {D C : Type} (c : ConfigRec D C) : Prop where
  Ne : 0 < c.Ne
  k : 0 < c.k
  osf : 0 < c.osf
  h : c.h ≠ []
  itrp : ∀ τ h1, c.itrp τ = some h1 → h1 ≠ []
  demod : UnParSymbole c.demod
  kd : c.demod.k = c.k

/-- Specification: demodulation in one go of the samples `z` that follow the header detected by `d`: correction of the gain and of the phase, interpolation by the fractional part of the corrected position, matched filter, removal of the
delay, one sample per symbol, new demodulator. Bits and symbols. -/
noncomputable def horsLigne {D C : Type} (c : ConfigRec D C) (d : Fourier.Detection) (z : List ℂ) : Option (List Bool × List ℂ) :=
  (c.precise d).bind fun p : ℝ => (c.itrp (1 - Int.fract p)).bind fun h1 : List ℝ => (correctionRec d).bind fun g : ℂ =>
    (DemodDec.step c.demod (demodNeuf c.demod c.nbEntete) (Filtre.unSur c.osf ((filtree c.h (filtree h1 (z.map fun v : ℂ => v * g))).drop c.retard))).map fun b : DemodDec C × List Bool =>
      (b.2, Filtre.unSur c.osf ((filtree c.h (filtree h1 (z.map fun v : ℂ => v * g))).drop c.retard))

/-- The reception `r` of the frame of the detection `d` after the samples `z`. -/
def Suit {D C : Type} (c : ConfigRec D C) (d : Fourier.Detection) (cnt : ℕ) (z : List ℂ) (r : Reception C) : Prop :=
  ∃ p f g y bits, c.precise d = some p ∧ c.front (p - ⌊p⌋) = some f ∧ correctionRec d = some g ∧ f.step g z = some (r.front, y) ∧
    DemodDec.step c.demod (demodNeuf c.demod c.nbEntete) y = some (r.demod, bits) ∧ r.trame = ⟨c.reporte cnt d, bits.take c.nbits, z.take c.nbTheo, y.take (c.nbTheo / c.osf)⟩

theorem front_sain {D C : Type} (c : ConfigRec D C) (hc : ValideRec c) (δ : ℝ) (f : Front) (h : c.front δ = some f) : f.Sain c.osf := by
  obtain ⟨h1, e, rfl⟩ := Option.map_eq_some_iff.1 h
  refine ⟨?_, ?_, 0, hc.osf, rfl⟩
  · simpa [Filtre.Rif.init] using hc.itrp _ _ e
  · simpa [Filtre.Rif.init] using hc.h

theorem clamp_fract (p : ℝ) : max 0 (min 1 (1 - (p - ⌊p⌋))) = 1 - Int.fract p := by
  have h1 := Int.fract_nonneg p
  have h2 := Int.fract_lt_one p
  rw [show p - ⌊p⌋ = Int.fract p from rfl, min_eq_right (by linarith), max_eq_right (by linarith)]

/-- What the new filters give. -/
theorem front_horsLigne {D C : Type} (c : ConfigRec D C) (hc : ValideRec c) (p : ℝ) (f : Front) (h : c.front (p - ⌊p⌋) = some f) (g : ℂ) (z : List ℂ) :
    ∃ h1 s, c.itrp (1 - Int.fract p) = some h1 ∧ f.step g z = some (s, Filtre.unSur c.osf ((filtree c.h (filtree h1 (z.map fun v : ℂ => v * g))).drop c.retard)) := by
  obtain ⟨h1, e, rfl⟩ := Option.map_eq_some_iff.1 h
  rw [clamp_fract] at e
  obtain ⟨s, e2⟩ := front_neuf h1 c.h c.retard c.osf hc.osf (hc.itrp _ _ e) hc.h g z
  exact ⟨h1, s, e, e2⟩

/-- The invariant gives the specification. -/
theorem suit_horsLigne {D C : Type} (c : ConfigRec D C) (hc : ValideRec c) (d : Fourier.Detection) (cnt : ℕ) (z : List ℂ) (r : Reception C) (h : Suit c d cnt z r) :
    ∃ bits y, horsLigne c d z = some (bits, y) ∧ r.trame = ⟨c.reporte cnt d, bits.take c.nbits, z.take c.nbTheo, y.take (c.nbTheo / c.osf)⟩ ∧ Calme c.demod r.demod := by
  obtain ⟨p, f, g, y, bits, e1, e2, e3, e4, e5, e6⟩ := h
  obtain ⟨h1, s, k1, k2⟩ := front_horsLigne c hc p f e2 g z
  rw [e4] at k2
  simp only [Option.some.injEq, Prod.mk.injEq] at k2
  refine ⟨bits, y, ?_, e6, (demod_calme c.demod hc.demod _ _ (calme_neuf _ _) _ _ e5).1⟩
  unfold horsLigne
  rw [e1, Option.bind_some, k1, Option.bind_some, e3, Option.bind_some, ← k2.2, e5]
  rfl

/-- Number of bits of the specification. -/
theorem horsLigne_longueur {D C : Type} (c : ConfigRec D C) (hc : ValideRec c) (d : Fourier.Detection) (z : List ℂ) (bits : List Bool) (y : List ℂ) (h : horsLigne c d z = some (bits, y)) :
    bits.length = c.k * y.length ∧ z.length - c.retard ≤ c.osf * y.length := by
  unfold horsLigne at h
  obtain ⟨p, -, h⟩ := Option.bind_eq_some_iff.1 h
  obtain ⟨h1, -, h⟩ := Option.bind_eq_some_iff.1 h
  obtain ⟨g, -, h⟩ := Option.bind_eq_some_iff.1 h
  obtain ⟨b, h3, h⟩ := Option.map_eq_some_iff.1 h
  simp only [Prod.mk.injEq] at h
  obtain ⟨rfl, rfl⟩ := h
  obtain ⟨-, k2⟩ := demod_calme c.demod hc.demod _ _ (calme_neuf _ _) _ _ h3
  refine ⟨by rw [k2, hc.kd], ?_⟩
  have := (unSur_longueur c.osf hc.osf ((filtree c.h (filtree h1 (z.map fun v : ℂ => v * g))).drop c.retard)).1
  simpa [filtree] using this

/-- The number of samples extracted at a detection is sufficient. -/
theorem nspl_suffit {D C : Type} (c : ConfigRec D C) (hc : ValideRec c) (d : Fourier.Detection) (z : List ℂ) (bits : List Bool) (y : List ℂ) (h : horsLigne c d z = some (bits, y)) (hz : c.nspl ≤ z.length) :
    c.nbits ≤ bits.length := by
  obtain ⟨h1, h2⟩ := horsLigne_longueur c hc d z bits y h
  rw [h1]
  have h3 : (c.nbits * c.osf + c.k - 1) / c.k ≤ c.osf * y.length := by
    unfold ConfigRec.nspl at hz
    omega
  have hk := hc.k
  have h4 : c.nbits * c.osf ≤ c.k * ((c.nbits * c.osf + c.k - 1) / c.k) := by
    have := Nat.div_add_mod (c.nbits * c.osf + c.k - 1) c.k
    have := Nat.mod_lt (c.nbits * c.osf + c.k - 1) hk
    omega
  have h5 : c.nbits * c.osf ≤ (c.k * y.length) * c.osf := by
    calc c.nbits * c.osf ≤ c.k * ((c.nbits * c.osf + c.k - 1) / c.k) := h4
      _ ≤ c.k * (c.osf * y.length) := Nat.mul_le_mul_left _ h3
      _ = (c.k * y.length) * c.osf := by ring
  exact Nat.le_of_mul_le_mul_right h5 hc.osf

theorem take_append_take {α : Type} (n : ℕ) (a b : List α) : (a.take n ++ b).take n = (a ++ b).take n := by
  rw [List.take_append, List.take_append, List.take_take, min_self, List.length_take]
  congr 2
  omega

theorem take_append_reste {α : Type} (n : ℕ) (a b : List α) : a.take n ++ b.take (n - (a.take n).length) = (a ++ b).take n := by
  rw [List.take_append, List.length_take]
  congr 2
  omega

/-- One more block: the invariant goes on, and the block fails only if the specification fails. -/
theorem suit_step {D C : Type} (c : ConfigRec D C) (hc : ValideRec c) (d : Fourier.Detection) (cnt : ℕ) (z : List ℂ) (r : Reception C) (h : Suit c d cnt z r) (x : List ℂ) :
    (r.step c x = none ∧ horsLigne c d (z ++ x) = none) ∨ ∃ r', r.step c x = some r' ∧ Suit c d cnt (z ++ x) r' := by
  obtain ⟨p, f, g, y, bits, e1, e2, e3, e4, e5, e6⟩ := h
  have hf := front_sain c hc _ _ e2
  have hF := front_decoupable c.osf hc.osf g
  have hG := demod_decoupable c.demod
  obtain ⟨h1, s, k1, k2⟩ := front_horsLigne c hc p f e2 g (z ++ x)
  have k3 := k2
  rw [hF.2.2 _ _ _ hf, e4] at k3
  simp only at k3
  have hcor : correctionRec r.trame.det = some g := by rw [e6]; exact e3
  cases h2 : r.front.step g x with
  | none => rw [h2] at k3; cases k3
  | some q =>
    rw [h2] at k3
    simp only [Option.some.injEq, Prod.mk.injEq] at k3
    have hs : (demodNeuf c.demod c.nbEntete).avant.Sain := ⟨fun u hu => (by cases hu), fun u hu => (by cases hu)⟩
    have k4 := hG.2.2 _ y q.2 hs
    rw [e5] at k4
    simp only at k4
    cases h3 : DemodDec.step c.demod r.demod q.2 with
    | none =>
      left
      rw [h3] at k4
      refine ⟨?_, ?_⟩
      · unfold Reception.step
        rw [if_neg hc.k.ne', hcor, Option.bind_some, h2, Option.bind_some, h3]
        rfl
      · unfold horsLigne
        rw [e1, Option.bind_some, k1, Option.bind_some, e3, Option.bind_some, ← k3.2, k4]
        rfl
    | some w =>
      right
      rw [h3] at k4
      simp only at k4
      refine ⟨⟨q.1, w.1, ⟨r.trame.det, r.trame.bs ++ w.2.take (c.nbits - r.trame.bs.length), (r.trame.x ++ x).take c.nbTheo, (r.trame.x1 ++ q.2).take (c.nbTheo / c.osf)⟩⟩, ?_, p, f, g, y ++ q.2, bits ++ w.2, e1, e2, e3, ?_, k4, ?_⟩
      · unfold Reception.step
        rw [if_neg hc.k.ne', hcor, Option.bind_some, h2, Option.bind_some, h3]
        rfl
      · rw [k2, ← k3.1, ← k3.2]
      · rw [e6]
        simp only
        rw [take_append_reste, take_append_take, take_append_take]

/-- Beginning of a frame. -/
theorem suit_debut {D C : Type} (c : ConfigRec D C) (hc : ValideRec c) (d : Fourier.Detection) (cnt : ℕ) (p : ℝ) (f : Front) (g : ℂ) (h1 : c.precise d = some p) (h2 : c.front (p - ⌊p⌋) = some f) (h3 : correctionRec d = some g) :
    Suit c d cnt [] ⟨f, demodNeuf c.demod c.nbEntete, ⟨c.reporte cnt d, [], [], []⟩⟩ := by
  refine ⟨p, f, g, [], [], h1, h2, h3, (front_decoupable c.osf hc.osf g).1 _ (front_sain c hc _ _ h2), by simp [DemodDec.step], by simp⟩

/-- More samples: the bits and the symbols go on. -/
theorem horsLigne_prefixe {D C : Type} (c : ConfigRec D C) (hc : ValideRec c) (d : Fourier.Detection) (z x : List ℂ) (bits' : List Bool) (y' : List ℂ) (h : horsLigne c d (z ++ x) = some (bits', y')) :
    ∃ bits y, horsLigne c d z = some (bits, y) ∧ bits <+: bits' ∧ y <+: y' := by
  unfold horsLigne at h
  obtain ⟨p, e1, h⟩ := Option.bind_eq_some_iff.1 h
  obtain ⟨h1, e2, h⟩ := Option.bind_eq_some_iff.1 h
  obtain ⟨g, e3, h⟩ := Option.bind_eq_some_iff.1 h
  obtain ⟨b, e4, h⟩ := Option.map_eq_some_iff.1 h
  simp only [Prod.mk.injEq] at h
  obtain ⟨f, hf⟩ : ∃ f, c.front (p - ⌊p⌋) = some f := by
    unfold ConfigRec.front
    rw [clamp_fract, e2]
    exact ⟨_, rfl⟩
  obtain ⟨h1', s1, k1, k2⟩ := front_horsLigne c hc p f hf g z
  obtain ⟨h1'', s2, k3, k4⟩ := front_horsLigne c hc p f hf g (z ++ x)
  rw [e2] at k1 k3
  obtain rfl := Option.some.inj k1
  obtain rfl := Option.some.inj k3
  rw [(front_decoupable c.osf hc.osf g).2.2 _ _ _ (front_sain c hc _ _ hf), k2] at k4
  simp only at k4
  cases h2 : s1.step g x with
  | none => rw [h2] at k4; cases k4
  | some q =>
    rw [h2] at k4
    simp only [Option.some.injEq, Prod.mk.injEq] at k4
    have hs : (demodNeuf c.demod c.nbEntete).avant.Sain := ⟨fun u hu => (by cases hu), fun u hu => (by cases hu)⟩
    rw [← k4.2, (demod_decoupable c.demod).2.2 _ _ q.2 hs] at e4
    cases h3 : DemodDec.step c.demod (demodNeuf c.demod c.nbEntete) (Filtre.unSur c.osf ((filtree c.h (filtree h1 (z.map fun v : ℂ => v * g))).drop c.retard)) with
    | none => rw [h3] at e4; cases e4
    | some w =>
      rw [h3] at e4
      simp only at e4
      refine ⟨w.2, Filtre.unSur c.osf ((filtree c.h (filtree h1 (z.map fun v : ℂ => v * g))).drop c.retard), ?_, ?_, ?_⟩
      · unfold horsLigne
        rw [e1, Option.bind_some, e2, Option.bind_some, e3, Option.bind_some, h3]
        rfl
      · cases h4 : DemodDec.step c.demod w.1 q.2 with
        | none => rw [h4] at e4; cases e4
        | some v =>
          rw [h4] at e4
          simp only [Option.some.injEq] at e4
          rw [← h.1, ← e4]
          exact ⟨v.2, rfl⟩
      · rw [← h.2, ← k4.2]
        exact ⟨q.2, rfl⟩

end Verif.Telecom
