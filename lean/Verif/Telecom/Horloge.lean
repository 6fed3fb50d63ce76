import Mathlib.Analysis.SpecialFunctions.Complex.Circle

/-!
# Model of the clock recovery (core/src/telecom/clock-rec.cc), `ClockRec`

Exact real arithmetic instead of `float`. The interpolator is a parameter (`itrp window index phase`, `none`: error); see C32 for the interpolators of the library.
The debug figures are not modelled.
-/

namespace Verif.Telecom

/-- Configuration: oversampling factor, oversampling factor of the detector, time constant, length of the window of the interpolator, interpolator. core/src/telecom/clock-rec.cc:110-137. -/
structure ConfigHorloge where
  K1 : ℕ
  K2 : ℕ
  tc : ℝ
  K : ℕ
  itrp : List ℂ → ℕ → ℝ → Option ℂ

/-- `gain`, core/src/telecom/clock-rec.cc:132-133. -/
noncomputable def ConfigHorloge.gain (c : ConfigHorloge) : ℝ := c.K1 * (1 - Real.exp (-1 / (c.tc * c.K1)))

/-- State of `ClockRec`, core/src/telecom/clock-rec.cc:99-106. -/
structure Horloge where
  phase : ℝ
  cnt : ℕ
  fen : List ℂ
  idx : ℕ
  x0 : ℂ
  x1 : ℂ
  x2 : ℂ

/-- The constructor, core/src/telecom/clock-rec.cc:110-143; a null `K2` violates an assertion. -/
noncomputable def Horloge.cree (c : ConfigHorloge) : Option Horloge :=
  if c.K2 = 0 then none else some ⟨(c.K1 : ℝ) / 2, 0, List.replicate c.K 0, 0, 0, 0, 0⟩

/-- Timing error of a symbol (Gardner formula, whatever the detector of the configuration), core/src/telecom/clock-rec.cc:271. -/
noncomputable def erreurHorloge (x0 x1 x2 : ℂ) : ℝ := ((x2 - x0) * (starRingEnd ℂ) x1).re

/-- Correction of the phase, core/src/telecom/clock-rec.cc:285-290: `clamp(gain * e, -K1/4, K1/4)`. -/
noncomputable def correctionHorloge (c : ConfigHorloge) (e : ℝ) : ℝ := max (-(c.K1 : ℝ) / 4) (min (c.gain * e) ((c.K1 : ℝ) / 4))

/-- One sample, core/src/telecom/clock-rec.cc:208-311: new state, and the output if a symbol is complete. A window without elements is a modulo by zero. -/
noncomputable def Horloge.pas (c : ConfigHorloge) (s : Horloge) (x : ℂ) : Option (Horloge × Option ℂ) :=
  if c.K = 0 then none
  else
    let fen := s.fen.set s.idx x
    let idx := (s.idx + 1) % c.K
    let phase := s.phase - 1
    if 1 < phase then some ({ s with fen := fen, idx := idx, phase := phase }, none)
    else (c.itrp fen idx phase).map fun v : ℂ =>
      let phase := phase + (c.K1 : ℝ) / c.K2
      if s.cnt = c.K2 - 1 then
        ({ phase := phase - correctionHorloge c (erreurHorloge s.x1 s.x2 v), cnt := 0, fen := fen, idx := idx, x0 := s.x1, x1 := s.x2, x2 := v }, some v)
      else ({ phase := phase, cnt := s.cnt + 1, fen := fen, idx := idx, x0 := s.x1, x1 := s.x2, x2 := v }, none)

/-- The loop on the samples, core/src/telecom/clock-rec.cc:194-311: `place` is the room left in the result (`assertion(oindex < nout_max)`). -/
noncomputable def Horloge.boucle (c : ConfigHorloge) : ℕ → Horloge → List ℂ → Option (Horloge × List ℂ)
  | _, s, [] => some (s, [])
  | place, s, x :: l => (s.pas c x).bind fun r : Horloge × Option ℂ =>
    match r.2 with
    | none => Horloge.boucle c place r.1 l
    | some v =>
      match place with
      | 0 => none
      | place + 1 => (Horloge.boucle c place r.1 l).map fun q : Horloge × List ℂ => (q.1, v :: q.2)

/-- `ClockRec::step`, core/src/telecom/clock-rec.cc:152-316: room for `2 + n / osf` symbols. -/
noncomputable def Horloge.step (c : ConfigHorloge) (s : Horloge) (x : List ℂ) : Option (Horloge × List ℂ) :=
  if c.K1 = 0 then none else Horloge.boucle c (2 + x.length / c.K1) s x

end Verif.Telecom
