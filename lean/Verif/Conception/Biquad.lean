import Verif.Conception.Rii

/-!
# Model of the second order designs (core/src/filtrage/rii.cc:489-667)

Exact real arithmetic instead of `float`.
-/

namespace Verif.Rii

open Verif.FracRat

/-- `BiquadSpec::Type`, core/include/tsd/filtrage.hpp:568-584. -/
inductive TypeBiquad | passeBas | passeHaut | passeBande | coupeBande | resonateur | plateauBf | plateauHf
  deriving DecidableEq

/-- `BiquadSpec`, core/include/tsd/filtrage.hpp:565-596. -/
structure BiquadSpec where
  type : TypeBiquad
  f : ℝ
  Q : ℝ
  gain : ℝ

/-- The coefficients `b0, b1, b2, a0, a1, a2` before normalisation. -/
structure CoefsBiquad where
  b0 : ℝ
  b1 : ℝ
  b2 : ℝ
  a0 : ℝ
  a1 : ℝ
  a2 : ℝ

/-- The switch of `design_biquad(spec)`, core/src/filtrage/rii.cc:595-655, given `sin ω`, `cos ω`, `A`, `α`, `β`. -/
noncomputable def coefsBiquad (sn cs A α β : ℝ) : TypeBiquad → CoefsBiquad
  | .passeBas => { b0 := (1 - cs) / 2, b1 := 1 - cs, b2 := (1 - cs) / 2, a0 := 1 + α, a1 := -2 * cs, a2 := 1 - α }
  | .passeHaut => { b0 := (1 + cs) / 2, b1 := -(1 + cs), b2 := (1 + cs) / 2, a0 := 1 + α, a1 := -2 * cs, a2 := 1 - α }
  | .passeBande => { b0 := α, b1 := 0, b2 := -α, a0 := 1 + α, a1 := -2 * cs, a2 := 1 - α }
  | .coupeBande => { b0 := 1, b1 := -2 * cs, b2 := 1, a0 := 1 + α, a1 := -2 * cs, a2 := 1 - α }
  | .resonateur => { b0 := 1 + α * A, b1 := -2 * cs, b2 := 1 - α * A, a0 := 1 + α / A, a1 := -2 * cs, a2 := 1 - α / A }
  | .plateauBf =>
    { b0 := A * ((A + 1) - (A - 1) * cs + β * sn), b1 := 2 * A * ((A - 1) - (A + 1) * cs), b2 := A * ((A + 1) - (A - 1) * cs - β * sn),
      a0 := (A + 1) + (A - 1) * cs + β * sn, a1 := -2 * ((A - 1) + (A + 1) * cs), a2 := (A + 1) + (A - 1) * cs - β * sn }
  | .plateauHf =>
    { b0 := A * ((A + 1) + (A - 1) * cs + β * sn), b1 := -2 * A * ((A - 1) + (A + 1) * cs), b2 := A * ((A + 1) + (A - 1) * cs - β * sn),
      a0 := (A + 1) - (A - 1) * cs + β * sn, a1 := 2 * ((A - 1) - (A + 1) * cs), a2 := (A + 1) - (A - 1) * cs - β * sn }

/-- The coefficients computed by `design_biquad(spec)`, core/src/filtrage/rii.cc:577-655. -/
noncomputable def coefsSpec (s : BiquadSpec) : CoefsBiquad :=
  let A := Real.sqrt (db2mag s.gain)
  let w := 2 * Real.pi * s.f
  coefsBiquad (Real.sin w) (Real.cos w) A (Real.sin w / (2 * s.Q)) (Real.sqrt (2 * A)) s.type

section
variable {K : Type} [Field K] [DecidableEq K]

/-- The polynomial `c0 + c1 z⁻¹ + c2 z⁻²` built with rational functions, core/src/filtrage/rii.cc:664-666: `c0 + c1 * z + c2 * z.pow(2)` with `z` the inverse of
the monomial. -/
def polyBiquad (c0 c1 c2 : K) : FRat K :=
  let z := (FRat.z (K := K)).inv
  ((z.mulScal c1).addScal c0).add ((z.pow 2).mulScal c2)

/-- The rational function returned by `design_biquad(spec)`, core/src/filtrage/rii.cc:657-666, given the coefficients. -/
def fratBiquad (b0 b1 b2 a0 a1 a2 : K) : FRat K :=
  (polyBiquad (b0 / a0) (b1 / a0) (b2 / a0)).div (polyBiquad 1 (a1 / a0) (a2 / a0))

end

/-- `design_biquad(spec)`, core/src/filtrage/rii.cc:577-667. -/
noncomputable def designBiquad (s : BiquadSpec) : FRat ℝ := by
  classical exact
    let c := coefsSpec s
    fratBiquad c.b0 c.b1 c.b2 c.a0 c.a1 c.a2

/-- The names of types of `design_biquad(type, f, Q, gain)`, core/src/filtrage/rii.cc:492-505. An unknown name leaves the field `type` at its value-initialised value
`PASSE_BAS` (designated initialisation, line 491). -/
def typeBiquad (t : String) : TypeBiquad :=
  if t = "lp" ∨ t = "pb" then .passeBas
  else if t = "hp" ∨ t = "ph" then .passeHaut
  else if t = "bp" ∨ t = "passe-bande" then .passeBande
  else if t = "cb" ∨ t = "notch" ∨ t = "sb" then .coupeBande
  else if t = "plateau-bf" then .plateauBf
  else if t = "plateau-hf" then .plateauHf
  else if t = "res" then .resonateur
  else .passeBas

/-- `design_biquad(type, f, Q, gain_dB)`, core/src/filtrage/rii.cc:489-507. -/
noncomputable def designBiquadNom (t : String) (f Q gain : ℝ) : FRat ℝ := designBiquad { type := typeBiquad t, f := f, Q := Q, gain := gain }

end Verif.Rii
