import Verif.Poly.Model
import Verif.Util.Model
import Mathlib.Analysis.SpecialFunctions.Trigonometric.Basic
import Mathlib.Analysis.SpecialFunctions.Trigonometric.Arctan
import Mathlib.Analysis.SpecialFunctions.Arsinh
import Mathlib.Analysis.SpecialFunctions.Pow.Real
import Mathlib.Analysis.Complex.Trigonometric

/-!
# Model of the recursive designs (core/src/filtrage/rii.cc)

Exact real and complex arithmetic instead of `float` / `cfloat`. An exception is `none`.
-/

namespace Verif.Rii

open Verif.FracRat

/-- `ωd_vers_ωa`, core/src/filtrage/rii.cc:20-23. -/
noncomputable def wdVersWa (wd fe : ℝ) : ℝ := 2 * fe * Real.tan (wd / (2 * fe))

/-- `ωa_vers_ωd`, core/src/filtrage/rii.cc:25-28. -/
noncomputable def waVersWd (wa fe : ℝ) : ℝ := 2 * fe * Real.arctan (wa / (2 * fe))

/-- `fd_vers_fa`, core/src/filtrage/rii.cc:30-33. -/
noncomputable def fdVersFa (fd : ℝ) : ℝ := Real.tan (Real.pi * fd) / Real.pi

/-- `fa_vers_fd`, core/src/filtrage/rii.cc:35-38. -/
noncomputable def faVersFd (fa : ℝ) : ℝ := Real.arctan (Real.pi * fa) / Real.pi

/-- `Poly<cfloat>::roots()`, core/src/filtrage/frat.cc:40-50: throws in coefficient mode. -/
def racinesDe (p : Poly ℂ) : Option (List ℂ) := if p.racines then some p.coefs else none

/-- One root of `trf_bilineaire`, core/src/filtrage/rii.cc:49, 51. -/
noncomputable def racineBilineaire (fe : ℝ) (r : ℂ) : ℂ := (r + 2 * fe) / (-r + 2 * fe)

/-- The product `∏ (2 fe - r)` of `trf_bilineaire`, core/src/filtrage/rii.cc:66-69. -/
noncomputable def produitGain (fe : ℝ) (l : List ℂ) : ℂ := (l.map fun r : ℂ => 2 * (fe : ℂ) - r).prod

/-- The body of `trf_bilineaire` once the roots are known, core/src/filtrage/rii.cc:49-72. -/
noncomputable def bilineaireDe (ha : FRat ℂ) (fe : ℝ) (z p : List ℂ) : FRat ℂ :=
  let nz := ha.numer.coefs.length
  let np := ha.denom.coefs.length
  let num : Poly ℂ := { Poly.deRacines (z.map (racineBilineaire fe)) with mlt := ha.numer.mlt }
  let den : Poly ℂ := { Poly.deRacines (p.map (racineBilineaire fe)) with mlt := ha.denom.mlt }
  let num := if nz < np then num.mul (Poly.deRacines (List.replicate (np - nz) (-1))) else num
  let den := if np < nz then den.mul (Poly.deRacines (List.replicate (nz - np) (-1))) else den
  ⟨{ num with mlt := num.mlt * (produitGain fe ha.numer.coefs / produitGain fe ha.denom.coefs) }, den⟩

/-- `trf_bilineaire`, core/src/filtrage/rii.cc:41-73. -/
noncomputable def trfBilineaire (ha : FRat ℂ) (fe : ℝ) : Option (FRat ℂ) :=
  (racinesDe ha.numer).bind fun z => (racinesDe ha.denom).map fun p => bilineaireDe ha fe z p

/-- One polynomial of `pban_vers_pha`, core/src/filtrage/rii.cc:132-141: inverted roots, multiplier, `m` more roots at zero. -/
noncomputable def inversePoly (p : Poly ℂ) (wc : ℝ) (m : ℕ) : Poly ℂ :=
  { coefs := p.coefs.map (fun r : ℂ => r⁻¹ * wc) ++ List.replicate m 0, racines := true, mlt := p.mlt * p.coefs.prod }

/-- `pban_vers_pha`, core/src/filtrage/rii.cc:125-144. -/
noncomputable def pbanVersPha (ha : FRat ℂ) (wc : ℝ) : Option (FRat ℂ) :=
  if ha.numer.racines && ha.denom.racines then
    some ⟨inversePoly ha.numer wc (ha.denom.coefs.length - ha.numer.coefs.length),
      inversePoly ha.denom wc (ha.numer.coefs.length - ha.denom.coefs.length)⟩
  else none

/-- `pban_vers_pba`, core/src/filtrage/rii.cc:173-189. -/
noncomputable def pbanVersPba (ha : FRat ℂ) (wc : ℝ) : Option (FRat ℂ) :=
  if ha.numer.racines && ha.denom.racines then
    some ⟨{ coefs := ha.numer.coefs.map (· * (wc : ℂ)), racines := true,
            mlt := ha.numer.mlt * (wc : ℂ) ^ (((ha.denom.coefs.length : ℤ) - 1) - ((ha.numer.coefs.length : ℤ) - 1)) },
          { coefs := ha.denom.coefs.map (· * (wc : ℂ)), racines := true, mlt := ha.denom.mlt }⟩
  else none

/-- The empty numerator in root mode of the all-pole prototypes, core/src/filtrage/rii.cc:212-213. -/
def numerVide : Poly ℂ := { coefs := [], racines := true, mlt := 1 }

/-- `butterworth_analogique`, core/src/filtrage/rii.cc:195-217. -/
noncomputable def butterworth (n : ℕ) : FRat ℂ :=
  ⟨numerVide, Poly.deRacines ((Util.linspace (1 : ℝ) n n).map fun k : ℝ => Complex.exp (((Real.pi * (2 * k + n - 1) / (2 * n) : ℝ) : ℂ) * Complex.I))⟩

/-- `signe`, core/include/tsd/tsd.hpp:82-84. -/
noncomputable def signe (x : ℝ) : ℝ := (if 0 < x then 1 else 0) - (if x < 0 then 1 else 0)

/-- `db2pow` on a floating-point value, core/include/tsd/tsd.hpp:448-455. -/
noncomputable def db2pow (x : ℝ) : ℝ := (10 : ℝ) ^ (x / 10)

/-- `db2mag` on a floating-point value, core/include/tsd/tsd.hpp:467-470. -/
noncomputable def db2mag (x : ℝ) : ℝ := db2pow (x / 2)

/-- The angles of the Chebyshev prototypes, core/src/filtrage/rii.cc:341-342, 376-377. -/
noncomputable def anglesTcheb (n : ℕ) : List ℝ := (Util.linspace (1 : ℝ) n n).map fun m : ℝ => (2 * m - 1) * (Real.pi / (2 * n))

/-- `ε` of `tchebychev_I_analogique`, core/src/filtrage/rii.cc:345. -/
noncomputable def epsTchebI (δ : ℝ) : ℝ := Real.sqrt (db2pow δ - 1)

/-- `tchebychev_I_analogique`, core/src/filtrage/rii.cc:339-370. -/
noncomputable def tchebychevI (n : ℕ) (δ : ℝ) : FRat ℂ :=
  let ash := Real.arsinh (1 / epsTchebI δ) / n
  let s := Real.sinh ash
  let c := Real.cosh ash
  let sc := s * signe s
  let den := Poly.deRacines ((anglesTcheb n).map fun θ : ℝ =>
    ((-Real.sin θ * signe (Real.sin θ) * sc : ℝ) : ℂ) + ((Real.cos θ : ℝ) : ℂ) * Complex.I * ((c : ℝ) : ℂ))
  ⟨{ numerVide with mlt := 1 * den.horner id 0 }, den⟩

/-- `copysign(1, x)`, core/src/filtrage/rii.cc:391-392 (the sign bit of a zero is not modelled: the theorems only use it for `x > 0`). -/
noncomputable def copieSigne (x : ℝ) : ℝ := if x < 0 then -1 else 1

/-- `ε` of `tchebychev_II_analogique`, core/src/filtrage/rii.cc:380. -/
noncomputable def epsTchebII (δ : ℝ) : ℝ := 1 / Real.sqrt (db2pow δ - 1)

/-- The angle whose cosine gives the zero of index `i` of `tchebychev_II_analogique`, core/src/filtrage/rii.cc:396. -/
noncomputable def angleZero (n i : ℕ) : ℝ := (Real.pi / 2) * (2 * ((i : ℝ) + 1) - 1) / n

/-- `tchebychev_II_analogique`, core/src/filtrage/rii.cc:372-404. For odd `n` the middle zero is `1 / cos(π/2)`: division by zero
(a very large value in `float`, because `π/2` is rounded), `none` here. -/
noncomputable def tchebychevII (n : ℕ) (δ : ℝ) : Option (FRat ℂ) :=
  let ash := Real.arsinh (1 / epsTchebII δ) / n
  let s := Real.sinh ash
  let c := Real.cosh ash
  let poles := (anglesTcheb n).map fun θ : ℝ =>
    1 / (((-s * Real.sin θ * copieSigne s * copieSigne (Real.sin θ) : ℝ) : ℂ) + Complex.I * ((c : ℝ) : ℂ) * ((Real.cos θ : ℝ) : ℂ))
  let zeros := (List.range n).map fun i : ℕ => 1 / (-Complex.I * ((Real.cos (angleZero n i) : ℝ) : ℂ))
  if n % 2 = 1 then none
  else
    let num := Poly.deRacines zeros
    let den := Poly.deRacines poles
    some ⟨{ num with mlt := 1 * (den.horner id 0 / num.horner id 0) }, den⟩

/-- The argument of the square root of `elliptique_analogique` for `n = 1`, core/src/filtrage/rii.cc:233. -/
noncomputable def argElliptique1 (rp : ℝ) : ℝ := 1 / db2pow rp - 1

/-- `TypeFiltre` restricted to the values which `parse_tf` returns, core/src/filtrage/rii.cc:468-480. -/
inductive TypeFiltre | passeBas | passeHaut | passeBande | coupeBande
  deriving DecidableEq

/-- `PrototypeAnalogique`, core/include/tsd/filtrage.hpp:656-662. -/
inductive Proto | butterworth | tchebychevI | tchebychevII | elliptique
  deriving DecidableEq

/-- `parse_proto`, core/src/filtrage/rii.cc:454-466 (`msg_erreur` throws). -/
def parseProto (s : String) : Option Proto :=
  if s.toList.take 1 = "b".toList then some .butterworth
  else if s = "cheb1" then some .tchebychevI
  else if s = "cheb2" then some .tchebychevII
  else if s.toList.take 5 = "ellip".toList then some .elliptique
  else none

/-- `parse_tf`, core/src/filtrage/rii.cc:468-480. -/
def parseTf (s : String) : Option TypeFiltre :=
  if s = "lp" ∨ s = "pb" then some .passeBas
  else if s = "hp" ∨ s = "ph" then some .passeHaut
  else if s = "pb" ∨ s = "bp" then some .passeBande
  else if s = "sb" then some .coupeBande
  else none

/-- The prototype chosen by `design_riia_laplace`, core/src/filtrage/rii.cc:413-425; the elliptic prototype is not modelled: `proto` only covers
the other three. -/
noncomputable def prototype (n : ℕ) (δbp δbc : ℝ) : Proto → Option (FRat ℂ)
  | .butterworth => some (butterworth n)
  | .tchebychevI => some (tchebychevI n δbp)
  | .tchebychevII => tchebychevII n δbc
  | .elliptique => none

/-- `design_riia_laplace` from a given prototype, core/src/filtrage/rii.cc:406-411, 427-444: only low-pass and high-pass, otherwise `msg_erreur` throws. -/
noncomputable def riiaLaplaceDe (ha : FRat ℂ) (fcut : ℝ) : TypeFiltre → Option (FRat ℂ)
  | .passeBas => pbanVersPba ha (wdVersWa (2 * Real.pi * fcut) 1)
  | .passeHaut => pbanVersPha ha (wdVersWa (2 * Real.pi * fcut) 1)
  | _ => none

/-- `design_riia(n, type, prototype, …)`, core/src/filtrage/rii.cc:406-452. -/
noncomputable def riia (n : ℕ) (t : TypeFiltre) (p : Proto) (fcut δbp δbc : ℝ) : Option (FRat ℂ) :=
  (prototype n δbp δbc p).bind fun ha => (riiaLaplaceDe ha fcut t).bind fun hl => trfBilineaire hl 1

/-- `design_riia` with strings, core/src/filtrage/rii.cc:483-487. -/
noncomputable def riiaChaine (n : ℕ) (t p : String) (fcut δbp δbc : ℝ) : Option (FRat ℂ) :=
  (parseTf t).bind fun t => (parseProto p).bind fun p => riia n t p fcut δbp δbc

end Verif.Rii
