import Verif.Divers.Model
import Verif.Util.Model
import Verif.Filtre.Model
import Mathlib.Analysis.SpecialFunctions.Log.Basic

/-!
# Model of the raised-cosine and Gaussian designs (core/src/filtrage/rif-cs.cc) and of the zero-phase filtering

Exact real arithmetic instead of `float`. Where the code divides by zero (`1/(2β)` with `β = 0`) the quotient is guarded by the test `β > 0`, so that
its value does not matter.
-/

namespace Verif.Conception

open Verif.Filtre

/-- `cs(t, β)`, core/src/filtrage/rif-cs.cc:22-28. -/
noncomputable def cs (t β : ℝ) : ℝ :=
  if 0 < β ∧ |(|t| - 1 / (2 * β))| < 1 / 10 ^ 7 then Divers.sinc1 t * Real.pi / 4
  else Divers.sinc1 t * Real.cos (Real.pi * β * t) / (1 - (2 * β * t) ^ 2)

/-- `rcs(t, β)`, core/src/filtrage/rif-cs.cc:32-41. -/
noncomputable def rcs (t β : ℝ) : ℝ :=
  if t = 0 then (1 - β) + 4 * β / Real.pi
  else if 0 < β ∧ |(|t| - 1 / (4 * β))| < 1 / 10 ^ 7 then
    β / Real.sqrt 2 * ((1 + 2 / Real.pi) * Real.sin (Real.pi / (4 * β)) + (1 - 2 / Real.pi) * Real.cos (Real.pi / (4 * β)))
  else (Real.sin (Real.pi * t * (1 - β)) + 4 * β * t * Real.cos (Real.pi * t * (1 + β))) / (Real.pi * t * (1 - (4 * β * t) ^ 2))

/-- `design_rif_gaussien_gen(n, σ, dt)`, core/src/filtrage/rif-cs.cc:45-52. -/
noncomputable def rifGaussienGen (n : ℕ) (σ dt : ℝ) : List ℝ :=
  let t := (Util.linspace (-((n : ℝ) - 1) / 2) (((n : ℝ) - 1) / 2) n).map fun v : ℝ => v + dt
  let h := t.map fun v : ℝ => Real.exp (-v ^ 2 / (2 * σ * σ))
  if 0 < h.sum then h.map fun v : ℝ => v / h.sum else h

/-- `design_rif_gaussien(n, σ)`, core/src/filtrage/rif-cs.cc:55-58. -/
noncomputable def rifGaussien (n : ℕ) (σ : ℝ) : List ℝ := rifGaussienGen n σ 0

/-- `design_rif_gaussien_telecom_BT_vers_sigma(BT)`, core/src/filtrage/rif-cs.cc:84-87. -/
noncomputable def btVersSigma (BT : ℝ) : ℝ := Real.sqrt (Real.log 2) / (2 * BT * Real.pi)

/-- `convol(h, x)`, core/include/tsd/filtrage.hpp:1774-1780: the real-time FIR filter on one block. -/
noncomputable def convolRif (h x : List ℝ) : Option (List ℝ) := (Rif.step (0 : ℝ) (· + ·) (· * ·) (Rif.init 0 h) x).map Prod.snd

/-- `design_rif_gaussien_telecom(n, BT, osf)`, core/src/filtrage/rif-cs.cc:91-119. The branch taken when all the coefficients are zero
(lines 102-108, underflow of the exponential) cannot be entered in exact arithmetic when `n > 0` and is not modelled. -/
noncomputable def rifGaussienTelecom (n : ℕ) (BT : ℝ) (osf : ℕ) : Option (List ℝ) :=
  let h1 := rifGaussienGen n (btVersSigma BT * osf) (((osf : ℝ) - 1) / 2)
  let h0 := List.replicate osf (1 / (osf : ℝ))
  (convolRif h0 h1).map fun h2 => h2.map fun v : ℝ => v / h2.sum

/-- The coefficients of `design_rif_rcs1` before normalisation, core/src/filtrage/rif-cs.cc:142-145. -/
noncomputable def rcsBrut (n : ℕ) (β osf : ℝ) : List ℝ := (List.range n).map fun i : ℕ => rcs (((i : ℝ) - (n / 2 : ℕ)) / osf) β

/-- `design_rif_rcs1(n, β, osf, nrm)`, core/src/filtrage/rif-cs.cc:131-154; `nrm = true` for `'e'`. -/
noncomputable def rifRcs1 (n : ℕ) (β osf : ℝ) (nrm : Bool) : Option (List ℝ) :=
  if 0 < n then
    let h := rcsBrut n β osf
    if nrm then some (h.map fun v : ℝ => v / Real.sqrt ((h.map fun w : ℝ => w ^ 2).sum)) else some (h.map fun v : ℝ => v / h.sum)
  else none

/-- `design_rif_rcs(n, β, fcoupure)`, core/src/filtrage/rif-cs.cc:123-129 (default normalisation: the sum). -/
noncomputable def rifRcs (n : ℕ) (β fc : ℝ) : Option (List ℝ) := rifRcs1 n β (1 / (2 * fc)) false

/-- The coefficients of `design_rif_cs` before normalisation, core/src/filtrage/rif-cs.cc:158-172. -/
noncomputable def csBrut (n : ℕ) (β fc : ℝ) : List ℝ :=
  (List.range n).map fun i : ℕ => cs ((((i : ℤ) - (n / 2 : ℕ) : ℤ) : ℝ) * fc * 2) β

/-- `design_rif_cs(n, β, fcoupure)`, core/src/filtrage/rif-cs.cc:156-175. -/
noncomputable def rifCs (n : ℕ) (β fc : ℝ) : List ℝ := (csBrut n β fc).map fun v : ℝ => v / (csBrut n β fc).sum

/-- `filtfilt(h, x)` for a FIR design, core/include/tsd/filtrage.hpp:1684-1691, 1761-1765. -/
noncomputable def filtfilt (h x : List ℝ) : Option (List ℝ) :=
  (convolRif h x).bind fun u => (convolRif h u.reverse).map List.reverse

end Verif.Conception
