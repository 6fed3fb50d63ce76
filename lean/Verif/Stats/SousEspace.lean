import Verif.Signaux.Model
import Verif.Fourier.Estim
import Mathlib.LinearAlgebra.Matrix.ConjTranspose
import Mathlib.LinearAlgebra.Matrix.DotProduct
import Mathlib.Analysis.SpecialFunctions.Log.Base
import Mathlib.Data.EReal.Basic

/-!
# Model of the subspace spectrum (MUSIC, core/src/stats.cc) and of the directions of arrival (core/src/apps/doa.cc)

Exact complex arithmetic. The eigenvalue solver of Eigen is a parameter: `Propres` is what it returns and `EstPropres` what its documentation guarantees.
-/

namespace Verif.Stats
open Matrix

/-- What `Eigen::SelfAdjointEigenSolver` returns for a matrix of dimension `m`, core/src/stats.cc:146: the eigenvalues and the columns of the matrix of eigenvectors. -/
structure Propres (m : ℕ) where
  val : Fin m → ℝ
  vec : Fin m → Fin m → ℂ

/-- The documented guarantees of the solver: eigenvalues sorted in increasing order, orthonormal eigenvectors. -/
structure EstPropres {m : ℕ} (R : Matrix (Fin m) (Fin m) ℂ) (e : Propres m) : Prop where
  mono : Monotone e.val
  ortho : ∀ j k, star (e.vec j) ⬝ᵥ e.vec k = (if j = k then 1 else 0)
  propre : ∀ j, R *ᵥ e.vec j = (e.val j : ℂ) • e.vec j

/-- The criterion computed for `Ns` sources, core/src/stats.cc:160-171 (`la.tail(m - Ns)` are the moduli of the `m - Ns` smallest eigenvalues). -/
noncomputable def critere {m : ℕ} (e : Propres m) (Ns : ℕ) : ℝ :=
  let somme : ℝ := ∑ j : Fin m, (if j.val < m - Ns then Real.log (abs (e.val j)) else 0);
  -(m : ℝ) * (somme - ((Ns : ℝ) - m) * (-Real.log ((m : ℝ) - Ns) + somme)) + 0.5 * Ns * (2 * m - Ns) * Real.log m

/-- Automatic number of sources, core/src/stats.cc:148-176: `vmdl.index_max() + 1` (the logarithm of a null eigenvalue is not modelled). -/
noncomputable def nbSources {m : ℕ} (e : Propres m) : ℕ := Fourier.indexMax ((List.range (m - 1)).map fun i : ℕ => critere e (i + 1)) + 1

/-- The sum `S` of core/src/stats.cc:210-216: energy of the test vector `v` on the first `m - Ns` eigenvectors (`dot` conjugates its first operand). -/
noncomputable def partBruit {m : ℕ} (e : Propres m) (Ns : ℕ) (v : Fin m → ℂ) : ℝ :=
  ∑ j : Fin m, if j.val < m - Ns then ‖star v ⬝ᵥ e.vec j‖ ^ 2 else 0

/-- `pow2db(1 / S)`, core/src/stats.cc:214-217; `1 / 0` is `+∞`. -/
noncomputable def niveau (S : ℝ) : EReal := if S = 0 then ⊤ else ((10 * Real.logb 10 (1 / S) : ℝ) : EReal)

/-- `subspace_spectrum`, core/src/stats.cc:143-223: parameters and levels of the `Nf` test vectors, number of sources. `none`: assertion on the number of sources, or eigenvectors out of range (`Ns < -1`). -/
noncomputable def sousEspace {m : ℕ} (e : Propres m) (Ns : ℤ) (Nf : ℕ) (balayage : ℕ → ℕ → Option (ℝ × (Fin m → ℂ))) : Option (List (ℝ × EReal) × ℕ) :=
  let Ns := if Ns = -1 then (nbSources e : ℤ) else Ns
  if (m : ℤ) ≤ Ns ∨ Ns < 0 then none
  else ((List.range Nf).mapM fun i : ℕ => (balayage i Nf).map fun pv : ℝ × (Fin m → ℂ) => (pv.1, niveau (partBruit e Ns.toNat pv.2))).map fun l : List (ℝ × EReal) => (l, Ns.toNat)

/-- A test vector from the generator of complex exponentials, core/include/tsd/stats.hpp:229-230. -/
noncomputable def exponentielle (f : ℝ) (m : ℕ) : Option (Fin m → ℂ) := (Signaux.sigexp f m).map fun l : List ℂ => fun k => l.getD k 0

/-- The default sweep, core/include/tsd/stats.hpp:225-231. -/
noncomputable def balayageDefaut (m i n : ℕ) : Option (ℝ × (Fin m → ℂ)) :=
  let f := (i : ℝ) / n - 0.5
  (exponentielle f m).map fun v => (f, v)

/-! ## Directions of arrival -/

/-- `steervec_1d`, core/src/apps/doa.cc:17-25. -/
noncomputable def steervec {Nr Ns : ℕ} (pos : Fin Nr → ℝ) (angle : Fin Ns → ℝ) : Matrix (Fin Nr) (Fin Ns) ℂ :=
  Matrix.of fun i j => Complex.exp ((pos i * Real.cos (angle j) : ℝ) * Complex.I)

/-- `sensorcov_1d`, core/src/apps/doa.cc:28-36 (`db2pow`, core/include/tsd/tsd.hpp:448-455). -/
noncomputable def sensorcov {Nr Ns : ℕ} (pos : Fin Nr → ℝ) (angle : Fin Ns → ℝ) (snr : ℝ) : Matrix (Fin Nr) (Fin Nr) ℂ :=
  steervec pos angle * (steervec pos angle)ᴴ + (((10 : ℝ) ^ (snr / 10) : ℝ) : ℂ) • (1 : Matrix (Fin Nr) (Fin Nr) ℂ)

/-- The sweep of `musicdoa_1d`, core/src/apps/doa.cc:47-60: `phi = π * i / n - 1`. -/
noncomputable def balayageDoa (d : ℝ) (m i n : ℕ) : Option (ℝ × (Fin m → ℂ)) :=
  let phi := Real.pi * i / n - 1
  (exponentielle (Real.cos phi * d) m).map fun v => (phi, v)

/-- Search of the strongest values, core/src/apps/doa.cc:69-74: `n` times, the index of the maximum, whose value is replaced by 0. -/
noncomputable def plusForts (var : List ℝ) : ℕ → List EReal → Option (List ℝ)
  | 0, _ => some []
  | n + 1, sp =>
    (sp.zipIdx.argmax fun p => p.1).bind fun p => (var[p.2]?).bind fun v => (plusForts var n (sp.set p.2 0)).map fun l => v :: l

/-- `musicdoa_1d(R, d, Ns)`, core/src/apps/doa.cc:43-81: the argument `Ns` is not used, `config.Ns` keeps its default value 0 and `config.Nf` 1000 (core/include/tsd/stats.hpp:207-210). -/
noncomputable def musicdoa {m : ℕ} (e : Propres m) (d : ℝ) (_Ns : ℤ) : Option (List ℝ) :=
  (sousEspace e 0 1000 (balayageDoa d m)).bind fun r : List (ℝ × EReal) × ℕ => plusForts (r.1.map Prod.fst) r.2 (r.1.map Prod.snd)

end Verif.Stats
