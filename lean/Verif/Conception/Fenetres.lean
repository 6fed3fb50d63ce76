/-
Model of core/src/fenetres.cc: windows.

Exact real arithmetic (float constants are the decimal numbers written in the source).  The windows of Slepian (eigenvectors computed
by Eigen) are not modelled.
-/
import Verif.Util.Model
import Verif.Fourier.RfftProps
import Mathlib.Analysis.SpecialFunctions.Arcosh
import Mathlib.Analysis.SpecialFunctions.Pow.Real
import Mathlib.Analysis.SpecialFunctions.Trigonometric.Inverse

namespace Verif.Conception

open Verif.Fourier

/-- `fen_inter(n, sym)`; the integer divisions `-n/2`, `n/2`, `(n-1)/2` truncate.  core/src/fenetres.cc:17-58 -/
noncomputable def fenInter (n : ℕ) (sym : Bool) : List ℝ :=
  let tmin : ℝ := ((Int.tdiv (-(n : ℤ)) 2 : ℤ) : ℝ)
  let tmax : ℝ :=
    if n % 2 = 0 then
      if sym then ((Int.tdiv n 2 : ℤ) : ℝ) else ((Int.tdiv ((n : ℤ) - 1) 2 : ℤ) : ℝ)
    else
      if sym then ((Int.tdiv n 2 : ℤ) : ℝ) else ((Int.tdiv n 2 : ℤ) : ℝ) - ((n : ℝ) - 1) / n
  Util.linspace (tmin / n) (tmax / n) n

/-- `fenêtre_kaiser1(n, β, symetrique)`; `I0` is `std::cyl_bessel_i(0, ·)`.  core/src/fenetres.cc:60-84 -/
noncomputable def kaiser1 (I0 : ℝ → ℝ) (n : ℕ) (β : ℝ) (sym : Bool) : List ℝ :=
  let β := β * Real.pi
  let d := 1 / I0 β
  (fenInter n sym).map fun t : ℝ => I0 (β * Real.sqrt (1 - (2 * t) * (2 * t))) * d

/-- Shape parameter of `kaiser_param`, before the division by π.  core/src/fenetres.cc:94-98 -/
noncomputable def kaiserBeta (A : ℝ) : ℝ :=
  if A > 50 then 0.1102 * (A - 8.7)
  else if A ≥ 21 then 0.5842 * (A - 21) ^ (0.4 : ℝ) + 0.07886 * (A - 21)
  else 0

/-- Number of coefficients of `kaiser_param`.  core/src/fenetres.cc:88-93 -/
noncomputable def kaiserN (A df : ℝ) : ℤ :=
  let dω := 2 * Real.pi * df
  let n := ⌈(A - 7.95) / (2.285 * dω)⌉
  let n := if n ≤ 0 then 1 else n
  if n % 2 = 0 then n + 1 else n

/-- `kaiser_param(atten_db, df)`; for `df = 0` the conversion of an infinite value to an integer is undefined (`none`).
core/src/fenetres.cc:85-101 -/
noncomputable def kaiserParam (A df : ℝ) : Option (ℝ × ℤ) :=
  if df = 0 then none else some (kaiserBeta A / Real.pi, kaiserN A df)

/-- `fenêtre_kaiser(atten_db, δf, symetrique)`.  core/src/fenetres.cc:103-107 -/
noncomputable def kaiser (I0 : ℝ → ℝ) (A df : ℝ) (sym : Bool) : Option (List ℝ) :=
  (kaiserParam A df).map fun p => kaiser1 I0 p.2.toNat p.1 sym

/-- `Hamming_generalise(a, n, sym)`.  core/src/fenetres.cc:125-128 -/
noncomputable def hammingGen (a : ℝ) (n : ℕ) (sym : Bool) : List ℝ :=
  (fenInter n sym).map fun t : ℝ => a + (1 - a) * Real.cos (2 * Real.pi * t)

/-- `enum class Fenetre`.  core/include/tsd/filtrage.hpp:119-127 -/
inductive Fenetre where
  | aucune | hann | triangle | hamming | blackman | chebychev
deriving DecidableEq, Repr

/-- The table of `parse_fenêtre`.  core/src/fenetres.cc:185-199 -/
def tableFen : List (String × Fenetre) :=
  [("", .aucune), ("aucune", .aucune), ("none", .aucune), ("re", .aucune), ("hn", .hann), ("hann", .hann), ("tr", .triangle),
   ("hamming", .hamming), ("hm", .hamming), ("cheb", .chebychev), ("ch", .chebychev), ("bm", .blackman)]

/-- `parse_fenêtre(nom)`: an unknown name is an error (`msg_erreur` throws with the default logger).  core/src/fenetres.cc:178-206 -/
def parseFenetre (nom : String) : Option Fenetre := (tableFen.find? fun p => p.1 == nom).map Prod.snd

/-- `Fenetre2string`.  core/src/fenetres.cc:130-148 -/
def versChaine : Fenetre → String
  | .aucune => "re" | .hann => "hn" | .triangle => "tr" | .hamming => "hm" | .blackman => "bm" | .chebychev => "ch"

/-- Triangular window, core/src/fenetres.cc:231-246 -/
noncomputable def triangle (n : ℕ) (sym : Bool) : List ℝ :=
  (fenInter n sym).map fun t : ℝ => if t < 0 then 2 * (0.5 + t) else 2 * (0.5 - t)

/-- Blackman window, core/src/fenetres.cc:247-256 -/
noncomputable def blackman (n : ℕ) (sym : Bool) : List ℝ :=
  (fenInter n sym).map fun t0 : ℝ =>
    let t := 2 * Real.pi * t0 + Real.pi
    let α : ℝ := 0.16
    let a0 := (1 - α) / 2
    let a1 : ℝ := 0.5
    let a2 := α / 2
    (-a1) * Real.cos t + a2 * Real.cos (2 * t) + a0

/-- `cheb_eval(x, n)`.  core/src/fenetres.cc:268-278 -/
noncomputable def chebEval (x : ℝ) (n : ℕ) : ℝ :=
  if -1 ≤ x ∧ x ≤ 1 then Real.cos (n * Real.arccos x)
  else if 1 ≤ x then Real.cosh (n * Real.arcosh x)
  else (if n % 2 = 1 then -1 else 1) * Real.cosh (n * Real.arcosh (-x))

/-- `real(std::cosh(std::acosh((cdouble) A) * (1.0/m)))`: for `A < 1` (and `A ≥ 0`) the complex `acosh` is `i acos(A)`.
core/src/fenetres.cc:287-289 -/
noncomputable def chebBeta (A : ℝ) (m : ℕ) : ℝ :=
  if 1 ≤ A then Real.cosh (Real.arcosh A * (1 / m)) else Real.cos (Real.arccos A * (1 / m))

/-- The spectrum `X` of the window of Chebyshev.  core/src/fenetres.cc:295-300 -/
noncomputable def chebSpectre (n : ℕ) (β : ℝ) : List ℝ :=
  (List.range (n - 1)).map fun i : ℕ =>
    (if i % 2 = 1 then -1 else 1) * chebEval (β * Real.cos (Real.pi * i / ((n : ℝ) - 1))) (n - 1)

/-- `valeur_max()`; 0 for an empty vector.  core/src/tableau.cc:629-653 -/
noncomputable def valeurMax : List ℝ → ℝ
  | [] => 0
  | v :: l => l.foldl max v

/-- The window from the inverse transform `v` (`n-1` values): `w(0) /= 2`, `w(n-1) = w(0)`, division by the maximum.
core/src/fenetres.cc:303-308 -/
noncomputable def chebFin (v : List ℝ) : List ℝ :=
  let w := match v with
    | [] => []
    | a :: l => (a / 2) :: l ++ [a / 2]
  w.map fun x : ℝ => x / valeurMax w

/-- `fenêtre_chebychev(n, atten_db, symetrique)`; the argument `symetrique` is not used by the code.  core/src/fenetres.cc:281-313 -/
noncomputable def fenChebychev (n : ℕ) (A : ℝ) (_sym : Bool) : Option (List ℝ) :=
  if n ≤ 1 then some (List.replicate n 1)
  else
    let Alin := (10 : ℝ) ^ (A / 20)
    (ifft trigoC (enC (chebSpectre n (chebBeta Alin (n - 1))))).map fun v => chebFin (v.map Complex.re)

/-- `fenêtre(type, n, symetrique)`.  core/src/fenetres.cc:213-268 -/
noncomputable def fenetre (type : Fenetre) (n : ℕ) (sym : Bool) : Option (List ℝ) :=
  match type with
  | .aucune => some (List.replicate n 1)
  | .hann => some (hammingGen 0.5 n sym)
  | .hamming => some (hammingGen 0.54 n sym)
  | .triangle => some (triangle n sym)
  | .blackman => some (blackman n sym)
  | .chebychev => fenChebychev n 80 true

/-- `fenêtre(nom, n, symetrique)`.  core/src/fenetres.cc:208-211 -/
noncomputable def fenetreNom (nom : String) (n : ℕ) (sym : Bool) : Option (List ℝ) := (parseFenetre nom).bind fun t => fenetre t n sym

end Verif.Conception
