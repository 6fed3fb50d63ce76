/-
Model of the construction of a chain of second-order sections from the zeros and poles of a rational function: `ChaineSOIS`, `filtre_sois`.
core/src/filtrage/filtre-rt.cc:440-600.  Exact arithmetic; the processing (`step`) is modelled in `Verif.Filtre.Model` (`Chaine.step`).
-/
import Verif.Filtre.Model
import Verif.Poly.Model
import Mathlib.Analysis.Complex.Basic

namespace Verif.Filtre

open Verif.FracRat

/-- `err`, sum of the imaginary parts of the coefficients of the section made of the zeros and poles `j` and `k`.  core/src/filtrage/filtre-rt.cc:487-494 -/
noncomputable def ecartPaire (z p : List ℂ) (k j : ℕ) : ℝ :=
  |(-(z.getD j 0 + z.getD k 0)).im| + |(z.getD j 0 * z.getD k 0).im| + |(-(p.getD j 0 + p.getD k 0)).im| + |(p.getD j 0 * p.getD k 0).im|

/-- Loop over the indices `j` still in the pool (increasing order): best error and its index.  core/src/filtrage/filtre-rt.cc:485-505 -/
noncomputable def meilleurePaire (z p : List ℂ) (k : ℕ) : List ℕ → ℝ × ℕ → ℝ × ℕ
  | [], b => b
  | j :: l, b => meilleurePaire z p k l (if ecartPaire z p k j < b.1 then (ecartPaire z p k j, j) else b)

/-- Section of the zeros and poles `k` and `j` (`configure` divides by `a0 = 1`), not started yet; `φ` converts a real number into a sample.
core/src/filtrage/filtre-rt.cc:491-502, 516-521 -/
noncomputable def sectionPaire {T : Type} [Zero T] (φ : ℝ → T) (forme2 : Bool) (z p : List ℂ) (k j : ℕ) : Sois T T :=
  ⟨0, 0, 0, 0, 0, φ 1, φ (-(z.getD j 0 + z.getD k 0)).re, φ (z.getD j 0 * z.getD k 0).re, φ (-(p.getD j 0 + p.getD k 0)).re, φ (p.getD j 0 * p.getD k 0).re, true, forme2⟩

/-- The pairing loop, `m` iterations left, with the pool of remaining indices; returns the sections and the final pool.  An error above `1e-5` raises an exception; this is also what happens when no index is
under the initial error `1e9`.  core/src/filtrage/filtre-rt.cc:464-524 -/
noncomputable def sectionsPaires {T : Type} [Zero T] (φ : ℝ → T) (forme2 : Bool) (z p : List ℂ) : ℕ → List ℕ → Option (List (Sois T T) × List ℕ)
  | 0, pool => some ([], pool)
  | _ + 1, [] => none
  | m + 1, k :: pool =>
    let b := meilleurePaire z p k pool (1e9, pool.headD 0)
    if 1e-5 < b.1 then none
    else (sectionsPaires φ forme2 z p m (pool.erase b.2)).map fun r : List (Sois T T) × List ℕ => (sectionPaire φ forme2 z p k b.2 :: r.1, r.2)

/-- `Poly<cfloat>::roots()`: fails when the polynomial is given by its coefficients.  core/src/filtrage/frat.cc:40-51 -/
def racinesComplexes (p : Poly ℂ) : Option (List ℂ) := if p.racines then some p.coefs else none

/-- `ChaineSOIS(h, structure)`.  core/src/filtrage/filtre-rt.cc:448-560 -/
noncomputable def chaineSois {T : Type} [Zero T] (φ : ℝ → T) (forme2 : Bool) (h : FRat ℂ) : Option (Chaine T T) :=
  (racinesComplexes h.numer).bind fun z : List ℂ => (racinesComplexes h.denom).bind fun p : List ℂ =>
    if z.length ≠ p.length then none
    else (sectionsPaires φ forme2 z p (z.length / 2) (List.range z.length)).bind fun r : List (Sois T T) × List ℕ =>
      let g := h.numer.mlt.re / h.denom.mlt.re
      if z.length % 2 = 0 then some ⟨r.1, φ g, none⟩
      else
        match r.2 with
        | [i] => if 1e-5 < |(p.getD i 0).im| + |(z.getD i 0).im| then none else some ⟨r.1, φ 1, some ⟨φ g, φ (-(z.getD i 0).re * g), φ (-(p.getD i 0).re), 0, 0⟩⟩
        | _ => none

/-- Conversion of a real polynomial by `filtre_sois`: roots times the last coefficient; a polynomial already given by its roots loses this information (`mode_racines` is not copied).  `solveur` stands
for `Poly<float>::roots()` on coefficients (Eigen).  core/src/filtrage/filtre-rt.cc:583-600 -/
noncomputable def versRacines (solveur : List ℝ → List ℂ) (p : Poly ℝ) : Option (Poly ℂ) :=
  if p.racines then some { coefs := p.coefs.map fun v : ℝ => (v : ℂ), racines := false, mlt := (p.mlt : ℂ) }
  else p.coefs.getLast?.map fun c : ℝ => (Poly.deRacines (solveur p.coefs)).mulScal (c : ℂ)

/-- `filtre_sois(FRat<float>)`.  core/src/filtrage/filtre-rt.cc:580-603 -/
noncomputable def soisReel {T : Type} [Zero T] (φ : ℝ → T) (solveur : List ℝ → List ℂ) (forme2 : Bool) (h : FRat ℝ) : Option (Chaine T T) :=
  (versRacines solveur h.numer).bind fun n : Poly ℂ => (versRacines solveur h.denom).bind fun d : Poly ℂ => chaineSois φ forme2 ⟨n, d⟩

end Verif.Filtre
