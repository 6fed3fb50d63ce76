import Verif.Poly.Props
import Mathlib.Analysis.Real.Sqrt

/-!
# Model of the discrete wavelet transform by lifting (core/src/fourier/tod.cc)

Exact arithmetic. A vector is a list; an access out of the vector, an undefined shift and an endless loop are `none`. Display functions are not modelled.
-/

namespace Verif.Tod

open FracRat

/-- `Laurent`, core/include/tsd/fourier/tod.hpp:19-32. -/
structure Laurent where
  poly : Poly ℝ
  n0 : ℤ

/-- `LiftElem`, core/include/tsd/fourier/tod.hpp:37-45. -/
structure LiftElem where
  poly : Laurent
  predict : Bool

/-- `Lift` (without its name), core/include/tsd/fourier/tod.hpp:47-64. -/
structure Lift where
  K : ℝ
  etapes : List LiftElem

/-! ### Vectors modified in place -/

/-- A sequence of assignments `x(k) = e(x)` executed in order (`none`: access out of the vector), core/src/fourier/tod.cc:126-127 (and the loops of :148-152, :230-239, :252-261). -/
def affecte : List ℝ → List (ℕ × (List ℝ → Option ℝ)) → Option (List ℝ)
  | x, [] => some x
  | x, a :: l => (a.2 x).bind fun v : ℝ => if a.1 < x.length then affecte (x.set a.1 v) l else none

/-- `split(x, n)`, core/src/fourier/tod.cc:105-130: copy of the even elements, loop on the odd ones, then copy of the even ones at the beginning. -/
def split (x : List ℝ) (n : ℕ) : Option (List ℝ) :=
  ((List.range ((n + 1) / 2)).mapM fun i : ℕ => x[2 * i]?).bind fun tmp : List ℝ =>
    affecte x (((List.range (if n % 2 = 0 then (n + 1) / 2 else (n + 1) / 2 - 1)).map fun i : ℕ => (n - (i + 1), fun y : List ℝ => y[n - 2 * (i + 1) + 1 - (if n % 2 = 0 then 0 else 1)]?)) ++
      (List.range ((n + 1) / 2)).map fun i : ℕ => (i, fun _ : List ℝ => tmp[i]?))

/-- `merge(x, n)`, core/src/fourier/tod.cc:137-153: `tmp = x.head(half)` initialises a view on the memory of `x` (core/include/tsd/tableau.hpp:527-535, 890-901), so `tmp(i)` is the current value of `x(i)`. -/
def merge (x : List ℝ) (n : ℕ) : Option (List ℝ) :=
  affecte x (((List.range (if n % 2 = 0 then (n + 1) / 2 else (n + 1) / 2 - 1)).map fun i : ℕ => (2 * i + 1, fun y : List ℝ => y[i + (n + 1) / 2]?)) ++
    (List.range ((n + 1) / 2)).map fun i : ℕ => (2 * i, fun y : List ℝ => y[i]?))

/-- Sum of a lifting stage, core/src/fourier/tod.cc:232-237: coefficients from the position `p`, those that fall outside `[0, half)` being skipped (the order of the additions is not modelled). -/
def sommeLift (half idxi : ℕ) (x : List ℝ) : List ℝ → ℤ → Option ℝ
  | [], _ => some 0
  | c :: l, p => if 0 ≤ p ∧ p < half then (x[idxi + p.toNat]?).bind fun v : ℝ => (sommeLift half idxi x l (p + 1)).map fun s : ℝ => c * v + s
    else sommeLift half idxi x l (p + 1)

/-- One lifting stage, core/src/fourier/tod.cc:227-239 (`signe = 1`) and :248-261 (`signe = -1`). -/
def etage (signe : ℝ) (half : ℕ) (x : List ℝ) (e : LiftElem) : Option (List ℝ) :=
  let idxi := if e.predict then 0 else half
  let idxo := if e.predict then half else 0
  affecte x ((List.range half).map fun j : ℕ => (idxo + j, fun y : List ℝ => (y[idxo + j]?).bind fun v : ℝ => (sommeLift half idxi y e.poly.poly.coefs (j + e.poly.n0)).map fun s : ℝ => v + signe * s))

/-- Successive stages. -/
def etages (signe : ℝ) (half : ℕ) : List ℝ → List LiftElem → Option (List ℝ)
  | x, [] => some x
  | x, e :: l => (etage signe half x e).bind fun y : List ℝ => etages signe half y l

/-- `OndeletteGen::lift_step`, core/src/fourier/tod.cc:219-241 (the normalisation term is not used). -/
def liftStep (w : Lift) (x : List ℝ) (n : ℕ) : Option (List ℝ) := (split x n).bind fun y : List ℝ => etages 1 (n / 2) y w.etapes

/-- `OndeletteGen::ilift_step`, core/src/fourier/tod.cc:242-265. -/
def iliftStep (w : Lift) (x : List ℝ) (n : ℕ) : Option (List ℝ) := (etages (-1) (n / 2) x w.etapes.reverse).bind fun y : List ℝ => merge y n

/-- Loop of `dwt`, core/src/fourier/tod.cc:510-511; the first argument bounds the number of iterations. -/
def boucleDwt (w : Lift) (last : ℕ) : ℕ → ℕ → List ℝ → Option (List ℝ)
  | 0, _, _ => none
  | f + 1, n, x => if n < last then some x else (liftStep w x n).bind fun y : List ℝ => boucleDwt w last f (n / 2) y

/-- `dwt`, core/src/fourier/tod.cc:504-512: a depth of 0 is a shift by -1; `N + 2` iterations are enough for every loop that ends (`n` is halved, and the loop ends when `n < last` with `last > 0`). -/
def dwt (w : Lift) (x : List ℝ) (depth : ℕ) : Option (List ℝ) :=
  if depth = 0 then none else boucleDwt w (x.length / 2 ^ (depth - 1)) (x.length + 2) x.length x

/-- Loop of `iwt`, core/src/fourier/tod.cc:526-527. -/
def boucleIwt (w : Lift) (N : ℕ) : ℕ → ℕ → List ℝ → Option (List ℝ)
  | 0, _, _ => none
  | f + 1, n, x => if N < n then some x else (iliftStep w x n).bind fun y : List ℝ => boucleIwt w N f (2 * n) y

/-- `iwt`, core/src/fourier/tod.cc:520-528 (`N + 2` iterations are enough for every loop that ends: `n` is doubled). -/
def iwt (w : Lift) (x : List ℝ) (depth : ℕ) : Option (List ℝ) :=
  if depth = 0 then none else boucleIwt w x.length (x.length + 2) (x.length / 2 ^ (depth - 1)) x

/-! ### Wavelets -/

/-- `lift_haar`, core/src/fourier/tod.cc:163-177. -/
noncomputable def haar : Lift := ⟨Real.sqrt 2, [⟨⟨Poly.one.neg, 0⟩, true⟩, ⟨⟨Poly.one.mulScal 0.5, 0⟩, false⟩]⟩

/-- `lift_db2`, core/src/fourier/tod.cc:179-207. -/
noncomputable def db2 : Lift :=
  ⟨(Real.sqrt 3 - 1) / Real.sqrt 2, [⟨⟨Poly.one.mulScal (Real.sqrt 3), 0⟩, false⟩, ⟨⟨(Poly.z.mulScal (Real.sqrt 3 / 4)).neg.addScal (-(Real.sqrt 3 - 2) / 4), -1⟩, true⟩, ⟨⟨Poly.z.neg, 0⟩, false⟩]⟩

/-! ### Polyphase and quadrature mirror forms -/

/-- `laurent_mac`: `a + b c`, core/src/fourier/tod.cc:34-49. -/
noncomputable def mac (a b c : Laurent) : Laurent :=
  let n := min a.n0 (b.n0 + c.n0)
  ⟨(a.poly.decale (a.n0 - n).toNat).add ((b.poly.mul c.poly).decale (b.n0 + c.n0 - n).toNat), n⟩

/-- `FormePolyphase`, core/include/tsd/fourier/tod.hpp:77-83. -/
structure Polyphase where
  H00 : Laurent
  H01 : Laurent
  H10 : Laurent
  H11 : Laurent

/-- One stage of the development, core/src/fourier/tod.cc:56-68. -/
noncomputable def devStep (H : Polyphase) (e : LiftElem) : Polyphase :=
  if e.predict then { H with H10 := mac H.H10 e.poly H.H00, H11 := mac H.H11 e.poly H.H01 }
  else { H with H00 := mac H.H00 e.poly H.H10, H01 := mac H.H01 e.poly H.H11 }

/-- Product by a number, core/src/fourier/tod.cc:70-73. -/
noncomputable def echelle (a : Laurent) (s : ℝ) : Laurent := ⟨a.poly.mulScal s, a.n0⟩

/-- `FormePolyphase(lift)`, core/src/fourier/tod.cc:51-74. -/
noncomputable def polyphase (w : Lift) : Polyphase :=
  let H := w.etapes.foldl devStep ⟨⟨Poly.one, 0⟩, ⟨Poly.cst 0, 0⟩, ⟨Poly.cst 0, 0⟩, ⟨Poly.one, 0⟩⟩
  ⟨echelle H.H00 w.K, echelle H.H01 w.K, echelle H.H10 (1 / w.K), echelle H.H11 (1 / w.K)⟩

/-- Loop of `horner` at a polynomial, core/include/tsd/filtrage/frat.hpp:184-185. -/
noncomputable def boucleCompose (v : Poly ℝ) : List ℝ → Poly ℝ → Poly ℝ
  | [], res => res
  | c :: l, res => boucleCompose v l ((res.mul v).add (Poly.cst c))

/-- `horner` at a polynomial (coefficient mode), core/include/tsd/filtrage/frat.hpp:154-189. -/
noncomputable def compose (p v : Poly ℝ) : Poly ℝ :=
  match p.coefs.reverse with
  | [] => Poly.cst 0
  | c :: l => boucleCompose v l (Poly.cst c)

/-- `QMF(fp)`: the filters `H0` and `H1`, core/src/fourier/tod.cc:76-97 (`none`: assertion of line 83; the synthesis filters are left empty by the code). -/
noncomputable def qmf (H : Polyphase) : Option (Poly ℝ × Poly ℝ) :=
  let md := -(min (min H.H00.n0 H.H01.n0) (min H.H10.n0 H.H11.n0))
  if md < 0 then none
  else
    let z2 : Poly ℝ := Poly.z.mul Poly.z
    some ((compose (H.H00.poly.decale md.toNat) z2).add (Poly.z.mul (compose (H.H01.poly.decale md.toNat) z2)),
      (compose (H.H10.poly.decale md.toNat) z2).add (Poly.z.mul (compose (H.H11.poly.decale md.toNat) z2)))

end Verif.Tod
