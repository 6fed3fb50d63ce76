import Verif.Fourier.Corr
import Verif.Filtre.Model
import Mathlib.LinearAlgebra.Matrix.Notation

/-!
# Model of the Levinson recursions and of linear prediction (core/src/stats.cc, core/include/tsd/stats.hpp)

Exact arithmetic over a field (the C++ code uses `float`). A division by zero is not an error in C++ (infinity, then NaN) and is here the
field's `x / 0 = 0`: the theorems assume that the pivots do not vanish.
-/

namespace Verif.Stats

open Verif.Fourier Verif.Filtre

variable {K : Type} [Field K]

/-- `a.dot(b)` / `(a * b).somme()` on vectors of the same dimension, core/include/tsd/tableau.hpp:933-945. -/
def dot (a b : List K) : K := (List.zipWith (· * ·) a b).sum

/-- One iteration of the loop of `levinson_reel`, core/src/stats.cc:32-39. `a` holds the `i` coefficients computed so far (the vector of the
code has `n` elements, those after the `i`-th are not initialised), `α` the prediction gain. -/
def lrPas (r : List K) (i : Nat) (a : List K) (α : K) : Option (List K × K) :=
  match r[i]? with
  | none => none
  | some ri =>
    let seg := a.drop 1
    let s := dot ((r.drop 1).take (i - 1)) seg.reverse + ri
    let k := -s / α
    some (a.take 1 ++ List.zipWith (· + ·) seg (seg.reverse.map (k * ·)) ++ [k], α * (1 - k * k))

/-- The loop `pour(i = 2; i <= n-1; i++)`, core/src/stats.cc:32-39: `nb` iterations from `i`. -/
def lrBoucle (r : List K) : Nat → Nat → List K → K → Option (List K × K)
  | 0, _, a, α => some (a, α)
  | nb + 1, i, a, α =>
    match lrPas r i a α with
    | none => none
    | some (a, α) => lrBoucle r nb (i + 1) a α

/-- `levinson_reel(r)`, core/src/stats.cc:18-41. `r(1)` is read (and `a(1)` written) whatever the dimension: `none` (out of bounds) below two
elements. -/
def levinsonReel (r : List K) : Option (List K) :=
  match r[0]?, r[1]? with
  | some r0, some r1 =>
    let k := -r1 / r0
    match lrBoucle r (r.length - 2) 2 [1, k] (r0 * (1 - k * k)) with
    | none => none
    | some (a, _) => some a
  | _, _ => none

/-- State of the loop of `levinson`: `f.head(i-1)`, `b.head(i-1)`, `x.head(i-1)`, core/src/stats.cc:59-66. -/
structure LevEtat (K : Type) where
  f : List K
  b : List K
  x : List K

/-- One iteration of the loop of `levinson`, core/src/stats.cc:68-87, for the new dimension `i`. `c1r.tail(i-1)` is the end of the reversed
first column, `l1r.head(i-1)` the beginning of the first row (both without their first element). -/
def levPas (l1 c1 y : List K) (i : Nat) (s : LevEtat K) : Option (LevEtat K) :=
  match y[i - 1]? with
  | none => none
  | some yi =>
    let c1r := (c1.drop 1).reverse
    let l1r := l1.drop 1
    let cq := c1r.drop (c1r.length - (i - 1))
    let fb := s.f ++ [0]
    let bb := 0 :: s.b
    let ef := dot cq s.f
    let eb := dot (l1r.take (i - 1)) s.b
    let fr := 1 / (1 - eb * ef)
    let f := List.zipWith (fun u v => fr * u - ef * fr * v) fb bb
    let b := List.zipWith (fun u v => fr * u - eb * fr * v) bb fb
    let ex := dot cq s.x
    some ⟨f, b, List.zipWith (fun u v => u + (yi - ex) * v) (s.x ++ [0]) b⟩

/-- The loop `pour(i = 2; i <= n; i++)`, core/src/stats.cc:68-108: `nb` iterations from `i`. -/
def levBoucle (l1 c1 y : List K) : Nat → Nat → LevEtat K → Option (LevEtat K)
  | 0, _, s => some s
  | nb + 1, i, s =>
    match levPas l1 c1 y i s with
    | none => none
    | some s => levBoucle l1 c1 y nb (i + 1) s

/-- `levinson(l1, c1, y)`, core/src/stats.cc:45-112, with its three assertions. -/
def levinson [DecidableEq K] (l1 c1 y : List K) : Option (List K) :=
  if l1.length ≠ c1.length then none
  else if l1.length ≠ y.length then none
  else
    match l1[0]?, c1[0]?, y[0]? with
    | some l0, some c0, some y0 =>
      if l0 ≠ c0 then none
      else
        match levBoucle l1 c1 y (l1.length - 1) 2 ⟨[1 / l0], [1 / c0], [y0 / l0]⟩ with
        | none => none
        | some s => some s.x
    | _, _, _ => none

/-- `r_vers_R(r)`, core/include/tsd/stats.hpp:118-134; `conj` is the identity for real vectors. -/
def rVersR (conj : K → K) (r : List K) : Matrix (Fin r.length) (Fin r.length) K :=
  fun i j =>
    if j.val > i.val then conj (r.getD (j.val - i.val) 0) else r.getD (i.val - j.val) 0

/-- The vector given by `covmtx(x, m)` to `r_vers_R`, core/include/tsd/stats.hpp:146-158: the last `m` values of `xcorr(x, x, m)`. -/
def covVec (A : Trigo K) (x : List K) (m : Int) : Option (List K) :=
  match xcorr A x x m with
  | none => none
  | some (_, cr) => if m < 0 then none else queue cr m.toNat

/-- `lpc(x, p)`, core/src/stats.cc:122-141. `x` is a real vector, converted to complex numbers by the call of `xcorr`; `re` is `real()` . -/
def lpc {R : Type} [Field R] (A : Trigo K) (plonge : R → K) (re : K → R) (x : List R) (p : Int) : Option (List R × List R) :=
  match covVec A (x.map plonge) p with
  | none => none
  | some cr =>
    match levinsonReel (cr.map re) with
    | none => none
    | some a =>
      match Rif.step (0 : R) (· + ·) (· * ·) (Rif.init 0 a) x with
      | none => none
      | some (_, e) => some (a, e)

end Verif.Stats
