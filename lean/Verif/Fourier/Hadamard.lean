import Mathlib.Algebra.Field.Defs
import Mathlib.Algebra.BigOperators.Group.List.Basic

/-!
# Model of the Walsh-Hadamard transform (core/src/fourier/hadamard.cc)

Samples live in a field `K` (the code uses 32-bit floats: rounding is not modelled). An access outside the bounds of a vector
(exception, `TSD_SAFE`) is `none`.
-/

namespace Verif.Hadamard

/-- Loop body, core/src/fourier/hadamard.cc:18-21: butterfly on elements `j` and `j + h`. -/
def papillon {K : Type} [Field K] (y : List K) (j h : Nat) : Option (List K) :=
  match y[j]?, y[j + h]? with
  | some x1, some y1 => some ((y.set j (x1 + y1)).set (j + h) (x1 - y1))
  | _, _ => none

/-- `pour(auto j = i; j < i + h; j++)`, core/src/fourier/hadamard.cc:16-22, with `c` iterations left from `j`. -/
def boucleJ {K : Type} [Field K] (h : Nat) : Nat → Nat → List K → Option (List K)
  | 0, _, y => some y
  | c + 1, j, y =>
    match papillon y j h with
    | none => none
    | some y' => boucleJ h c (j + 1) y'

/-- `pour(auto i = 0; i < n; i += h * 2)`, core/src/fourier/hadamard.cc:14-23. (`h` is never 0 in the code; the test makes the definition
total.) -/
def boucleI {K : Type} [Field K] (n h i : Nat) (y : List K) : Option (List K) :=
  if i < n ∧ 0 < h then
    match boucleJ h h i y with
    | none => none
    | some y' => boucleI n h (i + h * 2) y'
  else some y
termination_by n - i

/-- `tantque(h < n)`, core/src/fourier/hadamard.cc:12-26: all the butterflies of a level, then division by 2. -/
def niveaux {K : Type} [Field K] (n h : Nat) (y : List K) : Option (List K) :=
  if h < n ∧ 0 < h then
    match boucleI n h 0 y with
    | none => none
    | some y' => niveaux n (h * 2) (y'.map (· / 2))
  else some y
termination_by n - h

/-- `fwht`, core/src/fourier/hadamard.cc:7-29. `Vecf y = x` copies the vector (core/include/tsd/tableau.hpp:544-548). -/
def fwht {K : Type} [Field K] (x : List K) : Option (List K) := niveaux x.length 1 x

/-- `M.block(r0, nr, c0, nc) = B`, core/src/tableau.cc:537-548, 1074-1077: writes the elements of the block only. -/
def ecritBloc (M : Nat → Nat → Int) (r0 nr c0 nc : Nat) (B : Nat → Nat → Int) : Nat → Nat → Int := fun i j =>
  if r0 ≤ i ∧ i < r0 + nr ∧ c0 ≤ j ∧ j < c0 + nc then B (i - r0) (j - c0) else M i j

/-- `hadamard_matrice`, core/src/fourier/hadamard.cc:31-45 (integer entries; meaningful for indices below `n`). `none` for `n = 0`, where
the recursion does not end. -/
def hadamardMatrice (n : Nat) : Option (Nat → Nat → Int) :=
  if n = 0 then none
  else if n = 1 then some fun _ _ => 1
  else
    match hadamardMatrice (n / 2) with
    | none => none
    | some Mp =>
      let M := fun _ _ => (0 : Int)
      let M := ecritBloc M 0 (n / 2) 0 (n / 2) Mp
      let M := ecritBloc M (n / 2) (n / 2) 0 (n / 2) Mp
      let M := ecritBloc M 0 (n / 2) (n / 2) (n / 2) Mp
      let M := ecritBloc M (n / 2) (n / 2) (n / 2) (n / 2) (fun i j => -(Mp i j))
      some M
termination_by n
decreasing_by omega

end Verif.Hadamard
