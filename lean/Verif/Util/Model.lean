import Verif.Binary64
import Mathlib.Algebra.Order.Floor.Ring

/-!
# Model of the vector and scalar utilities of `core/include/tsd/tsd.hpp` and `core/src/tsd.cc`

A vector access outside its bounds (exception with `TSD_SAFE`, undefined otherwise) and `% 0` are `none`.
`entier` is unbounded.
-/

namespace Verif.Util

/-- `x(i)` with a signed index, core/include/tsd/tableau.hpp:1170-1180. -/
def acces {T : Type} (x : List T) (i : Int) : Option T := if i < 0 then none else x[i.toNat]?

/-- `vconcat` of vectors, core/include/tsd/tsd.hpp:137-146: a vector of the total size, whose head then tail are overwritten
(`ind` = the indeterminate initial contents). -/
def vconcat {T : Type} (ind : T) (a b : List T) : List T :=
  let c := List.replicate (a.length + b.length) ind
  let c := if a.length > 0 then a ++ c.drop a.length else c
  if b.length > 0 then c.take (c.length - b.length) ++ b else c

/-- `rotation_vec`, core/include/tsd/tsd.hpp:211-216 (`%` of C++ truncates towards zero). -/
def rotationVec {T : Type} (x : List T) (d : Int) : Option (List T) :=
  (List.range x.length).mapM fun (i : Nat) => acces x (((i : Int) + d + (x.length : Int)).tmod x.length)

/-- `diff`, core/include/tsd/tsd.hpp:237-241: `x.tail(n-1) - x.head(n-1)`; on an empty vector the views have dimension -1: `none`. -/
def diff {A : Type} (sub : A → A → A) (x : List A) : Option (List A) :=
  if x.length = 0 then none else some (List.zipWith sub x.tail x.dropLast)

/-- Accumulation loop of `cumsum`, core/include/tsd/tsd.hpp:268-273. -/
def cumsumDe {A : Type} (add : A → A → A) : A → List A → List A
  | _, [] => []
  | cs, x :: xs => add cs x :: cumsumDe add (add cs x) xs

/-- `cumsum`, core/include/tsd/tsd.hpp:264-275. -/
def cumsum {A : Type} (zero : A) (add : A → A → A) (x : List A) : List A := cumsumDe add zero x

/-- `sousech`, core/include/tsd/tsd.hpp:368-375. -/
def sousech {A : Type} (x : List A) (R : Nat) : Option (List A) :=
  if R = 0 then none else (List.range (x.length / R)).mapM fun i => x[i * R]?

/-- Loop of `surech`, core/include/tsd/tsd.hpp:398-399: `y(i * R) = x(i)`. -/
def surechBoucle {A : Type} (R : Nat) : Nat → List A → List A → List A
  | _, [], y => y
  | i, v :: xs, y => surechBoucle R (i + 1) xs (y.set (i * R) v)

/-- `surech`, core/include/tsd/tsd.hpp:394-401. -/
def surech {A : Type} (zero : A) (x : List A) (R : Nat) : List A :=
  surechBoucle R 0 x (List.replicate (x.length * R) zero)

/-- `pad_zeros`, core/include/tsd/tsd.hpp:515-535, with `n3` the common dimension (`max(n1, n2)`, or its next power of two when `p2`:
that float computation is not modelled, any `n3` is allowed); `head(n)` of a shorter vector fails. -/
def padZeros {A : Type} (zero : A) (x y : List A) (n3 : Nat) : Option (List A × List A) :=
  if x.length ≤ n3 ∧ y.length ≤ n3 then
    some (x ++ (List.replicate n3 zero).drop x.length, y ++ (List.replicate n3 zero).drop y.length)
  else none

/-- `sousvec`, core/include/tsd/tsd.hpp:738-751 (assertion on the indices). -/
def sousvec {A : Type} (x : List A) (idx : List Int) : Option (List A) := idx.mapM fun i => acces x i

/-- `trouve`, core/src/tsd.cc:519-526. -/
def trouveDe : Nat → List Bool → List Nat
  | _, [] => []
  | i, b :: bs => if b then i :: trouveDe (i + 1) bs else trouveDe (i + 1) bs

/-- `trouve`, core/src/tsd.cc:519-526. -/
def trouve (x : List Bool) : List Nat := trouveDe 0 x

/-- Loop of `trouve_premier` from index `i`, core/src/tsd.cc:531-534. -/
def trouvePremierDe : Nat → List Bool → Int
  | _, [] => -1
  | i, b :: bs => if b then i else trouvePremierDe (i + 1) bs

/-- `trouve_premier`, core/src/tsd.cc:529-535. -/
def trouvePremier (x : List Bool) : Int := trouvePremierDe 0 x

/-- Loop of `trouve_dernier` with `i + 1` iterations left, core/src/tsd.cc:540-543 (the test in the code is `!x(i)`). -/
def trouveDernierDe (x : List Bool) : Nat → Int
  | 0 => -1
  | i + 1 => if x.getD i false = false then (i : Int) + 1 else trouveDernierDe x i

/-- `trouve_dernier`, core/src/tsd.cc:538-544. -/
def trouveDernier (x : List Bool) : Int := trouveDernierDe x x.length

/-- `trouve_premier_max_local`, core/include/tsd/tsd.hpp:327-333, loop from index `i` with `n` iterations left. -/
def maxLocalDe {A : Type} [LT A] [DecidableLT A] (x : List A) : Nat → Nat → Int
  | 0, _ => -1
  | n + 1, i =>
    match x[i - 1]?, x[i]?, x[i + 1]? with
    | some a, some b, some c => if a < b ∧ c < b then i else maxLocalDe x n (i + 1)
    | _, _, _ => -1

/-- `trouve_premier_max_local`, core/include/tsd/tsd.hpp:327-333. -/
def maxLocal {A : Type} [LT A] [DecidableLT A] (x : List A) : Int := maxLocalDe x (x.length - 2) 1

/-- `intervalle_entier`, core/include/tsd/tsd.hpp:969-976 (a negative dimension fails). -/
def intervalleEntier (a b : Int) : Option (List Int) :=
  if b - a + 1 < 0 then none else some ((List.range (b - a + 1).toNat).map fun (k : Nat) => a + k)

/-- `linspace`, core/include/tsd/tsd.hpp:916-931 (exact arithmetic). -/
def linspace {K : Type} [Field K] (a b : K) (n : Nat) : List K :=
  let step := (b - a) / ((n : K) - 1)
  (List.range n).map fun (i : Nat) => if i = 0 then a else a + step * (i : K)

/-- `modulo`, core/include/tsd/tsd.hpp:771-783, in an arbitrary arithmetic: `rnd` is applied to the result of each operation
(`id`: exact arithmetic; `rnd64`: double). -/
def modulo {K : Type} [Field K] [LinearOrder K] [FloorRing K] (rnd : K → K) (x m : K) : K :=
  if m = 0 then x
  else
    let res := rnd (x - rnd (m * (⌊rnd (x / m)⌋ : K)))
    if res = m then 0 else res

/-- `modulo_2π`, core/include/tsd/tsd.hpp:801-804, `p` being the constant π of the type. -/
def modulo2π {K : Type} [Field K] [LinearOrder K] [FloorRing K] (rnd : K → K) (p x : K) : K := modulo rnd x (rnd (2 * p))

/-- `modulo_pm_π`, core/include/tsd/tsd.hpp:822-826. -/
def moduloPmπ {K : Type} [Field K] [LinearOrder K] [FloorRing K] (rnd : K → K) (p x : K) : K :=
  rnd (modulo2π rnd p (rnd (x + p)) - p)

/-- `fmod(a, r)`: `a - r * trunc(a / r)` (exact in IEEE arithmetic, exact here). -/
def fmod {K : Type} [Field K] [LinearOrder K] [FloorRing K] (a r : K) : K :=
  a - r * (if 0 ≤ a / r then (⌊a / r⌋ : K) else (⌈a / r⌉ : K))

/-- Loop of `déplie_phase`, core/src/tsd.cc:503-513; `p` is the constant π, `yp` the previous output. Exact arithmetic. -/
def deplieDe {K : Type} [Field K] [LinearOrder K] [FloorRing K] (p r : K) : K → List K → List K
  | _, [] => []
  | yp, x :: xs =>
    let d := fmod (x - yp) r
    let d := if d > r / 2 then d - r else d
    let d := if d < -p then d + r else d
    (yp + d) :: deplieDe p r (yp + d) xs

/-- `déplie_phase`, core/src/tsd.cc:497-516 (`x(0)` is read even when the vector is empty). -/
def deplie {K : Type} [Field K] [LinearOrder K] [FloorRing K] (p r : K) (x : List K) : Option (List K) :=
  match x with
  | [] => none
  | x0 :: xs => some (x0 :: deplieDe p r x0 xs)

end Verif.Util
