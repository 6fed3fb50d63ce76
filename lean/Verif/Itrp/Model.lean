import Verif.Filtre.Model
import Mathlib.Algebra.Order.Floor.Ring
import Mathlib.Algebra.Order.Field.Basic

/-!
# Model of the interpolators (core/src/reechan/itrp.cc), of the interpolation filter and of the rate splitting (core/src/reechan/ra.cc)

Exact arithmetic in an ordered field (the code uses `float`).
-/

namespace Verif.Itrp

variable {K : Type} [Field K] [LinearOrder K] [FloorRing K]

/-! ## FIR interpolators -/

/-- `InterpolateurLineaire::coefs`, core/src/reechan/itrp.cc:83-86. -/
def coefsLin (τ : K) : List K := [1 - τ, τ]

/-- The inner loop of `InterpolateurLagrange::coefs`, core/src/reechan/itrp.cc:125-128. -/
def lagProd (d : Nat) (t : K) (j : Nat) : K :=
  (List.range (d + 1)).foldl (fun p k => if k ≠ j then p * ((t - (k : K)) / ((j : K) - (k : K))) else p) 1

/-- `InterpolateurLagrange::coefs`, core/src/reechan/itrp.cc:112-132. -/
def coefsLagrange (d : Nat) (τ : K) : List K :=
  let t := ((d : K) - 1) / 2 + τ
  (List.range (d + 1)).map (lagProd d t)

/-- `cspline_calc`, core/src/reechan/itrp.cc:293-301. -/
def csplineCalc (t : K) : K × K × K × K :=
  ((1 + 2 * t) * (t - 1) * (t - 1), t * (t - 1) * (t - 1), t * t * (3 - 2 * t), t * t * (t - 1))

/-- `cspline_filtre`, core/src/reechan/itrp.cc:303-312. -/
def csplineFiltre (t c : K) : List K :=
  let (h0, h1, h2, h3) := csplineCalc t
  [-(1 - c) * h1 / 2, h0 - (1 - c) * h3 / 2, h2 + (1 - c) * h1 / 2, (1 - c) * h3 / 2]

/-- `cspline_calc_lut`, core/src/reechan/itrp.cc:314-320 (list of the columns). -/
def csplineLut (n : Nat) (c : K) : List (List K) := (List.range (n + 1)).map fun i : Nat => csplineFiltre ((i : K) / (n : K)) c

/-- Conversion `(entier) v` of C (truncation towards zero). -/
def tronque (v : K) : Int := if 0 ≤ v then ⌊v⌋ else ⌈v⌉

/-- `InterpolateurCSpline::coefs` with the default parameters (`n = 256`, `c = 0`), core/src/reechan/itrp.cc:62-77. -/
def coefsCspline (τ : K) : Option (List K) :=
  let i := tronque (τ * 256)
  if 0 ≤ i ∧ i ≤ 256 then (csplineLut 256 0)[i.toNat]? else none

/-- The loop of `InterpolateurRIF::step`, core/include/tsd/filtrage.hpp:1877-1880: `nb` iterations from `i`. -/
def stepBoucle (taille k : Nat) (h x : List K) : Nat → Nat → K → Option K
  | 0, _, res => some res
  | nb + 1, i, res =>
    match h[i]?, x[(i + k) % taille]? with
    | some a, some b => stepBoucle taille k h x nb (i + 1) (res + a * b)
    | _, _ => none

/-- `InterpolateurRIF::step`, core/include/tsd/filtrage.hpp:1873-1881: `taille` is the field `K`, `h` the result of `coefs(τ)`. -/
def step (taille : Nat) (h x : List K) (k : Nat) : Option K :=
  if h.length ≠ taille then none else stepBoucle taille k h x taille 0 0

/-! ## Interpolation at arbitrary points -/

/-- `pour(; x(j) < v; j++)`, core/src/reechan/itrp.cc:175-176 and 251-252; reading past the end is an error. -/
def cherche (x : List K) (v : K) : Nat → Nat → Option Nat
  | 0, _ => none
  | fuel + 1, j =>
    match x[j]? with
    | none => none
    | some xj => if xj < v then cherche x v fuel (j + 1) else some j

/-- The loop on the output points common to `interp_lin`, core/src/reechan/itrp.cc:167-181, and `interp_cspline`, core/src/reechan/itrp.cc:243-259:
clamping, search of the interval `[x(j-1), x(j)]` from the last one used, evaluation by `eval (j-1) v`. -/
def parcours (x y : List K) (eval : Nat → K → Option K) : List K → Nat → Option (List K)
  | [], _ => some []
  | v :: x2, j =>
    match x[0]?, y[0]?, x[x.length - 1]?, y[x.length - 1]? with
    | some x0, some y0, some xn, some yn =>
      if v ≤ x0 then (parcours x y eval x2 j).map (y0 :: ·)
      else if v ≥ xn then (parcours x y eval x2 j).map (yn :: ·)
      else
        match cherche x v (x.length + 1) j with
        | none => none
        | some 0 => none
        | some (k + 1) =>
          match eval k v with
          | none => none
          | some r => (parcours x y eval x2 (k + 1)).map (r :: ·)
    | _, _, _, _ => none

/-- The evaluation of `interp_lin` between `x(k)` and `x(k+1)`, core/src/reechan/itrp.cc:178-179. -/
def evalLin (x y : List K) (k : Nat) (v : K) : Option K :=
  match x[k]?, x[k + 1]?, y[k]?, y[k + 1]? with
  | some xk, some xk1, some yk, some yk1 =>
    let a := (v - xk) / (xk1 - xk)
    some ((1 - a) * yk + a * yk1)
  | _, _, _, _ => none

/-- `H = diff(x)`, core/src/reechan/itrp.cc:216, core/include/tsd/tsd.hpp:236-241. -/
def diff (x : List K) (i : Nat) : K := x.getD (i + 1) 0 - x.getD i 0

/-- `Y(i)`, core/src/reechan/itrp.cc:218-219. -/
def splY (x y : List K) (i : Nat) : K :=
  3 / diff x i * (y.getD (i + 1) 0 - y.getD i 0) - 3 / diff x (i - 1) * (y.getD i 0 - y.getD (i - 1) 0)

/-- `U(i)` and `Z(i)`, core/src/reechan/itrp.cc:221-227 (the array elements as a recursion on the index; `L(i)` is local). -/
def splUZ (x y : List K) : Nat → K × K
  | 0 => (0, 0)
  | i + 1 =>
    let (u, z) := splUZ x y i
    let L := 2 * (x.getD (i + 2) 0 - x.getD i 0) - diff x i * u
    (diff x (i + 1) / L, (splY x y (i + 1) - diff x i * z) / L)

/-- `C(n - m)`, core/src/reechan/itrp.cc:228-232 (`C(n) = 0`, then decreasing indices). -/
def splCrev (x y : List K) (n : Nat) : Nat → K
  | 0 => 0
  | m + 1 => let (u, z) := splUZ x y (n - (m + 1)); z - u * splCrev x y n m

/-- `C(i)`, core/src/reechan/itrp.cc:228-232. -/
def splC (x y : List K) (n i : Nat) : K := splCrev x y n (n - i)

/-- `B(i)`, core/src/reechan/itrp.cc:233. -/
def splB (x y : List K) (n i : Nat) : K :=
  (y.getD (i + 1) 0 - y.getD i 0) / diff x i - diff x i * (splC x y n (i + 1) + 2 * splC x y n i) / 3

/-- `D(i)`, core/src/reechan/itrp.cc:234. -/
def splD (x y : List K) (n i : Nat) : K := (splC x y n (i + 1) - splC x y n i) / (3 * diff x i)

/-- The evaluation of `interp_cspline`, core/src/reechan/itrp.cc:254-256; `B(k)` and `D(k)` exist for `k < n` only. -/
def evalSpl (x y : List K) (k : Nat) (v : K) : Option K :=
  let n := x.length - 1
  if k < n then
    let t := v - x.getD k 0
    some (y.getD k 0 + splB x y n k * t + splC x y n k * t * t + splD x y n k * t * t * t)
  else none

/-- `interp(x, y, x2, mode)`, core/src/reechan/itrp.cc:266-277, with `interp_lin`, core/src/reechan/itrp.cc:161-183 and
`interp_cspline`, core/src/reechan/itrp.cc:199-261 (real values; an empty `x` accesses `L(0)` of an empty vector with the spline, and `x(0)`
of an empty one with the linear mode as soon as there is an output point). -/
def interp (x y x2 : List K) (spline : Bool) : Option (List K) :=
  if x.length ≠ y.length then none
  else if spline then
    if x.length = 0 then none else parcours x y (evalSpl x y) x2 0
  else parcours x y (evalLin x y) x2 0

/-! ## Interpolation filter -/

/-- `AdaptationRythmeSimple`, core/src/reechan/ra.cc:14-36: `phase` and `fenetre`. -/
structure Ars (T K : Type) where
  phase : K
  fenetre : List T

/-- Constructor, core/src/reechan/ra.cc:25-36. -/
def Ars.init {T : Type} (zero : T) (nfen : Nat) : Ars T K := ⟨0, List.replicate nfen zero⟩

/-- `tantque(phase < 1)`, core/src/reechan/ra.cc:64-75: `reste` is `tmp_len - j`; the assertion `j < tmp_len` bounds the loop. Returns the
final phase, the values produced and what remains of `tmp_len - j`. -/
def Ars.sorties {T : Type} (itrp : List T → K → Option T) (inc : K) (fen : List T) : Nat → K → Option (K × List T × Nat)
  | 0, phase => if phase < 1 then none else some (phase, [], 0)
  | reste + 1, phase =>
    if phase < 1 then
      match itrp fen phase with
      | none => none
      | some v =>
        match Ars.sorties itrp inc fen reste (phase + inc) with
        | none => none
        | some (p, vs, r) => some (p, v :: vs, r)
    else some (phase, [], reste + 1)

/-- The loop on the input samples, core/src/reechan/ra.cc:58-77. -/
def Ars.boucle {T : Type} (itrp : List T → K → Option T) (inc : K) : Ars T K → Nat → List T → Option (Ars T K × List T)
  | s, _, [] => some (s, [])
  | s, reste, x :: xs =>
    if s.fenetre.length = 0 then none
    else
      let fen := s.fenetre.drop 1 ++ [x]
      match Ars.sorties itrp inc fen reste s.phase with
      | none => none
      | some (p, vs, r) =>
        match Ars.boucle itrp inc ⟨p - 1, fen⟩ r xs with
        | none => none
        | some (s', ys) => some (s', vs ++ ys)

/-- `step`, core/src/reechan/ra.cc:40-80. -/
def Ars.step {T : Type} (itrp : List T → K → Option T) (ratio : K) : Verif.Filtre.Bloc (Ars T K) T T := fun s x =>
  if x.length = 0 then some (s, [])
  else Ars.boucle itrp (1 / ratio) s (⌈ratio * (x.length : K)⌉ + 10).toNat x

/-! ## Splitting of an arbitrary ratio -/

/-- `tantque(facteur < 0.5) { nb_décimateurs++; facteur *= 2; }`, core/src/reechan/ra.cc:124-128 (`fuel` bounds the number of iterations). -/
def monte : Nat → K → Option (Nat × K)
  | 0, f => if f < 1 / 2 then none else some (0, f)
  | fuel + 1, f => if f < 1 / 2 then (monte fuel (f * 2)).map (fun r => (r.1 + 1, r.2)) else some (0, f)

/-- `tantque(facteur >= 2) { nb_suréchantilloneurs++; facteur /= 2; }`, core/src/reechan/ra.cc:128-134. -/
def descend : Nat → K → Option (Nat × K)
  | 0, f => if f ≥ 2 then none else some (0, f)
  | fuel + 1, f => if f ≥ 2 then (descend fuel (f / 2)).map (fun r => (r.1 + 1, r.2)) else some (0, f)

/-- The numbers of decimators and of over-samplers and the remaining ratio computed by `configure_impl`, core/src/reechan/ra.cc:106-134
(an invalid ratio is replaced by 1). -/
def decoupe (fuel : Nat) (ratio : K) : Option (Nat × Nat × K) :=
  let ratio := if ratio ≤ 0 ∨ ratio ≥ 1000000000 then 1 else ratio
  match monte fuel ratio with
  | none => none
  | some (nd, f) =>
    match descend fuel f with
    | none => none
    | some (nu, f) => some (nd, nu, f)

end Verif.Itrp
