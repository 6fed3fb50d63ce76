import Mathlib.Algebra.Field.Defs
import Mathlib.Algebra.BigOperators.Group.List.Basic

/-!
# Model of the fast Fourier transform (core/src/fourier/fourier.cc)

Samples live in a field `K`; the trigonometric constants of the code (`polar`, `sqrt`, `conj`) are gathered in `Trigo K`, instantiated
with the complex numbers in `Verif.Fourier.Props`. Rounding is not modelled. An access outside a vector and a failed assertion are `none`.
-/

namespace Verif.Fourier

/-- The constants and functions of the floating-point world used by the transforms. -/
structure Trigo (K : Type) where
  /-- `polar(1, -2π/n)`, core/src/fourier/fourier.cc:28-34 -/
  w : Nat → K
  /-- `polar(-2π/n * d²/2)`, core/src/fourier/fourier.cc:398-401 -/
  chirp : Nat → Int → K
  /-- `sqrt((float) n)` -/
  racine : Nat → K
  /-- complex conjugation -/
  conj : K → K
  /-- `prochaine_puissance_de_2`, core/src/tsd.cc:287-291 (the float logarithms are not modelled) -/
  pp2 : Nat → Nat

variable {K : Type} [Field K]

/-- `tfr_rotation_rapide`, core/src/fourier/fourier.cc:31-45: `r = 1`, then `x(i) = r; r *= w0`. -/
def rotationsDepuis (w0 : K) : Nat → K → List K
  | 0, _ => []
  | n + 1, r => r :: rotationsDepuis w0 n (r * w0)

/-- `tfr_rotation(n)`, core/src/fourier/fourier.cc:47-51 (default sign -1). -/
def tfrRotation (A : Trigo K) (n : Nat) : List K := rotationsDepuis (A.w n) n 1

/-! ## Radix-2 transform -/

/-- Inner loop, core/src/fourier/fourier.cc:107-115, `c` iterations left; the three pointers are indices `e` (in `E`), `xp` and `xp2`
(in the output buffer). -/
def boucleM (pas : Nat) (rot : K) (E : List K) : Nat → Nat → Nat → Nat → List K → Option (Nat × Nat × Nat × List K)
  | 0, e, xp, xp2, out => some (e, xp, xp2, out)
  | c + 1, e, xp, xp2, out =>
    match E[e + pas]?, E[e]? with
    | some g, some v =>
      if xp < out.length ∧ xp2 < out.length then
        boucleM pas rot E c (e + 1) (xp + 1) (xp2 + 1) ((out.set xp (v + rot * g)).set xp2 (v - rot * g))
      else none
    | _, _ => none

/-- Loop over `k`, core/src/fourier/fourier.cc:99-117, `c` iterations left. -/
def boucleK (A : Trigo K) (avant : Bool) (rotations : List K) (pas : Nat) (E : List K) :
    Nat → Nat → Nat → Nat → Nat → List K → Option (List K)
  | 0, _, _, _, _, out => some out
  | c + 1, k, e, xp, xp2, out =>
    match rotations[k * pas]? with
    | none => none
    | some rot =>
      let rot := if avant then rot else A.conj rot
      match boucleM pas rot E pas e xp xp2 out with
      | none => none
      | some (e, xp, xp2, out) => boucleK A avant rotations pas E c (k + 1) (e + pas) xp xp2 out

/-- `pour(entier n = 1; n < N; n *= 2)`, core/src/fourier/fourier.cc:88-120: each pass reads the buffer `E` and writes `scratch` or `X`
alternately; the next pass reads what was written. (`x`, `X` and `scratch` are distinct vectors in every call of the library.) -/
def passes (A : Trigo K) (avant : Bool) (rotations : List K) (N n : Nat) (paire : Bool) (E X scratch : List K) : Option (List K) :=
  if n < N ∧ 0 < n then
    match boucleK A avant rotations (N / (2 * n)) E n 0 0 0 (N / 2) (if paire then scratch else X) with
    | none => none
    | some out =>
      if paire then passes A avant rotations N (n * 2) (!paire) out X out
      else passes A avant rotations N (n * 2) (!paire) out out scratch
  else some X
termination_by N - n

/-- `tfr_radix2`, core/src/fourier/fourier.cc:61-125. `X0` and `scratch0` are the (arbitrary) initial contents of the resized buffers. -/
def tfrRadix2 (A : Trigo K) (avant : Bool) (X0 scratch0 x rotations : List K) : Option (List K) :=
  let N := x.length
  if rotations.length ≠ N then none
  else if N = 1 then some x
  else
    match passes A avant rotations N 1 (decide (N &&& 0x55555555 ≠ 0)) x X0 scratch0 with
    | none => none
    | some X => some (X.map (· / A.racine N))

/-! ## Vector helpers -/

/-- `x.segment(i0, n)` as a value, core/src/tableau.cc:511-526. -/
def segment {T : Type} (x : List T) (i0 n : Nat) : Option (List T) :=
  if i0 + n ≤ x.length then some ((x.drop i0).take n) else none

/-- `x.tail(n)` as a value, core/include/tsd/tableau.hpp:894-897 (`n` larger than the vector is a negative index). -/
def queue {T : Type} (x : List T) (n : Nat) : Option (List T) :=
  if n ≤ x.length then segment x (x.length - n) n else none

/-- `y.segment(i0, v.rows()) = v`, core/src/tableau.cc:511-526, 1048-1079. -/
def ecrit {T : Type} (y : List T) (i0 : Nat) (v : List T) : Option (List T) :=
  if i0 + v.length ≤ y.length then some (y.take i0 ++ v ++ y.drop (i0 + v.length)) else none

/-- `y.tail(v.rows()) = v`. -/
def ecritQueue {T : Type} (y : List T) (v : List T) : Option (List T) :=
  if v.length ≤ y.length then ecrit y (y.length - v.length) v else none

/-- Element-wise product of two vectors (same dimensions required), core/src/tableau.cc (operator *). -/
def produit (x y : List K) : Option (List K) :=
  if x.length = y.length then some (List.zipWith (· * ·) x y) else none

/-- Element-wise sum of two vectors (same dimensions required). -/
def somme (x y : List K) : Option (List K) :=
  if x.length = y.length then some (List.zipWith (· + ·) x y) else none

/-! ## Chirp transform (odd sizes) -/

/-- `tfr2itfr`, core/src/fourier/fourier.cc:255-275. `Y(n)` is an uninitialised vector, here filled with an arbitrary value `z`. -/
def tfr2itfr (z : K) (X : List K) : Option (List K) := do
  let n := X.length
  let Y := List.replicate n z
  let x0 ← X[0]?
  let Y ← ecrit Y 0 [x0]
  if n % 2 = 0 then
    let xm ← X[n / 2]?
    let Y ← ecrit Y (n / 2) [xm]
    let t ← queue X (n / 2 - 1)
    let Y ← ecrit Y 1 t.reverse
    let s ← segment X 1 (n / 2 - 1)
    ecritQueue Y s.reverse
  else
    let t ← queue X (n / 2)
    let Y ← ecrit Y 1 t.reverse
    let s ← segment X 1 (n / 2)
    ecritQueue Y s.reverse

/-- `tfr_czt_impl`, core/src/fourier/fourier.cc:232-252. -/
def tfrCzt (A : Trigo K) (x : List K) (n2 : Nat) (twiddles chirp : List K) : Option (List K) := do
  let n := x.length
  let ct ← queue chirp n
  let xc ← produit x ct
  let xp ← ecrit (List.replicate n2 0) 0 xc
  let icp ← ecrit (List.replicate n2 0) 0 (chirp.map A.conj)
  if 2 * n - 1 ≠ chirp.length then none
  else
    let Xp ← tfrRadix2 A true (List.replicate n2 0) (List.replicate n2 0) xp twiddles
    let Xc ← tfrRadix2 A true (List.replicate n2 0) (List.replicate n2 0) icp twiddles
    let P ← produit Xp Xc
    let y2 ← tfrRadix2 A false (List.replicate n2 0) (List.replicate n2 0) P twiddles
    let s ← segment y2 (n - 1) n
    let r ← produit s ct
    some (r.map (· * (A.racine n2 / A.racine n)))

/-! ## Plans -/

/-- `TFRPlanDefaut`, core/src/fourier/fourier.cc:360-365. (`normaliser` is always true: `configure` ignores its parameter. `scratch` carries
no information.) -/
inductive Plan (K : Type) where
  | mk (n n2 : Int) (avant : Bool) (rotations chirp : List K) (sous : Option (Plan K))

/-- A freshly built plan (`n = -1`), core/src/fourier/fourier.cc:367-378. -/
def Plan.neuf {K : Type} : Plan K := .mk (-1) 0 true [] [] none

/-- The chirp vector, core/src/fourier/fourier.cc:398-401. -/
def chirpVec (A : Trigo K) (n : Nat) : List K := (List.range (2 * n - 1)).map fun i : Nat => A.chirp n ((i : Int) - ((n : Int) - 1))

/-- `configure`, core/src/fourier/fourier.cc:372-406, with `n ≥ 0`. The members that are not assigned keep their old value. -/
def Plan.configure (A : Trigo K) (p : Plan K) (n : Nat) (avant : Bool) : Plan K :=
  match p with
  | .mk _ _ _ _ chirp sous =>
    if n &&& (n - 1) ≠ 0 then
      if n % 2 = 0 ∧ 0 < n then
        .mk n n avant (tfrRotation A n) chirp (some (Plan.configure A Plan.neuf (n / 2) avant))
      else
        .mk n (A.pp2 (2 * n - 1)) avant (tfrRotation A (A.pp2 (2 * n - 1))) (chirpVec A n) sous
    else .mk n n avant (tfrRotation A n) chirp sous
termination_by n
decreasing_by omega

/-- Even-indexed samples of a vector of even size, core/src/fourier/fourier.cc:444-449. -/
def pairs {T : Type} : List T → List T
  | [] => []
  | [a] => [a]
  | a :: _ :: l => a :: pairs l

/-- Odd-indexed samples of a vector of even size, core/src/fourier/fourier.cc:444-449. -/
def impairs {T : Type} : List T → List T
  | [] => []
  | [_] => []
  | _ :: b :: l => b :: impairs l

/-- Recombination of the two half transforms, core/src/fourier/fourier.cc:453-467 (`normaliser` is true). -/
def recombine (A : Trigo K) (avant : Bool) (rotations E O : List K) (n : Nat) : Option (List K) := do
  let rh ← segment rotations 0 (n / 2)
  let rt ← queue rotations (n / 2)
  let ph ← produit (if avant then rh else rh.map A.conj) O
  let pt ← produit (if avant then rt else rt.map A.conj) O
  let h ← somme E ph
  let t ← somme E pt
  let y ← ecrit (List.replicate n 0) 0 h
  let y ← ecritQueue y t
  some (y.map (· * (1 / A.racine 2)))

theorem pairs_length {T : Type} : ∀ x : List T, (pairs x).length = (x.length + 1) / 2
  | [] => by simp [pairs]
  | [_] => by simp [pairs]
  | _ :: _ :: l => by simp only [pairs, List.length_cons, pairs_length l]; omega

theorem impairs_length {T : Type} : ∀ x : List T, (impairs x).length = x.length / 2
  | [] => by simp [impairs]
  | [_] => by simp [impairs]
  | _ :: _ :: l => by simp only [impairs, List.length_cons, impairs_length l]; omega

/-- First lines of `step`, core/src/fourier/fourier.cc:416-417: the plan is configured again when the size changes (with the direction
it already has). -/
def Plan.assure (A : Trigo K) : Plan K → Nat → Plan K
  | .mk n n2 av rotations chirp sous, m =>
    if n ≠ m then Plan.configure A (.mk n n2 av rotations chirp sous) m av else .mk n n2 av rotations chirp sous

/-- `step(x, y, avant)`, core/src/fourier/fourier.cc:412-471, returning the updated plan and `y`. (The test `1 < x.length` is implied by
the even non-power-of-two case; it makes the recursion well founded.) -/
def Plan.step (A : Trigo K) (p : Plan K) (x : List K) (avant : Bool) : Option (Plan K × List K) :=
  if x.length = 0 then none
  else
    match Plan.assure A p x.length with
    | .mk n n2 av rotations chirp sous =>
      if n2 ≠ n then
        match tfrCzt A x n2.toNat rotations chirp with
        | none => none
        | some y =>
          if avant then some (.mk n n2 av rotations chirp sous, y)
          else
            match tfr2itfr 0 y with
            | none => none
            | some y => some (.mk n n2 av rotations chirp sous, y)
      else if n.toNat &&& (n.toNat - 1) = 0 then
        match tfrRadix2 A avant (List.replicate n.toNat 0) (List.replicate n.toNat 0) x rotations with
        | none => none
        | some y => some (.mk n n2 av rotations chirp sous, y)
      else if 1 < x.length then
        match sous with
        | none => none
        | some q =>
          match Plan.step A q (pairs x) avant with
          | none => none
          | some (q, E) =>
            match Plan.step A q (impairs x) avant with
            | none => none
            | some (q, O) =>
              match recombine A avant rotations E O x.length with
              | none => none
              | some y => some (.mk n n2 av rotations chirp (some q), y)
      else none
termination_by x.length
decreasing_by
  · rw [pairs_length]; omega
  · rw [impairs_length]; omega

/-- `fft(x)` for a complex vector, core/include/tsd/fourier.hpp:164-170: a new plan, direct transform. -/
def fft (A : Trigo K) (x : List K) : Option (List K) := (Plan.step A Plan.neuf x true).map Prod.snd

/-- `ifft(X)`, core/include/tsd/fourier.hpp:201-205. -/
def ifft (A : Trigo K) (X : List K) : Option (List K) := (Plan.step A Plan.neuf X false).map Prod.snd

/-- `plan->step(x)` with one argument, core/include/tsd/fourier.hpp:31: the direction defaults to "direct", whatever `configure` was told. -/
def Plan.stepDefaut (A : Trigo K) (p : Plan K) (x : List K) : Option (Plan K × List K) := Plan.step A p x true

end Verif.Fourier
