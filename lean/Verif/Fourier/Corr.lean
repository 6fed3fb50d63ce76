import Verif.Fourier.Tfr

/-!
# Model of the FFT based correlations, of the real FFT and of integer delays (core/src/fourier/fourier.cc, core/include/tsd/fourier.hpp)

Same conventions as `Verif.Fourier.Tfr`.
-/

namespace Verif.Fourier

variable {K : Type} [Field K]

/-- `linspace(a, b, n)`, core/include/tsd/tsd.hpp:916-931 (exact arithmetic). -/
def linspace (a b : K) (n : Nat) : List K :=
  (List.range n).map fun i : Nat => if i = 0 then a else a + (b - a) / ((n : K) - 1) * (i : K)

/-- `correlation_freq`, core/src/fourier/fourier.cc:490-503. `Y(n)` is an uninitialised vector, here filled with 0. -/
def correlationFreq (A : Trigo K) (X0 X1 : List K) : Option (List K) := do
  let n := X0.length
  if n ≠ X1.length then none
  else
    let a ← X0[0]?
    let b ← X1[0]?
    let Y ← ecrit (List.replicate n 0) 0 [a * A.conj b]
    let Y ← if 1 < n then do
        let t0 ← queue X0 (n - 1)
        let t1 ← queue X1 (n - 1)
        let p ← produit t0.reverse (t1.reverse.map A.conj)
        ecritQueue Y p
      else some Y
    some (Y.map (· * A.racine n))

/-- `TFRCorrelateurBloc::step`, core/src/fourier/fourier.cc:518-540, with the plan of the object. -/
def correlateur (A : Trigo K) (p : Plan K) (x0 x1 : List K) : Option (Plan K × List K) :=
  let x1p := if x1.length = 0 then x0 else x1
  if x0.length ≠ x1p.length then none
  else
    match p.step A x0 true with
    | none => none
    | some (p, X0) =>
      match p.step A x1p true with
      | none => none
      | some (p, X1) =>
        match correlationFreq A X0 X1 with
        | none => none
        | some X2 => p.step A X2 false

/-- `ccorr`, core/src/fourier/fourier.cc:544-550. -/
def ccorr (A : Trigo K) (x0 x1 : List K) : Option (List K × List K) :=
  let m := x0.length
  match correlateur A Plan.neuf x0 x1 with
  | none => none
  | some (_, r) => some (linspace 0 ((m : K) - 1) m, r.map (· / (m : K)))

/-- `y.segment(i0, n) = v`, core/src/tableau.cc:511-526, core/include/tsd/tableau.hpp:546-592: copies into `y` when the dimensions agree, and
has no effect on `y` otherwise. -/
def ecritVue {T : Type} (y : List T) (i0 n : Nat) (v : List T) : Option (List T) :=
  if i0 + n ≤ y.length then if v.length = n then ecrit y i0 v else some y else none

/-- `xcorrb`, core/src/fourier/fourier.cc:552-578. A negative size (`m = 0`: `Veccf(-1)`) is an error. The assignment
`y2.segment(m, n) = yp` with `yp` of another dimension only rebinds the temporary view (core/include/tsd/tableau.hpp:578-592): `y2` is left
unchanged. -/
def xcorrb (A : Trigo K) (x y : List K) (m : Int) : Option (List K × List K) := do
  let n := x.length
  let m := if m < 0 then n else m.toNat
  let yp := if y.length = 0 then x else y
  if m = 0 then none
  else
    let x2 ← ecrit (List.replicate (m + n + m) 0) m x
    let y2 ← ecritVue (List.replicate (m + n + m) 0) m n yp
    let (_, r) ← correlateur A Plan.neuf x2 y2
    let h ← segment r 0 m
    let t ← queue r (m - 1)
    let res ← ecritQueue (List.replicate (2 * m - 1) 0) (h.map (· / (n : K)))
    let res ← ecrit res 0 (t.map (· / (n : K)))
    some (linspace (-((m : K) - 1)) ((m : K) - 1) (2 * m - 1), res)

/-- Element-wise quotient (same dimensions required). -/
def quotient (x y : List K) : Option (List K) :=
  if x.length = y.length then some (List.zipWith (· / ·) x y) else none

/-- `xcorr`, core/src/fourier/fourier.cc:580-598. -/
def xcorr (A : Trigo K) (x y : List K) (m : Int) : Option (List K × List K) := do
  let n := x.length
  let m : Nat := if m < 0 then n else m.toNat
  let (lags, zb) ← xcorrb A x y m
  if 1 < m then
    let h ← segment zb 0 (m - 1)
    let q ← quotient h ((linspace ((n : K) - ((m : K) - 1)) ((n : K) - 1) (m - 1)).map (· / (n : K)))
    let zb ← ecrit zb 0 q
    let t ← queue zb (m - 1)
    let q ← quotient t ((linspace ((n : K) - 1) ((n : K) - ((m : K) - 1)) (m - 1)).map (· / (n : K)))
    let zb ← ecritQueue zb q
    some (lags, zb)
  else some (lags, zb)

/-- `delais_entier`, core/src/fourier/fourier.cc:666-683: for `|τ| > n` the sizes of the segments are negative (error). -/
def delaisEntier (x : List K) (τ : Int) : Option (List K) :=
  if τ = 0 then some x
  else
    let n := x.length
    let y := List.replicate n (0 : K)
    if 0 < τ then
      if (n : Int) - τ < 0 then none
      else
        match segment x 0 (n - τ.toNat) with
        | none => none
        | some s => ecritQueue y s
    else
      if (n : Int) + τ < 0 then none
      else
        match queue x (n - (-τ).toNat) with
        | none => none
        | some s => ecrit y 0 s

/-- `z.imag(0)` on element `i`, with `re` the real part. -/
def imagNulle (re : K → K) (X : List K) (i : Nat) : Option (List K) :=
  match X[i]? with
  | none => none
  | some v => ecrit X i [re v]

/-- The middle of the spectrum in `csym_forçage`, core/include/tsd/fourier.hpp:275-278. -/
def csymMilieu (A : Trigo K) (re : K → K) (X : List K) : Option (List K) :=
  if X.length % 2 = 0 then imagNulle re X (X.length / 2)
  else
    match X[X.length / 2]? with
    | none => none
    | some v => ecrit X (X.length / 2 + 1) [A.conj v]

/-- `csym_forçage`, core/include/tsd/fourier.hpp:264-282 (`re` is the real part, as an element of `K`). `n/2 - 1` is negative for
`n < 2`. -/
def csymForcage (A : Trigo K) (re : K → K) (X : List K) : Option (List K) := do
  let X ← imagNulle re X 0
  let X ← csymMilieu A re X
  if X.length / 2 = 0 then none
  else
    let s ← segment X 1 (X.length / 2 - 1)
    ecritQueue X (s.reverse.map A.conj)

/-- Loop of `RTFRPlan::step`, core/src/fourier/fourier.cc:326-341, index `i`. -/
def rtfrCoef (A : Trigo K) (j : K) (n : Nat) (Xt rotations : List K) (i : Nat) : Option K :=
  match (if i = n / 2 then Xt[0]? else Xt[i]?), (if 0 < i then Xt[n / 2 - i]? else Xt[0]?), rotations[i]? with
  | some X1, some X2, some r =>
    some (1 / 2 / A.racine 2 * (X1 + A.conj X2) - j / 2 / A.racine 2 * (X1 - A.conj X2) * r)
  | _, _, _ => none

/-- Loop of `RTFRPlan::step`, core/src/fourier/fourier.cc:326-341, `c` iterations left from index `i`: writes in `y`. -/
def rtfrBoucle (A : Trigo K) (j : K) (n : Nat) (Xt rotations : List K) : Nat → Nat → List K → Option (List K)
  | 0, _, y => some y
  | c + 1, i, y =>
    match rtfrCoef A j n Xt rotations i with
    | none => none
    | some v =>
      match ecrit y i [v] with
      | none => none
      | some y => rtfrBoucle A j n Xt rotations c (i + 1) y

/-- `RTFRPlan`, core/src/fourier/fourier.cc:281-312: size, complex plan, rotations. -/
structure RPlan (K : Type) where
  n : Int
  cplan : Option (Plan K)
  rotations : List K

/-- `RTFRPlan::configure`, core/src/fourier/fourier.cc:293-312 (`n ≥ 0`; the members that are not assigned keep their old value). -/
def RPlan.configure (A : Trigo K) (p : RPlan K) (n : Nat) : RPlan K :=
  if 0 < n then
    if n % 2 = 0 then { n := n, cplan := some (Plan.configure A Plan.neuf (n / 2) true), rotations := tfrRotation A n }
    else { n := n, cplan := some (Plan.configure A Plan.neuf n true), rotations := p.rotations }
  else { p with n := n }

/-- `rtfrplan_création(n)`, core/src/fourier/fourier.cc:483-487: a negative `n` (default) only records the size. -/
def RPlan.creation (A : Trigo K) (n : Int) : RPlan K :=
  if n < 0 then { n := n, cplan := none, rotations := [] }
  else RPlan.configure A { n := n, cplan := none, rotations := [] } n.toNat

/-- `RTFRPlan::step`, core/src/fourier/fourier.cc:313-353. The real samples are elements of `K`; `j` is the imaginary unit, `re` the real
part. An empty signal reaches a null plan or an access outside the bounds. -/
def RPlan.step (A : Trigo K) (re : K → K) (j : K) (p : RPlan K) (x : List K) : Option (RPlan K × List K) :=
  let p := if (x.length : Int) ≠ p.n then p.configure A x.length else p
  let n := p.n.toNat
  match p.cplan with
  | none => none
  | some cplan =>
    if n % 2 = 0 then
      match cplan.stepDefaut A (List.zipWith (fun a b => a + j * b) (pairs x) (impairs x)) with
      | none => none
      | some (q, Xt) =>
        match rtfrBoucle A j n Xt p.rotations (n / 2 + 1) 0 (List.replicate n 0) with
        | none => none
        | some y =>
          match csymForcage A re y with
          | none => none
          | some y => some ({ p with cplan := some q }, y)
    else
      match cplan.stepDefaut A x with
      | none => none
      | some (q, y) => some ({ p with cplan := some q }, y)

/-- `rfft(x)`, core/include/tsd/fourier.hpp:117-122. -/
def rfft (A : Trigo K) (re : K → K) (j : K) (x : List K) : Option (List K) :=
  ((RPlan.creation A x.length).step A re j x).map Prod.snd

end Verif.Fourier
