import Verif.Fourier.Corr
import Verif.Tampon.Model

/-!
# Model of the overlap-add frequency-domain filter (core/src/fourier/fourier.cc:737-990)

Only the mode without window (`avec_fenetrage = non`, the default) is modelled.
-/

namespace Verif.Fourier

open Verif.Tampon

variable {K : Type} [Field K]

/-- `plan.step(x, y)` with two arguments on a `TFRPlanDefaut`, core/src/fourier/fourier.cc:407-410: the direction of the plan. -/
def Plan.step2 (A : Trigo K) (p : Plan K) (x : List K) : Option (Plan K × List K) :=
  match p with
  | .mk n n2 av rotations chirp sous => Plan.step A (.mk n n2 av rotations chirp sous) x av

/-- Members of `OLA` used by the processing of a block, core/src/fourier/fourier.cc:740-755. -/
structure OlaCoeur (K : Type) where
  Ne : Nat
  N : Nat
  Nz : Nat
  padded : List K
  svg : List K
  plan : Plan K

/-- `configure_impl`, core/src/fourier/fourier.cc:762-817 (without window). -/
def OlaCoeur.configure (A : Trigo K) (dimBlocs : Int) (nbZerosMin : Nat) : OlaCoeur K :=
  let Ne := if dimBlocs ≤ 0 then 512 else dimBlocs.toNat
  let N := A.pp2 (Ne + nbZerosMin)
  { Ne := Ne, N := N, Nz := N - Ne, padded := List.replicate N 0, svg := List.replicate Ne 0, plan := Plan.neuf }

/-- `step_interne`, core/src/fourier/fourier.cc:845-891 (without window); `t` is the user's callback. `svg.tail(N_zeros)` with
`N_zeros > Ne` is a view that starts before the vector (`none`). -/
def OlaCoeur.stepInterne (A : Trigo K) (t : List K → Option (List K)) (s : OlaCoeur K) (x : List K) : Option (OlaCoeur K × List K) :=
  if x.length ≠ s.Ne then none
  else do
    let padded ← ecritQueue s.padded x
    let (plan, X) ← s.plan.step2 A padded
    let X ← t X
    let (plan, x2) ← plan.step A X false
    let q ← queue s.svg s.Nz
    let h ← segment x2 0 s.Nz
    let q ← somme q h
    let y ← ecritQueue s.svg q
    let svg ← queue x2 s.Ne
    some ({ s with padded := padded, svg := svg, plan := plan }, y)

/-- Successive blocks (calls of the lambda given to the buffer), core/src/fourier/fourier.cc:811-816. -/
def OlaCoeur.blocs (A : Trigo K) (t : List K → Option (List K)) : OlaCoeur K → List (List K) → Option (OlaCoeur K × List (List K))
  | s, [] => some (s, [])
  | s, b :: bs =>
    match s.stepInterne A t b with
    | none => none
    | some (s, y) =>
      match OlaCoeur.blocs A t s bs with
      | none => none
      | some (s, ys) => some (s, y :: ys)

/-- The filter: its processing state, its packet buffer and the flag `tampon_vide`, core/src/fourier/fourier.cc:757-758. -/
structure Ola (K : Type) where
  coeur : OlaCoeur K
  tampon : Tampon K
  vide : Bool

/-- `configure`, core/src/fourier/fourier.cc:765-817. -/
def Ola.creation (c : OlaCoeur K) : Ola K := { coeur := c, tampon := Tampon.init c.Ne, vide := true }

/-- `step`, core/src/fourier/fourier.cc:819-841. -/
def Ola.step (A : Trigo K) (t : List K → Option (List K)) (s : Ola K) (x : List K) : Option (Ola K × List K) :=
  if s.vide = true ∧ x.length = s.coeur.Ne then
    match s.coeur.stepInterne A t x with
    | none => none
    | some (c, y) => some ({ s with coeur := c }, y)
  else
    match s.tampon.step 0 x with
    | none => none
    | some (tp, bs) =>
      match s.coeur.blocs A t bs with
      | none => none
      | some (c, ys) => some ({ coeur := c, tampon := tp, vide := false }, ys.flatten)

/-- Successive calls: final state and concatenated output. -/
def Ola.flux (A : Trigo K) (t : List K → Option (List K)) : Ola K → List (List K) → Option (Ola K × List K)
  | s, [] => some (s, [])
  | s, x :: xs =>
    match s.step A t x with
    | none => none
    | some (s, y) =>
      match Ola.flux A t s xs with
      | none => none
      | some (s, ys) => some (s, y ++ ys)

/-- `FiltreFFTRIF`, core/src/fourier/fourier.cc:947-978: the OLA filter and the frequency response. -/
structure RifFft (K : Type) where
  ola : Ola K
  H : List K

/-- Constructor, core/src/fourier/fourier.cc:952-973; `fft` of a real vector is `rfft` (core/include/tsd/fourier.hpp:164-170). -/
def RifFft.creation (A : Trigo K) (re : K → K) (j : K) (h : List K) : Option (RifFft K) := do
  let c := OlaCoeur.configure A 0 h.length
  let h2 ← ecritQueue (List.replicate c.N 0) h
  let H ← rfft A re j h2
  some { ola := Ola.creation c, H := H.map (· * A.racine c.N) }

/-- `step`, core/src/fourier/fourier.cc:974-977: `real(...)` of the output, whatever the type of the samples. -/
def RifFft.step (A : Trigo K) (re : K → K) (s : RifFft K) (x : List K) : Option (RifFft K × List K) :=
  match s.ola.step A (fun X => produit X s.H) x with
  | none => none
  | some (o, y) => some ({ s with ola := o }, y.map re)

/-- Successive calls: final state and concatenated output. -/
def RifFft.flux (A : Trigo K) (re : K → K) : RifFft K → List (List K) → Option (RifFft K × List K)
  | s, [] => some (s, [])
  | s, x :: xs =>
    match s.step A re x with
    | none => none
    | some (s, y) =>
      match RifFft.flux A re s xs with
      | none => none
      | some (s, ys) => some (s, y ++ ys)

end Verif.Fourier
