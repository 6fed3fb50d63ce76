import Verif.Fourier.Ola
import Verif.Fourier.Props
import Verif.Conception.Fenetres
import Mathlib.Analysis.SpecialFunctions.Log.Base

/-!
# Model of the windowed mode of the frequency-domain filter (core/src/fourier/fourier.cc:737-930, `avec_fenetrage = oui`) and of
`periodogramme_tfd` (core/src/fourier/fourier.cc:1451-1481), which uses it.

`svg = x2.segment(N_zeros, Ne)` (core/src/fourier/fourier.cc:921) assigns a temporary view: `svg`, which is not a view, takes the node of
the view (core/include/tsd/tableau.hpp:546-569, modelled in `Verif.Tableau.Model.affecteMove`): from then on `svg` IS the end of `x2`, and
the next inverse transforms, which write in the buffer of `x2` (core/src/fourier/fourier.cc:433, core/src/tableau.cc:702-711: same
dimensions, no reallocation), change `svg`.  The flag `vue` tells whether `svg` is this view.
-/

namespace Verif.Fourier

open Verif.Tampon

variable {K : Type} [Field K]

/-- Members of `OLA`, core/src/fourier/fourier.cc:740-755, in windowed mode; `vus` is the list of the spectra given to the callback. -/
structure OlaFen (K : Type) where
  Ne : Nat
  N : Nat
  Nz : Nat
  fen : List K
  padded : List K
  last : List K
  x2 : List K
  svgPropre : List K
  vue : Bool
  cnt : Int
  plan : Plan K
  vus : List (List K)

/-- `configure_impl`, core/src/fourier/fourier.cc:762-817: `w` is the window of `Ne` points asked for. -/
def OlaFen.configure (A : Trigo K) (w : Nat → List K) (dimBlocs : Int) (nbZerosMin : Nat) : OlaFen K :=
  let Ne := if dimBlocs ≤ 0 then 512 else dimBlocs.toNat
  let N := A.pp2 (Ne + nbZerosMin)
  { Ne := Ne, N := N, Nz := N - Ne, fen := w Ne, padded := List.replicate N 0, last := List.replicate Ne 0, x2 := [], svgPropre := List.replicate Ne 0, vue := false, cnt := -((Ne / 2 : Nat) : Int), plan := Plan.neuf, vus := [] }

/-- Contents of `svg`: its own memory, or the end of `x2`.  core/src/fourier/fourier.cc:740, 921 -/
def OlaFen.svg (s : OlaFen K) : Option (List K) := if s.vue then segment s.x2 s.Nz s.Ne else some s.svgPropre

/-- Writing the contents of `svg` (in place), core/src/fourier/fourier.cc:895, 909, 919. -/
def OlaFen.poseSvg (s : OlaFen K) (v : List K) : Option (OlaFen K) :=
  if s.vue then (ecrit s.x2 s.Nz v).map fun l : List K => { s with x2 := l } else some { s with svgPropre := v }

/-- Transform, callback `t`, inverse transform into `x2`, core/src/fourier/fourier.cc:888-890, 914-916.  A callback that changes the
dimension of the spectrum is an error (core/src/fourier/fourier.cc:908). -/
def OlaFen.transforme (A : Trigo K) (t : List K → Option (List K)) (s : OlaFen K) : Option (OlaFen K) := do
  let (p, X) ← s.plan.step2 A s.padded
  let Y ← t X
  let (p, x2) ← p.step A Y false
  if x2.length ≠ s.N then none else some { s with plan := p, x2 := x2, vus := s.vus ++ [X] }

/-- `svg.segment(Ne - N_zeros, N_zeros) += x2.head(N_zeros)`, core/src/fourier/fourier.cc:894, and `svg.tail(N_zeros) += ...`,
core/src/fourier/fourier.cc:919; a negative start is an access before the vector. -/
def OlaFen.ajoute (s : OlaFen K) : Option (OlaFen K) := do
  let v ← s.svg
  let q ← queue v s.Nz
  let h ← segment s.x2 0 s.Nz
  let q ← somme q h
  let v ← ecritQueue v q
  s.poseSvg v

/-- First half: the frame made of the second half of the previous block and the first half of this one, windowed,
core/src/fourier/fourier.cc:885-886. -/
def OlaFen.trame1 (s : OlaFen K) (x : List K) : Option (OlaFen K) := do
  let h ← segment x 0 (s.Ne / 2)
  let p ← ecritQueue s.padded h
  let q ← queue p s.Ne
  let q ← produit q s.fen
  let p ← ecritQueue p q
  some { s with padded := p }

/-- First half: output and start of the next output, core/src/fourier/fourier.cc:896-911. -/
def OlaFen.sort1 (s : OlaFen K) : Option (OlaFen K × List K) := do
  let v ← s.svg
  let a ← queue s.last (s.Ne / 2)
  let h ← segment v 0 (s.Ne / 2)
  let a ← somme a (h.map (· / 2))
  let l1 ← ecritQueue s.last a
  let q ← queue v (s.Ne / 2)
  let l2 ← ecrit l1 0 (q.map (· / 2))
  let l3 ← ecritQueue l2 (List.replicate (s.Ne / 2) 0)
  let z ← queue s.x2 s.Ne
  let s' ← s.poseSvg z
  some ({ s' with last := l3, cnt := s.cnt + (s.Ne / 2 : Nat) }, if 0 ≤ s.cnt then l1 else [])

/-- Second half: the frame made of the block, windowed, core/src/fourier/fourier.cc:914. -/
def OlaFen.trame2 (s : OlaFen K) (x : List K) : Option (OlaFen K) := do
  let q ← produit x s.fen
  let p ← ecritQueue s.padded q
  some { s with padded := p }

/-- Second half: accumulation, `svg` becomes the end of `x2`, core/src/fourier/fourier.cc:920-923.  Once `svg` is the view, the assignment
copies the elements onto themselves (`memcpy` with equal addresses, formally undefined; read here as no change). -/
def OlaFen.sort2 (s : OlaFen K) : Option (OlaFen K) := do
  let v ← s.svg
  let l ← somme s.last (v.map (· / 2))
  some { s with last := l, vue := true, cnt := s.cnt + (s.Ne / 2 : Nat) }

/-- The second half of the block is kept for the next one, core/src/fourier/fourier.cc:926. -/
def OlaFen.garde (s : OlaFen K) (x : List K) : Option (OlaFen K) := do
  let q ← queue x (s.Ne / 2)
  let p ← ecrit s.padded s.Nz q
  some { s with padded := p }

/-- `step_interne`, core/src/fourier/fourier.cc:881-928. -/
def OlaFen.stepInterne (A : Trigo K) (t : List K → Option (List K)) (s : OlaFen K) (x : List K) : Option (OlaFen K × List K) :=
  if x.length ≠ s.Ne then none
  else do
    let s ← s.trame1 x
    let s ← s.transforme A t
    let s ← s.ajoute
    let (s, y) ← s.sort1
    let s ← s.trame2 x
    let s ← s.transforme A t
    let s ← s.ajoute
    let s ← s.sort2
    let s ← s.garde x
    some (s, y)

/-- Successive blocks, core/src/fourier/fourier.cc:811-816. -/
def OlaFen.blocs (A : Trigo K) (t : List K → Option (List K)) : OlaFen K → List (List K) → Option (OlaFen K × List (List K))
  | s, [] => some (s, [])
  | s, b :: bs =>
    match s.stepInterne A t b with
    | none => none
    | some (s, y) =>
      match OlaFen.blocs A t s bs with
      | none => none
      | some (s, ys) => some (s, y :: ys)

/-- The filter: its processing state, its packet buffer and the flag `tampon_vide`, core/src/fourier/fourier.cc:757-758. -/
structure OlaF (K : Type) where
  coeur : OlaFen K
  tampon : Tampon K
  vide : Bool

/-- `configure`, core/src/fourier/fourier.cc:765-817. -/
def OlaF.creation (c : OlaFen K) : OlaF K := { coeur := c, tampon := Tampon.init c.Ne, vide := true }

/-- `step`, core/src/fourier/fourier.cc:819-841. -/
def OlaF.step (A : Trigo K) (t : List K → Option (List K)) (s : OlaF K) (x : List K) : Option (OlaF K × List K) :=
  if s.vide = true ∧ x.length = s.coeur.Ne then
    match s.coeur.stepInterne A t x with
    | none => none
    | some (c, y) => some ({ s with coeur := c }, y)
  else
    match s.tampon.step 0 x with
    | none => none
    | some (tp, bs) =>
      match s.coeur.blocs A t bs with
      | none => none
      | some (c, ys) => some ({ coeur := c, tampon := tp, vide := false }, ys.flatten)

/-- Successive calls: final state and concatenated output. -/
def OlaF.flux (A : Trigo K) (t : List K → Option (List K)) : OlaF K → List (List K) → Option (OlaF K × List K)
  | s, [] => some (s, [])
  | s, x :: xs =>
    match s.step A t x with
    | none => none
    | some (s, y) =>
      match OlaF.flux A t s xs with
      | none => none
      | some (s, ys) => some (s, y ++ ys)

/-- The window asked for: `fenêtre("hn", Ne, non).as_complex()`, core/src/fourier/fourier.cc:795, 886. -/
noncomputable def fenetreOla (n : ℕ) : List ℂ := ((Conception.fenetreNom "hn" n false).getD []).map fun v : ℝ => (v : ℂ)

/-- `10 * (log10(abs2(X) + 1e-20f)).head(X.rows()/2)`, core/src/fourier/fourier.cc:1468. -/
noncomputable def niveauxDb (X : List ℂ) : List ℝ := (X.take (X.length / 2)).map fun z : ℂ => 10 * Real.logb 10 (Complex.normSq z + 1 / 10 ^ 20)

/-- `periodogramme_tfd`, core/src/fourier/fourier.cc:1451-1481: the rows of the table.  Without any complete block, `Tabf M(N2/2, 0)` is a
vector of `N2/2` elements that nobody writes (`indet`; core/src/tableau.cc:685-700), returned transposed. -/
noncomputable def periodogramme (indet : List ℝ) (x : List ℂ) (N : Int) : Option (List (List ℝ)) :=
  let c := OlaFen.configure trigoC fenetreOla N 0
  match (OlaF.creation c).step trigoC some x with
  | none => none
  | some (f, _) => if f.coeur.vus = [] then some [indet.take (c.N / 2)] else some (f.coeur.vus.map niveauxDb)

end Verif.Fourier
