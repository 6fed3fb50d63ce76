/-
Model of core/src/filtrage/rif-eq.cc (amplitude response of linear-phase FIR filters, equiripple design) and of core/src/reechan/hb.cc (half-band filters).

Exact real arithmetic.  The least-squares solver (`Tab::lsq`, core/src/tableau.cc:1549-1575, a call to Eigen's column-pivoting QR) is a parameter.
Messages and plots are not modelled.
-/
import Verif.Conception.Rif
import Verif.Fourier.Delais

namespace Verif.Conception

open Verif.Fourier

/-! ### Amplitude response -/

/-- `rifamp_impl(h, ω, type)`; integer division `n/2`; the accesses are inside of `h` as soon as `h` is not empty (`riftype` fails before on an empty vector).
core/src/filtrage/rif-eq.cc:5-21 -/
noncomputable def rifampImpl (h : List ℝ) (ω : ℝ) (type : ℕ) : ℝ :=
  let n := h.length
  let arg := fun k : ℕ => ω * (0.5 * ((n : ℝ) - 1) - (k : ℝ))
  let s := if type = 1 ∨ type = 2 then ((List.range (n / 2)).map fun k : ℕ => h.getD k 0 * 2 * Real.cos (arg k)).sum
    else ((List.range (n / 2)).map fun k : ℕ => h.getD k 0 * 2 * Real.sin (arg k)).sum
  if type = 1 then s + h.getD (n / 2) 0 else s

/-- `riftype(h)`: only the two extreme coefficients are compared.  core/src/filtrage/rif-eq.cc:24-34 -/
noncomputable def riftype (h : List ℝ) : Option ℕ :=
  (h[0]?).bind fun a : ℝ => (h[h.length - 1]?).map fun b : ℝ => if a = b then (if h.length % 2 = 0 then 2 else 1) else (if h.length % 2 = 0 then 4 else 3)

/-- `rifamp2(h, fr)`.  core/src/filtrage/rif-eq.cc:37-47 -/
noncomputable def rifamp2 (h fr : List ℝ) : Option (List ℝ) :=
  (riftype h).map fun t : ℕ => fr.map fun f : ℝ => rifampImpl h (f * 2 * Real.pi) t

/-- `rifampn(h, L)` (by `rifamp_naif`): frequencies and amplitudes.  core/src/filtrage/rif-eq.cc:49-58, 87-91 -/
noncomputable def rifampn (h : List ℝ) (L : ℕ) : Option (List ℝ × List ℝ) :=
  (riftype h).map fun t : ℕ => (Util.linspace 0 (0.5 - 0.5 / (L : ℝ)) L, (List.range L).map fun i : ℕ => rifampImpl h ((i : ℝ) * Real.pi / (L : ℝ)) t)

/-- `rifamp(h, L, symetrique)`.  core/src/filtrage/rif-eq.cc:94-125.  The integer division `(N-1)/2` is that of C (`N ≥ 1`); an empty `h` with `L = 0` is a
transform of size 0. -/
noncomputable def rifamp (h : List ℝ) (L : ℕ) (sym : Bool) : Option (List ℝ × List ℝ) := do
  let N := h.length
  let M := (N - 1) / 2
  let dim := max (2 * L) N
  let h2 ← ecrit (List.replicate dim (0 : ℂ)) 0 (enC h)
  let H ← fft trigoC h2
  let H := H.take (dim / 2)
  let w : List ℝ := (Util.linspace (0 : ℝ) ((dim / 2 : ℕ) - 1) (dim / 2)).map fun v : ℝ => v * Real.pi / (dim / 2 : ℕ)
  let H := H.map fun z : ℂ => z * (Real.sqrt dim : ℝ)
  let H ← produit H (w.map fun v : ℝ => Complex.exp (Complex.I * ((M : ℝ) * v : ℝ)))
  let H := if sym then H else H.map fun z : ℂ => z * (-Complex.I)
  if H.length = L then some (Util.linspace 0 (0.5 - 0.5 / (L : ℝ)) L, H.map Complex.re) else none

/-! ### Equiripple design -/

/-- Product of a matrix (list of its rows) by a vector (`matprod`).  core/src/tableau.cc -/
noncomputable def matvec (A : List (List ℝ)) (x : List ℝ) : List ℝ := A.map fun l : List ℝ => (List.zipWith (fun a b : ℝ => a * b) l x).sum

/-- Smallest element (`minCoeff`); 0 for an empty vector.  core/src/tableau.cc:603-627 -/
noncomputable def valeurMin : List ℝ → ℝ
  | [] => 0
  | v :: l => l.foldl min v

/-- Weighted absolute error `abs(A x - b) * w`.  core/src/filtrage/rif-eq.cc:154-155 -/
noncomputable def erreurLsi (A : List (List ℝ)) (b w x : List ℝ) : List ℝ :=
  List.zipWith (fun e v : ℝ => |e| * v) (List.zipWith (fun u v : ℝ => u - v) (matvec A x) b) w

/-- New weights of the squares, before the division by their sum.  core/src/filtrage/rif-eq.cc:178-179 -/
noncomputable def poidsLsi (p Ea : List ℝ) (emax emin : ℝ) : List ℝ :=
  List.zipWith (fun q e : ℝ => q * (1 + 0.5 / (emax - emin) * (e - emin))) p Ea

/-- Loop of `lsi`.  A null maximal error gives `0 / 0` (not a number): the comparison is false and the weights become not-a-number, `none`; a null sum
likewise.  core/src/filtrage/rif-eq.cc:152-187 -/
noncomputable def boucleLsi (lsq : List (List ℝ) → List ℝ → Option (List ℝ)) (A : List (List ℝ)) (b w : List ℝ) : ℕ → List ℝ → List ℝ → Option (List ℝ)
  | 0, x, _ => some x
  | k + 1, x, p =>
    let Ea := erreurLsi A b w x
    let emax := valeurMax Ea
    let emin := valeurMin Ea
    if emax = 0 then none
    else if (emax - emin) / emax < 1e-5 then some x
    else
      let p1 := poidsLsi p Ea emax emin
      if p1.sum = 0 then none
      else
        let p2 := p1.map fun v : ℝ => v / p1.sum
        (lsq (List.zipWith (fun (q : ℝ) (l : List ℝ) => l.map fun v : ℝ => q * v) p2 A) (List.zipWith (fun u v : ℝ => u * v) b p2)).bind fun x' : List ℝ => boucleLsi lsq A b w k x' p2

/-- `lsi(A, b, w)`; the product by `w` fails when the sizes differ.  core/src/filtrage/rif-eq.cc:132-190 -/
noncomputable def lsi (lsq : List (List ℝ) → List ℝ → Option (List ℝ)) (A : List (List ℝ)) (b w : List ℝ) : Option (List ℝ) :=
  if A.length = b.length ∧ w.length = b.length then (lsq A b).bind fun x : List ℝ => boucleLsi lsq A b w 100 x (List.replicate b.length 1) else none

/-- Row `i` of the matrix of `design_rif_eq`.  core/src/filtrage/rif-eq.cc:207-225 -/
noncomputable def ligneEq (nc n i : ℕ) : List ℝ :=
  let m := (nc + 1) / 2
  (List.range m).map fun k : ℕ => if k = m - 1 ∧ nc % 2 = 1 then 1 else 2 * Real.cos ((i : ℝ) * Real.pi / (n : ℝ) * ((k : ℝ) - ((nc : ℝ) - 1) / 2))

/-- From the solution to the coefficients.  core/src/filtrage/rif-eq.cc:230-235 -/
noncomputable def coefsEq (nc : ℕ) (x : List ℝ) : Option (List ℝ) := do
  if nc / 2 ≤ x.length then
    let h ← ecrit (List.replicate nc (0 : ℝ)) 0 (x.take (nc / 2))
    let h ← ecritQueue h (x.take (nc / 2)).reverse
    if nc % 2 = 1 then
      let v ← x[nc / 2]?
      some (h.set (nc / 2) v)
    else some h
  else none

/-- `design_rif_eq(nc, D, W)`.  core/src/filtrage/rif-eq.cc:196-240 -/
noncomputable def designRifEq (lsq : List (List ℝ) → List ℝ → Option (List ℝ)) (nc : ℕ) (D W : List ℝ) : Option (List ℝ) :=
  if W.length = D.length then (lsi lsq ((List.range D.length).map fun i : ℕ => ligneEq nc D.length i) D W).bind fun x : List ℝ => coefsEq nc x else none

/-- `SpecFreqIntervalle`.  core/include/tsd/filtrage.hpp:552-563 -/
structure SpecFreq where
  fb : ℝ
  fh : ℝ
  atten : ℝ
  poids : ℝ

/-- `x.segment(i, n) = v`, negative indices included (`n` is the size of `v`): failure when the segment leaves `x`.  core/src/tableau.cc:515-531 -/
def segment (x : List ℝ) (i : ℤ) (v : List ℝ) : Option (List ℝ) := if 0 ≤ i then ecrit x i.toNat v else none

/-- `Vecf::constant(n, v)` on a segment of size `n` (a negative size fails).  core/src/filtrage/rif-eq.cc:257-258 -/
def segmentCst (x : List ℝ) (i n : ℤ) (v : ℝ) : Option (List ℝ) := if 0 ≤ n then segment x i (List.replicate n.toNat v) else none

/-- Index of a frequency, clamped.  core/src/filtrage/rif-eq.cc:255-256 -/
noncomputable def indiceEq (l : ℕ) (f : ℝ) : ℤ := min (arrondi (2 * f * l)) ((l : ℤ) - 1)

/-- One interval of the specification (with the possible next one).  core/src/filtrage/rif-eq.cc:252-269 -/
noncomputable def etapeSpec (l : ℕ) (s : SpecFreq) (suiv : Option SpecFreq) (DW : List ℝ × List ℝ) : Option (List ℝ × List ℝ) := do
  let ib := indiceEq l s.fb
  let ih := indiceEq l s.fh
  let D ← segmentCst DW.1 ib (ih - ib + 1) s.atten
  let W ← segmentCst DW.2 ib (ih - ib + 1) (s.poids + 1e-10)
  match suiv with
  | none => some (D, W)
  | some s2 =>
    let cnt := arrondi (2 * s2.fb * l) - ih + 1
    if 0 ≤ cnt then (segment D ih (Util.linspace s.atten s2.atten cnt.toNat)).map fun D' : List ℝ => (D', W) else none

/-- Loop on the intervals.  core/src/filtrage/rif-eq.cc:252-269 -/
noncomputable def boucleSpec (l : ℕ) : List SpecFreq → List ℝ × List ℝ → Option (List ℝ × List ℝ)
  | [], DW => some DW
  | s :: r, DW => (etapeSpec l s r.head? DW).bind fun DW' => boucleSpec l r DW'

/-- Template and weights of `design_rif_eq(nc, spec)`.  core/src/filtrage/rif-eq.cc:244-269 -/
noncomputable def gabaritEq (nc : ℕ) (spec : List SpecFreq) : Option (List ℝ × List ℝ) :=
  boucleSpec (16 * nc) spec (List.replicate (16 * nc) 1, List.replicate (16 * nc) 1e-10)

/-- `design_rif_eq(nc, spec)`.  core/src/filtrage/rif-eq.cc:242-271 -/
noncomputable def designRifEqSpec (lsq : List (List ℝ) → List ℝ → Option (List ℝ)) (nc : ℕ) (spec : List SpecFreq) : Option (List ℝ) :=
  (gabaritEq nc spec).bind fun DW => designRifEq lsq nc DW.1 DW.2

/-! ### Half-band filters -/

/-- Weights of the half-band design: `1` up to the index of the frequency `2 fc`, then 0.  core/src/reechan/hb.cc:39-54 -/
noncomputable def poidsDemiBande (m : ℕ) (fc : ℝ) : List ℝ :=
  let L := 16 * m
  let idp : ℤ := max 0 (min ⌈2 * fc * (L : ℝ) / 0.5⌉ ((L : ℤ) - 2))
  (List.range L).map fun i : ℕ => if (i : ℤ) < idp then 1 else 0

/-- Coefficients from those of the one-band filter `g`.  core/src/reechan/hb.cc:68-77 -/
noncomputable def coefsDemiBande (m : ℕ) (g : List ℝ) : List ℝ :=
  (List.range (2 * m + 1)).map fun k : ℕ => if k = m then 0.5 else if k % 2 = 1 then 0 else 0.5 * g.getD (k / 2) 0

/-- `design_rif_demi_bande(n, fc)`; for `n = 1` the sizes are negative (failure).  core/src/reechan/hb.cc:6-90 -/
noncomputable def designDemiBande (lsq : List (List ℝ) → List ℝ → Option (List ℝ)) (n : ℕ) (fc : ℝ) : Option (List ℝ) :=
  if n % 2 = 0 then none
  else
    let m := (n - 1) / 2
    if m = 0 then none
    else
      let m' := if m % 2 = 1 then m else m - 1
      (designRifEq lsq (m' + 1) (List.replicate (16 * m') 1) (poidsDemiBande m' fc)).bind fun g : List ℝ =>
        if g.length = m' + 1 then
          let h := coefsDemiBande m' g
          some (if m % 2 = 1 then h else 0 :: (h ++ [0]))
        else none

end Verif.Conception
