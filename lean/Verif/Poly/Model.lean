import Mathlib.Algebra.Field.Defs
import Mathlib.Algebra.Field.Basic

/-!
# Model of polynomials and rational functions (core/include/tsd/filtrage/frat.hpp)

Exact arithmetic in a field `K` (the C++ code uses `float` or `cfloat`). The variable name (`vname`, display only) and `roots` /
`factorise` (Eigen) are not modelled.
-/

namespace Verif.FracRat

variable {K L : Type} [Field K] [Field L]

/-- `Poly<T>`, core/include/tsd/filtrage/frat.hpp:17-27: coefficients (increasing powers) or roots, mode, multiplier of the root mode. -/
structure Poly (K : Type) where
  coefs : List K
  racines : Bool
  mlt : K

/-- `Poly()` and `Poly(coefs)`, core/include/tsd/filtrage/frat.hpp:25-35. -/
def Poly.deCoefs (c : List K) : Poly K := { coefs := c, racines := false, mlt := 1 }

/-- `from_roots`, core/include/tsd/filtrage/frat.hpp:37-44. -/
def Poly.deRacines (r : List K) : Poly K := { coefs := r, racines := true, mlt := 1 }

/-- `explicit Poly(val)`, core/include/tsd/filtrage/frat.hpp:46-52. -/
def Poly.cst (v : K) : Poly K := Poly.deCoefs [v]

/-- `one()`, core/include/tsd/filtrage/frat.hpp:427-433. -/
def Poly.one : Poly K := Poly.deCoefs [1]

/-- `z` (`basic()`), core/include/tsd/filtrage/frat.hpp:417-425, 465-466. -/
def Poly.z : Poly K := Poly.deCoefs [0, 1]

/-- Coefficients of the sum of two polynomials in coefficient mode, core/include/tsd/filtrage/frat.hpp:386-398 (`head(n) += …`). -/
def ajouteCoefs (a b : List K) : List K :=
  if a.length = b.length then List.zipWith (· + ·) a b
  else if b.length < a.length then List.zipWith (· + ·) (a.take b.length) b ++ a.drop b.length
  else List.zipWith (· + ·) (b.take a.length) a ++ b.drop a.length

/-- One partial product, core/include/tsd/filtrage/frat.hpp:346-353: `k` zeros then the coefficients times `c`. -/
def partiel (a : List K) (k : Nat) (c : K) : List K := List.replicate k 0 ++ a.map (· * c)

/-- Loop of the product in coefficient mode, core/include/tsd/filtrage/frat.hpp:344-356: coefficients `k, k+1, …` of the second operand;
`res` is in coefficient mode. -/
def boucleProduit (a : List K) : Nat → List K → List K → List K
  | _, [], res => res
  | k, c :: b, res => boucleProduit a (k + 1) b (ajouteCoefs res (partiel a k c))

/-- Loop of `vers_coefs` on the roots, core/include/tsd/filtrage/frat.hpp:103-112: `res *= (z - r)`, both operands in coefficient mode
(core/include/tsd/filtrage/frat.hpp:308-312, 320-360: the result starts from the empty polynomial). -/
def boucleRacines : List K → List K → List K
  | [], res => res
  | r :: rs, res => boucleRacines rs (boucleProduit res 0 [-r, 1] [])

/-- `vers_coefs`, core/include/tsd/filtrage/frat.hpp:91-116. -/
def Poly.versCoefs (p : Poly K) : Poly K :=
  if p.racines then Poly.deCoefs ((boucleRacines p.coefs [1]).map (· * p.mlt)) else p

/-- `get_coefs`, core/include/tsd/filtrage/frat.hpp:54-58. -/
def Poly.getCoefs (p : Poly K) : List K := p.versCoefs.coefs

/-- `nb_coefs_nuls`, core/include/tsd/filtrage/frat.hpp:65-75. -/
def nbNuls [DecidableEq K] : List K → Nat
  | [] => 0
  | c :: l => if c = 0 then nbNuls l + 1 else 0

/-- Loop of `horner` in root mode, core/include/tsd/filtrage/frat.hpp:166-167. -/
def hornerRacines (φ : K → L) (x : L) : List K → L → L
  | [], res => res
  | r :: l, res => hornerRacines φ x l (res * (x - φ r))

/-- Loop of `horner` in coefficient mode, core/include/tsd/filtrage/frat.hpp:184-185: the coefficients from the last but one down to 0. -/
def hornerCoefs (φ : K → L) (x : L) : List K → L → L
  | [], res => res
  | c :: l, res => hornerCoefs φ x l (res * x + φ c)

/-- `horner`, core/include/tsd/filtrage/frat.hpp:154-189. `φ` is the conversion `Trep(...)` of the coefficients to the type of the point
(e.g. real coefficients evaluated at a complex point). -/
def Poly.horner (φ : K → L) (p : Poly K) (x : L) : L :=
  if p.racines then hornerRacines φ x p.coefs (φ p.mlt)
  else
    match p.coefs.reverse with
    | [] => 0
    | c :: l => hornerCoefs φ x l (φ c)

/-- `operator +(Poly)`, core/include/tsd/filtrage/frat.hpp:376-399. -/
def Poly.add (p q : Poly K) : Poly K := Poly.deCoefs (ajouteCoefs p.versCoefs.coefs q.versCoefs.coefs)

/-- The accumulation of the product once both operands are in coefficient mode, core/include/tsd/filtrage/frat.hpp:339-357. The accumulator
is created empty with the mode of the *left operand* (line 324); its first addition goes through `vers_coefs`, which gives `[1]` for an
empty accumulator in root mode. -/
def produitCoefs (racines : Bool) (a b : List K) : Poly K :=
  match b with
  | [] => { coefs := [], racines := racines, mlt := 1 }
  | c :: b => Poly.deCoefs (boucleProduit a 1 b (ajouteCoefs (Poly.versCoefs ({ coefs := [], racines := racines, mlt := 1 } : Poly K)).coefs (partiel a 0 c)))

/-- `operator *(Poly)`, core/include/tsd/filtrage/frat.hpp:320-360. -/
def Poly.mul (p q : Poly K) : Poly K :=
  if p.racines then
    if q.racines then { coefs := p.coefs ++ q.coefs, racines := true, mlt := p.mlt * q.mlt }
    else produitCoefs true p.versCoefs.coefs q.coefs
  else produitCoefs false p.coefs q.versCoefs.coefs

/-- `operator *(T)`, core/include/tsd/filtrage/frat.hpp:275-294. -/
def Poly.mulScal (p : Poly K) (s : K) : Poly K :=
  if p.racines then { coefs := p.coefs, racines := true, mlt := p.mlt * s } else Poly.deCoefs (p.coefs.map (· * s))

/-- `operator +(T)`, core/include/tsd/filtrage/frat.hpp:367-374. -/
def Poly.addScal (p : Poly K) (s : K) : Poly K :=
  match p.versCoefs.coefs with
  | [] => { p.versCoefs with coefs := [0 + s] }
  | c :: l => { p.versCoefs with coefs := (c + s) :: l }

/-- `operator -()`, core/include/tsd/filtrage/frat.hpp:401-409. -/
def Poly.neg (p : Poly K) : Poly K :=
  if p.racines then { p with mlt := -p.mlt } else { p with coefs := p.coefs.map (- ·) }

/-- `operator -(Poly)`, core/include/tsd/filtrage/frat.hpp:411-414. -/
def Poly.sub (p q : Poly K) : Poly K := p.add q.neg

/-- `operator -(T)`, core/include/tsd/filtrage/frat.hpp:362-365. -/
def Poly.subScal (p : Poly K) (s : K) : Poly K := p.addScal (-s)

/-- Loop of `operator ^` in coefficient mode, core/include/tsd/filtrage/frat.hpp:257-259. -/
def bouclePuissance (p : Poly K) : Nat → Poly K → Poly K
  | 0, res => res
  | e + 1, res => bouclePuissance p e (res.mul p)

/-- Loop of `operator ^` in root mode, core/include/tsd/filtrage/frat.hpp:246-248: `e` more copies of the roots. -/
def dupliqueRacines (r : List K) : Nat → List K → List K
  | 0, res => res
  | e + 1, res => dupliqueRacines r e (res ++ r)

/-- `operator ^`, core/include/tsd/filtrage/frat.hpp:238-263. -/
def Poly.pow (p : Poly K) (e : Nat) : Poly K :=
  if e = 0 then Poly.one
  else if p.racines then { coefs := dupliqueRacines p.coefs (e - 1) p.coefs, racines := true, mlt := p.mlt ^ e }
  else bouclePuissance p e Poly.one

/-- `operator <<`, core/include/tsd/filtrage/frat.hpp:265-273 (`i ≥ 0`; whatever the mode, the result is in coefficient mode). -/
def Poly.decale (p : Poly K) (i : Nat) : Poly K := Poly.deCoefs (List.replicate i 0 ++ p.coefs)

/-- `FRat<T>`, core/include/tsd/filtrage/frat.hpp:500-503. -/
structure FRat (K : Type) where
  numer : Poly K
  denom : Poly K

/-- `un()`, core/include/tsd/filtrage/frat.hpp:533-536. -/
def FRat.un : FRat K := ⟨Poly.one, Poly.one⟩

/-- `explicit FRat(a)`, core/include/tsd/filtrage/frat.hpp:514-518. -/
def FRat.cst (a : K) : FRat K := ⟨Poly.one.mulScal a, Poly.one⟩

/-- `z()`, core/include/tsd/filtrage/frat.hpp:552-555. -/
def FRat.z : FRat K := ⟨Poly.z, Poly.one⟩

/-- `zinv()`, core/include/tsd/filtrage/frat.hpp:557-560. -/
def FRat.zinv : FRat K := ⟨Poly.one, Poly.z⟩

/-- `horner`, core/include/tsd/filtrage/frat.hpp:744-748. -/
def FRat.horner (φ : K → L) (f : FRat K) (x : L) : L := f.numer.horner φ x / f.denom.horner φ x

/-- `developpe`, core/include/tsd/filtrage/frat.hpp:574-577. -/
def FRat.developpe (f : FRat K) : FRat K := ⟨f.numer.versCoefs, f.denom.versCoefs⟩

/-- `operator *(T)`, core/include/tsd/filtrage/frat.hpp:750-753. -/
def FRat.mulScal (f : FRat K) (s : K) : FRat K := ⟨f.numer.mulScal s, f.denom⟩

/-- `operator +(T)`, core/include/tsd/filtrage/frat.hpp:755-758. -/
def FRat.addScal (f : FRat K) (s : K) : FRat K := ⟨f.numer.add (f.denom.mulScal s), f.denom⟩

/-- `operator +(FRat)`, core/include/tsd/filtrage/frat.hpp:766-769. -/
def FRat.add (f g : FRat K) : FRat K := ⟨(f.numer.mul g.denom).add (g.numer.mul f.denom), f.denom.mul g.denom⟩

/-- `operator -()`, core/include/tsd/filtrage/frat.hpp:809-812. -/
def FRat.neg (f : FRat K) : FRat K := ⟨f.numer.neg, f.denom⟩

/-- `operator -(FRat)`, core/include/tsd/filtrage/frat.hpp:772-775. -/
def FRat.sub (f g : FRat K) : FRat K := f.add g.neg

/-- `operator *(FRat)`, core/include/tsd/filtrage/frat.hpp:778-781. -/
def FRat.mul (f g : FRat K) : FRat K := ⟨f.numer.mul g.numer, f.denom.mul g.denom⟩

/-- `simplifier`, core/include/tsd/filtrage/frat.hpp:784-799. -/
def FRat.simplifie [DecidableEq K] (f : FRat K) : FRat K :=
  if f.numer.racines then f
  else
    let m := min (nbNuls f.numer.coefs) (nbNuls f.denom.coefs)
    if 0 < m then ⟨{ f.numer with coefs := f.numer.coefs.drop m }, { f.denom with coefs := f.denom.coefs.drop m }⟩ else f

/-- `operator /(FRat)`, core/include/tsd/filtrage/frat.hpp:802-807. -/
def FRat.div [DecidableEq K] (f g : FRat K) : FRat K := FRat.simplifie ⟨f.numer.mul g.denom, f.denom.mul g.numer⟩

/-- `pow`, core/include/tsd/filtrage/frat.hpp:840-847. -/
def FRat.pow (f : FRat K) : Nat → FRat K
  | 0 => FRat.un
  | 1 => f
  | n + 2 => (FRat.pow f (n + 1)).mul f

/-- `inv`, core/include/tsd/filtrage/frat.hpp:850-853. -/
def FRat.inv (f : FRat K) : FRat K := ⟨f.denom, f.numer⟩

/-- `rif`, core/include/tsd/filtrage/frat.hpp:625-637. -/
def FRat.rif (a : List K) : FRat K :=
  if a = [] then FRat.un
  else ⟨Poly.deCoefs a.reverse, Poly.deCoefs (List.replicate (a.length - 1) 0 ++ [1])⟩

/-- `eval_inv_z`, core/include/tsd/filtrage/frat.hpp:652-672: `res.denom * PT::z ^ (nn - nd)` is parsed by C++ as
`(res.denom * PT::z) ^ (nn - nd)` (`*` binds tighter than `^`). -/
def FRat.evalInvZ (f : FRat K) : FRat K :=
  let a := f.numer.versCoefs.coefs
  let b := f.denom.versCoefs.coefs
  let n := Poly.deCoefs a.reverse
  let d := Poly.deCoefs b.reverse
  if b.length < a.length then ⟨n, (d.mul Poly.z).pow (a.length - b.length)⟩
  else if a.length < b.length then ⟨(n.mul Poly.z).pow (b.length - a.length), d⟩
  else ⟨n, d⟩

/-- `rii`, core/include/tsd/filtrage/frat.hpp:693-707. -/
def FRat.rii (a b : List K) : FRat K :=
  if a = [] ∨ b = [] then FRat.un else FRat.evalInvZ ⟨Poly.deCoefs a, Poly.deCoefs b⟩

/-- `est_rif`, core/include/tsd/filtrage/frat.hpp:855-859; `none` when the denominator has no coefficient (`head(-1)`). -/
def FRat.estRif [DecidableEq K] (f : FRat K) : Option Bool :=
  match f.denom.coefs.reverse with
  | [] => none
  | c :: l => some (decide (c = 1) && l.all (fun v => decide (v = 0)))

/-- `coefs_rif`, core/include/tsd/filtrage/frat.hpp:639-644; `none`: exception. -/
def FRat.coefsRif [DecidableEq K] (f : FRat K) : Option (List K) :=
  match f.estRif with
  | some true => some f.numer.coefs.reverse
  | _ => none

/-- `z_power`, core/include/tsd/filtrage/frat.hpp:711-730; `none`: access outside of a vector or negative size (`n < 0`). -/
def FRat.zPower (n : Int) : Option (FRat K) :=
  if n = 0 then some FRat.un
  else if 0 < n then some ⟨Poly.deCoefs (List.replicate n.toNat 0 ++ [1]), Poly.deCoefs [1]⟩
  else none

end Verif.FracRat
