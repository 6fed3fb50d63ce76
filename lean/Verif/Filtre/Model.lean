/-!
# Model of `core/src/filtrage/filtre-rt.cc` (streaming filters)

Sample and coefficient types are arbitrary (`T`, `C`) with uninterpreted operations, evaluated in the order of the code,
so that the properties that need no algebra hold for IEEE floats as well.  Vectors are lists; a vector access outside its
bounds, or an integer `% 0`, is `none` (undefined behaviour in C++); a failed `assertion` is also `none`.
In-place operation (`x` and `y` sharing storage) is modelled separately in `Verif.Filtre.EnPlace`.
-/

namespace Verif.Filtre

/-- A block step applied to one block of samples: new state and output block, or failure. -/
abbrev Bloc (S X Y : Type) := S → List X → Option (S × List Y)

/-- Calling `step` on successive blocks, concatenating the outputs (what a streaming user does). -/
def enchaine {S X Y : Type} (f : Bloc S X Y) : S → List (List X) → Option (S × List Y)
  | s, [] => some (s, [])
  | s, b :: bs =>
    match f s b with
    | none => none
    | some (s', y) =>
      match enchaine f s' bs with
      | none => none
      | some (s'', ys) => some (s'', y ++ ys)

/-- The `pour(i = 0; i < n; i++)` loop common to the sample-by-sample filters: one sample at a time. -/
def boucle {S X Y : Type} (f : S → X → Option (S × Y)) : Bloc S X Y
  | s, [] => some (s, [])
  | s, x :: xs =>
    match f s x with
    | none => none
    | some (s', y) =>
      match boucle f s' xs with
      | none => none
      | some (s'', ys) => some (s'', y :: ys)

/-! ## Delay line -/

/-- `LigneARetard`, core/src/filtrage/filtre-rt.cc:13-17 (members). -/
structure Retard (T : Type) where
  fenetre : List T
  ri : Nat
  retard : Nat

/-- Constructor, core/src/filtrage/filtre-rt.cc:19-24. -/
def Retard.init {T : Type} (zero : T) (retard : Nat) : Retard T := ⟨List.replicate retard zero, 0, retard⟩

/-- Loop body, core/src/filtrage/filtre-rt.cc:37-42. -/
def Retard.ech {T : Type} (s : Retard T) (x : T) : Option (Retard T × T) :=
  match s.fenetre[s.ri]? with
  | none => none
  | some y => if s.retard = 0 then none
    else some ({ s with fenetre := s.fenetre.set s.ri x, ri := (s.ri + 1) % s.retard }, y)

/-- `step`, core/src/filtrage/filtre-rt.cc:26-43. -/
def Retard.step {T : Type} : Bloc (Retard T) T T := fun s x =>
  if s.retard = 0 then some (s, x) else boucle Retard.ech s x

/-! ## FIR filter -/

/-- `FiltreRIF`, core/src/filtrage/filtre-rt.cc:53-65. -/
structure Rif (T C : Type) where
  fen : List T
  index : Nat
  K : Nat
  coefs : List C

/-- Constructor, core/src/filtrage/filtre-rt.cc:60-65. -/
def Rif.init {T C : Type} (zero : T) (c : List C) : Rif T C := ⟨List.replicate c.length zero, 0, c.length, c⟩

/-- `pour(i = 0; i < n; i++) somme += *fptr++ * *cptr--`, core/src/filtrage/filtre-rt.cc:98-99 and 103-104.
`fi` and `ci` are the offsets of the two pointers; `ci` is one more than the offset of `cptr` so that "before the first
coefficient" is 0; returns the sum and the final `cptr`. -/
def macDesc {T C : Type} (add : T → T → T) (mul : T → C → T) (fen : List T) (coefs : List C) :
    Nat → Nat → Nat → T → Option (T × Nat)
  | 0, _, ci, s => some (s, ci)
  | n + 1, fi, ci, s =>
    match fen[fi]?, ci with
    | some v, ci' + 1 =>
      match coefs[ci']? with
      | some c => macDesc add mul fen coefs n (fi + 1) ci' (add s (mul v c))
      | none => none
    | _, _ => none

/-- One sample of the FIR loop, core/src/filtrage/filtre-rt.cc:82-107. -/
def Rif.ech {T C : Type} (zero : T) (add : T → T → T) (mul : T → C → T) (s : Rif T C) (x : T) : Option (Rif T C × T) :=
  if s.K = 0 then none else
  if s.index < s.fen.length then
    let fen := s.fen.set s.index x
    let index := (s.index + 1) % s.K
    let K1 := s.K - index
    let K2 := s.K - K1
    match macDesc add mul fen s.coefs K1 index s.K zero with
    | none => none
    | some (s1, ci) =>
      match macDesc add mul fen s.coefs K2 0 ci s1 with
      | none => none
      | some (s2, _) => some ({ s with fen := fen, index := index }, s2)
  else none

/-- `step`, core/src/filtrage/filtre-rt.cc:67-108 (`assertion(K > 0)` first). -/
def Rif.step {T C : Type} (zero : T) (add : T → T → T) (mul : T → C → T) : Bloc (Rif T C) T T := fun s x =>
  if s.K = 0 then none else boucle (Rif.ech zero add mul) s x

/-! ## Decimator -/

/-- `Decimateur`, core/src/filtrage/filtre-rt.cc:127-134; `cnt` may in principle become negative, hence `Int`. -/
structure Decim where
  R : Int
  cnt : Int
deriving DecidableEq

/-- The loop `pour(i = cnt; i < n; i += R) y(j++) = x(i)`, core/src/filtrage/filtre-rt.cc:141-150: returns the samples read and the final
`i`.  `fuel` bounds the number of iterations (n + 1 suffices when R ≥ 1; for R ≤ 0 the C++ loop would not terminate).
The check `j >= y.rows()` is made after the loop in `Decim.step`. -/
def Decim.lit {T : Type} (R : Int) (x : List T) : Nat → Int → Option (List T × Int)
  | 0, _ => none
  | fuel + 1, i =>
    if i < x.length then
      if 0 ≤ i then
        match x[i.toNat]? with
        | none => none
        | some v =>
          match Decim.lit R x fuel (i + R) with
          | none => none
          | some (ys, i') => some (v :: ys, i')
      else none
    else some ([], i)

/-- `step`, core/src/filtrage/filtre-rt.cc:135-162: the output is allocated with `(n + R - 1 - cnt) / R` samples and the number of samples
produced must be exactly that (`assertion(j == y.rows())`). -/
def Decim.step {T : Type} : Bloc Decim T T := fun s x =>
  if s.R = 0 then none else
  match Decim.lit s.R x (x.length + 1) s.cnt with
  | none => none
  | some (ys, i) =>
    if (ys.length : Int) = ((x.length : Int) + s.R - 1 - s.cnt).tdiv s.R then
      some ({ s with cnt := (i - s.R) - ((x.length : Int) - s.R) }, ys)
    else none

/-! ## Direct-form IIR filter -/

/-- `FiltreRII`, core/src/filtrage/filtre-rt.cc:177-183. -/
structure Rii (T C : Type) where
  numer : List C
  denom : List C
  wndx : List T
  wndy : List T
  index : Nat
  indexY : Nat
  Kx : Nat
  Ky : Nat

/-- `init`, core/src/filtrage/filtre-rt.cc:200-209 (`Ky = denom.rows() - 1`; an empty denominator gives a negative size: `none`). -/
def Rii.init {T C : Type} (zero : T) (numer denom : List C) : Option (Rii T C) :=
  if denom.length = 0 then none
  else some ⟨numer, denom, List.replicate numer.length zero, List.replicate (denom.length - 1) zero, 0, 0,
    numer.length, denom.length - 1⟩

/-- Non-recursive pass, one sample: core/src/filtrage/filtre-rt.cc:224-248. -/
def Rii.echX {T C : Type} (zero : T) (add : T → T → T) (mul : T → C → T) (s : Rii T C) (x : T) : Option (Rii T C × T) :=
  if s.Kx = 0 then none else
  if s.index < s.wndx.length then
    let w := s.wndx.set s.index x
    let index := (s.index + 1) % s.Kx
    let K1 := s.Kx - index
    let K2 := s.Kx - K1
    match macDesc add mul w s.numer K1 index s.Kx zero with
    | none => none
    | some (s1, ci) =>
      match macDesc add mul w s.numer K2 0 ci s1 with
      | none => none
      | some (s2, _) => some ({ s with wndx := w, index := index }, s2)
  else none

/-- `pour(i = 0; i < n; i++) somme -= *wptr++ * *dptr++`, core/src/filtrage/filtre-rt.cc:266-267 and 271-272. -/
def macAsc {T C : Type} (sub : T → T → T) (mul : T → C → T) (w : List T) (den : List C) :
    Nat → Nat → Nat → T → Option (T × Nat)
  | 0, _, di, s => some (s, di)
  | n + 1, wi, di, s =>
    match w[wi]?, den[di]? with
    | some v, some c => macAsc sub mul w den n (wi + 1) (di + 1) (sub s (mul v c))
    | _, _ => none

/-- Recursive pass, one sample: core/src/filtrage/filtre-rt.cc:252-279 (`% Ky` with `Ky = 0` is undefined behaviour). -/
def Rii.echY {T C : Type} (sub : T → T → T) (mul : T → C → T) (div : T → C → T) (s : Rii T C) (v : T) :
    Option (Rii T C × T) :=
  let K1 := s.Ky - s.indexY
  let K2 := s.Ky - K1
  match macAsc sub mul s.wndy s.denom K1 s.indexY 1 v with
  | none => none
  | some (s1, di) =>
    match macAsc sub mul s.wndy s.denom K2 0 di s1, s.denom[0]? with
    | some (s2, _), some d0 =>
      if s.Ky = 0 then none else
      let y := div s2 d0
      let iy := (s.indexY + s.Ky - 1) % s.Ky
      if iy < s.wndy.length then some ({ s with wndy := s.wndy.set iy y, indexY := iy }, y) else none
    | _, _ => none

/-- `step`, core/src/filtrage/filtre-rt.cc:210-280: the whole block goes through the numerator, then through the denominator. -/
def Rii.step {T C : Type} (zero : T) (add sub : T → T → T) (mul div : T → C → T) : Bloc (Rii T C) T T := fun s x =>
  match boucle (Rii.echX zero add mul) s x with
  | none => none
  | some (s', v) => boucle (Rii.echY sub mul div) s' v

/-! ## Second-order section -/

/-- `SOIS`, core/src/filtrage/filtre-rt.cc:304-310, after `configure` (coefficients already divided by `a0`). -/
structure Sois (T C : Type) where
  x1 : T
  x2 : T
  y0 : T
  y1 : T
  y2 : T
  b0 : C
  b1 : C
  b2 : C
  a1 : C
  a2 : C
  premier : Bool
  forme2 : Bool

/-- `configure`, core/src/filtrage/filtre-rt.cc:317-328 (`a0 ≠ 0` asserted) with the default state. -/
def Sois.configure {T C : Type} [DecidableEq C] (zeroT : T) (zeroC : C) (divC : C → C → C)
    (b0 b1 b2 a0 a1 a2 : C) (forme2 : Bool) : Option (Sois T C) :=
  if a0 = zeroC then none
  else some ⟨zeroT, zeroT, zeroT, zeroT, zeroT, divC b0 a0, divC b1 a0, divC b2 a0, divC a1 a0, divC a2 a0, true, forme2⟩

/-- Direct form II body, core/src/filtrage/filtre-rt.cc:369-381. -/
def Sois.ech2 {T C : Type} (add sub : T → T → T) (mul : C → T → T) (s : Sois T C) (x0 : T) : Option (Sois T C × T) :=
  let d2 := sub (sub x0 (mul s.a1 s.y1)) (mul s.a2 s.y0)
  let y2 := add (add (mul s.b0 d2) (mul s.b1 s.y1)) (mul s.b2 s.y0)
  some ({ s with y2 := y2, y0 := s.y1, y1 := d2 }, y2)

/-- Direct form I body, core/src/filtrage/filtre-rt.cc:384-394. -/
def Sois.ech1 {T C : Type} (add sub : T → T → T) (mul : C → T → T) (s : Sois T C) (x0 : T) : Option (Sois T C × T) :=
  let y0 := sub (sub (add (add (mul s.b0 x0) (mul s.b1 s.x1)) (mul s.b2 s.x2)) (mul s.a1 s.y1)) (mul s.a2 s.y2)
  some ({ s with y0 := y0, y2 := s.y1, y1 := y0, x2 := s.x1, x1 := x0 }, y0)

/-- `step`, core/src/filtrage/filtre-rt.cc:347-399: nothing happens on an empty block; on the first non-empty block all the memories are
initialised with the first sample. -/
def Sois.step {T C : Type} (add sub : T → T → T) (mul : C → T → T) : Bloc (Sois T C) T T := fun s x =>
  match x with
  | [] => some (s, [])
  | x0 :: _ =>
    let s := if s.premier then { s with y0 := x0, y1 := x0, y2 := x0, x2 := x0, x1 := x0, premier := false } else s
    if s.forme2 then boucle (Sois.ech2 add sub mul) s x else boucle (Sois.ech1 add sub mul) s x

/-! ## First-order section -/

/-- `RIIFoS`, core/src/filtrage/filtre-rt.cc:407-420. -/
structure Fos (T C : Type) where
  b0 : C
  b1 : C
  a1 : C
  x1 : T
  y1 : T

/-- Loop body, core/src/filtrage/filtre-rt.cc:427-432 (`y1 = -a1*y1 + b0*x0 + b1*x1`). -/
def Fos.ech {T C : Type} (add : T → T → T) (neg : C → C) (mul : C → T → T) (s : Fos T C) (x0 : T) : Option (Fos T C × T) :=
  let y := add (add (mul (neg s.a1) s.y1) (mul s.b0 x0)) (mul s.b1 s.x1)
  some ({ s with y1 := y, x1 := x0 }, y)

/-- `step`, core/src/filtrage/filtre-rt.cc:422-436. -/
def Fos.step {T C : Type} (add : T → T → T) (neg : C → C) (mul : C → T → T) : Bloc (Fos T C) T T :=
  boucle (Fos.ech add neg mul)

/-! ## Chain of sections -/

/-- `ChaineSOIS`, core/src/filtrage/filtre-rt.cc:440-446: sections, then either a first-order section or a gain. -/
structure Chaine (T C : Type) where
  sections : List (Sois T C)
  gain : C
  rii1 : Option (Fos T C)

/-- `pour(auto &s: sections) y = s.step(y)`, core/src/filtrage/filtre-rt.cc:565-566. -/
def Chaine.sectionsStep {T C : Type} (add sub : T → T → T) (mul : C → T → T) : Bloc (List (Sois T C)) T T
  | [], x => some ([], x)
  | s :: ss, x =>
    match Sois.step add sub mul s x with
    | none => none
    | some (s', y) =>
      match Chaine.sectionsStep add sub mul ss y with
      | none => none
      | some (ss', z) => some (s' :: ss', z)

/-- `step`, core/src/filtrage/filtre-rt.cc:562-571. -/
def Chaine.step {T C : Type} (add sub : T → T → T) (neg : C → C) (mul : C → T → T) : Bloc (Chaine T C) T T := fun s x =>
  match Chaine.sectionsStep add sub mul s.sections x with
  | none => none
  | some (ss, y) =>
    match s.rii1 with
    | some f =>
      match Fos.step add neg mul f y with
      | none => none
      | some (f', z) => some ({ s with sections := ss, rii1 := some f' }, z)
    | none => some ({ s with sections := ss }, y.map (mul s.gain))

/-! ## DC-removal filter -/

/-- `FiltreDC`, core/src/filtrage/filtre-rt.cc:604-614. -/
structure Dc (T C : Type) where
  α : C
  xp : T
  yp : T

/-- Loop body, core/src/filtrage/filtre-rt.cc:622-627 (`y = α * ((x - xp) + yp)`). -/
def Dc.ech {T C : Type} (add sub : T → T → T) (mul : C → T → T) (s : Dc T C) (x : T) : Option (Dc T C × T) :=
  let y := mul s.α (add (sub x s.xp) s.yp)
  some ({ s with xp := x, yp := y }, y)

/-- `step`, core/src/filtrage/filtre-rt.cc:615-628. -/
def Dc.step {T C : Type} (add sub : T → T → T) (mul : C → T → T) : Bloc (Dc T C) T T := boucle (Dc.ech add sub mul)

/-! ## Moving average -/

/-- `MoyenneGlissante`, core/src/filtrage/filtre-rt.cc:633-640 (accumulator and sample types identified). -/
structure Mg (T : Type) where
  index : Nat
  K : Nat
  accu : T
  fenetre : List T

/-- Constructor, core/src/filtrage/filtre-rt.cc:642-647. -/
def Mg.init {T : Type} (zero : T) (K : Nat) : Mg T := ⟨0, K, zero, List.replicate K zero⟩

/-- Loop body, core/src/filtrage/filtre-rt.cc:658-665; `fin` is the final multiplication by `K_inv`. -/
def Mg.ech {T : Type} (add sub : T → T → T) (fin : T → T) (s : Mg T) (x : T) : Option (Mg T × T) :=
  match s.fenetre[s.index]? with
  | none => none
  | some old =>
    if s.K = 0 then none else
    let accu := sub (add s.accu x) old
    some ({ s with accu := accu, fenetre := s.fenetre.set s.index x, index := (s.index + 1) % s.K }, fin accu)

/-- `step`, core/src/filtrage/filtre-rt.cc:649-666. -/
def Mg.step {T : Type} (add sub : T → T → T) (fin : T → T) : Bloc (Mg T) T T := fun s x =>
  if s.K = 0 then none else boucle (Mg.ech add sub fin) s x

/-! ## Exponential smoothing -/

/-- `FiltreLExp`, core/src/filtrage/filtre-rt.cc:725-737. -/
structure Lexp (T C : Type) where
  acc : T
  γ : C
  init : Bool

/-- Loop body, core/src/filtrage/filtre-rt.cc:754-759 (`acc += γ * (xi - acc)`). -/
def Lexp.ech {T C : Type} (add sub : T → T → T) (mul : C → T → T) (s : Lexp T C) (x : T) : Option (Lexp T C × T) :=
  let acc := add s.acc (mul s.γ (sub x s.acc))
  some ({ s with acc := acc }, acc)

/-- `step`, core/src/filtrage/filtre-rt.cc:739-762: the first non-empty block loads the accumulator with its first sample. -/
def Lexp.step {T C : Type} (add sub : T → T → T) (mul : C → T → T) : Bloc (Lexp T C) T T := fun s x =>
  match x with
  | [] => some (s, [])
  | x0 :: _ =>
    let s := if s.init then s else { s with acc := x0 }
    match boucle (Lexp.ech add sub mul) s x with
    | none => none
    | some (s', y) => some ({ s' with init := true }, y)

end Verif.Filtre
