/-
Model of the LFSR (PRBS) generator and receiver
  /repo/core/src/telecom/prbs.cc, /repo/core/include/tsd/telecom/lfsr.hpp

Simplifications: the `uint32_t` registers are `Nat` (with `reglen ≤ 32` and a start below 2^32 no operation below can
reach 2^32, so no wrap-around is lost; counters are unbounded); a `BitStream` argument is its list of bits
(justified by C01).  `reglen = 0` would shift by -1 (undefined behaviour): the theorems ask `1 ≤ reglen`.
-/
namespace Verif.Lfsr

/-- `pols_prim`, prbs.cc:25-43 -/
def polsPrim : List Nat :=
  [0, 0, 1 <<< 1, 1 <<< 2, 1 <<< 3, 1 <<< 3, 1 <<< 5, 1 <<< 6,
   (1 <<< 6) ||| (1 <<< 5) ||| (1 <<< 4), 1 <<< 5, 1 <<< 7, 1 <<< 9,
   (1 <<< 9) ||| (1 <<< 8) ||| (1 <<< 5), (1 <<< 9) ||| (1 <<< 10) ||| (1 <<< 12),
   (1 <<< 5) ||| (1 <<< 3) ||| (1 <<< 1), 1 <<< 14, (1 <<< 5) ||| (1 <<< 3) ||| (1 <<< 2)]

/-- `polynome_primitif_binaire`, prbs.cc:45-50 (`none`: the exception) -/
def polynomePrimitifBinaire (n : Int) : Option Nat :=
  if n ≤ 0 ∨ n ≥ polsPrim.length then none
  else (polsPrim[n.toNat]?).map (· ||| 1)

/-- `__builtin_popcount` on a 32-bit word, used at prbs.cc:108 -/
def popcount (x : Nat) : Nat := (List.range 32).foldl (fun s k => s + ((x >>> k) &&& 1)) 0

/-- the loop `s = s ^ ((tmp >> k) & 1)` for k < reglen, prbs.cc:114-116 and :159-161 -/
def xorBits (tmp reglen : Nat) : Nat := (List.range reglen).foldl (fun s k => s ^^^ ((tmp >>> k) &&& 1)) 0

/-- `LFSRConfig::sortie`, lfsr.hpp:34-39 -/
inductive Sortie where
  | poidsFaible | poidsFort | pol
deriving DecidableEq

/-- `LFSRConfig`, lfsr.hpp:24-41 -/
structure Config where
  reglen : Nat
  pol : Nat
  p0 : Nat
  polSortie : Nat := 0
  sortie : Sortie := .poidsFaible

/-- `LFSRGenerateur` members, lfsr.hpp:62-64 -/
structure Gen where
  config : Config
  reg : Nat

/-- `LFSRGenerateur::configure(const LFSRConfig &)`, prbs.cc:97-101 -/
def Gen.configure (c : Config) : Gen := ⟨c, c.p0⟩

/-- `LFSRGenerateur::configure(unsigned)` on a freshly constructed object, prbs.cc:87-95 (`none`: exception). -/
def Gen.configureLon (reglen : Nat) : Option Gen :=
  if reglen ≤ 16 then
    (polynomePrimitifBinaire reglen).map fun p => ⟨{ reglen := reglen, pol := p, p0 := 0 }, 0xfa17⟩
  else none

/-- New register value, prbs.cc:108 and :125 -/
def regSuivant (reglen pol reg : Nat) : Nat :=
  (reg >>> 1) ||| ((popcount (reg &&& pol) &&& 1) <<< (reglen - 1))

/-- One iteration of `LFSRGenerateur::step`, prbs.cc:108-125 -/
def Gen.pas (g : Gen) : Bool × Gen :=
  let somme := popcount (g.reg &&& g.config.pol) &&& 1
  let sortie := match g.config.sortie with
    | .pol => xorBits (g.reg &&& g.config.polSortie) g.config.reglen
    | .poidsFaible => g.reg &&& 1
    | .poidsFort => somme
  (sortie != 0, { g with reg := regSuivant g.config.reglen g.config.pol g.reg })

/-- `LFSRGenerateur::step(bs, nbits)`, prbs.cc:104-127: the appended bits and the new generator. -/
def Gen.step (g : Gen) : Nat → List Bool × Gen
  | 0 => ([], g)
  | n + 1 =>
    let (b, g) := g.pas
    let (bs, g) := g.step n
    (b :: bs, g)

/-- `code_mls`, prbs.cc:66-80 (`none`: exception of `polynome_primitif_binaire`). -/
def codeMls (reglen : Nat) : Option (List Bool) :=
  (polynomePrimitifBinaire reglen).map fun pb =>
    ((Gen.configure { reglen := reglen, pol := pb, p0 := 1, sortie := .poidsFaible }).step (2 ^ reglen - 1)).1

/-- `LFSRRecepteur::Impl`, prbs.cc:130-148 (`bit_counter`, `nb_bits_a_ignorer` are write-only and left out;
`est_verouille` too). -/
structure Rec where
  reglen : Nat
  reg : Nat
  pol : Nat
  verrou : Bool
  errConsec : Nat
  okConsec : Nat
  nbBits : Nat
  nbErreurs : Nat
deriving DecidableEq

/-- `LFSRRecepteur::reset`, prbs.cc:243-250 -/
def Rec.reset (r : Rec) : Rec := { r with verrou := false, okConsec := 0, nbBits := 0, nbErreurs := 0 }

/-- `LFSRRecepteur::configure` on an object in any previous state, prbs.cc:229-241 -/
def Rec.configure (r : Rec) (reglen : Nat) : Option Rec :=
  if reglen ≤ 16 then
    (polynomePrimitifBinaire reglen).map fun p => { r with reglen := reglen, pol := p, reg := 1 }.reset
  else none

/-- All-zero members, prbs.cc:132-148 -/
def Rec.zero : Rec := ⟨0, 0, 0, false, 0, 0, 0, 0⟩

/-- One iteration of `LFSRRecepteur::Impl::step`, prbs.cc:155-218 -/
def Rec.pas (r : Rec) (bit : Bool) : Rec :=
  let sum := xorBits (r.reg &&& r.pol) r.reglen
  if r.verrou = false then
    let r := { r with reg := (r.reg >>> 1) ||| (bit.toNat <<< (r.reglen - 1)) }
    let r := if bit.toNat = sum then { r with okConsec := r.okConsec + 1 } else { r with okConsec := 0 }
    if r.okConsec > 20 then { r with verrou := true, errConsec := 0 } else r
  else
    let r := { r with reg := (r.reg >>> 1) ||| (sum <<< (r.reglen - 1)), nbBits := r.nbBits + 1 }
    let r := if bit.toNat = sum then { r with errConsec := 0 }
             else { r with errConsec := r.errConsec + 1, nbErreurs := r.nbErreurs + 1 }
    if r.errConsec > 5 then { r with verrou := false, okConsec := 0 } else r

/-- `LFSRRecepteur::step`, prbs.cc:150-220 and :252-255 -/
def Rec.step (r : Rec) (bs : List Bool) : Rec := bs.foldl Rec.pas r

/-- `LFSRRecepteur::lis_etat`, prbs.cc:266-273; the ratio is kept as the pair (errors, bits), `none` being 0.5. -/
def Rec.lisEtat (r : Rec) : Bool × Option (Nat × Nat) :=
  (r.verrou, if r.nbBits = 0 ∨ r.verrou = false ∨ r.nbBits < 10 then none else some (r.nbErreurs, r.nbBits))

end Verif.Lfsr
