import Verif.BitStream.Model
/-!
Independent specification of a bit stream: a list of booleans and a reading position.
A *history* acts on an arbitrary family of stream variables (indexed by `Nat`).
-/
namespace Verif.BitStream.Spec

/-- A stream as the user sees it: its bits, and how many of them were read. -/
structure Flux where
  bits : List Bool
  lus  : Nat
deriving DecidableEq

/-- User-level operations on stream variables. -/
inductive Op where
  | push (v : Nat) (b : Bool)
  | pushU32 (v : Nat) (w : BitVec 32)
  | pad (v n : Nat)
  | padMult (v m : Nat)
  | set (v i : Nat) (b : Bool)
  | tronque (v n : Nat)          -- resize(n) with n at most the current length
  | clear (v : Nat)
  | restart (v : Nat)
  | append (v w : Nat)           -- v += w
  | concat (v w u : Nat)         -- v = w + u
  | copie (v w : Nat)            -- v = w
  | lire (v i : Nat)             -- v[i]
  | lon (v : Nat)
  | eof (v : Nat)
  | pop (v : Nat)
  | popU32 (v : Nat)

/-- What an operation returns to the user. -/
inductive Out where
  | rien
  | bit (b : Bool)
  | nb (n : Nat)
deriving DecidableEq

/-- Little-endian value of a list of bits. -/
def valeur : List Bool → Nat
  | []      => 0
  | b :: bs => b.toNat + 2 * valeur bs

/-- The 32 binary digits of a word, least significant first. -/
def chiffres (w : BitVec 32) : List Bool := (List.range 32).map (fun j => w.toNat.testBit j)

/-- Variable update. -/
def maj {α : Type} (f : Nat → α) (v : Nat) (a : α) : Nat → α := fun x => if x = v then a else f x

/-- Number of zero bits that complete `n` to a multiple of `m`: the least `k` with `m ∣ n + k`. -/
def manque (n m : Nat) : Nat := (m - n % m) % m

/-- One operation on the abstract streams; `none` when the operation is outside its contract. -/
def step (σ : Nat → Flux) : Op → Option ((Nat → Flux) × Out)
  | .push v b     => some (maj σ v ⟨(σ v).bits ++ [b], (σ v).lus⟩, .rien)
  | .pushU32 v w  => some (maj σ v ⟨(σ v).bits ++ chiffres w, (σ v).lus⟩, .rien)
  | .pad v n      => some (maj σ v ⟨(σ v).bits ++ List.replicate n false, (σ v).lus⟩, .rien)
  | .padMult v m  =>
      if 0 < m then
        some (maj σ v ⟨(σ v).bits ++ List.replicate (manque (σ v).bits.length m) false, (σ v).lus⟩, .rien)
      else none
  | .set v i b    =>
      if i < (σ v).bits.length then some (maj σ v ⟨(σ v).bits.set i b, (σ v).lus⟩, .rien) else none
  | .tronque v n  =>
      if n ≤ (σ v).bits.length then some (maj σ v ⟨(σ v).bits.take n, 0⟩, .rien) else none
  | .clear v      => some (maj σ v ⟨[], 0⟩, .rien)
  | .restart v    => some (maj σ v ⟨(σ v).bits, 0⟩, .rien)
  | .append v w   => some (maj σ v ⟨(σ v).bits ++ (σ w).bits, 0⟩, .rien)
  | .concat v w u => some (maj σ v ⟨(σ w).bits ++ (σ u).bits, 0⟩, .rien)
  | .copie v w    => some (maj σ v (σ w), .rien)
  | .lire v i     => (σ v).bits[i]?.map (fun b => (σ, .bit b))
  | .lon v        => some (σ, .nb (σ v).bits.length)
  | .eof v        => some (σ, .bit (decide ((σ v).bits.length ≤ (σ v).lus)))
  | .pop v        => (σ v).bits[(σ v).lus]?.map (fun b => (maj σ v ⟨(σ v).bits, (σ v).lus + 1⟩, .bit b))
  | .popU32 v     =>
      if (σ v).lus + 32 ≤ (σ v).bits.length then
        some (maj σ v ⟨(σ v).bits, (σ v).lus + 32⟩, .nb (valeur (((σ v).bits.drop (σ v).lus).take 32)))
      else none

/-- A whole history, with everything it returned. -/
def run (σ : Nat → Flux) : List Op → Option ((Nat → Flux) × List Out)
  | []        => some (σ, [])
  | op :: ops =>
    match step σ op with
    | none => none
    | some (σ', o) =>
      match run σ' ops with
      | none => none
      | some (σ'', os) => some (σ'', o :: os)

/-- All variables start as empty streams. -/
def init : Nat → Flux := fun _ => ⟨[], 0⟩

end Verif.BitStream.Spec

namespace Verif.BitStream.Impl
open Verif.BitStream Verif.BitStream.Spec

/-- The same operations executed by the modelled code. -/
def step (σ : Nat → BS) : Op → Except Err ((Nat → BS) × Out)
  | .push v b     => do let s ← BitStream.push (σ v) b; .ok (maj σ v s, .rien)
  | .pushU32 v w  => do let s ← BitStream.pushU32 (σ v) w; .ok (maj σ v s, .rien)
  | .pad v n      => do let s ← BitStream.pad (σ v) n; .ok (maj σ v s, .rien)
  | .padMult v m  => do let s ← BitStream.padMult (σ v) m; .ok (maj σ v s, .rien)
  | .set v i b    => do let s ← BitStream.set (σ v) i b; .ok (maj σ v s, .rien)
  | .tronque v n  => .ok (maj σ v (BitStream.resize (σ v) n), .rien)
  | .clear v      => .ok (maj σ v (BitStream.clear (σ v)), .rien)
  | .restart v    => .ok (maj σ v (BitStream.restart (σ v)), .rien)
  | .append v w   => do let s ← BitStream.addAssign (σ v) (σ w); .ok (maj σ v s, .rien)
  | .concat v w u => do let s ← BitStream.add (σ w) (σ u); .ok (maj σ v s, .rien)
  | .copie v w    => .ok (maj σ v (σ w), .rien)
  | .lire v i     => do let b ← BitStream.get (σ v) i; .ok (σ, .bit b)
  | .lon v        => .ok (σ, .nb (BitStream.lon (σ v)))
  | .eof v        => .ok (σ, .bit (BitStream.eof (σ v)))
  | .pop v        => do let r ← BitStream.pop (σ v); .ok (maj σ v r.2, .bit r.1)
  | .popU32 v     => do let r ← BitStream.popU32 (σ v); .ok (maj σ v r.2, .nb r.1.toNat)

/-- A whole history executed by the modelled code. -/
def run (σ : Nat → BS) : List Op → Except Err ((Nat → BS) × List Out)
  | []        => .ok (σ, [])
  | op :: ops => do
    let r ← step σ op
    let r' ← run r.1 ops
    .ok (r'.1, r.2 :: r'.2)

/-- All variables start default-constructed. -/
def init : Nat → BS := fun _ => vide

end Verif.BitStream.Impl
