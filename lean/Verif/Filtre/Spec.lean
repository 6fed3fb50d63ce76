import Verif.Filtre.Model
import Mathlib.Algebra.BigOperators.Group.Finset.Basic
import Mathlib.Algebra.Field.Defs

/-! # Specifications of the streaming filters, independent of their implementation -/

namespace Verif.Filtre

/-- Sample `n - k` of a signal that is zero before time 0. -/
def passe {R : Type} [Zero R] (x : List R) (n k : Nat) : R := if k ≤ n then x.getD (n - k) 0 else 0

/-- Convolution sum `∑_{k < K} c_k x(n-k)` with zero past. -/
def convolution {R : Type} [Semiring R] (c x : List R) (n : Nat) : R :=
  ∑ k ∈ Finset.range c.length, c.getD k 0 * passe x n k


/-- `k` zeros followed by the input, truncated to the input length: what an ideal delay line outputs. -/
def retarde {T : Type} (zero : T) (k : Nat) (x : List T) : List T := (List.replicate k zero ++ x).take x.length

/-- The samples of global index 0, R, 2R, … of a stream. -/
def unSur {T : Type} (R : Nat) (x : List T) : List T := ((x.zipIdx).filter (fun p => p.2 % R = 0)).map Prod.fst

/-- Mean of the last `K` samples up to time `n` (zero past). -/
def moyenne {R : Type} [DivisionRing R] (K : Nat) (x : List R) (n : Nat) : R :=
  (∑ k ∈ Finset.range K, passe x n k) / (K : R)

end Verif.Filtre
