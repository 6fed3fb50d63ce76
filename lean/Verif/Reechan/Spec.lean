import Verif.Filtre.Spec

/-! # Specifications of the resampling filters, independent of their implementation -/

namespace Verif.Reechan
open Verif.Filtre

/-- Full-rate filtering by `c`, then one sample in `R`: the samples of index R-1, 2R-1, … -/
def filtreEtDecime {A : Type} [Semiring A] (R : Nat) (c x : List A) : List A :=
  (List.range (x.length / R)).map fun m => convolution c x ((m + 1) * R - 1)

/-- Zero insertion: sample `k` is `x(k/R)` when `R` divides `k`, 0 otherwise. -/
def insereZeros {A : Type} [Zero A] (R : Nat) (x : List A) : List A :=
  (List.range (x.length * R)).map fun k => if k % R = 0 then x.getD (k / R) 0 else 0

/-- Number of zeros that complete a filter of `n` coefficients to a multiple of `R`. -/
def complement (n R : Nat) : Nat := (R - n % R) % R

/-- Sum of the last `R` samples (zero past) at every time. -/
def boxcar {A : Type} [AddCommMonoid A] (R : Nat) (x : List A) : List A :=
  (List.range x.length).map fun n => ∑ k ∈ Finset.range R, passe x n k

end Verif.Reechan
