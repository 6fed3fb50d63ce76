import Verif.Fourier.Delais
import Verif.Telecom.Model

/-!
# Model of the comparison of bit streams (core/src/telecom/telecom.cc)

Exact arithmetic; an error is `none`.
-/

namespace Verif.Telecom

/-- `bs.array()`: 0 or 1 for each bit, core/src/telecom/telecom.cc:43-45. -/
def bitsC (b : List Bool) : List ℂ := b.map fun v : Bool => if v then 1 else 0

/-- `CmpBitsRes`, core/include/tsd/telecom.hpp:1742-1768; `ber = none`: not a number. -/
structure CmpBitsRes where
  b0 : List ℝ
  b1 : List ℝ
  nerr : ℕ
  ber : Option ℝ
  decalage : ℤ
  decPhase : ℕ
  score : ℝ

/-- Removal of the ends, `tail(n - 50).head(n - 100)`, core/src/telecom/telecom.cc:55-60. -/
def bords (b : List ℝ) : List ℝ := if 100 < b.length then (b.drop 50).take (b.length - 100) else b

/-- Number of differences, core/src/telecom/telecom.cc:62-67. -/
noncomputable def nbErreurs (a b : List ℝ) : ℕ := (List.zipWith (fun u v : ℝ => if Fourier.arrondi u ≠ Fourier.arrondi v then 1 else 0) a b).sum

/-- `cmp_bits`, core/src/telecom/telecom.cc:39-96 (the aligned vectors have the same size, C73). -/
noncomputable def cmpBits (bs1 bs2 : List Bool) : Option CmpBitsRes :=
  (Fourier.aligneEntier (bitsC bs1) (bitsC bs2)).map fun r : List ℂ × List ℂ × ℤ × ℝ =>
    let b1 := r.1.map Complex.re
    let b2 := r.2.1.map Complex.re
    let n := nbErreurs (bords b1) (bords b2)
    ⟨b1, b2, n, if b2.length = 0 then none else some ((n : ℝ) / (bords b2).length), r.2.2.1, 0, r.2.2.2⟩

/-- The bits after a phase rotation of `l` positions, core/src/telecom/telecom.cc:109-115. -/
def tournePsk (bs : List Bool) (k l : ℕ) : Option (List Bool) :=
  (symmap bs k).map fun idx => symdemap (idx.map fun v : ℕ => (v + l) % 2 ^ k) k

/-- Loop on the rotations: `br` is the best result (`none` before the first one), core/src/telecom/telecom.cc:107-130. -/
noncomputable def boucleCmpPsk (bs0 bs1 : List Bool) (k : ℕ) : List ℕ → Option CmpBitsRes → Option (Option CmpBitsRes)
  | [], br => some br
  | l :: ls, br =>
    (tournePsk bs1 k l).bind fun bs => (cmpBits bs0 bs).bind fun r : CmpBitsRes =>
      boucleCmpPsk bs0 bs1 k ls (match br with
        | none => some { r with decPhase := l }
        | some b => if r.nerr < b.nerr then some { r with decPhase := l } else some b)

/-- `cmp_bits_psk` (`k ≥ 0`), core/src/telecom/telecom.cc:99-133. -/
noncomputable def cmpBitsPsk (bs0 bs1 : List Bool) (k : ℕ) : Option CmpBitsRes := (boucleCmpPsk bs0 bs1 k (List.range (2 ^ k)) none).bind id

end Verif.Telecom
