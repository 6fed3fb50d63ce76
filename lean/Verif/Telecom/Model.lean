import Mathlib.Algebra.Order.Field.Basic
/-
Model of bit/symbol mapping, differential coding, Barker codes and symbol decision
  /repo/core/src/telecom/modulations.cc, /repo/core/src/telecom/telecom.cc

Simplifications: a `BitStream` is its list of bits (C01); symbol values are unbounded `Nat` (the `int` weights
`e *= 2` do not overflow for k ≤ 30); complex floats are pairs over an arbitrary ordered field (exact arithmetic).
-/
namespace Verif.Telecom

/-- Inner loop of `symmap_binaire`, modulations.cc:91-95.  The guard `i*k+j < n` makes the read in range. -/
def symbBoucle (x : List Bool) (k i : Nat) (j symb e : Nat) : Nat :=
  if h : j < k ∧ i * k + j < x.length then
    symbBoucle x k i (j + 1) (symb + e * (x[i * k + j]'h.2).toNat) (e * 2)
  else symb
termination_by k - j

/-- `symmap_binaire`, modulations.cc:78-99 (`none`: the exception for k ≤ 0). -/
def symmap (x : List Bool) (k : Int) : Option (List Nat) :=
  if k ≤ 0 then none
  else
    let k := k.toNat
    let nsymbs := (x.length + k - 1) / k
    some ((List.range nsymbs).map (fun i => symbBoucle x k i 0 0 1))

/-- `symdemap_binaire`, modulations.cc:102-108: the bits appended to `bs`. -/
def symdemap (s : List Nat) (k : Nat) : List Bool :=
  s.flatMap (fun v => (List.range k).map (fun j => ((v >>> j) &&& 1) != 0))

/-- Loop of `diff_encode`, telecom.cc:142-148 -/
def diffEncodeBoucle (lb : Bool) : List Bool → List Bool
  | [] => []
  | bi :: xs => let bo := lb ^^ bi; bo :: diffEncodeBoucle bo xs

/-- `diff_encode`, telecom.cc:138-149: the bits appended to `y`. -/
def diffEncode (x : List Bool) : List Bool := diffEncodeBoucle false x

/-- Loop of `diff_decode`, telecom.cc:160-166, over the `n` first bits of the list. -/
def diffDecodeBoucle (lb : Bool) : Nat → List Bool → List Bool
  | 0, _ => []
  | _ + 1, [] => []
  | n + 1, bi :: xs => (lb ^^ bi) :: diffDecodeBoucle bi n xs

/-- `diff_decode`, telecom.cc:151-167: the bits appended to `y`. -/
def diffDecode (x : List Bool) : List Bool :=
  match x with
  | [] => []
  | x0 :: _ => diffDecodeBoucle x0 (x.length - 1) x

/-- `code_Barker`, telecom.cc:12-34 (`none`: exception). -/
def codeBarker (n : Int) : Option String :=
  match n with
  | 2 => some "10"
  | 3 => some "110"
  | 4 => some "1101"
  | 5 => some "11101"
  | 7 => some "1110010"
  | 11 => some "11100010010"
  | 13 => some "1111100110101"
  | _ => none

section Decision
variable {α : Type} [Field α] [LinearOrder α]

/-- `std::norm(point - lis_symbole(i))`, modulations.cc:267: squared distance in the complex plane. -/
def dist2 (p q : α × α) : α := (p.1 - q.1) * (p.1 - q.1) + (p.2 - q.2) * (p.2 - q.2)

/-- Loop of `FormeOnde::symbole_plus_proche`, modulations.cc:265-273, on the remaining symbols. -/
def plusProcheBoucle (point : α × α) (i : Nat) (bdist : α) (res : Nat) : List (α × α) → Nat
  | [] => res
  | s :: ss =>
    let d2 := dist2 point s
    if d2 < bdist then plusProcheBoucle point (i + 1) d2 i ss
    else plusProcheBoucle point (i + 1) bdist res ss

/-- `FormeOnde::symbole_plus_proche`, modulations.cc:261-276, for a constellation given as the list of
`lis_symbole(0..M-1)`; `none` is the failed assertion (M = 0). -/
def symbolePlusProche (symbs : List (α × α)) (point : α × α) : Option Nat :=
  let res := plusProcheBoucle point 0 (10 ^ 100) 0 symbs
  if res < symbs.length then some res else none

/-- `FormeOndePSK::symbole_plus_proche` for M = 2, modulations.cc:337-342 -/
def bpskDecision (x : α × α) : Nat := if x.1 > 0 then 1 else 0

/-- `psk_constellation(2)`, modulations.cc:45-46 -/
def bpskConstellation : List (α × α) := [(-1, 0), (1, 0)]

/-- `FormeOnde::génère_symboles`, modulations.cc:110-121, for a memoryless waveform (`lis_symbole(i)` reads a table;
`none`: exception of `symmap_binaire` or failed assertion on the index). -/
def genereSymboles (symbs : List (α × α)) (k : Int) (bs : List Bool) : Option (List (α × α)) := do
  let x ← symmap bs k
  x.mapM (fun i => symbs[i]?)

/-- `FormeOnde::decode_symboles`, modulations.cc:243-253: bits appended to `bs`. -/
def decodeSymboles (symbs : List (α × α)) (k : Nat) (x : List (α × α)) : Option (List Bool) := do
  let x2 ← x.mapM (symbolePlusProche symbs)
  some (symdemap x2 k)

end Decision

/-- `decode_hard`, telecom.cc:169-174: bits appended to `y`. -/
def decodeHard {α : Type} [Zero α] [LinearOrder α] (llr : List α) : List Bool := llr.map (fun v => decide (v > 0))

end Verif.Telecom
