import Verif.Filtre.Model
import Verif.Util.Model
import Mathlib.Logic.Function.Iterate

/-!
# Model of `core/src/reechan/polyphase.cc` and `core/src/reechan/cic.cc`

Samples and coefficients are in arbitrary types with uninterpreted operations (evaluation order of the code).
Accesses outside a vector, a negative or wrong number of output samples (raw output pointer), `% 0` and failed assertions
are `none`.
-/

namespace Verif.Reechan
open Verif.Filtre

/-- Sample loop in which each sample may produce any number of outputs. -/
def boucleL {S X Y : Type} (f : S → X → Option (S × List Y)) : S → List X → Option (S × List Y)
  | s, [] => some (s, [])
  | s, x :: xs =>
    match f s x with
    | none => none
    | some (s', y) =>
      match boucleL f s' xs with
      | none => none
      | some (s'', ys) => some (s'', y ++ ys)

/-! ## FIR with decimation -/

/-- `FiltreRIFDecim`, core/src/reechan/polyphase.cc:156-161. -/
structure RifDecim (T C : Type) where
  fen : List T
  coefs : List C
  index : Nat
  K : Nat
  cnt : Nat
  R : Nat

/-- Constructor, core/src/reechan/polyphase.cc:163-169. -/
def RifDecim.init {T C : Type} (zero : T) (c : List C) (R : Nat) : RifDecim T C :=
  ⟨List.replicate c.length zero, c, 0, c.length, 0, R⟩

/-- `pour(i = 0; i < n; i++) somme += *wptr++ * *cptr++` with pointer increments `dw`, `dc`, core/src/reechan/polyphase.cc:221-227 (1, 1),
110-125 (2, 2), 315-327 (1, R). Returns the sum and the final `cptr`. -/
def macPas {T C : Type} (add : T → T → T) (mul : T → C → T) (dw dc : Nat) (w : List T) (c : List C) :
    Nat → Nat → Nat → T → Option (T × Nat)
  | 0, _, ci, s => some (s, ci)
  | n + 1, wi, ci, s =>
    match w[wi]?, c[ci]? with
    | some v, some a => macPas add mul dw dc w c n (wi + dw) (ci + dc) (add s (mul v a))
    | _, _ => none

/-- One sample, core/src/reechan/polyphase.cc:183-234. -/
def RifDecim.ech {T C : Type} (zero : T) (add : T → T → T) (mul : T → C → T) (s : RifDecim T C) (x : T) :
    Option (RifDecim T C × List T) :=
  if s.K = 0 then none else
  if s.index < s.fen.length then
    let fen := s.fen.set s.index x
    let index := (s.index + 1) % s.K
    if s.cnt + 1 < s.R then some ({ s with fen := fen, index := index, cnt := s.cnt + 1 }, [])
    else
      let K1 := s.K - index
      let K2 := s.K - K1
      match macPas add mul 1 1 fen s.coefs K1 index 0 zero with
      | none => none
      | some (s1, ci) =>
        match macPas add mul 1 1 fen s.coefs K2 0 ci s1 with
        | none => none
        | some (s2, _) => some ({ s with fen := fen, index := index, cnt := 0 }, [s2])
  else none

/-- `step`, core/src/reechan/polyphase.cc:171-235: the output is allocated with `(n + cnt) / R` samples. -/
def RifDecim.step {T C : Type} (zero : T) (add : T → T → T) (mul : T → C → T) : Bloc (RifDecim T C) T T := fun s x =>
  if s.K = 0 ∨ s.R = 0 then none else
  match boucleL (RifDecim.ech zero add mul) s x with
  | none => none
  | some (s', y) => if y.length = (x.length + s.cnt) / s.R then some (s', y) else none

/-! ## Half-band FIR with decimation by 2 -/

/-- `FiltreRIFDemiBande`, core/src/reechan/polyphase.cc:57-62 (`R = 2`). -/
structure DemiBande (T C : Type) where
  fen : List T
  coefs : List C
  index : Nat
  K : Nat
  odd : Nat

/-- Constructor, core/src/reechan/polyphase.cc:64-69. -/
def DemiBande.init {T C : Type} (zero : T) (c : List C) : DemiBande T C :=
  ⟨List.replicate c.length zero, c, 0, c.length, 0⟩

/-- One sample, core/src/reechan/polyphase.cc:83-137.  `demi v` is `0.5f * v`.  The first loop runs `⌈K1/2⌉` times and leaves
`i = 2⌈K1/2⌉`; the second starts at `i - K1` and runs while `i < K2`. -/
def DemiBande.ech {T C : Type} (zero : T) (add : T → T → T) (mul : T → C → T) (demi : T → T) (s : DemiBande T C) (x : T) :
    Option (DemiBande T C × List T) :=
  if s.K = 0 then none else
  if s.index < s.fen.length then
    let fen := s.fen.set s.index x
    let index := (s.index + 1) % s.K
    if s.odd < 1 then some ({ s with fen := fen, index := index, odd := s.odd + 1 }, [])
    else
      let K1 := s.K - index
      let K2 := s.K - K1
      let n1 := (K1 + 1) / 2
      match macPas add mul 2 2 fen s.coefs n1 index 0 zero with
      | none => none
      | some (s1, ci) =>
        let i := 2 * n1 - K1
        match macPas add mul 2 2 fen s.coefs ((K2 - i + 1) / 2) i ci s1, fen[(index + s.K / 2) % s.K]? with
        | some (s2, _), some m => some ({ s with fen := fen, index := index, odd := 0 }, [add s2 (demi m)])
        | _, _ => none
  else none

/-- `step`, core/src/reechan/polyphase.cc:69-138. -/
def DemiBande.step {T C : Type} (zero : T) (add : T → T → T) (mul : T → C → T) (demi : T → T) : Bloc (DemiBande T C) T T :=
  fun s x =>
  if s.K = 0 then none else
  match boucleL (DemiBande.ech zero add mul demi) s x with
  | none => none
  | some (s', y) => if y.length = (x.length + s.odd) / 2 then some (s', y) else none

/-! ## FIR with interpolation -/

/-- `FiltreRIFUps`, core/src/reechan/polyphase.cc:245-251. -/
structure RifUps (T C : Type) where
  fen : List T
  coefs : List C
  index : Nat
  K : Nat
  R : Nat

/-- Constructor, core/src/reechan/polyphase.cc:254-276; `fois` is the multiplication of a coefficient by `R`.  `K % 0` is undefined. -/
def RifUps.init {T C : Type} (zero : T) (zeroC : C) (fois : C → C) (c : List C) (R : Nat) : Option (RifUps T C) :=
  if R = 0 then none else
  let coefs := c.map fois
  let coefs := if coefs.length % R ≠ 0 then coefs ++ List.replicate (R - coefs.length % R) zeroC else coefs
  if coefs.length % R = 0 then some ⟨List.replicate (coefs.length / R) zero, coefs, 0, coefs.length, R⟩ else none

/-- Branch `i` of the polyphase filter, core/src/reechan/polyphase.cc:308-330. -/
def RifUps.branche {T C : Type} (zero : T) (add : T → T → T) (mul : T → C → T) (fen : List T) (coefs : List C)
    (index K R i : Nat) : Option T :=
  let K1 := K / R - index
  let K2 := K / R - K1
  match macPas add mul 1 R fen coefs K1 index (R - 1 - i) zero with
  | none => none
  | some (s1, ci) =>
    match macPas add mul 1 R fen coefs K2 0 ci s1 with
    | none => none
    | some (s2, _) => some s2

/-- One input sample, R output samples, core/src/reechan/polyphase.cc:286-331. -/
def RifUps.ech {T C : Type} (zero : T) (add : T → T → T) (mul : T → C → T) (s : RifUps T C) (x : T) :
    Option (RifUps T C × List T) :=
  if s.R = 0 ∨ s.K / s.R = 0 then none else
  if s.index < s.fen.length then
    let fen := s.fen.set s.index x
    let index := (s.index + 1) % (s.K / s.R)
    match (List.range s.R).mapM (fun i => RifUps.branche zero add mul fen s.coefs index s.K s.R i) with
    | none => none
    | some ys => some ({ s with fen := fen, index := index }, ys)
  else none

/-- `step`, core/src/reechan/polyphase.cc:277-332. -/
def RifUps.step {T C : Type} (zero : T) (add : T → T → T) (mul : T → C → T) : Bloc (RifUps T C) T T := fun s x =>
  if s.K = 0 then none else boucleL (RifUps.ech zero add mul) s x

/-- `filtre_rif_ups_délais`, core/src/reechan/polyphase.cc:363-369 (twice the delay, to stay in the integers). -/
def delaisUps2 (nc R : Nat) : Nat := (nc - 1) + 2 * (if nc % R ≠ 0 then R - nc % R else 0)

/-! ## Polyphase form -/

/-- A two-dimensional array in column-major order (core/include/tsd/tableau.hpp: element (i, j) is at `i + j * rows`). -/
structure Mat (T : Type) where
  rows : Nat
  cols : Nat
  data : List T

/-- Element (i, j). -/
def Mat.elt {T : Type} (m : Mat T) (i j : Nat) : Option T :=
  if i < m.rows ∧ j < m.cols then m.data[i + j * m.rows]? else none

/-- `forme_polyphase`, core/src/reechan/polyphase.cc:16-40 (`n % M` with `M = 0` is undefined; `reshape` checks the total size). -/
def formePolyphase {T : Type} (zero : T) (x : List T) (M : Nat) : Option (Mat T) :=
  if M = 0 then none else
  if x.length = 0 then some ⟨0, 0, []⟩ else
  let x2 := if x.length % M ≠ 0 then x ++ List.replicate (M - x.length % M) zero else x
  if M * (x2.length / M) = x2.length then some ⟨M, x2.length / M, x2⟩ else none

/-- `iforme_polyphase`, core/src/reechan/polyphase.cc:43-47 (`reshape` to one column keeps the column-major data). -/
def iformePolyphase {T : Type} (m : Mat T) : Option (List T) :=
  if m.cols * m.rows = m.data.length then some m.data else none

/-! ## CIC filters -/

/-- One comb stage, core/src/reechan/cic.cc:57-65 and 77-85: `xp = mem | x`, result `diff(xp)` (of the dimension of `x`). -/
def peigne {A : Type} (sub : A → A → A) (mem : A) (x : List A) : Option (List A) := Util.diff sub (mem :: x)

/-- The `N` comb stages of the decimator, core/src/reechan/cic.cc:55-66; the memory of each stage becomes its last input `xd(n-1)`,
an access at index -1 when `n = 0`. -/
def peignesD {A : Type} (sub : A → A → A) : List A → List A → Option (List A × List A)
  | [], xd => some ([], xd)
  | m :: ms, xd =>
    match Util.acces xd ((xd.length : Int) - 1), peigne sub m xd with
    | some d, some y =>
      match peignesD sub ms y with
      | none => none
      | some (ms', z) => some (d :: ms', z)
    | _, _ => none

/-- Decimation branch of `step`, core/src/reechan/cic.cc:45-69, without the conversions float/integer and the final gain.
State: `mem_diff` (its dimension is the order N; initially zero, :29). -/
def cicDecim {A : Type} (zero : A) (add sub : A → A → A) (R : Nat) : Bloc (List A) A A := fun mem x =>
  match Util.sousech ((Util.cumsum zero add)^[mem.length] x) R with
  | none => none
  | some xd => peignesD sub mem xd

/-- The `N` comb stages of the interpolator, core/src/reechan/cic.cc:75-85: every stage memorises the last sample of the *input* `x`
(`mem_diff(i) = x(n-1)`), not of its own input. -/
def peignesI {A : Type} (sub : A → A → A) (x : List A) : List A → List A → Option (List A × List A)
  | [], xi => some ([], xi)
  | m :: ms, xi =>
    match Util.acces x ((xi.length : Int) - 1), peigne sub m xi with
    | some d, some y =>
      match peignesI sub x ms y with
      | none => none
      | some (ms', z) => some (d :: ms', z)
    | _, _ => none

/-- Interpolation branch of `step`, core/src/reechan/cic.cc:71-100 (zero insertion :88-95 is the loop of `surech`). -/
def cicInterp {A : Type} (zero : A) (add sub : A → A → A) (R : Nat) : Bloc (List A) A A := fun mem x =>
  match peignesI sub x mem x with
  | none => none
  | some (mem', xi) => some (mem', (Util.cumsum zero add)^[mem.length] (Util.surech zero xi R))

end Verif.Reechan
