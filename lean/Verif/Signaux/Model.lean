/-
Model of the signal generators and oscillators: core/src/tsd.cc:179-297, 545-640.

Real and complex numbers are exact (no floating point rounding): the renormalisations `/= abs(...)`
of the code are kept. Integer divisions and remainders are those of C++ (operands are
non-negative, so they coincide with those of `ℕ`); a null divisor is undefined behaviour (`none`).
-/
import Mathlib.Analysis.SpecialFunctions.Trigonometric.Basic
import Mathlib.Analysis.SpecialFunctions.Log.Basic
import Verif.Util.Model

namespace Verif.Signaux

open Complex

/-! ### Harmonic oscillators -/

/-- State of `OHC`.  core/src/tsd.cc:584-588 -/
structure OHC where
  acc : ℂ
  rotation : ℂ

/-- Default values.  core/src/tsd.cc:586-588 -/
noncomputable def OHC.init : OHC := ⟨1, 1⟩

/-- `configure_impl`.  core/src/tsd.cc:597-601 -/
noncomputable def OHC.configure (s : OHC) (freq : ℝ) : OHC :=
  { s with rotation := exp (I * (2 * Real.pi * freq)) }

/-- The loop of `step`.  core/src/tsd.cc:609-613 -/
noncomputable def OHC.boucle (rotation : ℂ) : ℕ → ℂ → ℂ × List ℂ
  | 0, acc => (acc, [])
  | n + 1, acc => let r := OHC.boucle rotation n (acc * rotation); (r.1, acc :: r.2)

/-- `step(n)`.  core/src/tsd.cc:603-615 -/
noncomputable def OHC.step (s : OHC) (n : ℕ) : OHC × List ℂ :=
  let r := OHC.boucle s.rotation n (s.acc / (‖s.acc‖ : ℂ))
  ({ s with acc := r.1 }, r.2)

/-- What a user does with an oscillator: change its frequency or ask for samples. -/
inductive Commande where
  | configure (freq : ℝ)
  | step (n : ℕ)

/-- A sequence of commands; the samples produced, in order. -/
noncomputable def OHC.joue : OHC → List Commande → List ℂ
  | _, [] => []
  | s, .configure f :: l => OHC.joue (s.configure f) l
  | s, .step n :: l => (s.step n).2 ++ OHC.joue (s.step n).1 l

/-- `source_ohc(freq)`, then commands.  core/src/tsd.cc:592-595, 646-649 -/
noncomputable def sourceOhc (freq : ℝ) (l : List Commande) : List ℂ := (OHC.init.configure freq).joue l

/-- `source_ohr(freq)`, then commands.  core/src/tsd.cc:619-637, 641-644 -/
noncomputable def sourceOhr (freq : ℝ) (l : List Commande) : List ℝ := (sourceOhc freq l).map Complex.re

/-! ### `sigexp`, `sigsin`, `sigcos` -/

/-- Inner loop of `sigexp`: at most `j` samples, among the `n` still to be produced.
core/src/tsd.cc:226-230 -/
noncomputable def sigexpInterne (w0 : ℂ) : ℕ → ℕ → ℂ → ℂ × ℕ × List ℂ
  | 0, n, r => (r, n, [])
  | _ + 1, 0, r => (r, 0, [])
  | j + 1, n + 1, r =>
    let q := sigexpInterne w0 j n (r * w0)
    (q.1, q.2.1, r :: q.2.2)

/-- Outer loop (the first argument bounds the number of turns).  core/src/tsd.cc:224-233 -/
noncomputable def sigexpExterne (w0 : ℂ) : ℕ → ℕ → ℂ → Option (List ℂ)
  | _, 0, _ => some []
  | 0, _ + 1, _ => none
  | k + 1, n + 1, r =>
    let q := sigexpInterne w0 1000 (n + 1) r
    match sigexpExterne w0 k q.2.1 (q.1 / (‖q.1‖ : ℂ)) with
    | some l => some (q.2.2 ++ l)
    | none => none

/-- `sigexp(f, n)`; `none` would mean that the loop does not end within `n` turns.
core/src/tsd.cc:217-235 -/
noncomputable def sigexp (f : ℝ) (n : ℕ) : Option (List ℂ) :=
  sigexpExterne (exp ((f * 2 * Real.pi : ℝ) * I)) n n 1

/-- `sigsin(f, n)`.  core/src/tsd.cc:237-240 -/
noncomputable def sigsin (f : ℝ) (n : ℕ) : Option (List ℝ) := (sigexp f n).map (·.map Complex.im)

/-- `sigcos(f, n)`.  core/src/tsd.cc:242-245 -/
noncomputable def sigcos (f : ℝ) (n : ℕ) : Option (List ℝ) := (sigexp f n).map (·.map Complex.re)

/-! ### Periodic signals -/

/-- `sigscie(p, n)`: `none` for the division by zero of the period (0 : remainder, 1 : not a number).
core/src/tsd.cc:179-183 -/
def sigscie (p n : ℕ) : Option (List ℚ) :=
  if n = 0 then some []
  else if p ≤ 1 then none
  else some ((List.range n).map fun i => ((i % p : ℕ) - (((p : ℚ) - 1) * (1 / 2))) / ((1 / 2) * ((p : ℚ) - 1)))

/-- One sample of `sigtri`.  core/src/tsd.cc:190-196 -/
def sigtriUn (p i : ℕ) : ℚ :=
  let j := i % p
  let x : ℚ := if j < p / 2 then (j : ℚ) else (p : ℚ) - j
  4 * ((x - (1 / 2) * ((p / 2 : ℕ) : ℚ)) / p)

/-- `sigtri(p, n)`.  core/src/tsd.cc:185-199 -/
def sigtri (p n : ℕ) : Option (List ℚ) :=
  if n = 0 then some [] else if p = 0 then none else some ((List.range n).map (sigtriUn p))

/-- `sigcar(p, n)`: division by `p/2`.  core/src/tsd.cc:201-205 -/
def sigcar (p n : ℕ) : Option (List ℚ) :=
  if n = 0 then some [] else if p / 2 = 0 then none
  else some ((List.range n).map fun i => 2 * (((i / (p / 2) % 2 : ℕ) : ℚ) - 1 / 2))

/-- `sigimp(n, p)`: `none` if the assertion fails.  core/src/tsd.cc:207-213 -/
def sigimp (n : ℕ) (p : ℤ) : Option (List ℚ) :=
  if 0 ≤ p ∧ p < n then some ((List.replicate n 0).set p.toNat 1) else none

/-- The loop of `signyquist` (by pairs), then the last sample.  core/src/tsd.cc:247-258 -/
def signyquist : ℕ → List ℚ
  | 0 => []
  | 1 => [-1]
  | n + 2 => -1 :: 1 :: signyquist n

/-- The frequencies of `sigchirp`.  core/src/tsd.cc:263-269 -/
noncomputable def freqChirp (f0 f1 : ℝ) (n : ℕ) (mode : Char) : Option (List ℝ) :=
  if mode = 'l' then some (Util.linspace f0 f1 n)
  else if mode = 'q' then some ((Util.linspace 0 1 n).map fun t => f0 + (f1 - f0) * (t * t))
  else none

/-- `sigchirp(f0, f1, n, mode)`: `none` if the mode is refused.  core/src/tsd.cc:261-272 -/
noncomputable def sigchirp (f0 f1 : ℝ) (n : ℕ) (mode : Char) : Option (List ℝ) :=
  (freqChirp f0 f1 n mode).map fun f =>
    (Util.cumsum 0 (· + ·) f).map fun s => Real.cos (2 * Real.pi * s)

/-- The time scale of `siggauss` and `siggsin`.  core/src/tsd.cc:276, 283 -/
noncomputable def tempsGauss (n : ℕ) : List ℝ :=
  (Util.linspace 0 ((n : ℝ) - 1) n).map fun k => (k - n / 2) / (n / 2)

/-- `siggauss(n, a)`.  core/src/tsd.cc:274-278 -/
noncomputable def siggauss (n : ℕ) (a : ℝ) : List ℝ := (tempsGauss n).map fun t => Real.exp (-a * t * t)

/-- `siggsin(f, n, a)`.  core/src/tsd.cc:280-285 -/
noncomputable def siggsin (f : ℝ) (n : ℕ) (a : ℝ) : Option (List ℝ) :=
  (sigsin f n).map fun x => List.zipWith (fun s t => s * Real.exp (-a * t * t)) x (tempsGauss n)

/-! ### `prochaine_puissance_de_2` -/

/-- `prochaine_puissance_de_2(i)`, exact arithmetic.  core/src/tsd.cc:287-291 -/
noncomputable def prochainePuissanceDe2 (i : ℕ) : ℕ := 2 ^ (⌈Real.log i / Real.log 2⌉₊)

/-- Conversion `entier` → `float` of a non-negative integer: 24 significant bits, rounding to the
nearest, ties to even.  core/src/tsd.cc:289 -/
def versFloat (i : ℕ) : ℕ :=
  let q := 2 ^ (i.log2 - 23)
  let d := i / q
  let r := i % q
  q * (if 2 * r > q ∨ (2 * r = q ∧ d % 2 = 1) then d + 1 else d)

/-- `prochaine_puissance_de_2(i)` with its conversion to `float`, whatever the logarithms of the
library give afterwards (`lg2`).  core/src/tsd.cc:287-291 -/
def prochainePuissanceDe2F (lg2 : ℕ → ℕ) (i : ℕ) : ℕ := 2 ^ lg2 (versFloat i)

/-! ### Table oscillator -/

/-- The table of `OLUT`.  core/src/tsd.cc:552-557 -/
noncomputable def olutTable (N : ℕ) : List ℂ :=
  (Util.linspace (0 : ℝ) (2 * Real.pi * (1 - 1 / N)) N).map fun θ : ℝ => exp ((θ : ℂ) * I)

/-- `OLUT::step(θ)`; `none` if an assertion or a division by zero fails.
core/src/tsd.cc:558-569 -/
noncomputable def olut (N : ℕ) (θ0 : ℝ) : Option ℂ :=
  let θ := Util.modulo2π id Real.pi θ0
  if 0 ≤ θ ∧ θ < 2 * Real.pi then
    let idf := θ * N / (2 * Real.pi)
    let idi : ℤ := ⌊idf⌋
    let f : ℝ := idf - idi
    if 0 ≤ idi ∧ idi < N then
      match (olutTable N)[idi.toNat]?, (olutTable N)[(idi.toNat + 1) % N]? with
      | some a, some b => some (a * (1 - f : ℝ) + b * (f : ℝ))
      | _, _ => none
    else none
  else none

end Verif.Signaux
