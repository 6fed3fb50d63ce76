# Formal model of tsdconseil/libtsd — design

(The tables are regenerated by `tools/design.py` from the Lean sources, `properties.jsonl` and `MANIFEST.json`.)

## Approach
Lean 4 model under `lean/Verif/`. For each area there are three kinds of file:
* `Model`: executable (or noncomputable, when real numbers are involved) definitions transcribed function by function
  from `/repo/core`, each with a comment citing file and lines and every simplification;
* `Lemmas` / `Spec`: helper lemmas (not part of the claims) and small independent specifications;
* `Props`: the property theorems (`Cnn_...`), and next to each theorem an `example` showing that a concrete
  non-trivial case meets its hypotheses.

Conventions
* C++ `entier` (int) is `Nat`/`Int` (unbounded) unless the property is about wrap-around, in which case `BitVec` or an
  explicit modulus is used; sizes are supposed to fit the memory.
* A thrown exception (`échec`, `assertion`, `msg_erreur` with the default logger) or an undefined behaviour (out-of-bounds
  access, division of integers by zero) is `Except.error` / `none`, so "the call succeeds" is part of the statements.
* An endless loop is modelled by a fuel-indexed function that never returns whatever the fuel, or by an explicit
  non-termination statement.
* Floating point: streaming blocks are modelled over an *arbitrary* carrier with uninterpreted operations in the very
  evaluation order of the code when the property needs no algebra (so it applies to IEEE floats bit for bit);
  algebraic refinements (convolution, DFT, ...) are over a commutative ring / field, ℝ or ℂ, i.e. exact arithmetic.
  Where rounding decides (C15, C16, C34, C65) binary64/binary32 rounding is modelled (`Binary64.lean`).
* Naming: `Cnn_x` proved claim; `Cnn_x_partial` a claim proved on part of its domain; `Cnn_x_refute` the negation of the
  claim with a concrete witness, when the code does not satisfy it (the claim is then kept in `properties.jsonl` and its
  status is partial); other theorems are auxiliary.

How the theorems were tested: `tools/mutate.py` applies realistic wrong edits to the model definitions in a scratch copy,
rebuilds, and records which theorems fail (`seeded/LOG.jsonl`).
