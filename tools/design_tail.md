## What is not modelled
* Rounding of float arithmetic outside the properties named above; NaN and infinities; denormals.
* Graphics (`vue/*`), GUI, plots, logging, command-line applications (`apps/*`), tests, examples, Eigen internals, the
  STL, files and devices other than the byte content of WAV files.
* Allocation failures, `int` overflow of sizes, and data races (the library has no shared-state concurrency besides the plots).
* Source files not listed in the table above.

## Trusted base
* Lean 4.33.0 kernel (and Mathlib as a library of kernel-checked proofs).
* Axioms: at most `propext`, `Classical.choice`, `Quot.sound`. `tools/axioms.py` prints the axioms of each theorem of the
  manifest; last run: see the counts below. No axiom is added, no compiled evaluation is used (`decide` and `rfl`-style
  evaluation run in the kernel).
* The faithfulness of the hand transcription of the C++ into Lean (each definition cites the lines it models), including
  the semantics given to C++ constructs and to the macro keywords of the library (`si`, `pour`, `soit`, ...).
* The English reading of the specifications.

Axiom counts over the 1230 manifest theorems (run of `tools/axioms.py`): none 11; `propext` 43; `propext, Quot.sound` 57;
`propext, Classical.choice, Quot.sound` 1119.
