/-!
# Model of the packet buffer `TamponNv2` (core/src/tsd.cc:307-371)

The sequence of callback invocations is modelled as the list of the vectors passed to the callback (contents at the time
of the call).  `none` is an exception of `segment` (out of bounds), or a loop that does not terminate (`N = 0`).
The packet size is a natural number (the C++ `entier` is assumed non-negative).
-/

namespace Verif.Tampon

/-- Members, core/src/tsd.cc:309-311. -/
structure Tampon (T : Type) where
  N : Nat
  windex : Nat
  tampon : List T

/-- `configure_impl`, core/src/tsd.cc:319-324: the storage is neither allocated nor resized here. -/
def Tampon.configure {T : Type} (s : Tampon T) (N : Nat) : Tampon T := { s with N := N, windex := 0 }

/-- Constructor, core/src/tsd.cc:313-317. -/
def Tampon.init {T : Type} (N : Nat) : Tampon T := (⟨0, 0, []⟩ : Tampon T).configure N

/-- Copy loop, core/src/tsd.cc:345-369.  `i` is the read index; one unit of fuel per iteration. -/
def Tampon.copie {T : Type} (x : List T) : Nat → Nat → Tampon T → Option (Tampon T × List (List T))
  | 0, _, _ => none
  | fuel + 1, i, s =>
    if i < x.length then
      let w := s.windex + x.length - i
      let w := if w ≥ s.N then s.N else w
      let nech := w - s.windex
      if s.windex + nech ≤ s.tampon.length ∧ i + nech ≤ x.length then
        let buf := s.tampon.take s.windex ++ (x.drop i).take nech ++ s.tampon.drop (s.windex + nech)
        if w = s.N then
          match Tampon.copie x fuel (i + nech) { s with windex := 0, tampon := buf } with
          | none => none
          | some (s', p) => some (s', buf :: p)
        else Tampon.copie x fuel (i + nech) { s with windex := w, tampon := buf }
      else none
    else some (s, [])

/-- `step`, core/src/tsd.cc:331-370; `zero` fills a newly allocated buffer (its contents are never observed before being
written).  `2 * n + 2` iterations suffice whenever the loop terminates. -/
def Tampon.step {T : Type} (zero : T) (s : Tampon T) (x : List T) : Option (Tampon T × List (List T)) :=
  if s.windex = 0 ∧ x.length = s.N then some (s, [x])
  else
    let s := if s.tampon.length = 0 ∧ 0 < s.N then { s with tampon := List.replicate s.N zero } else s
    Tampon.copie x (2 * x.length + 2) 0 s

/-- Successive calls to `step`: final state and all the packets delivered, in order. -/
def Tampon.flux {T : Type} (zero : T) : Tampon T → List (List T) → Option (Tampon T × List (List T))
  | s, [] => some (s, [])
  | s, x :: xs =>
    match Tampon.step zero s x with
    | none => none
    | some (s', p) =>
      match Tampon.flux zero s' xs with
      | none => none
      | some (s'', q) => some (s'', p ++ q)

end Verif.Tampon
