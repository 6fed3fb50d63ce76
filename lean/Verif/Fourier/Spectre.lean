/-
Model of the spectrum estimators: `psd_welch` (core/src/fourier/freqestim.cc), real-time spectrum (core/src/fourier/fourier.cc).

Exact arithmetic.  The spectra are the linear ones: the final conversion to decibels (`pow2db`, plus the smallest float for `Spectrum`) is
not modelled.  A failed assertion, a segment outside a vector or a division by zero is `none`.
-/
import Verif.Fourier.Estim

namespace Verif.Fourier

/-- `fftshift(X)`.  core/include/tsd/fourier.hpp:232-248 -/
def fftshift {T : Type} (z : T) (X : List T) : Option (List T) := do
  let n := X.length
  let res := List.replicate n z
  if n % 2 = 0 then
    let h ← segment X 0 (n / 2)
    let res ← ecritQueue res h
    let t ← queue X (n / 2)
    ecrit res 0 t
  else
    let h ← segment X 0 (1 + n / 2)
    let res ← ecritQueue res h
    let t ← queue X (n / 2)
    ecrit res 0 t

/-- `abs2(X)`. -/
noncomputable def abs2 (X : List ℂ) : List ℝ := X.map fun v => ‖v‖ ^ 2

/-- Element-wise product of a complex vector and a window. -/
noncomputable def fenetrage (x : List ℂ) (f : List ℝ) : Option (List ℂ) := produit x (f.map fun v : ℝ => (v : ℂ))

/-- `y.segment(i0, v.rows()) += v`. -/
noncomputable def ajoute (y : List ℝ) (i0 : ℕ) (v : List ℝ) : Option (List ℝ) := do
  let s ← segment y i0 v.length
  ecrit y i0 (List.zipWith (· + ·) s v)

/-! ### Welch -/

/-- Body of the loop of `psd_welch`: `S += fftshift(abs2(fft(x.segment(i, N) * f)))`.  core/src/fourier/freqestim.cc:15-16 -/
noncomputable def welchSegment (x : List ℂ) (f : List ℝ) (N i : ℕ) (S : List ℝ) : Option (List ℝ) := do
  let s ← segment x i N
  let xp ← fenetrage s f
  let X ← fft trigoC xp
  let p ← fftshift 0 (abs2 X)
  somme S p

/-- `for(i = 0; i + N < x.rows(); i += N/2)`, at most `c` iterations: `none` when they do not suffice.
core/src/fourier/freqestim.cc:13-17 -/
noncomputable def welchBoucle (x : List ℂ) (f : List ℝ) (N : ℕ) : ℕ → ℕ → List ℝ → Option (List ℝ)
  | 0, _, _ => none
  | c + 1, i, S =>
    if i + N < x.length then
      match welchSegment x f N i S with
      | none => none
      | some S => welchBoucle x f N c (i + N / 2) S
    else some S

/-- `psd_welch(x, N, fen)`, `f` being the window of `N` points, with at most `c` iterations.  core/src/fourier/freqestim.cc:7-20 -/
noncomputable def psdWelch (c : ℕ) (x : List ℂ) (N : ℕ) (f : List ℝ) : Option (List ℚ × List ℝ) := do
  let S ← welchBoucle x f N c 0 (List.replicate N 0)
  some (psdFreqs N true, S)

/-! ### Real-time spectrum -/

/-- `SpectrumConfig` (`fen`: the window of `Nf` points).  core/include/tsd/fourier.hpp:909-948 -/
structure SpectreConfig where
  BS : ℕ
  nmeans : ℕ
  nsubs : ℕ
  balayage : Bool
  pas : ℕ
  masqueBf : ℕ
  masqueHf : ℕ
  fen : List ℝ

/-- `struct Spectrum`.  core/src/fourier/fourier.cc:1162-1172 -/
structure Spectre where
  config : SpectreConfig
  plan : Plan ℂ
  f : List ℝ
  magMoy : List ℝ
  magCnt : List ℝ
  masque : List ℝ
  cnt : ℕ
  Nf : ℕ
  Ns : ℕ

/-- The mask.  core/src/fourier/fourier.cc:1181-1188 -/
noncomputable def spectreMasque (Nf bf hf : ℕ) : Option (List ℝ) := do
  let m := List.replicate Nf (1 : ℝ)
  let m ← if 0 < hf then ecrit m 0 (List.replicate hf 0) else some m
  let m ← if 0 < hf then ecritQueue m (List.replicate hf 0) else some m
  if 0 < bf then
    if bf ≤ Nf / 2 then ecrit m (Nf / 2 - bf) (List.replicate (2 * bf) 0) else none
  else some m

/-- The counters of the sweep: `for(i < nsubs) mag_cnt.segment(i * step, Nf) += masque`.  core/src/fourier/fourier.cc:1193-1195 -/
noncomputable def spectreCnt (pas : ℕ) (masque : List ℝ) : ℕ → List ℝ → Option (List ℝ)
  | 0, m => some m
  | i + 1, m => do
    let m ← spectreCnt pas masque i m
    ajoute m (i * pas) masque

/-- Normalised window.  core/src/fourier/fourier.cc:1206 -/
noncomputable def normalise (f : List ℝ) : List ℝ :=
  f.map fun v => Real.sqrt ((f.length : ℝ) / (f.map fun v => v ^ 2).sum) * v

/-- `configure_impl` (the window is not null; `fen.length = BS / nsubs`; the check of the norm only prints a message).
core/src/fourier/fourier.cc:1174-1230 -/
noncomputable def Spectre.configure (c : SpectreConfig) : Option Spectre := do
  if c.nsubs = 0 then none
  else
    let Nf := c.BS / c.nsubs
    let masque ← spectreMasque Nf c.masqueBf c.masqueHf
    let Ns := if c.balayage then Nf + (c.nsubs - 1) * c.pas else Nf
    let magCnt ← if c.balayage then (spectreCnt c.pas masque c.nsubs (List.replicate Ns 0)).map fun m => m.map (max 1) else some []
    some
      { config := c
        plan := Plan.neuf.configure trigoC Nf true
        f := normalise c.fen
        magMoy := List.replicate Ns 0
        magCnt := magCnt
        masque := masque
        cnt := 0
        Nf := Nf
        Ns := Ns }

/-- The sub-spectra: `yft[i] = fftshift(abs2(plan->step(x.segment(i * Nf, Nf) * f)))`, from `i` on, `c` left.
core/src/fourier/fourier.cc:1252-1256 -/
noncomputable def sousSpectres (x : List ℂ) (f : List ℝ) (Nf : ℕ) : ℕ → ℕ → Plan ℂ → Option (Plan ℂ × List (List ℝ))
  | 0, _, p => some (p, [])
  | c + 1, i, p =>
    match segment x (i * Nf) Nf with
    | none => none
    | some s =>
      match fenetrage s f with
      | none => none
      | some xf =>
        match p.stepDefaut trigoC xf with
        | none => none
        | some (p, X) =>
          match fftshift 0 (abs2 X), sousSpectres x f Nf c (i + 1) p with
          | some y, some (p, l) => some (p, y :: l)
          | _, _ => none

/-- Accumulation with sweep: `mag_moy.segment(i * step, Nf) += yft[i] * masque`.  core/src/fourier/fourier.cc:1263-1264 -/
noncomputable def cumulBalayage (pas : ℕ) (masque : List ℝ) : ℕ → List (List ℝ) → List ℝ → Option (List ℝ)
  | _, [], m => some m
  | i, y :: l, m =>
    match (produit y masque).bind (ajoute m (i * pas)) with
    | none => none
    | some m => cumulBalayage pas masque (i + 1) l m

/-- Accumulation without sweep: `mag_moy += yft[i]`.  core/src/fourier/fourier.cc:1268-1269 -/
noncomputable def cumulDirect : List (List ℝ) → List ℝ → Option (List ℝ)
  | [], m => some m
  | y :: l, m =>
    match somme m y with
    | none => none
    | some m => cumulDirect l m

/-- The accumulated spectrum after a block.  core/src/fourier/fourier.cc:1245-1277 -/
noncomputable def Spectre.cumul (s : Spectre) (x : List ℂ) : Option (Plan ℂ × List ℝ) :=
  if 1 < s.config.nsubs then
    match sousSpectres x s.f s.Nf s.config.nsubs 0 s.plan with
    | none => none
    | some (p, l) =>
      (if s.config.balayage then cumulBalayage s.config.pas s.masque 0 l s.magMoy else cumulDirect l s.magMoy).map fun m => (p, m)
  else
    match fenetrage x s.f with
    | none => none
    | some xf =>
      match s.plan.step trigoC xf true with
      | none => none
      | some (p, X) => ((fftshift 0 (abs2 X)).bind (somme s.magMoy)).map fun m => (p, m)

/-- `step(x, y)` (`y` linear).  core/src/fourier/fourier.cc:1233-1334 -/
noncomputable def Spectre.step (s : Spectre) (x : List ℂ) : Option (Spectre × List ℝ) :=
  if x.length ≠ s.config.BS then none
  else
    match s.cumul x with
    | none => none
    | some (p, m) =>
      if s.cnt + 1 = s.config.nmeans then
        let m := m.map fun v : ℝ => v / ((s.config.nmeans * s.config.nsubs * s.Nf : ℕ) : ℝ)
        if s.config.balayage then
          if m.length = s.magCnt.length then
            some ({ s with plan := p, magMoy := List.replicate s.Ns 0, cnt := 0 }, List.zipWith (· / ·) m s.magCnt)
          else none
        else some ({ s with plan := p, magMoy := List.replicate s.Ns 0, cnt := 0 }, m)
      else some ({ s with plan := p, magMoy := m, cnt := s.cnt + 1 }, [])

/-- Successive calls. -/
noncomputable def Spectre.flux : Spectre → List (List ℂ) → Option (Spectre × List (List ℝ))
  | s, [] => some (s, [])
  | s, x :: xs =>
    match s.step x with
    | none => none
    | some (s, y) =>
      match s.flux xs with
      | none => none
      | some (s, ys) => some (s, y :: ys)

end Verif.Fourier
