/-
Model of the design of FIR filters: core/src/filtrage/rif-fen.cc, core/src/filtrage/rif-freq.cc, core/src/filtrage/hilbert.cc and the FIR part of
core/src/filtrage/filtrage.cc.

Exact real arithmetic; the frequencies are real numbers.
-/
import Verif.Conception.Fenetres
import Verif.Divers.Model
import Verif.Itrp.Model
import Verif.Filtre.Model
import Verif.Fourier.Spectre

namespace Verif.Conception

open Verif.Fourier

/-! ### Windowed cardinal sine -/

/-- `coefs_filtre_sinc(n, fc)`; integer divisions.  core/src/filtrage/rif-fen.cc:29-40 -/
noncomputable def coefsSinc (n : ℕ) (fc : ℝ) : List ℝ :=
  (List.range n).map fun i : ℕ =>
    if n % 2 = 1 then Divers.sinc (2 * fc) (((i : ℤ) - (n / 2 : ℕ) : ℤ) : ℝ)
    else Divers.sinc (2 * fc) (((i : ℤ) - ((n - 1) / 2 : ℕ) : ℤ) : ℝ)

/-- `h((n-1)/2)++`.  core/src/filtrage/rif-fen.cc:47, 76, core/src/filtrage/filtrage.cc:85 -/
def incremente (h : List ℝ) (i : ℕ) : Option (List ℝ) :=
  match h[i]? with
  | some v => some (h.set i (v + 1))
  | none => none

/-- `rif_fen_hp(n, fc)`.  core/src/filtrage/rif-fen.cc:43-49 -/
noncomputable def rifHp (n : ℕ) (fc : ℝ) : Option (List ℝ) := incremente ((coefsSinc n fc).map fun v : ℝ => -v) ((n - 1) / 2)

/-- `cos(ωc * intervalle_entier(-no2, no2))`.  core/src/filtrage/rif-fen.cc:65, 74 -/
noncomputable def porteuse (n : ℕ) (ωc : ℝ) : Option (List ℝ) :=
  (Util.intervalleEntier (-((n - 1) / 2 : ℕ)) ((n - 1) / 2 : ℕ)).map fun l => l.map fun k : ℤ => Real.cos (ωc * (k : ℝ))

/-- `rif_fen_pm(n, fl, fh)`; the product fails when the sizes differ.  core/src/filtrage/rif-fen.cc:59-66 -/
noncomputable def rifPm (n : ℕ) (fl fh : ℝ) : Option (List ℝ) :=
  (porteuse n (Real.pi * (fh + fl))).bind fun p => produit ((coefsSinc n ((fh - fl) / 2)).map fun v : ℝ => 2 * v) p

/-- `rif_fen_sb(n, fl, fh)`.  core/src/filtrage/rif-fen.cc:68-77 -/
noncomputable def rifSb (n : ℕ) (fl fh : ℝ) : Option (List ℝ) :=
  (porteuse n (Real.pi * (fh + fl))).bind fun p =>
    (produit ((coefsSinc n ((fh - fl) / 2)).map fun v : ℝ => -v) (p.map fun v : ℝ => 2 * v)).bind fun h => incremente h ((n - 1) / 2)

/-- The prototype chosen by the type.  core/src/filtrage/rif-fen.cc:84-93 -/
noncomputable def prototype (type : String) (n : ℕ) (fc fc2 : ℝ) : Option (List ℝ) :=
  if type = "lp" ∨ type = "pb" then some (coefsSinc n fc)
  else if type = "hp" ∨ type = "ph" then rifHp n fc
  else if type = "bp" ∨ type = "pm" then rifPm n fc fc2
  else if type = "sb" then rifSb n fc fc2
  else none

/-- `design_rif_fen(type, fcut, f, fcut2)`, `f` being the window (its sum is not tested against 0 by the code: a null sum divides by zero; here
the quotient by zero is left to the convention `x/0 = 0`, and the theorems that use it suppose the sum non null).
core/src/filtrage/rif-fen.cc:80-100 -/
noncomputable def rifFenetre (type : String) (fc : ℝ) (f : List ℝ) (fc2 : ℝ) : Option (List ℝ) :=
  (prototype type f.length fc fc2).bind fun h =>
    if h.length = f.length then
      (produit h f).map fun h2 => if type = "lp" then h2.map fun v : ℝ => v / h2.sum else h2
    else none

/-- `design_rif_fen(n, type, fcut, fen, fcut2)`.  core/src/filtrage/rif-fen.cc:103-107 -/
noncomputable def designRifFen (n : ℕ) (type : String) (fc : ℝ) (fen : String) (fc2 : ℝ) : Option (List ℝ) :=
  (fenetreNom fen n true).bind fun f => rifFenetre type fc f fc2

/-- `design_rif_fen_kaiser`.  core/src/filtrage/rif-fen.cc:109-113 -/
noncomputable def designRifKaiser (I0 : ℝ → ℝ) (type : String) (fc A df fc2 : ℝ) : Option (List ℝ) :=
  (kaiser I0 A df true).bind fun f => rifFenetre type fc f fc2

/-- `design_rif_fen_chebychev`.  core/src/filtrage/rif-fen.cc:115-119 -/
noncomputable def designRifChebychev (n : ℕ) (type : String) (fc A fc2 : ℝ) : Option (List ℝ) :=
  (fenChebychev n A true).bind fun f => rifFenetre type fc f fc2

/-! ### Frequency sampling -/

/-- `design_rif_freq_freqs(n)`.  core/src/filtrage/rif-freq.cc:6-10 -/
noncomputable def rifFreqFreqs (n : ℕ) : List ℝ :=
  let m := (n + 1) / 2
  Util.linspace 0 (((m : ℝ) - 1) / (2 * m - 1)) m

/-- Adaptation of the template to the number of coefficients: the couple (number of coefficients, template).
core/src/filtrage/rif-freq.cc:35-51 -/
noncomputable def rifFreqGabarit (Nc : ℕ) (f : List ℝ) : Option (ℤ × List ℝ) :=
  let M : ℤ := f.length
  let Nc : ℤ := if Nc = 0 then 2 * M - 1 else Nc
  if Nc ≠ 2 * M - 1 then
    let Nc := if Nc % 2 = 0 then Nc + 1 else Nc
    let M := ((Nc + 1) / 2).toNat
    (Itrp.interp (Util.linspace 0 (0.5 * (1 - 1 / (f.length : ℝ))) f.length) f (Util.linspace 0 (0.5 * (1 - 1 / (M : ℝ))) M) false).map
      fun F => (Nc, F)
  else some (Nc, f)

/-- From the symmetric spectrum to the coefficients.  core/src/filtrage/rif-freq.cc:55-77 -/
noncomputable def rifFreqCoefs (Nc : ℕ) (F : List ℝ) : Option (List ℝ) := do
  let Hd ← ecrit (List.replicate Nc (0 : ℂ)) 0 (enC F)
  let Hd ← csymForcage trigoC reC Hd
  let h ← ifft trigoC Hd
  let hc ← fftshift 0 h
  if valeurMax (hc.map fun z => |z.im|) < 1e-3 then some (hc.map fun z => z.re / Real.sqrt Nc) else none

/-- `design_rif_freq(Nc, f)`.  core/src/filtrage/rif-freq.cc:33-99 (plots not modelled) -/
noncomputable def designRifFreq (Nc : ℕ) (f : List ℝ) : Option (List ℝ) :=
  (rifFreqGabarit Nc f).bind fun p => if p.1 = 2 * (p.2.length : ℤ) - 1 then rifFreqCoefs p.1.toNat p.2 else none

/-! ### Hilbert -/

/-- Coefficient `k` (from the centre) of the ideal Hilbert transformer.  core/src/filtrage/hilbert.cc:15-19 -/
noncomputable def hilbertIdeal (k : ℤ) : ℝ := if k % 2 = 0 then 0 else 2 / ((k : ℝ) * Real.pi)

/-- `design_rif_hilbert(n, fen)`.  core/src/filtrage/hilbert.cc:8-23 -/
noncomputable def designRifHilbert (n : ℕ) (fen : String) : Option (List ℝ) :=
  if n % 2 = 1 then
    (fenetreNom fen n true).bind fun w => produit ((List.range n).map fun i : ℕ => hilbertIdeal ((i : ℤ) - (n / 2 : ℕ))) w
  else none

/-- State of `HilbertTransformeur`.  core/src/filtrage/hilbert.cc:29-43 -/
structure Hilbert where
  hilbert : Filtre.Rif ℝ ℝ
  retard : Filtre.Retard ℝ

/-- `hilbert_transformeur(ntaps, fenetre)`.  core/src/filtrage/hilbert.cc:33-43 -/
noncomputable def Hilbert.init (ntaps : ℕ) (fen : String) : Option Hilbert :=
  (designRifHilbert ntaps fen).map fun h => { hilbert := Filtre.Rif.init 0 h, retard := Filtre.Retard.init 0 (ntaps / 2) }

/-- `HilbertTransformeur::step`.  core/src/filtrage/hilbert.cc:44-52 -/
noncomputable def Hilbert.step : Filtre.Bloc Hilbert ℝ ℂ := fun s x => do
  let (h, x2) ← Filtre.Rif.step (0 : ℝ) (· + ·) (· * ·) s.hilbert x
  let (r, y2) ← Filtre.Retard.step s.retard x
  if y2.length = x.length ∧ x2.length = x.length then
    some ({ hilbert := h, retard := r }, List.zipWith (fun a b : ℝ => (⟨a, b⟩ : ℂ)) y2 x2)
  else none

/-- `hilbert_tfd(x)`: direct transform (`fft` of a real vector: `rfft`), last `n/2` coefficients cleared, inverse transform of twice the result.
core/src/filtrage/hilbert.cc:63-73 -/
noncomputable def hilbertTfd (x : List ℝ) : Option (List ℂ) := do
  let X ← rfft trigoC reC Complex.I (enC x)
  let X ← ecritQueue X (List.replicate (x.length / 2) 0)
  ifft trigoC (X.map fun z => 2 * z)

/-! ### FIR transformations -/

/-- `design_rif_prod(h1, h2)`: `h2`, followed by `n1 - 1` zeros, filtered by `h1` (a negative size fails).
core/src/filtrage/filtrage.cc:47-52 -/
noncomputable def rifProd (h1 h2 : List ℝ) : Option (List ℝ) :=
  if h1.length = 0 then none
  else (Filtre.Rif.step (0 : ℝ) (· + ·) (· * ·) (Filtre.Rif.init 0 h1) (h2 ++ List.replicate (h1.length - 1) 0)).map Prod.snd

/-- `isApprox` of Eigen: `‖a - b‖² ≤ tol² min(‖a‖², ‖b‖²)`.  core/src/tableau.cc:1135-1152 -/
noncomputable def estApprox (a b : List ℝ) (tol : ℝ) : Bool :=
  let n2 := fun l : List ℝ => (l.map fun v : ℝ => v * v).sum
  decide (n2 (List.zipWith (fun u v : ℝ => u - v) a b) ≤ tol * tol * min (n2 a) (n2 b))

/-- `type_rif(h)`.  core/src/filtrage/filtre-analyse.cc:32-42 -/
noncomputable def typeRif (h : List ℝ) : ℤ :=
  if estApprox h.reverse h 1e-5 then (if h.length % 2 = 1 then 1 else 2)
  else if estApprox h.reverse (h.map fun v : ℝ => -v) 1e-5 then (if h.length % 2 = 1 then 3 else 4)
  else -1

/-- `design_rif_pb2ph_rs(h)`.  core/src/filtrage/filtrage.cc:54-77 -/
noncomputable def pb2phRs (h : List ℝ) : Option (List ℝ) :=
  if typeRif h = 1 then some (h.mapIdx fun k v => if k % 2 = 1 then -v else v) else none

/-- `design_rif_pb2ph_is(h)`.  core/src/filtrage/filtrage.cc:79-87 -/
noncomputable def pb2phIs (h : List ℝ) : Option (List ℝ) :=
  if typeRif h = 1 then incremente (h.map fun v : ℝ => -v) ((h.length - 1) / 2) else none

/-- `design_rif_pb2pb(h)`, core/src/filtrage/filtrage.cc:88-97 -/
def pb2pb (h : List ℝ) : List ℝ := h

/-- `design_rif_pb2pm(h)`, core/src/filtrage/filtrage.cc:98-108 -/
def pb2pm (h : List ℝ) : List ℝ := h

/-- `design_rif_diff(n, centré)`.  core/src/filtrage/filtrage.cc:14-45 -/
noncomputable def rifDiff (n : ℕ) (centre : Bool) : Option (List ℝ) :=
  if n < 2 then none
  else if n = 2 then some [-1, 1]
  else some ((List.range n).map fun i : ℕ =>
    let k : ℤ := (i : ℤ) - (n / 2 : ℕ)
    if centre then (if k = 0 then 0 else (if k % 2 = 0 then 1 else -1) / (k : ℝ))
    else (if (k + 1) % 2 = 0 then 1 else -1) / (Real.pi * (0.5 + (k : ℝ)) * (0.5 + (k : ℝ))))

end Verif.Conception
