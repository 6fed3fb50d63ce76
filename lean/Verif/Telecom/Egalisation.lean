import Verif.Telecom.Formes

/-!
# Model of the equalisers (core/src/telecom/egalisation.cc)

Exact real arithmetic instead of `float`. The shift of the windows is a copy between two overlapping views of the same array (`memcpy`, core/src/tableau.cc:1060): the
model gives it the meaning of a copy that tolerates overlapping.
-/

namespace Verif.Telecom

/-- `EgaliseurRIF`, core/src/telecom/egalisation.cc:29-49. -/
structure Egaliseur where
  dfe : Bool
  cma : Bool
  K : ℤ
  α : ℝ
  avant : List ℝ
  arriere : List ℝ
  wnd : List ℂ
  deci : List ℂ
  cnt : ℤ

/-- The constructor, core/src/telecom/egalisation.cc:52-98: the names are compared in upper case; the forward filter is the identity. Without taps the windows cannot be shifted (`none`
here, at the first sample in the code). -/
noncomputable def Egaliseur.cree (structur errf : List Char) (K : ℤ) (α : ℝ) (N1 N2 : ℕ) : Option Egaliseur :=
  if errf.map Char.toUpper ≠ ['C', 'M', 'A'] ∧ errf.map Char.toUpper ≠ ['D', 'E', 'C'] then none
  else if structur.map Char.toUpper ≠ ['F', 'F', 'E'] ∧ structur.map Char.toUpper ≠ ['D', 'F', 'E'] then none
  else
    let dfe := structur.map Char.toUpper ≠ ['F', 'F', 'E']
    if N1 = 0 ∨ (dfe ∧ N2 = 0) then none
    else some
      { dfe := dfe
        cma := errf.map Char.toUpper ≠ ['D', 'E', 'C']
        K := K
        α := α
        avant := List.replicate (N1 - 1) 0 ++ [1]
        arriere := if dfe then List.replicate N2 0 else []
        wnd := List.replicate N1 0
        deci := if dfe then List.replicate N2 0 else []
        cnt := 0 }

/-- Shift of a window, core/src/telecom/egalisation.cc:116-117, 163-164. -/
def decale (w : List ℂ) (x : ℂ) : List ℂ := w.drop 1 ++ [x]

/-- `(h * w).somme()`, core/src/telecom/egalisation.cc:126, 131. -/
noncomputable def produit (h : List ℝ) (w : List ℂ) : ℂ := (List.zipWith (fun (a : ℝ) (z : ℂ) => (a : ℂ) * z) h w).sum

/-- `h += μ * real(w * conj(c))`, core/src/telecom/egalisation.cc:144, 146, 152, 154. -/
noncomputable def miseAJour (μ : ℝ) (h : List ℝ) (w : List ℂ) (c : ℂ) : List ℝ :=
  List.zipWith (fun (a : ℝ) (z : ℂ) => a + μ * (z * (starRingEnd ℂ) c).re) h w

/-- Feedback of the decisions, core/src/telecom/egalisation.cc:127-133. -/
noncomputable def Egaliseur.retroaction (s : Egaliseur) : ℂ := if s.dfe then produit s.arriere s.deci else 0

/-- Output of the equaliser, core/src/telecom/egalisation.cc:126-133. -/
noncomputable def Egaliseur.sortie (s : Egaliseur) : ℂ := produit s.avant s.wnd + s.retroaction

/-- Computation of one symbol, after the shift of the window, core/src/telecom/egalisation.cc:126-166; `dec` is the nearest symbol of the waveform. Output and error. -/
noncomputable def Egaliseur.calcul (dec : ℂ → Option ℂ) (s : Egaliseur) : Option (Egaliseur × (ℂ × ℝ)) :=
  let y := s.sortie
  (if !s.cma || s.dfe then dec y else some 0).map fun d : ℂ =>
    let deci := if s.dfe then decale s.deci d else s.deci
    if s.cma then
      let e := 1 - ‖y‖ ^ 2
      ({ s with
          avant := miseAJour (s.α * e) s.avant s.wnd y
          arriere := if s.dfe then miseAJour (s.α * e) s.arriere s.deci s.retroaction else s.arriere
          deci := deci }, (y, e))
    else
      let ec := d - y
      ({ s with
          avant := miseAJour s.α s.avant s.wnd ec
          arriere := if s.dfe then miseAJour s.α s.arriere s.deci ec else s.arriere
          deci := deci }, (y, ‖ec‖))

/-- One sample, core/src/telecom/egalisation.cc:116-166. -/
noncomputable def Egaliseur.pas (dec : ℂ → Option ℂ) (s : Egaliseur) (x : ℂ) : Option (Egaliseur × List (ℂ × ℝ)) :=
  let s1 := { s with wnd := decale s.wnd x }
  if 1 < s.K then
    let s2 := { s1 with cnt := (s.cnt + 1) % s.K }
    if s2.cnt ≠ 0 then some (s2, []) else (s2.calcul dec).map fun r : Egaliseur × (ℂ × ℝ) => (r.1, [r.2])
  else (s1.calcul dec).map fun r : Egaliseur × (ℂ × ℝ) => (r.1, [r.2])

/-- `step_interne`, core/src/telecom/egalisation.cc:108-171: outputs and errors. -/
noncomputable def Egaliseur.step (dec : ℂ → Option ℂ) (s : Egaliseur) : List ℂ → Option (Egaliseur × List (ℂ × ℝ))
  | [] => some (s, [])
  | x :: l => (s.pas dec x).bind fun r : Egaliseur × List (ℂ × ℝ) => (Egaliseur.step dec r.1 l).map fun q : Egaliseur × List (ℂ × ℝ) => (q.1, r.2 ++ q.2)

/-- `fo->lis_symbole(fo->symbole_plus_proche(z))`, core/src/telecom/egalisation.cc:139, for the symbols `symbs` and the decision `d`. -/
noncomputable def decision (symbs : List (ℝ × ℝ)) (d : ℝ × ℝ → Option ℕ) (z : ℂ) : Option ℂ :=
  (d (z.re, z.im)).bind fun i => (symbs[i]?).map fun s => (⟨s.1, s.2⟩ : ℂ)

/-! ## Zero-forcing equaliser -/

/-- Element of a vector at an integer index; outside: undefined behaviour (`none`). -/
def lit (h : List ℝ) (i : ℤ) : Option ℝ := if 0 ≤ i then h[i.toNat]? else none

/-- Element `(i, k)` of the matrix, of `égaliseur_zfe_matrice(h, n)`, core/src/telecom/egalisation.cc:184-212, as the last assignment of this element by the three loops (0 if none). -/
def zfeElement (h : List ℝ) (n : ℕ) (i k : ℤ) : Option ℝ :=
  let m : ℤ := h.length
  let n : ℤ := n
  if n ≤ i ∧ i < n + m - 1 ∧ 1 ≤ n - k ∧ n - k ≤ m - 1 - (i - n) then lit h ((n - k) + (i - n))
  else if m ≤ i ∧ i ≤ n - 1 ∧ 0 ≤ k - (i + 1 - m) ∧ k - (i + 1 - m) < m then lit h (m - 1 - (k - (i + 1 - m)))
  else if 0 ≤ i ∧ i < m ∧ 0 ≤ k ∧ k < i + 1 then lit h (i - k)
  else some 0

/-- `égaliseur_zfe_matrice(h, n)`, core/src/telecom/egalisation.cc:184-212: `n + m - 1` rows of `n` columns. If `n < m` the first loop writes outside of the matrix (column `m - 1`): `none`. -/
def zfeMatrice (h : List ℝ) (n : ℕ) : Option (List (List ℝ)) :=
  if n < h.length then none
  else (List.range (n + h.length - 1)).mapM fun i : ℕ => (List.range n).mapM fun k : ℕ => zfeElement h n i k

/-- The right-hand side `δ`, core/src/telecom/egalisation.cc:218-232: the call with `n < m` is rejected, `δ(d)` outside of the vector is undefined behaviour; `round((m+n)/2.0f)` rounds the half up. -/
def zfeCible (m n : ℕ) : Option (List ℝ) :=
  if n < m then none
  else
    let d := (m + n + 1) / 2
    if n + m - 1 ≤ d then none else some ((List.replicate (n + m - 1) 0).set d 1)

end Verif.Telecom
