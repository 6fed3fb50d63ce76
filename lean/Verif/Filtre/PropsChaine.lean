import Verif.Filtre.PropsBlocs

/-!
# First-order sections and chains of sections (C45, continued)

Specification: every section of the chain solves its difference equation on the output of the previous one.
-/

namespace Verif.Filtre

section chaine
variable {R : Type} [Field R]

/-- Coefficients of a second-order section `(b0 + b1 z⁻¹ + b2 z⁻²)/(a0 + a1 z⁻¹ + a2 z⁻²)`. -/
structure Coefs2 (R : Type) where
  b0 : R
  b1 : R
  b2 : R
  a0 : R
  a1 : R
  a2 : R

/-- The signal `y` solves the second-order difference equation with input `x`, the two virtual past samples (of both signals) being
the first input sample. -/
def Resout2 (c : Coefs2 R) (x y : List R) : Prop :=
  y.length = x.length ∧ ∀ n, n < x.length →
    c.a0 * (x.getD 0 0 :: x.getD 0 0 :: y).getD (n + 2) 0 + c.a1 * (x.getD 0 0 :: x.getD 0 0 :: y).getD (n + 1) 0 +
      c.a2 * (x.getD 0 0 :: x.getD 0 0 :: y).getD n 0 =
    c.b0 * (x.getD 0 0 :: x.getD 0 0 :: x).getD (n + 2) 0 + c.b1 * (x.getD 0 0 :: x.getD 0 0 :: x).getD (n + 1) 0 +
      c.b2 * (x.getD 0 0 :: x.getD 0 0 :: x).getD n 0

/-- The signal `y` solves `y(n) + a1 y(n-1) = b0 x(n) + b1 x(n-1)` with zero past. -/
def Resout1 (b0 b1 a1 : R) (x y : List R) : Prop :=
  y.length = x.length ∧ ∀ n, n < x.length → passe y n 0 + a1 * passe y n 1 = b0 * passe x n 0 + b1 * passe x n 1

/-- `y` is obtained from `x` by solving the equations of the sections one after the other. -/
def Cascade : List (Coefs2 R) → List R → List R → Prop
  | [], x, y => y = x
  | c :: cs, x, y => ∃ v, Resout2 c x v ∧ Cascade cs v y

private theorem fos_eq (xs : List R) : ∀ (s : Fos R R), ∃ s' ys,
    boucle (Fos.ech (· + ·) (- ·) (· * ·)) s xs = some (s', ys) ∧ ys.length = xs.length ∧
      ∀ n, n < xs.length → (s.y1 :: ys).getD (n + 1) 0 + s.a1 * (s.y1 :: ys).getD n 0 =
        s.b0 * (s.x1 :: xs).getD (n + 1) 0 + s.b1 * (s.x1 :: xs).getD n 0 := by
  induction xs with
  | nil => intro s; exact ⟨_, _, rfl, rfl, by simp⟩
  | cons x xs ih =>
    intro s
    obtain ⟨s', ys, e, hl, ho⟩ := ih ⟨s.b0, s.b1, s.a1, x, -s.a1 * s.y1 + s.b0 * x + s.b1 * s.x1⟩
    refine ⟨s', (-s.a1 * s.y1 + s.b0 * x + s.b1 * s.x1) :: ys, by simp only [boucle, Fos.ech, e], by simp [hl], ?_⟩
    intro n hn
    cases n with
    | zero => simp; ring
    | succ n =>
      have := ho n (by simpa using hn)
      simpa using this

private theorem passe_cons (x : List R) (n : Nat) (_hn : n < x.length) :
    passe x n 0 = (0 :: x).getD (n + 1) 0 ∧ passe x n 1 = (0 :: x).getD n 0 := by
  constructor
  · simp [passe]
  · cases n <;> simp [passe]

private theorem fos_resout (b0 b1 a1 : R) (x : List R) :
    ∃ s y, Fos.step (· + ·) (- ·) (· * ·) (⟨b0, b1, a1, 0, 0⟩ : Fos R R) x = some (s, y) ∧ Resout1 b0 b1 a1 x y := by
  obtain ⟨s, y, e, hl, ho⟩ := fos_eq x ⟨b0, b1, a1, 0, 0⟩
  refine ⟨s, y, e, hl, fun n hn => ?_⟩
  have := ho n hn
  rw [(passe_cons x n hn).1, (passe_cons x n hn).2, (passe_cons y n (by omega)).1, (passe_cons y n (by omega)).2]
  exact this

/-- **C45, first order.** A first-order section configured with `b0 b1 a1` solves `y(n) + a1 y(n-1) = b0 x(n) + b1 x(n-1)` with zero
past, for every stream and every cutting. -/
theorem C45_premier_ordre (b0 b1 a1 : R) (blocs : List (List R)) :
    ∃ s y, enchaine (Fos.step (· + ·) (- ·) (· * ·)) (⟨b0, b1, a1, 0, 0⟩ : Fos R R) blocs = some (s, y) ∧
      Resout1 b0 b1 a1 blocs.flatten y := by
  rw [C18_premier_ordre]
  exact fos_resout b0 b1 a1 blocs.flatten

private theorem sois_resout [DecidableEq R] (c : Coefs2 R) (h : c.a0 ≠ 0) (x : List R) :
    ∃ cf s y, Sois.configure 0 0 (· / ·) c.b0 c.b1 c.b2 c.a0 c.a1 c.a2 false = some cf ∧
      Sois.step (· + ·) (· - ·) (· * ·) cf x = some (s, y) ∧ Resout2 c x y := by
  cases x with
  | nil =>
    refine ⟨_, _, [], by rw [Sois.configure, if_neg h], rfl, rfl, by simp⟩
  | cons x0 xs =>
    obtain ⟨cf, s, y, e1, e2, hl, ho⟩ := C45_forme1 c.b0 c.b1 c.b2 c.a0 c.a1 c.a2 x0 xs h [x0 :: xs] (by simp)
    rw [C18_sois] at e2
    simp only [List.flatten_cons, List.flatten_nil, List.append_nil] at e2 hl ho
    exact ⟨cf, s, y, e1, e2, hl, fun n hn => by simpa using ho n (by omega)⟩

private theorem sections_resout [DecidableEq R] (cs : List (Coefs2 R)) (h : ∀ c ∈ cs, c.a0 ≠ 0) : ∀ x : List R,
    ∃ ss ss' y, cs.mapM (fun c => Sois.configure (T := R) 0 0 (· / ·) c.b0 c.b1 c.b2 c.a0 c.a1 c.a2 false) = some ss ∧
      Chaine.sectionsStep (· + ·) (· - ·) (· * ·) ss x = some (ss', y) ∧ Cascade cs x y := by
  induction cs with
  | nil => intro x; exact ⟨[], [], x, rfl, rfl, rfl⟩
  | cons c cs ih =>
    intro x
    obtain ⟨cf, s, v, e1, e2, hr⟩ := sois_resout c (h c (by simp)) x
    obtain ⟨ss, ss', y, e3, e4, hc⟩ := ih (fun c' h' => h c' (by simp [h'])) v
    refine ⟨cf :: ss, s :: ss', y, ?_, ?_, v, hr, hc⟩
    · rw [List.mapM_cons, e1, e3]; rfl
    · simp only [Chaine.sectionsStep, e2, e4]

/-- **C45, chains without first-order section.** A freshly built chain of direct-form-I sections with coefficients `cs` and gain `g`
outputs, for every stream and every cutting, `g` times the cascade of the solutions of the difference equations of its sections. -/
theorem C45_chaine_gain [DecidableEq R] (cs : List (Coefs2 R)) (h : ∀ c ∈ cs, c.a0 ≠ 0) (g : R) (blocs : List (List R)) :
    ∃ ss s v, cs.mapM (fun c => Sois.configure (T := R) 0 0 (· / ·) c.b0 c.b1 c.b2 c.a0 c.a1 c.a2 false) = some ss ∧
      Cascade cs blocs.flatten v ∧
      enchaine (Chaine.step (· + ·) (· - ·) (- ·) (· * ·)) (⟨ss, g, none⟩ : Chaine R R) blocs =
        some (s, v.map (fun u => g * u)) := by
  obtain ⟨ss, ss', v, e1, e2, hc⟩ := sections_resout cs h blocs.flatten
  refine ⟨ss, ⟨ss', g, none⟩, v, e1, hc, ?_⟩
  rw [C18_chaine]
  simp only [Chaine.step, e2]

/-- **C45, chains of odd order.** With a final first-order section `b0 b1 a1`, the output solves the first-order equation on the cascade
of the second-order ones. -/
theorem C45_chaine_impaire [DecidableEq R] (cs : List (Coefs2 R)) (h : ∀ c ∈ cs, c.a0 ≠ 0) (g b0 b1 a1 : R)
    (blocs : List (List R)) :
    ∃ ss s v y, cs.mapM (fun c => Sois.configure (T := R) 0 0 (· / ·) c.b0 c.b1 c.b2 c.a0 c.a1 c.a2 false) = some ss ∧
      Cascade cs blocs.flatten v ∧ Resout1 b0 b1 a1 v y ∧
      enchaine (Chaine.step (· + ·) (· - ·) (- ·) (· * ·)) (⟨ss, g, some ⟨b0, b1, a1, 0, 0⟩⟩ : Chaine R R) blocs = some (s, y) := by
  obtain ⟨ss, ss', v, e1, e2, hc⟩ := sections_resout cs h blocs.flatten
  obtain ⟨f', y, e3, hr⟩ := fos_resout b0 b1 a1 v
  refine ⟨ss, ⟨ss', g, some f'⟩, v, y, e1, hc, hr, ?_⟩
  rw [C18_chaine]
  simp only [Chaine.step, e2, e3]

end chaine

example : ∀ c ∈ [(⟨1, 2, 1, 2, 1, 1⟩ : Coefs2 ℚ), ⟨1, 0, 1, 4, 0, 1⟩], c.a0 ≠ 0 := by decide

end Verif.Filtre
