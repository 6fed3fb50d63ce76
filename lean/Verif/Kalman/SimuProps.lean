import Verif.Kalman.Simu
import Mathlib.Analysis.SpecialFunctions.Trigonometric.Bounds
import Mathlib.Analysis.Complex.Trigonometric

/-!
# C120: simulation of a state-space model
-/

namespace Verif.Kalman

open Matrix

variable {n m p : Type} [Fintype n] [DecidableEq n] [Fintype m] [DecidableEq m] [Fintype p] [DecidableEq p]

/-- Contribution `D u` of the input, null without matrix. -/
def entree {q : Type} (D : Option (Matrix q p ℝ)) (u : p → ℝ) : q → ℝ := match D with | none => 0 | some D => D *ᵥ u

theorem ajoute_entree {q : Type} (B : Option (Matrix q p ℝ)) (x : q → ℝ) (u : p → ℝ) : ajoute B x u = x + entree B u := by
  cases B <;> simp [ajoute, entree]

theorem trajectoire_cons (s : Ssm n m p) (x : n → ℝ) (t : (p → ℝ) × (n → ℝ) × (m → ℝ)) (l : List ((p → ℝ) × (n → ℝ) × (m → ℝ))) :
    trajectoire s x (t :: l) = (s.A *ᵥ x + entree s.B t.1 + t.2.1, s.C *ᵥ (s.A *ᵥ x + entree s.B t.1 + t.2.1) + entree s.D t.1 + t.2.2) :: trajectoire s (s.A *ᵥ x + entree s.B t.1 + t.2.1) l := by
  obtain ⟨A, B, C, D, Q, R⟩ := s
  cases B <;> cases D <;> rfl

theorem colonnes_trajectoire (s : Ssm n m p) (L : Matrix n n ℝ × Matrix m m ℝ) (x : n → ℝ) (l : List ((p → ℝ) × (n → ℝ) × (m → ℝ))) :
    colonnes s L x l = trajectoire s x (l.map fun t : (p → ℝ) × (n → ℝ) × (m → ℝ) => (t.1, L.1 *ᵥ t.2.1, L.2 *ᵥ t.2.2)) := by
  induction l generalizing x with
  | nil => rfl
  | cons t l ih =>
    simp only [colonnes, List.map_cons, trajectoire_cons, ajoute_entree, ih, add_right_comm _ (L.1 *ᵥ t.2.1), add_right_comm _ (L.2 *ᵥ t.2.2)]

/-- **C120 (equations).**  The first simulation of a linear model from the state `x₀` returns `x₀`, the observation `C x₀ + D u₀`, then the trajectory of the equations of the model from `x₀` with the
noises `L v`, `L' w`, where `L` and `L'` are the square roots of `Q` and `R` and `v`, `w` the draws. -/
theorem C120_equations (cn : Matrix n n ℝ → Matrix n n ℝ) (cm : Matrix m m ℝ → Matrix m m ℝ) (s : Ssm n m p) (Q : Matrix n n ℝ) (R : Matrix m m ℝ) (hQ : s.Q = some Q) (hR : s.R = some R) (x0 : n → ℝ) (u0 : p → ℝ)
    (l : List ((p → ℝ) × (n → ℝ) × (m → ℝ))) :
    ∃ L L' o, (Q ≠ 0 → L = cn Q) ∧ (Q = 0 → L = 0) ∧ (R ≠ 0 → L' = cm R) ∧ (R = 0 → L' = 0) ∧
      simuLineaire cn cm s Simu.cree (some x0) u0 l =
        some (o, (x0, s.C *ᵥ x0 + entree s.D u0) :: trajectoire s x0 (l.map fun t : (p → ℝ) × (n → ℝ) × (m → ℝ) => (t.1, L *ᵥ t.2.1, L' *ᵥ t.2.2))) := by
  refine ⟨racine cn Q, racine cm R, ⟨some (racine cn Q, racine cm R), some x0, 0⟩, fun h => if_neg h, fun h => ?_, fun h => if_neg h, fun h => ?_, ?_⟩
  · unfold racine; rw [if_pos h, h]
  · unfold racine; rw [if_pos h, h]
  · unfold simuLineaire racines depart Simu.cree
    simp only [hQ, hR, Option.bind_some, Option.map_some, colonnes_trajectoire, ajoute_entree]

/-- **C120 (refuted: every observation is noisy).**  Whatever the covariance of the observations and the draws, the first observation of every simulation is `C x + D u` without noise. -/
theorem C120_premiere_refute (cn : Matrix n n ℝ → Matrix n n ℝ) (cm : Matrix m m ℝ → Matrix m m ℝ) (s : Ssm n m p) (o o' : Simu n m) (x0 : n → ℝ) (u0 : p → ℝ) (l : List ((p → ℝ) × (n → ℝ) × (m → ℝ))) (c : List ((n → ℝ) × (m → ℝ)))
    (h : simuLineaire cn cm s o (some x0) u0 l = some (o', c)) : c.head? = some (x0, s.C *ᵥ x0 + entree s.D u0) := by
  unfold simuLineaire at h
  rw [Option.map_eq_some_iff] at h
  obtain ⟨L, -, h⟩ := h
  rw [Prod.mk.injEq] at h
  rw [← h.2]
  simp only [depart, ajoute_entree, List.head?_cons]

/-- **C120 (refuted: two calls continue the simulation).**  On a linear model, a second call without initial state starts again from the initial state of the first one, whatever the number of simulated columns. -/
theorem C120_reprise_refute (cn : Matrix n n ℝ → Matrix n n ℝ) (cm : Matrix m m ℝ → Matrix m m ℝ) (s : Ssm n m p) (o o' : Simu n m) (x0 : n → ℝ) (u0 : p → ℝ) (l : List ((p → ℝ) × (n → ℝ) × (m → ℝ))) (c : List ((n → ℝ) × (m → ℝ)))
    (h : simuLineaire cn cm s o (some x0) u0 l = some (o', c)) (u1 : p → ℝ) (l' : List ((p → ℝ) × (n → ℝ) × (m → ℝ))) :
    simuLineaire cn cm s o' none u1 l' = simuLineaire cn cm s o' (some x0) u1 l' := by
  unfold simuLineaire at h
  rw [Option.map_eq_some_iff] at h
  obtain ⟨L, -, h⟩ := h
  rw [Prod.mk.injEq] at h
  rw [← h.1]
  rfl

/-- **C120 (refuted: the covariances are those of the model).**  After a simulation, a change of the covariances of the model is ignored by the next ones. -/
theorem C120_covariance_refute (cn : Matrix n n ℝ → Matrix n n ℝ) (cm : Matrix m m ℝ → Matrix m m ℝ) (s : Ssm n m p) (o o' : Simu n m) (x0 : Option (n → ℝ)) (u0 : p → ℝ) (l : List ((p → ℝ) × (n → ℝ) × (m → ℝ))) (c : List ((n → ℝ) × (m → ℝ)))
    (h : simuLineaire cn cm s o x0 u0 l = some (o', c)) (Q' : Option (Matrix n n ℝ)) (R' : Option (Matrix m m ℝ)) (x1 : Option (n → ℝ)) (u1 : p → ℝ) (l' : List ((p → ℝ) × (n → ℝ) × (m → ℝ))) :
    simuLineaire cn cm { s with Q := Q', R := R' } o' x1 u1 l' = simuLineaire cn cm s o' x1 u1 l' := by
  unfold simuLineaire at h
  rw [Option.map_eq_some_iff] at h
  obtain ⟨L, -, h⟩ := h
  rw [Prod.mk.injEq] at h
  rw [← h.1]
  unfold simuLineaire racines
  simp only [Option.map_some, Option.some.injEq, Prod.mk.injEq, true_and, List.cons.injEq]
  have : ∀ (x : n → ℝ) (l : List ((p → ℝ) × (n → ℝ) × (m → ℝ))), colonnes { s with Q := Q', R := R' } L x l = colonnes s L x l := by
    intro x l
    induction l generalizing x with
    | nil => rfl
    | cons t l ih => simp only [colonnes, ih]
  exact this _ _

/-- Non-vacuity of the three refutations: with `Q = 0`, `R = 1` every simulation succeeds. -/
example (cn : Matrix (Fin 1) (Fin 1) ℝ → Matrix (Fin 1) (Fin 1) ℝ) (x0 : Fin 1 → ℝ) (u0 : Fin 0 → ℝ) (l : List ((Fin 0 → ℝ) × (Fin 1 → ℝ) × (Fin 1 → ℝ))) :
    ∃ r, simuLineaire cn cn (scalaire 2 1 0 1) Simu.cree (some x0) u0 l = some r := ⟨_, rfl⟩

/-! ### Models given by their functions -/

theorem boucleSimu_append (f : ℕ → (n → ℝ) → n → ℝ) (g : (n → ℝ) → m → ℝ) (L : Matrix n n ℝ × Matrix m m ℝ) (k : ℕ) (x : n → ℝ) (l l' : List ((n → ℝ) × (m → ℝ))) :
    boucleSimu f g L k x (l ++ l') = ((boucleSimu f g L (boucleSimu f g L k x l).1.1 (boucleSimu f g L k x l).1.2 l').1, (boucleSimu f g L k x l).2 ++ (boucleSimu f g L (boucleSimu f g L k x l).1.1 (boucleSimu f g L k x l).1.2 l').2) := by
  induction l generalizing k x with
  | nil => rfl
  | cons t l ih => simp only [List.cons_append, boucleSimu, ih]

/-- Number of iterations of `f` with the index, from the index `k`. -/
def itere (f : ℕ → (n → ℝ) → n → ℝ) : ℕ → ℕ → (n → ℝ) → n → ℝ
  | _, 0, x => x
  | k, j + 1, x => itere f (k + 1) j (f k x)

/-- **C120 (concatenation).**  On a model given by its functions, two successive simulations are one simulation cut in two: same columns, same final object. -/
theorem C120_suite (cn : Matrix n n ℝ → Matrix n n ℝ) (cm : Matrix m m ℝ → Matrix m m ℝ) (f : ℕ → (n → ℝ) → n → ℝ) (g : (n → ℝ) → m → ℝ) (Q : Matrix n n ℝ) (R : Matrix m m ℝ) (o : Simu n m) (x0 : Option (n → ℝ)) (l l' : List ((n → ℝ) × (m → ℝ))) :
    ∃ o1 c1 o2 c2, simuFonctions cn cm f g (some Q) (some R) o x0 l = some (o1, c1) ∧ simuFonctions cn cm f g (some Q) (some R) o1 none l' = some (o2, c2) ∧
      simuFonctions cn cm f g (some Q) (some R) o x0 (l ++ l') = some (o2, c1 ++ c2) := by
  obtain ⟨L, hL⟩ : ∃ L, racines cn cm (some Q) (some R) o = some L := by
    unfold racines
    cases o.L with
    | none => exact ⟨_, rfl⟩
    | some L => exact ⟨L, rfl⟩
  refine ⟨_, _, _, _, by unfold simuFonctions; rw [hL]; rfl, by unfold simuFonctions racines; rfl, ?_⟩
  unfold simuFonctions
  rw [hL]
  simp only [Option.map_some, boucleSimu_append]
  rfl

/-- **C120 (states without noise).**  Without noise (null draws), the column `i` of a simulation from the index `k` and the state `x` is `i` applications of the transition with the indices `k, k + 1, …`,
and the observation of that state. -/
theorem C120_etats (cn : Matrix n n ℝ → Matrix n n ℝ) (cm : Matrix m m ℝ → Matrix m m ℝ) (f : ℕ → (n → ℝ) → n → ℝ) (g : (n → ℝ) → m → ℝ) (Q : Matrix n n ℝ) (R : Matrix m m ℝ) (o : Simu n m) (x0 : n → ℝ) (N : ℕ) :
    ∃ o' c, simuFonctions cn cm f g (some Q) (some R) o (some x0) (List.replicate N (0, 0)) = some (o', c) ∧ o'.k = o.k + N ∧ c = (List.range N).map fun i : ℕ => (itere f o.k i x0, g (itere f o.k i x0)) := by
  obtain ⟨L, hL⟩ : ∃ L, racines cn cm (some Q) (some R) o = some L := by
    unfold racines
    cases o.L with
    | none => exact ⟨_, rfl⟩
    | some L => exact ⟨L, rfl⟩
  have main : ∀ N k (x : n → ℝ), (boucleSimu f g L k x (List.replicate N (0, 0))).1.1 = k + N ∧ (boucleSimu f g L k x (List.replicate N (0, 0))).2 = (List.range N).map fun i : ℕ => (itere f k i x, g (itere f k i x)) := by
    intro N
    induction N with
    | zero => intro k x; exact ⟨rfl, rfl⟩
    | succ N ih =>
      intro k x
      obtain ⟨h1, h2⟩ := ih (k + 1) (f k x)
      simp only [List.replicate_succ, boucleSimu, Matrix.mulVec_zero, add_zero, h1, h2, List.range_succ_eq_map, List.map_cons, List.map_map]
      refine ⟨by omega, rfl⟩
  obtain ⟨h1, h2⟩ := main N o.k x0
  refine ⟨_, _, by unfold simuFonctions; rw [hL]; rfl, h1, h2⟩

/-! ### Simulation then filter -/

/-- **C120 (simulation, then filter).**  Without noise, the filter started from the initial state of the simulation and applied with `steps` to the simulated observations returns the simulated states, for
every linear model (`Q` positive semi-definite, `R` positive definite), every input and every initial covariance. -/
theorem C120_filtre [Nonempty m] (cn : Matrix n n ℝ → Matrix n n ℝ) (cm : Matrix m m ℝ → Matrix m m ℝ) (s : Ssm n m p) (Q : Matrix n n ℝ) (hsQ : s.Q = some Q) (hQ : Q.PosSemidef) (R : Matrix m m ℝ) (hsR : s.R = some R) (hR : R.PosDef)
    (x0 : n → ℝ) (P : Matrix n n ℝ) (hP : P.PosSemidef) (u0 : p → ℝ) (us : List (p → ℝ)) :
    ∃ o c k', simuLineaire cn cm s Simu.cree (some x0) u0 (us.map fun u : p → ℝ => (u, 0, 0)) = some (o, c) ∧ c.length = us.length + 1 ∧
      Filtre.steps s ⟨x0, P⟩ (List.zipWith (fun (t : (n → ℝ) × (m → ℝ)) (u : p → ℝ) => (t.2, u)) c (u0 :: us)) = some (k', c.map Prod.fst) := by
  obtain ⟨L, L', o, -, -, -, -, h⟩ := C120_equations cn cm s Q R hsQ hsR x0 u0 (us.map fun u : p → ℝ => (u, 0, 0))
  rw [List.map_map] at h
  have e : ((fun t : (p → ℝ) × (n → ℝ) × (m → ℝ) => (t.1, L *ᵥ t.2.1, L' *ᵥ t.2.2)) ∘ fun u : p → ℝ => (u, 0, 0)) = fun u : p → ℝ => (u, 0, 0) := by
    funext u; simp
  rw [e] at h
  obtain ⟨k', hk⟩ := C115_exact s Q hsQ hQ R hsR hR ⟨x0, P⟩ hP us
  refine ⟨o, _, k', h, ?_, ?_⟩
  · have : ∀ (x : n → ℝ) (l : List ((p → ℝ) × (n → ℝ) × (m → ℝ))), (trajectoire s x l).length = l.length := by
      intro x l
      induction l generalizing x with
      | nil => rfl
      | cons t l ih => simp only [trajectoire, List.length_cons, ih]
    rw [List.length_cons, this, List.length_map]
  · simp only [List.zipWith_cons_cons, Filtre.steps, hk, Option.map_some, List.map_cons]

/-- Non-vacuity: identity covariances. -/
example : (1 : Matrix (Fin 2) (Fin 2) ℝ).PosDef ∧ (1 : Matrix (Fin 2) (Fin 2) ℝ).PosSemidef := ⟨Matrix.PosDef.one, Matrix.PosSemidef.one⟩

/-! ### Kitagawa -/

/-- **C120 (refuted: the extended filter follows the Kitagawa model).**  The transition of this model depends on the index `k` of the object, which the simulation increments and the filter does not: on the object of
index 0, whatever the state, the second transition of the simulation differs from the one the filter uses at its second step by more than 4. -/
theorem C120_kitagawa_refute (x : Fin 1 → ℝ) : 4 < kitagawa Real.cos 0 x 0 - kitagawa Real.cos 1 x 0 := by
  have h1 : Real.cos 0.6 ≤ 0.83 := by
    have := Real.cos_bound (x := 0.6) (by norm_num [abs_of_pos])
    rw [abs_le] at this
    have h2 := this.2
    norm_num [abs_of_pos] at h2 ⊢
    linarith
  have h0 : 0 < Real.cos 0.6 := Real.cos_pos_of_le_one (by norm_num [abs_of_pos])
  have h2 : Real.cos 1.2 = 2 * Real.cos 0.6 ^ 2 - 1 := by rw [← Real.cos_two_mul]; norm_num
  have h3 : Real.cos 0.6 ^ 2 ≤ 0.83 ^ 2 := pow_le_pow_left₀ h0.le h1 2
  have h4 : Real.cos (1.2 * ((1 : ℕ) : ℝ)) < 0.4 := by
    rw [Nat.cast_one, mul_one, h2]; norm_num at h3 ⊢; linarith
  unfold kitagawa
  rw [Nat.cast_zero, mul_zero, Real.cos_zero]
  linarith

end Verif.Kalman
