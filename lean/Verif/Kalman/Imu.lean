import Verif.Geometrie.Props
import Verif.Kalman.EkfProps
import Mathlib.Analysis.SpecialFunctions.Trigonometric.Deriv

/-!
# C178: inertial measurement unit (core/src/kalman/modele-imu.cc). Exact arithmetic instead of `float`.
-/

namespace Verif.Kalman

open Verif.Geometrie (Cardan croix)
open Matrix

/-! ## Model -/

/-- `IMUConfig`, core/include/tsd/apps/kalman.hpp:471-512. -/
structure ImuCfg where
  acc : Bool
  gyro : Bool
  mag : Bool
  baro : Bool
  gps : Bool
  pos : Bool
  orient : Bool
  fs : ℝ
  anoise : ℝ
  gnoise : ℝ
  mnoise : ℝ
  bnoise : ℝ
  gpsnoise : ℝ

namespace ImuCfg

/-- `n` if the sensor or the part of the state is present. -/
def siPresent (b : Bool) (n : ℕ) : ℕ := if b then n else 0

/-- `ns`, core/src/kalman/modele-imu.cc:122-134. -/
def ns (c : ImuCfg) : ℕ := siPresent c.pos 9 + siPresent c.orient 6

/-- `iorient`, core/src/kalman/modele-imu.cc:130-134; not initialised without the orientation. -/
def iorient (c : ImuCfg) : Option ℕ := if c.orient then some (siPresent c.pos 9) else none

/-- `igyro`, core/src/kalman/modele-imu.cc:137-147 (`iacc` is 0). -/
def igyro (c : ImuCfg) : ℕ := siPresent c.acc 3
/-- `imag`, core/src/kalman/modele-imu.cc:148-152. -/
def imag (c : ImuCfg) : ℕ := c.igyro + siPresent c.gyro 3
/-- `ibaro`, core/src/kalman/modele-imu.cc:153-157. -/
def ibaro (c : ImuCfg) : ℕ := c.imag + siPresent c.mag 3
/-- `igps`, core/src/kalman/modele-imu.cc:158-162. -/
def igps (c : ImuCfg) : ℕ := c.ibaro + siPresent c.baro 1
/-- `no`, core/src/kalman/modele-imu.cc:137-162. -/
def no (c : ImuCfg) : ℕ := c.igps + siPresent c.gps 3

/-- `v.segment(i, n).setConstant(a)`. -/
def constante (v : List ℝ) (i n : ℕ) (a : ℝ) : List ℝ := v.take i ++ List.replicate n a ++ v.drop (i + n)

/-- Standard deviations of the observation noise, then `R = diagonal(abs2(v))`, core/src/kalman/modele-imu.cc:187-205: the diagonal of `R`. `none`: `v.tail(3)` of an empty vector, core/src/kalman/modele-imu.cc:171-180. -/
noncomputable def variances (c : ImuCfg) : Option (List ℝ) :=
  if c.ns = 0 then none
  else
    let v := List.replicate c.no 0
    let v := if c.acc then constante v 0 3 c.anoise else v
    let v := if c.gyro then constante v c.igyro 3 c.gnoise else v
    let v := if c.mag then constante v c.imag 3 c.mnoise else v
    let v := if c.baro then constante v c.ibaro 1 c.bnoise else v
    let v := if c.gps then constante v c.igps 3 c.gpsnoise else v
    some (v.map fun s => s ^ 2)

/-- Element `i` of the state (which exists: `f` and `g` check the length). -/
def lit (x : List ℝ) (i : ℕ) : ℝ := x.getD i 0

/-- `x.segment(i, 3)`. -/
def trois (x : List ℝ) (i : ℕ) : Fin 3 → ℝ := ![lit x i, lit x (i + 1), lit x (i + 2)]

/-- `IMU::f`, core/src/kalman/modele-imu.cc:258-277; `none`: state of another length. -/
noncomputable def f (c : ImuCfg) (x : List ℝ) : Option (List ℝ) :=
  if x.length = c.ns then
    let dt := 1 / c.fs
    let p : List ℝ := if c.pos then ((List.range 3).map fun i => lit x i + dt * lit x (3 + i)) ++ ((List.range 3).map fun i => lit x (3 + i) + dt * lit x (6 + i)) ++ [0, 0, 0] else []
    let o : List ℝ := match c.iorient with
      | none => []
      | some io => ((List.range 3).map fun i => lit x (io + i) + dt * lit x (io + 3 + i)) ++ ((List.range 3).map fun i => lit x (io + 3 + i))
    some (p ++ o)
  else none

/-- `IMU::g`, core/src/kalman/modele-imu.cc:279-327: the sensors are written one after the other. `none`: the index of the orientation is not initialised, or state of another length. -/
noncomputable def g (c : ImuCfg) (x : List ℝ) : Option (List ℝ) :=
  c.iorient.bind fun io : ℕ =>
    if x.length = c.ns then
      let φ := lit x io
      let θ := lit x (io + 1)
      let ψ := lit x (io + 2)
      let R := (Cardan.mk φ θ ψ).matRotation
      let v : Fin 3 → ℝ := if c.pos then ![0, 0, 9.81] + trois x 6 else ![0, 0, 9.81]
      let acc : List ℝ := if c.acc then List.ofFn (R *ᵥ v) else []
      let gyro : List ℝ := if c.gyro then
          [lit x (io + 3) - Real.sin θ * lit x (io + 5),
           Real.cos φ * lit x (io + 4) + Real.sin φ * Real.cos θ * lit x (io + 5),
           Real.cos φ * Real.cos θ * lit x (io + 5) - Real.sin φ * lit x (io + 4)]
        else []
      let mag : List ℝ := if c.mag then List.ofFn (R *ᵥ ![0, 1, 0]) else []
      let baro : List ℝ := if c.baro then [lit x 2] else []
      let gps : List ℝ := if c.gps then [lit x 0, lit x 1, lit x 2] else []
      some (acc ++ gyro ++ mag ++ baro ++ gps)
    else none

end ImuCfg

/-! ## Specification -/

/-- A state: position, speed, acceleration, angles (roll, pitch, yaw) and their derivatives. -/
structure EtatImu where
  p : Fin 3 → ℝ
  v : Fin 3 → ℝ
  a : Fin 3 → ℝ
  angles : Fin 3 → ℝ
  vitesses : Fin 3 → ℝ

/-- Its vector when the position is estimated (first) and the orientation too. -/
def EtatImu.vecteur (e : EtatImu) (pos : Bool) : List ℝ :=
  (if pos then List.ofFn e.p ++ List.ofFn e.v ++ List.ofFn e.a else []) ++ List.ofFn e.angles ++ List.ofFn e.vitesses

/-- The rotation from the absolute frame to the frame of the device. -/
noncomputable def EtatImu.rotation (e : EtatImu) : Matrix (Fin 3) (Fin 3) ℝ := (Cardan.mk (e.angles 0) (e.angles 1) (e.angles 2)).matRotation

/-- What a block of three observations starting at `i` contains. -/
def Bloc3 (y : List ℝ) (i : ℕ) (v : Fin 3 → ℝ) : Prop := ∀ k : Fin 3, y[i + k]? = some (v k)

/-- Angular speed in the frame of the device, as a function of the angles and their derivatives. -/
noncomputable def vitesseAngulaire (a w : Fin 3 → ℝ) : Fin 3 → ℝ :=
  ![w 0 - Real.sin (a 1) * w 2, Real.cos (a 0) * w 1 + Real.sin (a 0) * Real.cos (a 1) * w 2, Real.cos (a 0) * Real.cos (a 1) * w 2 - Real.sin (a 0) * w 1]

/-! ## Proofs -/

open ImuCfg

theorem bloc3_iff (y : List ℝ) (i : ℕ) (v : Fin 3 → ℝ) : Bloc3 y i v ↔ y[i]? = some (v 0) ∧ y[i + 1]? = some (v 1) ∧ y[i + 2]? = some (v 2) := by
  unfold Bloc3
  rw [Fin.forall_fin_succ, Fin.forall_fin_succ, Fin.forall_fin_succ]
  simp

/-- **C178 (observation).** Whatever the sensors, when the orientation is estimated: the observation has the announced length and contains, in the announced order, the specific force (acceleration plus gravity) and the magnetic field
in the frame of the device, the angular speeds, and (if the position is estimated) the altitude and the position. -/
theorem C178_observation (c : ImuCfg) (ho : c.orient = true) (e : EtatImu) : ∃ y, c.g (e.vecteur c.pos) = some y ∧ y.length = c.no ∧
    (c.acc = true → Bloc3 y 0 (e.rotation *ᵥ (![0, 0, 9.81] + if c.pos then e.a else 0))) ∧
    (c.gyro = true → Bloc3 y c.igyro (vitesseAngulaire e.angles e.vitesses)) ∧
    (c.mag = true → Bloc3 y c.imag (e.rotation *ᵥ ![0, 1, 0])) ∧
    (c.pos = true → c.baro = true → y[c.ibaro]? = some (e.p 2)) ∧
    (c.pos = true → c.gps = true → Bloc3 y c.igps e.p) := by
  obtain ⟨acc, gyro, mag, baro, gps, pos, orient, fs, an, gn, mn, bn, gp⟩ := c
  dsimp only at ho
  subst ho
  simp only [bloc3_iff]
  have ha : (![e.a 0, e.a 1, e.a 2] : Fin 3 → ℝ) = e.a := by funext i; fin_cases i <;> rfl
  have h3 : ∀ u : Fin 3 → ℝ, List.ofFn u = [u 0, u 1, u 2] := by intro u; simp [List.ofFn_succ]
  cases pos
  · have hx : e.vecteur false = [e.angles 0, e.angles 1, e.angles 2, e.vitesses 0, e.vitesses 1, e.vitesses 2] := by
      simp [EtatImu.vecteur, h3]
    rw [hx]
    refine ⟨_, by rw [ImuCfg.g]; simp only [iorient, siPresent, if_true, Option.bind_some]; rw [if_pos (by simp [ns, siPresent])], ?_, ?_, ?_, ?_, by simp, by simp⟩
    · cases acc <;> cases gyro <;> cases mag <;> cases baro <;> cases gps <;> simp [no, igps, ibaro, imag, igyro, siPresent]
    · intro h; subst h
      simp [h3, lit, EtatImu.rotation]
    · intro h; subst h
      cases acc <;> simp [h3, lit, igyro, siPresent, vitesseAngulaire]
    · intro h; subst h
      cases acc <;> cases gyro <;> simp [h3, lit, igyro, imag, siPresent, EtatImu.rotation]
  · have hx : e.vecteur true = [e.p 0, e.p 1, e.p 2, e.v 0, e.v 1, e.v 2, e.a 0, e.a 1, e.a 2, e.angles 0, e.angles 1, e.angles 2, e.vitesses 0, e.vitesses 1, e.vitesses 2] := by
      simp [EtatImu.vecteur, h3]
    rw [hx]
    refine ⟨_, by rw [ImuCfg.g]; simp only [iorient, siPresent, if_true, Option.bind_some]; rw [if_pos (by simp [ns, siPresent])], ?_, ?_, ?_, ?_, ?_, ?_⟩
    · cases acc <;> cases gyro <;> cases mag <;> cases baro <;> cases gps <;> simp [no, igps, ibaro, imag, igyro, siPresent]
    · intro h; subst h
      simp [h3, lit, EtatImu.rotation, trois, ha]
    · intro h; subst h
      cases acc <;> simp [h3, lit, igyro, siPresent, vitesseAngulaire]
    · intro h; subst h
      cases acc <;> cases gyro <;> simp [h3, lit, igyro, imag, siPresent, EtatImu.rotation]
    · intro _ h; subst h
      cases acc <;> cases gyro <;> cases mag <;> simp [h3, lit, igyro, imag, ibaro, siPresent]
    · intro _ h; subst h
      cases acc <;> cases gyro <;> cases mag <;> cases baro <;> simp [h3, lit, igyro, imag, ibaro, igps, siPresent]

/-- **C178 (gyroscope).** The three values of the gyroscope are the angular speed of the device: along every motion of the angles, every vector that is fixed in the absolute frame turns, seen from the device, at the speed `-ω ∧ u`. -/
theorem C178_gyro (a : ℝ → Fin 3 → ℝ) (w : Fin 3 → ℝ) (t : ℝ) (h : ∀ k, HasDerivAt (fun s => a s k) (w k) t) (v : Fin 3 → ℝ) (i : Fin 3) :
    HasDerivAt (fun s => ((Cardan.mk (a s 0) (a s 1) (a s 2)).matRotation *ᵥ v) i)
      (-croix (vitesseAngulaire (a t) w) ((Cardan.mk (a t 0) (a t 1) (a t 2)).matRotation *ᵥ v) i) t := by
  simp only [Geometrie.mat_entrees]
  have s0 := (h 0).sin
  have c0 := (h 0).cos
  have s1 := (h 1).sin
  have c1 := (h 1).cos
  have s2 := (h 2).sin
  have c2 := (h 2).cos
  have k0 := Real.sin_sq_add_cos_sq (a t 0)
  have k1 := Real.sin_sq_add_cos_sq (a t 1)
  fin_cases i
  · have := (((c1.mul c2).mul_const (v 0)).add ((c1.mul s2).mul_const (v 1))).add (s1.neg.mul_const (v 2))
    convert! this using 1
    · funext s; simp [Matrix.mulVec, dotProduct, Fin.sum_univ_three]
    · simp [croix, vitesseAngulaire, Matrix.mulVec, dotProduct, Fin.sum_univ_three]
      linear_combination (-(Real.cos (a t 1) * w 2 * (Real.sin (a t 2) * v 0 - Real.cos (a t 2) * v 1) + w 1 * (Real.sin (a t 1) * Real.cos (a t 2) * v 0 + Real.sin (a t 1) * Real.sin (a t 2) * v 1 + Real.cos (a t 1) * v 2))) * k0
  · have := (((c0.neg.mul s2).add ((s0.mul s1).mul c2)).mul_const (v 0)).add ((((c0.mul c2).add ((s0.mul s1).mul s2)).mul_const (v 1)).add ((s0.mul c1).mul_const (v 2)))
    convert! this using 1
    · funext s; simp [Matrix.mulVec, dotProduct, Fin.sum_univ_three]; ring
    · simp [croix, vitesseAngulaire, Matrix.mulVec, dotProduct, Fin.sum_univ_three]
      linear_combination (-(Real.cos (a t 0) * w 2 * (Real.cos (a t 2) * v 0 + Real.sin (a t 2) * v 1))) * k1
  · have := (((s0.mul s2).add ((c0.mul s1).mul c2)).mul_const (v 0)).add ((((s0.neg.mul c2).add ((c0.mul s1).mul s2)).mul_const (v 1)).add ((c0.mul c1).mul_const (v 2)))
    convert! this using 1
    · funext s; simp [Matrix.mulVec, dotProduct, Fin.sum_univ_three]; ring
    · simp [croix, vitesseAngulaire, Matrix.mulVec, dotProduct, Fin.sum_univ_three]
      linear_combination (Real.sin (a t 0) * w 2 * (Real.cos (a t 2) * v 0 + Real.sin (a t 2) * v 1)) * k1

/-- **C178 (norms).** The norm of the specific force read by the accelerometer and that of the magnetic field, and their scalar product, do not depend on the orientation. -/
theorem C178_normes (e : EtatImu) (u v : Fin 3 → ℝ) : (e.rotation *ᵥ u) ⬝ᵥ (e.rotation *ᵥ v) = u ⬝ᵥ v := by
  have h := (Geometrie.C53_rotation (Cardan.mk (e.angles 0) (e.angles 1) (e.angles 2))).1
  have h' : e.rotationᵀ * e.rotation = 1 := mul_eq_one_comm.1 h
  rw [Matrix.dotProduct_mulVec, Matrix.vecMul_mulVec, h', Matrix.vecMul_one]

theorem rotation_deux (A B : Matrix (Fin 3) (Fin 3) ℝ) (hA : Geometrie.EstRotation A) (hB : Geometrie.EstRotation B) (G : ℝ) (hG : G ≠ 0) (h1 : A *ᵥ ![0, 0, G] = B *ᵥ ![0, 0, G]) (h2 : A *ᵥ ![0, 1, 0] = B *ᵥ ![0, 1, 0]) : A = B := by
  have c2 : ∀ i, A i 2 = B i 2 := by
    intro i
    have := congrFun h1 i
    simp only [Matrix.mulVec, dotProduct, Fin.sum_univ_three, Matrix.cons_val_zero, Matrix.cons_val_one, Matrix.cons_val_two, mul_zero, zero_add] at this
    have h : A i 2 * G = B i 2 * G := by simpa using this
    exact mul_right_cancel₀ hG h
  have c1 : ∀ i, A i 1 = B i 1 := by
    intro i
    have := congrFun h2 i
    simpa [Matrix.mulVec, dotProduct, Fin.sum_univ_three] using this
  obtain ⟨a00, -, -, -, a10, -, a20, -, -⟩ := Geometrie.rot_cof hA
  obtain ⟨b00, -, -, -, b10, -, b20, -, -⟩ := Geometrie.rot_cof hB
  ext i j
  fin_cases j
  · fin_cases i
    · show A 0 0 = B 0 0
      rw [a00, b00, c1, c2, c1, c2]
    · show A 1 0 = B 1 0
      rw [a10, b10, c1, c2, c1, c2]
    · show A 2 0 = B 2 0
      rw [a20, b20, c1, c2, c1, c2]
  · exact c1 i
  · exact c2 i

/-- **C178 (orientation).** Without position estimation, the accelerometer and the magnetometer determine the orientation: two states with the same observations have the same rotation, and the same angles if they are in the usual domain (pitch strictly between -π/2 and π/2). -/
theorem C178_orientation (c : ImuCfg) (ho : c.orient = true) (hp : c.pos = false) (ha : c.acc = true) (hm : c.mag = true) (e e' : EtatImu) (h : c.g (e.vecteur c.pos) = c.g (e'.vecteur c.pos)) :
    e.rotation = e'.rotation ∧
    ((∀ s ∈ [e, e'], s.angles 0 ∈ Set.Ioc (-Real.pi) Real.pi ∧ s.angles 1 ∈ Set.Ioo (-(Real.pi / 2)) (Real.pi / 2) ∧ s.angles 2 ∈ Set.Ioc (-Real.pi) Real.pi) → e.angles = e'.angles) := by
  obtain ⟨y, f1, -, f2, -, f3, -⟩ := C178_observation c ho e
  obtain ⟨y', g1, -, g2, -, g3, -⟩ := C178_observation c ho e'
  rw [f1, g1] at h
  have hy := Option.some.inj h
  subst hy
  have e1 := f2 ha
  have e2 := g2 ha
  rw [hp] at e1 e2
  simp only [Bool.false_eq_true, if_false, add_zero] at e1 e2
  have k1 : e.rotation *ᵥ ![0, 0, 9.81] = e'.rotation *ᵥ ![0, 0, 9.81] := by
    funext k
    exact Option.some.inj ((e1 k).symm.trans (e2 k))
  have k2 : e.rotation *ᵥ ![0, 1, 0] = e'.rotation *ᵥ ![0, 1, 0] := by
    funext k
    exact Option.some.inj ((f3 hm k).symm.trans (g3 hm k))
  have hr := rotation_deux _ _ (Geometrie.C53_rotation _) (Geometrie.C53_rotation _) 9.81 (by norm_num) k1 k2
  refine ⟨hr, fun hd => ?_⟩
  obtain ⟨d1, d2, d3⟩ := hd e (by simp)
  obtain ⟨d1', d2', d3'⟩ := hd e' (by simp)
  have q := Geometrie.C53_angles (Cardan.mk (e.angles 0) (e.angles 1) (e.angles 2)) d1 d2 d3
  have q' := Geometrie.C53_angles (Cardan.mk (e'.angles 0) (e'.angles 1) (e'.angles 2)) d1' d2' d3'
  have hh : (Cardan.mk (e.angles 0) (e.angles 1) (e.angles 2)).matRotation = (Cardan.mk (e'.angles 0) (e'.angles 1) (e'.angles 2)).matRotation := hr
  rw [hh, q'] at q
  simp only [Cardan.mk.injEq] at q
  funext k
  fin_cases k
  · exact q.1.symm
  · exact q.2.1.symm
  · exact q.2.2.symm

/-- **C178 (prediction).** `f` is one step of duration `1/fs`: the angles move at their speeds, which are constant; the position at its speed, the speed by the acceleration, and the acceleration becomes null. -/
theorem C178_prediction (c : ImuCfg) (ho : c.orient = true) (e : EtatImu) :
    c.f (e.vecteur c.pos) = some (EtatImu.vecteur ⟨e.p + (1 / c.fs) • e.v, e.v + (1 / c.fs) • e.a, 0, e.angles + (1 / c.fs) • e.vitesses, e.vitesses⟩ c.pos) := by
  obtain ⟨acc, gyro, mag, baro, gps, pos, orient, fs, an, gn, mn, bn, gp⟩ := c
  dsimp only at ho
  subst ho
  have h3 : ∀ u : Fin 3 → ℝ, List.ofFn u = [u 0, u 1, u 2] := by intro u; simp [List.ofFn_succ]
  cases pos
  · have hx : e.vecteur false = [e.angles 0, e.angles 1, e.angles 2, e.vitesses 0, e.vitesses 1, e.vitesses 2] := by
      simp [EtatImu.vecteur]
    rw [hx, ImuCfg.f, if_pos (by simp [ns, siPresent])]
    simp [EtatImu.vecteur, h3, iorient, siPresent, lit, List.range_succ]
  · have hx : e.vecteur true = [e.p 0, e.p 1, e.p 2, e.v 0, e.v 1, e.v 2, e.a 0, e.a 1, e.a 2, e.angles 0, e.angles 1, e.angles 2, e.vitesses 0, e.vitesses 1, e.vitesses 2] := by
      simp [EtatImu.vecteur]
    rw [hx, ImuCfg.f, if_pos (by simp [ns, siPresent])]
    simp [EtatImu.vecteur, h3, iorient, siPresent, lit, List.range_succ]

/-- `n` successive predictions. -/
noncomputable def predictions (c : ImuCfg) : ℕ → List ℝ → Option (List ℝ)
  | 0, x => some x
  | n + 1, x => (c.f x).bind fun x' : List ℝ => predictions c n x'

theorem predictions_aux (c : ImuCfg) (ho : c.orient = true) (n : ℕ) : ∀ (e : EtatImu), e.a = 0 →
    predictions c n (e.vecteur c.pos) = some (EtatImu.vecteur ⟨e.p + (n / c.fs : ℝ) • e.v, e.v, 0, e.angles + (n / c.fs : ℝ) • e.vitesses, e.vitesses⟩ c.pos) := by
  induction n with
  | zero => intro e he; obtain ⟨p, v, a, an, w⟩ := e; dsimp only at he; subst he; simp [predictions]
  | succ n ih =>
    intro e he
    rw [predictions, C178_prediction c ho e, Option.bind_some, ih _ rfl]
    simp only [he, smul_zero, add_zero, add_assoc, ← add_smul]
    congr 4 <;> · congr 1; congr 1; push_cast; ring

/-- **C178 (long term).** After `n + 1` predictions the orientation is that of the uniform rotation during `(n + 1)/fs`, and the position that of a uniform motion at the speed `v + a/fs`, delayed by one period (the initial acceleration acts during one period only). -/
theorem C178_long (c : ImuCfg) (ho : c.orient = true) (n : ℕ) (e : EtatImu) :
    predictions c (n + 1) (e.vecteur c.pos) = some (EtatImu.vecteur ⟨e.p + (1 / c.fs) • e.v + (n / c.fs : ℝ) • (e.v + (1 / c.fs) • e.a), e.v + (1 / c.fs) • e.a, 0, e.angles + ((n + 1) / c.fs : ℝ) • e.vitesses, e.vitesses⟩ c.pos) := by
  rw [predictions, C178_prediction c ho e, Option.bind_some, predictions_aux c ho n _ rfl]
  simp only [add_assoc, ← add_smul]
  congr 4
  congr 1
  congr 1
  ring

/-- **C178 (variances).** The diagonal of the covariance of the observation noise follows the layout of the observations: the squares of the standard deviations of the sensors. -/
theorem C178_variances (c : ImuCfg) (ho : c.orient = true) : ∃ r, c.variances = some r ∧ r.length = c.no ∧
    (c.acc = true → Bloc3 r 0 fun _ => c.anoise ^ 2) ∧ (c.gyro = true → Bloc3 r c.igyro fun _ => c.gnoise ^ 2) ∧ (c.mag = true → Bloc3 r c.imag fun _ => c.mnoise ^ 2) ∧
    (c.baro = true → r[c.ibaro]? = some (c.bnoise ^ 2)) ∧ (c.gps = true → Bloc3 r c.igps fun _ => c.gpsnoise ^ 2) := by
  obtain ⟨acc, gyro, mag, baro, gps, pos, orient, fs, an, gn, mn, bn, gp⟩ := c
  dsimp only at ho
  subst ho
  simp only [bloc3_iff]
  refine ⟨_, if_neg (by simp [ns, siPresent]), ?_⟩
  cases acc <;> cases gyro <;> cases mag <;> cases baro <;> cases gps <;> simp [no, igps, ibaro, imag, igyro, siPresent, constante, List.replicate]

/-! ### Defects -/

/-- **C178 (position only, refuted).** A configuration without orientation is accepted if the position is estimated, but none of its observations can be computed (use of a member that is not initialised). -/
theorem C178_sans_orientation_refute (c : ImuCfg) (ho : c.orient = false) (x : List ℝ) : c.g x = none ∧ (c.pos = true → c.variances.isSome) := by
  refine ⟨by simp [ImuCfg.g, iorient, ho], fun hp => ?_⟩
  unfold ImuCfg.variances
  rw [if_neg (by simp [ns, hp, siPresent])]
  rfl

/-- **C178 (GPS, refuted).** Without position estimation the "position" of the GPS is made of the angles, and the altitude of the barometer is the yaw. -/
theorem C178_gps_refute (c : ImuCfg) (ho : c.orient = true) (hp : c.pos = false) (e : EtatImu) : ∃ y, c.g (e.vecteur c.pos) = some y ∧ (c.gps = true → Bloc3 y c.igps e.angles) ∧ (c.baro = true → y[c.ibaro]? = some (e.angles 2)) := by
  obtain ⟨acc, gyro, mag, baro, gps, pos, orient, fs, an, gn, mn, bn, gp⟩ := c
  dsimp only at ho hp
  subst ho hp
  simp only [bloc3_iff]
  have hx : e.vecteur false = [e.angles 0, e.angles 1, e.angles 2, e.vitesses 0, e.vitesses 1, e.vitesses 2] := by
    simp [EtatImu.vecteur]
  rw [hx]
  refine ⟨_, by rw [ImuCfg.g]; simp only [iorient, siPresent, if_true, Option.bind_some]; rw [if_pos (by simp [ns, siPresent])], ?_, ?_⟩
  · intro h; subst h
    cases acc <;> cases gyro <;> cases mag <;> cases baro <;> simp [lit, igyro, imag, ibaro, igps, siPresent]
  · intro h; subst h
    cases acc <;> cases gyro <;> cases mag <;> simp [lit, igyro, imag, ibaro, siPresent]

/-- The model as seen by the extended Kalman filter: `Q` is left empty by the constructor (core/src/kalman/modele-imu.cc:164-180: the covariance of the process noise is computed in a comment only). -/
noncomputable def ImuCfg.modele (c : ImuCfg) : Modele c.ns c.no :=
  let vec : (n : ℕ) → Option (List ℝ) → Fin n → ℝ := fun n l i => (l.getD []).getD i 0
  let f := fun x : Fin c.ns → ℝ => vec c.ns (c.f (List.ofFn x))
  let g := fun x : Fin c.ns → ℝ => vec c.no (c.g (List.ofFn x))
  ⟨f, g, jacobienne f, jacobienne g, none, c.variances.map fun l => Matrix.diagonal fun i => l.getD i 0⟩

/-- **C178 (estimation, refuted).** The documented use (estimation with `filtre_ekf`) always fails at the first step, whatever the configuration. -/
theorem C178_ekf_refute (c : ImuCfg) (k : Filtre (Fin c.ns)) (y : Fin c.no → ℝ) : ekfStep c.modele k y = none := C119_defaut_refute _ rfl _ _

/-! ### Examples -/

/-- The example 1 of the documentation: orientation from the accelerometer and the gyroscope. -/
noncomputable def exempleImu : ImuCfg := ⟨true, true, false, false, false, false, true, 100, 1, 2.2, 0.5, 1, 5⟩

/-- Six states, six observations. -/
example : exempleImu.ns = 6 ∧ exempleImu.no = 6 := by decide

/-- At rest, the accelerometer reads the gravity on its third axis. -/
example : ∃ y, exempleImu.g [0, 0, 0, 0, 0, 0] = some y ∧ y[2]? = some (9.81 : ℝ) := by
  obtain ⟨y, h1, -, h2, -⟩ := C178_observation exempleImu rfl ⟨0, 0, 0, 0, 0⟩
  refine ⟨y, ?_, ?_⟩
  · rw [← h1]; simp [EtatImu.vecteur, exempleImu, List.ofFn_succ]
  · have := h2 rfl 2
    simpa [exempleImu, EtatImu.rotation, Geometrie.mat_entrees, Matrix.mulVec, dotProduct, Fin.sum_univ_three] using this

/-- The hypotheses of `C178_orientation` hold for the documented sensors plus the magnetometer. -/
example : ∃ c : ImuCfg, c.orient = true ∧ c.pos = false ∧ c.acc = true ∧ c.mag = true := ⟨⟨true, true, true, false, false, false, true, 100, 1, 2.2, 0.5, 1, 5⟩, rfl, rfl, rfl, rfl⟩

/-- The hypotheses of `C178_gyro`: a uniform rotation. -/
example (w : Fin 3 → ℝ) (t : ℝ) : ∀ k, HasDerivAt (fun s => (fun (s : ℝ) (k : Fin 3) => s * w k) s k) (w k) t := by
  intro k
  simpa using (hasDerivAt_id t).mul_const (w k)

end Verif.Kalman
