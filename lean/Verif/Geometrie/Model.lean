import Mathlib.Analysis.SpecialFunctions.Complex.Arg
import Mathlib.Analysis.SpecialFunctions.Trigonometric.Inverse
import Mathlib.LinearAlgebra.Matrix.Notation
import Mathlib.LinearAlgebra.Matrix.Determinant.Basic

/-!
# Model of the 3d rotations (core/src/geometrie.cc, core/include/tsd/geometrie.hpp)

Exact real arithmetic (the C++ code uses `float`).
-/

namespace Verif.Geometrie

open Real

/-- `Quaternion::q`, core/include/tsd/geometrie.hpp:30-33. -/
@[ext] structure Quat where
  w : ℝ
  x : ℝ
  y : ℝ
  z : ℝ

/-- `Quaternion(q0, q1, q2, q3)`, core/src/geometrie.cc:102-106. -/
noncomputable def Quat.creation (w x y z : ℝ) : Quat :=
  let n := √(w * w + x * x + y * y + z * z)
  ⟨w / n, x / n, y / n, z / n⟩

/-- `identite`, core/src/geometrie.cc:145-148. -/
noncomputable def Quat.identite : Quat := Quat.creation 1 0 0 0

/-- `inv`, core/src/geometrie.cc:151-157. -/
def Quat.inv (q : Quat) : Quat := ⟨q.w, -q.x, -q.y, -q.z⟩

/-- `rot_mat`, core/src/geometrie.cc:53-64. -/
def Quat.rotMat (q : Quat) : Matrix (Fin 3) (Fin 3) ℝ :=
  !![1 - 2 * (q.y * q.y + q.z * q.z), 2 * (q.x * q.y - q.z * q.w), 2 * (q.x * q.z + q.y * q.w);
     2 * (q.x * q.y + q.z * q.w), 1 - 2 * (q.z * q.z + q.x * q.x), 2 * (q.y * q.z - q.x * q.w);
     2 * (q.x * q.z - q.y * q.w), 2 * (q.y * q.z + q.x * q.w), 1 - 2 * (q.y * q.y + q.x * q.x)]

/-- `cross`, core/src/geometrie.cc:66-72. -/
def croix (a b : Fin 3 → ℝ) : Fin 3 → ℝ :=
  ![a 1 * b 2 - a 2 * b 1, a 2 * b 0 - a 0 * b 2, a 0 * b 1 - a 1 * b 0]

/-- `rotate`, core/src/geometrie.cc:76-82. -/
def Quat.rotate (q : Quat) (x : Fin 3 → ℝ) : Fin 3 → ℝ :=
  let e : Fin 3 → ℝ := ![-q.x, -q.y, -q.z]
  let u := croix e x
  let v := croix (fun i => 2 * e i) (fun i => u i - q.w * x i)
  fun i => x i + v i

/-- `makeC`, core/src/geometrie.cc:33-49 and `mat`, core/src/geometrie.cc:84-94. -/
def Quat.mat (q : Quat) : Matrix (Fin 4) (Fin 4) ℝ :=
  !![q.w, -q.x, -q.y, -q.z;
     q.x, 0, -q.z, q.y;
     q.y, q.z, 0, -q.x;
     q.z, -q.y, q.x, 0]

/-- The numerators and `t` in `Quaternion(R)`, core/src/geometrie.cc:109-142. -/
noncomputable def numerateurs (R : Matrix (Fin 3) (Fin 3) ℝ) : Quat × ℝ :=
  if R 2 2 < 0 then
    if R 0 0 > R 1 1 then
      let t := 1 + R 0 0 - R 1 1 - R 2 2
      (⟨R 2 1 - R 1 2, t, R 1 0 + R 0 1, R 2 0 + R 0 2⟩, t)
    else
      let t := 1 - R 0 0 + R 1 1 - R 2 2
      (⟨R 0 2 - R 2 0, R 0 1 + R 1 0, t, R 1 2 + R 2 1⟩, t)
  else
    if R 0 0 < -R 1 1 then
      let t := 1 - R 0 0 - R 1 1 + R 2 2
      (⟨R 1 0 - R 0 1, R 2 0 + R 0 2, R 1 2 + R 2 1, t⟩, t)
    else
      let t := 1 + R 0 0 + R 1 1 + R 2 2
      (⟨t, R 2 1 - R 1 2, R 0 2 - R 2 0, R 1 0 - R 0 1⟩, t)

/-- `Quaternion(R)`, core/src/geometrie.cc:109-142. -/
noncomputable def Quat.deMatrice (R : Matrix (Fin 3) (Fin 3) ℝ) : Quat :=
  let n := numerateurs R
  let k := 1 / 2 / √n.2
  ⟨n.1.w * k, n.1.x * k, n.1.y * k, n.1.z * k⟩

/-- `Cardan`, core/include/tsd/geometrie.hpp:75-84. -/
@[ext] structure Cardan where
  φ : ℝ
  θ : ℝ
  ψ : ℝ

/-- `atan2(y, x)` of the C library. -/
noncomputable def atan2 (y x : ℝ) : ℝ := Complex.arg (⟨x, y⟩ : ℂ)

/-- `rotmat_3d_R1`, core/include/tsd/geometrie.hpp:108-117. -/
noncomputable def rotR1 (α : ℝ) : Matrix (Fin 3) (Fin 3) ℝ := !![1, 0, 0; 0, cos α, sin α; 0, -sin α, cos α]

/-- `rotmat_3d_R2`, core/include/tsd/geometrie.hpp:121-130. -/
noncomputable def rotR2 (α : ℝ) : Matrix (Fin 3) (Fin 3) ℝ := !![cos α, 0, -sin α; 0, 1, 0; sin α, 0, cos α]

/-- `rotmat_3d_R3`, core/include/tsd/geometrie.hpp:133-142. -/
noncomputable def rotR3 (α : ℝ) : Matrix (Fin 3) (Fin 3) ℝ := !![cos α, sin α, 0; -sin α, cos α, 0; 0, 0, 1]

/-- `mat_rotation`, core/src/geometrie.cc:228-235. -/
noncomputable def Cardan.matRotation (c : Cardan) : Matrix (Fin 3) (Fin 3) ℝ := rotR1 c.φ * rotR2 c.θ * rotR3 c.ψ

/-- `Cardan(R)`, core/src/geometrie.cc:167-172. -/
noncomputable def Cardan.deMatrice (R : Matrix (Fin 3) (Fin 3) ℝ) : Cardan :=
  ⟨atan2 (R 1 2) (R 2 2), -arcsin (R 0 2), atan2 (R 0 1) (R 0 0)⟩

/-- `Cardan(q)`, core/src/geometrie.cc:174-183. -/
noncomputable def Cardan.deQuat (q : Quat) : Cardan :=
  ⟨atan2 (2 * q.y * q.z + 2 * q.w * q.x) (q.z * q.z - q.y * q.y - q.x * q.x + q.w * q.w),
   -arcsin (2 * q.x * q.z - 2 * q.w * q.y),
   atan2 (2 * q.x * q.y + 2 * q.w * q.z) (q.x * q.x + q.w * q.w - q.z * q.z - q.y * q.y)⟩

end Verif.Geometrie
