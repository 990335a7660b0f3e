import Mathlib.LinearAlgebra.Matrix.NonsingularInverse
import Mathlib.Analysis.Real.Sqrt
import Verif.Base.Geometry
import Verif.Base.Outcome
import Verif.Model.LinearSolvers

/-!
# Poses with a known axis of rotation

Model of `/repo/src/theia/sfm/pose/three_point_relative_pose_partial_rotation.cc`, `four_point_relative_pose_partial_rotation.cc` and
`sim_transform_partial_rotation.cc`. Real arithmetic. Eigen's eigenvalues, singular vectors and null space are parameters; its inverse
is the exact inverse.
-/

namespace Theia
namespace PartialRotation

open LinearSolvers

/-- `Eigen::Quaterniond`. -/
structure Quaternion where
  w : ℝ
  v : V3 ℝ

/-- `Quaterniond quat(w, axis); quat.normalize()`. -/
noncomputable def normalized (w : ℝ) (v : V3 ℝ) : Quaternion :=
  ⟨w / Real.sqrt (w * w + v.dot v), v.smul (Real.sqrt (w * w + v.dot v))⁻¹⟩

/-- `Quaterniond(AngleAxisd(0.0, axis))` and `Quaterniond::Identity()`. -/
noncomputable def noRotation : Quaternion := ⟨1, ⟨0, 0, 0⟩⟩

/-- An eigenvalue of `EigenSolver` with its eigenvector, real and imaginary parts. The vector is split in two halves. -/
structure EigenPair (n : Nat) where
  re : ℝ
  im : ℝ
  top : Fin n → ℝ
  tail : Fin n → ℝ
  topIm : Fin n → ℝ
  tailIm : Fin n → ℝ

/-- The pairs that `EigenSolver` gives for a matrix, in its order. -/
abbrev EigenPairs (n : Nat) := Matrix (Fin n ⊕ Fin n) (Fin n ⊕ Fin n) ℝ → List (EigenPair n)

/-- The matrix `constraint` of `SolveQEP`
(/repo/src/theia/sfm/pose/three_point_relative_pose_partial_rotation.cc:107-117,
/repo/src/theia/sfm/pose/four_point_relative_pose_partial_rotation.cc:114-124,
/repo/src/theia/sfm/pose/sim_transform_partial_rotation.cc:107-117). -/
noncomputable def constraint {n : Nat} (M C K : Matrix (Fin n) (Fin n) ℝ) : Matrix (Fin n ⊕ Fin n) (Fin n ⊕ Fin n) ℝ :=
  Matrix.fromBlocks ((-1 : ℝ) • M⁻¹ * C) ((-1 : ℝ) • M⁻¹ * K) 1 0

/-- The rows of a matrix. -/
def rows {n : Nat} (M : Matrix (Fin n) (Fin n) ℝ) : List (Fin n → ℝ) := List.ofFn fun i => M i

/-- The first three entries of a row. -/
def head (v : V3 ℝ) : Fin 3 → ℝ := ![v.x, v.y, v.z]

/-- The vector with three entries of an eigenvector. -/
def vec3 {n : Nat} (x : Fin (n + 3) → ℝ) : V3 ℝ := ⟨x ⟨0, by omega⟩, x ⟨1, by omega⟩, x ⟨2, by omega⟩⟩

/-- `CHECK_DOUBLE_EQ(axis.squaredNorm(), 1.0)`, which allows a difference of 1e-15. -/
def AxisOk (axis : V3 ℝ) : Prop := |axis.dot axis - 1| ≤ 1 / 10 ^ 15

/-! ### Three points -/

/-- The matrix `M` (/repo/src/theia/sfm/pose/three_point_relative_pose_partial_rotation.cc:181-187). -/
noncomputable def m3 (q1 q2 : Fin 3 → V3 ℝ) : Matrix (Fin 3) (Fin 3) ℝ := fun i => head ((q2 i).cross (q1 i))

/-- The matrix `C`. -/
noncomputable def c3 (axis : V3 ℝ) (q1 q2 : Fin 3 → V3 ℝ) : Matrix (Fin 3) (Fin 3) ℝ :=
  fun i => head (((q2 i).cross (axis.cross (q1 i))).smul 2)

/-- The matrix `K`. -/
noncomputable def k3 (axis : V3 ℝ) (q1 q2 : Fin 3 → V3 ℝ) : Matrix (Fin 3) (Fin 3) ℝ :=
  fun i => head ((((q2 i).cross axis).smul (2 * (q1 i).dot axis)).sub ((q2 i).cross (q1 i)))

/-- Eigenvalues that `SolveQEP` keeps for three points
(/repo/src/theia/sfm/pose/three_point_relative_pose_partial_rotation.cc:121-134). -/
def kept3 {n : Nat} (p : EigenPair n) : Prop := ¬ (|p.im - 1| < 1 / 10 ^ 12 ∨ |p.im + 1| < 1 / 10 ^ 12)

/-- `ThreePointRelativePosePartialRotation` (/repo/src/theia/sfm/pose/three_point_relative_pose_partial_rotation.cc:141-223): the
rotations and translations, one after the other. `last` is the last right singular vector of a matrix given by its rows. -/
noncomputable def threePoint (eigen : EigenPairs 3) (last : List (Fin 3 → ℝ) → Fin 3 → ℝ) (axis : V3 ℝ) (q1 q2 : Fin 3 → V3 ℝ) :
    Outcome (List (Quaternion × V3 ℝ)) :=
  open Classical in
  if ¬ AxisOk axis then .abort
  else if 1 / 10 ^ 12 < |(m3 q1 q2).det| then
    .ok (((eigen (constraint (m3 q1 q2) (c3 axis q1 q2) (k3 axis q1 q2))).filter fun p => kept3 p).flatMap fun p =>
      [(normalized p.re axis, vec3 (n := 0) p.tail), (normalized p.re axis, (vec3 (n := 0) p.tail).neg)])
  else
    let e := vec3 (n := 0) (last (rows (m3 q1 q2)))
    .ok [(noRotation, e), (noRotation, e.neg)]

/-! ### Four points -/

/-- A ray. -/
structure Ray where
  direction : V3 ℝ
  origin : V3 ℝ

/-- The moment of a ray (`p1` and `p2` in the code). -/
noncomputable def Ray.moment (r : Ray) : V3 ℝ := r.origin.cross r.direction

/-- A row: three entries of a vector and one more. -/
def row4 (v : V3 ℝ) (a : ℝ) : Fin 4 → ℝ := ![v.x, v.y, v.z, a]

/-- The matrix `M` (/repo/src/theia/sfm/pose/four_point_relative_pose_partial_rotation.cc:199-216). -/
noncomputable def m4 (r1 r2 : Fin 4 → Ray) : Matrix (Fin 4) (Fin 4) ℝ := fun i =>
  let q1 := (r1 i).direction
  let q2 := (r2 i).direction
  row4 (q2.cross q1).neg (q2.dot (r1 i).moment + q1.dot (r2 i).moment)

/-- The matrix `C`. -/
noncomputable def c4 (axis : V3 ℝ) (r1 r2 : Fin 4 → Ray) : Matrix (Fin 4) (Fin 4) ℝ := fun i =>
  let q1 := (r1 i).direction
  let q2 := (r2 i).direction
  row4 ((q2.cross (axis.cross q1)).smul (-2)) (-2 * (q1.dot (axis.cross (r2 i).moment) - q2.dot (axis.cross (r1 i).moment)))

/-- The matrix `K`. -/
noncomputable def k4 (axis : V3 ℝ) (r1 r2 : Fin 4 → Ray) : Matrix (Fin 4) (Fin 4) ℝ := fun i =>
  let q1 := (r1 i).direction
  let q2 := (r2 i).direction
  row4 (((q2.cross axis).smul (2 * q1.dot axis)).sub (q2.cross q1)).neg
    (-q2.dot (r1 i).moment - q1.dot (r2 i).moment +
      2 * (q2.dot axis * (r1 i).moment.dot axis + q1.dot axis * (r2 i).moment.dot axis))

/-- Eigenvalues that `SolveQEP` keeps for four points
(/repo/src/theia/sfm/pose/four_point_relative_pose_partial_rotation.cc:126-138). -/
def kept4 {n : Nat} (p : EigenPair n) : Prop := |p.im| < 1 / 10 ^ 9

/-- `FourPointRelativePosePartialRotation` (/repo/src/theia/sfm/pose/four_point_relative_pose_partial_rotation.cc:145-262). -/
noncomputable def fourPoint (eigen : EigenPairs 4) (last : List (Fin 4 → ℝ) → Fin 4 → ℝ) (axis : V3 ℝ) (r1 r2 : Fin 4 → Ray) :
    Outcome (List (Quaternion × V3 ℝ)) :=
  open Classical in
  if ¬ AxisOk axis then .abort
  else if 1 / 10 ^ 7 < |(m4 r1 r2).det| then
    .ok (((eigen (constraint (m4 r1 r2) (c4 axis r1 r2) (k4 axis r1 r2))).filter fun p => kept4 p ∧ 1 / 10 ^ 7 < |p.tail 3|).map
      fun p => (normalized p.re axis, (vec3 (n := 1) p.tail).smul (p.tail 3)⁻¹))
  else
    let e := last (rows (m4 r1 r2))
    if 1 / 10 ^ 7 < |e 3| then .ok [(noRotation, (vec3 (n := 1) e).smul (e 3)⁻¹)] else .ok []

/-! ### Five points, with a scale -/

/-- A row: three entries of a vector and two more. -/
def row5 (v : V3 ℝ) (a b : ℝ) : Fin 5 → ℝ := ![v.x, v.y, v.z, a, b]

/-- A row of the matrices for a part `rot` of the rotation (/repo/src/theia/sfm/pose/sim_transform_partial_rotation.cc:208-226). -/
noncomputable def simRow (rot : V3 ℝ → V3 ℝ) (r1 r2 : Ray) : Fin 5 → ℝ :=
  row5 (r1.direction.cross (rot r2.direction)) (-(r1.direction.dot (rot (r2.origin.cross r2.direction))))
    (r1.direction.dot (r1.origin.cross (rot r2.direction)))

/-- The matrices `M`, `C` and `K` with `rot_alpha_sq`, `rot_alpha` and `rot_constant`
(/repo/src/theia/sfm/pose/sim_transform_partial_rotation.cc:203-227). -/
noncomputable def m5 (r1 r2 : Fin 5 → Ray) : Matrix (Fin 5) (Fin 5) ℝ := fun i => simRow (fun p => p) (r1 i) (r2 i)
noncomputable def c5 (axis : V3 ℝ) (r1 r2 : Fin 5 → Ray) : Matrix (Fin 5) (Fin 5) ℝ :=
  fun i => simRow (fun p => (axis.cross p).smul 2) (r1 i) (r2 i)
noncomputable def k5 (axis : V3 ℝ) (r1 r2 : Fin 5 → Ray) : Matrix (Fin 5) (Fin 5) ℝ :=
  fun i => simRow (fun p => (axis.smul (2 * axis.dot p)).sub p) (r1 i) (r2 i)

/-- The loop of `SolveQEP` for the similarity (/repo/src/theia/sfm/pose/sim_transform_partial_rotation.cc:121-132): `previous` is the
real part of the eigenvalue before. -/
noncomputable def kept5 {n : Nat} : Option ℝ → List (EigenPair n) → List (EigenPair n)
  | _, [] => []
  | previous, p :: ps =>
    open Classical in
    if |p.im| = 1 ∨ previous = some p.re then kept5 (some p.re) ps
    else p :: kept5 (some p.re) ps

/-- `SimTransformPartialRotation` (/repo/src/theia/sfm/pose/sim_transform_partial_rotation.cc:138-281): rotations with translations, and
the scales. The scales are appended to what was in `scales`. `isInvertible` of `FullPivLU` is that the determinant is not zero. -/
noncomputable def simTransform (eigen : EigenPairs 5) (kernel : Kernel 5) (axis : V3 ℝ) (r1 r2 : Fin 5 → Ray) (scales : List ℝ) :
    Outcome (List (Quaternion × V3 ℝ) × List ℝ) :=
  open Classical in
  if ¬ AxisOk axis then .abort
  else if (m5 r1 r2).det ≠ 0 then
    let good := (kept5 none (eigen (constraint (m5 r1 r2) (c5 axis r1 r2) (k5 axis r1 r2)))).filter fun p =>
      ¬ (|p.tail 4| < 1 / 10 ^ 12 ∨ p.tail 3 / p.tail 4 < 0)
    .ok (good.map fun p => (normalized p.re axis, (vec3 (n := 2) p.tail).smul (p.tail 4)⁻¹),
      scales ++ good.map fun p => p.tail 3 / p.tail 4)
  else
    match kernel (rows (m5 r1 r2)) with
    | ⟨1, N⟩ =>
      if 1 / 10 ^ 12 < |N 0 4| then
        .ok ([(noRotation, (vec3 (n := 2) (N 0)).smul (N 0 4)⁻¹)], scales ++ [N 0 3 / N 0 4])
      else .ok ([], scales)
    | _ => .ok ([], scales)

end PartialRotation
end Theia
