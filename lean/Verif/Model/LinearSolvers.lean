import Mathlib.Algebra.BigOperators.Fin
import Mathlib.Data.Fin.VecNotation
import Verif.Model.PoseUtil

/-!
# Model of the solvers that find the null space of a linear system

Models `seven_point_fundamental_matrix.cc`, `eight_point_fundamental_matrix.cc`, `four_point_homography.cc`,
`position_from_two_rays.cc` and `relative_pose_from_two_points_with_known_rotation.cc` of `src/theia/sfm/pose`, over the reals.
A matrix is the list of its rows. The decompositions of Eigen are parameters, with exact ranks.
-/

namespace Theia
namespace LinearSolvers

open Triangulation PoseUtil

/-- `FullPivLU`: `dimensionOfKernel()` and the columns of `kernel()`. -/
abbrev Kernel (n : Nat) : Type := List (Fin n → ℝ) → (k : Nat) × (Fin k → Fin n → ℝ)

/-- `Map<const Matrix3d>` of nine numbers: column by column (seven_point_fundamental_matrix.cc:106-108). -/
def ofColumns (v : Fin 9 → ℝ) : M3 ℝ := ⟨⟨v 0, v 3, v 6⟩, ⟨v 1, v 4, v 7⟩, ⟨v 2, v 5, v 8⟩⟩

/-- `s * A + B`. -/
noncomputable def pencil (s : ℝ) (A B : M3 ℝ) : M3 ℝ := ⟨(A.r1.smul s).add B.r1, (A.r2.smul s).add B.r2, (A.r3.smul s).add B.r3⟩

/-- A row of `SetupEpipolarConstraint` (seven_point_fundamental_matrix.cc:60-69). -/
def sevenRow (x y : V2) : Fin 9 → ℝ :=
  ![y.1 * x.1, y.2 * x.1, x.1, y.1 * x.2, y.2 * x.2, x.2, y.1, y.2, 1]

/-- `determinant_constraint` (seven_point_fundamental_matrix.cc:111-145). -/
def cubic (A B : M3 ℝ) : List ℝ :=
  [-(B.r2.z * B.r3.y - B.r2.y * B.r3.z) * B.r1.x + (B.r1.z * B.r3.y - B.r1.y * B.r3.z) * B.r2.x -
      (B.r1.z * B.r2.y - B.r1.y * B.r2.z) * B.r3.x,
    -(B.r2.z * B.r3.y - B.r2.y * B.r3.z) * A.r1.x + (B.r1.z * B.r3.y - B.r1.y * B.r3.z) * A.r2.x -
      (B.r1.z * B.r2.y - B.r1.y * B.r2.z) * A.r3.x +
      (A.r3.z * B.r2.y - A.r3.y * B.r2.z - A.r2.z * B.r3.y + A.r2.y * B.r3.z) * B.r1.x -
      (A.r3.z * B.r1.y - A.r3.y * B.r1.z - A.r1.z * B.r3.y + A.r1.y * B.r3.z) * B.r2.x +
      (A.r2.z * B.r1.y - A.r2.y * B.r1.z - A.r1.z * B.r2.y + A.r1.y * B.r2.z) * B.r3.x,
    (A.r3.z * B.r2.y - A.r3.y * B.r2.z - A.r2.z * B.r3.y + A.r2.y * B.r3.z) * A.r1.x -
      (A.r3.z * B.r1.y - A.r3.y * B.r1.z - A.r1.z * B.r3.y + A.r1.y * B.r3.z) * A.r2.x +
      (A.r2.z * B.r1.y - A.r2.y * B.r1.z - A.r1.z * B.r2.y + A.r1.y * B.r2.z) * A.r3.x -
      (A.r2.z * A.r3.y - A.r2.y * A.r3.z) * B.r1.x + (A.r1.z * A.r3.y - A.r1.y * A.r3.z) * B.r2.x -
      (A.r1.z * A.r2.y - A.r1.y * A.r2.z) * B.r3.x,
    -(A.r2.z * A.r3.y - A.r2.y * A.r3.z) * A.r1.x + (A.r1.z * A.r3.y - A.r1.y * A.r3.z) * A.r2.x -
      (A.r1.z * A.r2.y - A.r1.y * A.r2.z) * A.r3.x]

/-- The part of `SevenPointFundamentalMatrix` after the normalization (seven_point_fundamental_matrix.cc:93-157). `find` is
`FindPolynomialRoots`: the real parts of the roots; its return value is not used (line 149), and if it fails the vector of roots
stays empty. A root that is not a number (C65: `a x^2` without other terms) is taken as a failure. -/
noncomputable def sevenCore (kernel : Kernel 9) (find : List ℝ → Option (List ℝ)) (xs ys : List V2) (N1 N2 : M3 ℝ) : Bool × List (M3 ℝ) :=
  match kernel (List.zipWith sevenRow xs ys) with
  | ⟨2, K⟩ =>
    let A := ofColumns (K 0 - K 1)
    let B := ofColumns (K 1)
    let roots := (find (cubic A B)).getD []
    (!roots.isEmpty, roots.map fun r => (N2.transpose.mul (pencil r A B)).mul N1)
  | _ => (false, [])

/-- `SevenPointFundamentalMatrix` (seven_point_fundamental_matrix.cc:77-158). -/
noncomputable def sevenPoint (kernel : Kernel 9) (find : List ℝ → Option (List ℝ)) (xs ys : List V2) :
    Outcome (Bool × List (M3 ℝ)) :=
  if xs.length ≠ 7 ∨ ys.length ≠ 7 then .abort
  else do
    let (xs', N1) ← normalizePoints xs
    let (ys', N2) ← normalizePoints ys
    .ok (sevenCore kernel find xs' ys' N1 N2)

/-- A row of the constraint matrix of `NormalizedEightPointFundamentalMatrix` (eight_point_fundamental_matrix.cc:71-76). -/
def eightRow (x y : V2) : Fin 9 → ℝ :=
  ![x.1 * y.1, x.2 * y.1, 1 * y.1, x.1 * y.2, x.2 * y.2, 1 * y.2, x.1, x.2, 1]

/-- The vector in the null space (eight_point_fundamental_matrix.cc:82-93). `last` is the last column of `matrixV()` of the
singular value decomposition of a matrix with nine columns. -/
noncomputable def eightVector (kernel : Kernel 9) (last : List (Fin 9 → ℝ) → Fin 9 → ℝ) (A : List (Fin 9 → ℝ)) : Option (Fin 9 → ℝ) :=
  if A.length = 8 then
    match kernel A with
    | ⟨1, K⟩ => some (K 0)
    | _ => none
  else some (last A)

/-- `NormalizedEightPointFundamentalMatrix` (eight_point_fundamental_matrix.cc:54-113): `none` if it returns false. `svd` is
`JacobiSVD` of a 3x3 matrix: `matrixU()`, `singularValues()` and `matrixV()`. -/
noncomputable def eightPoint (kernel : Kernel 9) (last : List (Fin 9 → ℝ) → Fin 9 → ℝ) (svd : M3 ℝ → M3 ℝ × V3 ℝ × M3 ℝ)
    (xs ys : List V2) : Outcome (Option (M3 ℝ)) :=
  if xs.length ≠ ys.length ∨ xs.length < 8 then .abort
  else do
    let (xs', N1) ← normalizePoints xs
    let (ys', N2) ← normalizePoints ys
    match eightVector kernel last (List.zipWith eightRow xs' ys') with
    | none => .ok none
    | some f =>
      let (U, s, V) := svd (ofColumns f).transpose
      let F := (U.mul ⟨⟨s.x, 0, 0⟩, ⟨0, s.y, 0⟩, ⟨0, 0, 0⟩⟩).mul V.transpose
      .ok (some ((N2.transpose.mul F).mul N1))

/-- `CreateActionConstraint` (four_point_homography.cc:55-64). -/
def actionRows (x y : V2) : List (Fin 9 → ℝ) :=
  [![0, 0, 0, -x.1, -x.2, -1, x.1 * y.2, x.2 * y.2, y.2],
   ![x.1, x.2, 1, 0, 0, 0, -x.1 * y.1, -x.2 * y.1, -y.1]]

/-- `action_matrix.transpose() * action_matrix` (four_point_homography.cc:94). -/
def gram (A : List (Fin 9 → ℝ)) : List (Fin 9 → ℝ) :=
  List.ofFn fun i => fun j => (A.map fun r => r i * r j).sum

/-- `inverse()` of a 3x3 matrix, with the cofactors. -/
noncomputable def inverse (m : M3 ℝ) : M3 ℝ :=
  ⟨⟨(m.r2.y * m.r3.z - m.r2.z * m.r3.y) / m.det, (m.r1.z * m.r3.y - m.r1.y * m.r3.z) / m.det,
      (m.r1.y * m.r2.z - m.r1.z * m.r2.y) / m.det⟩,
    ⟨(m.r2.z * m.r3.x - m.r2.x * m.r3.z) / m.det, (m.r1.x * m.r3.z - m.r1.z * m.r3.x) / m.det,
      (m.r1.z * m.r2.x - m.r1.x * m.r2.z) / m.det⟩,
    ⟨(m.r2.x * m.r3.y - m.r2.y * m.r3.x) / m.det, (m.r1.y * m.r3.x - m.r1.x * m.r3.y) / m.det,
      (m.r1.x * m.r2.y - m.r1.y * m.r2.x) / m.det⟩⟩

/-- `FourPointHomography` (four_point_homography.cc:72-101), which always returns true. The determinant of the matrix inverted is
positive (C59). -/
noncomputable def homography (last : List (Fin 9 → ℝ) → Fin 9 → ℝ) (xs ys : List V2) : Outcome (M3 ℝ) :=
  if xs.length < 4 ∨ xs.length ≠ ys.length then .abort
  else do
    let (xs', N1) ← normalizePoints xs
    let (ys', N2) ← normalizePoints ys
    let v := last (gram (List.zipWith actionRows xs' ys').flatten)
    .ok (((inverse N2).mul (ofColumns v).transpose).mul N1)

/-- The rows of `lhs` (position_from_two_rays.cc:63-67). -/
def rayRows (f1 f2 : V2) : List (V3 ℝ) := [⟨1, 0, -f1.1⟩, ⟨0, 1, -f1.2⟩, ⟨1, 0, -f2.1⟩, ⟨0, 1, -f2.2⟩]

/-- `rhs` (position_from_two_rays.cc:70-72). -/
def rayRhs (f1 : V2) (p1 : V3 ℝ) (f2 : V2) (p2 : V3 ℝ) : List ℝ :=
  [p1.x - f1.1 * p1.z, p1.y - f1.2 * p1.z, p2.x - f2.1 * p2.z, p2.y - f2.2 * p2.z]

/-- `PositionFromTwoRays` (position_from_two_rays.cc:56-83): `none` if it returns false. `qr` is `ColPivHouseholderQR`: `rank()` and
`solve()`. -/
def positionFromTwoRays (qr : List (V3 ℝ) → Nat × (List ℝ → V3 ℝ)) (f1 : V2) (p1 : V3 ℝ) (f2 : V2) (p2 : V3 ℝ) : Option (V3 ℝ) :=
  if (qr (rayRows f1 f2)).1 ≠ 3 then none else some ((qr (rayRows f1 f2)).2 (rayRhs f1 p1 f2 p2))

/-- A row of `epipolar_constraint` (relative_pose_from_two_points_with_known_rotation.cc:67-73). -/
def translationRow (p q : V2) : Fin 3 → ℝ := ![-p.2 + q.2, -q.1 + p.1, p.2 * q.1 - p.1 * q.2]

/-- `RelativePoseFromTwoPointsWithKnownRotation` (relative_pose_from_two_points_with_known_rotation.cc:51-88): `none` if it returns
false. -/
noncomputable def relativePosition (kernel : Kernel 3) (p q : Fin 2 → V2) : Option (V3 ℝ) :=
  match kernel [translationRow (p 0) (q 0), translationRow (p 1) (q 1)] with
  | ⟨1, K⟩ =>
    let v : V3 ℝ := ⟨K 0 0, K 0 1, K 0 2⟩
    some (v.smul (1 / Real.sqrt (v.dot v)))
  | _ => none

end LinearSolvers
end Theia
