import Mathlib.Analysis.SpecialFunctions.Trigonometric.Inverse
import Verif.Base.Outcome
import Verif.Base.Geometry

/-!
# Model of triangulation (src/theia/sfm/triangulation/triangulation.cc, src/theia/sfm/pose/util.cc,
src/theia/sfm/pose/essential_matrix_utils.cc: EssentialMatrixFromTwoProjectionMatrices)

Over the reals. A `Matrix3x4d` is its left 3x3 block and its last column, a `Vector4d` its first three entries and
the last. Eigen's decompositions are parameters: what they are given is written out here.
-/

namespace Theia
namespace Triangulation

/-- An image point. -/
abbrev V2 := ℝ × ℝ

/-- `Matrix3x4d`. -/
abbrev P34 := M3 ℝ × V3 ℝ

/-- `Vector4d`. -/
abbrev V4 := V3 ℝ × ℝ

/-- `homogeneous()` of an image point. -/
noncomputable def homog (p : V2) : V3 ℝ := ⟨p.1, p.2, 1⟩

/-- A projection matrix times a homogeneous point. -/
noncomputable def applyP (P : P34) (X : V4) : V3 ℝ := (P.1.mulVec X.1).add (P.2.smul X.2)

/-- `dot` of two 4-vectors. -/
noncomputable def dot4 (a b : V4) : ℝ := a.1.dot b.1 + a.2 * b.2

/-- Sum of two 4-vectors. -/
noncomputable def add4 (a b : V4) : V4 := (a.1.add b.1, a.2 + b.2)

/-- `CrossProductMatrix` (pose/util.cc:70-76). -/
noncomputable def crossMatrix (v : V3 ℝ) : M3 ℝ := ⟨⟨0, -v.z, v.y⟩, ⟨v.z, 0, -v.x⟩, ⟨-v.y, v.x, 0⟩⟩

/-- Eigen's `normalized()`: the zero vector is returned as it is. -/
noncomputable def normalize (v : V3 ℝ) : V3 ℝ :=
  if 0 < v.dot v then v.smul (1 / Real.sqrt (v.dot v)) else v

/-- The translation of `EssentialMatrixFromTwoProjectionMatrices` before it is normalized
(essential_matrix_utils.cc:91-104). -/
noncomputable def relativeTranslation (P1 P2 : P34) : V3 ℝ := P1.2.sub ((P1.1.mul P2.1.transpose).mulVec P2.2)

/-- `EssentialMatrixFromTwoProjectionMatrices` (essential_matrix_utils.cc:86-106). -/
noncomputable def essentialFromPoses (P1 P2 : P34) : M3 ℝ :=
  (crossMatrix (normalize (relativeTranslation P1 P2))).mul (P1.1.mul P2.1.transpose)

/-! ## Two views -/

/-- `e_submatrix * v` (triangulation.cc:78). -/
noncomputable def subMul (E : M3 ℝ) (v : V2) : V2 := (E.r1.x * v.1 + E.r1.y * v.2, E.r2.x * v.1 + E.r2.y * v.2)

/-- `squaredNorm()` of a 2-vector. -/
noncomputable def sq2 (v : V2) : ℝ := v.1 * v.1 + v.2 * v.2

/-- `s_matrix * v` (triangulation.cc:75-76). -/
noncomputable def head2 (v : V3 ℝ) : V2 := (v.x, v.y)

/-- One update of an epipolar line, `line -= e_submatrix * lambda * line` (triangulation.cc:92-93): each line is
updated with itself. -/
noncomputable def updateLine (E : M3 ℝ) (lambda : ℝ) (line : V2) : V2 :=
  (line.1 - lambda * (subMul E line).1, line.2 - lambda * (subMul E line).2)

/-- The corrected point (triangulation.cc:98-103); the last entry is 1, so `hnormalized()` only drops it. -/
noncomputable def moveAlong (lambda : ℝ) (point line : V2) : V2 := (point.1 - lambda * line.1, point.2 - lambda * line.2)

/-- `FindOptimalImagePoints` from the updated lines on (triangulation.cc:95-103). -/
noncomputable def correctPoints (lambda d : ℝ) (line1 line2 point1 point2 : V2) : Outcome (V2 × V2) :=
  if sq2 line1 + sq2 line2 = 0 then .ub
  else
    let l := lambda * (2 * d / (sq2 line1 + sq2 line2))
    .ok (moveAlong l point1 line1, moveAlong l point2 line2)

/-- `FindOptimalImagePoints` (triangulation.cc:66-104). A negative argument of `sqrt` and a division by zero give NaN:
`ub`. -/
noncomputable def findOptimalImagePoints (E : M3 ℝ) (point1 point2 : V2) : Outcome (V2 × V2) :=
  let line1 := head2 (E.mulVec (homog point2))
  let line2 := head2 (E.transpose.mulVec (homog point1))
  let a := line1.1 * (subMul E line2).1 + line1.2 * (subMul E line2).2
  let b := (sq2 line1 + sq2 line2) / 2
  let c := (homog point1).dot (E.mulVec (homog point2))
  if b * b - a * c < 0 then .ub
  else
    let d := Real.sqrt (b * b - a * c)
    if b + d = 0 then .ub
    else
      let lambda := c / (b + d)
      correctPoints lambda d (updateLine E lambda line1) (updateLine E.transpose lambda line2) point1 point2

/-- `x * pose.row(2) - row` (triangulation.cc:166-169), times the unknown point. -/
noncomputable def dltRow (x : ℝ) (last row : ℝ) : ℝ := x * last - row

/-- The design matrix of `TriangulateDLT` times a 4-vector (triangulation.cc:165-169), as the four entries. -/
noncomputable def dltDesign (P1 P2 : P34) (point1 point2 : V2) (X : V4) : List ℝ :=
  [dltRow point1.1 (applyP P1 X).z (applyP P1 X).x, dltRow point1.2 (applyP P1 X).z (applyP P1 X).y,
   dltRow point2.1 (applyP P2 X).z (applyP P2 X).x, dltRow point2.2 (applyP P2 X).z (applyP P2 X).y]

/-- `squaredNorm()` of a vector of any length. -/
noncomputable def sqNorm (l : List ℝ) : ℝ := (l.map (fun a => a * a)).sum

/-- `TriangulateDLT` (triangulation.cc:160-175). `smallest` is the last column of V of the singular value
decomposition; the matrix is handed over as the map from a vector to the squared norm of its image. -/
noncomputable def triangulateDLT (smallest : (V4 → ℝ) → V4) (P1 P2 : P34) (point1 point2 : V2) : V4 :=
  smallest (fun X => sqNorm (dltDesign P1 P2 point1 point2 X))

/-- `Triangulate` (triangulation.cc:109-125). It always returns true. -/
noncomputable def triangulate (smallest : (V4 → ℝ) → V4) (P1 P2 : P34) (point1 point2 : V2) : Outcome V4 := do
  let corrected ← findOptimalImagePoints (essentialFromPoses P1 P2) point1 point2
  .ok (triangulateDLT smallest P1 P2 corrected.1 corrected.2)

/-- `TriangulationEstimator::EstimateModel` (estimators/estimate_triangulation.cc:64-94): the point, if it is
returned as a model. -/
noncomputable def estimateModel (smallest : (V4 → ℝ) → V4) (P1 P2 : P34) (point1 point2 : V2) :
    Outcome (Option V4) := do
  let X ← triangulate smallest P1 P2 point1 point2
  .ok (if 0 < (applyP P1 X).z ∧ 0 < (applyP P2 X).z then some X else none)

/-! ## Any number of views -/

/-- `A_term * v` with `A_term = I - d d^T`, `d = (direction, 0)` (triangulation.cc:142-146). -/
noncomputable def midpointTerm (direction : V3 ℝ) (v : V4) : V4 := (v.1.sub (direction.smul (direction.dot v.1)), v.2)

/-- `A * v` (triangulation.cc:137-149). -/
noncomputable def midpointMatrix : List (V3 ℝ) → V4 → V4
  | [], _ => (V3.zero, 0)
  | d :: ds, v => add4 (midpointTerm d v) (midpointMatrix ds v)

/-- `b` (triangulation.cc:139-149). -/
noncomputable def midpointRhs : List (V3 ℝ × V3 ℝ) → V4
  | [] => (V3.zero, 0)
  | r :: rs => add4 (midpointTerm r.2 (r.1, 1)) (midpointRhs rs)

/-- `TriangulateMidpoint` (triangulation.cc:130-157): the point, if true is returned. `llt` is Eigen's Cholesky
decomposition and solve, given the matrix as a map. -/
noncomputable def triangulateMidpoint (llt : (V4 → V4) → V4 → Option V4) (origins directions : List (V3 ℝ)) : Outcome (Option V4) :=
  if origins.length < 2 then .abort
  else if origins.length ≠ directions.length then .abort
  else .ok (llt (midpointMatrix directions) (midpointRhs (origins.zip directions)))

/-- The squared norm of `cost_term * X` (triangulation.cc:204-207). -/
noncomputable def nViewTerm (P : P34) (point : V2) (X : V4) : ℝ :=
  let n := normalize (homog point)
  let r := (applyP P X).sub (n.smul (n.dot (applyP P X)))
  r.dot r

/-- `X^T * design_matrix * X` (triangulation.cc:202-209). -/
noncomputable def nViewCost : List (P34 × V2) → V4 → ℝ
  | [], _ => 0
  | o :: os, X => nViewTerm o.1 o.2 X + nViewCost os X

/-- `TriangulateNView` (triangulation.cc:197-214), when the eigenvalue solver succeeds. `smallest` is the eigenvector
of the smallest eigenvalue of the symmetric matrix, handed over as its quadratic form. -/
noncomputable def triangulateNView (smallest : (V4 → ℝ) → V4) (poses : List P34) (points : List V2) : Outcome V4 :=
  if poses.length ≠ points.length then .abort
  else .ok (smallest (nViewCost (poses.zip points)))

/-- `design_matrix.block<3, 1>(3 * i, 4 + j)` (triangulation.cc:183-188). Only the blocks with `i = j` are written;
the others hold whatever the uninitialised memory `mem` holds. -/
noncomputable def svdBlock (mem : Nat → Nat → V3 ℝ) (points : List V2) (i j : Nat) : V3 ℝ :=
  if i = j then (points[i]?.map homog).getD (mem i j) else mem i j

/-- Sum over the columns `4 + j` for the entries of `alpha`, from column `j` on. -/
noncomputable def svdRow (mem : Nat → Nat → V3 ℝ) (points : List V2) (i : Nat) : Nat → List ℝ → V3 ℝ
  | _, [] => V3.zero
  | j, a :: as => ((svdBlock mem points i j).smul a).add (svdRow mem points i (j + 1) as)

/-- The squared norm of the design matrix times `(X, alpha)`, rows `3 * i` on (triangulation.cc:183-188). -/
noncomputable def svdCost (mem : Nat → Nat → V3 ℝ) (points : List V2) (X : V4) (alpha : List ℝ) : Nat → List P34 → ℝ
  | _, [] => 0
  | i, P :: Ps =>
    let r := (applyP P X).neg.add (svdRow mem points i 0 alpha)
    r.dot r + svdCost mem points X alpha (i + 1) Ps

/-- `TriangulateNViewSVD` (triangulation.cc:178-195). `smallest n` is the last column of V for a matrix with `4 + n`
columns. -/
noncomputable def triangulateNViewSVD (smallest : Nat → (V4 × List ℝ → ℝ) → V4 × List ℝ) (mem : Nat → Nat → V3 ℝ) (poses : List P34)
    (points : List V2) : Outcome V4 :=
  if poses.length ≠ points.length then .abort
  else .ok (smallest points.length (fun u => svdCost mem points u.1 u.2 0 poses)).1

/-! ## Tests on the rays -/

/-- `IsTriangulatedPointInFrontOfCameras` (triangulation.cc:216-232). -/
noncomputable def inFront (corr : V2 × V2) (rotation : M3 ℝ) (position : V3 ℝ) : Bool :=
  let dir1 := homog corr.1
  let dir2 := rotation.transpose.mulVec (homog corr.2)
  decide (0 < dir2.dot dir2 * dir1.dot position - dir1.dot dir2 * dir2.dot position) &&
    decide (0 < dir1.dot dir2 * dir1.dot position - dir1.dot dir1 * dir2.dot position)

/-- The inner loop of `SufficientTriangulationAngle` (triangulation.cc:243-247). -/
noncomputable def anyBelow (cosine : ℝ) (d : V3 ℝ) : List (V3 ℝ) → Bool
  | [] => false
  | e :: es => if d.dot e < cosine then true else anyBelow cosine d es

/-- The outer loop of `SufficientTriangulationAngle` (triangulation.cc:242-249). -/
noncomputable def anyPairBelow (cosine : ℝ) : List (V3 ℝ) → Bool
  | [] => false
  | d :: ds => if anyBelow cosine d ds then true else anyPairBelow cosine ds

/-- `SufficientTriangulationAngle` (triangulation.cc:236-250; `DegToRad`, math/util.h:48-56). -/
noncomputable def sufficientAngle (directions : List (V3 ℝ)) (minDegrees : ℝ) : Bool :=
  anyPairBelow (Real.cos (minDegrees * (Real.pi / 180))) directions

end Triangulation
end Theia
