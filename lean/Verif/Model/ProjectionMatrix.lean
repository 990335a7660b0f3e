import Verif.Base.RotationMatrix
import Verif.Model.Triangulation

/-!
# Model of projection matrix composition and decomposition (src/theia/sfm/camera/projection_matrix_utils.cc,
src/theia/math/matrix/rq_decomposition.h, src/theia/sfm/pose/util.cc)

Over the reals. Eigen's Householder QR and singular value decompositions are parameters, as is the conversion of a
rotation matrix to angle and axis.
-/

namespace Theia
namespace ProjectionMatrix

open Triangulation

/-! ## Intrinsics -/

/-- The intrinsics: focal length, skew, aspect ratio and principal point. -/
structure Intrinsics where
  focal : ℝ
  skew : ℝ
  aspect : ℝ
  px : ℝ
  py : ℝ

/-- `IntrinsicsToCalibrationMatrix` (projection_matrix_utils.cc:50-60). -/
noncomputable def toCalibration (i : Intrinsics) : M3 ℝ :=
  ⟨⟨i.focal, i.skew, i.px⟩, ⟨0, i.focal * i.aspect, i.py⟩, ⟨0, 0, 1⟩⟩

/-- `CalibrationMatrixToIntrinsics` (projection_matrix_utils.cc:62-74). A first entry of zero is divided by without
a check. -/
noncomputable def ofCalibration (K : M3 ℝ) : Outcome Intrinsics :=
  if K.r3.z = 0 then .abort
  else if K.r1.x = 0 then .ub
  else .ok ⟨K.r1.x / K.r3.z, K.r1.y / K.r3.z, K.r2.y / K.r1.x, K.r1.z / K.r3.z, K.r2.z / K.r3.z⟩

/-! ## RQ decomposition -/

/-- `rowwise().reverse()`: the columns in reverse order. -/
def reverseColumns (m : M3 ℝ) : M3 ℝ := ⟨⟨m.r1.z, m.r1.y, m.r1.x⟩, ⟨m.r2.z, m.r2.y, m.r2.x⟩, ⟨m.r3.z, m.r3.y, m.r3.x⟩⟩

/-- `colwise().reverse()`: the rows in reverse order. -/
def reverseRows (m : M3 ℝ) : M3 ℝ := ⟨m.r3, m.r2, m.r1⟩

/-- The loop that clears the entries below the diagonal (rq_decomposition.h:92-98), for a 3x3 matrix. -/
noncomputable def clearLower (m : M3 ℝ) : M3 ℝ := ⟨m.r1, ⟨0, m.r2.y, m.r2.z⟩, ⟨0, 0, m.r3.z⟩⟩

/-- `row(1) *= -1.0`. -/
noncomputable def negRow1 (m : M3 ℝ) : M3 ℝ := ⟨m.r1, ⟨-m.r2.x, -m.r2.y, -m.r2.z⟩, m.r3⟩

/-- `col(1) *= -1.0`. -/
noncomputable def negCol1 (m : M3 ℝ) : M3 ℝ := ⟨⟨m.r1.x, -m.r1.y, m.r1.z⟩, ⟨m.r2.x, -m.r2.y, m.r2.z⟩, ⟨m.r3.x, -m.r3.y, m.r3.z⟩⟩

/-- The constructor of `RQDecomposition` (rq_decomposition.h:74-111) for 3x3 matrices: the matrices R and Q. `qr`
gives `householderQ()` and `matrixQR()`. -/
noncomputable def rq (qr : M3 ℝ → M3 ℝ × M3 ℝ) (m : M3 ℝ) : M3 ℝ × M3 ℝ :=
  let q0 := (qr (reverseColumns m.transpose)).1
  let r0 := (qr (reverseColumns m.transpose)).2
  let r := clearLower (reverseColumns (reverseRows r0.transpose))
  let q := reverseRows q0.transpose
  if q.det < 0 then (negCol1 r, negRow1 q) else (r, q)

/-! ## Rotations -/

/-- A multiple of a matrix. -/
noncomputable def scale (s : ℝ) (m : M3 ℝ) : M3 ℝ := ⟨m.r1.smul s, m.r2.smul s, m.r3.smul s⟩

/-- `ProjectToRotationMatrix` (pose/util.cc:121-133). -/
noncomputable def projectToRotation (svd : M3 ℝ → M3 ℝ × M3 ℝ) (m : M3 ℝ) : M3 ℝ :=
  let r := (svd m).1.mul (svd m).2.transpose
  if r.det < 0 then scale (-1) r else r

/-! ## Decomposition -/

/-- One step of the loop that makes the diagonal positive (projection_matrix_utils.cc:97-102), for the first entry. -/
noncomputable def fixSign0 (p : M3 ℝ × M3 ℝ) : M3 ℝ × M3 ℝ :=
  if p.1.r1.x < 0 then
    (⟨⟨-p.1.r1.x, p.1.r1.y, p.1.r1.z⟩, ⟨-p.1.r2.x, p.1.r2.y, p.1.r2.z⟩, ⟨-p.1.r3.x, p.1.r3.y, p.1.r3.z⟩⟩,
      ⟨p.2.r1.neg, p.2.r2, p.2.r3⟩)
  else p

/-- The same for the second entry. -/
noncomputable def fixSign1 (p : M3 ℝ × M3 ℝ) : M3 ℝ × M3 ℝ :=
  if p.1.r2.y < 0 then
    (⟨⟨p.1.r1.x, -p.1.r1.y, p.1.r1.z⟩, ⟨p.1.r2.x, -p.1.r2.y, p.1.r2.z⟩, ⟨p.1.r3.x, -p.1.r3.y, p.1.r3.z⟩⟩,
      ⟨p.2.r1, p.2.r2.neg, p.2.r3⟩)
  else p

/-- The same for the third entry. -/
noncomputable def fixSign2 (p : M3 ℝ × M3 ℝ) : M3 ℝ × M3 ℝ :=
  if p.1.r3.z < 0 then
    (⟨⟨p.1.r1.x, p.1.r1.y, -p.1.r1.z⟩, ⟨p.1.r2.x, p.1.r2.y, -p.1.r2.z⟩, ⟨p.1.r3.x, p.1.r3.y, -p.1.r3.z⟩⟩,
      ⟨p.2.r1, p.2.r2, p.2.r3.neg⟩)
  else p

/-- `triangularView<Upper>().solve`, by back substitution. -/
noncomputable def solveUpper (K : M3 ℝ) (b : V3 ℝ) : V3 ℝ :=
  let z := b.z / K.r3.z
  let y := (b.y - K.r2.z * z) / K.r2.y
  ⟨(b.x - K.r1.y * y - K.r1.z * z) / K.r1.x, y, z⟩

/-- `DecomposeProjectionMatrix` (projection_matrix_utils.cc:76-119): the calibration matrix, the rotation as an angle-axis
vector and the position. -/
noncomputable def decompose (qr svd : M3 ℝ → M3 ℝ × M3 ℝ) (ofM : M3 ℝ → V3 ℝ) (P : P34) : Option (M3 ℝ × V3 ℝ × V3 ℝ) :=
  let R := (rq qr P.1).1
  let rotation := projectToRotation svd (rq qr P.1).2
  if R.det = 0 then none
  else
    let fixed := fixSign2 (fixSign1 (fixSign0 (if 0 < R.det then R else scale (-1) R, rotation)))
    let t := solveUpper fixed.1 P.2
    some (fixed.1, ofM fixed.2, if 0 < R.det then (fixed.2.transpose.mulVec t).neg else fixed.2.transpose.mulVec t)

/-- `ComposeProjectionMatrix` (projection_matrix_utils.cc:121-136). -/
noncomputable def compose (K : M3 ℝ) (rotation position : V3 ℝ) : P34 :=
  let R := if rotation.dot rotation = 0 then M3.one else AngleAxis.toM rotation
  (K.mul R, K.mulVec (R.mulVec position).neg)

/-- `Camera::InitializeFromProjectionMatrix` (camera/camera.cc:153-189): what the call returns, and the intrinsics, orientation
and position it leaves in the camera when it returns true. The return value of the decomposition is not looked at, so that
after a failure the calibration matrix, orientation and position are read uninitialised. -/
noncomputable def initializeCamera (qr svd : M3 ℝ → M3 ℝ × M3 ℝ) (ofM : M3 ℝ → V3 ℝ) (P : P34) :
    Outcome (Option (Intrinsics × V3 ℝ × V3 ℝ)) :=
  match decompose qr svd ofM P with
  | none => .ub
  | some (K, rotation, position) =>
    if K.r1.x = 0 ∨ K.r2.y = 0 then .ok none
    else do
      let i ← ofCalibration K
      .ok (some (i, rotation, position))

end ProjectionMatrix
end Theia
