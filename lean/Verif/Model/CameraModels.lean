import Mathlib.Analysis.SpecialFunctions.Trigonometric.Arctan
import Verif.Base.Outcome
import Verif.Base.RotationMatrix

/-!
# Model of the camera projection functions (src/theia/sfm/camera/*_camera_model.h, camera.cc)

Over the reals. Dividing by zero is `ub`: in the code the result is infinite or not a number.
-/

namespace Theia
namespace CameraModels

open AngleAxis

/-- A pixel or a point of the image plane. -/
abbrev V2 := ℝ × ℝ

/-- Division. -/
noncomputable def divide (a b : ℝ) : Outcome ℝ := if b = 0 then .ub else .ok (a / b)

/-- The parameters all models share; models without skew use 0. -/
structure Calibration where
  focal : ℝ
  aspect : ℝ
  skew : ℝ
  px : ℝ
  py : ℝ

/-- From the distorted point to the pixel (pinhole_camera_model.h:195-209). -/
def Calibration.apply (c : Calibration) (d : V2) : V2 :=
  (c.focal * d.1 + c.skew * d.2 + c.px, c.focal * c.aspect * d.2 + c.py)

/-- From the pixel to the distorted point (pinhole_camera_model.h:216-231). -/
noncomputable def Calibration.undo (c : Calibration) (p : V2) : Outcome V2 := do
  let y ← divide (p.2 - c.py) (c.focal * c.aspect)
  let x ← divide (p.1 - c.px - y * c.skew) c.focal
  .ok (x, y)

/-- The normalized pixel (pinhole_camera_model.h:184-187). -/
noncomputable def normalized (point : V3 ℝ) : Outcome V2 := do
  let x ← divide point.x point.z
  let y ← divide point.y point.z
  .ok (x, y)

/-- The loop of the iterative `UndistortPoint` functions (pinhole_camera_model.h:266-295,
pinhole_radial_tangential_camera_model.h:312-354). `next` computes the new estimate from the old one. -/
noncomputable def undistortLoop (next : V2 → Outcome V2) : Nat → V2 → Outcome V2
  | 0, u => .ok u
  | n + 1, u => do
    let u' ← next u
    if |u'.1 - u.1| < 1 / 10 ^ 10 ∧ |u'.2 - u.2| < 1 / 10 ^ 10 then .ok u' else undistortLoop next n u'

/-! ## Pinhole with radial distortion -/

/-- The distortion factor (pinhole_camera_model.h:250-253, 275-280). -/
def radialFactor (k1 k2 : ℝ) (u : V2) : ℝ := 1 + (u.1 * u.1 + u.2 * u.2) * (k1 + k2 * (u.1 * u.1 + u.2 * u.2))

/-- `PinholeCameraModel::DistortPoint` (pinhole_camera_model.h:241-257). -/
def pinholeDistort (k1 k2 : ℝ) (u : V2) : V2 := (u.1 * radialFactor k1 k2 u, u.2 * radialFactor k1 k2 u)

/-- One step of `PinholeCameraModel::UndistortPoint` (pinhole_camera_model.h:273-286). -/
noncomputable def pinholeNext (k1 k2 : ℝ) (p u : V2) : Outcome V2 := do
  let x ← divide p.1 (radialFactor k1 k2 u)
  let y ← divide p.2 (radialFactor k1 k2 u)
  .ok (x, y)

/-- `PinholeCameraModel::UndistortPoint` (pinhole_camera_model.h:259-296). -/
noncomputable def pinholeUndistort (k1 k2 : ℝ) (p : V2) : Outcome V2 := undistortLoop (pinholeNext k1 k2 p) 100 p

/-- `PinholeCameraModel::CameraToPixelCoordinates` (pinhole_camera_model.h:181-210). -/
noncomputable def pinholeToPixel (c : Calibration) (k1 k2 : ℝ) (point : V3 ℝ) : Outcome V2 := do
  let n ← normalized point
  .ok (c.apply (pinholeDistort k1 k2 n))

/-- `PinholeCameraModel::PixelToCameraCoordinates` (pinhole_camera_model.h:212-239). -/
noncomputable def pinholeToCamera (c : Calibration) (k1 k2 : ℝ) (pixel : V2) : Outcome (V3 ℝ) := do
  let d ← c.undo pixel
  let u ← pinholeUndistort k1 k2 d
  .ok ⟨u.1, u.2, 1⟩

/-! ## Pinhole with radial and tangential distortion -/

/-- The distortion coefficients of the radial-tangential model. -/
structure RadialTangential where
  k1 : ℝ
  k2 : ℝ
  k3 : ℝ
  t1 : ℝ
  t2 : ℝ

/-- The radial factor (pinhole_radial_tangential_camera_model.h:267-272). -/
def RadialTangential.factor (k : RadialTangential) (u : V2) : ℝ :=
  1 + k.k1 * (u.1 * u.1 + u.2 * u.2) + k.k2 * (u.1 * u.1 + u.2 * u.2) * (u.1 * u.1 + u.2 * u.2) +
    k.k3 * (u.1 * u.1 + u.2 * u.2) * (u.1 * u.1 + u.2 * u.2) * (u.1 * u.1 + u.2 * u.2)

/-- The tangential terms (pinhole_radial_tangential_camera_model.h:274-286). -/
def RadialTangential.tangential (k : RadialTangential) (u : V2) : V2 :=
  (k.t2 * (u.1 * u.1 + u.2 * u.2 + 2 * u.1 * u.1) + 2 * k.t1 * u.1 * u.2,
    k.t1 * (u.1 * u.1 + u.2 * u.2 + 2 * u.2 * u.2) + 2 * k.t2 * u.1 * u.2)

/-- `PinholeRadialTangentialCameraModel::DistortPoint` (pinhole_radial_tangential_camera_model.h:250-291). -/
def rtDistort (k : RadialTangential) (u : V2) : V2 :=
  (u.1 * k.factor u + (k.tangential u).1, u.2 * k.factor u + (k.tangential u).2)

/-- One step of `UndistortPoint` (pinhole_radial_tangential_camera_model.h:319-345). -/
noncomputable def rtNext (k : RadialTangential) (p u : V2) : Outcome V2 := do
  let x ← divide (p.1 - (k.tangential u).1) (k.factor u)
  let y ← divide (p.2 - (k.tangential u).2) (k.factor u)
  .ok (x, y)

/-- `PinholeRadialTangentialCameraModel::UndistortPoint` (pinhole_radial_tangential_camera_model.h:293-355). -/
noncomputable def rtUndistort (k : RadialTangential) (p : V2) : Outcome V2 := undistortLoop (rtNext k p) 100 p

/-- `PinholeRadialTangentialCameraModel::CameraToPixelCoordinates`
(pinhole_radial_tangential_camera_model.h:190-219). -/
noncomputable def rtToPixel (c : Calibration) (k : RadialTangential) (point : V3 ℝ) : Outcome V2 := do
  let n ← normalized point
  .ok (c.apply (rtDistort k n))

/-- `PinholeRadialTangentialCameraModel::PixelToCameraCoordinates`
(pinhole_radial_tangential_camera_model.h:221-248). -/
noncomputable def rtToCamera (c : Calibration) (k : RadialTangential) (pixel : V2) : Outcome (V3 ℝ) := do
  let d ← c.undo pixel
  let u ← rtUndistort k d
  .ok ⟨u.1, u.2, 1⟩

/-! ## Fisheye -/

/-- The four coefficients of the fisheye model. -/
structure Fisheye where
  k1 : ℝ
  k2 : ℝ
  k3 : ℝ
  k4 : ℝ

/-- The distorted angle (fisheye_camera_model.h:253-258, 310-318). -/
def Fisheye.angle (k : Fisheye) (theta : ℝ) : ℝ :=
  theta * (1 + k.k1 * (theta * theta) + k.k2 * (theta * theta) * (theta * theta) +
    k.k3 * (theta * theta) * (theta * theta) * (theta * theta) +
    k.k4 * (theta * theta) * (theta * theta) * (theta * theta) * (theta * theta))

/-- `atan2(y, x)` for positive `y` and nonnegative `x`. -/
noncomputable def atan2 (y x : ℝ) : ℝ := if x = 0 then Real.pi / 2 else Real.arctan (y / x)

/-- `FisheyeCameraModel::DistortPoint` (fisheye_camera_model.h:223-267): it takes the point in space. -/
noncomputable def fisheyeDistort (k : Fisheye) (u : V3 ℝ) : V2 :=
  if u.x * u.x + u.y * u.y < 1 / 10 ^ 8 then (u.x, u.y)
  else
    let r := Real.sqrt (u.x * u.x + u.y * u.y)
    let d := k.angle (atan2 r |u.z|)
    if u.z < 0 then (-(d * u.x / r), -(d * u.y / r)) else (d * u.x / r, d * u.y / r)

/-- `FisheyeCameraModel::CameraToPixelCoordinates` (fisheye_camera_model.h:162-187). -/
noncomputable def fisheyeToPixel (c : Calibration) (k : Fisheye) (point : V3 ℝ) : Outcome V2 :=
  .ok (c.apply (fisheyeDistort k point))

/-- The loop of `FisheyeCameraModel::UndistortPoint` (fisheye_camera_model.h:288-334). -/
noncomputable def fisheyeLoop (k : Fisheye) (p : V2) : Nat → V2 → Outcome V2
  | 0, u => .ok u
  | n + 1, u =>
    let r := Real.sqrt (u.1 * u.1 + u.2 * u.2)
    if r < 1 / 10 ^ 8 then .ok p
    else do
      let x ← divide (r * p.1) (k.angle (atan2 r 1))
      let y ← divide (r * p.2) (k.angle (atan2 r 1))
      if |x - u.1| < 1 / 10 ^ 10 ∧ |y - u.2| < 1 / 10 ^ 10 then .ok (x, y) else fisheyeLoop k p n (x, y)

/-- `FisheyeCameraModel::UndistortPoint` (fisheye_camera_model.h:269-335). -/
noncomputable def fisheyeUndistort (k : Fisheye) (p : V2) : Outcome V2 := fisheyeLoop k p 100 p

/-- `FisheyeCameraModel::PixelToCameraCoordinates` (fisheye_camera_model.h:189-216). -/
noncomputable def fisheyeToCamera (c : Calibration) (k : Fisheye) (pixel : V2) : Outcome (V3 ℝ) := do
  let d ← c.undo pixel
  let u ← fisheyeUndistort k d
  .ok ⟨u.1, u.2, 1⟩

/-! ## Field of view -/

/-- The factor of `FOVCameraModel::DistortPoint` (fov_camera_model.h:219-254) as a function of the squared radius. -/
noncomputable def fovDistortFactor (omega r2 : ℝ) : ℝ :=
  if omega < 1 / 1000 then omega * omega * r2 / 3 - omega * omega / 12 + 1
  else if r2 < 1 / 1000 then
    -2 * Real.tan (omega / 2) * (4 * r2 * Real.tan (omega / 2) * Real.tan (omega / 2) - 3) / (3 * omega)
  else Real.arctan (2 * Real.sqrt r2 * Real.tan (omega / 2)) / (Real.sqrt r2 * omega)

/-- `FOVCameraModel::DistortPoint` (fov_camera_model.h:211-260). -/
noncomputable def fovDistort (omega : ℝ) (u : V2) : V2 :=
  (fovDistortFactor omega (u.1 * u.1 + u.2 * u.2) * u.1, fovDistortFactor omega (u.1 * u.1 + u.2 * u.2) * u.2)

/-- The factor of `FOVCameraModel::UndistortPoint` (fov_camera_model.h:270-302). -/
noncomputable def fovUndistortFactor (omega r2 : ℝ) : Outcome ℝ :=
  if omega < 1 / 1000 then .ok (omega * omega * r2 / 3 - omega * omega / 12 + 1)
  else if r2 < 1 / 1000 then divide (omega * (omega * omega * r2 + 3)) (6 * Real.tan (omega / 2))
  else divide (Real.tan (Real.sqrt r2 * omega)) (2 * Real.sqrt r2 * Real.tan (omega / 2))

/-- `FOVCameraModel::UndistortPoint` (fov_camera_model.h:262-306). -/
noncomputable def fovUndistort (omega : ℝ) (p : V2) : Outcome V2 := do
  let f ← fovUndistortFactor omega (p.1 * p.1 + p.2 * p.2)
  .ok (f * p.1, f * p.2)

/-- `FOVCameraModel::CameraToPixelCoordinates` (fov_camera_model.h:155-182). -/
noncomputable def fovToPixel (c : Calibration) (omega : ℝ) (point : V3 ℝ) : Outcome V2 := do
  let n ← normalized point
  .ok ({ c with skew := 0 }.apply (fovDistort omega n))

/-- `FOVCameraModel::PixelToCameraCoordinates` (fov_camera_model.h:184-209). -/
noncomputable def fovToCamera (c : Calibration) (omega : ℝ) (pixel : V2) : Outcome (V3 ℝ) := do
  let d ← { c with skew := 0 }.undo pixel
  let u ← fovUndistort omega d
  .ok ⟨u.1, u.2, 1⟩

/-! ## Division undistortion -/

/-- The scale of `DivisionUndistortionCameraModel::DistortPoint` (division_undistortion_camera_model.h:272-285) as a
function of the squared radius. `eps` is the machine epsilon. -/
noncomputable def divisionScale (eps k r2 : ℝ) : ℝ :=
  if |2 * k * r2| < eps ∨ 1 - 4 * k * r2 < 0 then 1 else (1 - Real.sqrt (1 - 4 * k * r2)) / (2 * k * r2)

/-- `DivisionUndistortionCameraModel::DistortPoint` (division_undistortion_camera_model.h:256-289). -/
noncomputable def divisionDistort (eps k : ℝ) (u : V2) : V2 :=
  (u.1 * divisionScale eps k (u.1 * u.1 + u.2 * u.2), u.2 * divisionScale eps k (u.1 * u.1 + u.2 * u.2))

/-- `DivisionUndistortionCameraModel::UndistortPoint` (division_undistortion_camera_model.h:291-311). -/
noncomputable def divisionUndistort (k : ℝ) (p : V2) : Outcome V2 := do
  let s ← divide 1 (1 + k * (p.1 * p.1 + p.2 * p.2))
  .ok (p.1 * s, p.2 * s)

/-- `DivisionUndistortionCameraModel::CameraToPixelCoordinates` (division_undistortion_camera_model.h:170-202). -/
noncomputable def divisionToPixel (eps : ℝ) (c : Calibration) (k : ℝ) (point : V3 ℝ) : Outcome V2 := do
  let n ← normalized point
  let d := divisionDistort eps k (c.focal * n.1, c.focal * c.aspect * n.2)
  .ok (d.1 + c.px, d.2 + c.py)

/-- `DivisionUndistortionCameraModel::PixelToCameraCoordinates` (division_undistortion_camera_model.h:228-254). -/
noncomputable def divisionToCamera (c : Calibration) (k : ℝ) (pixel : V2) : Outcome (V3 ℝ) := do
  let u ← divisionUndistort k (pixel.1 - c.px, pixel.2 - c.py)
  let x ← divide u.1 c.focal
  let y ← divide u.2 (c.focal * c.aspect)
  .ok ⟨x, y, 1⟩

/-! ## Cameras -/

/-- The pose of a camera (camera.h: `camera_parameters_`). -/
structure Pose where
  orientation : V3 ℝ
  position : V3 ℝ

/-- `ceres::AngleAxisToRotationMatrix`, with the first-order approximation below the threshold. -/
noncomputable def toMatrix (eps : ℝ) (w : V3 ℝ) : M3 ℝ :=
  if eps < w.dot w then toM w else ⟨⟨1, -w.z, w.y⟩, ⟨w.z, 1, -w.x⟩, ⟨-w.y, w.x, 1⟩⟩

/-- `Camera::ProjectPoint` (camera.cc:204-213): pixel and depth. `toPixel` is the virtual
`CameraToImageCoordinates`; the point is homogeneous, `w` its last coordinate. -/
noncomputable def projectPoint (eps : ℝ) (toPixel : V3 ℝ → Outcome V2) (c : Pose) (point : V3 ℝ) (w : ℝ) :
    Outcome (V2 × ℝ) := do
  let rotated := rotate eps c.orientation (point.sub (c.position.smul w))
  let pixel ← toPixel rotated
  let depth ← divide rotated.z w
  .ok (pixel, depth)

/-- `Camera::PixelToUnitDepthRay` (camera.cc:215-223). -/
noncomputable def unitDepthRay (eps : ℝ) (toCamera : V2 → Outcome (V3 ℝ)) (c : Pose) (pixel : V2) : Outcome (V3 ℝ) := do
  let u ← toCamera pixel
  .ok ((toMatrix eps c.orientation).transpose.mulVec u)

/-- `IntrinsicsToCalibrationMatrix` (projection_matrix_utils.cc:50-60). -/
def Calibration.matrix (c : Calibration) : M3 ℝ :=
  ⟨⟨c.focal, c.skew, c.px⟩, ⟨0, c.focal * c.aspect, c.py⟩, ⟨0, 0, 1⟩⟩

/-- `Camera::GetProjectionMatrix` through `ComposeProjectionMatrix` (camera.cc:191-198,
projection_matrix_utils.cc:119-135): the left 3x3 block and the last column. Eigen's `AngleAxisd` needs no
approximation: the matrix of the rotation. -/
noncomputable def projectionMatrix (c : Calibration) (p : Pose) : M3 ℝ × V3 ℝ :=
  let r := if Real.sqrt (p.orientation.dot p.orientation) = 0 then M3.one else toM p.orientation
  (c.matrix.mul r, c.matrix.mulVec (r.mulVec p.position).neg)

end CameraModels
end Theia
