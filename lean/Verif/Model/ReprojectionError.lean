import Mathlib.Analysis.SpecialFunctions.Log.Basic
import Verif.Model.CameraModels
import Verif.Model.CameraPriors
import Verif.Model.BundleAdjuster

/-!
# Model of the error that bundle adjustment minimises

`/repo/src/theia/sfm/camera/reprojection_error.h`, `create_reprojection_error_cost_function.h`,
`/repo/src/theia/sfm/bundle_adjustment/create_loss_function.cc` and the evaluation of a problem by Ceres. Over the reals; `eps` is
the machine epsilon. Derivatives are not modelled. The loss functions are those of Ceres 1.14.
-/

namespace Theia
namespace ReprojectionError

open CameraModels CameraPriors AngleAxis

/-- `intrinsic_parameters[i]`; reading past the end is `ub`. -/
def param (ps : List ℝ) (i : Nat) : Outcome ℝ :=
  match ps[i]? with
  | none => .ub
  | some x => .ok x

/-- The skew, which two models do not have (fov_camera_model.h:169-182, division_undistortion_camera_model.h:179-201). -/
def skew (t : ModelType) (ps : List ℝ) : Outcome ℝ :=
  match t with
  | .fov => .ok 0
  | .division => .ok 0
  | t => param ps (skewIndex t)

/-- The parameters that all models share, read from the array (pinhole_camera_model.h:195-204,
pinhole_radial_tangential_camera_model.h:203-213, fisheye_camera_model.h:172-181, fov_camera_model.h:169-178,
division_undistortion_camera_model.h:179-188). -/
def calibration (t : ModelType) (ps : List ℝ) : Outcome Calibration := do
  let focal ← param ps (focalIndex t)
  let aspect ← param ps (aspectIndex t)
  let s ← skew t ps
  let px ← param ps (principalXIndex t)
  let py ← param ps (principalYIndex t)
  .ok ⟨focal, aspect, s, px, py⟩

/-- `CameraToPixelCoordinates` of the model type, on an array of parameters: the switch of
`CameraIntrinsicsModel::CameraToImageCoordinates` (camera_intrinsics_model.cc:116-133) and the choice of the template argument in
`CreateReprojectionErrorCostFunction` (create_reprojection_error_cost_function.h:52-97). The distortion coefficients are read in
the `DistortPoint` functions (pinhole_camera_model.h:245-248, pinhole_radial_tangential_camera_model.h:255-264,
fisheye_camera_model.h:228-235, fov_camera_model.h:217, division_undistortion_camera_model.h:274-275). -/
noncomputable def cameraToPixel (eps : ℝ) (t : ModelType) (ps : List ℝ) (q : V3 ℝ) : Outcome V2 :=
  match t with
  | .pinhole => do
    let c ← calibration .pinhole ps
    let k1 ← param ps (radialIndex .pinhole 1)
    let k2 ← param ps (radialIndex .pinhole 2)
    pinholeToPixel c k1 k2 q
  | .pinholeRadialTangential => do
    let c ← calibration .pinholeRadialTangential ps
    let k1 ← param ps (radialIndex .pinholeRadialTangential 1)
    let k2 ← param ps (radialIndex .pinholeRadialTangential 2)
    let k3 ← param ps (radialIndex .pinholeRadialTangential 3)
    let t1 ← param ps (tangentialIndex 1)
    let t2 ← param ps (tangentialIndex 2)
    rtToPixel c ⟨k1, k2, k3, t1, t2⟩ q
  | .fisheye => do
    let c ← calibration .fisheye ps
    let k1 ← param ps (radialIndex .fisheye 1)
    let k2 ← param ps (radialIndex .fisheye 2)
    let k3 ← param ps (radialIndex .fisheye 3)
    let k4 ← param ps (radialIndex .fisheye 4)
    fisheyeToPixel c ⟨k1, k2, k3, k4⟩ q
  | .fov => do
    let c ← calibration .fov ps
    let omega ← param ps (radialIndex .fov 1)
    fovToPixel c omega q
  | .division => do
    let c ← calibration .division ps
    let k ← param ps (radialIndex .division 1)
    divisionToPixel eps c k q
  | .invalid => .abort

/-- `ReprojectionError::operator()` (reprojection_error.h:51-95): `none` is the result false. The point is homogeneous. -/
noncomputable def residual (eps : ℝ) (t : ModelType) (feature : V2) (pose : Pose) (ps : List ℝ) (x : V3 ℝ) (w : ℝ) :
    Outcome (Option V2) :=
  let adjusted := x.sub (pose.position.smul w)
  if adjusted.dot adjusted < 1 / 10 ^ 8 then .ok none
  else do
    let pixel ← cameraToPixel eps t ps (rotate eps pose.orientation adjusted)
    .ok (some (pixel.1 - feature.1, pixel.2 - feature.2))

/-! ### Loss functions -/

/-- `LossFunctionType` (create_loss_function.h:51-58). -/
inductive LossType where
  | trivial
  | huber
  | softLOne
  | cauchy
  | arctan
  | tukey
  deriving DecidableEq, Repr

/-- The loss chosen by `CreateLossFunction` (create_loss_function.cc:42-71) with the value Ceres gives it at a squared residual
`s`; `a` is the width. -/
noncomputable def loss (a : ℝ) : LossType → ℝ → ℝ
  | .trivial, s => s
  | .huber, s => if a * a < s then 2 * a * Real.sqrt s - a * a else s
  | .softLOne, s => 2 * (a * a) * (Real.sqrt (1 + s * (1 / (a * a))) - 1)
  | .cauchy, s => a * a * Real.log (1 + s * (1 / (a * a)))
  | .arctan, s => a * Real.arctan (s / a)
  | .tukey, s => if s ≤ a * a then a * a / 6 * (1 - (1 - s / (a * a)) ^ 3) else a * a / 6

/-! ### Evaluation of a problem -/

/-- The values of the parameter blocks: the poses of the views, the intrinsics objects and the points. -/
structure Values where
  pose : ViewId → Pose
  intrinsics : Nat → ModelType × List ℝ
  point : TrackId → V3 ℝ × ℝ

/-- What one residual of a problem (`AddReprojectionErrorResidual`, bundle_adjuster.cc:373-386) adds to the cost, without the factor one half.
Ceres also takes a residual that is not finite as a failure; the arrays have the size of their model, so this is the only `ub`. -/
noncomputable def term (eps : ℝ) (rho : ℝ → ℝ) (v : Values) (e : BA.Residual V2) : Outcome (Option ℝ) :=
  match residual eps (v.intrinsics e.ptr).1 e.feature (v.pose e.view) (v.intrinsics e.ptr).2 (v.point e.track).1
    (v.point e.track).2 with
  | .ok (some d) => .ok (some (rho (d.1 * d.1 + d.2 * d.2)))
  | .ok none => .ok none
  | .ub => .ok none
  | .abort => .abort

/-- A sum of two costs, either of which may have failed. -/
noncomputable def addCost : Option ℝ → Option ℝ → Option ℝ
  | some a, some b => some (1 / 2 * a + b)
  | _, _ => none

/-- The evaluation of the residuals of a problem: half the sum of the losses, or failure. -/
noncomputable def evaluate (eps : ℝ) (rho : ℝ → ℝ) (v : Values) : List (BA.Residual V2) → Outcome (Option ℝ)
  | [] => .ok (some 0)
  | e :: es => do
    let a ← term eps rho v e
    let b ← evaluate eps rho v es
    .ok (addCost a b)

end ReprojectionError
end Theia
