import Verif.Model.CameraModels
import Verif.Model.CameraPriors
import Verif.Model.EssentialMatrix
import Verif.Model.EstimatorUtils
import Verif.Model.FundamentalMatrix
import Verif.Model.PoseUtil
import Verif.Model.RansacVariants
import Verif.Model.TwoViewInfo
import Verif.Model.VisibilityPyramid

/-!
# Model of the estimation of the geometry of two views

Models src/theia/sfm/estimate_twoview_info.cc, estimators/estimate_relative_pose.cc and
estimators/estimate_uncalibrated_relative_pose.cc. Pixels are rational numbers, all else is real. The solvers and the
conversion of a rotation matrix to angle and axis are parameters.
-/

namespace Theia
namespace TwoViewEstimation

open CameraPriors CameraModels RansacVariants

/-- The members of `EstimateTwoViewInfoOptions` used (estimate_twoview_info.h:52-76). -/
structure Options where
  ransacType : RansacType
  maxSampsonErrorPixels : ℚ
  confidence : ℝ
  minIterations : Int
  maxIterations : Int
  useMle : Bool

/-- `FeatureCorrespondence` in pixels. -/
abbrev PixelMatch := (ℚ × ℚ) × (ℚ × ℚ)

/-- `RelativePose` (estimate_relative_pose.h:49-53). -/
structure RelativePose where
  essential : M3 ℝ
  rotation : M3 ℝ
  position : V3 ℝ

/-- `UncalibratedRelativePose` (estimate_uncalibrated_relative_pose.h). -/
structure UncalibratedPose where
  fundamental : M3 ℝ
  focal1 : ℝ
  focal2 : ℝ
  rotation : M3 ℝ
  position : V3 ℝ

/-- What the functions call: the sampler, the quality measurement of LMED, `FivePointRelativePose`,
`NormalizedEightPointFundamentalMatrix`, `FocalLengthsFromFundamentalMatrix`, the singular value decomposition, the
conversion of a matrix to angle times axis, and the contents of the uninitialised pose variables
(estimate_twoview_info.cc:160, 223). -/
structure Env where
  sample : Nat → Option (List Nat)
  lmed : List (WithTop ℝ) → WithTop ℝ × List Nat
  fivePoint : List V2 → List V2 → Option (List (M3 ℝ))
  eightPoint : List V2 → List V2 → Option (M3 ℝ)
  focals : M3 ℝ → Option (ℝ × ℝ)
  svd : M3 ℝ → M3 ℝ × M3 ℝ
  angleAxis : M3 ℝ → V3 ℝ
  uninitialised : RelativePose
  uninitialisedU : UncalibratedPose

/-! ## Features -/

/-- `Camera::PixelToNormalizedCoordinates` (camera.cc:225-229) through the virtual `ImageToCameraCoordinates`
(camera_intrinsics_model.cc). -/
noncomputable def toCamera (m : Intrinsics ℝ) (pixel : V2) : Outcome (V3 ℝ) :=
  match m.type, m.params with
  | .pinhole, [f, a, s, x, y, k1, k2] => pinholeToCamera ⟨f, a, s, x, y⟩ k1 k2 pixel
  | .pinholeRadialTangential, [f, a, s, x, y, k1, k2, k3, t1, t2] => rtToCamera ⟨f, a, s, x, y⟩ ⟨k1, k2, k3, t1, t2⟩ pixel
  | .fisheye, [f, a, s, x, y, k1, k2, k3, k4] => fisheyeToCamera ⟨f, a, s, x, y⟩ ⟨k1, k2, k3, k4⟩ pixel
  | .fov, [f, a, x, y, w] => fovToCamera ⟨f, a, 0, x, y⟩ w pixel
  | .division, [f, a, x, y, k] => divisionToCamera ⟨f, a, 0, x, y⟩ k pixel
  | _, _ => .ub

/-- `PixelToNormalizedCoordinates(feature).hnormalized()` (estimate_twoview_info.cc:90-96). -/
noncomputable def normalizeFeature (m : Intrinsics ℝ) (pixel : ℚ × ℚ) : Outcome V2 := do
  let v ← toCamera m ((pixel.1 : ℝ), (pixel.2 : ℝ))
  normalized v

/-- The loop over the correspondences (estimate_twoview_info.cc:88-99). -/
noncomputable def normalizeAll (m1 m2 : Intrinsics ℝ) : List PixelMatch → Outcome (List (V2 × V2))
  | [] => .ok []
  | c :: cs => do
    let a ← normalizeFeature m1 c.1
    let b ← normalizeFeature m2 c.2
    let rest ← normalizeAll m1 m2 cs
    .ok ((a, b) :: rest)

/-- A default `Camera` (camera.cc:52-56) after `SetFromCameraIntrinsicsPriors` (estimate_twoview_info.cc:74-76). -/
noncomputable def cameraFor (p : IntrinsicsPrior ℝ) : Outcome (Camera ℝ) :=
  Camera.setFromPriors p ⟨⟨.pinhole, [1, 1, 0, 0, 0, 0, 0]⟩, 0, 0⟩

/-- Resetting the focal lengths (estimate_twoview_info.cc:82-85). -/
noncomputable def resetFocal (p1 p2 : IntrinsicsPrior ℝ) (m : Intrinsics ℝ) : Outcome (Intrinsics ℝ) :=
  if ¬ p1.focal.isSet ∨ ¬ p2.focal.isSet then setFocalLength 1 m else .ok m

/-- `NormalizeFeatures` (estimate_twoview_info.cc:67-100). -/
noncomputable def normalizeFeatures (p1 p2 : IntrinsicsPrior ℝ) (corrs : List PixelMatch) : Outcome (List (V2 × V2)) := do
  let c1 ← cameraFor p1
  let c2 ← cameraFor p2
  let m1 ← resetFocal p1 p2 c1.intrinsics
  let m2 ← resetFocal p1 p2 c2.intrinsics
  normalizeAll m1 m2 corrs

/-! ## Visibility -/

/-- The loop over the inliers (estimate_twoview_info.cc:123-127). -/
def addInliers (corrs : List PixelMatch) : List Nat → VisibilityPyramid → VisibilityPyramid →
    Outcome (VisibilityPyramid × VisibilityPyramid)
  | [], v1, v2 => .ok (v1, v2)
  | i :: is, v1, v2 =>
    match corrs[i]? with
    | none => .ub
    | some c => do
      let v1 ← v1.addPoint c.1
      let v2 ← v2.addPoint c.2
      addInliers corrs is v1 v2

/-- `ComputeVisibilityScoreOfInliers` (estimate_twoview_info.cc:103-130). -/
def visibilityOfInliers {K : Type} (p1 p2 : IntrinsicsPrior K) (corrs : List PixelMatch) (inliers : List Nat) : Outcome Int :=
  if p1.width = 0 ∨ p1.height = 0 ∨ p2.width = 0 ∨ p2.height = 0 then .ok inliers.length
  else do
    let v1 ← VisibilityPyramid.new p1.width.toNat p1.height.toNat 6
    let v2 ← VisibilityPyramid.new p2.width.toNat p2.height.toNat 6
    let v ← addInliers corrs inliers v1 v2
    .ok (v.1.computeScore + v.2.computeScore : Nat)

/-! ## The estimators -/

/-- `SquaredSampsonDistance` as a residual: without a denominator it is infinite or not a number. -/
noncomputable def sampsonResidual (F : M3 ℝ) (x y : V2) : WithTop ℝ :=
  match PoseUtil.sampson F x y with
  | .ok d => (d : WithTop ℝ)
  | _ => ⊤

/-- The pose of one essential matrix, if at least four points are in front of the cameras
(estimate_relative_pose.cc:88-104). -/
noncomputable def poseOf (svd : M3 ℝ → M3 ℝ × M3 ℝ) (corrs : List (V2 × V2)) (E : M3 ℝ) : Option RelativePose :=
  match EssentialMatrix.bestPose svd E corrs with
  | none => none
  | some (n, R, p) => if n ≥ 4 then some ⟨E, R, p⟩ else none

/-- `RelativePoseEstimator::EstimateModel` (estimate_relative_pose.cc:71-107). -/
noncomputable def relativeModels (env : Env) (corrs : List (V2 × V2)) : Option (List RelativePose) :=
  match env.fivePoint (corrs.map Prod.fst) (corrs.map Prod.snd) with
  | none => none
  | some Es =>
    let poses := Es.filterMap (poseOf env.svd corrs)
    if poses.length > 0 then some poses else none

/-- `RelativePoseEstimator::Error` (estimate_relative_pose.cc:111-122). -/
noncomputable def relativeError (c : V2 × V2) (m : RelativePose) : WithTop ℝ :=
  if Triangulation.inFront c m.rotation m.position then sampsonResidual m.essential c.1 c.2 else ⊤

/-- `EstimateRelativePose` (estimate_relative_pose.cc:130-145). `Estimate` only ever returns true. -/
noncomputable def estimateRelativePose (env : Env) (t : RansacType) (s : Settings) (corrs : List (V2 × V2)) :
    Outcome (RelativePose × Ransac.Summary) :=
  consensus t s env.lmed corrs env.sample (relativeModels env) 5 relativeError env.uninitialised

/-- Division of the features by the focal lengths (estimate_uncalibrated_relative_pose.cc:111-117, 129-133); they are
square roots, and a focal length of zero is not considered. -/
noncomputable def scaleDown (f1 f2 : ℝ) (c : V2 × V2) : V2 × V2 := ((c.1.1 / f1, c.1.2 / f1), (c.2.1 / f2, c.2.2 / f2))

/-- `UncalibratedRelativePoseEstimator::EstimateModel` (estimate_uncalibrated_relative_pose.cc:76-123). -/
noncomputable def uncalibratedModels (env : Env) (corrs : List (V2 × V2)) : Option (List UncalibratedPose) :=
  match env.eightPoint ((corrs.map Prod.fst).take 8) ((corrs.map Prod.snd).take 8) with
  | none => none
  | some F =>
    match env.focals F with
    | none => none
    | some (f1, f2) =>
      match EssentialMatrix.bestPose env.svd (FundamentalMatrix.essentialOf F f1 f2) (corrs.map (scaleDown f1 f2)) with
      | none => none
      | some (_, R, p) => some [⟨F, f1, f2, R, p⟩]

/-- `UncalibratedRelativePoseEstimator::Error` (estimate_uncalibrated_relative_pose.cc:127-144). -/
noncomputable def uncalibratedError (c : V2 × V2) (m : UncalibratedPose) : WithTop ℝ :=
  if Triangulation.inFront (scaleDown m.focal1 m.focal2 c) m.rotation m.position then
    sampsonResidual m.fundamental c.1 c.2
  else ⊤

/-- `EstimateUncalibratedRelativePose` (estimate_uncalibrated_relative_pose.cc:156-173). -/
noncomputable def estimateUncalibratedPose (env : Env) (t : RansacType) (s : Settings) (corrs : List (V2 × V2)) :
    Outcome (UncalibratedPose × Ransac.Summary) :=
  consensus t s env.lmed corrs env.sample (uncalibratedModels env) 8 uncalibratedError env.uninitialisedU

/-! ## `EstimateTwoViewInfo` -/

/-- The parameters handed to sample consensus (estimate_twoview_info.cc:145-169, 205-226); the others keep their default
values. -/
noncomputable def settings (o : Options) (thresh : ℝ) : Settings :=
  ⟨thresh, o.useMle, ⟨1 - o.confidence, 0, o.minIterations, o.maxIterations, false⟩⟩

/-- The product of the thresholds of the two images (estimate_twoview_info.cc:152-163, 212-223). -/
def thresholdProduct {K : Type} (o : Options) (p1 p2 : IntrinsicsPrior K) : ℚ :=
  EstimatorUtils.scaledThreshold o.maxSampsonErrorPixels p1.width p1.height *
    EstimatorUtils.scaledThreshold o.maxSampsonErrorPixels p2.width p2.height

/-- `EstimateTwoViewInfoCalibrated` (estimate_twoview_info.cc:132-190). `inlierIndices` is the value of `*inlier_indices` on
entry. Returns the bool, `*twoview_info` and `*inlier_indices`. -/
noncomputable def calibrated (env : Env) (o : Options) (p1 p2 : IntrinsicsPrior ℝ) (corrs : List PixelMatch)
    (info : TwoView.Info) (inlierIndices : List Nat) : Outcome (Bool × TwoView.Info × List Nat) := do
  let ns ← normalizeFeatures p1 p2 corrs
  let r ← estimateRelativePose env o.ransacType
    (settings o ((thresholdProduct o p1 p2 : ℝ) / (p1.focal.value * p2.focal.value))) ns
  let visibility ← visibilityOfInliers p1 p2 corrs inlierIndices
  .ok (true, { info with
    rotation := env.angleAxis r.1.rotation
    position := r.1.position
    focal1 := p1.focal.value
    focal2 := p2.focal.value
    verified := r.2.inliers.length
    visibility := visibility }, r.2.inliers)

/-- `EstimateTwoViewInfoUncalibrated` (estimate_twoview_info.cc:192-250). `useMle` is not set and keeps its default value. -/
noncomputable def uncalibrated (env : Env) (o : Options) (p1 p2 : IntrinsicsPrior ℝ) (corrs : List PixelMatch)
    (info : TwoView.Info) (inlierIndices : List Nat) : Outcome (Bool × TwoView.Info × List Nat) := do
  let cs ← normalizeFeatures p1 p2 corrs
  let r ← estimateUncalibratedPose env o.ransacType { settings o (thresholdProduct o p1 p2 : ℝ) with useMle := false } cs
  let visibility ← visibilityOfInliers p1 p2 corrs inlierIndices
  .ok (true, { info with
    rotation := env.angleAxis r.1.rotation
    position := r.1.position
    focal1 := r.1.focal1
    focal2 := r.1.focal2
    verified := r.2.inliers.length
    visibility := visibility }, r.2.inliers)

/-- `EstimateTwoViewInfo` (estimate_twoview_info.cc:254-292). The inliers are cleared first. -/
noncomputable def estimate (env : Env) (o : Options) (p1 p2 : IntrinsicsPrior ℝ) (corrs : List PixelMatch)
    (info : TwoView.Info) : Outcome (Bool × TwoView.Info × List Nat) :=
  if p1.focal.isSet && p2.focal.isSet then calibrated env o p1 p2 corrs info []
  else if p1.focal.isSet || p2.focal.isSet then uncalibrated env o p1 p2 corrs info []
  else uncalibrated env o p1 p2 corrs info []

end TwoViewEstimation
end Theia
