import Verif.Model.LinearSolvers
import Verif.Model.ProjectionMatrix
import Verif.Model.RansacVariants
import Verif.Model.ThreePointPose
import Verif.Model.Triangulation

/-!
# Model of the robust estimators of absolute poses

Models estimate_absolute_pose_with_known_orientation.cc, estimate_calibrated_absolute_pose.cc and
estimate_uncalibrated_absolute_pose.cc of src/theia/sfm/estimators, over the reals. The samplers return as many indices as asked
for (C22), so the functions on samples look at lists of one length only. A pose that is not a number is `none`. From numbers that are
infinite or not numbers a solver computes nothing, or poses that are not numbers: `junk` says which. -/

namespace Theia
namespace AbsolutePoseEstimators

open Triangulation LinearSolvers RansacVariants

/-- `FeatureCorrespondence2D3D` (sfm/estimators/feature_correspondence_2d_3d.h:42-45): the feature and the point. -/
abbrev Corr := V2 × V3 ℝ

/-- `hnormalized()`: `none` if infinite or not a number. -/
noncomputable def hnormalized (v : V3 ℝ) : Option V2 := if v.z = 0 then none else some (v.x / v.z, v.y / v.z)

/-- The squared norm of the difference of two features; infinite or not a number if one of them is. -/
noncomputable def squaredDistance : Option V2 → Option V2 → WithTop ℝ
  | some p, some f => ((sq2 (p.1 - f.1, p.2 - f.2) : ℝ) : WithTop ℝ)
  | _, _ => ⊤

/-- `RotateCorrespondences` for one correspondence (estimate_absolute_pose_with_known_orientation.cc:54-74). `R` is the rotation
matrix of the orientation, before it is transposed. -/
noncomputable def rotateCorrespondence (R : M3 ℝ) (c : Corr) : Option V2 × V3 ℝ :=
  (hnormalized (R.transpose.mulVec (homog c.1)), c.2)

/-- `AbsolutePoseWithKnownOrientationEstimator::EstimateModel` (estimate_absolute_pose_with_known_orientation.cc:89-103). -/
def knownModels (qr : List (V3 ℝ) → Nat × (List ℝ → V3 ℝ)) (junk : List (Option V2 × V3 ℝ) → Bool) :
    List (Option V2 × V3 ℝ) → Option (List (Option (V3 ℝ)))
  | [(some f1, p1), (some f2, p2)] => (positionFromTwoRays qr f1 p1 f2 p2).map fun p => [some p]
  | ds => if junk ds then some [none] else none

/-- `AbsolutePoseWithKnownOrientationEstimator::Error` (estimate_absolute_pose_with_known_orientation.cc:107-114). -/
noncomputable def knownError (d : Option V2 × V3 ℝ) : Option (V3 ℝ) → WithTop ℝ
  | none => ⊤
  | some p => squaredDistance (hnormalized (d.2.sub p)) d.1

/-- `EstimateAbsolutePoseWithKnownOrientation` (estimate_absolute_pose_with_known_orientation.cc:127-152). The correspondences
are rotated where they are used and not all at the beginning. -/
noncomputable def estimateKnown (qr : List (V3 ℝ) → Nat × (List ℝ → V3 ℝ)) (junk : List (Option V2 × V3 ℝ) → Bool) (t : RansacType)
    (s : Settings) (lmed : List (WithTop ℝ) → WithTop ℝ × List Nat) (sample : Nat → Option (List Nat)) (orientation : V3 ℝ)
    (cs : List Corr) (initial : Option (V3 ℝ)) : Outcome (Option (V3 ℝ) × Ransac.Summary) :=
  let R := AngleAxis.toM orientation
  consensus t s lmed cs sample (fun ds => knownModels qr junk (ds.map (rotateCorrespondence R))) 2
    (fun c => knownError (rotateCorrespondence R c)) initial

/-- `CalibratedAbsolutePose` (estimate_calibrated_absolute_pose.h:49-52): rotation and position. -/
abbrev Pose := M3 ℝ × V3 ℝ

/-- `CalibratedAbsolutePoseEstimator::EstimateModel` (estimate_calibrated_absolute_pose.cc:67-98). `find` are the real parts of the
roots of a polynomial. -/
noncomputable def calibratedModels (find : List ℝ → Option (List ℝ)) (junk : List Corr → Bool) :
    List Corr → Option (List (Option Pose))
  | [a, b, c] =>
    match ThreePointPose.solve find ![a.1, b.1, c.1] ![a.2, b.2, c.2] with
    | .ok (true, some sols) => some (sols.map (Option.map fun p => (p.1, (p.1.transpose.mulVec p.2).neg)))
    | .ok _ => none
    | _ => if junk [a, b, c] then some [none] else none
  | _ => none

/-- `CalibratedAbsolutePoseEstimator::Error` (estimate_calibrated_absolute_pose.cc:102-110). -/
noncomputable def calibratedError (c : Corr) : Option Pose → WithTop ℝ
  | none => ⊤
  | some p => squaredDistance (hnormalized (p.1.mulVec (c.2.sub p.2))) (some c.1)

/-- `EstimateCalibratedAbsolutePose` (estimate_calibrated_absolute_pose.cc:118-133). -/
noncomputable def estimateCalibrated (find : List ℝ → Option (List ℝ)) (junk : List Corr → Bool) (t : RansacType)
    (s : Settings) (lmed : List (WithTop ℝ) → WithTop ℝ × List Nat) (sample : Nat → Option (List Nat)) (cs : List Corr)
    (initial : Option Pose) : Outcome (Option Pose × Ransac.Summary) :=
  consensus t s lmed cs sample (calibratedModels find junk) 3 calibratedError initial

/-- `UncalibratedAbsolutePose` (estimate_uncalibrated_absolute_pose.h:48-52). -/
structure UncalibratedPose where
  rotation : M3 ℝ
  position : V3 ℝ
  focal : ℝ

/-- `UncalibratedAbsolutePoseEstimator::EstimateModel` (estimate_uncalibrated_absolute_pose.cc:70-83). `fourPoint` is
`FourPointPoseAndFocalLength`. -/
def uncalibratedModels (fourPoint : List V2 → List (V3 ℝ) → List P34) (cs : List Corr) : Option (List P34) :=
  let sols := fourPoint (cs.map Prod.fst) (cs.map Prod.snd)
  if sols.length > 0 then some sols else none

/-- `UncalibratedAbsolutePoseEstimator::Error` (estimate_uncalibrated_absolute_pose.cc:87-96). -/
noncomputable def uncalibratedError (c : Corr) (P : P34) : WithTop ℝ :=
  squaredDistance (hnormalized (applyP P (c.2, 1))) (some c.1)

/-- What is computed from the projection matrix (estimate_uncalibrated_absolute_pose.cc:121-136). If it cannot be decomposed, nothing is
written, and the rotation and the focal length are computed from uninitialised variables: `uninitialised`. -/
noncomputable def recoverPose (qr svd : M3 ℝ → M3 ℝ × M3 ℝ) (ofM : M3 ℝ → V3 ℝ) (uninitialised : UncalibratedPose) (P : P34) :
    UncalibratedPose :=
  match ProjectionMatrix.decompose qr svd ofM P with
  | some (K, r, c) => ⟨AngleAxis.toM r, c, K.r1.x / K.r3.z⟩
  | none => uninitialised

/-- `EstimateUncalibratedAbsolutePose` (estimate_uncalibrated_absolute_pose.cc:104-139). -/
noncomputable def estimateUncalibrated (fourPoint : List V2 → List (V3 ℝ) → List P34) (qr svd : M3 ℝ → M3 ℝ × M3 ℝ)
    (ofM : M3 ℝ → V3 ℝ) (t : RansacType) (s : Settings) (lmed : List (WithTop ℝ) → WithTop ℝ × List Nat)
    (sample : Nat → Option (List Nat)) (cs : List Corr) (initial : P34) (uninitialised : UncalibratedPose) :
    Outcome (UncalibratedPose × Ransac.Summary) := do
  let r ← consensus t s lmed cs sample (uncalibratedModels fourPoint) 4 uncalibratedError initial
  .ok (recoverPose qr svd ofM uninitialised r.1, r.2)

end AbsolutePoseEstimators
end Theia
