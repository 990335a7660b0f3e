import Verif.Model.AbsolutePoseEstimators

/-!
# Model of the robust alignment of cameras with points

Models estimate_similarity_transformation_2d_3d.cc and estimate_rigid_transformation_2d_3d.cc of
src/theia/sfm/estimators, over the reals. The solvers gDLS and UPnP are parameters; a point that is not finite is
`none` for them. Orientations are rotation matrices (the code stores angle-axis vectors). `some` pixel is a finite
one.
-/

namespace Theia
namespace AlignCameras

open Triangulation RansacVariants AbsolutePoseEstimators

/-- What is used of a `Camera` (sfm/camera/camera.cc:204-227). `toPixel` is `CameraToImageCoordinates` and `toRay`
`ImageToCameraCoordinates` of the intrinsics. -/
structure Cam where
  rotation : M3 ℝ
  position : V3 ℝ
  toPixel : V3 ℝ → Option V2
  toRay : V2 → V3 ℝ

/-- `CameraAndFeatureCorrespondence2D3D` (camera_and_feature_correspondence_2d_3d.h:47-56); the homogeneous point is
`xyz` and `w`. -/
structure Corr where
  camera : Cam
  observation : V2
  xyz : V3 ℝ
  w : ℝ

/-- `point3d.hnormalized()`. -/
noncomputable def Corr.point (c : Corr) : Option (V3 ℝ) := if c.w = 0 then none else some (c.xyz.smul (1 / c.w))

/-- `PixelToUnitDepthRay(observation).normalized()` (camera.cc:215-223). -/
noncomputable def Corr.direction (c : Corr) : V3 ℝ :=
  Triangulation.normalize (c.camera.rotation.transpose.mulVec (c.camera.toRay c.observation))

/-- What the solvers get of a correspondence (estimate_similarity_transformation_2d_3d.cc:91-94,
estimate_rigid_transformation_2d_3d.cc:89-92). -/
noncomputable def Corr.input (c : Corr) : V3 ℝ × V3 ℝ × Option (V3 ℝ) := (c.camera.position, c.direction, c.point)

/-- `Camera::ProjectPoint` followed by the error that both estimators compute from it (camera.cc:204-213,
estimate_similarity_transformation_2d_3d.cc:143-152, estimate_rigid_transformation_2d_3d.cc:125-130). For a last
coordinate of zero, taken as the positive one, the depth is infinite with the sign of the third coordinate, or not a
number, which is not negative. -/
noncomputable def pixelError (cam : Cam) (observation : V2) (xyz : V3 ℝ) (w : ℝ) : WithTop ℝ :=
  let rotated := cam.rotation.mulVec (xyz.sub (cam.position.smul w))
  if (if w = 0 then rotated.z else rotated.z / w) < 0 then ⊤
  else squaredDistance (cam.toPixel rotated) (some observation)

/-- `SimilarityTransformation` (sfm/similarity_transformation.h). -/
structure Sim where
  rotation : M3 ℝ
  translation : V3 ℝ
  scale : ℝ

/-- `TransformCamera` (estimate_similarity_transformation_2d_3d.cc:57-70). -/
noncomputable def transformCamera (T : Sim) (cam : Cam) : Cam :=
  { cam with
    position := ((T.rotation.mulVec cam.position).smul T.scale).add T.translation
    rotation := cam.rotation.mul T.rotation.transpose }

/-- One solution in the other form (estimate_similarity_transformation_2d_3d.cc:122-127). -/
noncomputable def convert (sol : M3 ℝ × V3 ℝ × ℝ) : Sim :=
  ⟨sol.1.transpose, sol.1.transpose.mulVec sol.2.1.neg, sol.2.2⟩

/-- `GdlsSimilarityTransformationEstimator::EstimateModel` (estimate_similarity_transformation_2d_3d.cc:84-131). It
appends to the vector, which held `held`, and looks at the first four correspondences only. -/
noncomputable def similarityModels (gdls : List (V3 ℝ × V3 ℝ × Option (V3 ℝ)) → List (M3 ℝ × V3 ℝ × ℝ)) (held : List Sim) :
    List Corr → Outcome (Bool × List Sim)
  | a :: b :: c :: d :: _ =>
    let models := held ++ (gdls [a.input, b.input, c.input, d.input]).map convert
    .ok (decide (models.length > 0), models)
  | _ => .ub

/-- `GdlsSimilarityTransformationEstimator::Error` (estimate_similarity_transformation_2d_3d.cc:135-153). -/
noncomputable def similarityError (c : Corr) (T : Sim) : WithTop ℝ :=
  pixelError (transformCamera T c.camera) c.observation c.xyz c.w

/-- The models of a sample for the sample consensus (sample_consensus_estimator.h:291-298): the vector is empty. -/
def ofOutcome {M : Type} : Outcome (Bool × List M) → Option (List M)
  | .ok (true, ms) => some ms
  | _ => none

/-- `EstimateSimilarityTransformation2D3D` (estimate_similarity_transformation_2d_3d.cc:161-177). -/
noncomputable def estimateSimilarity (gdls : List (V3 ℝ × V3 ℝ × Option (V3 ℝ)) → List (M3 ℝ × V3 ℝ × ℝ)) (t : RansacType)
    (s : Settings) (lmed : List (WithTop ℝ) → WithTop ℝ × List Nat) (sample : Nat → Option (List Nat)) (cs : List Corr)
    (initial : Sim) : Outcome (Sim × Ransac.Summary) :=
  consensus t s lmed cs sample (fun ds => ofOutcome (similarityModels gdls [] ds)) 4 similarityError initial

/-- `RigidTransformation` (sfm/rigid_transformation.h): rotation and translation. -/
abbrev Rigid := M3 ℝ × V3 ℝ

/-- `NonCentralCameraPoseEstimator::EstimateModel` (estimate_rigid_transformation_2d_3d.cc:74-113). -/
noncomputable def rigidModels (upnp : List (V3 ℝ × V3 ℝ × Option (V3 ℝ)) → Option (List Rigid)) (cs : List Corr) :
    Outcome (Bool × List Rigid) :=
  if cs.length < 4 then .abort
  else
    match upnp (cs.map Corr.input) with
    | none => .ok (false, [])
    | some ms => .ok (true, ms)

/-- `NonCentralCameraPoseEstimator::Error` (estimate_rigid_transformation_2d_3d.cc:117-131). From a point that is not
finite nothing finite is computed. -/
noncomputable def rigidError (c : Corr) (T : Rigid) : WithTop ℝ :=
  match c.point with
  | none => ⊤
  | some X => pixelError c.camera c.observation ((T.1.mulVec X).add T.2) 1

/-- `EstimateRigidTransformation2D3D` with cameras (estimate_rigid_transformation_2d_3d.cc:142-157). -/
noncomputable def estimateRigid (upnp : List (V3 ℝ × V3 ℝ × Option (V3 ℝ)) → Option (List Rigid)) (t : RansacType)
    (s : Settings) (lmed : List (WithTop ℝ) → WithTop ℝ × List Nat) (sample : Nat → Option (List Nat)) (cs : List Corr)
    (initial : Rigid) : Outcome (Rigid × Ransac.Summary) :=
  consensus t s lmed cs sample (fun ds => ofOutcome (rigidModels upnp ds)) 4 rigidError initial

/-- A camera at the origin that looks along the third axis, with focal length one and the principal point zero
(estimate_rigid_transformation_2d_3d.cc:173-177); other parameters of a new camera have no effect. -/
noncomputable def unitCamera : Cam :=
  ⟨M3.one, V3.zero, hnormalized, homog⟩

/-- `EstimateRigidTransformation2D3D` with normalized features (estimate_rigid_transformation_2d_3d.cc:159-184). -/
noncomputable def estimateRigidSingle (upnp : List (V3 ℝ × V3 ℝ × Option (V3 ℝ)) → Option (List Rigid)) (t : RansacType)
    (s : Settings) (lmed : List (WithTop ℝ) → WithTop ℝ × List Nat) (sample : Nat → Option (List Nat))
    (cs : List AbsolutePoseEstimators.Corr) (initial : Rigid) : Outcome (Rigid × Ransac.Summary) :=
  estimateRigid upnp t s lmed sample (cs.map fun c => ⟨unitCamera, c.1, c.2, 1⟩) initial

end AlignCameras
end Theia
