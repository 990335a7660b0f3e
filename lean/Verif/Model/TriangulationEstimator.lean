import Verif.Model.AbsolutePoseEstimators
import Verif.Model.Samplers
import Verif.Model.Triangulation

/-!
# Model of `EstimateTriangulation` (sfm/estimators/estimate_triangulation.cc)
-/

namespace Theia
namespace TriangulationEstimator

open Triangulation RansacVariants

/-- What is used of a `Camera`. `rotation` is `GetOrientationAsRotationMatrix`, and also what `ceres::AngleAxisRotatePoint` in `ProjectPoint`
does to a point. `toPixel` is `CameraToImageCoordinates` and `toCamera` `ImageToCameraCoordinates` of the intrinsics. -/
structure Cam where
  rotation : M3 ℝ
  position : V3 ℝ
  toPixel : V3 ℝ → Outcome V2
  toCamera : V2 → Outcome (V3 ℝ)

/-- `PointObservation` (estimate_triangulation.cc:55-60). -/
structure Observation where
  projection : P34
  camera : Cam
  normalized : V2
  pixel : V2

/-- The observation of a camera (estimate_triangulation.cc:126-140); `hnormalized` divides by the third coordinate. -/
noncomputable def observation (c : Cam) (feature : V2) : Outcome Observation := do
  let ray ← c.toCamera feature
  if ray.z = 0 then .ub
  else .ok ⟨(c.rotation, (c.rotation.mulVec c.position).neg), c, (ray.x / ray.z, ray.y / ray.z), feature⟩

/-- The loop over the cameras (estimate_triangulation.cc:124-141). -/
noncomputable def observations : List (Cam × V2) → Outcome (List Observation)
  | [] => .ok []
  | (c, f) :: rest => do
    let o ← observation c f
    let os ← observations rest
    .ok (o :: os)

/-- `TriangulationEstimator::EstimateModel` (estimate_triangulation.cc:77-95). If a number is divided by zero, or the root of a negative number
taken, in `Triangulate`, the result is whatever `junk` says. -/
noncomputable def models (smallest : (V4 → ℝ) → V4) (junk : List Observation → Option V4) : List Observation → Option (List V4)
  | [a, b] =>
    match estimateModel smallest a.projection b.projection a.normalized b.normalized with
    | .ok (some X) => some [X]
    | .ok none => none
    | _ => (junk [a, b]).map fun X => [X]
  | _ => none

/-- `TriangulationEstimator::Error` (estimate_triangulation.cc:97-107), with `Camera::ProjectPoint` (camera.cc:204-213). For a last coordinate of
zero, taken as the positive one, the depth is infinite with the sign of the third coordinate, or not a number, which is not `<= 0`. -/
noncomputable def error (o : Observation) (X : V4) : WithTop ℝ :=
  let rotated := o.camera.rotation.mulVec (X.1.sub (o.camera.position.smul X.2))
  match o.camera.toPixel rotated with
  | .ok pixel =>
    if X.2 = 0 then
      if rotated.z < 0 then ⊤ else AbsolutePoseEstimators.squaredDistance (some o.pixel) (some pixel)
    else if rotated.z / X.2 ≤ 0 then ⊤
    else AbsolutePoseEstimators.squaredDistance (some o.pixel) (some pixel)
  | _ => ⊤

/-- What the sampler of exhaustive_ransac.h:58-62 returns for `n` data in the `i`-th call, counted from 0. -/
def exhaustiveSample (n : Nat) (i : Nat) : Option (List Nat) :=
  let p := (ExhaustiveSampler.samples i ⟨0, 1, n⟩).2.sample.1
  some [p.1, p.2]

/-- `EstimateTriangulation` (estimate_triangulation.cc:112-172): `none` if false is returned before anything is estimated, otherwise the point
and the summary of `Estimate`. `initial` is the point before the call; `sample` is what the random sampler returns. The ransac object is
initialised twice (in `CreateAndInitializeRansacVariant` and at line 170), the second time with a new sampler, so that it starts afresh. -/
noncomputable def estimate (smallest : (V4 → ℝ) → V4) (junk : List Observation → Option V4) (s : Settings)
    (lmed : List (WithTop ℝ) → WithTop ℝ × List Nat) (sample : Nat → Option (List Nat)) (cameras : List Cam) (features : List V2)
    (initial : V4) : Outcome (Option (V4 × Ransac.Summary)) :=
  if cameras.length ≠ features.length then .abort
  else if cameras.length < 2 then .ok none
  else do
    let os ← observations (cameras.zip features)
    if cameras.length ≤ 15 then do
      let combinations : Int := (cameras.length * (cameras.length - 1) / 2 : Nat)
      let r ← consensus .exhaustive { s with params := { s.params with minIterations := combinations, maxIterations := combinations } } lmed os
        (exhaustiveSample os.length) (models smallest junk) 2 error initial
      .ok (some r)
    else do
      let r ← consensus .ransac s lmed os sample (models smallest junk) 2 error initial
      .ok (some r)

end TriangulationEstimator
end Theia
