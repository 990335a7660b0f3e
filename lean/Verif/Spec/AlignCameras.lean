import Verif.Model.AlignCameras
import Verif.Spec.AbsolutePoseEstimators
import Verif.Spec.RobustEstimators

/-!
# What the alignment of cameras with points is asked for
-/

namespace Theia
namespace Spec
namespace Align

open AlignCameras

/-- Where the similarity takes a point of the coordinate system of the cameras. -/
noncomputable def carried (T : Sim) (Y : V3 ℝ) : V3 ℝ := ((T.rotation.mulVec Y).smul T.scale).add T.translation

/-- The homogeneous point in the coordinates of a camera with the rotation `O` at `p`. -/
noncomputable def inCamera (O : M3 ℝ) (p xyz : V3 ℝ) (w : ℝ) : V3 ℝ := O.mulVec (xyz.sub (p.smul w))

/-- The depth is not negative. -/
def NotBehind (z w : ℝ) : Prop := (w = 0 → 0 ≤ z) ∧ (w ≠ 0 → 0 ≤ z / w)

/-- The image of a point given in the coordinates of the camera is closer to the observation than the threshold, and
the point is not behind the camera. -/
def Close (cam : Cam) (thresh : ℝ) (observation : ℝ × ℝ) (v : V3 ℝ) (w : ℝ) : Prop :=
  NotBehind v.z w ∧ ∃ p, cam.toPixel v = some p ∧ distanceSq p observation < thresh

/-- The squared distance of the image and the observation. -/
noncomputable def imageSq (cam : Cam) (observation : ℝ × ℝ) (v : V3 ℝ) : ℝ :=
  (cam.toPixel v).elim 0 fun p => distanceSq p observation

/-- The point of a correspondence in the coordinates of its camera after the similarity has carried the camera: the
position is carried, the axes are rotated. -/
noncomputable def afterSimilarity (T : Sim) (c : Corr) : V3 ℝ :=
  inCamera (c.camera.rotation.mul T.rotation.transpose) (carried T c.camera.position) c.xyz c.w

/-- The same when the rigid transformation moves the point. -/
noncomputable def afterRigid (T : Rigid) (c : Corr) : V3 ℝ :=
  inCamera c.camera.rotation c.camera.position ((T.1.mulVec (c.xyz.smul (1 / c.w))).add T.2) 1

/-- Origin, unit direction and point of a correspondence, all in the world. -/
noncomputable def ray (c : Corr) : V3 ℝ × V3 ℝ × Option (V3 ℝ) :=
  (c.camera.position,
    Triangulation.normalize (c.camera.rotation.transpose.mulVec (c.camera.toRay c.observation)),
    if c.w = 0 then none else some (c.xyz.smul (1 / c.w)))

/-- The similarity is the solution `(Q, t, s)` of `s o + a d = Q X + t` in the form that carries the cameras:
`Q X + t` is `s` times the point that is carried to `X`. -/
def SameSolution (T : Sim) (Q : M3 ℝ) (t : V3 ℝ) (s : ℝ) : Prop :=
  T.scale = s ∧ T.rotation.IsRotation ∧ T.rotation.mul Q = M3.one ∧ ∀ Y, (Q.mulVec (carried T Y)).add t = Y.smul s

/-- The intrinsics map the ray of an observation, which points forwards, back to the observation. -/
def Consistent (cam : Cam) (observation : ℝ × ℝ) : Prop :=
  0 < (cam.toRay observation).z ∧ ∀ k, 0 < k → cam.toPixel ((cam.toRay observation).smul k) = some observation

/-- The image depends on the direction only. -/
def Directional (cam : Cam) : Prop := ∀ v k, 0 < k → cam.toPixel (v.smul k) = cam.toPixel v

end Align
end Spec
end Theia
