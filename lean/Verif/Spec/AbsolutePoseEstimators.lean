import Verif.Spec.LinearSolvers
import Verif.Spec.RobustEstimators
import Verif.Spec.ThreePointPose

/-!
# What a robust estimator of absolute poses is asked for
-/

namespace Theia
namespace Spec

/-- The direction, in the world, of the ray of a feature of a camera with the rotation `R`. -/
noncomputable def worldRay (R : M3 ℝ) (f : ℝ × ℝ) : V3 ℝ := R.transpose.mulVec ⟨f.1, f.2, 1⟩

/-- The quotients of the first two coordinates by the third. -/
noncomputable def dehomogenised (v : V3 ℝ) : ℝ × ℝ := (v.x / v.z, v.y / v.z)

/-- The squared distance of two points of the plane. -/
noncomputable def distanceSq (p q : ℝ × ℝ) : ℝ := (p.1 - q.1) ^ 2 + (p.2 - q.2) ^ 2

/-- The squared distance of the feature from the image of the point. -/
noncomputable def reprojectionSq (R : M3 ℝ) (p : V3 ℝ) (c : (ℝ × ℝ) × V3 ℝ) : ℝ :=
  distanceSq (dehomogenised (R.mulVec (c.2.sub p))) c.1

/-- The squared distance of the rays to the point and of the feature where they meet the plane of height one above the camera in the
*world*. -/
noncomputable def worldPlaneSq (R : M3 ℝ) (p : V3 ℝ) (c : (ℝ × ℝ) × V3 ℝ) : ℝ :=
  distanceSq (dehomogenised (c.2.sub p)) (dehomogenised (worldRay R c.1))

/-- The point is on the line of sight of the feature, in front of the camera if the depth is positive. -/
def OnSight (R : M3 ℝ) (p : V3 ℝ) (c : (ℝ × ℝ) × V3 ℝ) (depth : ℝ) : Prop :=
  R.mulVec (c.2.sub p) = (⟨c.1.1, c.1.2, 1⟩ : V3 ℝ).smul depth

end Spec
end Theia
