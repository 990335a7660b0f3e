import Verif.Base.Outcome
import Verif.Base.RotationMatrix

/-!
# Specification of projection and back-projection
-/

namespace Theia
namespace Spec

/-- A pixel goes to a ray of unit depth that projects back to the pixel. -/
def PixelReturns (toPixel : V3 ℝ → Outcome (ℝ × ℝ)) (toCamera : ℝ × ℝ → Outcome (V3 ℝ)) (pixel : ℝ × ℝ) : Prop :=
  ∃ ray, toCamera pixel = .ok ray ∧ ray.z = 1 ∧ toPixel ray = .ok pixel

/-- A point in camera coordinates goes to a pixel whose ray passes through the point. -/
def RayReturns (toPixel : V3 ℝ → Outcome (ℝ × ℝ)) (toCamera : ℝ × ℝ → Outcome (V3 ℝ)) (point : V3 ℝ) : Prop :=
  ∃ pixel, toPixel point = .ok pixel ∧ toCamera pixel = .ok (point.smul (1 / point.z))

/-- The radial distortion with coefficients `k1` and `k2` is moderate up to the squared radius `s`. -/
def Moderate (k1 k2 s : ℝ) : Prop := 16 * s * |k1| + 128 * s ^ 2 * |k2| ≤ 1 / 2

/-- Two pixels or plane points agree up to given tolerances. -/
def Near (a b : ℝ × ℝ) (tx ty : ℝ) : Prop := |a.1 - b.1| ≤ tx ∧ |a.2 - b.2| ≤ ty

/-- All points of a line through the camera centre have the same pixel. -/
def DepthInvariant (toPixel : V3 ℝ → Outcome (ℝ × ℝ)) (point : V3 ℝ) : Prop :=
  ∀ s : ℝ, s ≠ 0 → toPixel (point.smul s) = toPixel point

end Spec
end Theia
