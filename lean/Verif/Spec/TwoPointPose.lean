import Verif.Base.Geometry
import Mathlib.Data.Real.Basic

/-!
# The pose of a camera from two points, with a known axis of rotation
-/

namespace Theia.Spec

/-- The rotation about the axis `axis` and the translation take the points to the given points. -/
structure MapsTo (axis p1 p2 x1 x2 : V3 ℝ) (rotation : M3 ℝ) (translation : V3 ℝ) : Prop where
  isRotation : rotation.IsRotation
  axis : rotation.mulVec axis = axis
  first : (rotation.mulVec p1).add translation = x1
  second : (rotation.mulVec p2).add translation = x2

/-- The rotation about the axis `axis` and the translation take each point to its ray, in front of the camera. -/
def PoseOf (axis p1 p2 r1 r2 : V3 ℝ) (rotation : M3 ℝ) (translation : V3 ℝ) : Prop :=
  ∃ length1 length2, 0 < length1 ∧ 0 < length2 ∧
    MapsTo axis p1 p2 (r1.smul length1) (r2.smul length2) rotation translation

/-- Points on the lines of the rays, possibly behind the camera, that are as far from each other as `p1` and `p2`, and as far along
the axis. -/
def HasDistances (axis p1 p2 r1 r2 : V3 ℝ) : Prop :=
  ∃ length1 length2 : ℝ,
    ((r1.smul length1).sub (r2.smul length2)).dot axis = (p1.sub p2).dot axis ∧
    ((r1.smul length1).sub (r2.smul length2)).dot ((r1.smul length1).sub (r2.smul length2)) = (p1.sub p2).dot (p1.sub p2)

end Theia.Spec
