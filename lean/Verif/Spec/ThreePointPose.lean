import Verif.Base.Geometry
import Mathlib.Data.Real.Basic

/-!
# The pose of a camera from three points
-/

namespace Theia.Spec

/-- A camera with this rotation and translation sees the point at the feature, in front of it. -/
def SeesPoint (rotation : M3 ℝ) (translation : V3 ℝ) (feature : ℝ × ℝ) (point : V3 ℝ) : Prop :=
  ∃ depth : ℝ, 0 < depth ∧ (rotation.mulVec point).add translation = V3.smul depth ⟨feature.1, feature.2, 1⟩

/-- A pose from which three points are seen at three features. -/
structure ThreePose (feature : Fin 3 → ℝ × ℝ) (point : Fin 3 → V3 ℝ) (rotation : M3 ℝ) (translation : V3 ℝ) : Prop where
  isRotation : rotation.IsRotation
  sees : ∀ i, SeesPoint rotation translation (feature i) (point i)

/-- The foot of the perpendicular from `c` to the plane through the origin, `a` and `b` is on the circle through these three
points. -/
def FootOnCircle (a b c : V3 ℝ) : Prop :=
  ∃ s t u v : ℝ,
    let center := (a.smul s).add (b.smul t)
    let foot := (a.smul u).add (b.smul v)
    (a.sub center).dot (a.sub center) = center.dot center ∧ (b.sub center).dot (b.sub center) = center.dot center ∧
      (foot.sub center).dot (foot.sub center) = center.dot center ∧ (c.sub foot).dot a = 0 ∧ (c.sub foot).dot b = 0

/-- The spherical triangle of the rays `a`, `b` and `c` has a right angle at `a`: the planes through `a` and `b` and through `a` and
`c` are orthogonal. -/
def RightAngleAt (a b c : V3 ℝ) : Prop := (a.cross b).dot (a.cross c) = 0

/-- The ray of a feature. -/
def rayOf (feature : ℝ × ℝ) : V3 ℝ := ⟨feature.1, feature.2, 1⟩

/-- The volume spanned by the rays of the features. -/
noncomputable def rayVolume (f : Fin 3 → ℝ × ℝ) : ℝ := ((rayOf (f 0)).cross (rayOf (f 1))).dot (rayOf (f 2))

/-- The first two points have an order: the second one comes first if the rays are positively oriented. -/
noncomputable def firstRay (f : Fin 3 → ℝ × ℝ) : Fin 3 := open Classical in if 0 < rayVolume f then 1 else 0

/-- The other one of the first two points. -/
noncomputable def secondRay (f : Fin 3 → ℝ × ℝ) : Fin 3 := open Classical in if 0 < rayVolume f then 0 else 1

/-- The mirror image of `v` at the plane through the origin that is orthogonal to `n`. -/
noncomputable def mirror (n v : V3 ℝ) : V3 ℝ := v.sub (n.smul (2 * v.dot n / n.dot n))

end Theia.Spec
