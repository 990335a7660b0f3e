import Verif.Model.TriangulationEstimator
import Verif.Spec.AbsolutePoseEstimators
import Verif.Spec.RobustEstimators

/-!
# Specification of the robust estimation of points
-/

namespace Theia.Spec

open TriangulationEstimator Triangulation

/-- The homogeneous point in the coordinates of the camera. -/
noncomputable def inCamera (c : Cam) (X : V4) : V3 ℝ := c.rotation.mulVec (X.1.sub (c.position.smul X.2))

/-- The point is in front of the camera: its third coordinate divided by the last is positive. A point at infinity is in front if its third
coordinate is not negative. -/
def Before (c : Cam) (X : V4) : Prop := 0 < (inCamera c X).z * X.2 ∨ X.2 = 0 ∧ 0 ≤ (inCamera c X).z

/-- The point is in front of the camera, and the squared distance of its image from the feature is below the threshold. -/
def ImagedWithin (t : ℝ) (X : V4) (o : Cam × V2) : Prop :=
  Before o.1 X ∧ ∃ pixel, o.1.toPixel (inCamera o.1 X) = .ok pixel ∧ distanceSq o.2 pixel < t

open Classical in
/-- The squared distance of the image from the feature, if there is an image. -/
noncomputable def imageSq (X : V4) (o : Cam × V2) : ℝ :=
  if h : ∃ pixel, o.1.toPixel (inCamera o.1 X) = .ok pixel then distanceSq o.2 h.choose else 0

/-- The normalised coordinates of the feature. -/
def NormalizedFeature (o : Cam × V2) (n : V2) : Prop :=
  ∃ ray, o.1.toCamera o.2 = .ok ray ∧ ray.z ≠ 0 ∧ n = (ray.x / ray.z, ray.y / ray.z)

/-- The projection matrix of a camera with the identity as calibration matrix. -/
noncomputable def poseMatrix (c : Cam) : P34 := (c.rotation, (c.rotation.mulVec c.position).neg)

/-- What triangulating a pair of observations gives. -/
def PairTriangulates (smallest : (V4 → ℝ) → V4) (a b : Cam × V2) (r : Outcome V4) : Prop :=
  ∃ na nb, NormalizedFeature a na ∧ NormalizedFeature b nb ∧ triangulate smallest (poseMatrix a.1) (poseMatrix b.1) na nb = r

/-- The point triangulated from a pair of observations, if its third coordinate is positive for both cameras. -/
def PointOfPair (smallest : (V4 → ℝ) → V4) (os : List (Cam × V2)) (X : V4) : Prop :=
  ∃ a b, os = [a, b] ∧ PairTriangulates smallest a b (.ok X) ∧ 0 < (inCamera a.1 X).z ∧ 0 < (inCamera b.1 X).z

/-- The pair cannot be triangulated: there is a division by zero or the root of a negative number. -/
def DegeneratePair (smallest : (V4 → ℝ) → V4) (os : List (Cam × V2)) : Prop :=
  ∃ a b, os = [a, b] ∧ ∃ r, PairTriangulates smallest a b r ∧ ∀ X, r ≠ .ok X

/-- Two observations, one before the other in the list. -/
def TwoOf (os : List (Cam × V2)) (pair : List (Cam × V2)) : Prop :=
  ∃ (i j : Nat) (a b : Cam × V2), i < j ∧ os[i]? = some a ∧ os[j]? = some b ∧ pair = [a, b]

end Theia.Spec
