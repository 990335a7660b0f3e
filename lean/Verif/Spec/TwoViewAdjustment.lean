import Verif.Model.TwoViewAdjustment

/-!
# What adjusting two views should do
-/

namespace Theia
namespace Spec

open TwoViewAdjustment

/-- What the adjustment of two views may change: the pose of the second camera, the points, and the first intrinsic parameter, which
is the focal length, of a camera whose intrinsics are not to stay constant. Cameras with common intrinsics keep them if one of them
should. -/
structure MayBecome (constant1 constant2 : Bool) (camera1 camera2 : TwoViewAdjustment.Camera) (v w : Values) : Prop where
  pose1 : w.extrinsics1 = v.extrinsics1
  points : w.points.length = v.points.length
  other : ∀ a i, i ≠ 0 → w.intrinsics a i = v.intrinsics a i
  focal : ∀ a, w.intrinsics a 0 ≠ v.intrinsics a 0 →
    (a = camera1.intrinsics ∨ a = camera2.intrinsics) ∧ (a = camera1.intrinsics → constant1 = false) ∧
      (a = camera2.intrinsics → constant2 = false)

/-- The sum of the squared reprojection errors of all points in both images. -/
inductive TotalError (err : Reprojection) (camera1 camera2 : TwoViewAdjustment.Camera) (v : Values) :
    List ((ℝ × ℝ) × (ℝ × ℝ)) → List (Fin 4 → ℝ) → ℝ → Prop
  | nil : TotalError err camera1 camera2 v [] [] 0
  | cons {f1 f2 : ℝ × ℝ} {x : Fin 4 → ℝ} {e1 e2 : ℝ × ℝ} {cs : List ((ℝ × ℝ) × (ℝ × ℝ))} {xs : List (Fin 4 → ℝ)} {s : ℝ}
      (h1 : err camera1.model v.extrinsics1 (v.intrinsics camera1.intrinsics) x f1 = some e1)
      (h2 : err camera2.model v.extrinsics2 (v.intrinsics camera2.intrinsics) x f2 = some e2)
      (h : TotalError err camera1 camera2 v cs xs s) :
      TotalError err camera1 camera2 v ((f1, f2) :: cs) (x :: xs) (e1.1 ^ 2 + e1.2 ^ 2 + (e2.1 ^ 2 + e2.2 ^ 2) + s)

/-- The sum of the squared distances of two rays from a plane with the normal `n`. -/
noncomputable def rayDistances (n f g : V3 ℝ) : ℝ := n.dot f ^ 2 + n.dot g ^ 2

/-- `e` is the least such sum over the planes through the baseline `t`: the error of Kneip and Lynen. -/
def LeastPlaneError (t f g : V3 ℝ) (e : ℝ) : Prop :=
  (∃ n : V3 ℝ, n.dot n = 1 ∧ n.dot t = 0 ∧ rayDistances n f g = e) ∧
    ∀ n : V3 ℝ, n.dot n = 1 → n.dot t = 0 → e ≤ rayDistances n f g

/-- The features see a common point in front of both cameras, of which the first is at the origin and the second has the orientation
`R` and the position `c`. -/
def SeenByTwo (R : M3 ℝ) (c : V3 ℝ) (feature1 feature2 : ℝ × ℝ) : Prop :=
  ∃ X : V3 ℝ, ∃ z1 z2 : ℝ, 0 < z1 ∧ 0 < z2 ∧ X = (⟨feature1.1, feature1.2, 1⟩ : V3 ℝ).smul z1 ∧
    R.mulVec (X.sub c) = (⟨feature2.1, feature2.2, 1⟩ : V3 ℝ).smul z2

end Spec
end Theia
