import Verif.Spec.EssentialMatrix
import Verif.Spec.VisibilityPyramid

/-!
# When two features agree with a pose of two cameras

The first camera is the origin; the second has the rotation `R` and the position `p`.
-/

namespace Theia
namespace Spec

/-- The rays of the two features are not parallel and come closest to each other in front of both cameras. -/
def InFrontOfBoth (R : M3 ℝ) (p : V3 ℝ) (c : (ℝ × ℝ) × (ℝ × ℝ)) : Prop :=
  ∃ d1 d2 X Y, RayOf M3.one c.1 d1 ∧ RayOf R c.2 d2 ∧ ¬ Parallel d1 d2 ∧ ClosestPoints V3.zero d1 p d2 X Y ∧
    0 < X.z ∧ 0 < (R.mulVec (Y.sub p)).z

/-- The epipolar residual `y^T F x`. -/
noncomputable def epipolar (F : M3 ℝ) (x y : ℝ × ℝ) : ℝ := (⟨y.1, y.2, 1⟩ : V3 ℝ).dot (F.mulVec ⟨x.1, x.2, 1⟩)

/-- The squared length of the gradient of the epipolar residual with respect to the four coordinates. -/
noncomputable def epipolarGradient (F : M3 ℝ) (x y : ℝ × ℝ) : ℝ :=
  (F.r1.x * y.1 + F.r2.x * y.2 + F.r3.x) ^ 2 + (F.r1.y * y.1 + F.r2.y * y.2 + F.r3.y) ^ 2 +
    (F.r1.x * x.1 + F.r1.y * x.2 + F.r1.z) ^ 2 + (F.r2.x * x.1 + F.r2.y * x.2 + F.r2.z) ^ 2

/-- The squared Sampson distance is below `t`. -/
def SampsonBelow (F : M3 ℝ) (t : ℝ) (x y : ℝ × ℝ) : Prop := epipolar F x y ^ 2 < t * epipolarGradient F x y

/-- A correspondence is verified. -/
def Verified (E R : M3 ℝ) (p : V3 ℝ) (t : ℝ) (c : (ℝ × ℝ) × (ℝ × ℝ)) : Prop :=
  InFrontOfBoth R p c ∧ SampsonBelow E t c.1 c.2

/-- A correspondence of centred pixels is verified, for cameras with the given focal lengths. -/
def VerifiedPixels (F R : M3 ℝ) (p : V3 ℝ) (f1 f2 t : ℝ) (c : (ℝ × ℝ) × (ℝ × ℝ)) : Prop :=
  InFrontOfBoth R p ((c.1.1 / f1, c.1.2 / f1), (c.2.1 / f2, c.2.2 / f2)) ∧ SampsonBelow F t c.1 c.2

open Classical in
/-- The cost of a set of correspondences: the number of those that are not verified or, for maximum likelihood, the sum of
the squared Sampson distances with `t` for those that are not verified. -/
noncomputable def verificationCost (mle : Bool) (t : ℝ) (F : M3 ℝ) (verified : (ℝ × ℝ) × (ℝ × ℝ) → Prop)
    (cs : List ((ℝ × ℝ) × (ℝ × ℝ))) : ℝ :=
  (cs.map fun c =>
    if verified c then if mle then epipolar F c.1 c.2 ^ 2 / epipolarGradient F c.1 c.2 else 0
    else if mle then t else 1).sum

/-- The data with the given indices. -/
def Picked {α : Type} (data : List α) (idx : List Nat) (ds : List α) : Prop :=
  List.Forall₂ (fun i d => data[i]? = some d) idx ds

/-- A pose that comes from a sample: of an essential matrix `E` the solver computed from it, a rotation and a unit vector,
with at least four points of the sample in front of both cameras; if `E` is the essential matrix of some pose, it is the
essential matrix of this one. -/
def PoseOfSample (Es : List (M3 ℝ)) (sample : List ((ℝ × ℝ) × (ℝ × ℝ))) (E R : M3 ℝ) (p : V3 ℝ) : Prop :=
  E ∈ Es ∧ R.IsRotation ∧ p.dot p = 1 ∧
    (∃ l : List ((ℝ × ℝ) × (ℝ × ℝ)), l.Sublist sample ∧ 4 ≤ l.length ∧ ∀ c ∈ l, InFrontOfBoth R p c) ∧
    ((∃ R' t k, R'.IsRotation ∧ t.dot t = 1 ∧ k ≠ 0 ∧ IsEssential E R' t k) →
      ∃ t k, Centre R t p ∧ k ≠ 0 ∧ IsEssential E R t k)

/-- The score of the features of the inliers in two images: their number if a size is unknown. -/
def pairVisibility (w1 h1 w2 h2 : Int) (inliers : List ((ℚ × ℚ) × (ℚ × ℚ))) : Nat :=
  if w1 = 0 ∨ h1 = 0 ∨ w2 = 0 ∨ h2 = 0 then inliers.length
  else visibilityScore w1.toNat h1.toNat 6 (inliers.map Prod.fst) +
    visibilityScore w2.toNat h2.toNat 6 (inliers.map Prod.snd)

/-- The fundamental matrix in pixels of cameras with square pixels, the given focal lengths and principal points, for an
essential matrix. -/
noncomputable def pixelMatrix (E : M3 ℝ) (f1 f2 : ℝ) (c1 c2 : ℝ × ℝ) : M3 ℝ :=
  let K1 : M3 ℝ := ⟨⟨1 / f1, 0, -c1.1 / f1⟩, ⟨0, 1 / f1, -c1.2 / f1⟩, ⟨0, 0, 1⟩⟩
  let K2 : M3 ℝ := ⟨⟨1 / f2, 0, -c2.1 / f2⟩, ⟨0, 1 / f2, -c2.2 / f2⟩, ⟨0, 0, 1⟩⟩
  (K2.transpose.mul E).mul K1

/-- The threshold of an image in pixels: given for an image of 1024 pixels, and used as it is if the size is unknown. -/
def imageThreshold (px : ℚ) (width height : Int) : ℚ := if width = 0 ∧ height = 0 then px else px * (max width height : Int) / 1024

/-- A sample of correspondences of points in front of both cameras of a pose from which the solver computes, among others,
the essential matrix of the pose. -/
def SampleOfTruth (fivePoint : List (ℝ × ℝ) → List (ℝ × ℝ) → Option (List (M3 ℝ))) (ns : List ((ℝ × ℝ) × (ℝ × ℝ)))
    (idx : List Nat) (E R : M3 ℝ) (t : V3 ℝ) : Prop :=
  ∃ ds Es k, Picked ns idx ds ∧ 4 ≤ ds.length ∧ (∀ c ∈ ds, GoodCorrespondence R t c) ∧
    fivePoint (ds.map Prod.fst) (ds.map Prod.snd) = some Es ∧ E ∈ Es ∧ R.IsRotation ∧ t.dot t = 1 ∧ k ≠ 0 ∧ IsEssential E R t k

/-- The same for centred pixels: the solver gives the fundamental matrix, and its focal lengths are computed. -/
def SampleOfTruthPixels (eightPoint : List (ℝ × ℝ) → List (ℝ × ℝ) → Option (M3 ℝ)) (focals : M3 ℝ → Option (ℝ × ℝ))
    (ns : List ((ℝ × ℝ) × (ℝ × ℝ))) (idx : List Nat) (F R : M3 ℝ) (f1 f2 : ℝ) (t : V3 ℝ) : Prop :=
  ∃ ds k, Picked ns idx ds ∧ ds.length = 8 ∧
    (∀ c ∈ ds, GoodCorrespondence R t ((c.1.1 / f1, c.1.2 / f1), (c.2.1 / f2, c.2.2 / f2))) ∧
    eightPoint (ds.map Prod.fst) (ds.map Prod.snd) = some F ∧ focals F = some (f1, f2) ∧ R.IsRotation ∧ t.dot t = 1 ∧ k ≠ 0 ∧
    IsEssential (((⟨⟨f2, 0, 0⟩, ⟨0, f2, 0⟩, ⟨0, 0, 1⟩⟩ : M3 ℝ).mul F).mul ⟨⟨f1, 0, 0⟩, ⟨0, f1, 0⟩, ⟨0, 0, 1⟩⟩) R t k

end Spec
end Theia
