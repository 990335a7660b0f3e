import Verif.Spec.LinearSolvers
import Verif.Spec.Quality
import Verif.Spec.TwoViewEstimation

/-!
# What a robust estimator is asked for
-/

namespace Theia
namespace Spec

open Classical in
/-- The cost of a model: the number of data that do not fit or, for maximum likelihood, the sum of the residuals with `t` for
the data that do not fit. -/
noncomputable def robustCost {D : Type} (mle : Bool) (t : ℝ) (fits : D → Prop) (residual : D → ℝ) (data : List D) : ℝ :=
  (data.map fun d => if fits d then if mle then residual d else 0 else if mle then t else 1).sum

/-- The data `ds` are the `i`-th sample. -/
def Drawn {D : Type} (data : List D) (sample : Nat → Option (List Nat)) (i : Nat) (ds : List D) : Prop :=
  ∃ idx, sample i = some idx ∧ Picked data idx ds

/-- The samples have `k` elements, all of them data. -/
def SamplesOf (k len : Nat) (sample : Nat → Option (List Nat)) : Prop :=
  ∀ i idx, sample i = some idx → idx.length = k ∧ ∀ j ∈ idx, j < len

/-- The result of an estimation with `n` samples. `computed ds m` says what is known of a model computed from a sample,
`expected ds m` that `m` is a model that has to be found given the sample. The result is the initial value or a model computed
from a sample, the latter if one has to be found; it costs no more than any that has to be found; and the inliers are
exactly the data that fit it. -/
def RobustResult {D M : Type} (data : List D) (sample : Nat → Option (List Nat)) (n : Nat) (computed expected : List D → M → Prop)
    (fits : M → D → Prop) (cost : M → ℝ) (initial m : M) (inliers : List Nat) : Prop :=
  (m = initial ∨ ∃ i < n, ∃ ds, Drawn data sample i ds ∧ computed ds m) ∧
  (∀ i < n, ∀ ds m', Drawn data sample i ds → expected ds m' →
    (∃ i < n, ∃ ds, Drawn data sample i ds ∧ computed ds m) ∧ cost m ≤ cost m') ∧
  ExactlyThePositions data (fits m) inliers

/-- The distance of a point from the plane through `o` with the unit normal `u`. -/
noncomputable def planeDistance (o u p : V3 ℝ) : ℝ := |u.dot (p.sub o)|

/-- The plane through `o` with the unit normal `u` contains the point. -/
def InPlane (o u p : V3 ℝ) : Prop := u.dot (p.sub o) = 0

/-- Three points that span a parallelogram with an area of at least 1/1000. -/
def WideTriangle (a b c : V3 ℝ) : Prop :=
  1 / 1000000 ≤ ((b.sub a).cross (c.sub a)).dot ((b.sub a).cross (c.sub a))

/-- The squared distance of `y` from the image of `x` under the homography. -/
noncomputable def transferSq (H : M3 ℝ) (c : (ℝ × ℝ) × (ℝ × ℝ)) : ℝ :=
  let r := H.mulVec ⟨c.1.1, c.1.2, 1⟩
  (c.2.1 - r.x / r.z) ^ 2 + (c.2.2 - r.y / r.z) ^ 2

/-- The homography has a finite image of `x`, and it is closer to `y` than the threshold. -/
def TransfersTo (H : M3 ℝ) (t : ℝ) (c : (ℝ × ℝ) × (ℝ × ℝ)) : Prop :=
  (H.mulVec ⟨c.1.1, c.1.2, 1⟩).z ≠ 0 ∧ transferSq H c < t

/-- The squared Sampson distance. -/
noncomputable def sampsonSq (F : M3 ℝ) (c : (ℝ × ℝ) × (ℝ × ℝ)) : ℝ := epipolar F c.1 c.2 ^ 2 / epipolarGradient F c.1 c.2

/-- A matrix that may not be a number fits: it is one and `P` holds. -/
def SomeMatrix (P : M3 ℝ → Prop) (m : Option (M3 ℝ)) : Prop := ∃ F, m = some F ∧ P F

/-- The epipolar matrix of two cameras of the same orientation, the second at `p`: `y^T M x = 0` if the rays are in a plane
with `p`. -/
noncomputable def baselineMatrix (p : V3 ℝ) : M3 ℝ := ⟨⟨0, -p.z, p.y⟩, ⟨p.z, 0, -p.x⟩, ⟨-p.y, p.x, 0⟩⟩

end Spec
end Theia
