import Verif.Model.RelativePosition
import Verif.Spec.EssentialMatrix

/-!
# Two cameras with known rotations
-/

namespace Theia
namespace Spec

/-- The camera with the given rotation and centre sees the point `X` at `f`, at the given depth. -/
def SeenWith (R : M3 ℝ) (C X : V3 ℝ) (f : ℝ × ℝ) (depth : ℝ) : Prop :=
  R.mulVec (X.sub C) = (⟨f.1, f.2, 1⟩ : V3 ℝ).smul depth

/-- An exact match of a point in front of both cameras that is not on the line through their centres. -/
def ExactMatch (R1 R2 : M3 ℝ) (C1 C2 X : V3 ℝ) (c : (ℝ × ℝ) × (ℝ × ℝ)) : Prop :=
  ∃ z1 z2, 0 < z1 ∧ 0 < z2 ∧ SeenWith R1 C1 X c.1 z1 ∧ SeenWith R2 C2 X c.2 z2 ∧ ¬ Parallel (X.sub C1) (C2.sub C1)

/-- An exact match of a point at infinity: both cameras see it in the same direction. -/
def InfiniteMatch (R1 R2 : M3 ℝ) (c : (ℝ × ℝ) × (ℝ × ℝ)) : Prop :=
  ∃ d : V3 ℝ, ∃ z1 z2, 0 < z1 ∧ 0 < z2 ∧ R1.mulVec d = (⟨c.1.1, c.1.2, 1⟩ : V3 ℝ).smul z1 ∧
    R2.mulVec d = (⟨c.2.1, c.2.2, 1⟩ : V3 ℝ).smul z2

/-- `u` is the matrix of the left singular vectors for every matrix. -/
def LeftSingular (u : M3 ℝ → M3 ℝ) : Prop := ∀ m, ∃ V, IsSvd m (u m) V

/-- `p` is the direction, in the first camera, from its centre to the centre of the second. -/
def IsDirection (R1 : M3 ℝ) (C1 C2 p : V3 ℝ) : Prop :=
  p.dot p = 1 ∧ ∃ k, 0 < k ∧ R1.mulVec (C2.sub C1) = p.smul k

/-- With the second camera at `p`, in the coordinates of the first, the rays of the match are not parallel, and their closest
points have positive depth. -/
def InFrontAt (R1 R2 : M3 ℝ) (p : V3 ℝ) (c : (ℝ × ℝ) × (ℝ × ℝ)) : Prop :=
  ∃ d1 d2 X Y, RayOf M3.one c.1 d1 ∧ RayOf (R2.mul R1.transpose) c.2 d2 ∧ ¬ Parallel d1 d2 ∧
    ClosestPoints V3.zero d1 p d2 X Y ∧ 0 < X.z ∧ 0 < ((R2.mul R1.transpose).mulVec (Y.sub p)).z

open Classical in
/-- How many of the matches satisfy a condition. -/
noncomputable def howMany (P : (ℝ × ℝ) × (ℝ × ℝ) → Prop) (cs : List ((ℝ × ℝ) × (ℝ × ℝ))) : Nat := cs.countP fun c => decide (P c)

end Spec
end Theia
