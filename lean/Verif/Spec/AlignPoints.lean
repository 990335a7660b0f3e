import Verif.Model.AlignPoints
import Verif.Spec.EssentialMatrix
import Verif.Spec.Transform

/-!
# Specification of the alignment of point clouds
-/

namespace Theia
namespace Spec

open AlignPoints

/-- `U`, `V` and `s` are a singular value decomposition of `E`. -/
def IsFullSvd (E U V : M3 ℝ) (s : V3 ℝ) : Prop :=
  IsOrthogonal U ∧ IsOrthogonal V ∧ s.y ≤ s.x ∧ s.z ≤ s.y ∧ 0 ≤ s.z ∧
    E = (U.mul ⟨⟨s.x, 0, 0⟩, ⟨0, s.y, 0⟩, ⟨0, 0, s.z⟩⟩).mul V.transpose

/-- The weighted sum of the squared distances between the right points and the transformed left points. -/
noncomputable def alignmentError (left right : List (V3 ℝ)) (weights : List ℝ) (R : M3 ℝ) (t : V3 ℝ) (s : ℝ) : ℝ :=
  ((List.zip weights (List.zip left right)).map (fun p =>
    p.1 * (p.2.2.sub (similarity R t s p.2.1)).dot (p.2.2.sub (similarity R t s p.2.1)))).sum

/-- The points are not on one line. -/
def NotCollinear (ps : List (V3 ℝ)) : Prop :=
  ∃ a ∈ ps, ∃ b ∈ ps, ∃ c ∈ ps, (b.sub a).cross (c.sub a) ≠ V3.zero

end Spec
end Theia
