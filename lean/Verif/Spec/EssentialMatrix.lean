import Verif.Spec.Triangulation

/-!
# Specification of essential matrices and their decomposition
-/

namespace Theia
namespace Spec

/-- An orthogonal matrix. -/
def IsOrthogonal (m : M3 ℝ) : Prop := m.transpose.mul m = M3.one ∧ m.mul m.transpose = M3.one

/-- `U` and `V` belong to a singular value decomposition of `E`: orthogonal, `E = U diag(s) V^T` with singular values in
decreasing order. -/
def IsSvd (E U V : M3 ℝ) : Prop :=
  IsOrthogonal U ∧ IsOrthogonal V ∧ ∃ s : V3 ℝ, s.y ≤ s.x ∧ s.z ≤ s.y ∧ 0 ≤ s.z ∧
    E = (U.mul ⟨⟨s.x, 0, 0⟩, ⟨0, s.y, 0⟩, ⟨0, 0, s.z⟩⟩).mul V.transpose

/-- `E` is the essential matrix `k [t]_x R`. -/
def IsEssential (E R : M3 ℝ) (t : V3 ℝ) (k : ℝ) : Prop := ∀ v, E.mulVec v = (t.cross (R.mulVec v)).smul k

/-- A correspondence of a point in front of both cameras, not on the line through them. The first camera is the origin,
the second is `x -> R x + t`. -/
def GoodCorrespondence (R : M3 ℝ) (t : V3 ℝ) (f : (ℝ × ℝ) × (ℝ × ℝ)) : Prop :=
  ∃ (X : V3 ℝ) (z1 z2 : ℝ), 0 < z1 ∧ 0 < z2 ∧ SeesAt M3.one V3.zero X 1 f.1 z1 ∧ SeesAt R t X 1 f.2 z2 ∧
    ∀ c, Centre R t c → ¬ Parallel X c

end Spec
end Theia
