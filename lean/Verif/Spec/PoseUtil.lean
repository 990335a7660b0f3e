import Verif.Spec.ProjectionMatrix

/-!
# Specification of the pose utilities
-/

namespace Theia
namespace Spec

/-- The residual of the epipolar constraint `y^T F x = 0`. -/
noncomputable def epipolarResidual (F : M3 ℝ) (x y : ℝ × ℝ) : ℝ :=
  (⟨y.1, y.2, 1⟩ : V3 ℝ).dot (F.mulVec ⟨x.1, x.2, 1⟩)

/-- Moving `x` by `dx` and `y` by `dy` removes the residual to first order: the residual is affine in `x` and in `y`, and the
two changes are added. -/
def CorrectsFirstOrder (F : M3 ℝ) (x y dx dy : ℝ × ℝ) : Prop :=
  epipolarResidual F x y + (epipolarResidual F (x + dx) y - epipolarResidual F x y)
    + (epipolarResidual F x (y + dy) - epipolarResidual F x y) = 0

/-- The square of the length of a pair of moves. -/
def movedSq (dx dy : ℝ × ℝ) : ℝ := dx.1 ^ 2 + dx.2 ^ 2 + dy.1 ^ 2 + dy.2 ^ 2

end Spec
end Theia
