import Mathlib.Data.List.Basic

/-!
# Inliers of a residual vector
-/

namespace Theia.Spec

/-- `inliers` lists, in increasing order, exactly the positions of `residuals` satisfying `test`. -/
def ExactlyThePositions {K : Type} (residuals : List K) (test : K → Prop) (inliers : List Nat) : Prop :=
  inliers.Pairwise (· < ·) ∧ ∀ i, i ∈ inliers ↔ ∃ r, residuals[i]? = some r ∧ test r

end Theia.Spec
