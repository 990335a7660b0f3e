import Verif.Model.PairwiseErrors

/-!
# What the residuals of pairs of views measure
-/

namespace Theia.Spec

open AngleAxis

/-- The length of a vector. -/
noncomputable def vectorLength (v : V3 ℝ) : ℝ := Real.sqrt (v.dot v)

/-- The cosine of the angle between two vectors. -/
noncomputable def cosBetween (a b : V3 ℝ) : ℝ := a.dot b / (vectorLength a * vectorLength b)

/-- The rotations agree with the relative rotation: `R_2 = R_12 R_1`. -/
def RelativeRotationHolds (relative r1 r2 : V3 ℝ) : Prop := toM r2 = (toM relative).mul (toM r1)

/-- The loss `2 b (sqrt (1 + s / b) - 1)`, `b = width^2`, of a squared residual `s`. -/
noncomputable def softLoss (width s : ℝ) : ℝ := 2 * width ^ 2 * (Real.sqrt (1 + s / width ^ 2) - 1)

/-- What is minimised over the rotations `G` of the views: half the loss of the squared angles between `R_2 R_1^T` and `R_12`. -/
noncomputable def softRotationCost (width : ℝ) (terms : List ((Nat × Nat) × V3 ℝ)) (G : Nat → M3 ℝ) : ℝ :=
  (terms.map fun p =>
    1 / 2 * softLoss width (angle (((G p.1.2).mul (G p.1.1).transpose).mul (toM p.2).transpose) ^ 2)).sum

end Theia.Spec
