import Mathlib.Data.Real.Basic
import Mathlib.Algebra.BigOperators.Group.Finset.Basic
import Mathlib.Data.Fintype.Pi
import Mathlib.Data.Fintype.BigOperators

/-! # Probabilities of inliers -/

namespace Theia.Spec

/-- How many of the residuals are below the threshold. -/
noncomputable def numInliers (errorThresh : ℝ) (rs : List ℝ) : Nat := rs.countP fun r => decide (r < errorThresh)

/-- The probability of a sequence of inliers and outliers, each an inlier with probability `p`
independently of the others. -/
noncomputable def sequenceProbability (p errorThresh : ℝ) (rs : List ℝ) : ℝ :=
  p ^ numInliers errorThresh rs * (1 - p) ^ (rs.length - numInliers errorThresh rs)

/-- How much more probable the residuals are for a bad model, of which a point is an inlier with
probability `sigma`, than for a good one, with probability `epsilon`. -/
noncomputable def likelihoodRatio (errorThresh sigma epsilon : ℝ) (rs : List ℝ) : ℝ :=
  sequenceProbability sigma errorThresh rs / sequenceProbability epsilon errorThresh rs

/-- The probability of an event for `n` points that are inliers with probability `p` each,
independently. -/
noncomputable def probability (p : ℝ) (n : Nat) (event : (Fin n → Bool) → Prop) : ℝ :=
  open Classical in
  ∑ x : Fin n → Bool, (∏ i, if x i then p else 1 - p) * if event x then 1 else 0

end Theia.Spec
