import Verif.Base.Outcome
import Mathlib.Analysis.SpecialFunctions.Log.Basic

/-!
# Model of the sequential probability ratio test

`/repo/src/theia/math/probability/sequential_probability_ratio.{h,cc}`.  Line numbers are those of
sequential_probability_ratio.cc.  Doubles are exact reals; infinities and values that are not a number
are `ub`.  The numbers of points and iterations fit in an `int`.
-/

namespace Theia
namespace Sprt

/-- A division of doubles. -/
noncomputable def divide (x y : ℝ) : Outcome ℝ := if y = 0 then .ub else .ok (x / y)

/-- A logarithm of doubles. -/
noncomputable def logarithm (x : ℝ) : Outcome ℝ := if 0 < x then .ok (Real.log x) else .ub

/-- Lines 45-46. -/
noncomputable def divergence (sigma epsilon : ℝ) : Outcome ℝ := do
  let q0 ← divide (1 - sigma) (1 - epsilon)
  let l0 ← logarithm q0
  let q1 ← divide sigma epsilon
  let l1 ← logarithm q1
  .ok ((1 - sigma) * l0 + sigma * l1)

/-- The loop of lines 56-62, with the number of passes that are left. -/
noncomputable def iterate (a0 : ℝ) : Nat → ℝ → Outcome ℝ
  | 0, threshold => .ok threshold
  | n + 1, threshold => do
    let l ← logarithm threshold
    let new := a0 + l
    if |new - threshold| < 1e-4 then .ok new else iterate a0 n new

/-- `CalculateSPRTDecisionThreshold` (lines 41-64). -/
noncomputable def decisionThreshold (sigma epsilon time : ℝ) (models : Int) : Outcome ℝ := do
  let c ← divergence sigma epsilon
  let q ← divide (time * c) models
  let a0 := q + 1
  iterate a0 1000 a0

/-- Lines 76-81: what the likelihood ratio is multiplied by for a residual. -/
noncomputable def pointRatio (errorThresh sigma epsilon r : ℝ) : Outcome ℝ :=
  if r < errorThresh then divide sigma epsilon else divide (1 - sigma) (1 - epsilon)

/-- The loop and the end of `SequentialProbabilityRatioTest` (lines 73-96): whether the model passes,
the number of points that were tested, and the ratio of inliers.  `i` points, `inliers` of which were
inliers, have been tested. -/
noncomputable def testLoop (errorThresh sigma epsilon threshold : ℝ) :
    List ℝ → Nat → Nat → ℝ → Outcome (Bool × Nat × ℝ)
  | [], i, inliers, _ => do
    let ratio ← divide inliers i
    .ok (true, i, ratio)
  | r :: rs, i, inliers, likelihood => do
    let q ← pointRatio errorThresh sigma epsilon r
    let inliers := if r < errorThresh then inliers + 1 else inliers
    if likelihood * q > threshold then do
      let ratio ← divide inliers ((i + 1 : Nat) : ℝ)
      .ok (false, i + 1, ratio)
    else testLoop errorThresh sigma epsilon threshold rs (i + 1) inliers (likelihood * q)

/-- `SequentialProbabilityRatioTest` (lines 66-97). -/
noncomputable def test (residuals : List ℝ) (errorThresh sigma epsilon threshold : ℝ) :
    Outcome (Bool × Nat × ℝ) :=
  testLoop errorThresh sigma epsilon threshold residuals 0 0 1

end Sprt
end Theia
