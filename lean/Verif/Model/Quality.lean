import Mathlib.Analysis.Real.Sqrt
import Verif.Base.Outcome

/-!
# Quality measurements

Models `/repo/src/theia/solvers/inlier_support.h`, `mle_quality_measurement.h` and
`lmed_quality_measurement.h`. Doubles are elements of an ordered field (real numbers where a square
root is needed); NaN does not occur. The output vector `inliers` is empty on entry, as in
sample_consensus_estimator.h:303 and 253.
-/

namespace Theia
namespace Quality

variable {K : Type}

/-- The loops at inlier_support.h:57-61, mle_quality_measurement.h:62-69 and
lmed_quality_measurement.h:113-117: the indices, counted from `i`, whose datum satisfies the test. -/
def inlierIndices (test : K → Bool) : Nat → List K → List Nat
  | _, [] => []
  | i, r :: rs => if test r then i :: inlierIndices test (i + 1) rs else inlierIndices test (i + 1) rs

section
variable [LT K] [DecidableLT K]

/-- `InlierSupport::ComputeCost` (inlier_support.h:54-63): cost and inliers. -/
def inlierSupport (thresh : K) (residuals : List K) : Nat × List Nat :=
  let inliers := inlierIndices (fun r => decide (r < thresh)) 0 residuals
  (residuals.length - inliers.length, inliers)

/-- The score accumulated by `MLEQualityMeasurement::ComputeCost` (mle_quality_measurement.h:61-69). -/
def mleScore [Add K] (thresh : K) : K → List K → K
  | score, [] => score
  | score, r :: rs => mleScore thresh (if r < thresh then score + r else score + thresh) rs

/-- `MLEQualityMeasurement::ComputeCost` (mle_quality_measurement.h:58-71). -/
def mle [Add K] [Zero K] (thresh : K) (residuals : List K) : K × List Nat :=
  (mleScore thresh 0 residuals, inlierIndices (fun r => decide (r < thresh)) 0 residuals)

end

/-- The element `std::nth_element` puts at position `k`: the one that is there after sorting. -/
def orderStatistic [LE K] [DecidableLE K] (l : List K) (k : Nat) : Outcome K :=
  match (l.mergeSort (fun a b => decide (a ≤ b)))[k]? with
  | none => .ub
  | some x => .ok x

/-- `CalculateMedianOfSquaredResiduals` (lmed_quality_measurement.h:82-100). Note the parity test. -/
def medianOfSquares [LE K] [DecidableLE K] [DivisionRing K] (residuals : List K) : Outcome K :=
  let squared := residuals.map fun r => r * r
  match orderStatistic squared (squared.length / 2) with
  | .abort => .abort
  | .ub => .ub
  | .ok median =>
    if squared.length % 2 ≠ 0 then
      if squared.length / 2 = 0 then .ub
      else
        match orderStatistic squared (squared.length / 2 - 1) with
        | .abort => .abort
        | .ub => .ub
        | .ok below => .ok (1 / 2 * (below + median))
    else .ok median

/-- `CalculateInliers` (lmed_quality_measurement.h:103-118), for more residuals than the minimum number
of samples (otherwise the divisor is zero or wraps around). -/
noncomputable def lmedThreshold (median : ℝ) (numResiduals minSampleSize : Nat) : ℝ :=
  2.5 * 1.4826 * (1 + 5 / ((numResiduals : ℝ) - minSampleSize)) * Real.sqrt median

/-- `LmedQualityMeasurement::ComputeCost` (lmed_quality_measurement.h:58-64). -/
noncomputable def lmed (minSampleSize : Nat) (residuals : List ℝ) : Outcome (ℝ × List Nat) :=
  match medianOfSquares residuals with
  | .abort => .abort
  | .ub => .ub
  | .ok median =>
    let t := lmedThreshold median residuals.length minSampleSize
    .ok (median, inlierIndices (fun r => decide (r * r < t * t)) 0 residuals)

end Quality
end Theia
