import Mathlib.Analysis.SpecialFunctions.Log.Basic
import Verif.Base.Outcome

/-!
# Model of `SampleConsensusEstimator` (solvers/sample_consensus_estimator.h)

Doubles are real numbers. The sampler's behaviour is an arbitrary function of the iteration; the model
estimator and the quality measure are arbitrary functions. Costs live in any linear order; the initial
`best_cost` (the largest double) is above all of them.
-/

namespace Theia
namespace Ransac

/-- The parameters used (sample_consensus_estimator.h:57-114). -/
structure Params where
  failureProbability : ℝ
  minInlierRatio : ℝ
  minIterations : Int
  maxIterations : Int
  useTdd : Bool

/-- The constructor's checks (sample_consensus_estimator.h:191-197). The error threshold is part of
the quality measure. -/
def Params.Valid (p : Params) : Prop :=
  p.minInlierRatio ≤ 1 ∧ 0 ≤ p.minInlierRatio ∧ p.failureProbability < 1 ∧ 0 < p.failureProbability ∧
  p.minIterations ≤ p.maxIterations

/-- Conversion of a double to an int: towards zero. -/
noncomputable def truncate (x : ℝ) : Int := if 0 ≤ x then ⌊x⌋ else ⌈x⌉

/-- `std::numeric_limits<double>::epsilon()`. -/
noncomputable def epsilon : ℝ := 1 / 2 ^ 52

/-- `ComputeMaxIterations` (sample_consensus_estimator.h:215-243). -/
noncomputable def computeMaxIterations (p : Params) (sampleSize : Nat) (inlierRatio : ℝ)
    (logFailureProb : ℝ) : Outcome Int :=
  if inlierRatio > 0 then
    if inlierRatio = 1 then .ok p.minIterations
    else
      let numSamples := if p.useTdd then sampleSize + 1 else sampleSize
      let logProb := Real.log (1 - inlierRatio ^ numSamples) - epsilon
      let numIterations := logFailureProb / logProb
      .ok (truncate (max (p.minIterations : ℝ) (min numIterations (p.maxIterations : ℝ))))
  else .abort

section Loop

variable {D M C : Type} [LT C] [DecidableLT C]

/-- The state of the loop. `best = none` means that `*best_model` is as the caller left it and
`best_cost` is the largest double. -/
structure LoopState (M C : Type) where
  maxIterations : Int
  best : Option (M × C)
  deriving DecidableEq, Repr

/-- `sample_cost < best_cost` (sample_consensus_estimator.h:310). -/
def isBetter (best : Option (M × C)) (cost : C) : Bool :=
  match best with
  | none => true
  | some b => decide (cost < b.2)

/-- One evaluated model (sample_consensus_estimator.h:298-329). `eval` gives the cost and the inliers
of a model, `bound k` is `ComputeMaxIterations` for `k` inliers. Comparing the inlier ratio with the
ratio of the sample size is comparing the counts. -/
def evalModel (sampleSize : Nat) (eval : M → C × List Nat) (bound : Nat → Outcome Int)
    (s : LoopState M C) (m : M) : Outcome (LoopState M C) :=
  let e := eval m
  if isBetter s.best e.1 then
    let s := { s with best := some (m, e.1) }
    if e.2.length < sampleSize then .ok s
    else
      match bound e.2.length with
      | .abort => .abort
      | .ub => .ub
      | .ok k => .ok { s with maxIterations := min k s.maxIterations }
  else .ok s

/-- All models of one sample. -/
def evalModels (sampleSize : Nat) (eval : M → C × List Nat) (bound : Nat → Outcome Int) :
    List M → LoopState M C → Outcome (LoopState M C)
  | [], s => .ok s
  | m :: ms, s =>
    match evalModel sampleSize eval bound s m with
    | .abort => .abort
    | .ub => .ub
    | .ok s => evalModels sampleSize eval bound ms s

/-- The data of a sample (sample_consensus_estimator.h:285-288); an index out of range is `ub`. -/
def subset (data : List D) (indices : List Nat) : Outcome (List D) :=
  match indices.mapM (fun i => data[i]?) with
  | none => .ub
  | some ds => .ok ds

/-- One iteration (sample_consensus_estimator.h:278-329). -/
def iteration (data : List D) (sample : Nat → Option (List Nat)) (estimate : List D → Option (List M))
    (sampleSize : Nat) (eval : M → C × List Nat) (bound : Nat → Outcome Int) (i : Nat)
    (s : LoopState M C) : Outcome (LoopState M C) :=
  match sample i with
  | none => .ok s
  | some indices =>
    match subset data indices with
    | .abort => .abort
    | .ub => .ub
    | .ok ds =>
      match estimate ds with
      | none => .ok s
      | some ms => evalModels sampleSize eval bound ms s

/-- The loop (sample_consensus_estimator.h:276-330); running out of fuel means it goes on. Returns
the number of iterations. -/
def loop (data : List D) (sample : Nat → Option (List Nat)) (estimate : List D → Option (List M))
    (sampleSize : Nat) (eval : M → C × List Nat) (bound : Nat → Outcome Int) :
    Nat → Nat → LoopState M C → Outcome (Nat × LoopState M C)
  | fuel, i, s =>
    if (i : Int) < s.maxIterations then
      match fuel with
      | 0 => .ub
      | fuel + 1 =>
        match iteration data sample estimate sampleSize eval bound i s with
        | .abort => .abort
        | .ub => .ub
        | .ok s => loop data sample estimate sampleSize eval bound fuel (i + 1) s
    else .ok (i, s)

end Loop

/-- What `Estimate` reports (sample_consensus_estimator.h:117-129). -/
structure Summary where
  inliers : List Nat
  numInputDataPoints : Nat
  numIterations : Nat
  confidence : ℝ

/-- The initial iteration bound (sample_consensus_estimator.h:265-274). -/
noncomputable def startIterations (p : Params) (sampleSize : Nat) (logFailureProb : ℝ) : Outcome Int :=
  if p.minInlierRatio > 0 then
    match computeMaxIterations p sampleSize p.minInlierRatio logFailureProb with
    | .abort => .abort
    | .ub => .ub
    | .ok k => .ok (min k p.maxIterations)
  else .ok p.maxIterations

/-- `*best_model` after the loop: it is overwritten only when a model is better than the best so far
(sample_consensus_estimator.h:309-312). -/
def bestOr {M C : Type} (initial : M) : Option (M × C) → M
  | none => initial
  | some b => b.1

/-- `Estimate` (sample_consensus_estimator.h:246-344) after a successful `Sampler::Initialize`;
`initial` is the value of `*best_model` on entry. It always returns true. -/
noncomputable def run {D M C : Type} [LT C] [DecidableLT C] (p : Params) (data : List D)
    (sample : Nat → Option (List Nat)) (estimate : List D → Option (List M)) (sampleSize : Nat)
    (eval : M → C × List Nat) (initial : M) : Outcome (M × Summary) :=
  if data.length > 0 then
    let logFailureProb := Real.log p.failureProbability
    match startIterations p sampleSize logFailureProb with
    | .abort => .abort
    | .ub => .ub
    | .ok maxIterations =>
      match loop data sample estimate sampleSize eval
        (fun k => computeMaxIterations p sampleSize ((k : ℝ) / (data.length : ℝ)) logFailureProb)
        maxIterations.toNat 0 ⟨maxIterations, none⟩ with
      | .abort => .abort
      | .ub => .ub
      | .ok (n, s) =>
        let best := bestOr initial s.best
        let inliers := (eval best).2
        .ok (best, ⟨inliers, data.length, n,
          1 - (1 - ((inliers.length : ℝ) / (data.length : ℝ)) ^ sampleSize) ^ n⟩)
  else .abort

end Ransac
end Theia
