import Mathlib.Analysis.SpecialFunctions.Pow.Real
import Mathlib.Analysis.SpecialFunctions.Gamma.Basic
import Verif.Base.Outcome
import Verif.Model.Samplers

/-!
# EVSAC sampling

Models `/repo/src/theia/solvers/evsac_sampler.h` (class `EvsacSampler`), with the functions of `/repo/libraries/statx` it calls.

* Doubles are real numbers; `none` is NaN. Conversions to float are exact.
* `rows` is the matrix of sorted distances, one list per correspondence, all of the same length (`cols`).
* Parameters, with their specification where a theorem needs one: `gammafit` and `gevfit` (maximum likelihood fits, `none` for the
  result `false`), `gammacdf` (an incomplete gamma function) and `qp` (the interior point method of `/repo/libraries/optimo`; `none`
  unless it reports `SOLVED`).
* The numbers drawn from `std::discrete_distribution` are quantified over; C++ requires that the weights have a positive sum.
-/

namespace Theia
namespace Evsac

open Classical

/-- `raylfit` (statx/distributions/rayleigh.h), squared: half the mean of the squares. -/
noncomputable def raylfitSq (samples : List ℝ) : ℝ := 1 / 2 * (samples.map fun z => z * z).sum / samples.length

/-- `MRRayleigh` (lines 123-136) for a row: first distance and the rest. With an empty rest the parameter is NaN; with parameter zero
the confidence is zero or NaN; either way the comparison fails. -/
noncomputable def mrRayleigh (row : List ℝ) (threshold : ℝ) : Outcome Bool :=
  if threshold ≤ 0 then .abort
  else if threshold > 1 then .abort
  else
    match row with
    | [] => .ub
    | x :: tail =>
      if tail = [] ∨ raylfitSq tail = 0 then .ok false
      else .ok (decide (1 - (1 - Real.exp (-(1 / 2) * x * x / (Real.sqrt (raylfitSq tail) * Real.sqrt (raylfitSq tail)))) ≥ threshold))

/-- What is collected for the fits (lines 542-565): predictions, smallest distances, negated second smallest distances and the
smallest distances of the correspondences predicted to be correct. -/
structure Extracted where
  predictions : List Bool
  smallest : List ℝ
  negatedSecond : List ℝ
  inliers : List ℝ

/-- The loop of `ExtractDataForFittingDistributions` (lines 548-564). A row without second column is read out of bounds. -/
noncomputable def extract (threshold : ℝ) : List (List ℝ) → Outcome Extracted
  | [] => .ok ⟨[], [], [], []⟩
  | row :: rows =>
    match row with
    | x :: y :: _ =>
      match mrRayleigh row threshold with
      | .abort => .abort
      | .ub => .ub
      | .ok p =>
        match extract threshold rows with
        | .abort => .abort
        | .ub => .ub
        | .ok e => .ok ⟨p :: e.predictions, x :: e.smallest, -y :: e.negatedSecond, if p then x :: e.inliers else e.inliers⟩
    | _ => .ub

/-- The value `ExtractDataForFittingDistributions` returns (line 565). -/
noncomputable def upperBound (e : Extracted) : ℝ := (e.inliers.length : ℝ) / e.predictions.length

/-- `MixtureModelParams` (lines 139-149). -/
structure Params where
  k : ℝ
  theta : ℝ
  mu : ℝ
  sigma : ℝ
  xi : ℝ
  inlierRatio : ℝ

/-- The histogram of `ecdf` (statx/utils/ecdf.cc): a `std::map` from values to counts, in increasing order. -/
noncomputable def addToHist (x : ℝ) : List (ℝ × Nat) → List (ℝ × Nat)
  | [] => [(x, 1)]
  | (y, n) :: h => if x < y then (x, 1) :: (y, n) :: h else if x = y then (y, n + 1) :: h else (y, n) :: addToHist x h

/-- The loop over the histogram: support and value of the empirical distribution, with `r` samples at risk and the product so far. -/
noncomputable def ecdfLoop : ℝ → Nat → List (ℝ × Nat) → List (ℝ × ℝ)
  | _, _, [] => []
  | prod, r, (x, d) :: h =>
    let prod := prod * (1 - (d : ℝ) / r)
    (x, 1 - prod) :: ecdfLoop prod (r - d) h

/-- `ecdf` (statx/utils/ecdf.cc). -/
noncomputable def ecdf (y : List ℝ) : List (ℝ × ℝ) := ecdfLoop 1 y.length (y.foldl (fun h x => addToHist x h) [])

/-- `gevcdf` (statx/distributions/evd/gev.h). `none` is infinite. -/
noncomputable def gevcdf (x mu sigma xi : ℝ) : Option ℝ :=
  if sigma ≤ 0 then none
  else
    let arg := (x - mu) / sigma
    if xi = 0 then some (Real.exp (-Real.exp (-arg)))
    else if 1 + xi * arg ≤ 0 then some 0
    else some (Real.exp (-(1 + xi * arg) ^ (-1 / xi)))

/-- `gevpdf` (statx/distributions/evd/gev.h). `none` is infinite. -/
noncomputable def gevpdf (x mu sigma xi : ℝ) : Option ℝ :=
  if sigma ≤ 0 then none
  else
    let inv := 1 / sigma
    let arg := (x - mu) * inv
    if xi = 0 then some (inv * Real.exp (-arg - Real.exp (-arg)))
    else
      let temp := 1 + xi * arg
      if temp ≤ 0 then some 0
      else some (Real.exp (-temp ^ (-(1 / xi))) * temp ^ (-(1 / xi) - 1) * inv)

/-- `gammapdf` (statx/distributions/gamma.h). -/
noncomputable def gammapdf (x k theta : ℝ) : ℝ :=
  if x ≤ 0 ∨ k ≤ 0 ∨ theta ≤ 0 then 0
  else 1 / (Real.Gamma k * theta ^ k) * x ^ (k - 1) * Real.exp (-x / theta)

/-- A quadratic program with two unknowns: objective `xᵀ Q x / 2 + dᵀ x`, rows `(a, b, c)` with `a x + b y = c` or `a x + b y ≤ c`. -/
structure Program where
  q00 : ℝ
  q01 : ℝ
  q10 : ℝ
  q11 : ℝ
  d0 : ℝ
  d1 : ℝ
  equality : ℝ × ℝ × ℝ
  inequalities : List (ℝ × ℝ × ℝ)

/-- The rows of the matrix `A` of `SetQPCostFunctionParams` (lines 411-421) with the empirical distribution; `none` if the distribution
function is infinite. -/
noncomputable def fitRows (gammacdf : ℝ → ℝ → ℝ → ℝ) (p : Params) : List (ℝ × ℝ) → Option (List (ℝ × ℝ × ℝ))
  | [] => some []
  | (x, f) :: es =>
    match gevcdf (-x) p.mu p.sigma p.xi, fitRows gammacdf p es with
    | some g, some rs => some ((gammacdf x p.k p.theta, 1 - g, f) :: rs)
    | _, _ => none

/-- The quadratic program (lines 397-460). -/
noncomputable def program (upper : ℝ) (rs : List (ℝ × ℝ × ℝ)) : Program where
  q00 := (rs.map fun r => r.1 * r.1).sum
  q01 := (rs.map fun r => r.1 * r.2.1).sum
  q10 := (rs.map fun r => r.2.1 * r.1).sum
  q11 := (rs.map fun r => r.2.1 * r.2.1).sum
  d0 := -1 * (rs.map fun r => r.1 * r.2.2).sum
  d1 := -1 * (rs.map fun r => r.2.1 * r.2.2).sum
  equality := (1, 1, 1)
  inequalities := [(-1, 0, 0), (0, -1, 0), (1, 0, upper), (0, 1, 1)]

/-- The library functions that are not modelled. -/
structure Library where
  gammafit : List ℝ → Option (ℝ × ℝ)
  gevfit : List ℝ → Option (ℝ × ℝ × ℝ)
  gammacdf : ℝ → ℝ → ℝ → ℝ
  qp : Program → ℝ × ℝ → Option (ℝ × ℝ)

/-- `EstimateInlierRatio` and `SolveQPProblem` (lines 376-395, 446-466): the ratio, or `none` for the result `false`. An infinite
distribution function gives a program of NaNs, on which the interior point method does not succeed. -/
noncomputable def estimateInlierRatio (lib : Library) (upper : ℝ) (smallest : List ℝ) (p : Params) : Option ℝ :=
  match fitRows lib.gammacdf p (ecdf smallest) with
  | none => none
  | some rs => (lib.qp (program upper rs) (upper / 2, 1 - upper / 2)).map (·.1)

/-- The posterior of one correspondence (lines 480-492); `none` is NaN. With an infinite density it is 0, or NaN if the factor is 0. -/
noncomputable def posterior (p : Params) (x : ℝ) : Option ℝ :=
  let gam := p.inlierRatio * gammapdf x p.k p.theta
  match gevpdf x p.mu p.sigma p.xi with
  | none => if 1 - p.inlierRatio = 0 then none else some 0
  | some g =>
    let gev := (1 - p.inlierRatio) * g
    if gam + gev = 0 then none else some (gam / (gam + gev))

/-- `ComputePosteriorAndWeights` (lines 468-497): probabilities and weights. -/
noncomputable def posteriors (p : Params) : List ℝ → List Bool → List (Option ℝ) × List (Option ℝ)
  | x :: xs, b :: bs =>
    let r := posteriors p xs bs
    (posterior p x :: r.1, (if b then posterior p x else some 0) :: r.2)
  | _, _ => ([], [])

/-- `CalculateMixtureModel` (lines 567-626): parameters, probabilities and weights, or `none` for the result `false`. -/
noncomputable def mixtureModel (lib : Library) (rows : List (List ℝ)) (threshold : ℝ) :
    Outcome (Option (Params × List (Option ℝ) × List (Option ℝ))) :=
  match extract threshold rows with
  | .abort => .abort
  | .ub => .ub
  | .ok e =>
    match lib.gammafit e.inliers with
    | none => .ok none
    | some (k, theta) =>
      match lib.gevfit e.negatedSecond with
      | none => .ok none
      | some (mu, sigma, xi) =>
        match estimateInlierRatio lib (upperBound e) e.smallest ⟨k, theta, mu, sigma, xi, 0⟩ with
        | none => .ok none
        | some ratio =>
          let p : Params := ⟨k, theta, mu, sigma, xi, ratio⟩
          .ok (some (p, posteriors p e.smallest e.predictions))

/-- The weights of the distribution, if it is one: numbers that are not negative, with a positive sum (C++ requires it of the arguments
of `std::discrete_distribution`). -/
noncomputable def distribution (ws : List (Option ℝ)) : Outcome (List ℝ) :=
  match ws.mapM id with
  | none => .ub
  | some l => if (∀ w ∈ l, 0 ≤ w) ∧ 0 < l.sum then .ok l else .ub

/-- `Initialize` (lines 628-667) after the checks of the constructor (lines 87-88): the weights of the sampler, or `none` for the result
`false`. The number of data points is not used. -/
noncomputable def init (lib : Library) (rows : List (List ℝ)) (threshold : ℝ) (_numDatapoints : Nat) : Outcome (Option (List ℝ)) :=
  if threshold ≤ 0 then .abort
  else if threshold > 1 then .abort
  else if rows.length = 0 then .abort
  else if rows.any (fun r => r.length == 0) then .abort
  else
    match mixtureModel lib rows threshold with
    | .abort => .abort
    | .ub => .ub
    | .ok none => .ok none
    | .ok (some (_, _, ws)) =>
      match distribution ws with
      | .abort => .abort
      | .ub => .ub
      | .ok l => .ok (some l)

/-- `Sample` (lines 671-688) for the numbers drawn from the distribution; `none` while the loop has not ended with them. -/
def sample (m : Nat) (draws : List Nat) : Option (List Nat) := ProsacSampler.drawUnique m [] draws

end Evsac
end Theia
