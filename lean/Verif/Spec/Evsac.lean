import Mathlib.Analysis.SpecialFunctions.Pow.Real
import Verif.Model.Evsac

/-!
# What EVSAC needs: the Rayleigh test, empirical distributions, extreme values and least squares
-/

namespace Theia
namespace Spec

open Classical

/-- Mean of the squares. -/
noncomputable def meanSquare (l : List ℝ) : ℝ := (l.map fun z => z ^ 2).sum / l.length

/-- A match is taken for correct: the distance `x` to the nearest neighbour is so small that a Rayleigh variable with the second moment
of the other distances is larger with probability at least `threshold`. -/
def PredictedCorrect (threshold : ℝ) : List ℝ → Prop
  | [] => False
  | x :: tail => 0 < meanSquare tail ∧ x ^ 2 ≤ Real.log (1 / threshold) * meanSquare tail

/-- Fraction of the samples that are not above `x`. -/
noncomputable def empiricalCdf (l : List ℝ) (x : ℝ) : ℝ := (l.countP fun y => decide (y ≤ x) : ℝ) / l.length

/-- The distribution function of the generalised extreme value distribution, with shape `xi`. -/
noncomputable def extremeValueCdf (mu sigma xi x : ℝ) : ℝ :=
  if xi = 0 then Real.exp (-Real.exp (-((x - mu) / sigma)))
  else if 0 < 1 + xi * ((x - mu) / sigma) then Real.exp (-(1 + xi * ((x - mu) / sigma)) ^ (-1 / xi))
  else if 0 < xi then 0 else 1

/-- Squared distance, over the values in `l`, between the empirical distribution and the mixture of `G` and `H` with weight `r`. -/
noncomputable def mixtureError (G H : ℝ → ℝ) (l : List ℝ) (r : ℝ) : ℝ :=
  ∑ x ∈ l.toFinset, (r * G x + (1 - r) * H x - empiricalCdf l x) ^ 2

/-- The constraints of a quadratic program. -/
def Feasible (P : Evsac.Program) (x : ℝ × ℝ) : Prop :=
  P.equality.1 * x.1 + P.equality.2.1 * x.2 = P.equality.2.2 ∧ ∀ c ∈ P.inequalities, c.1 * x.1 + c.2.1 * x.2 ≤ c.2.2

/-- The objective of a quadratic program. -/
noncomputable def objective (P : Evsac.Program) (x : ℝ × ℝ) : ℝ :=
  (x.1 * (P.q00 * x.1 + P.q01 * x.2) + x.2 * (P.q10 * x.1 + P.q11 * x.2)) / 2 + (P.d0 * x.1 + P.d1 * x.2)

/-- When it reports success, the solver has found a minimum under the constraints. -/
def SolvesPrograms (qp : Evsac.Program → ℝ × ℝ → Option (ℝ × ℝ)) : Prop :=
  ∀ P x0 x, qp P x0 = some x → Feasible P x ∧ ∀ z, Feasible P z → objective P x ≤ objective P z

/-- The numbers could have been drawn with these weights. -/
def DrawnWith (ws : List ℝ) (draws : List Nat) : Prop := ∀ i ∈ draws, ∃ w, ws[i]? = some w ∧ 0 < w

end Spec
end Theia
