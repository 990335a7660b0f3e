import Mathlib.Analysis.Real.Sqrt
import Mathlib.Analysis.SpecialFunctions.Trigonometric.Basic
import Verif.Base.Outcome

/-!
# Normal and uniform distributions

Models `src/theia/math/distribution.h`, over the real numbers.
-/

namespace Theia
namespace Distr

/-- The members of `NormalDistribution` (distribution.h:74-80). -/
structure Normal where
  alpha : ℝ
  beta : ℝ
  mean : ℝ

open Classical in
/-- The constructor of `NormalDistribution` (distribution.h:60-65). -/
noncomputable def Normal.new (mean sigma : ℝ) : Outcome Normal :=
  if sigma > 0 then .ok ⟨1 / (sigma * Real.sqrt (2 * Real.pi)), -1 / (2 * sigma * sigma), mean⟩ else .abort

/-- `NormalDistribution::Eval` (distribution.h:69-72). -/
noncomputable def Normal.eval (d : Normal) (x : ℝ) : ℝ :=
  d.alpha * Real.exp (d.beta * (x - d.mean) * (x - d.mean))

/-- The members of `UniformDistribution` (distribution.h:103-106). -/
structure Uniform where
  left : ℝ
  right : ℝ
  inverseSpan : ℝ

open Classical in
/-- The constructor of `UniformDistribution` (distribution.h:87-94). -/
noncomputable def Uniform.new (left right : ℝ) : Outcome Uniform :=
  if left < right then
    if right = left then .abort
    else .ok ⟨left, right, if left = right then 1 else 1 / (right - left)⟩
  else .abort

open Classical in
/-- `UniformDistribution::Eval` (distribution.h:99-101). -/
noncomputable def Uniform.eval (d : Uniform) (x : ℝ) : ℝ :=
  if d.left ≤ x ∧ x ≤ d.right then d.inverseSpan else 0

end Distr
end Theia
