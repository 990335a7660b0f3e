import Verif.Spec.LinearRotation

/-!
# Specification of the robust estimation of global rotations

`G` gives the angle-axis vector of the rotation of each view, `S` a small rotation for each view.
-/

namespace Theia
namespace Spec

open AngleAxis

/-- The error of a constraint: the angle-axis vector of `R_2^T R_12 R_1`. -/
noncomputable def rotationError (ofM : M3 ℝ → V3 ℝ) (G : Nat → V3 ℝ) (c : (Nat × Nat) × V3 ℝ) : V3 ℝ :=
  ofM ((toM (G c.1.2)).transpose.mul ((toM c.2).mul (toM (G c.1.1))))

/-- The weight `sigma / (|e|^2 + sigma^2)^2` of an error. -/
noncomputable def robustWeight (sigma : ℝ) (e : V3 ℝ) : ℝ := sigma / (e.dot e + sigma ^ 2) ^ 2

/-- The weighted sum of `|e - (S_2 - S_1)|^2` over the constraints. -/
noncomputable def stepCost (ofM : M3 ℝ → V3 ℝ) (sigma : ℝ) (cs : List ((Nat × Nat) × V3 ℝ)) (G S : Nat → V3 ℝ) : ℝ :=
  (cs.map fun c =>
    let e := rotationError ofM G c
    let d := e.sub ((S c.1.2).sub (S c.1.1))
    robustWeight sigma e * d.dot d).sum

/-- `S` keeps the view `v0` and minimises the weighted sum among all steps that do. -/
def BestStep (ofM : M3 ℝ → V3 ℝ) (sigma : ℝ) (cs : List ((Nat × Nat) × V3 ℝ)) (v0 : Nat) (G S : Nat → V3 ℝ) : Prop :=
  S v0 = V3.zero ∧ ∀ T : Nat → V3 ℝ, T v0 = V3.zero → stepCost ofM sigma cs G S ≤ stepCost ofM sigma cs G T

/-- The average length of the steps of the views other than one that is kept. -/
noncomputable def averageLength (views : List Nat) (S : Nat → V3 ℝ) : ℝ :=
  (views.map fun v => Real.sqrt ((S v).dot (S v))).sum / (views.length - 1 : ℕ)

/-- From `G` to `G'` by at most `limit` steps, each of them the best at its place. The sequence ends after the first step that
is shorter than `threshold` on average, and with the limit. -/
inductive RobustSteps (ofM : M3 ℝ → V3 ℝ) (sigma threshold : ℝ) (cs : List ((Nat × Nat) × V3 ℝ)) (views : List Nat)
    (v0 : Nat) : Nat → (Nat → V3 ℝ) → (Nat → V3 ℝ) → Prop where
  /-- No step is left. -/
  | none {G G'} (h : ∀ v ∈ views, G' v = G v) : RobustSteps ofM sigma threshold cs views v0 0 G G'
  /-- A short step ends the sequence. -/
  | last {limit G G'} (S : Nat → V3 ℝ) (hS : BestStep ofM sigma cs v0 G S)
      (hG : ∀ v ∈ views, toM (G' v) = (toM (G v)).mul (toM (S v))) (h : averageLength views S < threshold) :
      RobustSteps ofM sigma threshold cs views v0 (limit + 1) G G'
  /-- A long step is followed by others. -/
  | more {limit G G1 G'} (S : Nat → V3 ℝ) (hS : BestStep ofM sigma cs v0 G S)
      (hG : ∀ v ∈ views, toM (G1 v) = (toM (G v)).mul (toM (S v))) (h : threshold ≤ averageLength views S)
      (rest : RobustSteps ofM sigma threshold cs views v0 limit G1 G') :
      RobustSteps ofM sigma threshold cs views v0 (limit + 1) G G'

end Spec
end Theia
