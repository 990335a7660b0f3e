import Verif.Base.AMap
import Verif.Spec.LinearRotation

/-!
# Specification of the estimation of positions by least unsquared deviations

`R` gives the angle-axis vector of the orientation of each view, `P` its position and `s` the length of the baseline of each
pair of views.
-/

namespace Theia
namespace Spec

open AngleAxis

/-- The pairs whose views both have an orientation. -/
def orientedPairs (O : AMap Nat (V3 ℝ)) (pairs : AMap (Nat × Nat) (V3 ℝ)) : List ((Nat × Nat) × V3 ℝ) :=
  pairs.entries.filter fun p => decide (p.1.1 ∈ O.keys ∧ p.1.2 ∈ O.keys)

/-- The direction of the second camera of a pair seen from the first, in the global frame. -/
noncomputable def pairDirection (R : Nat → V3 ℝ) (p : (Nat × Nat) × V3 ℝ) : V3 ℝ :=
  (toM (R p.1.1)).transpose.mulVec p.2

/-- The deviation `P_2 - P_1 - s_12 d_12` of a pair. -/
noncomputable def pairDeviation (R P : Nat → V3 ℝ) (s : Nat × Nat → ℝ) (p : (Nat × Nat) × V3 ℝ) : V3 ℝ :=
  ((P p.1.2).sub (P p.1.1)).sub ((pairDirection R p).smul (s p.1))

/-- The sum of the absolute values of all deviations. -/
noncomputable def totalDeviation (ps : List ((Nat × Nat) × V3 ℝ)) (R P : Nat → V3 ℝ) (s : Nat × Nat → ℝ) : ℝ :=
  (ps.map fun p =>
    let d := pairDeviation R P s p
    |d.x| + |d.y| + |d.z|).sum

/-- Positions and baselines of length at least one with the least total deviation. -/
def LeastDeviation (ps : List ((Nat × Nat) × V3 ℝ)) (R P : Nat → V3 ℝ) (s : Nat × Nat → ℝ) : Prop :=
  (∀ p ∈ ps, 1 ≤ s p.1) ∧ ∀ (Q : Nat → V3 ℝ) (r : Nat × Nat → ℝ), (∀ p ∈ ps, 1 ≤ r p.1) →
    totalDeviation ps R P s ≤ totalDeviation ps R Q r

end Spec
end Theia
