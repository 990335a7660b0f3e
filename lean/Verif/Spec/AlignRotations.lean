import Verif.Base.RotationMatrix

/-!
# What aligning orientations means
-/

namespace Theia
namespace Spec

/-- The new orientations are the old ones after a common change `S` of the world's coordinates. -/
def TurnedBy (S : M3 ℝ) (old new : List (V3 ℝ)) : Prop :=
  List.Forall₂ (fun r r' => AngleAxis.toM r' = (AngleAxis.toM r).mul S) old new

/-- The sum of the squared differences of angle-axis vectors. -/
noncomputable def vectorsApart : List (V3 ℝ) → List (V3 ℝ) → ℝ
  | a :: as, b :: bs => (a.sub b).dot (a.sub b) + vectorsApart as bs
  | _, _ => 0

/-- The two lists are the same rotations. -/
def SameRotations (as bs : List (V3 ℝ)) : Prop := List.Forall₂ (fun a b => AngleAxis.toM a = AngleAxis.toM b) as bs

/-- The vector is the one that the conversion from matrices gives for its rotation. Such a vector has at most length π. -/
def CanonicalVector (ofM : M3 ℝ → V3 ℝ) (v : V3 ℝ) : Prop := ofM (AngleAxis.toM v) = v

/-- A solver that starts at zero and does not end with a larger cost. -/
def NoWorse (solve : (V3 ℝ → ℝ) → V3 ℝ) : Prop := ∀ f : V3 ℝ → ℝ, f (solve f) ≤ f V3.zero

end Spec
end Theia
