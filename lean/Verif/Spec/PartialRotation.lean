import Verif.Model.PartialRotation
import Verif.Spec.LinearSolvers

/-!
# What the solvers for poses with a known axis should find
-/

namespace Theia
namespace Spec

open PartialRotation

/-- The point `p`, turned by a unit quaternion. -/
noncomputable def turn (q : Quaternion) (p : V3 ℝ) : V3 ℝ :=
  (p.add ((q.v.cross p).smul (2 * q.w))).add ((q.v.cross (q.v.cross p)).smul 2)

/-- A rotation about the axis. -/
def TurnsAbout (axis : V3 ℝ) (q : Quaternion) : Prop := q.w * q.w + q.v.dot q.v = 1 ∧ ∃ c, q.v = axis.smul c

/-- The epipolar constraint: `q2`, the turned `q1` and `t` are in a plane. -/
def DirectionsInPlane (q : Quaternion) (t q1 q2 : V3 ℝ) : Prop := q2.dot (t.cross (turn q q1)) = 0

/-- The first ray, turned, scaled and moved, and the second meet or are parallel: their lines are in a plane. -/
def RaysInPlane (q : Quaternion) (t : V3 ℝ) (s : ℝ) (r1 r2 : Ray) : Prop :=
  r2.direction.dot ((turn q r1.direction).cross ((((turn q r1.origin).smul s).add t).sub r2.origin)) = 0

/-- `s R X + t` of a point on the first ray is on the second. -/
def RaysMeet (q : Quaternion) (t : V3 ℝ) (s : ℝ) (r1 r2 : Ray) : Prop :=
  ∃ a b : ℝ, ((turn q (r1.origin.add (r1.direction.smul a))).smul s).add t = r2.origin.add (r2.direction.smul b)

/-- What `EigenSolver` does: complex eigenpairs of length one, real vectors for real eigenvalues, and every eigenvalue is found. -/
structure EigenPairsOf {n : Nat} (eigen : EigenPairs n) : Prop where
  count : ∀ A, (eigen A).length = n + n
  real : ∀ A, ∀ p ∈ eigen A, A.mulVec (Sum.elim p.top p.tail) =
    p.re • Sum.elim p.top p.tail - p.im • Sum.elim p.topIm p.tailIm
  imaginary : ∀ A, ∀ p ∈ eigen A, A.mulVec (Sum.elim p.topIm p.tailIm) =
    p.re • Sum.elim p.topIm p.tailIm + p.im • Sum.elim p.top p.tail
  unit : ∀ A, ∀ p ∈ eigen A, ∑ i, (Sum.elim p.top p.tail i ^ 2 + Sum.elim p.topIm p.tailIm i ^ 2) = 1
  realVector : ∀ A, ∀ p ∈ eigen A, p.im = 0 → p.topIm = 0 ∧ p.tailIm = 0
  all : ∀ (A : Matrix (Fin n ⊕ Fin n) (Fin n ⊕ Fin n) ℝ) (re im : ℝ) (x y : Fin n ⊕ Fin n → ℝ), (x ≠ 0 ∨ y ≠ 0) →
    A.mulVec x = re • x - im • y → A.mulVec y = re • y + im • x → ∃ p ∈ eigen A, p.re = re ∧ p.im = im

/-- The first eigenvalue with this real part is real. -/
def FirstReal {n : Nat} (s : ℝ) (l : List (EigenPair n)) : Prop :=
  ∃ before p after, l = before ++ p :: after ∧ p.re = s ∧ p.im = 0 ∧ ∀ p' ∈ before, p'.re ≠ s

/-- The same rotation. -/
def SameTurn (q q' : Quaternion) : Prop := ∀ p, turn q p = turn q' p

end Spec
end Theia
