import Mathlib.Algebra.BigOperators.Fin
import Mathlib.LinearAlgebra.LinearIndependent.Defs
import Mathlib.Analysis.SpecialFunctions.Pow.Real
import Verif.Spec.AlignPoints
import Verif.Spec.PoseUtil

/-!
# What the linear solvers should find
-/

namespace Theia
namespace Spec

/-- The columns returned for a matrix, given by its rows, are a basis of its null space. -/
def KernelSolver {n : Nat} (kernel : List (Fin n → ℝ) → (k : Nat) × (Fin k → Fin n → ℝ)) : Prop :=
  ∀ A, LinearIndependent ℝ (kernel A).2 ∧
    ∀ v, (∀ r ∈ A, ∑ i, r i * v i = 0) ↔ ∃ c : Fin (kernel A).1 → ℝ, v = ∑ k, c k • (kernel A).2 k

/-- The vector returned for a matrix, given by its rows, is a unit vector that the matrix makes as short as any. -/
def LastSingularVector {n : Nat} (last : List (Fin n → ℝ) → Fin n → ℝ) : Prop :=
  ∀ A, ∑ i, last A i ^ 2 = 1 ∧ ∀ w : Fin n → ℝ, ∑ i, w i ^ 2 = 1 →
    (A.map fun r => (∑ i, r i * last A i) ^ 2).sum ≤ (A.map fun r => (∑ i, r i * w i) ^ 2).sum

/-- `a A + b B`. -/
noncomputable def combine (a : ℝ) (A : M3 ℝ) (b : ℝ) (B : M3 ℝ) : M3 ℝ :=
  ⟨(A.r1.smul a).add (B.r1.smul b), (A.r2.smul a).add (B.r2.smul b), (A.r3.smul a).add (B.r3.smul b)⟩

/-- The matrix satisfies the epipolar constraint `y^T F x = 0` for all pairs of points. -/
def FitsAll (F : M3 ℝ) (xs ys : List (ℝ × ℝ)) : Prop := ∀ p ∈ xs.zip ys, epipolarResidual F p.1 p.2 = 0

/-- The matrices that satisfy the constraints are exactly the combinations of two independent ones. -/
def Pencil (A B : M3 ℝ) (xs ys : List (ℝ × ℝ)) : Prop :=
  (∀ a b, combine a A b B = ⟨V3.zero, V3.zero, V3.zero⟩ → a = 0 ∧ b = 0) ∧
    ∀ F, FitsAll F xs ys ↔ ∃ a b, F = combine a A b B

/-- The matrices that satisfy the constraints are exactly the multiples of one that is not zero. -/
def UniqueFit (A : M3 ℝ) (xs ys : List (ℝ × ℝ)) : Prop :=
  A ≠ ⟨V3.zero, V3.zero, V3.zero⟩ ∧ ∀ F, FitsAll F xs ys ↔ ∃ a, F = combine a A 0 A

/-- The sum of the squares of the entries. -/
noncomputable def entriesSq (A : M3 ℝ) : ℝ := A.r1.dot A.r1 + A.r2.dot A.r2 + A.r3.dot A.r3

/-- The sum of the squared residuals of the epipolar constraint. -/
noncomputable def epipolarError (F : M3 ℝ) (xs ys : List (ℝ × ℝ)) : ℝ :=
  ((xs.zip ys).map fun p => epipolarResidual F p.1 p.2 ^ 2).sum

/-- A singular matrix nearest to `m`. -/
def NearestSingular (m q : M3 ℝ) : Prop := q.det = 0 ∧ ∀ r : M3 ℝ, r.det = 0 → frobeniusSq m q ≤ frobeniusSq m r

/-- A singular value decomposition of every matrix. -/
def SvdSolver (svd : M3 ℝ → M3 ℝ × V3 ℝ × M3 ℝ) : Prop := ∀ m, IsFullSvd m (svd m).1 (svd m).2.2 (svd m).2.1

/-- `H x` is a multiple of `y`, as homogeneous points; the multiple may be zero. -/
def SendsTo (H : M3 ℝ) (x y : ℝ × ℝ) : Prop := ∃ l : ℝ, H.mulVec ⟨x.1, x.2, 1⟩ = (⟨y.1, y.2, 1⟩ : V3 ℝ).smul l

/-- The sum of the squares of two of the components of the cross product of `H x` and `y`. -/
noncomputable def transferError (H : M3 ℝ) (xs ys : List (ℝ × ℝ)) : ℝ :=
  ((xs.zip ys).map fun p => ((H.mulVec ⟨p.1.1, p.1.2, 1⟩).cross ⟨p.2.1, p.2.2, 1⟩).x ^ 2 +
    ((H.mulVec ⟨p.1.1, p.1.2, 1⟩).cross ⟨p.2.1, p.2.2, 1⟩).y ^ 2).sum

/-- Three points of the plane are on a line. -/
def ThreeOnLine (p q r : ℝ × ℝ) : Prop := (q.1 - p.1) * (r.2 - p.2) = (q.2 - p.2) * (r.1 - p.1)

/-- Four points, no three of them on a line. -/
def GeneralPosition (a b c d : ℝ × ℝ) : Prop := ¬ ThreeOnLine a b c ∧ ¬ ThreeOnLine a b d ∧ ¬ ThreeOnLine a c d ∧ ¬ ThreeOnLine b c d

/-- The rank is three exactly if the columns are independent, and then the solution minimises the sum of the squared
residuals. -/
def QrSolver (qr : List (V3 ℝ) → Nat × (List ℝ → V3 ℝ)) : Prop :=
  ∀ A, ((qr A).1 = 3 ↔ ∀ v, (∀ r ∈ A, r.dot v = 0) → v = V3.zero) ∧
    ((qr A).1 = 3 → ∀ b v, b.length = A.length → ((A.zip b).map fun p => (p.1.dot ((qr A).2 b) - p.2) ^ 2).sum ≤
      ((A.zip b).map fun p => (p.1.dot v - p.2) ^ 2).sum)

/-- The camera at `c` sees the point `X` in the direction of the feature, or opposite to it. -/
def SeenFrom (c : V3 ℝ) (f : ℝ × ℝ) (X : V3 ℝ) : Prop := ∃ depth : ℝ, X.sub c = (⟨f.1, f.2, 1⟩ : V3 ℝ).smul depth

/-- The sum of the squared offsets of the points from the rays, in planes of constant third coordinate. -/
noncomputable def rayOffset (f1 : ℝ × ℝ) (p1 : V3 ℝ) (f2 : ℝ × ℝ) (p2 : V3 ℝ) (c : V3 ℝ) : ℝ :=
  (p1.x - c.x - f1.1 * (p1.z - c.z)) ^ 2 + (p1.y - c.y - f1.2 * (p1.z - c.z)) ^ 2 +
    (p2.x - c.x - f2.1 * (p2.z - c.z)) ^ 2 + (p2.y - c.y - f2.2 * (p2.z - c.z)) ^ 2

/-- The normal of the plane through the two cameras and the point that they see in the directions of the features. -/
noncomputable def rayNormal (p q : ℝ × ℝ) : V3 ℝ := (⟨p.1, p.2, 1⟩ : V3 ℝ).cross ⟨q.1, q.2, 1⟩

end Spec
end Theia
