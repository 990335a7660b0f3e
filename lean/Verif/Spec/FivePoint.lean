import Verif.Model.FivePoint
import Verif.Spec.LinearSolvers
import Verif.Spec.EssentialMatrix

/-!
# What the five point solver should find
-/

namespace Theia
namespace Spec

/-- The four vectors are a basis of the null space of the matrix with the given rows. -/
def NullBasis (A : List (Fin 9 → ℝ)) (N : Fin 4 → Fin 9 → ℝ) : Prop :=
  LinearIndependent ℝ N ∧ ∀ v, (∀ r ∈ A, ∑ i, r i * v i = 0) ↔ ∃ c : Fin 4 → ℝ, v = ∑ k, c k • N k

/-- The last four right singular vectors of a matrix with a null space of dimension four are a basis of it. -/
def LastFour (last4 : List (Fin 9 → ℝ) → Fin 4 → Fin 9 → ℝ) : Prop := ∀ A N, NullBasis A N → NullBasis A (last4 A)

/-- A linear system with an invertible matrix is solved. -/
def LuSolver (solve : Matrix (Fin 10) (Fin 10) ℝ → Matrix (Fin 10) (Fin 10) ℝ → Matrix (Fin 10) (Fin 10) ℝ) : Prop :=
  ∀ A B, IsUnit A → A * solve A B = B

/-- The pairs whose eigenvalue is real are eigenpairs, and every real eigenvalue is found. -/
def EigensolverTen (eigen : Matrix (Fin 10) (Fin 10) ℝ → FivePoint.Eigen) : Prop :=
  ∀ A, (∀ i, (eigen A).im i = 0 → (eigen A).vector i ≠ 0 ∧ A.mulVec ((eigen A).vector i) = (eigen A).re i • (eigen A).vector i) ∧
    ∀ (s : ℝ) (v : Fin 10 → ℝ), v ≠ 0 → A.mulVec v = s • v → ∃ i, (eigen A).im i = 0 ∧ (eigen A).re i = s

/-- The multiple of a matrix. -/
noncomputable def multiple (c : ℝ) (E : M3 ℝ) : M3 ℝ := ⟨E.r1.smul c, E.r2.smul c, E.r3.smul c⟩

/-- `F` is a multiple of `E` other than zero. -/
def SameUpToScale (E F : M3 ℝ) : Prop := ∃ c : ℝ, c ≠ 0 ∧ F = multiple c E

/-- The two directions see the same point from two cameras, the second of which is `x -> R x + t`. The point may be behind a
camera or at infinity. -/
def SeenByBoth (R : M3 ℝ) (t : V3 ℝ) (x y : ℝ × ℝ) : Prop :=
  ∃ a b c : ℝ, (a ≠ 0 ∨ b ≠ 0) ∧ ((R.mulVec ⟨x.1, x.2, 1⟩).smul a).add (t.smul c) = (⟨y.1, y.2, 1⟩ : V3 ℝ).smul b

end Spec
end Theia
