import Mathlib.Data.Matrix.Mul
import Mathlib.Analysis.SpecialFunctions.Sqrt

/-!
# L1 minimisation and quadratic programs

The problems the solvers of `math/` are documented to solve.
-/

namespace Theia.Spec

open Matrix

/-- The sum of the absolute values. -/
def sumAbs {m : ℕ} (v : Fin m → ℝ) : ℝ := ∑ i, |v i|

/-- The Euclidean length. -/
noncomputable def length {m : ℕ} (v : Fin m → ℝ) : ℝ := √(∑ i, v i ^ 2)

/-- No nonzero combination of the columns vanishes. -/
def IndependentColumns {m n : ℕ} (A : Matrix (Fin m) (Fin n) ℝ) : Prop :=
  ∀ x, A *ᵥ x = 0 → x = 0

/-- `x` minimises `‖A x − b‖₁`. -/
def MinimizesL1 {m n : ℕ} (A : Matrix (Fin m) (Fin n) ℝ) (b : Fin m → ℝ) (x : Fin n → ℝ) : Prop :=
  ∀ y, sumAbs (A *ᵥ x - b) ≤ sumAbs (A *ᵥ y - b)

/-- `x` minimises `‖A x − b‖₁` among the points with `C x ≥ d`. -/
def MinimizesL1Subject {m k n : ℕ} (A : Matrix (Fin m) (Fin n) ℝ) (b : Fin m → ℝ)
    (C : Matrix (Fin k) (Fin n) ℝ) (d : Fin k → ℝ) (x : Fin n → ℝ) : Prop :=
  (∀ j, d j ≤ (C *ᵥ x) j) ∧
    ∀ y, (∀ j, d j ≤ (C *ᵥ y) j) → sumAbs (A *ᵥ x - b) ≤ sumAbs (A *ᵥ y - b)

/-- The value of a quadratic program without its constant. -/
noncomputable def quadratic {n : ℕ} (P : Matrix (Fin n) (Fin n) ℝ) (q : Fin n → ℝ)
    (x : Fin n → ℝ) : ℝ :=
  1 / 2 * (x ⬝ᵥ (P *ᵥ x)) + q ⬝ᵥ x

/-- `x` lies between the bounds; a missing bound does not bind. -/
def Within {n : ℕ} (lb ub : Fin n → Option ℝ) (x : Fin n → ℝ) : Prop :=
  ∀ i, (∀ l, lb i = some l → l ≤ x i) ∧ ∀ u, ub i = some u → x i ≤ u

/-- `x` minimises the quadratic program between the bounds. -/
def MinimizesQuadratic {n : ℕ} (P : Matrix (Fin n) (Fin n) ℝ) (q : Fin n → ℝ)
    (lb ub : Fin n → Option ℝ) (x : Fin n → ℝ) : Prop :=
  Within lb ub x ∧ ∀ y, Within lb ub y → quadratic P q x ≤ quadratic P q y

end Theia.Spec
