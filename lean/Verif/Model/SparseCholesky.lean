import Mathlib.LinearAlgebra.Matrix.PosDef
import Mathlib.LinearAlgebra.Matrix.NonsingularInverse
import Mathlib.Data.Real.Basic

/-!
# Sparse Cholesky factorisation

`math/matrix/sparse_cholesky_llt.{h,cc}`: a wrapper of CHOLMOD.  Modelled over the exact reals, so
that the factorisation succeeds exactly for positive definite matrices; out of memory, integer
overflow and missing methods (`.cc` lines 217-232, 237-241) are not modelled, nor is the sparsity
pattern.
-/

namespace Theia.SparseCholesky

open Matrix

/-- `ViewAsCholmod` (`math/matrix/sparse_cholesky_llt.cc` lines 85-111): `stype = 1`, the matrix is
taken as symmetric and only its upper triangle is read. -/
def symmetric {n : ℕ} (mat : Matrix (Fin n) (Fin n) ℝ) : Matrix (Fin n) (Fin n) ℝ :=
  fun i j => if i ≤ j then mat i j else mat j i

open Classical in
/-- `Compute` followed by `Info()` (`math/matrix/sparse_cholesky_llt.cc` lines 192-268):
the factorised matrix, or nothing when `Info()` is not `Eigen::Success` (`CHOLMOD_NOT_POSDEF`,
lines 233-236). -/
noncomputable def compute {n : ℕ} (mat : Matrix (Fin n) (Fin n) ℝ) :
    Option (Matrix (Fin n) (Fin n) ℝ) :=
  if (symmetric mat).PosDef then some (symmetric mat) else none

/-- `Solve` (`math/matrix/sparse_cholesky_llt.cc` lines 273-298) with the factor of `mat`: the
solution of the linear system. -/
noncomputable def solve {n : ℕ} (mat : Matrix (Fin n) (Fin n) ℝ) (rhs : Fin n → ℝ) : Fin n → ℝ :=
  mat⁻¹ *ᵥ rhs

end Theia.SparseCholesky
