import Mathlib.LinearAlgebra.Matrix.NonsingularInverse
import Mathlib.Data.Fin.VecNotation
import Verif.Model.LinearSolvers
import Verif.Base.Outcome

/-!
# Model of src/theia/sfm/pose/five_point_relative_pose.cc

Over a field, the reals in the end. The decompositions of Eigen are parameters, with exact ranks. A row of coefficients is a
function of its index; the monomials are in the order of the comments of the code.
-/

namespace Theia
namespace FivePoint

open Triangulation LinearSolvers

section
variable {K : Type} [Field K]

/-- `MultiplyDegOnePoly` (five_point_relative_pose.cc:66-91). -/
def mulOne (a b : Fin 4 → K) : Fin 10 → K :=
  ![a 0 * b 0, a 0 * b 1 + a 1 * b 0, a 1 * b 1, a 0 * b 2 + a 2 * b 0, a 1 * b 2 + a 2 * b 1, a 2 * b 2,
    a 0 * b 3 + a 3 * b 0, a 1 * b 3 + a 3 * b 1, a 2 * b 3 + a 3 * b 2, a 3 * b 3]

/-- `MultiplyDegTwoDegOnePoly` (five_point_relative_pose.cc:93-140). -/
def mulTwo (a : Fin 10 → K) (b : Fin 4 → K) : Fin 20 → K :=
  ![a 0 * b 0, a 0 * b 1 + a 1 * b 0, a 1 * b 1 + a 2 * b 0, a 2 * b 1, a 0 * b 2 + a 3 * b 0,
    a 1 * b 2 + a 3 * b 1 + a 4 * b 0, a 2 * b 2 + a 4 * b 1, a 3 * b 2 + a 5 * b 0, a 4 * b 2 + a 5 * b 1, a 5 * b 2,
    a 0 * b 3 + a 6 * b 0, a 1 * b 3 + a 6 * b 1 + a 7 * b 0, a 2 * b 3 + a 7 * b 1, a 3 * b 3 + a 6 * b 2 + a 8 * b 0,
    a 4 * b 3 + a 7 * b 2 + a 8 * b 1, a 5 * b 3 + a 8 * b 2, a 6 * b 3 + a 9 * b 0, a 7 * b 3 + a 9 * b 1,
    a 8 * b 3 + a 9 * b 2, a 9 * b 3]

/-- `GetDeterminantConstraint` (five_point_relative_pose.cc:142-160). -/
def determinant (n : Fin 3 → Fin 3 → Fin 4 → K) : Fin 20 → K :=
  mulTwo (mulOne (n 0 1) (n 1 2) - mulOne (n 0 2) (n 1 1)) (n 2 0) +
    mulTwo (mulOne (n 0 2) (n 1 0) - mulOne (n 0 0) (n 1 2)) (n 2 1) +
    mulTwo (mulOne (n 0 0) (n 1 1) - mulOne (n 0 1) (n 1 0)) (n 2 2)

/-- `EETranspose` (five_point_relative_pose.cc:163-168). -/
def eeTranspose (n : Fin 3 → Fin 3 → Fin 4 → K) (i j : Fin 3) : Fin 10 → K :=
  mulOne (n i 0) (n j 0) + mulOne (n i 1) (n j 1) + mulOne (n i 2) (n j 2)

/-- `eet[i][j]` (five_point_relative_pose.cc:176-182). -/
def eet (n : Fin 3 → Fin 3 → Fin 4 → K) (i j : Fin 3) : Fin 10 → K := (2 : K) • eeTranspose n i j

/-- Row `3 * i + j` of `GetTraceConstraint` (five_point_relative_pose.cc:185-197). -/
def trace (n : Fin 3 → Fin 3 → Fin 4 → K) (i j : Fin 3) : Fin 20 → K :=
  mulTwo (eet n i 0) (n 0 j) + mulTwo (eet n i 1) (n 1 j) + mulTwo (eet n i 2) (n 2 j) -
    (1 / 2 : K) • mulTwo (eet n 0 0 + eet n 1 1 + eet n 2 2) (n i j)

/-- `BuildConstraintMatrix` (five_point_relative_pose.cc:202-208). -/
def constraint (n : Fin 3 → Fin 3 → Fin 4 → K) : Fin 10 → Fin 20 → K :=
  ![trace n 0 0, trace n 0 1, trace n 0 2, trace n 1 0, trace n 1 1, trace n 1 2, trace n 2 0, trace n 2 1, trace n 2 2,
    determinant n]

/-- `null_space_matrix` (five_point_relative_pose.cc:262-266). The argument has the columns of `null_space`. -/
def arrange (N : Fin 4 → Fin 9 → K) : Fin 3 → Fin 3 → Fin 4 → K :=
  ![![fun k => N k 0, fun k => N k 3, fun k => N k 6], ![fun k => N k 1, fun k => N k 4, fun k => N k 7],
    ![fun k => N k 2, fun k => N k 5, fun k => N k 8]]

/-- The left block of the constraint matrix (five_point_relative_pose.cc:273). -/
def left (N : Fin 4 → Fin 9 → K) : Matrix (Fin 10) (Fin 10) K :=
  Matrix.of fun i j => constraint (arrange N) i (Fin.castLE (by decide) j)

/-- The right block of the constraint matrix (five_point_relative_pose.cc:275). -/
def right (N : Fin 4 → Fin 9 → K) : Matrix (Fin 10) (Fin 10) K :=
  Matrix.of fun i j => constraint (arrange N) i (Fin.natAdd 10 j)

/-- `action_matrix` (five_point_relative_pose.cc:277-286). -/
def action (e : Matrix (Fin 10) (Fin 10) K) : Matrix (Fin 10) (Fin 10) K :=
  Matrix.of ![e 0, e 1, e 2, e 4, e 5, e 7, ![-1, 0, 0, 0, 0, 0, 0, 0, 0, 0], ![0, -1, 0, 0, 0, 0, 0, 0, 0, 0],
    ![0, 0, 0, -1, 0, 0, 0, 0, 0, 0], ![0, 0, 0, 0, 0, 0, -1, 0, 0, 0]]

end

/-- What `EigenSolver` returns for a matrix: real and imaginary part of the eigenvalues, real part of the eigenvectors. -/
structure Eigen where
  re : Fin 10 → ℝ
  im : Fin 10 → ℝ
  vector : Fin 10 → Fin 10 → ℝ

/-- `null_space * eigenvectors.col(i).tail<4>().real()` as a matrix (five_point_relative_pose.cc:299-301). -/
def candidate (N : Fin 4 → Fin 9 → ℝ) (v : Fin 10 → ℝ) : M3 ℝ := ofColumns (v 6 • N 0 + v 7 • N 1 + v 8 • N 2 + v 9 • N 3)

/-- The loop over the eigenvalues (five_point_relative_pose.cc:294-303). -/
noncomputable def candidates (N : Fin 4 → Fin 9 → ℝ) (e : Eigen) : List (M3 ℝ) :=
  ((List.finRange 10).filter fun i => decide (e.im i = 0)).map fun i => candidate N (e.vector i)

/-- The part after the null space is known (five_point_relative_pose.cc:262-305). The matrices are added to the vector that
was passed, which is not cleared. -/
noncomputable def fromNullSpace (solve : Matrix (Fin 10) (Fin 10) ℝ → Matrix (Fin 10) (Fin 10) ℝ → Matrix (Fin 10) (Fin 10) ℝ)
    (eigen : Matrix (Fin 10) (Fin 10) ℝ → Eigen) (N : Fin 4 → Fin 9 → ℝ) (out : List (M3 ℝ)) : Bool × List (M3 ℝ) :=
  let all := out ++ candidates N (eigen (action (solve (left N) (right N))))
  (decide (0 < all.length), all)

/-- `FivePointRelativePose` (five_point_relative_pose.cc:214-306). `last4` gives the last four columns of `matrixV()` of the
singular value decomposition of a matrix with nine columns. -/
noncomputable def fivePoint (kernel : Kernel 9) (last4 : List (Fin 9 → ℝ) → Fin 4 → Fin 9 → ℝ)
    (solve : Matrix (Fin 10) (Fin 10) ℝ → Matrix (Fin 10) (Fin 10) ℝ → Matrix (Fin 10) (Fin 10) ℝ)
    (eigen : Matrix (Fin 10) (Fin 10) ℝ → Eigen) (xs ys : List V2) (out : List (M3 ℝ)) : Outcome (Bool × List (M3 ℝ)) :=
  if xs.length ≠ ys.length ∨ xs.length < 5 then .abort
  else if xs.length = 5 then
    match kernel (List.zipWith sevenRow xs ys) with
    | ⟨4, N⟩ => .ok (fromNullSpace solve eigen N out)
    | _ => .ok (false, out)
  else .ok (fromNullSpace solve eigen (last4 (gram (List.zipWith sevenRow xs ys))) out)

end FivePoint
end Theia
