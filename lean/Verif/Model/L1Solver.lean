import Verif.Base.Outcome
import Verif.Model.SparseCholesky
import Mathlib.Analysis.SpecialFunctions.Sqrt

/-!
# The L1 solver

`math/l1_solver.h`: minimises `‖A x − b‖₁` by the alternating direction method of multipliers.
Doubles are exact reals.  The matrix type parameter (dense or sparse) is not modelled.  The
dimensions are in the types: a right hand side of the wrong size is an Eigen assertion.  `Solve` of
the factorised system cannot fail, so the early return of lines 141-145 is not modelled.
-/

namespace Theia.L1Solver

open Matrix

/-- `L1Solver::Options` (`math/l1_solver.h` lines 89-98). -/
structure Options where
  maxNumIterations : ℤ := 1000
  rho : ℝ := 1
  alpha : ℝ := 1
  absoluteTolerance : ℝ := 1e-4
  relativeTolerance : ℝ := 1e-2

/-- A constructed solver: its options, the matrix `a_` and the factorised matrix (`math/l1_solver.h`
lines 180-188). -/
structure Solver (m n : ℕ) where
  options : Options
  a : Matrix (Fin m) (Fin n) ℝ
  factor : Matrix (Fin n) (Fin n) ℝ

/-- The constructor (`math/l1_solver.h` lines 100-107). -/
noncomputable def construct {m n : ℕ} (options : Options) (mat : Matrix (Fin m) (Fin n) ℝ) :
    Outcome (Solver m n) :=
  match SparseCholesky.compute (matᵀ * mat) with
  | none => .abort
  | some factor => .ok { options, a := mat, factor }

/-- `SetMaxIterations` (`math/l1_solver.h` lines 109-111). -/
def Solver.setMaxIterations {m n : ℕ} (s : Solver m n) (k : ℤ) : Solver m n :=
  { s with options := { s.options with maxNumIterations := k } }

/-- Eigen's `norm()`. -/
noncomputable def norm {k : ℕ} (v : Fin k → ℝ) : ℝ := √(v ⬝ᵥ v)

/-- `Shrinkage` (`math/l1_solver.h` lines 190-195). -/
noncomputable def shrinkage {k : ℕ} (vec : Fin k → ℝ) (kappa : ℝ) : Fin k → ℝ :=
  fun i => max 0 (vec i - kappa) - max 0 (-vec i - kappa)

/-- The vectors the loop of `Solve` works on (`math/l1_solver.h` lines 122-127). -/
structure State (m n : ℕ) where
  x : Fin n → ℝ
  z : Fin m → ℝ
  u : Fin m → ℝ

/-- One iteration (`math/l1_solver.h` lines 138-177): the new vectors, and whether the loop
breaks. -/
noncomputable def iteration {m n : ℕ} (s : Solver m n) (rhs : Fin m → ℝ) (t : State m n) :
    State m n × Prop :=
  let o := s.options
  let x := SparseCholesky.solve s.factor (s.aᵀ *ᵥ (rhs + t.z - t.u))
  let aTimesX := s.a *ᵥ x
  let axHat := o.alpha • aTimesX + (1 - o.alpha) • (t.z + rhs)
  let z := shrinkage (axHat - rhs + t.u) (1 / o.rho)
  let u := t.u + (axHat - z - rhs)
  let rNorm := norm (aTimesX - z - rhs)
  let sNorm := norm ((-o.rho) • (s.aᵀ *ᵥ (z - t.z)))
  let maxNorm := max (max (norm aTimesX) (norm z)) (norm rhs)
  let primalEps := √m * o.absoluteTolerance + o.relativeTolerance * maxNorm
  let dualEps := √n * o.absoluteTolerance + o.relativeTolerance * norm (o.rho • (s.aᵀ *ᵥ u))
  ({ x, z, u }, rNorm < primalEps ∧ sNorm < dualEps)

open Classical in
/-- The loop with a given number of iterations left (`math/l1_solver.h` lines 138-177). -/
noncomputable def loop {m n : ℕ} (s : Solver m n) (rhs : Fin m → ℝ) :
    ℕ → State m n → State m n
  | 0, t => t
  | k + 1, t =>
    let r := iteration s rhs t
    if r.2 then r.1 else loop s rhs k r.1

/-- `Solve` (`math/l1_solver.h` lines 120-178): `solution` is the vector the caller passes in, which
is only written by the loop. -/
noncomputable def Solver.solve {m n : ℕ} (s : Solver m n) (rhs : Fin m → ℝ)
    (solution : Fin n → ℝ) : Fin n → ℝ :=
  (loop s rhs s.options.maxNumIterations.toNat { x := solution, z := 0, u := 0 }).x

end Theia.L1Solver
