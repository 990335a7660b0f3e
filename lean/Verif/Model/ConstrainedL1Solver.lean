import Verif.Base.Outcome
import Verif.Model.SparseCholesky
import Mathlib.Analysis.SpecialFunctions.Sqrt
import Mathlib.Data.Matrix.ColumnRowPartitioned

/-!
# The constrained L1 solver

`math/constrained_l1_solver.{h,cc}`: minimises `‖A x − b‖₁` under the constraints
`C x − d ≥ 0` by the alternating direction method of multipliers.  Doubles are exact reals.  The
dimensions are in the types, so the three `CHECK_EQ` of the constructor (`.cc` lines 58-60) hold by
typing.  `A_` and `b_` are stacks; the model indexes their rows by `Fin m ⊕ Fin k` (first the rows
of `A`, then those of `geq_mat`).  `Solve` of the factorised system cannot fail, so the early return
of lines 135-139 is not modelled.
-/

namespace Theia.ConstrainedL1Solver

open Matrix

/-- `ConstrainedL1Solver::Options` (`math/constrained_l1_solver.h` lines 64-74). -/
structure Options where
  maxNumIterations : ℤ := 1000
  rho : ℝ := 10
  alpha : ℝ := 1.2
  absoluteTolerance : ℝ := 1e-4
  relativeTolerance : ℝ := 1e-2

/-- A constructed solver: options, `A_`, `b_` and the factorised matrix
(`math/constrained_l1_solver.h` lines 95-107). -/
structure Solver (m k n : ℕ) where
  options : Options
  a : Matrix (Fin m ⊕ Fin k) (Fin n) ℝ
  b : Fin m ⊕ Fin k → ℝ
  factor : Matrix (Fin n) (Fin n) ℝ

/-- The constructor (`math/constrained_l1_solver.cc` lines 49-92): `rankUpdate` fills the upper
triangle of `A_ᵀ A_`, the only part the factorisation reads. -/
noncomputable def construct {m k n : ℕ} (options : Options) (mat : Matrix (Fin m) (Fin n) ℝ)
    (b : Fin m → ℝ) (geqMat : Matrix (Fin k) (Fin n) ℝ) (geqVec : Fin k → ℝ) :
    Outcome (Solver m k n) :=
  let a := fromRows mat geqMat
  match SparseCholesky.compute (fun i j => if i ≤ j then (aᵀ * a) i j else 0) with
  | none => .abort
  | some factor => .ok { options, a, b := Sum.elim b geqVec, factor }

/-- Eigen's `norm()`. -/
noncomputable def norm {ι : Type} [Fintype ι] (v : ι → ℝ) : ℝ := √(v ⬝ᵥ v)

/-- `ModifiedShrinkage` (`math/constrained_l1_solver.cc` lines 172-187): soft thresholding on the
rows of `A`, projection to the nonnegative numbers on the rows of the constraints. -/
noncomputable def modifiedShrinkage {m k : ℕ} (vec : Fin m ⊕ Fin k → ℝ) (kappa : ℝ) :
    Fin m ⊕ Fin k → ℝ
  | .inl i => max (vec (.inl i) - kappa) 0 - max (-vec (.inl i) - kappa) 0
  | .inr j => max (vec (.inr j)) 0

/-- The vectors the loop of `Solve` works on (`math/constrained_l1_solver.cc` lines 112-118). -/
structure State (m k n : ℕ) where
  x : Fin n → ℝ
  z : Fin m ⊕ Fin k → ℝ
  u : Fin m ⊕ Fin k → ℝ

/-- One iteration (`math/constrained_l1_solver.cc` lines 132-169): the new vectors, and whether the
loop breaks. -/
noncomputable def iteration {m k n : ℕ} (s : Solver m k n) (t : State m k n) :
    State m k n × Prop :=
  let o := s.options
  let x := SparseCholesky.solve s.factor (s.aᵀ *ᵥ (s.b + t.z - t.u))
  let aTimesX := s.a *ᵥ x
  let axHat := o.alpha • aTimesX + (1 - o.alpha) • (t.z + s.b)
  let z := modifiedShrinkage (axHat - s.b + t.u) (1 / o.rho)
  let u := t.u + (axHat - z - s.b)
  let rNorm := norm (aTimesX - z - s.b)
  let sNorm := norm ((-o.rho) • (s.aᵀ *ᵥ (z - t.z)))
  let maxNorm := max (max (norm aTimesX) (norm z)) (norm s.b)
  let primalEps := √((m + k : ℕ) : ℝ) * o.absoluteTolerance + o.relativeTolerance * maxNorm
  let dualEps := √n * o.absoluteTolerance + o.relativeTolerance * norm (o.rho • (s.aᵀ *ᵥ u))
  ({ x, z, u }, rNorm < primalEps ∧ sNorm < dualEps)

open Classical in
/-- The loop with a given number of iterations left (`math/constrained_l1_solver.cc` lines
132-169). -/
noncomputable def loop {m k n : ℕ} (s : Solver m k n) : ℕ → State m k n → State m k n
  | 0, t => t
  | j + 1, t =>
    let r := iteration s t
    if r.2 then r.1 else loop s j r.1

/-- `Solve` (`math/constrained_l1_solver.cc` lines 112-170).  The vector the caller passes in is
resized (line 113), its entries are indeterminate until the first iteration: `uninitialized` stands
for them. -/
noncomputable def Solver.solve {m k n : ℕ} (s : Solver m k n) (uninitialized : Fin n → ℝ) :
    Fin n → ℝ :=
  (loop s s.options.maxNumIterations.toNat { x := uninitialized, z := 0, u := 0 }).x

end Theia.ConstrainedL1Solver
