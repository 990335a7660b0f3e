import Verif.Base.Outcome
import Verif.Model.SparseCholesky
import Mathlib.Analysis.SpecialFunctions.Sqrt

/-!
# The quadratic program solver

`math/qp_solver.{h,cc}`: minimises `½ xᵀ P x + qᵀ x + r` under `lb ≤ x ≤ ub` by the alternating
direction method of multipliers.  Doubles are exact reals; a bound is `none` when it is infinite
(`-∞` below, `+∞` above; a lower bound of `+∞` and an upper bound of `-∞` are not modelled).  The
dimensions are in the types, so the two `CHECK_EQ` of the constructor (`.cc` lines 54-56) hold by
typing.  `P_` and `q_` are references to the caller's objects: the model takes their value at
construction.  `r` only occurs in a log message.  A program without unknowns (`minCoeff` of an empty
array) is outside the model.
-/

namespace Theia.QpSolver

open Matrix

/-- `QPSolver::Options` (`math/qp_solver.h` lines 67-76). -/
structure Options where
  maxNumIterations : ℤ := 1000
  rho : ℝ := 1
  alpha : ℝ := 1
  absoluteTolerance : ℝ := 1e-6
  relativeTolerance : ℝ := 1e-4

/-- A constructed solver (`math/qp_solver.h` lines 96-112). -/
structure Solver (n : ℕ) where
  options : Options
  p : Matrix (Fin n) (Fin n) ℝ
  q : Fin n → ℝ
  lb : Fin n → Option ℝ
  ub : Fin n → Option ℝ
  factor : Matrix (Fin n) (Fin n) ℝ

/-- The constructor (`math/qp_solver.cc` lines 49-72): no bounds, and the factor of `P + rho I`. -/
noncomputable def construct {n : ℕ} (options : Options) (p : Matrix (Fin n) (Fin n) ℝ)
    (q : Fin n → ℝ) : Outcome (Solver n) :=
  match SparseCholesky.compute (options.rho • (1 : Matrix (Fin n) (Fin n) ℝ) + p) with
  | none => .abort
  | some factor => .ok { options, p, q, lb := fun _ => none, ub := fun _ => none, factor }

/-- `SetMaxIterations` (`math/qp_solver.cc` lines 74-76). -/
def Solver.setMaxIterations {n : ℕ} (s : Solver n) (k : ℤ) : Solver n :=
  { s with options := { s.options with maxNumIterations := k } }

/-- `SetUpperBound` (`math/qp_solver.cc` line 78). -/
def Solver.setUpperBound {n : ℕ} (s : Solver n) (ub : Fin n → Option ℝ) : Solver n :=
  { s with ub }

/-- `SetLowerBound` (`math/qp_solver.cc` line 80). -/
def Solver.setLowerBound {n : ℕ} (s : Solver n) (lb : Fin n → Option ℝ) : Solver n :=
  { s with lb }

/-- Eigen's `norm()`. -/
noncomputable def norm {n : ℕ} (v : Fin n → ℝ) : ℝ := √(v ⬝ᵥ v)

/-- One coefficient of `(ub_ - lb_)` is negative (`math/qp_solver.cc` line 87). -/
def crossed : Option ℝ → Option ℝ → Prop
  | some l, some u => u - l < 0
  | _, _ => False

/-- `ub.min(lb.max(v))` (`math/qp_solver.cc` line 126). -/
noncomputable def clamp (lb ub : Option ℝ) (v : ℝ) : ℝ :=
  let low := match lb with
    | some l => max l v
    | none => v
  match ub with
  | some u => min u low
  | none => low

/-- The vectors the loop of `Solve` works on (`math/qp_solver.cc` lines 95-99). -/
structure State (n : ℕ) where
  x : Fin n → ℝ
  z : Fin n → ℝ
  u : Fin n → ℝ

/-- One iteration (`math/qp_solver.cc` lines 114-149): the new vectors, and whether the loop
breaks. -/
noncomputable def iteration {n : ℕ} (s : Solver n) (t : State n) : State n × Prop :=
  let o := s.options
  let x := SparseCholesky.solve s.factor (o.rho • (t.z - t.u) - s.q)
  let xHat := o.alpha • x + (1 - o.alpha) • t.z
  let z := fun i => clamp (s.lb i) (s.ub i) ((xHat + t.u) i)
  let u := t.u + (xHat - z)
  let rNorm := norm (x - z)
  let sNorm := norm ((-o.rho) • (z - t.z))
  let maxNorm := max (norm x) (norm z)
  let primalEps := √n * o.absoluteTolerance + o.relativeTolerance * maxNorm
  let dualEps := √n * o.absoluteTolerance + o.relativeTolerance * norm (o.rho • u)
  ({ x, z, u }, rNorm < primalEps ∧ sNorm < dualEps)

open Classical in
/-- The loop with a given number of iterations left (`math/qp_solver.cc` lines 114-149). -/
noncomputable def loop {n : ℕ} (s : Solver n) : ℕ → State n → State n
  | 0, t => t
  | k + 1, t =>
    let r := iteration s t
    if r.2 then r.1 else loop s k r.1

open Classical in
/-- `Solve` (`math/qp_solver.cc` lines 83-151): nothing stands for the answer `false`; the solution
is zero before the first iteration (line 95). -/
noncomputable def Solver.solve {n : ℕ} (s : Solver n) : Option (Fin n → ℝ) :=
  if ∃ i, crossed (s.lb i) (s.ub i) then none
  else some (loop s s.options.maxNumIterations.toNat { x := 0, z := 0, u := 0 }).x

end Theia.QpSolver
