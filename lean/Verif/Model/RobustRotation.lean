import Verif.Base.AMap
import Verif.Base.Outcome
import Verif.Model.L1Solver
import Verif.Model.LinearRotation
import Verif.Model.RotationFilters

/-!
# Robust estimation of global rotations

Models src/theia/sfm/global_pose_estimation/robust_rotation_estimator.{h,cc} over the reals.

* `ofM` is `ceres::RotationMatrixToAngleAxis`.
* `order` is the order of iteration of the map of orientations. The loop that applies a step treats every orientation on
  its own, so its order is not modelled.
* The solvers are those of the models `L1Solver` and `SparseCholesky`; the symbolic analysis cannot fail (lines 180-184).
* With a single orientation the average step is 0/0; the model calls that undefined. The number of iterations of the inner
  solver is doubled without overflow.
-/

namespace Theia
namespace RobustRotation

open AngleAxis Matrix

/-- `RobustRotationEstimator::Options` (robust_rotation_estimator.h:63-82). -/
structure Options where
  maxL1 : ℤ := 5
  l1Threshold : ℝ := 0.001
  maxIrls : ℤ := 100
  irlsThreshold : ℝ := 0.001
  sigma : ℝ := RotationFilters.degToRad 5

/-- The members that outlive a call (robust_rotation_estimator.h:143-151): the constraints and the indices of the views. -/
structure State where
  constraints : List ((Nat × Nat) × V3 ℝ)
  index : AMap Nat Int

/-- A new estimator (robust_rotation_estimator.h:84-85). -/
def empty : State := ⟨[], AMap.empty⟩

/-- `AddRelativeRotationConstraint` (robust_rotation_estimator.cc:60-64). -/
def addConstraint (s : State) (c : (Nat × Nat) × V3 ℝ) : State := { s with constraints := s.constraints ++ [c] }

/-- Successive calls of `AddRelativeRotationConstraint`, as in the loop of `EstimateRotations` (lines 54-56). -/
def addAll (s : State) (cs : List ((Nat × Nat) × V3 ℝ)) : State := cs.foldl addConstraint s

/-- The loop that numbers the views (lines 77-82). -/
def number : List Nat → Int → AMap Nat Int → AMap Nat Int
  | [], _, m => m
  | v :: vs, i, m => number vs (i + 1) (m.insert v i)

/-- The three entries of one view of a constraint (lines 118-128, 132-142); none for the constant view. -/
def tripletsOf (k : Nat) (i : Int) (value : ℝ) : List (Nat × Nat × ℝ) :=
  if i = -1 then []
  else [(3 * k, 3 * i.toNat, value), (3 * k + 1, 3 * i.toNat + 1, value), (3 * k + 2, 3 * i.toNat + 2, value)]

/-- The loop of `SetupLinearSystem` (lines 113-145). `FindOrDie` ends the program for a view without an index. -/
def triplets (index : AMap Nat Int) : Nat → List ((Nat × Nat) × V3 ℝ) → Outcome (List (Nat × Nat × ℝ))
  | _, [] => .ok []
  | k, c :: cs =>
    match index.get c.1.1 with
    | none => .abort
    | some i =>
      match index.get c.1.2 with
      | none => .abort
      | some j =>
        match triplets index (k + 1) cs with
        | .abort => .abort
        | .ub => .ub
        | .ok es => .ok (tripletsOf k i (-1) ++ tripletsOf k j 1 ++ es)

/-- The sparse matrix (lines 106-107, 146): `setFromTriplets` adds up the values at a place. -/
noncomputable def matrix (E V : Nat) (es : List (Nat × Nat × ℝ)) : Matrix (Fin (3 * E)) (Fin (3 * V)) ℝ :=
  fun r c => LinearRotation.stored es r c

/-- An entry of a vector. -/
def comp (c : Nat) (v : V3 ℝ) : ℝ := if c = 0 then v.x else if c = 1 then v.y else v.z

/-- `segment<3>(3 * i)` of a step (lines 248-249, 279). Indices of views with an orientation are in range. -/
noncomputable def segment {V : Nat} (s : Fin (3 * V) → ℝ) (i : Nat) : V3 ℝ :=
  if h : i < V then ⟨s ⟨3 * i, by omega⟩, s ⟨3 * i + 1, by omega⟩, s ⟨3 * i + 2, by omega⟩⟩ else V3.zero

/-- The blocks of the vector of residuals (line 267); there is one for each constraint. -/
noncomputable def flat {E : Nat} (rs : List (V3 ℝ)) : Fin (3 * E) → ℝ := fun r =>
  match rs[r.val / 3]? with
  | none => 0
  | some v => comp (r.val % 3) v

/-- The error of one constraint (lines 265-269): `R_2^T R_12 R_1`. -/
noncomputable def residual (ofM : M3 ℝ → V3 ℝ) (r12 r1 r2 : V3 ℝ) : V3 ℝ :=
  RotationFilters.multiply ofM r2.neg (RotationFilters.multiply ofM r12 r1)

/-- `ComputeResiduals` (lines 256-272). -/
noncomputable def residuals (ofM : M3 ℝ → V3 ℝ) (o : AMap Nat (V3 ℝ)) :
    List ((Nat × Nat) × V3 ℝ) → Outcome (List (V3 ℝ))
  | [] => .ok []
  | c :: cs =>
    match o.get c.1.1 with
    | none => .abort
    | some r1 =>
      match o.get c.1.2 with
      | none => .abort
      | some r2 =>
        match residuals ofM o cs with
        | .abort => .abort
        | .ub => .ub
        | .ok rs => .ok (residual ofM c.2 r1 r2 :: rs)

/-- The body of `UpdateGlobalRotations` for one orientation (lines 242-250). -/
noncomputable def updated {V : Nat} (ofM : M3 ℝ → V3 ℝ) (s : Fin (3 * V) → ℝ) (i : Int) (r : V3 ℝ) : V3 ℝ :=
  if i = -1 then r else RotationFilters.multiply ofM r (segment s i.toNat)

/-- `UpdateGlobalRotations` (lines 240-252). -/
noncomputable def update {V : Nat} (ofM : M3 ℝ → V3 ℝ) (index : AMap Nat Int) (s : Fin (3 * V) → ℝ)
    (o : AMap Nat (V3 ℝ)) : Outcome (AMap Nat (V3 ℝ)) :=
  if ∀ v ∈ o.keys, index.contains v then
    .ok (o.mapVals fun v r =>
      match index.get v with
      | none => r
      | some i => updated ofM s i r)
  else .abort

/-- `ComputeAverageStepSize` (lines 274-282). -/
noncomputable def averageStep {V : Nat} (s : Fin (3 * V) → ℝ) : Outcome ℝ :=
  if V = 0 then .ub
  else .ok (((List.range V).map fun k => Real.sqrt ((segment s k).dot (segment s k))).sum / V)

/-- The end of both loops' bodies (lines 159-160, 222-223): the step is applied and the residuals are computed; and the
average step (lines 162, 224). -/
noncomputable def apply {V : Nat} (ofM : M3 ℝ → V3 ℝ) (st : State) (s : Fin (3 * V) → ℝ) (o : AMap Nat (V3 ℝ)) :
    Outcome (AMap Nat (V3 ℝ) × List (V3 ℝ) × ℝ) :=
  match update ofM st.index s o with
  | .abort => .abort
  | .ub => .ub
  | .ok o =>
    match residuals ofM o st.constraints with
    | .abort => .abort
    | .ub => .ub
    | .ok rs =>
      match averageStep s with
      | .abort => .abort
      | .ub => .ub
      | .ok a => .ok (o, rs, a)

open Classical in
/-- The loop of `SolveL1Regression` (lines 156-169); `iterations` is the limit of the inner solver. -/
noncomputable def l1Loop {E V : Nat} (ofM : M3 ℝ → V3 ℝ) (opt : Options) (st : State)
    (solver : L1Solver.Solver (3 * E) (3 * V)) :
    Nat → ℤ → (Fin (3 * V) → ℝ) → List (V3 ℝ) → AMap Nat (V3 ℝ) → Outcome (AMap Nat (V3 ℝ))
  | 0, _, _, _, o => .ok o
  | n + 1, iterations, step, rs, o =>
    let step := (solver.setMaxIterations iterations).solve (flat rs) step
    match apply ofM st step o with
    | .abort => .abort
    | .ub => .ub
    | .ok (o, rs, a) =>
      if a ≤ opt.l1Threshold then .ok o
      else l1Loop ofM opt st solver n (iterations * 2) step rs o

/-- `SolveL1Regression` (lines 149-171). -/
noncomputable def solveL1 {E V : Nat} (ofM : M3 ℝ → V3 ℝ) (opt : Options) (st : State)
    (A : Matrix (Fin (3 * E)) (Fin (3 * V)) ℝ) (o : AMap Nat (V3 ℝ)) : Outcome (AMap Nat (V3 ℝ)) :=
  match L1Solver.construct { maxNumIterations := 5 } A with
  | .abort => .abort
  | .ub => .ub
  | .ok solver =>
    match residuals ofM o st.constraints with
    | .abort => .abort
    | .ub => .ub
    | .ok rs => l1Loop ofM opt st solver opt.maxL1.toNat 5 0 rs o

/-- The weight of one error (lines 197-201). -/
noncomputable def weight (sigma : ℝ) (r : V3 ℝ) : ℝ :=
  let tmp := r.dot r + sigma * sigma
  sigma / (tmp * tmp)

/-- The weights of all rows (lines 192, 198-203), three for each constraint. -/
noncomputable def weights {E : Nat} (sigma : ℝ) (rs : List (V3 ℝ)) : Fin (3 * E) → ℝ := fun i =>
  match rs[i.val / 3]? with
  | none => 0
  | some r => weight sigma r

open Classical in
/-- The loop of `SolveIRLS` (lines 192-234): whether it succeeded, and the orientations. A weight divided by zero is
undefined. -/
noncomputable def irlsLoop {E V : Nat} (ofM : M3 ℝ → V3 ℝ) (opt : Options) (st : State)
    (A : Matrix (Fin (3 * E)) (Fin (3 * V)) ℝ) :
    Nat → List (V3 ℝ) → AMap Nat (V3 ℝ) → Outcome (Bool × AMap Nat (V3 ℝ))
  | 0, _, o => .ok (true, o)
  | n + 1, rs, o =>
    if ∃ r ∈ rs, r.dot r + opt.sigma * opt.sigma = 0 then .ub
    else
      let atWeight := Aᵀ * Matrix.diagonal (weights opt.sigma rs)
      match SparseCholesky.compute (atWeight * A) with
      | none => .ok (false, o)
      | some factor =>
        let step := SparseCholesky.solve factor (atWeight *ᵥ flat rs)
        match apply ofM st step o with
        | .abort => .abort
        | .ub => .ub
        | .ok (o, rs, a) =>
          if a < opt.irlsThreshold then .ok (true, o)
          else irlsLoop ofM opt st A n rs o

/-- `SolveIRLS` (lines 173-236). -/
noncomputable def solveIrls {E V : Nat} (ofM : M3 ℝ → V3 ℝ) (opt : Options) (st : State)
    (A : Matrix (Fin (3 * E)) (Fin (3 * V)) ℝ) (o : AMap Nat (V3 ℝ)) : Outcome (Bool × AMap Nat (V3 ℝ)) :=
  match residuals ofM o st.constraints with
  | .abort => .abort
  | .ub => .ub
  | .ok rs => irlsLoop ofM opt st A opt.maxIrls.toNat rs o

/-- `EstimateRotations(global_orientations)` (lines 66-98): the value returned, the orientations and the estimator after the
call. Without orientations the vectors are resized to a negative number (lines 104-107); an index that is left from an
earlier call may lie outside the matrix. -/
noncomputable def estimate (ofM : M3 ℝ → V3 ℝ) (order : List (Nat × V3 ℝ) → List (Nat × V3 ℝ)) (opt : Options)
    (st : State) (o : AMap Nat (V3 ℝ)) : Outcome (Bool × AMap Nat (V3 ℝ) × State) :=
  if st.constraints.length = 0 then .abort
  else if o.size = 0 then .ub
  else
    let st : State := { st with index := number ((order o.entries).map (·.1)) (-1) st.index }
    match triplets st.index 0 st.constraints with
    | .abort => .abort
    | .ub => .ub
    | .ok es =>
      let E := st.constraints.length
      let V := o.size - 1
      if ∃ e ∈ es, 3 * V ≤ e.2.1 then .ub
      else
        let A := matrix E V es
        match solveL1 ofM opt st A o with
        | .abort => .abort
        | .ub => .ub
        | .ok o =>
          match solveIrls ofM opt st A o with
          | .abort => .abort
          | .ub => .ub
          | .ok (b, o) => .ok (b, o, st)

/-- `EstimateRotations(view_pairs, global_orientations)` (lines 51-58): what was added before stays. -/
noncomputable def estimatePairs (ofM : M3 ℝ → V3 ℝ) (order : List (Nat × V3 ℝ) → List (Nat × V3 ℝ)) (opt : Options)
    (st : State) (pairs : List ((Nat × Nat) × V3 ℝ)) (o : AMap Nat (V3 ℝ)) : Outcome (Bool × AMap Nat (V3 ℝ) × State) :=
  estimate ofM order opt (addAll st pairs) o

end RobustRotation
end Theia
