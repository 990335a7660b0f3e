import Verif.Base.AMap
import Verif.Base.Outcome
import Verif.Base.RotationMatrix
import Verif.Model.ProjectionMatrix

/-!
# Linear estimation of global rotations

Models src/theia/sfm/global_pose_estimation/linear_rotation_estimator.cc over the reals.

* `eig` is the eigensolver (Spectra's `SymEigsShiftSolver` over CHOLMOD, math/matrix/spectra_linear_operator.h): the size
  and the symmetric matrix give the three eigenvectors, or `none` when fewer than three have converged. In exact
  arithmetic the Cholesky decomposition inside the solver fails (`LOG(FATAL)`) for a singular matrix; the model leaves that
  out, so what is proved is about the runs in which the solver returns.
* `svd` is `Eigen::JacobiSVD` inside `ProjectToRotationMatrix`, `ofM` is `ceres::RotationMatrixToAngleAxis`.
* `order` is the order of iteration of the map from views to indices.
-/

namespace Theia
namespace LinearRotation

open AngleAxis ProjectionMatrix

/-- The members of `LinearRotationEstimator` (linear_rotation_estimator.h:91-95): the index of each view, and the entries of
the sparse matrix as (row, column, value). -/
structure State where
  index : AMap Nat Nat
  entries : List (Nat × Nat × ℝ)

/-- A new estimator. -/
def empty : State := ⟨AMap.empty, []⟩

/-- `Fill3x3SparseMatrix` (linear_rotation_estimator.cc:62-72). -/
def fill (m : M3 ℝ) (row col : Nat) : List (Nat × Nat × ℝ) :=
  [(row, col, m.r1.x), (row, col + 1, m.r1.y), (row, col + 2, m.r1.z),
   (row + 1, col, m.r2.x), (row + 1, col + 1, m.r2.y), (row + 1, col + 2, m.r2.z),
   (row + 2, col, m.r3.x), (row + 2, col + 1, m.r3.y), (row + 2, col + 2, m.r3.z)]

/-- The identity entries along the diagonal (lines 117-126). -/
def diagonal (i1 i2 : Nat) : List (Nat × Nat × ℝ) :=
  [(3 * i1, 3 * i1, 1), (3 * i2, 3 * i2, 1), (3 * i1 + 1, 3 * i1 + 1, 1), (3 * i2 + 1, 3 * i2 + 1, 1),
   (3 * i1 + 2, 3 * i1 + 2, 1), (3 * i2 + 2, 3 * i2 + 2, 1)]

/-- The block off the diagonal (lines 128-151). -/
noncomputable def offDiagonal (i1 i2 : Nat) (r : M3 ℝ) : List (Nat × Nat × ℝ) :=
  if i1 < i2 then fill (scale (-1) r.transpose) (3 * i1) (3 * i2)
  else fill (scale (-1) r) (3 * i2) (3 * i1)

/-- The index map after both views have been given an index (lines 96-97): `InsertIfNotPresent` with the size before the
insertion. -/
def indexed (m : AMap Nat Nat) (p : Nat × Nat) : AMap Nat Nat :=
  let m1 := m.emplace p.1 m.size
  m1.emplace p.2 m1.size

/-- `AddRelativeRotationConstraint` (lines 90-152). `operator[]` (lines 98-99) gives zero for a missing key; both keys are
there. -/
noncomputable def addConstraint (s : State) (c : (Nat × Nat) × V3 ℝ) : State :=
  let m := indexed s.index c.1
  let i1 := (m.get c.1.1).getD 0
  let i2 := (m.get c.1.2).getD 0
  ⟨m, s.entries ++ diagonal i1 i2 ++ offDiagonal i1 i2 (toM c.2)⟩

/-- Successive calls of `AddRelativeRotationConstraint`, as in the loop of `EstimateRotations` (lines 81-83). -/
noncomputable def addAll (s : State) (cs : List ((Nat × Nat) × V3 ℝ)) : State := cs.foldl addConstraint s

/-- The stored matrix: `setFromTriplets` (lines 165-170) adds up the values at a place. -/
noncomputable def stored (es : List (Nat × Nat × ℝ)) (r c : Nat) : ℝ :=
  ((es.filter (fun e => decide (e.1 = r ∧ e.2.1 = c))).map (·.2.2)).sum

/-- The symmetric matrix the solver works with: CHOLMOD reads the upper triangle only (`stype = 1`,
math/matrix/sparse_cholesky_llt.cc:106). -/
noncomputable def symmetric (m : Nat → Nat → ℝ) (r c : Nat) : ℝ := if r ≤ c then m r c else m c r

/-- A 3x3 block of the solution (lines 188-192). -/
def block (u : Fin 3 → Nat → ℝ) (i : Nat) : M3 ℝ :=
  ⟨⟨u 0 (3 * i), u 1 (3 * i), u 2 (3 * i)⟩, ⟨u 0 (3 * i + 1), u 1 (3 * i + 1), u 2 (3 * i + 1)⟩,
   ⟨u 0 (3 * i + 2), u 1 (3 * i + 2), u 2 (3 * i + 2)⟩⟩

/-- The loop over the views (lines 187-200); `emplace` keeps an orientation that is already there. -/
noncomputable def collect (svd : M3 ℝ → M3 ℝ × M3 ℝ) (ofM : M3 ℝ → V3 ℝ) (u : Fin 3 → Nat → ℝ) :
    List (Nat × Nat) → AMap Nat (V3 ℝ) → AMap Nat (V3 ℝ)
  | [], o => o
  | e :: es, o => collect svd ofM u es (o.emplace e.1 (ofM (projectToRotation svd (block u e.2))))

/-- `EstimateRotations(global_orientations)` (lines 158-203). Spectra throws for a matrix with fewer than six rows. -/
noncomputable def estimate (eig : Nat → (Nat → Nat → ℝ) → Option (Fin 3 → Nat → ℝ)) (svd : M3 ℝ → M3 ℝ × M3 ℝ)
    (ofM : M3 ℝ → V3 ℝ) (order : List (Nat × Nat) → List (Nat × Nat)) (s : State) (o : AMap Nat (V3 ℝ)) :
    Outcome (AMap Nat (V3 ℝ)) :=
  if s.entries.length = 0 then .abort
  else if 3 * s.index.size < 6 then .abort
  else
    match eig (3 * s.index.size) (symmetric (stored s.entries)) with
    | none => .ub
    | some u => .ok (collect svd ofM u (order s.index.entries) o)

/-- `EstimateRotations(view_pairs, global_orientations)` (lines 78-86): what was added before stays. The state after the
call is given too. -/
noncomputable def estimatePairs (eig : Nat → (Nat → Nat → ℝ) → Option (Fin 3 → Nat → ℝ)) (svd : M3 ℝ → M3 ℝ × M3 ℝ)
    (ofM : M3 ℝ → V3 ℝ) (order : List (Nat × Nat) → List (Nat × Nat)) (s : State)
    (pairs : List ((Nat × Nat) × V3 ℝ)) (o : AMap Nat (V3 ℝ)) : Outcome (State × AMap Nat (V3 ℝ)) :=
  match estimate eig svd ofM order (addAll s pairs) o with
  | .abort => .abort
  | .ub => .ub
  | .ok o => .ok (addAll s pairs, o)

end LinearRotation
end Theia
