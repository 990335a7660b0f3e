import Verif.Model.Triangulation
import Verif.Base.RotationMatrix

/-!
# Model of src/theia/sfm/bundle_adjustment/optimize_relative_position_with_known_rotation.cc

Over the reals. `svdU m` is the matrix of the left singular vectors that `jacobiSvd` returns for `m`; `initial` is the random
vector with which the search starts (every iteration overwrites it).
-/

namespace Theia
namespace RelativePosition

open Triangulation AngleAxis

/-- One column of the matrix of `CreateConstraintMatrix` (lines 66-79): the row vector `(f2 x f1)^T R1^T` is the transpose of
`R1 (f2 x f1)`. -/
noncomputable def column (R1 R2 : M3 ℝ) (c : V2 × V2) : V3 ℝ :=
  R1.mulVec ((R2.transpose.mulVec (homog c.2)).cross (R1.transpose.mulVec (homog c.1)))

/-- `weights.array() < kMinWeight` (lines 143, 157-158). -/
noncomputable def clamp (w : ℝ) : ℝ := if w < 1 / 10000000 then 1 / 10000000 else w

/-- The product of a column and its transpose. -/
noncomputable def outer (a : V3 ℝ) : M3 ℝ := ⟨a.smul a.x, a.smul a.y, a.smul a.z⟩

/-- Multiples and sums of matrices. -/
noncomputable def scaleM (s : ℝ) (m : M3 ℝ) : M3 ℝ := ⟨m.r1.smul s, m.r2.smul s, m.r3.smul s⟩
noncomputable def addM (a b : M3 ℝ) : M3 ℝ := ⟨a.r1.add b.r1, a.r2.add b.r2, a.r3.add b.r3⟩
noncomputable def zeroM : M3 ℝ := ⟨V3.zero, V3.zero, V3.zero⟩

/-- `constraint_matrix * weights.asDiagonal().inverse() * constraint_matrix.transpose()` (lines 161-163). -/
noncomputable def weighted : List (V3 ℝ) → List ℝ → M3 ℝ
  | a :: as, w :: ws => addM (scaleM w⁻¹ (outer a)) (weighted as ws)
  | _, _ => zeroM

/-- The variables of the loop (lines 150-154). -/
structure State where
  position : V3 ℝ
  weights : List ℝ
  cost : ℝ
  inner : Nat

/-- One iteration (lines 157-188). -/
noncomputable def step (svdU : M3 ℝ → M3 ℝ) (cols : List (V3 ℝ)) (s : State) : State :=
  let weights := s.weights.map clamp
  let position := (svdU (weighted cols weights)).mulVec ⟨0, 0, 1⟩
  let weights := cols.map fun a => |position.dot a|
  let cost := weights.sum
  let delta := max |s.cost - cost| (1 - position.dot position)
  ⟨position, weights, cost, if delta ≤ 1 / 100000 then s.inner + 1 else 0⟩

/-- The loop (lines 152-189); the first argument is what is left of `kMaxIterations`. -/
noncomputable def loop (svdU : M3 ℝ → M3 ℝ) (cols : List (V3 ℝ)) : Nat → State → State
  | 0, s => s
  | n + 1, s => if s.inner < 10 then loop svdU cols n (step svdU cols s) else s

/-- `MajorityOfPointsInFrontOfCameras` (lines 86-112). -/
noncomputable def majority (corrs : List (V2 × V2)) (R1 R2 : M3 ℝ) (position : V3 ℝ) : Bool :=
  decide (corrs.length / 2 < corrs.countP fun c => inFront c (R2.mul R1.transpose) position)

/-- `OptimizeRelativePositionWithKnownRotation` (lines 117-202): the position; the function returns `true`. -/
noncomputable def optimize (svdU : M3 ℝ → M3 ℝ) (initial : V3 ℝ) (corrs : List (V2 × V2)) (rotation1 rotation2 : V3 ℝ) : V3 ℝ :=
  let R1 := toM rotation1
  let R2 := toM rotation2
  let cols := corrs.map (column R1 R2)
  let s := loop svdU cols 100 ⟨initial, corrs.map fun _ => 1, 0, 0⟩
  if majority corrs R1 R2 s.position then s.position else s.position.smul (-1)

end RelativePosition
end Theia
