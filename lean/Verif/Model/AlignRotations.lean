import Verif.Base.RotationMatrix
import Verif.Base.Outcome

/-!
# Aligning one set of orientations with another

Model of `AlignRotations` (/repo/src/theia/sfm/transformation/align_rotations.cc:131-158). Orientations are angle-axis vectors over
the reals. `ofM` is `ceres::RotationMatrixToAngleAxis`, and `solve` is `ceres::Solve`: it is given the cost as a function of the
alignment and gives the alignment at which it stops. It starts at zero.
-/

namespace Theia
namespace AlignRotations

open AngleAxis

/-- The orientation `r` after the alignment `w`: `RotationAlignmentError::operator()` up to the residual
(/repo/src/theia/sfm/transformation/align_rotations.cc:65-81) and the body of the loop in `ApplyRotationTransformation`
(/repo/src/theia/sfm/transformation/align_rotations.cc:108-123). -/
noncomputable def aligned (ofM : M3 ℝ → V3 ℝ) (w r : V3 ℝ) : V3 ℝ := ofM ((toM r).mul (toM w))

/-- `RotationAlignmentError::operator()` (/repo/src/theia/sfm/transformation/align_rotations.cc:62-89). -/
noncomputable def residual (ofM : M3 ℝ → V3 ℝ) (gt r w : V3 ℝ) : V3 ℝ := gt.sub (aligned ofM w r)

/-- The sum of the squared residuals of the blocks added in the loop of `AlignRotations`
(/repo/src/theia/sfm/transformation/align_rotations.cc:138-145). Ceres minimises half of it; no loss function is used. -/
noncomputable def cost (ofM : M3 ℝ → V3 ℝ) (gts rs : List (V3 ℝ)) (w : V3 ℝ) : ℝ :=
  (List.zipWith (fun gt r => (residual ofM gt r w).dot (residual ofM gt r w)) gts rs).sum

/-- `AlignRotations` (/repo/src/theia/sfm/transformation/align_rotations.cc:131-158): the new contents of the second argument. -/
noncomputable def alignRotations (ofM : M3 ℝ → V3 ℝ) (solve : (V3 ℝ → ℝ) → V3 ℝ) (gts rs : List (V3 ℝ)) : Outcome (List (V3 ℝ)) :=
  if gts.length ≠ rs.length then .abort
  else .ok (rs.map (aligned ofM (solve (cost ofM gts rs))))

end AlignRotations
end Theia
