import Verif.Base.AMap
import Verif.Base.Outcome
import Verif.Base.RotationMatrix

/-!
# Residuals of pairs of views and non-linear estimation of rotations

Models src/theia/sfm/global_pose_estimation/pairwise_rotation_error.{h,cc}, pairwise_translation_error.{h,cc},
pairwise_translation_and_scale_error.{h,cc} and nonlinear_rotation_estimator.{h,cc} over the reals.

* `ofM` is `ceres::RotationMatrixToAngleAxis`, `eps` the threshold of `ceres::AngleAxisRotatePoint`.
* The check of the weight in the constructor of `PairwiseTranslationError` is part of the model `NonlinearPosition`.
* The derivatives, which the solver gets from the same code, are not modelled. The solver is a parameter.
-/

namespace Theia
namespace PairwiseErrors

open AngleAxis

/-- `PairwiseRotationError::operator()` (pairwise_rotation_error.h:65-95). -/
noncomputable def rotation (ofM : M3 ℝ → V3 ℝ) (relative : V3 ℝ) (weight : ℝ) (r1 r2 : V3 ℝ) : V3 ℝ :=
  let loop := (toM r2).mul (toM r1).transpose
  let error := loop.mul (toM relative).transpose
  (ofM error).smul weight

/-- `PairwiseTranslationError::operator()` (pairwise_translation_error.h:63-88). -/
noncomputable def translation (direction : V3 ℝ) (weight : ℝ) (c1 c2 : V3 ℝ) : V3 ℝ :=
  let t := c2.sub c1
  let norm := Real.sqrt (t.dot t)
  let norm := if norm < 1e-12 then 1 else norm
  ⟨weight * (t.x / norm - direction.x), weight * (t.y / norm - direction.y), weight * (t.z / norm - direction.z)⟩

/-- The constructor and `operator()` of `PairwiseTranslationAndScaleError` (pairwise_translation_and_scale_error.cc:43-50,
pairwise_translation_and_scale_error.h:75-87). -/
noncomputable def translationAndScale (eps : ℝ) (orientation1 relative c1 c2 : V3 ℝ) (scale : ℝ) : V3 ℝ :=
  let t := rotate eps orientation1.neg relative
  ⟨c2.x - c1.x - scale * t.x, c2.y - c1.y - scale * t.y, c2.z - c1.z - scale * t.z⟩

/-- What the solver is given for a pair: the views and the relative rotation. The weight is one. -/
abbrev Term := (Nat × Nat) × V3 ℝ

/-- The loop over the pairs (nonlinear_rotation_estimator.cc:69-88). The solver ends the program for a residual that has the
same parameters twice. -/
noncomputable def rotationTerms (orientations : AMap Nat (V3 ℝ)) : List Term → Outcome (List Term)
  | [] => .ok []
  | p :: ps =>
    if orientations.contains p.1.1 && orientations.contains p.1.2 then
      if p.1.1 = p.1.2 then .abort
      else do
        let rest ← rotationTerms orientations ps
        .ok (p :: rest)
    else rotationTerms orientations ps

/-- What the solver returns: whether it succeeded, and new orientations. -/
abbrev RotationSolver := List Term → AMap Nat (V3 ℝ) → Bool × (Nat → V3 ℝ)

/-- `EstimateRotations` (nonlinear_rotation_estimator.cc:49-100): the result of the solver is only printed. Only the orientations
that occur in a term are parameters of the solver. -/
noncomputable def estimateRotations (solve : RotationSolver) (pairs : List Term) (orientations : AMap Nat (V3 ℝ)) :
    Outcome (Bool × AMap Nat (V3 ℝ)) :=
  if orientations.size = 0 then .ok (false, orientations)
  else if pairs.length = 0 then .ok (false, orientations)
  else do
    let terms ← rotationTerms orientations pairs
    let result := solve terms orientations
    .ok (true, orientations.mapVals fun v r => if terms.any (fun p => decide (v = p.1.1 ∨ v = p.1.2)) then result.2 v else r)

end PairwiseErrors
end Theia
