import Mathlib.Analysis.SpecialFunctions.Complex.Arg
import Verif.Base.RotationMatrix
import Verif.Model.RootSolvers

/-!
# Model of `TwoPointPosePartialRotation` (src/theia/sfm/pose/two_point_pose_partial_rotation.cc)

Over the reals, without rounding. `DCHECK`s are left out.
-/

namespace Theia
namespace TwoPointPose

open AngleAxis

/-- `Vector3d::normalized`: the zero vector stays as it is. -/
noncomputable def normalized (v : V3 ℝ) : V3 ℝ := if v.dot v = 0 then v else v.smul (Real.sqrt (v.dot v))⁻¹

/-- `AddPoseSolution` (lines 53-89): rotation and translation. The rotation is given as a matrix (`AngleAxisd`), the angle by
`atan2`. -/
noncomputable def pose (axis p1 p2 r1 r2 : V3 ℝ) (length1 length2 : ℝ) : M3 ℝ × V3 ℝ :=
  let x1 := r1.smul length1
  let x2 := r2.smul length2
  let imageDiff := x1.sub x2
  let modelDiff := p1.sub p2
  let basis2 := normalized (axis.cross modelDiff)
  let basis1 := normalized (basis2.cross axis)
  let angle := Complex.arg ⟨basis1.dot imageDiff, basis2.dot imageDiff⟩
  let rotation := rodriguesMatrix axis (Real.cos angle) (Real.sin angle)
  (rotation, x1.sub (rotation.mulVec p1))

/-- `m` (line 116). -/
noncomputable def coefM (axis p1 p2 r1 : V3 ℝ) : ℝ := (p1.sub p2).dot axis / r1.dot axis

/-- `n` (line 117). -/
noncomputable def coefN (axis r1 r2 : V3 ℝ) : ℝ := r2.dot axis / r1.dot axis

/-- The coefficients of the quadratic equation (lines 128-132). -/
noncomputable def quadratic (axis p1 p2 r1 r2 : V3 ℝ) : ℝ × ℝ × ℝ :=
  let m := coefM axis p1 p2 r1
  let n := coefN axis r1 r2
  (n * (n - 2 * r1.dot r2) + 1, 2 * m * (n - r1.dot r2), m * m - (p1.sub p2).dot (p1.sub p2))

/-- The roots that are compared with 0 (lines 134-135). `SolveQuadratic` divides 0 by 0 if only the first coefficient is not
zero; the comparison with the result is false, as with the other root 0. -/
noncomputable def roots (q : ℝ × ℝ × ℝ) : Outcome (List ℝ) :=
  if q.1 ≠ 0 ∧ q.2.1 = 0 ∧ q.2.2 = 0 then .ok [0]
  else
    match Roots.solveQuadratic q.1 q.2.1 q.2.2 with
    | .abort => .abort
    | .ub => .ub
    | .ok zs => .ok (Roots.reals none zs)

/-- The loop of `TwoPointPoseCore` (lines 137-151). -/
noncomputable def loop (axis p1 p2 r1 r2 : V3 ℝ) : List ℝ → List (M3 ℝ × V3 ℝ)
  | [] => []
  | x :: xs =>
    if x > 0 then
      if coefM axis p1 p2 r1 + coefN axis r1 r2 * x > 0 then
        pose axis p1 p2 r1 r2 (coefM axis p1 p2 r1 + coefN axis r1 r2 * x) x :: loop axis p1 p2 r1 r2 xs
      else loop axis p1 p2 r1 r2 xs
    else loop axis p1 p2 r1 r2 xs

/-- `TwoPointPoseCore` (lines 91-153). -/
noncomputable def core (axis p1 p2 r1 r2 : V3 ℝ) : Outcome (List (M3 ℝ × V3 ℝ)) :=
  match roots (quadratic axis p1 p2 r1 r2) with
  | .abort => .abort
  | .ub => .ub
  | .ok xs => .ok (loop axis p1 p2 r1 r2 xs)

/-- `kEpsilon` (line 164). -/
noncomputable def epsilon : ℝ := 1e-9

/-- `TwoPointPosePartialRotation` (lines 157-181): the solutions written. -/
noncomputable def solve (axis p1 p2 r1 r2 : V3 ℝ) : Outcome (List (M3 ℝ × V3 ℝ)) :=
  if |r1.dot axis| < epsilon then
    if |r2.dot axis| > epsilon then core axis p2 p1 r2 r1 else .ok []
  else core axis p1 p2 r1 r2

end TwoPointPose
end Theia
