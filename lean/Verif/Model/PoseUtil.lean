import Verif.Model.ProjectionMatrix

/-!
# Model of src/theia/sfm/pose/util.cc

Over the reals. `ProjectToRotationMatrix` is in `Model/ProjectionMatrix.lean`, `CrossProductMatrix` in `Model/Triangulation.lean`.
-/

namespace Theia
namespace PoseUtil

open Triangulation

/-- `SquaredSampsonDistance` (pose/util.cc:56-68). Without a check for a zero denominator. -/
noncomputable def sampson (F : M3 ℝ) (x y : V2) : Outcome ℝ :=
  let epiline := F.mulVec (homog x)
  let numerator := (homog y).dot epiline
  let a := (homog y).dot F.transpose.r1
  let b := (homog y).dot F.transpose.r2
  let denominator := a * a + b * b + epiline.x * epiline.x + epiline.y * epiline.y
  if denominator = 0 then .ub else .ok (numerator * numerator / denominator)

/-- The mean of a list of points (pose/util.cc:97). -/
noncomputable def centroid (ps : List V2) : V2 :=
  ((ps.map Prod.fst).sum / ps.length, (ps.map Prod.snd).sum / ps.length)

/-- `rms_mean_dist` (pose/util.cc:100-102). -/
noncomputable def rmsDistance (ps : List V2) : ℝ :=
  Real.sqrt ((ps.map fun p => (p.1 - (centroid ps).1) ^ 2 + (p.2 - (centroid ps).2) ^ 2).sum / ps.length)

/-- `hnormalized`. -/
noncomputable def dehomog (v : V3 ℝ) : V2 := (v.x / v.z, v.y / v.z)

/-- `NormalizeImagePoints` (pose/util.cc:82-116): the points and the matrix. The first element of the input is accessed without
a check, and a zero distance is divided by. -/
noncomputable def normalizePoints (ps : List V2) : Outcome (List V2 × M3 ℝ) :=
  if ps = [] then .ub
  else if rmsDistance ps = 0 then .ub
  else
    let factor := Real.sqrt 2 / rmsDistance ps
    let N : M3 ℝ := ⟨⟨factor, 0, -1 * factor * (centroid ps).1⟩, ⟨0, factor, -1 * factor * (centroid ps).2⟩, ⟨0, 0, 1⟩⟩
    .ok (ps.map fun p => dehomog (N.mulVec (homog p)), N)

end PoseUtil
end Theia
