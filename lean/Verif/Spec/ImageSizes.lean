import Verif.Model.ImageSizes
import Verif.Spec.ProjectionMatrix

/-!
# What reading a Strecha dataset and setting the sizes of images should do
-/

namespace Theia.Spec
namespace ImageSizes

open Theia.ImageSizes

variable {F P : Type}

/-- The camera of the file, `K Rᵀ (X - c)` with the rotation `R` as it stands in the file, sees every point where the camera with
the given intrinsics, orientation and position sees it: the homogeneous image points are multiples of each other. -/
def SeesAlike (c : CameraFile) (i : ProjectionMatrix.Intrinsics) (orientation position : V3 ℝ) : Prop :=
  ∃ scale, scale ≠ 0 ∧ ∀ X : V3 ℝ, c.calibration.mulVec (c.rotation.transpose.mulVec (X.sub c.position)) =
    (M3.mulVec ⟨⟨i.focal, i.skew, i.px⟩, ⟨0, i.focal * i.aspect, i.py⟩, ⟨0, 0, 1⟩⟩
      ((AngleAxis.toM orientation).mulVec (X.sub position))).smul scale

/-- The parts of a file are what they should be: an upper triangular calibration matrix with positive diagonal, and a rotation. -/
def WellFormed (c : CameraFile) : Prop := CalibrationMatrix c.calibration ∧ c.rotation.IsRotation

/-- The path of the image of a view: a slash is added to the directory unless it ends in one. -/
def ImagePath (directory name path : String) : Prop :=
  (directory.toList.getLast? = some '/' ∧ path = directory ++ name) ∨
    (directory.toList.getLast? ≠ some '/' ∧ path = directory ++ "/" ++ name)

end ImageSizes
end Theia.Spec
