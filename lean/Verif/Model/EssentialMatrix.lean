import Verif.Model.Triangulation

/-!
# Model of the essential matrix functions (src/theia/sfm/pose/essential_matrix_utils.cc)

Over the reals. The singular value decomposition is a parameter.
-/

namespace Theia
namespace EssentialMatrix

open Triangulation

/-- `m.col(2) *= -1.0`. -/
noncomputable def negLastColumn (m : M3 ℝ) : M3 ℝ :=
  ⟨⟨m.r1.x, m.r1.y, -m.r1.z⟩, ⟨m.r2.x, m.r2.y, -m.r2.z⟩, ⟨m.r3.x, m.r3.y, -m.r3.z⟩⟩

/-- The sign of the last column of U and V (essential_matrix_utils.cc:68-74). -/
noncomputable def fixSign (m : M3 ℝ) : M3 ℝ := if m.det < 0 then negLastColumn m else m

/-- The matrix `d` (essential_matrix_utils.cc:61-62). -/
noncomputable def dMatrix : M3 ℝ := ⟨⟨0, 1, 0⟩, ⟨-1, 0, 0⟩, ⟨0, 0, 1⟩⟩

/-- `m.col(2)`. -/
def lastColumn (m : M3 ℝ) : V3 ℝ := ⟨m.r1.z, m.r2.z, m.r3.z⟩

/-- `DecomposeEssentialMatrix` (essential_matrix_utils.cc:57-80): the two rotations and the translation. `svd` gives the
matrices U and V of the singular value decomposition. -/
noncomputable def decompose (svd : M3 ℝ → M3 ℝ × M3 ℝ) (E : M3 ℝ) : M3 ℝ × M3 ℝ × V3 ℝ :=
  let U := fixSign (svd E).1
  let V := fixSign (svd E).2
  ((U.mul dMatrix).mul V.transpose, (U.mul dMatrix.transpose).mul V.transpose, normalize (lastColumn U))

/-- The candidate rotations and positions (essential_matrix_utils.cc:114-124). -/
noncomputable def candidates (svd : M3 ℝ → M3 ℝ × M3 ℝ) (E : M3 ℝ) : List (M3 ℝ × V3 ℝ) :=
  let (R1, R2, t) := decompose svd E
  [(R1, (R1.transpose.mulVec t).neg), (R1, (R1.transpose.mulVec t.neg).neg),
   (R2, (R2.transpose.mulVec t).neg), (R2, (R2.transpose.mulVec t.neg).neg)]

/-- The number of points in front of both cameras (essential_matrix_utils.cc:128-136). -/
noncomputable def countInFront (pose : M3 ℝ × V3 ℝ) : List (V2 × V2) → Nat
  | [] => 0
  | c :: cs => (if inFront c pose.1 pose.2 then 1 else 0) + countInFront pose cs

/-- `std::max_element` (essential_matrix_utils.cc:139-142): the first of the largest. -/
def firstMax {α : Type} (count : α → Nat) : α → List α → α
  | best, [] => best
  | best, a :: as => firstMax count (if count best < count a then a else best) as

/-- `GetBestPoseFromEssentialMatrix` (essential_matrix_utils.cc:108-148): the number returned, the rotation and the
position. -/
noncomputable def bestPose (svd : M3 ℝ → M3 ℝ × M3 ℝ) (E : M3 ℝ) (corrs : List (V2 × V2)) : Option (Nat × M3 ℝ × V3 ℝ) :=
  match candidates svd E with
  | [] => none
  | c :: cs =>
    let best := firstMax (fun p => countInFront p corrs) c cs
    some (countInFront best corrs, best.1, best.2)

end EssentialMatrix
end Theia
