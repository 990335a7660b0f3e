import Mathlib.Analysis.SpecialFunctions.Complex.Arg
import Verif.Model.Triangulation

/-!
# Model of the fundamental matrix functions (src/theia/sfm/pose/fundamental_matrix_util.cc)

Over the reals. The last right singular vector is a parameter. A division by zero gives an infinity or NaN: `ub`.
-/

namespace Theia
namespace FundamentalMatrix

open Triangulation

/-- `Eigen::DiagonalMatrix(f, f, 1.0)`. -/
noncomputable def focalDiag (f : ℝ) : M3 ℝ := ⟨⟨f, 0, 0⟩, ⟨0, f, 0⟩, ⟨0, 0, 1⟩⟩

/-- Row `i` (0, 1 or 2) of a projection matrix. -/
def row (P : P34) : Fin 3 → V4
  | 0 => (P.1.r1, P.2.x)
  | 1 => (P.1.r2, P.2.y)
  | 2 => (P.1.r3, P.2.z)

/-- The determinant of the 4x4 matrix with the given rows, expanded along the last column. -/
noncomputable def det4 (a b c d : V4) : ℝ :=
  -(a.2 * b.1.dot (c.1.cross d.1)) + b.2 * a.1.dot (c.1.cross d.1) - c.2 * a.1.dot (b.1.cross d.1)
    + d.2 * a.1.dot (b.1.cross c.1)

/-- `index1` (fundamental_matrix_util.cc:229). -/
def index1 : Fin 3 → Fin 3
  | 0 => 1
  | 1 => 2
  | 2 => 0

/-- `index2` (fundamental_matrix_util.cc:230). -/
def index2 : Fin 3 → Fin 3
  | 0 => 2
  | 1 => 0
  | 2 => 1

/-- One entry of the fundamental matrix (fundamental_matrix_util.cc:232-239). -/
noncomputable def fundamentalEntry (P1 P2 : P34) (r c : Fin 3) : ℝ :=
  det4 (row P2 (index1 c)) (row P2 (index2 c)) (row P1 (index1 r)) (row P1 (index2 r))

/-- `FundamentalMatrixFromProjectionMatrices` (fundamental_matrix_util.cc:222-241). -/
noncomputable def fromProjections (P1 P2 : P34) : M3 ℝ :=
  ⟨⟨fundamentalEntry P1 P2 0 0, fundamentalEntry P1 P2 0 1, fundamentalEntry P1 P2 0 2⟩,
   ⟨fundamentalEntry P1 P2 1 0, fundamentalEntry P1 P2 1 1, fundamentalEntry P1 P2 1 2⟩,
   ⟨fundamentalEntry P1 P2 2 0, fundamentalEntry P1 P2 2 1, fundamentalEntry P1 P2 2 2⟩⟩

/-- `ProjectionMatricesFromFundamentalMatrix` (fundamental_matrix_util.cc:205-218). `nullVector` is the last right
singular vector. -/
noncomputable def toProjections (nullVector : M3 ℝ → V3 ℝ) (F : M3 ℝ) : P34 × P34 :=
  let e := nullVector F
  ((M3.one, V3.zero), ((crossMatrix e).mul F.transpose, e))

/-- `EssentialMatrixFromFundamentalMatrix` (fundamental_matrix_util.cc:243-253). -/
noncomputable def essentialOf (F : M3 ℝ) (f1 f2 : ℝ) : M3 ℝ := ((focalDiag f2).mul F).mul (focalDiag f1)

/-- `ComposeFundamentalMatrix` (fundamental_matrix_util.cc:255-271). -/
noncomputable def compose (f1 f2 : ℝ) (R : M3 ℝ) (t : V3 ℝ) : Outcome (M3 ℝ) :=
  if f1 = 0 ∨ f2 = 0 then .ub
  else .ok ((((focalDiag (1 / f2)).mul (crossMatrix t)).mul R).mul (focalDiag (1 / f1)))

/-! ## Focal lengths -/

/-- `atan2`. -/
noncomputable def atan2 (y x : ℝ) : ℝ := Complex.arg ⟨x, y⟩

/-- The rotation about the last axis (fundamental_matrix_util.cc:87-95). -/
noncomputable def zRotation (theta : ℝ) : M3 ℝ :=
  ⟨⟨Real.cos theta, -Real.sin theta, 0⟩, ⟨Real.sin theta, Real.cos theta, 0⟩, ⟨0, 0, 1⟩⟩

/-- The end of `FocalLengthsFromFundamentalMatrix` (fundamental_matrix_util.cc:115-132) from the rotated matrix and
epipoles. -/
noncomputable def focalFromRotated (F : M3 ℝ) (e1 e2 : V3 ℝ) : Outcome (Option (ℝ × ℝ)) :=
  if e1.x = 0 ∨ e1.z = 0 ∨ e2.x = 0 ∨ e2.z = 0 then .ub
  else
    let a := 1 / e2.z * F.r1.x * (1 / e1.z)
    let b := 1 / e2.z * F.r1.y
    let c := F.r2.x * (1 / e1.z)
    let d := F.r2.y
    if a * c * e1.z * e1.z + b * d = 0 ∨ a * b * e2.z * e2.z + c * d = 0 then .ub
    else
      let f1sq := -a * c * e1.x * e1.x / (a * c * e1.z * e1.z + b * d)
      let f2sq := -a * b * e2.x * e2.x / (a * b * e2.z * e2.z + c * d)
      if f1sq < 0 ∨ f2sq < 0 then .ok none else .ok (some (Real.sqrt f1sq, Real.sqrt f2sq))

/-- `FocalLengthsFromFundamentalMatrix` (fundamental_matrix_util.cc:57-133). `none` is a return value of false. -/
noncomputable def focalLengths (nullVector : M3 ℝ → V3 ℝ) (F : M3 ℝ) : Outcome (Option (ℝ × ℝ)) :=
  let e1 := nullVector F
  let e2 := nullVector F.transpose
  if e1.x = 0 ∨ e2.x = 0 then .ok none
  else
    let rot1 := zRotation (atan2 (-e1.y) e1.x)
    let rot2 := zRotation (atan2 (-e2.y) e2.x)
    focalFromRotated ((rot2.mul F).mul rot1.transpose) (rot1.mulVec e1) (rot2.mulVec e2)

end FundamentalMatrix
end Theia
