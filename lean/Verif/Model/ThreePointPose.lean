import Verif.Model.TwoPointPose

/-!
# Model of `PoseFromThreePoints` (src/theia/sfm/pose/perspective_three_point.cc)

Over the reals, without rounding. A pose with a `NaN` in it is `none`.
-/

namespace Theia
namespace ThreePointPose

open TwoPointPose (normalized)

/-- `feature_point[i].homogeneous()` (line 193). -/
def homogeneous (f : ℝ × ℝ) : V3 ℝ := ⟨f.1, f.2, 1⟩

/-- The frames (lines 212-217, 229-233 and 249-254): the first row is a unit vector, the third is orthogonal to it and to another
vector. -/
noncomputable def frame (a b : V3 ℝ) : M3 ℝ :=
  let z := normalized (a.cross b)
  ⟨a, z.cross a, z⟩

/-- `b` (lines 74-82). -/
noncomputable def cotBeta (cosBeta : ℝ) : ℝ :=
  if cosBeta < 0 then -Real.sqrt (1 / (1 - cosBeta * cosBeta) - 1) else Real.sqrt (1 / (1 - cosBeta * cosBeta) - 1)

/-- The polynomial (lines 98-118), with the leading coefficient first. -/
def coefficients (f1 f2 p1 p2 d b : ℝ) : List ℝ :=
  [-f2 ^ 2 * p2 ^ 4 - p2 ^ 4 * f1 ^ 2 - p2 ^ 4,
   2 * p2 ^ 3 * d * b + 2 * f2 ^ 2 * p2 ^ 3 * d * b - 2 * f2 * p2 ^ 3 * f1 * d,
   -f2 ^ 2 * p2 ^ 2 * p1 ^ 2 - f2 ^ 2 * p2 ^ 2 * d ^ 2 * b ^ 2 - f2 ^ 2 * p2 ^ 2 * d ^ 2 + f2 ^ 2 * p2 ^ 4 + p2 ^ 4 * f1 ^ 2 +
     2 * p1 * p2 ^ 2 * d + 2 * f1 * f2 * p1 * p2 ^ 2 * d * b - p2 ^ 2 * p1 ^ 2 * f1 ^ 2 + 2 * p1 * p2 ^ 2 * f2 ^ 2 * d -
     p2 ^ 2 * d ^ 2 * b ^ 2 - 2 * p1 ^ 2 * p2 ^ 2,
   2 * p1 ^ 2 * p2 * d * b + 2 * f2 * p2 ^ 3 * f1 * d - 2 * f2 ^ 2 * p2 ^ 3 * d * b - 2 * p1 * p2 * d ^ 2 * b,
   -2 * f2 * p2 ^ 2 * f1 * p1 * d * b + f2 ^ 2 * p2 ^ 2 * d ^ 2 + 2 * p1 ^ 3 * d - p1 ^ 2 * d ^ 2 + f2 ^ 2 * p2 ^ 2 * p1 ^ 2 -
     p1 ^ 4 - 2 * f2 ^ 2 * p2 ^ 2 * p1 * d + p2 ^ 2 * f1 ^ 2 * p1 ^ 2 + f2 ^ 2 * p2 ^ 2 * d ^ 2 * b ^ 2]

/-- `cot_alphas[i]` (lines 127-128) and from it `sin_alpha` and `cos_alpha` (lines 147-152). A division by `f_2 = 0` gives a
quotient of infinities or `NaN`s, that is `NaN`; otherwise, a division by zero gives an infinite cotangent, or `NaN` if the numerator
is zero. -/
noncomputable def alpha (f1 f2 p1 p2 d b c : ℝ) : Option (ℝ × ℝ) :=
  if f2 = 0 then none
  else
    let num := -f1 * p1 / f2 - c * p2 + d * b
    let den := -f1 * c * p2 / f2 + p1 - d
    if den = 0 then
      if num = 0 then none else some (0, if num < 0 then -1 else 1)
    else
      let cot := num / den
      let sin := Real.sqrt (1 / (cot * cot + 1))
      some (sin, if cot < 0 then -Real.sqrt (1 - sin * sin) else Real.sqrt (1 - sin * sin))

/-- `c_nu` (lines 156-159). -/
def center (d b cosT sinT cosA sinA : ℝ) : V3 ℝ :=
  ⟨d * cosA * (sinA * b + cosA), cosT * d * sinA * (sinA * b + cosA), sinT * d * sinA * (sinA * b + cosA)⟩

/-- `intermediate_world_to_camera_rotation` (lines 168-171). -/
def turn (cosT sinT cosA sinA : ℝ) : M3 ℝ :=
  ⟨⟨-cosA, -sinA * cosT, -sinA * sinT⟩, ⟨sinA, -cosA * cosT, -cosA * sinT⟩, ⟨0, -sinT, cosT⟩⟩

/-- `Backsubstitute` (lines 137-180): `none` if a square root is taken of a negative number. -/
noncomputable def backsubstitute (world camera : M3 ℝ) (x0 : V3 ℝ) (f1 f2 p1 p2 d b cosT : ℝ) : Option (M3 ℝ × V3 ℝ) :=
  if 1 - cosT * cosT < 0 then none
  else
    match alpha f1 f2 p1 p2 d b cosT with
    | none => none
    | some (sinA, cosA) =>
      let sinT := Real.sqrt (1 - cosT * cosT)
      let position := x0.add (world.transpose.mulVec (center d b cosT sinT cosA sinA))
      let rotation := ((world.transpose.mul (turn cosT sinT cosA sinA).transpose).mul camera).transpose
      some (rotation, (rotation.mulVec position).neg)

/-- The rest of `PoseFromThreePoints` once the points are in order (lines 242-286), with `SolvePlaneRotation` (lines 58-132):
`find` are the real parts of the roots of a polynomial. -/
noncomputable def core (find : List ℝ → Option (List ℝ)) (r0 r1 r2 x0 x1 x2 : V3 ℝ) : Outcome (List (Option (M3 ℝ × V3 ℝ))) :=
  let camera := frame r0 r1
  let image := camera.mulVec r2
  let world := frame (normalized (x1.sub x0)) (x2.sub x0)
  let point := world.mulVec (x2.sub x0)
  let d := Real.sqrt ((x1.sub x0).dot (x1.sub x0))
  if image.z = 0 then .ub
  else
    let f1 := image.x / image.z
    let f2 := image.y / image.z
    let b := cotBeta (r0.dot r1)
    match find (coefficients f1 f2 point.x point.y d b) with
    | none => .ok []
    | some cs => .ok (cs.map (backsubstitute world camera x0 f1 f2 point.x point.y d b))

/-- `kTolerance` (line 198). -/
noncomputable def tolerance : ℝ := 1e-6

/-- `PoseFromThreePoints` (lines 184-288): the result, and the solutions if they are written. -/
noncomputable def solve (find : List ℝ → Option (List ℝ)) (f : Fin 3 → ℝ × ℝ) (x : Fin 3 → V3 ℝ) :
    Outcome (Bool × Option (List (Option (M3 ℝ × V3 ℝ)))) :=
  let r := fun i => normalized (homogeneous (f i))
  let w := ((x 1).sub (x 0)).cross ((x 2).sub (x 0))
  if w.dot w < tolerance then .ok (false, none)
  else
    let image := (frame (r 0) (r 1)).mulVec (r 2)
    match (if image.z > 0 then core find (r 1) (r 0) (r 2) (x 1) (x 0) (x 2) else core find (r 0) (r 1) (r 2) (x 0) (x 1) (x 2)) with
    | .abort => .abort
    | .ub => .ub
    | .ok sols => .ok (!sols.isEmpty, some sols)

end ThreePointPose
end Theia
