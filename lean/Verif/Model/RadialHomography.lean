import Mathlib.Data.Fin.VecNotation
import Verif.Model.CameraModels
import Verif.Model.LinearSolvers

/-!
# Homographies between two images with radial distortion

Models `/repo/src/theia/sfm/pose/six_point_radial_distortion_homography.cc` and the estimator of
`/repo/src/theia/sfm/estimators/estimate_radial_distortion_homography.cc`.

* Doubles are real numbers; a division by zero is undefined behaviour. `eps` is the machine epsilon.
* Parameters, with their specification: `last2`, the last two columns of `V` of the decomposition of a matrix with eight columns, and
  `last5`, the last column of `V` of the decomposition of a matrix with five columns. Matrices are lists of rows.
-/

namespace Theia
namespace RadialHomography

open CameraModels

/-- `RadialHomographyResult` (six_point_radial_distortion_homography.h:51-55). -/
structure Result where
  H : M3 ℝ
  l1 : ℝ
  l2 : ℝ

/-- The sum of the squares of the coordinates (lines 75, 109). -/
def squared (p : V2) : ℝ := p.1 * p.1 + p.2 * p.2

/-- A row of `M` (lines 74-84) for a point of the left and a point of the right image. -/
noncomputable def rowM (p : V2 × V2) : Fin 8 → ℝ :=
  let x := p.1
  let u := p.2
  ![-x.2 * u.1, -x.2 * u.2, -x.2, x.1 * u.1, x.1 * u.2, x.1, -x.2 * squared u, x.1 * squared u]

/-- The coefficients of the quadratic (lines 90-93) for the last two columns of `V1`. -/
def quadratic (v w : Fin 8 → ℝ) : ℝ × ℝ × ℝ :=
  (-v 2 * v 7 + v 5 * v 6, -v 2 * w 7 - w 2 * v 7 + v 5 * w 6 + w 5 * v 6, -w 2 * w 7 + w 5 * w 6)

/-- The discriminant (line 94). -/
noncomputable def discriminant (q : ℝ × ℝ × ℝ) : ℝ := q.2.1 * q.2.1 - 4 * q.1 * q.2.2

/-- `IsNearZero` (lines 57-60). -/
def NearZero (eps val : ℝ) : Prop := val < 100 * eps ∧ -val < 100 * eps

open Classical in
/-- The roots (lines 96-109); `none` is the return value `false`. -/
noncomputable def roots (eps : ℝ) (q : ℝ × ℝ × ℝ) : Outcome (Option (List ℝ)) :=
  let d := discriminant q
  if NearZero eps d then
    if q.1 = 0 then .ub else .ok (some [-q.2.1 / (2 * q.1)])
  else if d > 0 then
    if q.1 = 0 then .ub
    else .ok (some [(-q.2.1 + Real.sqrt d) / (2 * q.1), (-q.2.1 - Real.sqrt d) / (2 * q.1)])
  else .ok none

/-- A row of `T` (lines 115-116, 126-131). -/
noncomputable def rowT (n : Fin 8 → ℝ) (l2 : ℝ) (p : V2 × V2) : Fin 5 → ℝ :=
  let x := p.1
  let u := p.2
  let u3 := 1 + l2 * squared u
  let r := n 0 * u.1 + n 1 * u.2 + n 2 * u3
  ![-(x.1 * u.1), -(x.1 * u.2), -x.1 * u3, squared x * r, r]

open Classical in
/-- The body of the loop over the roots (lines 118-149): the result that is appended, if any. -/
noncomputable def candidate (last5 : List (Fin 5 → ℝ) → Fin 5 → ℝ) (pts : List (V2 × V2)) (lmin lmax : ℝ) (n : Fin 8 → ℝ) :
    Outcome (Option Result) :=
  if n 2 = 0 then .ub
  else
    let l2 := n 6 / n 2
    if l2 < lmin ∨ l2 > lmax then .ok none
    else
      let v := last5 (pts.map (rowT n l2))
      if v 4 = 0 then .ub
      else
        let l1 := v 3 / v 4
        if l1 < lmin ∨ l1 > lmax then .ok none
        else .ok (some ⟨⟨⟨n 0, n 1, n 2⟩, ⟨n 3, n 4, n 5⟩, ⟨v 0 / v 4, v 1 / v 4, v 2 / v 4⟩⟩, l1, l2⟩)

/-- The loop over the roots (lines 118-149). -/
noncomputable def collect (last5 : List (Fin 5 → ℝ) → Fin 5 → ℝ) (pts : List (V2 × V2)) (lmin lmax : ℝ) (v w : Fin 8 → ℝ) :
    List ℝ → List Result → Outcome (List Result)
  | [], results => .ok results
  | r :: rs, results =>
    match candidate last5 pts lmin lmax fun i => r * v i + w i with
    | .ok none => collect last5 pts lmin lmax v w rs results
    | .ok (some c) => collect last5 pts lmin lmax v w rs (results ++ [c])
    | .abort => .abort
    | .ub => .ub

/-- `SixPointRadialDistortionHomography` (lines 62-152): the return value and the results, which are appended to those passed in. Six
points of each image are read, whatever the number given. -/
noncomputable def sixPoint (eps : ℝ) (last2 : List (Fin 8 → ℝ) → Fin 2 → Fin 8 → ℝ) (last5 : List (Fin 5 → ℝ) → Fin 5 → ℝ)
    (left right : List V2) (results : List Result) (lmin lmax : ℝ) : Outcome (Bool × List Result) :=
  if left.length < 6 ∨ right.length < 6 then .ub
  else
    let pts := (left.zip right).take 6
    let V := last2 (pts.map rowM)
    match roots eps (quadratic (V 0) (V 1)) with
    | .ok none => .ok (false, results)
    | .ok (some rs) =>
      match collect last5 pts lmin lmax (V 0) (V 1) rs results with
      | .ok res => .ok (true, res)
      | .abort => .abort
      | .ub => .ub
    | .abort => .abort
    | .ub => .ub

/-- `DistortPoint` (lines 155-180). -/
noncomputable def distortPoint (eps : ℝ) (point : V3 ℝ) (focal k : ℝ) : Outcome V2 := do
  let x ← divide (focal * point.x) point.z
  let y ← divide (focal * point.y) point.z
  .ok (divisionDistort eps k (x, y))

/-- `UndistortPoint` (lines 182-195). -/
noncomputable def undistortPoint (p : V2) (focal k : ℝ) : Outcome (V3 ℝ) := do
  let s ← divide 1 (1 + k * squared p)
  let x ← divide (p.1 * s) focal
  let y ← divide (p.2 * s) focal
  .ok ⟨x, y, 1⟩

/-- `ProjectCameraToCamera` (lines 197-200). -/
noncomputable def project (H : M3 ℝ) (x : V3 ℝ) : Outcome (V3 ℝ) :=
  let y := H.mulVec x
  if y.z = 0 then .ub else .ok ⟨y.x / y.z, y.y / y.z, y.z / y.z⟩

/-- `H.inverse()` (line 219). The inverse of a singular matrix is not a number. -/
noncomputable def inverseOf (H : M3 ℝ) : Outcome (M3 ℝ) := if H.det = 0 then .ub else .ok (LinearSolvers.inverse H)

/-- `CheckRadialSymmetricError` (lines 202-235). -/
noncomputable def symmetricError (eps : ℝ) (m : Result) (left right : V2) (f1 f2 : ℝ) : Outcome ℝ := do
  let k1 ← divide m.l1 (f1 * f1)
  let k2 ← divide m.l2 (f2 * f2)
  let b1 ← undistortPoint left f1 k1
  let b2 ← undistortPoint right f2 k2
  let ray2in1 ← project m.H b2
  let inv ← inverseOf m.H
  let ray1in2 ← project inv b1
  let p ← distortPoint eps ray2in1 f1 k1
  let q ← distortPoint eps ray1in2 f2 k2
  .ok (1 / 2 * (squared (left.1 - p.1, left.2 - p.2) + squared (right.1 - q.1, right.2 - q.2)))

/-- `RadialDistortionFeatureCorrespondence` (estimate_radial_distortion_homography.h:54-68). -/
structure Correspondence where
  left : V2
  right : V2
  normalizedLeft : V2
  normalizedRight : V2
  focalLeft : ℝ
  focalRight : ℝ
  lmin : ℝ
  lmax : ℝ

/-- `EstimateModel` (estimate_radial_distortion_homography.cc:62-77): the bounds are those of the first correspondence. -/
noncomputable def estimateModel (eps : ℝ) (last2 : List (Fin 8 → ℝ) → Fin 2 → Fin 8 → ℝ) (last5 : List (Fin 5 → ℝ) → Fin 5 → ℝ)
    (cs : List Correspondence) (results : List Result) : Outcome (Bool × List Result) :=
  match cs with
  | [] => .ub
  | c :: _ =>
    sixPoint eps last2 last5 (cs.map (·.normalizedLeft)) (cs.map (·.normalizedRight)) results c.lmin c.lmax

/-- `Error` (estimate_radial_distortion_homography.cc:80-86). -/
noncomputable def error (eps : ℝ) (c : Correspondence) (m : Result) : Outcome ℝ :=
  symmetricError eps m c.left c.right c.focalLeft c.focalRight

end RadialHomography
end Theia
