import Verif.Base.RotationMatrix
import Verif.Base.Outcome

/-!
# Adjusting two views

Model of `/repo/src/theia/sfm/bundle_adjustment/bundle_adjust_two_views.cc`, `angular_epipolar_error.h` and
`unit_norm_three_vector_parameterization.h`. Real arithmetic.

`ceres::Solve` is modelled as its trust region loop: steps are proposed in any way at all, and a step is taken if and only if the cost
can be evaluated after it and is smaller. If the cost cannot be evaluated at the start, nothing is changed and the solver reports
failure. Ceres is not part of /repo. Times and logging are left out.
-/

namespace Theia
namespace TwoViewAdjustment

section Solver

variable {X D : Type}

/-- The loop of the solver from a point with the given cost. -/
noncomputable def descend (plus : X → D → X) (cost : X → Option ℝ) : X → ℝ → List D → X
  | x, _, [] => x
  | x, c, d :: ds =>
    open Classical in
    match cost (plus x d) with
    | some c' => if c' < c then descend plus cost (plus x d) c' ds else descend plus cost x c ds
    | none => descend plus cost x c ds

/-- `ceres::Solve`: the parameters at the end, and whether the solver did not fail. -/
noncomputable def solve (plus : X → D → X) (cost : X → Option ℝ) (x : X) (steps : List D) : X × Bool :=
  match cost x with
  | none => (x, false)
  | some c => (descend plus cost x c steps, true)

end Solver

/-! ### `BundleAdjustTwoViews` -/

/-- A `Camera`: six extrinsic parameters, the type of the intrinsics, and the address of the intrinsics, which copies of a camera
share (/repo/src/theia/sfm/camera/camera.h:212-220). -/
structure Camera where
  extrinsics : Fin 6 → ℝ
  model : Nat
  intrinsics : Nat

/-- The memory that the parameter blocks point to. -/
structure Values where
  extrinsics1 : Fin 6 → ℝ
  extrinsics2 : Fin 6 → ℝ
  intrinsics : Nat → Nat → ℝ
  points : List (Fin 4 → ℝ)

/-- A parameter block. -/
inductive Block where
  | extrinsics1
  | extrinsics2
  | intrinsics (address : Nat)
  deriving DecidableEq

/-- What the problem knows of a parameter block: whether it is constant, and whether all its parameters after the first are held by a
`SubsetParameterization`. -/
structure Mode where
  constant : Bool
  subset : Bool

/-- A problem: the parameter blocks of cameras. The blocks of the points are added with the residuals and have no
parameterization. -/
abbrev Problem := Block → Option Mode

/-- `ceres::Problem::AddParameterBlock`: a block that is known already keeps its state. -/
def addBlock (p : Problem) (b : Block) : Problem := fun b' => if b' = b then some ((p b).getD ⟨false, false⟩) else p b'

/-- `ceres::Problem::AddParameterBlock` with a parameterization. -/
def addSubset (p : Problem) (b : Block) : Problem :=
  fun b' => if b' = b then some { (p b).getD ⟨false, false⟩ with subset := true } else p b'

/-- `ceres::Problem::SetParameterBlockConstant`. -/
def setConstant (p : Problem) (b : Block) : Problem := fun b' => if b' = b then (p b).map fun m => { m with constant := true } else p b'

/-- `AddCameraParametersToProblem` (/repo/src/theia/sfm/bundle_adjustment/bundle_adjust_two_views.cc:72-105). `extrinsics` and
`intrinsics` are the addresses of the two blocks. -/
def addCamera (constantExtrinsics constantIntrinsics : Bool) (extrinsics intrinsics : Block) (p : Problem) : Problem :=
  let p := addBlock p extrinsics
  let p := if constantExtrinsics then setConstant p extrinsics else p
  if constantIntrinsics then setConstant (addBlock p intrinsics) intrinsics
  else addSubset p intrinsics

/-- The problem after both cameras are added (/repo/src/theia/sfm/bundle_adjustment/bundle_adjust_two_views.cc:138-147). `constant1` and
`constant2` are the options `constant_camera1_intrinsics` and `constant_camera2_intrinsics`. -/
def problem (constant1 constant2 : Bool) (camera1 camera2 : Camera) : Problem :=
  addCamera false constant2 .extrinsics2 (.intrinsics camera2.intrinsics)
    (addCamera true constant1 .extrinsics1 (.intrinsics camera1.intrinsics) fun _ => none)

/-- A proposed step. -/
structure Step where
  extrinsics1 : Fin 6 → ℝ
  extrinsics2 : Fin 6 → ℝ
  intrinsics : Nat → Nat → ℝ
  points : List (Fin 4 → ℝ)

/-- Parameter `i` of a block after a step, by the mode of the block. -/
noncomputable def move (m : Option Mode) (i : Nat) (x d : ℝ) : ℝ :=
  match m with
  | none => x
  | some m => if m.constant || (m.subset && decide (1 ≤ i)) then x else x + d

/-- The parameters after a step. -/
noncomputable def plus (p : Problem) (v : Values) (d : Step) : Values where
  extrinsics1 i := move (p .extrinsics1) i.1 (v.extrinsics1 i) (d.extrinsics1 i)
  extrinsics2 i := move (p .extrinsics2) i.1 (v.extrinsics2 i) (d.extrinsics2 i)
  intrinsics a i := move (p (.intrinsics a)) i (v.intrinsics a i) (d.intrinsics a i)
  points := List.zipWith (fun x d => fun i => x i + d i) v.points (d.points ++ List.replicate v.points.length fun _ => 0)

/-- A reprojection error: of a type of intrinsics, for extrinsics, intrinsics, a point and its feature. `none` if the cost function
reports failure. -/
abbrev Reprojection := Nat → (Fin 6 → ℝ) → (Nat → ℝ) → (Fin 4 → ℝ) → ℝ × ℝ → Option (ℝ × ℝ)

/-- The squared residuals of one correspondence (/repo/src/theia/sfm/bundle_adjustment/bundle_adjust_two_views.cc:156-171). -/
noncomputable def pairCost (err : Reprojection) (camera1 camera2 : Camera) (v : Values) (c : (ℝ × ℝ) × (ℝ × ℝ)) (x : Fin 4 → ℝ) :
    Option ℝ := do
  let e1 ← err camera1.model v.extrinsics1 (v.intrinsics camera1.intrinsics) x c.1
  let e2 ← err camera2.model v.extrinsics2 (v.intrinsics camera2.intrinsics) x c.2
  return (e1.1 ^ 2 + e1.2 ^ 2) + (e2.1 ^ 2 + e2.2 ^ 2)

/-- The sum over all correspondences (/repo/src/theia/sfm/bundle_adjustment/bundle_adjust_two_views.cc:155-174). -/
noncomputable def pairsCost (err : Reprojection) (camera1 camera2 : Camera) (v : Values) :
    List ((ℝ × ℝ) × (ℝ × ℝ)) → List (Fin 4 → ℝ) → Option ℝ
  | c :: cs, x :: xs => do
    let a ← pairCost err camera1 camera2 v c x
    let b ← pairsCost err camera1 camera2 v cs xs
    return a + b
  | _, _ => some 0

/-- `BundleAdjustTwoViews` (/repo/src/theia/sfm/bundle_adjustment/bundle_adjust_two_views.cc:112-191): the parameters at the end and
`summary.success`. `heap` are the intrinsics in memory. -/
noncomputable def adjustTwoViews (err : Reprojection) (constant1 constant2 : Bool) (corrs : List ((ℝ × ℝ) × (ℝ × ℝ)))
    (camera1 camera2 : Camera) (heap : Nat → Nat → ℝ) (points : List (Fin 4 → ℝ)) (steps : List Step) : Outcome (Values × Bool) :=
  if points.length ≠ corrs.length then .abort
  else .ok (solve (plus (problem constant1 constant2 camera1 camera2)) (fun v => pairsCost err camera1 camera2 v corrs v.points)
    ⟨camera1.extrinsics, camera2.extrinsics, heap, points⟩ steps)

/-! ### `BundleAdjustTwoViewsAngular` -/

open AngleAxis

/-- `AngularEpipolarError::operator()` (/repo/src/theia/sfm/bundle_adjustment/angular_epipolar_error.h:50-86). -/
noncomputable def angularError (feature1 feature2 : ℝ × ℝ) (rotation translation : V3 ℝ) : Option ℝ :=
  open Classical in
  let f1 : V3 ℝ := ⟨feature1.1, feature1.2, 1⟩
  let f2 : V3 ℝ := ⟨feature2.1, feature2.2, 1⟩
  let R := toM rotation
  let t := translation
  let term : M3 ℝ := ⟨⟨1 - t.x * t.x, 0 - t.x * t.y, 0 - t.x * t.z⟩, ⟨0 - t.y * t.x, 1 - t.y * t.y, 0 - t.y * t.z⟩,
    ⟨0 - t.z * t.x, 0 - t.z * t.y, 1 - t.z * t.z⟩⟩
  let a := f1.dot (term.mulVec f1) + (R.mulVec f2).dot (term.mulVec (R.transpose.mulVec f2))
  let b := t.dot (f1.cross (R.transpose.mulVec f2))
  let s := a * a / 4 - b * b
  if s < 0 then none
  else some (a / 2 - Real.sqrt s)

/-- `UnitNormThreeVectorParameterization::operator()`
(/repo/src/theia/sfm/bundle_adjustment/unit_norm_three_vector_parameterization.h:44-60). -/
noncomputable def unitPlus (x d : V3 ℝ) : V3 ℝ :=
  open Classical in
  let y := x.add d
  if 0 < y.dot y then y.smul (Real.sqrt (y.dot y))⁻¹ else y

/-- The sum of the squared residuals (/repo/src/theia/sfm/bundle_adjustment/bundle_adjust_two_views.cc:225-231). -/
noncomputable def angularCost (rotation translation : V3 ℝ) : List ((ℝ × ℝ) × (ℝ × ℝ)) → Option ℝ
  | [] => some 0
  | c :: cs => do
    let e ← angularError c.1 c.2 rotation translation
    let b ← angularCost rotation translation cs
    return e ^ 2 + b

/-- `BundleAdjustTwoViewsAngular` (/repo/src/theia/sfm/bundle_adjustment/bundle_adjust_two_views.cc:193-251): `rotation_2`, `position_2`
and `summary.success` at the end. -/
noncomputable def adjustAngular (corrs : List ((ℝ × ℝ) × (ℝ × ℝ))) (rotation position : V3 ℝ) (steps : List (V3 ℝ × V3 ℝ)) :
    (V3 ℝ × V3 ℝ) × Bool :=
  solve (fun (x : V3 ℝ × V3 ℝ) (d : V3 ℝ × V3 ℝ) => (x.1.add d.1, unitPlus x.2 d.2)) (fun x => angularCost x.1 x.2 corrs)
    (rotation, position) steps

end TwoViewAdjustment
end Theia
