import Verif.Model.Reconstruction

/-!
# Model of the set-up of bundle adjustment problems

`/repo/src/theia/sfm/bundle_adjustment/bundle_adjuster.cc` and `bundle_adjustment.cc`. The model builds the
problem that is handed to Ceres; solving it, the loss function and the elimination ordering are not
modelled. Ceres parameter blocks are identified by what they belong to. A block is part of a problem
once a residual uses it, and changing the status of a block that is not part of the problem is a fatal
error in Ceres (`abort`).
-/

namespace Theia
namespace BA

variable {F P : Type}

/-- A parameter block: the extrinsics of a view's camera, an intrinsics object (by its address, since
cameras share it), the point of a track. -/
inductive Block where
  | ext (v : ViewId)
  | intr (ptr : Nat)
  | pt (t : TrackId)
  deriving DecidableEq, Repr

/-- A reprojection error residual with its three blocks (`AddReprojectionErrorResidual`,
bundle_adjuster.cc:373-386). -/
structure Residual (F : Type) where
  view : ViewId
  ptr : Nat
  track : TrackId
  feature : F
  deriving DecidableEq, Repr

/-- A `ceres::Problem`: the residuals, the blocks held constant and the blocks with some coordinates held
constant (`SubsetParameterization`). -/
structure Problem (F : Type) where
  residuals : List (Residual F)
  constant : List Block
  subset : List Block

/-- The block is used by a residual. -/
def Problem.has (p : Problem F) : Block → Bool
  | .ext v => p.residuals.any fun e => decide (e.view = v)
  | .intr q => p.residuals.any fun e => decide (e.ptr = q)
  | .pt t => p.residuals.any fun e => decide (e.track = t)

/-- `ceres::Problem::SetParameterBlockConstant`. -/
def Problem.setConstant (p : Problem F) (b : Block) : Outcome (Problem F) :=
  if p.has b then .ok { p with constant := b :: p.constant } else .abort

/-- `ceres::Problem::SetParameterBlockVariable`. -/
def Problem.setVariable (p : Problem F) (b : Block) : Outcome (Problem F) :=
  if p.has b then .ok { p with constant := p.constant.filter fun c => decide (c ≠ b) } else .abort

/-- `ceres::Problem::SetParameterization` with a subset parameterization. A parameterization can be set
only once. -/
def Problem.setSubset (p : Problem F) (b : Block) : Outcome (Problem F) :=
  if p.has b ∧ b ∉ p.subset then .ok { p with subset := b :: p.subset } else .abort

/-- `BundleAdjuster` (bundle_adjuster.h:104-131). -/
structure Adjuster (F : Type) where
  problem : Problem F
  optViews : List ViewId
  optTracks : List TrackId
  optGroups : List (Option GroupId)
  constGroups : List (Option GroupId)

/-- `set.emplace`. -/
def setInsert (s : List (Option GroupId)) (g : Option GroupId) : List (Option GroupId) :=
  if g ∈ s then s else g :: s

/-- The constructor (bundle_adjuster.cc:79-100). -/
def Adjuster.new : Adjuster F := ⟨⟨[], [], []⟩, [], [], [], []⟩

/-- The loop of `AddView` (lines 125-138). -/
def viewLoop (r : Reconstruction F P) (v : ViewId) (V : View F) :
    List TrackId → Problem F → Outcome (Problem F)
  | [], p => .ok p
  | t :: ts, p =>
    match V.getFeature t with
    | none => .abort
    | some f =>
      match r.track t with
      | none => .abort
      | some T =>
        if T.estimated then
          match ({ p with residuals := p.residuals ++ [⟨v, V.intrinsics, t, f⟩] } : Problem F).setConstant (.pt t) with
          | .abort => .abort
          | .ub => .ub
          | .ok p => viewLoop r v V ts p
        else viewLoop r v V ts p

/-- `BundleAdjuster::AddView` (lines 102-139). -/
def Adjuster.addView (r : Reconstruction F P) (v : ViewId) (a : Adjuster F) : Outcome (Adjuster F) :=
  match r.view v with
  | none => .abort
  | some V =>
    if V.estimated = false ∨ v ∈ a.optViews then .ok a
    else
      match viewLoop r v V V.trackIds a.problem with
      | .abort => .abort
      | .ub => .ub
      | .ok p => .ok { a with problem := p
                              optViews := v :: a.optViews
                              optGroups := setInsert a.optGroups (r.groupOf v) }

/-- The loop of `AddTrack` (lines 153-176); the second component collects the intrinsics groups that may
become constant. -/
def trackLoop (r : Reconstruction F P) (t : TrackId) (optViews : List ViewId) :
    List ViewId → Problem F × List (Option GroupId) → Outcome (Problem F × List (Option GroupId))
  | [], q => .ok q
  | v :: vs, q =>
    match r.view v with
    | none => .abort
    | some V =>
      if v ∈ optViews ∨ V.estimated = false then trackLoop r t optViews vs q
      else
        match V.getFeature t with
        | none => .abort
        | some f =>
          match ({ q.1 with residuals := q.1.residuals ++ [⟨v, V.intrinsics, t, f⟩] } : Problem F).setConstant (.ext v) with
          | .abort => .abort
          | .ub => .ub
          | .ok p => trackLoop r t optViews vs (p, setInsert q.2 (r.groupOf v))

/-- `BundleAdjuster::AddTrack` (lines 141-180). -/
def Adjuster.addTrack (r : Reconstruction F P) (t : TrackId) (a : Adjuster F) : Outcome (Adjuster F) :=
  match r.track t with
  | none => .abort
  | some T =>
    if T.estimated = false ∨ t ∈ a.optTracks then .ok a
    else
      match trackLoop r t a.optViews T.views (a.problem, a.constGroups) with
      | .abort => .abort
      | .ub => .ub
      | .ok (p, gs) =>
        match p.setVariable (.pt t) with
        | .abort => .abort
        | .ub => .ub
        | .ok p => .ok { a with problem := p, optTracks := t :: a.optTracks, constGroups := gs }

/-- What the options hold constant in the intrinsics of a group: everything, some parameters, nothing
(`GetSubsetFromOptimizeIntrinsicsType`, lines 252-266). -/
inductive Fixed where
  | all
  | some
  | none
  deriving DecidableEq, Repr

/-- The options the set-up reads; `fixed` is a function of the group because each group may have another
camera model. -/
structure Options where
  constantOrientation : Bool
  constantPosition : Bool
  fixed : GroupId → Fixed

/-- `SetCameraExtrinsicsParameterization` (lines 223-240). -/
def setExtrinsics (o : Options) : List ViewId → Problem F → Outcome (Problem F)
  | [], p => .ok p
  | v :: vs, p =>
    match (if o.constantOrientation ∧ o.constantPosition then p.setConstant (.ext v)
      else if o.constantOrientation ∨ o.constantPosition then p.setSubset (.ext v)
      else .ok p) with
    | .abort => .abort
    | .ub => .ub
    | .ok p => setExtrinsics o vs p

/-- `GetIntrinsicsForCameraIntrinsicsGroup` (lines 289-302): the address of the intrinsics of the group's
first view. -/
def groupIntrinsics (r : Reconstruction F P) : Option GroupId → Outcome Nat
  | none => .abort
  | some g =>
    match r.viewsInGroup g with
    | [] => .abort
    | v :: _ =>
      match r.view v with
      | none => .ub
      | some V => .ok V.intrinsics

/-- The status the options give to the intrinsics of an optimized group (lines 257-266). -/
def fixIntrinsics (o : Options) (g : Option GroupId) (q : Nat) (p : Problem F) : Outcome (Problem F) :=
  match g with
  | none => .ok p
  | some g =>
    match o.fixed g with
    | .all => p.setConstant (.intr q)
    | .some => p.setSubset (.intr q)
    | .none => .ok p

/-- The first loop of `SetCameraIntrinsicsParameterization` (lines 245-267). -/
def setOptGroups (r : Reconstruction F P) (o : Options) :
    List (Option GroupId) → Problem F → Outcome (Problem F)
  | [], p => .ok p
  | g :: gs, p =>
    match groupIntrinsics r g with
    | .abort => .abort
    | .ub => .ub
    | .ok q =>
      match fixIntrinsics o g q p with
      | .abort => .abort
      | .ub => .ub
      | .ok p => setOptGroups r o gs p

/-- The second loop of `SetCameraIntrinsicsParameterization` (lines 271-286). -/
def setConstGroups (r : Reconstruction F P) (optGroups : List (Option GroupId)) :
    List (Option GroupId) → Problem F → Outcome (Problem F)
  | [], p => .ok p
  | g :: gs, p =>
    if g ∈ optGroups then setConstGroups r optGroups gs p
    else
      match groupIntrinsics r g with
      | .abort => .abort
      | .ub => .ub
      | .ok q =>
        match p.setConstant (.intr q) with
        | .abort => .abort
        | .ub => .ub
        | .ok p => setConstGroups r optGroups gs p

/-- The part of `Optimize` before the solver runs (lines 182-191). -/
def Adjuster.finish (r : Reconstruction F P) (o : Options) (a : Adjuster F) : Outcome (Problem F) :=
  match setExtrinsics o a.optViews a.problem with
  | .abort => .abort
  | .ub => .ub
  | .ok p =>
    match setOptGroups r o a.optGroups p with
    | .abort => .abort
    | .ub => .ub
    | .ok p => setConstGroups r a.optGroups a.constGroups p

/-- The loops over the views (bundle_adjustment.cc:55-57). -/
def addViews (r : Reconstruction F P) : List ViewId → Adjuster F → Outcome (Adjuster F)
  | [], a => .ok a
  | v :: vs, a =>
    match a.addView r v with
    | .abort => .abort
    | .ub => .ub
    | .ok a => addViews r vs a

/-- The loops over the tracks (bundle_adjustment.cc:58-60). -/
def addTracks (r : Reconstruction F P) : List TrackId → Adjuster F → Outcome (Adjuster F)
  | [], a => .ok a
  | t :: ts, a =>
    match a.addTrack r t with
    | .abort => .abort
    | .ub => .ub
    | .ok a => addTracks r ts a

/-- The problem `BundleAdjustPartialReconstruction` solves (bundle_adjustment.cc:47-63). -/
def partialProblem (r : Reconstruction F P) (o : Options) (vs : List ViewId) (ts : List TrackId) :
    Outcome (Problem F) :=
  match addViews r vs .new with
  | .abort => .abort
  | .ub => .ub
  | .ok a =>
    match addTracks r ts a with
    | .abort => .abort
    | .ub => .ub
    | .ok a => a.finish r o

/-- `BundleAdjustReconstruction` (bundle_adjustment.cc:66-80). -/
def fullProblem (r : Reconstruction F P) (o : Options) : Outcome (Problem F) :=
  partialProblem r o r.viewIds r.trackIds

/-- `BundleAdjustView` (bundle_adjustment.cc:83-93). -/
def viewProblem (r : Reconstruction F P) (o : Options) (v : ViewId) : Outcome (Problem F) :=
  partialProblem r o [v] []

/-- `BundleAdjustTrack` (bundle_adjustment.cc:96-107). -/
def trackProblem (r : Reconstruction F P) (o : Options) (t : TrackId) : Outcome (Problem F) :=
  partialProblem r o [] [t]

end BA
end Theia
