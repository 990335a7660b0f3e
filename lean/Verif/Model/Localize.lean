import Verif.Model.Reconstruction

/-!
# Model of `LocalizeViewToReconstruction` (src/theia/sfm/localize_view_to_reconstruction.cc)

The pose solvers, the bundle adjustment of one view and the intrinsics functions are parameters: `M` is the contents of
an intrinsics object, `O` an orientation, `X` a position, `L` a focal length, `N` a point of the image plane, `W` a
point in space.
-/

namespace Theia
namespace Localize

variable {F P M O X L N W : Type}

/-- A reconstruction with the contents of its cameras. The intrinsics objects are behind pointers. -/
structure Scene (F P M O X : Type) where
  recon : Reconstruction F P
  heap : Nat → M
  orientation : ViewId → O
  position : ViewId → X

/-- `RansacSummary::inliers` and whether the estimation succeeded, with its result. -/
structure Estimate (R : Type) where
  result : Option R
  inliers : List Nat

/-- The numerical parts. `focalPrior` is `CameraIntrinsicsPrior().focal_length.is_set`; `adjust` is `BundleAdjustView`,
which changes the pose and the intrinsics of the view only (C29). -/
structure Numerics (F P M O X L N W : Type) where
  focalPrior : ViewId → Bool
  shift : M → F → N
  normalize : M → F → N
  world : P → W
  solvePosition : O → List (N × W) → Estimate X
  solvePose : List (N × W) → Estimate (O × X)
  solvePoseFocal : List (N × W) → Estimate (O × X × L)
  setFocal : L → M → Outcome M
  adjust : Scene F P M O X → ViewId → Bool × O × X × M

/-- The options the function reads. -/
structure Options where
  knownOrientation : Bool
  bundleAdjust : Bool
  minInliers : Int

/-- `n < options.min_num_inliers` for a size `n`: the `int` is converted to an unsigned type. -/
def tooFew (n : Nat) (m : Int) : Bool := m < 0 || (n : Int) < m

/-- `n > options.min_num_inliers` for a size `n`, with the same conversion. -/
def moreThan (n : Nat) (m : Int) : Bool := 0 ≤ m && m < (n : Int)

/-- The loop of `DoesViewHaveKnownIntrinsics` (localize_view_to_reconstruction.cc:68-74). The inner `view` is the view to
localise, as in the code. -/
def knownLoop (r : Reconstruction F P) (v : ViewId) : List ViewId → Outcome Bool
  | [] => .ok false
  | w :: ws =>
    match r.view v with
    | none => .ub
    | some V => if V.estimated && v ≠ w then .ok true else knownLoop r v ws

/-- `DoesViewHaveKnownIntrinsics` (localize_view_to_reconstruction.cc:54-75). -/
def knownIntrinsics (order : List Nat → List Nat) (n : Numerics F P M O X L N W) (r : Reconstruction F P) (v : ViewId) :
    Outcome Bool :=
  match r.view v with
  | none => .ub
  | some _ =>
    if n.focalPrior v then .ok true
    else
      match r.groupOf v with
      | none => .ok false
      | some g => knownLoop r v (order (r.viewsInGroup g))

/-- `GetNormalized2D3DMatches` and `GetIntrinsicsNormalized2D3DMatches` (localize_view_to_reconstruction.cc:77-123); `f`
is what is done to a feature. -/
def gather (r : Reconstruction F P) (V : View F) (f : F → N) (world : P → W) : List TrackId → Outcome (List (N × W))
  | [] => .ok []
  | t :: ts =>
    match r.track t with
    | none => .ub
    | some T =>
      if T.estimated then
        match V.getFeature t with
        | none => .ub
        | some x => do
          let rest ← gather r V f world ts
          .ok ((f x, world T.payload) :: rest)
      else gather r V f world ts

/-- `Camera::SetPosition` and the orientation setters on the camera of a view. -/
def Scene.setPosition (s : Scene F P M O X) (v : ViewId) (x : X) : Scene F P M O X :=
  { s with position := fun w => if w = v then x else s.position w }

def Scene.setOrientation (s : Scene F P M O X) (v : ViewId) (o : O) : Scene F P M O X :=
  { s with orientation := fun w => if w = v then o else s.orientation w }

/-- A change of the intrinsics object at an address. -/
def Scene.setHeap (s : Scene F P M O X) (q : Nat) (m : M) : Scene F P M O X :=
  { s with heap := fun i => if i = q then m else s.heap i }

/-- The branch for a known orientation (localize_view_to_reconstruction.cc:160-183). -/
def withPosition (n : Numerics F P M O X L N W) (o : Options) (v : ViewId) (ms : List (N × W)) (s : Scene F P M O X) :
    Bool × Scene F P M O X × List Nat :=
  match (n.solvePosition (s.orientation v) ms).result with
  | some x =>
    if moreThan (n.solvePosition (s.orientation v) ms).inliers.length o.minInliers then
      (true, s.setPosition v x, (n.solvePosition (s.orientation v) ms).inliers)
    else (false, s, (n.solvePosition (s.orientation v) ms).inliers)
  | none => (false, s, (n.solvePosition (s.orientation v) ms).inliers)

/-- The branch for known intrinsics (localize_view_to_reconstruction.cc:187-198). -/
def withPose (n : Numerics F P M O X L N W) (v : ViewId) (ms : List (N × W)) (s : Scene F P M O X) :
    Bool × Scene F P M O X × List Nat :=
  match (n.solvePose ms).result with
  | some (q, x) => (true, (s.setOrientation v q).setPosition v x, (n.solvePose ms).inliers)
  | none => (false, s, (n.solvePose ms).inliers)

/-- The branch for an unknown focal length (localize_view_to_reconstruction.cc:199-214). -/
def withFocal (n : Numerics F P M O X L N W) (v : ViewId) (V : View F) (ms : List (N × W)) (s : Scene F P M O X) :
    Outcome (Bool × Scene F P M O X × List Nat) :=
  match (n.solvePoseFocal ms).result with
  | some (q, x, l) => do
    let m ← n.setFocal l (s.heap V.intrinsics)
    .ok (true, ((s.setOrientation v q).setPosition v x).setHeap V.intrinsics m, (n.solvePoseFocal ms).inliers)
  | none => .ok (false, s, (n.solvePoseFocal ms).inliers)

/-- `EstimateCameraPose` (localize_view_to_reconstruction.cc:125-217). `summary` is the inlier list passed in, which is
left as it is on an early exit. -/
def estimatePose (order : List Nat → List Nat) (n : Numerics F P M O X L N W) (o : Options) (known : Bool) (v : ViewId)
    (V : View F) (s : Scene F P M O X) (summary : List Nat) : Outcome (Bool × Scene F P M O X × List Nat) := do
  let ms ← gather s.recon V (if known then n.normalize (s.heap V.intrinsics) else n.shift (s.heap V.intrinsics)) n.world
    (order V.trackIds)
  if tooFew ms.length o.minInliers then .ok (false, s, summary)
  else if o.knownOrientation then .ok (withPosition n o v ms s)
  else if known then .ok (withPose n v ms s)
  else withFocal n v V ms s

/-- The state after `BundleAdjustView`. -/
def adjusted (n : Numerics F P M O X L N W) (v : ViewId) (V : View F) (s : Scene F P M O X) : Scene F P M O X :=
  ((s.setOrientation v (n.adjust s v).2.1).setPosition v (n.adjust s v).2.2.1).setHeap V.intrinsics (n.adjust s v).2.2.2

/-- The end of `LocalizeViewToReconstruction` (localize_view_to_reconstruction.cc:246-257). -/
def finish (n : Numerics F P M O X L N W) (o : Options) (v : ViewId) (V : View F) (s : Scene F P M O X) (summary : List Nat) :
    Outcome (Bool × Scene F P M O X × List Nat) := do
  let r ← s.recon.setViewEstimated v true
  if o.bundleAdjust then
    .ok ((n.adjust { s with recon := r } v).1, adjusted n v V { s with recon := r }, summary)
  else .ok (true, { s with recon := r }, summary)

/-- The test whether the intrinsics count as known (localize_view_to_reconstruction.cc:231-233). -/
def decideKnown (order : List Nat → List Nat) (n : Numerics F P M O X L N W) (o : Options) (r : Reconstruction F P)
    (v : ViewId) : Outcome Bool :=
  if o.knownOrientation then .ok true else knownIntrinsics order n r v

/-- `LocalizeViewToReconstruction` (localize_view_to_reconstruction.cc:221-258): the result, the state after the call and
the inliers in the summary. -/
def localize (order : List Nat → List Nat) (n : Numerics F P M O X L N W) (o : Options) (v : ViewId)
    (s : Scene F P M O X) (summary : List Nat) : Outcome (Bool × Scene F P M O X × List Nat) :=
  match s.recon.view v with
  | none => .ub
  | some V => do
    let known ← decideKnown order n o s.recon v
    let (success, s, summary) ← estimatePose order n o known v V s summary
    if !success || tooFew summary.length o.minInliers then .ok (false, s, summary)
    else finish n o v V s summary

end Localize
end Theia
