import Mathlib.Data.Rat.Defs
import Verif.Base.AMap
import Verif.Base.Outcome
import Verif.Model.Reconstruction

/-!
# Model of `NonlinearPositionEstimator`

`/repo/src/theia/sfm/global_pose_estimation/nonlinear_position_estimator.{h,cc}`. Line numbers without a file are those of
nonlinear_position_estimator.cc. The problem for the non-linear solver is the list of its residual blocks; the solver itself is
a parameter. The options that only choose a linear solver (lines 134-157, 369-382) are left out.

`F`: features, `P`: payload of a track, `M`: calibration, `O`: orientations, `D`: directions, `X`: positions.
-/

namespace Theia
namespace NonlinearPosition

variable {F P M O D X : Type}

/-- The geometry that is used. `rotate`: `GetRotatedTranslation` (lines 59-66), `ray`: the normalised world ray of a pixel for
a camera with an orientation and a calibration, `random`: the draws `100 * RandVector3d()`. -/
structure Geometry (F M O D X : Type) where
  rotate : O → D → D
  ray : O → M → F → D
  random : Nat → X
  origin : X

/-- The options that are read (nonlinear_position_estimator.h:63-82). -/
structure Options where
  numThreads : Int
  robustLossWidth : ℚ
  minPoints : Int
  pointWeight : ℚ

/-- A residual block: between two cameras, or between a camera and the point of a track. -/
inductive Block (D : Type) where
  | camera (v1 v2 : ViewId) (direction : D) (weight : ℚ)
  | point (v : ViewId) (t : TrackId) (ray : D) (weight : ℚ)
  deriving DecidableEq

/-- The unspecified orders: of iteration over positions, features of a view, observers of a track and chosen tracks, and the
order `std::partial_sort` leaves the elements in. -/
structure Orders where
  positions : List ViewId → List ViewId
  features : List TrackId → List TrackId
  observers : List ViewId → List ViewId
  chosen : List TrackId → List TrackId
  partialSort : Nat → List (TrackId × Nat) → List (TrackId × Nat)

/-- The constructor (lines 86-100). -/
def checkOptions (o : Options) : Outcome Unit :=
  if o.numThreads ≤ 0 then .abort
  else if o.minPoints < 0 then .abort
  else if o.pointWeight ≤ 0 then .abort
  else if o.robustLossWidth ≤ 0 then .abort
  else .ok ()

/-- The views of the pairs (lines 167-172). -/
def constrained (pairs : List ((ViewId × ViewId) × D)) : List ViewId := pairs.flatMap fun p => [p.1.1, p.1.2]

/-- The loop of `InitializeRandomPositions` (lines 174-179): the positions and the number of draws. -/
def initialPositions (g : Geometry F M O D X) (views : List ViewId) :
    List (ViewId × O) → Nat → AMap ViewId X → AMap ViewId X × Nat
  | [], n, m => (m, n)
  | (v, _) :: rest, n, m =>
    if v ∈ views then initialPositions g views rest (n + 1) (m.insert v (g.random n)) else initialPositions g views rest n m

/-- `AddCameraToCameraConstraints` (lines 182-214). `FindOrDie` ends the program without an orientation, and so does the solver
for a block with the same parameters twice. -/
def cameraBlocks (g : Geometry F M O D X) (orientations : AMap ViewId O) (positions : AMap ViewId X) :
    List ((ViewId × ViewId) × D) → Outcome (List (Block D))
  | [] => .ok []
  | p :: ps =>
    if positions.contains p.1.1 && positions.contains p.1.2 then
      match orientations.get p.1.1 with
      | none => .abort
      | some o =>
        if p.1.1 = p.1.2 then .abort
        else do
          let rest ← cameraBlocks g orientations positions ps
          .ok (.camera p.1.1 p.1.2 (g.rotate o p.2) 1 :: rest)
    else cameraBlocks g orientations positions ps

/-- The tracks of a view that are not chosen yet, with their numbers of views (lines 297-307). -/
def candidates (r : Reconstruction F P) (existing : List TrackId) : List TrackId → List (TrackId × Nat)
  | [] => []
  | t :: ts =>
    match r.track t with
    | none => candidates r existing ts
    | some T => if t ∈ existing then candidates r existing ts else (t, T.views.length) :: candidates r existing ts

/-- `GetTracksSortedByNumViews` (lines 293-329): the vector has the size of all candidates, but only the first few are
assigned. -/
def sortedTracks (ord : Orders) (minPoints : Nat) (r : Reconstruction F P) (V : View F) (existing : List TrackId) :
    List TrackId :=
  let c := candidates r existing (ord.features V.trackIds)
  let k := min c.length minPoints
  ((ord.partialSort k c).take k).map (·.1) ++ List.replicate (c.length - k) 0

/-- `++tracks_per_camera[view_id]` for the observers with a position (lines 276-282). -/
def countViews (positions : AMap ViewId X) : List ViewId → AMap ViewId Nat → AMap ViewId Nat
  | [], counts => counts
  | v :: vs, counts =>
    if positions.contains v then countViews positions vs (counts.insert v ((counts.get v).getD 0 + 1))
    else countViews positions vs counts

/-- Insertion into an `unordered_set`. -/
def setInsert (s : List TrackId) (t : TrackId) : List TrackId := if t ∈ s then s else s ++ [t]

/-- The inner loop of `FindTracksForProblem` (lines 270-283): a missing track is dereferenced. -/
def addTracks (ord : Orders) (minPoints : Nat) (r : Reconstruction F P) (positions : AMap ViewId X) (v : ViewId) :
    List TrackId → List TrackId × AMap ViewId Nat → Outcome (List TrackId × AMap ViewId Nat)
  | [], s => .ok s
  | t :: ts, s =>
    if (s.2.get v).getD 0 < minPoints then
      match r.track t with
      | none => .ub
      | some T => addTracks ord minPoints r positions v ts
          (setInsert s.1 t, countViews positions (ord.observers T.views) s.2)
    else .ok s

/-- One pass of the outer loop (lines 259-283). -/
def pickForView (ord : Orders) (minPoints : Nat) (r : Reconstruction F P) (positions : AMap ViewId X) (v : ViewId)
    (s : List TrackId × AMap ViewId Nat) : Outcome (List TrackId × AMap ViewId Nat) :=
  match r.view v with
  | none => .ok s
  | some V =>
    if V.features.size < minPoints then .ok s
    else addTracks ord minPoints r positions v (sortedTracks ord minPoints r V s.1) s

/-- The outer loop (lines 258-284). -/
def pickTracks (ord : Orders) (minPoints : Nat) (r : Reconstruction F P) (positions : AMap ViewId X) :
    List ViewId → List TrackId × AMap ViewId Nat → Outcome (List TrackId × AMap ViewId Nat)
  | [], s => .ok s
  | v :: vs, s => do
    let s ← pickForView ord minPoints r positions v s
    pickTracks ord minPoints r positions vs s

/-- `FindTracksForProblem` (lines 246-291): the chosen tracks and the number of constraints. -/
def findTracks (ord : Orders) (minPoints : Nat) (r : Reconstruction F P) (positions : AMap ViewId X) :
    Outcome (List TrackId × Nat) := do
  let s ← pickTracks ord minPoints r positions (ord.positions positions.keys) ([], positions.mapVals fun _ _ => 0)
  .ok (s.1, (s.2.entries.map (·.2)).sum)

/-- The loop of `AddTrackToProblem` (lines 337-360). The ray is that of the camera of the reconstruction: the orientation is
only set on a copy (`GetRotatedFeatureRay`, lines 68-75). A weight that is not positive ends the program
(pairwise_translation_error.cc:42-46). -/
def trackBlocks (g : Geometry F M O D X) (r : Reconstruction F P) (camera : ViewId → O × M) (orientations : AMap ViewId O)
    (positions : AMap ViewId X) (weight : ℚ) (t : TrackId) : List ViewId → Outcome (List (Block D))
  | [] => .ok []
  | v :: vs =>
    if positions.contains v then
      match orientations.get v, r.view v with
      | none, _ => .abort
      | _, none => .ub
      | some _, some V =>
        match V.getFeature t with
        | none => .ub
        | some f =>
          if weight ≤ 0 then .abort
          else do
            let rest ← trackBlocks g r camera orientations positions weight t vs
            .ok (.point v t (g.ray (camera v).1 (camera v).2 f) weight :: rest)
    else trackBlocks g r camera orientations positions weight t vs

/-- The loop over the tracks (lines 233-238). -/
def pointBlocks (ord : Orders) (g : Geometry F M O D X) (r : Reconstruction F P) (camera : ViewId → O × M)
    (orientations : AMap ViewId O) (positions : AMap ViewId X) (weight : ℚ) : List TrackId → Outcome (List (Block D))
  | [] => .ok []
  | t :: ts =>
    match r.track t with
    | none => .ub
    | some T => do
      let bs ← trackBlocks g r camera orientations positions weight t (ord.observers T.views)
      let rest ← pointBlocks ord g r camera orientations positions weight ts
      .ok (bs ++ rest)

/-- `AddPointToCameraConstraints` and the test of `AddCamerasAndPointsToParameterGroups` (lines 216-244, 365-367). -/
def addPoints (ord : Orders) (g : Geometry F M O D X) (o : Options) (r : Reconstruction F P) (camera : ViewId → O × M)
    (orientations : AMap ViewId O) (positions : AMap ViewId X) (numCameraBlocks : Nat) : Outcome (List (Block D)) := do
  let (tracks, n) ← findTracks ord o.minPoints.toNat r positions
  if n = 0 then .abort
  else pointBlocks ord g r camera orientations positions (o.pointWeight * numCameraBlocks / n) (ord.chosen tracks)

/-- The position of the view is a parameter of the block. -/
def Block.uses (v : ViewId) : Block D → Bool
  | .camera v1 v2 _ _ => decide (v = v1 ∨ v = v2)
  | .point w _ _ _ => decide (v = w)

/-- What an estimation leaves: the result, the positions, the residual blocks and the camera at the origin. -/
structure Run (D X : Type) where
  usable : Bool
  positions : AMap ViewId X
  blocks : List (Block D)
  fixed : Option ViewId

/-- The end of `EstimatePositions` (lines 130-161). `begin()` of an empty map is dereferenced; the solver ends the program if
asked to fix a parameter it does not know, and changes only parameters it knows that are not fixed. -/
def solveProblem (ord : Orders) (g : Geometry F M O D X) (solve : List (Block D) → ViewId → AMap ViewId X → Bool × (ViewId → X))
    (blocks : List (Block D)) (positions : AMap ViewId X) : Outcome (Run D X) :=
  match ord.positions positions.keys with
  | [] => .ub
  | v0 :: _ =>
    if blocks.any (Block.uses v0) then
      let start := positions.insert v0 g.origin
      let result := solve blocks v0 start
      .ok ⟨result.1, start.mapVals fun v x => if v ≠ v0 ∧ blocks.any (Block.uses v) then result.2 v else x, blocks, some v0⟩
    else .abort

/-- The constructor and `EstimatePositions` (lines 86-162). -/
def estimate (ord : Orders) (g : Geometry F M O D X) (solve : List (Block D) → ViewId → AMap ViewId X → Bool × (ViewId → X))
    (o : Options) (r : Reconstruction F P) (camera : ViewId → O × M) (pairs : List ((ViewId × ViewId) × D))
    (orientations : AMap ViewId O) (positions : AMap ViewId X) : Outcome (Run D X) := do
  let _ ← checkOptions o
  if pairs = [] ∨ orientations.entries = [] then .ok ⟨false, positions, [], none⟩
  else do
    let positions := (initialPositions g (constrained pairs) orientations.entries 0 positions).1
    let cs ← cameraBlocks g orientations positions pairs
    if 0 < o.minPoints then do
      let ps ← addPoints ord g o r camera orientations positions cs.length
      solveProblem ord g solve (cs ++ ps) positions
    else solveProblem ord g solve cs positions

end NonlinearPosition
end Theia
