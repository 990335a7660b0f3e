import Mathlib.Algebra.Field.Rat
import Mathlib.Algebra.Order.Ring.Rat
import Verif.Model.ViewGraph
import Verif.Model.Localize

/-!
# Model of the helpers of the reconstruction estimators

`SetOutlierTracksToUnestimated` (`/repo/src/theia/sfm/set_outlier_tracks_to_unestimated.cc`) and
`/repo/src/theia/sfm/reconstruction_estimator_utils.{h,cc}`. Doubles are rational numbers; what depends on the cameras is
a parameter.
-/

namespace Theia
namespace EstimatorUtils

variable {F P M O X N D I : Type}

/-- What the test for outliers asks the cameras: the depth of a point (`Camera::ProjectPoint`), the squared distance of
its projection to a feature, the direction of the ray to it, and whether two directions include more than the minimum
angle (`dot < cos`). -/
structure OutlierGeometry (F P D : Type) where
  depth : ViewId → P → ℚ
  sqError : ViewId → F → P → ℚ
  direction : ViewId → P → D
  wide : D → D → Bool

/-- `SufficientTriangulationAngle` (triangulation.cc:236-250): some pair of directions is wide enough. -/
def sufficient (geo : OutlierGeometry F P D) : List D → Bool
  | [] => false
  | d :: ds => ds.any (geo.wide d) || sufficient geo ds

/-- The variables of the loop over the views of a track: `ray_directions`, `num_projections` and
`mean_sq_reprojection_error` (set_outlier_tracks_to_unestimated.cc:80-83). -/
structure Accumulator (D : Type) where
  directions : List D
  projections : Nat
  error : ℚ

/-- The loop over the views of a track (set_outlier_tracks_to_unestimated.cc:84-109). The result is `none` if the point
is behind a camera, where the loop is left. -/
def observe (geo : OutlierGeometry F P D) (r : Reconstruction F P) (t : TrackId) (p : P) :
    List ViewId → Accumulator D → Outcome (Option (Accumulator D))
  | [], a => .ok (some a)
  | v :: vs, a =>
    match r.view v with
    | none => .abort
    | some V =>
      if V.estimated then
        if geo.depth v p < 0 then .ok none
        else
          match V.getFeature t with
          | none => .ub
          | some f => observe geo r t p vs
              ⟨a.directions ++ [geo.direction v p], a.projections + 1, a.error + geo.sqError v f p⟩
      else observe geo r t p vs a

/-- The tests after the loop (set_outlier_tracks_to_unestimated.cc:111-127). Without projections the mean is not a number,
and the comparison is false. -/
def rejected (geo : OutlierGeometry F P D) (maxSqError : ℚ) : Option (Accumulator D) → Bool
  | none => true
  | some a =>
    (a.projections ≠ 0 && maxSqError < a.error / a.projections) || !sufficient geo a.directions

/-- The loop over the tracks (set_outlier_tracks_to_unestimated.cc:73-128): the number of tracks removed. A null track is
dereferenced. -/
def outlierLoop (geo : OutlierGeometry F P D) (maxSqError : ℚ) :
    List TrackId → Reconstruction F P → Nat → Outcome (Nat × Reconstruction F P)
  | [], r, n => .ok (n, r)
  | t :: ts, r, n =>
    match r.track t with
    | none => .ub
    | some T =>
      if T.estimated then
        match observe geo r t T.payload T.views ⟨[], 0, 0⟩ with
        | .abort => .abort
        | .ub => .ub
        | .ok a =>
          if rejected geo maxSqError a then
            match r.setTrackEstimated t false T.payload with
            | .abort => .abort
            | .ub => .ub
            | .ok r => outlierLoop geo maxSqError ts r (n + 1)
          else outlierLoop geo maxSqError ts r n
      else outlierLoop geo maxSqError ts r n

/-- `SetOutlierTracksToUnestimated` for given tracks (set_outlier_tracks_to_unestimated.cc:62-138). -/
def removeOutliers (geo : OutlierGeometry F P D) (maxError : ℚ) (ids : List TrackId) (r : Reconstruction F P) :
    Outcome (Nat × Reconstruction F P) :=
  outlierLoop geo (maxError * maxError) ids r 0

/-- `SetOutlierTracksToUnestimated` for all tracks (set_outlier_tracks_to_unestimated.cc:50-60). -/
def removeAllOutliers (geo : OutlierGeometry F P D) (maxError : ℚ) (r : Reconstruction F P) :
    Outcome (Nat × Reconstruction F P) :=
  removeOutliers geo maxError r.trackIds r

/-- The inner loop of `SetTracksInViewsToUnestimated` (reconstruction_estimator_utils.h:134-144). -/
def lowerTracks (keep : List TrackId) : List TrackId → Reconstruction F P → Outcome (Reconstruction F P)
  | [], r => .ok r
  | t :: ts, r =>
    match r.track t with
    | none => lowerTracks keep ts r
    | some T =>
      if t ∈ keep then lowerTracks keep ts r
      else
        match r.setTrackEstimated t false T.payload with
        | .abort => .abort
        | .ub => .ub
        | .ok r => lowerTracks keep ts r

/-- `SetTracksInViewsToUnestimated` (reconstruction_estimator_utils.h:120-146). -/
def lowerTracksInViews (keep : List TrackId) : List ViewId → Reconstruction F P → Outcome (Reconstruction F P)
  | [], r => .ok r
  | v :: vs, r =>
    match r.view v with
    | none => lowerTracksInViews keep vs r
    | some V =>
      if V.estimated then
        match lowerTracks keep V.trackIds r with
        | .abort => .abort
        | .ub => .ub
        | .ok r => lowerTracksInViews keep vs r
      else lowerTracksInViews keep vs r

/-- `NumEstimatedViews` (reconstruction_estimator_utils.cc:332-342). -/
def numEstimatedViews (r : Reconstruction F P) : Nat :=
  r.viewIds.foldl (fun n v => match r.view v with
    | some V => if V.estimated then n + 1 else n
    | none => n) 0

/-- `NumEstimatedTracks` (reconstruction_estimator_utils.cc:344-354). -/
def numEstimatedTracks (r : Reconstruction F P) : Nat :=
  r.trackIds.foldl (fun n t => match r.track t with
    | some T => if T.estimated then n + 1 else n
    | none => n) 0

/-- `GetEstimatedTracksFromReconstruction` (reconstruction_estimator_utils.cc:232-241). -/
def estimatedTracks (r : Reconstruction F P) : List TrackId :=
  r.trackIds.filter fun t => match r.track t with
    | some T => T.estimated
    | none => false

/-- `SetReconstructionFromEstimatedPoses` (reconstruction_estimator_utils.cc:159-188). -/
def setPoses (orientations : AMap ViewId O) :
    List (ViewId × X) → Localize.Scene F P M O X → Outcome (Localize.Scene F P M O X)
  | [], s => .ok s
  | (v, x) :: ps, s =>
    match s.recon.view v with
    | none => setPoses orientations ps s
    | some V =>
      if V.estimated then .abort
      else
        match orientations.get v with
        | none => setPoses orientations ps s
        | some o =>
          match s.recon.setViewEstimated v true with
          | .abort => .abort
          | .ub => .ub
          | .ok r => setPoses orientations ps { (s.setPosition v x).setOrientation v o with recon := r }

/-- `ComputeResolutionScaledThreshold` (reconstruction_estimator_utils.cc:95-107). -/
def scaledThreshold (threshold : ℚ) (width height : Int) : ℚ :=
  if width = 0 ∧ height = 0 then threshold else threshold * (max width height : Int) / 1024

/-- `GetNormalizedFeatureCorrespondences` (reconstruction_estimator_utils.cc:65-91); `normalize1`, `normalize2` are
`PixelToNormalizedCoordinates(...).hnormalized()` of the cameras. -/
def correspondences (V1 V2 : View F) (normalize1 normalize2 : F → N) : List TrackId → Outcome (List (N × N))
  | [] => .ok []
  | t :: ts =>
    match V2.getFeature t with
    | none => correspondences V1 V2 normalize1 normalize2 ts
    | some f2 =>
      match V1.getFeature t with
      | none => .ub
      | some f1 =>
        match correspondences V1 V2 normalize1 normalize2 ts with
        | .abort => .abort
        | .ub => .ub
        | .ok l => .ok ((normalize1 f1, normalize2 f2) :: l)

/-- What a task of `RefineRelativeTranslationsWithKnownRotations` holds: the edge, the correspondences and the
orientations (reconstruction_estimator_utils.cc:263-267). -/
structure Task (O N : Type) where
  pair : Nat × Nat
  matches_ : List (N × N)
  orientation1 : O
  orientation2 : O

/-- The loop that adds the tasks (reconstruction_estimator_utils.cc:254-268). A null view is dereferenced; `FindOrDie`
ends the program. -/
def refineTasks (r : Reconstruction F P) (normalize : ViewId → F → N) (orientations : AMap ViewId O) :
    List ((Nat × Nat) × I) → Outcome (List (Task O N))
  | [] => .ok []
  | (e, _) :: es =>
    match r.view e.1, r.view e.2 with
    | some V1, some V2 =>
      match correspondences V1 V2 (normalize e.1) (normalize e.2) V1.trackIds with
      | .abort => .abort
      | .ub => .ub
      | .ok ms =>
        match orientations.get e.1, orientations.get e.2 with
        | some o1, some o2 =>
          match refineTasks r normalize orientations es with
          | .abort => .abort
          | .ub => .ub
          | .ok ts => .ok (⟨e, ms, o1, o2⟩ :: ts)
        | _, _ => .abort
    | _, _ => .ub

/-- The tasks, in the order in which the threads run them; each writes the position of its own edge
(`OptimizeRelativePositionWithKnownRotation` is the parameter `optimize`). -/
def runTasks (optimize : List (N × N) → O → O → I → I) : List (Task O N) → ViewGraph I → ViewGraph I
  | [], g => g
  | k :: ks, g =>
    match g.getEdge k.pair.1 k.pair.2 with
    | none => runTasks optimize ks g
    | some i => runTasks optimize ks
        (g.setEdge k.pair.1 k.pair.2 (optimize k.matches_ k.orientation1 k.orientation2 i))

/-- `RefineRelativeTranslationsWithKnownRotations` (reconstruction_estimator_utils.cc:243-269); `schedule` is the order in
which the tasks run. -/
def refine (schedule : List (Task O N) → List (Task O N)) (optimize : List (N × N) → O → O → I → I)
    (r : Reconstruction F P) (normalize : ViewId → F → N) (orientations : AMap ViewId O) (numThreads : Int)
    (g : ViewGraph I) : Outcome (ViewGraph I) :=
  if numThreads < 1 then .abort
  else
    match refineTasks r normalize orientations g.allEdges with
    | .abort => .abort
    | .ub => .ub
    | .ok ts => .ok (runTasks optimize (schedule ts) g)

end EstimatorUtils
end Theia
