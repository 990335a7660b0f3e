import Verif.Model.EstimatorUtils
import Verif.Spec.Cleanup

/-!
# Outliers, and changes of estimates only
-/

namespace Theia.Spec

open EstimatorUtils

variable {F P D : Type}

/-- The squared reprojection error of a track in a view. -/
def squaredError (geo : OutlierGeometry F P D) (r : Reconstruction F P) (t : TrackId) (p : P) (v : ViewId) : ℚ :=
  match r.view v with
  | some V =>
    match V.getFeature t with
    | some f => geo.sqError v f p
    | none => 0
  | none => 0

/-- A track is an outlier if its point is behind an estimated camera that observes it, if the mean of the squared errors
over these cameras exceeds the squared bound, or if no two of them see it under a sufficient angle. -/
def IsOutlier (geo : OutlierGeometry F P D) (maxError : ℚ) (r : Reconstruction F P) (t : TrackId) (T : Track P) : Prop :=
  (∃ v ∈ estimatedObservers r T, geo.depth v T.payload < 0) ∨
  (estimatedObservers r T).length * maxError ^ 2 < ((estimatedObservers r T).map (squaredError geo r t T.payload)).sum ∨
  ¬ ∃ v ∈ estimatedObservers r T, ∃ w ∈ estimatedObservers r T, v ≠ w ∧
    geo.wide (geo.direction v T.payload) (geo.direction w T.payload) = true

/-- `r'` has the same views, names, groups, tracks and observations as `r`: only the estimates differ, that is the flags
and the points. -/
structure SameStructure (r r' : Reconstruction F P) : Prop where
  names : ∀ n, r'.viewIdFromName n = r.viewIdFromName n
  groupOf : ∀ v, r'.groupOf v = r.groupOf v
  viewsInGroup : ∀ g, r'.viewsInGroup g = r.viewsInGroup g
  viewIds : r'.viewIds = r.viewIds
  trackIds : r'.trackIds = r.trackIds
  views : ∀ v V, r.view v = some V → ∃ b, r'.view v = some { V with estimated := b }
  tracks : ∀ t T, r.track t = some T → ∃ b p, r'.track t = some { T with estimated := b, payload := p }

/-- The tracks that two views have in common, in the order of the first. -/
def commonTracks (V1 V2 : View F) : List TrackId := V1.trackIds.filter fun t => (V2.getFeature t).isSome

end Theia.Spec
