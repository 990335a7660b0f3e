import Verif.Model.EstimateTrack

/-!
# When a track should end up estimated
-/

namespace Theia.Spec

open TrackEstimator

variable {F P : Type}

/-- The observations of a track by estimated views. -/
def usedObservations (r : Reconstruction F P) (t : TrackId) (views : List ViewId) :
    List (ViewId × F) :=
  views.filterMap (fun v => (r.view v).bind (fun view =>
    if view.estimated then (view.getFeature t).map (fun f => (v, f)) else none))

/-- The point after triangulation and, if asked for, bundle adjustment. -/
def finalPoint (geo : Geometry F P) (o : Options) (obs : List (ViewId × F)) (p : P) : P :=
  if o.bundleAdjustment then (geo.bundle obs (geo.triangulate obs p).2).2
  else (geo.triangulate obs p).2

/-- A track can be estimated from these observations: there are at least two, with a sufficient
angle, triangulation and (if asked for) adjustment succeed and the reprojection is acceptable. -/
def Estimable (geo : Geometry F P) (o : Options) (obs : List (ViewId × F)) (p : P) : Prop :=
  2 ≤ obs.length ∧ geo.angleOk obs = true ∧ (geo.triangulate obs p).1 = true ∧
  (o.bundleAdjustment = true → (geo.bundle obs (geo.triangulate obs p).2).1 = true) ∧
  geo.acceptable obs (finalPoint geo o obs p) = true

end Theia.Spec
