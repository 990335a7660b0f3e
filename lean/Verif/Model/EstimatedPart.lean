import Verif.Model.Reconstruction

/-!
# Model of `CreateEstimatedSubreconstruction` (src/theia/sfm/reconstruction_estimator_utils.cc:190-217)

The orders in which the unordered maps list views and tracks are parameters.
-/

namespace Theia
namespace EstimatedPart

variable {F P : Type}

/-- The loop over the views (reconstruction_estimator_utils.cc:195-204), with the `CHECK` of line 202. -/
def viewsLoop : List ViewId → Reconstruction F P → Outcome (Reconstruction F P)
  | [], r => .ok r
  | v :: vs, r =>
    match r.view v with
    | none => viewsLoop vs r
    | some V =>
      if V.estimated then viewsLoop vs r
      else
        match r.removeView v with
        | .ok (true, r') => viewsLoop vs r'
        | .ok (false, _) => .abort
        | .abort => .abort
        | .ub => .ub

/-- The loop over the tracks (reconstruction_estimator_utils.cc:206-216). -/
def tracksLoop : List TrackId → Reconstruction F P → Outcome (Reconstruction F P)
  | [], r => .ok r
  | t :: ts, r =>
    match r.track t with
    | none => tracksLoop ts r
    | some T =>
      if T.estimated = false ∨ T.views.length < 2 then
        match r.removeTrack t with
        | (true, r') => tracksLoop ts r'
        | (false, _) => .abort
      else tracksLoop ts r

/-- `CreateEstimatedSubreconstruction`. The copy assigned on line 193 replaces whatever the destination held. -/
def create (orderV : List ViewId → List ViewId) (orderT : List TrackId → List TrackId) (r : Reconstruction F P) :
    Outcome (Reconstruction F P) :=
  match viewsLoop (orderV r.viewIds) r with
  | .ok r1 => tracksLoop (orderT r1.trackIds) r1
  | .abort => .abort
  | .ub => .ub

/-- `GetEstimatedViewsFromReconstruction` (reconstruction_estimator_utils.cc:220-229). -/
def estimatedViews (r : Reconstruction F P) : List ViewId :=
  r.viewIds.filter fun v => match r.view v with
    | some V => V.estimated
    | none => false

/-- `GetEstimatedTracksFromReconstruction` (reconstruction_estimator_utils.cc:232-242). -/
def estimatedTracks (r : Reconstruction F P) : List TrackId :=
  r.trackIds.filter fun t => match r.track t with
    | some T => T.estimated
    | none => false

/-- The counting loops of `NumEstimatedViews` and `NumEstimatedTracks` (reconstruction_estimator_utils.cc:332-354), where a null
pointer is skipped. -/
def countLoop {α : Type} (look : Nat → Option α) (est : α → Bool) : List Nat → Nat → Nat
  | [], n => n
  | x :: xs, n =>
    match look x with
    | none => countLoop look est xs n
    | some a => countLoop look est xs (if est a then n + 1 else n)

/-- `NumEstimatedViews` (reconstruction_estimator_utils.cc:332-342). -/
def numEstimatedViews (r : Reconstruction F P) : Nat := countLoop r.view (·.estimated) r.viewIds 0

/-- `NumEstimatedTracks` (reconstruction_estimator_utils.cc:344-354). -/
def numEstimatedTracks (r : Reconstruction F P) : Nat := countLoop r.track (·.estimated) r.trackIds 0

end EstimatedPart
end Theia
