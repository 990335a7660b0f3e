import Mathlib.Algebra.Field.Rat
import Mathlib.Algebra.BigOperators.Group.List.Basic
import Verif.Model.Reconstruction
import Verif.Spec.Reconstruction

/-!
# Estimated tracks of a view
-/

namespace Theia.Spec

variable {F P : Type}

/-- The track exists and is estimated. -/
def isEstimatedTrack (r : Reconstruction F P) (t : TrackId) : Bool :=
  match r.track t with
  | some T => T.estimated
  | none => false

/-- The estimated tracks a view observes. -/
def estimatedTracksIn (r : Reconstruction F P) (V : View F) : List TrackId :=
  V.trackIds.filter (isEstimatedTrack r)

/-- How many of them are in a selection. -/
def selectedTracksIn (r : Reconstruction F P) (V : View F) (sel : List TrackId) : Nat :=
  ((estimatedTracksIn r V).filter fun t => decide (t ∈ sel)).length

/-- The estimated views that observe a track. -/
def estimatedObservers (r : Reconstruction F P) (T : Track P) : List ViewId :=
  T.views.filter fun v => match r.view v with
    | some V => V.estimated
    | none => false

/-- Length of a track, capped at `cap`. -/
def cappedLength (r : Reconstruction F P) (cap : Nat) (t : TrackId) : Nat :=
  match r.track t with
  | some T => min (estimatedObservers r T).length cap
  | none => 0

/-- Mean error of a track over the estimated views that observe it. -/
def meanError (r : Reconstruction F P) (err : ViewId → TrackId → ℚ) (t : TrackId) : ℚ :=
  match r.track t with
  | some T => ((estimatedObservers r T).map fun v => err v t).sum / (estimatedObservers r T).length
  | none => 0

/-- `t'` is at most as long as `t`, and has no larger error if it is equally long. -/
def ShorterOrBetter (r : Reconstruction F P) (err : ViewId → TrackId → ℚ) (cap : Nat)
    (t' t : TrackId) : Prop :=
  cappedLength r cap t' < cappedLength r cap t ∨
    (cappedLength r cap t' = cappedLength r cap t ∧ meanError r err t' ≤ meanError r err t)

end Theia.Spec
