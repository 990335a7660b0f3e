import Verif.Model.Reconstruction

/-!
# What a user expects of a reconstruction (C01-C08)

Stated with the query functions only: `view`, `track`, `viewIdFromName`, `groupOf`,
`viewsInGroup`, `groupIds` and the observable parts of views and tracks.
-/

namespace Theia
namespace Spec

variable {F P : Type}

/-- View `v` reports a feature for track `t`. -/
def Observes (r : Reconstruction F P) (v : ViewId) (t : TrackId) : Prop :=
  ∃ V f, r.view v = some V ∧ V.getFeature t = some f

/-- Track `t` exists and lists view `v`. -/
def ListedIn (r : Reconstruction F P) (v : ViewId) (t : TrackId) : Prop :=
  ∃ T, r.track t = some T ∧ v ∈ T.views

/-- The view ids handed out by successful `AddView` calls, in call order. -/
def issuedViewIds : List Reconstruction.Ret → List Nat
  | [] => []
  | .viewId (some v) :: as => v :: issuedViewIds as
  | _ :: as => issuedViewIds as

/-- The track ids handed out by successful `AddTrack` calls, in call order. -/
def issuedTrackIds : List Reconstruction.Ret → List Nat
  | [] => []
  | .trackId (some t) :: as => t :: issuedTrackIds as
  | _ :: as => issuedTrackIds as

/-- The call names an intrinsics group explicitly. -/
def usesExplicitGroup : Reconstruction.Op F P → Bool
  | .addViewToGroup _ _ => true
  | _ => false

/-- The call asks for an automatically numbered intrinsics group. -/
def usesAutoGroup : Reconstruction.Op F P → Bool
  | .addView _ => true
  | _ => false

end Spec
end Theia
