import Verif.Model.Reconstruction

/-!
# Specification of the estimated part of a reconstruction
-/

namespace Theia
namespace Spec

variable {F P : Type}

/-- A view is in the reconstruction and estimated. -/
def ViewEstimated (r : Reconstruction F P) (v : ViewId) : Prop := ∃ V, r.view v = some V ∧ V.estimated = true

/-- A track is in the reconstruction, estimated, and seen by two or more estimated views. -/
def TrackKept (r : Reconstruction F P) (t : TrackId) : Prop :=
  ∃ T, r.track t = some T ∧ T.estimated = true ∧
    ∃ v w, v ≠ w ∧ v ∈ T.views ∧ w ∈ T.views ∧ ViewEstimated r v ∧ ViewEstimated r w

/-- `r'` is the estimated part of `r`: it has the estimated views, with their features in the tracks kept, and the tracks kept,
with their estimated views. -/
structure IsEstimatedPart (r r' : Reconstruction F P) : Prop where
  views : ∀ v V', r'.view v = some V' → ∃ V, r.view v = some V ∧ V.estimated = true
  view : ∀ v V, r.view v = some V → V.estimated = true → ∃ V', r'.view v = some V' ∧ V'.name = V.name ∧
    V'.estimated = true ∧ V'.intrinsics = V.intrinsics ∧
    ∀ t f, V'.getFeature t = some f ↔ V.getFeature t = some f ∧ TrackKept r t
  tracks : ∀ t T', r'.track t = some T' → TrackKept r t
  track : ∀ t T, r.track t = some T → TrackKept r t → ∃ T', r'.track t = some T' ∧ T'.estimated = true ∧
    T'.payload = T.payload ∧ T'.views.Nodup ∧ ∀ v, v ∈ T'.views ↔ v ∈ T.views ∧ ViewEstimated r v
  names : ∀ n v, r'.viewIdFromName n = some v ↔ r.viewIdFromName n = some v ∧ ViewEstimated r v
  groups : ∀ v g, r'.groupOf v = some g ↔ r.groupOf v = some g ∧ ViewEstimated r v

end Spec
end Theia
