import Verif.Spec.SelectTracks
import Verif.Model.BundleAdjuster

/-!
# What a bundle adjustment problem should contain
-/

namespace Theia.Spec

variable {F P : Type}

/-- The residual belongs to an observation of an estimated track by an estimated view: it has the
feature, and the intrinsics object of the view's camera. -/
def IsObservation (r : Reconstruction F P) (e : BA.Residual F) : Prop :=
  ∃ V T, r.view e.view = some V ∧ V.estimated = true ∧ V.getFeature e.track = some e.feature ∧
    V.intrinsics = e.ptr ∧ r.track e.track = some T ∧ T.estimated = true

/-- Some estimated view among `vs` has its intrinsics at this address. -/
def IntrinsicsOptimized (r : Reconstruction F P) (vs : List ViewId) (ptr : Nat) : Prop :=
  ∃ v ∈ vs, ∃ V, r.view v = some V ∧ V.estimated = true ∧ V.intrinsics = ptr

end Theia.Spec
