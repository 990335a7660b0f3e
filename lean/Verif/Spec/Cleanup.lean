import Verif.Spec.SelectTracks

/-!
# Well-constrained reconstructions
-/

namespace Theia.Spec

variable {F P : Type}

/-- Every estimated view observes at least three estimated tracks. -/
def ViewsConstrained (r : Reconstruction F P) : Prop :=
  ∀ v V, r.view v = some V → V.estimated = true → 3 ≤ (estimatedTracksIn r V).length

/-- Every estimated track is observed by at least two estimated views. -/
def TracksConstrained (r : Reconstruction F P) : Prop :=
  ∀ t T, r.track t = some T → T.estimated = true → 2 ≤ (estimatedObservers r T).length

/-- `r'` is `r` with some views and tracks set to unestimated, and nothing else changed. -/
def Lowered (r r' : Reconstruction F P) : Prop :=
  (∀ v V, r.view v = some V → ∃ b, r'.view v = some { V with estimated := b } ∧
    (b = true → V.estimated = true)) ∧
  (∀ v, r.view v = none → r'.view v = none) ∧
  (∀ t T, r.track t = some T → ∃ b, r'.track t = some { T with estimated := b } ∧
    (b = true → T.estimated = true)) ∧
  (∀ t, r.track t = none → r'.track t = none)

/-- The views `S` and tracks `U` are estimated, every view of `S` sees at least three tracks of `U`, and
every track of `U` is seen by at least two views of `S`. -/
def Core (r : Reconstruction F P) (S : List ViewId) (U : List TrackId) : Prop :=
  (∀ v ∈ S, ∃ V, r.view v = some V ∧ V.estimated = true ∧
    3 ≤ (V.trackIds.filter fun t => decide (t ∈ U)).length) ∧
  (∀ t ∈ U, ∃ T, r.track t = some T ∧ T.estimated = true ∧
    2 ≤ (T.views.filter fun v => decide (v ∈ S)).length)

end Theia.Spec
