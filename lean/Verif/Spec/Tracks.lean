import Verif.Spec.Graph
import Verif.Model.Reconstruction

/-!
# What adding a list of tracks to a reconstruction means
-/

namespace Theia.Spec

variable {F P : Type}

/-- `r'` is `r` plus the new tracks `added` (each with its observations): the new ids were unused,
each new track lists the views of its observations and is not estimated, every view reports exactly
the new observations in addition to its old ones, and nothing else changed. -/
structure TracksAdded (r : Reconstruction F P) (p : P) (added : List (TrackId × List (ViewId × F)))
    (r' : Reconstruction F P) : Prop where
  distinct : (added.map (·.1)).Nodup
  fresh : ∀ a ∈ added, r.track a.1 = none
  new : ∀ a ∈ added, r'.track a.1 = some ⟨false, p, a.2.map (·.1)⟩
  old : ∀ t, t ∉ added.map (·.1) → r'.track t = r.track t
  viewIds : r'.viewIds = r.viewIds
  views : ∀ v V, r.view v = some V → ∃ V', r'.view v = some V' ∧ V'.name = V.name ∧
    V'.estimated = V.estimated ∧ V'.intrinsics = V.intrinsics ∧
    (∀ t f, V'.getFeature t = some f ↔
      V.getFeature t = some f ∨ ∃ a ∈ added, a.1 = t ∧ (v, f) ∈ a.2)
  names : ∀ n, r'.viewIdFromName n = r.viewIdFromName n
  groups : (∀ v, r'.groupOf v = r.groupOf v) ∧ ∀ g, r'.viewsInGroup g = r.viewsInGroup g

end Theia.Spec
