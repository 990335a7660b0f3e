import Verif.Model.Reconstruction

/-!
# Model of the underconstrained clean-up of the incremental pipeline

`SetUnderconstrainedTracksToUnestimated` and `SetUnderconstrainedViewsToUnestimated`
(`/repo/src/theia/sfm/reconstruction_estimator_utils.cc:271-330`) and
`IncrementalReconstructionEstimator::SetUnderconstrainedAsUnestimated`
(`/repo/src/theia/sfm/incremental_reconstruction_estimator.cc:610-638`).
-/

namespace Theia
namespace Cleanup

variable {F P : Type}

/-- Counting the estimated views of a track, stopping at two
(reconstruction_estimator_utils.cc:281-290). A null view is dereferenced. -/
def countViews (r : Reconstruction F P) : List ViewId → Nat → Outcome Nat
  | [], n => .ok n
  | v :: vs, n =>
    match r.view v with
    | none => .ub
    | some V =>
      if 2 ≤ (if V.estimated then n + 1 else n) then .ok (if V.estimated then n + 1 else n)
      else countViews r vs (if V.estimated then n + 1 else n)

/-- `SetUnderconstrainedTracksToUnestimated` (reconstruction_estimator_utils.cc:271-299) over the given
track ids; the result is the number of tracks set to unestimated. -/
def tracksLoop : List TrackId → Reconstruction F P → Nat → Outcome (Nat × Reconstruction F P)
  | [], r, c => .ok (c, r)
  | t :: ts, r, c =>
    match r.track t with
    | none => .abort
    | some T =>
      if T.estimated then
        match countViews r T.views 0 with
        | .abort => .abort
        | .ub => .ub
        | .ok n =>
          if n < 2 then
            match r.setTrackEstimated t false T.payload with
            | .abort => .abort
            | .ub => .ub
            | .ok r => tracksLoop ts r (c + 1)
          else tracksLoop ts r c
      else tracksLoop ts r c

/-- `SetUnderconstrainedTracksToUnestimated`; `TrackIds()` is a copy. -/
def tracksPass (r : Reconstruction F P) : Outcome (Nat × Reconstruction F P) := tracksLoop r.trackIds r 0

/-- Counting the estimated tracks of a view, stopping at three
(reconstruction_estimator_utils.cc:312-321). -/
def countTracks (r : Reconstruction F P) : List TrackId → Nat → Outcome Nat
  | [], n => .ok n
  | t :: ts, n =>
    match r.track t with
    | none => .ub
    | some T =>
      if 3 ≤ (if T.estimated then n + 1 else n) then .ok (if T.estimated then n + 1 else n)
      else countTracks r ts (if T.estimated then n + 1 else n)

/-- `SetUnderconstrainedViewsToUnestimated` (reconstruction_estimator_utils.cc:301-330). -/
def viewsLoop : List ViewId → Reconstruction F P → Nat → Outcome (Nat × Reconstruction F P)
  | [], r, c => .ok (c, r)
  | v :: vs, r, c =>
    match r.view v with
    | none => .abort
    | some V =>
      if V.estimated then
        match countTracks r V.trackIds 0 with
        | .abort => .abort
        | .ub => .ub
        | .ok n =>
          if n < 3 then
            match r.setViewEstimated v false with
            | .abort => .abort
            | .ub => .ub
            | .ok r => viewsLoop vs r (c + 1)
          else viewsLoop vs r c
      else viewsLoop vs r c

/-- `SetUnderconstrainedViewsToUnestimated`. -/
def viewsPass (r : Reconstruction F P) : Outcome (Nat × Reconstruction F P) := viewsLoop r.viewIds r 0

/-- The `while` loop (incremental_reconstruction_estimator.cc:611-618): the counts of the last round and
the reconstruction. The first argument bounds the number of rounds; a run that does not finish within
it is `ub`, and the theorems show that it is never reached with the bound used below. -/
def loop : Nat → Reconstruction F P → Outcome (Nat × Nat × Reconstruction F P)
  | 0, _ => .ub
  | k + 1, r =>
    match viewsPass r with
    | .abort => .abort
    | .ub => .ub
    | .ok (nv, r1) =>
      match tracksPass r1 with
      | .abort => .abort
      | .ub => .ub
      | .ok (nt, r2) => if nv ≠ 0 ∧ nt ≠ 0 then loop k r2 else .ok (nv, nt, r2)

/-- The members of the estimator the clean-up reads and writes: the reconstruction, the view graph's
views, `unlocalized_views_`, `reconstructed_views_` and `num_optimized_views_`. -/
structure State (F P : Type) where
  recon : Reconstruction F P
  graphViews : List ViewId
  unlocalized : List ViewId
  reconstructed : List ViewId
  numOptimized : Int

/-- Queueing the views again (lines 622-637). `erase` of the end iterator is `ub`. -/
def requeue : List ViewId → State F P → Outcome (State F P)
  | [], s => .ok s
  | v :: vs, s =>
    match s.recon.view v with
    | none => requeue vs s
    | some V =>
      if V.estimated = false ∧ v ∉ s.unlocalized then
        if v ∈ s.reconstructed then
          requeue vs { s with
            unlocalized := v :: s.unlocalized
            reconstructed := s.reconstructed.erase v
            numOptimized := s.numOptimized - 1 }
        else .ub
      else requeue vs s

/-- `SetUnderconstrainedAsUnestimated` (lines 610-638). -/
def cleanup (s : State F P) : Outcome (State F P) :=
  match loop (s.recon.viewIds.length + 1) s.recon with
  | .abort => .abort
  | .ub => .ub
  | .ok (nv, _, r) =>
    if 0 < nv then requeue s.graphViews { s with recon := r } else .ok { s with recon := r }

end Cleanup
end Theia
