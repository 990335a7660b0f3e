import Verif.Props.Hybrid
import Verif.Props.IncrementalRuns

/-!
# C81: runs of hybrid reconstruction
-/

namespace Theia

open Spec Hybrid
open Incremental (TwoView State Summary)

namespace HybridRuns

open IncrementalRuns (options options_valid seenBy recon recon_reachable nothingEstimated nothingEstimated_spec)

/-- Numerical parts that always succeed, with three exceptions: a position is found only for the orientations `good`, poses
found without orientation have orientation 99 and no inliers, and two views are at position `baseline` of each other. -/
def numerics (good : Nat → Bool) (baseline : Nat → Nat → Nat) (qs : List (Nat × Nat)) :
    Hybrid.Numerics Unit Unit Unit Nat Nat Unit Unit Unit Unit Unit where
  common :=
    { order := fun _ l => l
      schedule := fun _ l => l
      calibrate := fun _ => .ok fun _ => ()
      localization := fun _ => ⟨fun _ => true, fun _ _ => (), fun _ _ => (), fun _ => (),
        fun q ms => ⟨if good q then some 7 else none, List.range ms.length⟩,
        fun _ => ⟨some (99, 8), []⟩, fun _ => ⟨none, []⟩, fun _ _ => .ok (), fun s v => (true, s.orientation v, s.position v, ())⟩
      geometry := fun _ _ => ⟨fun _ => true, fun _ _ => (true, ()), fun _ _ => (true, ()), fun _ _ => true⟩
      outliers := fun _ => ⟨fun _ _ => 1, fun _ _ _ => 0, fun _ _ => (), fun _ _ => true⟩
      error := fun _ _ _ => 0
      cell := fun _ => ()
      score := fun _ fs => fs.length
      adjust := fun _ s _ _ => ⟨true, s.heap, fun _ => 1000, s.position, fun _ => ()⟩ }
  rotations _ := .ok (true, ⟨qs⟩)
  angle p _ q _ := some ((q - p : Nat) : ℚ)
  relativePosition _ p _ q _ ms := ⟨some (baseline p q), List.range ms.length⟩
  toWorld _ x := x

theorem numerics_wellBehaved (good : Nat → Bool) (baseline : Nat → Nat → Nat) (qs : List (Nat × Nat)) :
    HybridWellBehaved (numerics good baseline qs) :=
  ⟨⟨fun _ _ => .refl _, fun _ _ => .refl _, fun _ => ⟨_, rfl⟩, fun _ _ _ => ⟨_, rfl⟩, fun _ _ _ => rfl⟩,
    fun _ _ _ _ => ⟨_, rfl, Nat.cast_nonneg _⟩⟩

def hybridOptions (n : Int) : Hybrid.Options := ⟨options, n⟩

def scene (r : Reconstruction Unit Unit) : Localize.Scene Unit Unit Unit Nat Nat := ⟨r, fun _ => (), fun _ => 0, fun _ => 0⟩

/-- An edge between two views with the number of matches. -/
def edge (a b : Nat) (n : Int) : ViewGraph.Op (TwoView Nat Nat Unit) := .addEdge a b ⟨n, 0, (), (), 0, 20⟩

/-- What is shown of a run. -/
def show' : Outcome (Option (Summary × State Unit Unit Unit Nat Nat)) →
    Option (Bool × List ViewId × Nat × List ViewId × List ViewId × List Nat × List Nat)
  | .ok (some (m, s)) => some (m.success, m.views, m.tracks.length, s.unlocalized, s.reconstructed,
      (s.unlocalized ++ s.reconstructed).map s.scene.orientation, (s.unlocalized ++ s.reconstructed).map s.scene.position)
  | _ => none

def sharesTracks (ops : List (ViewGraph.Op (TwoView Nat Nat Unit))) (r : Reconstruction Unit Unit) : Bool :=
  (ViewGraph.run ops).allEdges.all fun e =>
    match r.view e.1.1, r.view e.1.2 with
    | some A, some B => A.trackIds.any fun t => B.trackIds.contains t
    | _, _ => false

theorem sharesTracks_spec {ops : List (ViewGraph.Op (TwoView Nat Nat Unit))} {r : Reconstruction Unit Unit}
    (h : sharesTracks ops r = true) : ShareTracks (ViewGraph.run ops) r := by
  intro a b info hab he _
  unfold ViewGraph.getEdge at he
  rw [ordPair_of_lt hab] at he
  unfold sharesTracks at h
  have := List.all_eq_true.1 h _ (AMap.mem_entries_of_get he)
  simp only at this
  split at this
  · next A B hA hB =>
    obtain ⟨t, h1, h2⟩ := List.any_eq_true.1 this
    exact ⟨A, B, t, hA, hB, h1, by simpa using h2⟩
  · cases this

theorem graphViews_spec {ops : List (ViewGraph.Op (TwoView Nat Nat Unit))} {r : Reconstruction Unit Unit}
    (h : ((ViewGraph.run ops).viewIds.all fun v => (r.view v).isSome) = true) : GraphViews (ViewGraph.run ops) r :=
  fun v hv => Option.isSome_iff_exists.1 (List.all_eq_true.1 h v hv)

/-! ### A successful run -/

def threeViews : Reconstruction Unit Unit :=
  recon ([.addView "a", .addView "b", .addView "c"] ++ seenBy 101 [0, 1, 2])

def threeGraph : List (ViewGraph.Op (TwoView Nat Nat Unit)) := [edge 0 1 200, edge 1 2 200]

/-- The hypotheses of the theorems of C81 hold for a scene of three views, which is reconstructed: views 1 and 2, between
which the angle is larger, are the initial pair, view 0 is localized with the known orientation 10. -/
example : HybridWellBehaved (numerics (fun _ => true) (fun _ _ => 5) [(0, 10), (1, 11), (2, 22)]) ∧
    ValidOptions (hybridOptions 30).common ∧ threeViews.Reachable ∧ NothingEstimated threeViews ∧
    GraphViews (ViewGraph.run threeGraph) threeViews ∧ ShareTracks (ViewGraph.run threeGraph) threeViews ∧
    (⟨[(0, 10), (1, 11), (2, 22)]⟩ : AMap ViewId Nat).WF ∧
    show' (Hybrid.estimate (numerics (fun _ => true) (fun _ _ => 5) [(0, 10), (1, 11), (2, 22)]) (hybridOptions 30)
      (ViewGraph.run threeGraph) 2 (scene threeViews)) =
      some (true, [0, 1, 2], 101, [], [1, 2, 0], [11, 22, 10], [0, 5, 7]) :=
  ⟨numerics_wellBehaved _ _ _, options_valid, recon_reachable _, nothingEstimated_spec (by decide +kernel),
    graphViews_spec (by decide +kernel), sharesTracks_spec (by decide +kernel), (by unfold AMap.WF; decide), by kernel_rfl⟩

/-- The hypothesis of `C81_cameras` holds if no position is found from the known orientations: the second camera is put
where the two view geometry puts it. -/
example : (match Hybrid.setupPair (numerics (fun _ => true) (fun _ _ => 5) [(0, 10), (1, 11)]) (hybridOptions 1000)
      ⟨[(0, 10), (1, 11)]⟩ (ViewGraph.run threeGraph) (0, 1) ⟨scene threeViews, [0, 1, 2], [], 0, 1⟩ with
    | .ok (b, s) => some (b, s.scene.position 0, s.scene.position 1)
    | _ => none) = some (true, 0, 20) := by kernel_rfl

/-! ### Findings -/

def twoViews : Reconstruction Unit Unit := recon [.addView "a", .addView "b"]

/-- C81: two views with many matches and no common track end the program. Tracks that are too long, or of which two features
are in one image, are dropped when tracks are built, so matches need not be left. -/
theorem C81_no_common_track_counterexample :
    twoViews.Reachable ∧ NothingEstimated twoViews ∧ GraphViews (ViewGraph.run [edge 0 1 200]) twoViews ∧
    Hybrid.estimate (numerics (fun _ => true) (fun _ _ => 5) [(0, 10), (1, 11)]) (hybridOptions 30)
      (ViewGraph.run [edge 0 1 200]) 2 (scene twoViews) = .abort :=
  ⟨recon_reachable _, nothingEstimated_spec (by decide +kernel), graphViews_spec (by decide +kernel), by kernel_rfl⟩

/-- One track is seen by views 0 and 1, 101 by views 1 and 2. -/
def secondPair : Reconstruction Unit Unit :=
  recon ([.addView "a", .addView "b", .addView "c"] ++ seenBy 1 [0, 1] ++ seenBy 101 [1, 2])

/-- C81: the position of the first camera is not reset when a pair of views is rejected. Here the pair (0, 1) is tried first,
which puts view 1 at 5, and rejected. Then the pair (1, 2) with relative position 6 is accepted: view 1 stays at 5, and view
2 is put at 6, so that the relative position is 1 rather than 6. -/
theorem C81_position_counterexample :
    NothingEstimated secondPair ∧ GraphViews (ViewGraph.run threeGraph) secondPair ∧
    ShareTracks (ViewGraph.run threeGraph) secondPair ∧
    show' (Hybrid.estimate (numerics (fun _ => true) (fun p _ => if p = 10 then 5 else 6) [(0, 10), (1, 21), (2, 22)])
      (hybridOptions 0) (ViewGraph.run threeGraph) 2 (scene secondPair)) =
      some (true, [1, 2], 101, [0], [1, 2], [10, 21, 22], [0, 5, 6]) :=
  ⟨nothingEstimated_spec (by decide +kernel), graphViews_spec (by decide +kernel), sharesTracks_spec (by decide +kernel),
    by kernel_rfl⟩

/-- Three views see 101 tracks; view 2 is estimated. -/
def initialized : Reconstruction Unit Unit :=
  recon ([.addView "a", .addView "b", .addView "c"] ++ seenBy 101 [0, 1, 2] ++ [.setViewEstimated 2 true])

/-- C81: a view that is estimated in the input is lost. It is set to unestimated when the initial pair is chosen, but was not
queued: it is in neither container at the end, and not estimated, although it sees all tracks and can be localized. -/
theorem C81_initialized_counterexample :
    initialized.Reachable ∧ SelectTracks.estimatedViews initialized = [2] ∧
    show' (Hybrid.estimate (numerics (fun _ => true) (fun _ _ => 5) [(0, 10), (1, 21), (2, 22)]) (hybridOptions 30)
      (ViewGraph.run threeGraph) 2 (scene initialized)) =
      some (true, [0, 1], 101, [], [0, 1], [10, 21], [0, 5]) :=
  ⟨recon_reachable _, by kernel_rfl, by kernel_rfl⟩

def fourViews : Reconstruction Unit Unit :=
  recon ([.addView "a", .addView "b", .addView "c", .addView "d"] ++ seenBy 101 [0, 1, 2, 3])

def fourGraph : List (ViewGraph.Op (TwoView Nat Nat Unit)) := [edge 0 1 200, edge 1 2 50, edge 1 3 50]

/-- C81: a failed localization overwrites the orientation of the view, and the next attempt takes the wrong one as known.
Here no position is found for view 2 with its known orientation 22, and a pose without known orientation has no inliers. In
the next pass its orientation is 99, that of this pose, and it is localized with this orientation as the known one. -/
theorem C81_known_orientation_counterexample :
    NothingEstimated fourViews ∧ GraphViews (ViewGraph.run fourGraph) fourViews ∧
    ShareTracks (ViewGraph.run fourGraph) fourViews ∧
    show' (Hybrid.estimate (numerics (fun q => decide (q ≠ 22)) (fun _ _ => 5) [(0, 10), (1, 21), (2, 22), (3, 23)])
      (hybridOptions 30) (ViewGraph.run fourGraph) 3 (scene fourViews)) =
      some (true, [0, 1, 2, 3], 101, [], [0, 1, 3, 2], [10, 21, 23, 99], [0, 5, 7, 7]) :=
  ⟨nothingEstimated_spec (by decide +kernel), graphViews_spec (by decide +kernel), sharesTracks_spec (by decide +kernel),
    by kernel_rfl⟩

end HybridRuns

end Theia
