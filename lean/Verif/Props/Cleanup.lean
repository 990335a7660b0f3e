import Verif.Proof.Cleanup

/-!
# C28: underconstrained clean-up
-/

namespace Theia

open Spec

variable {F P : Type}

/-- C28, the part that holds: for every reconstruction the clean-up loop ends, only sets views and tracks
to unestimated, and leaves every estimated track with two estimated views. If the last round set no
track to unestimated, every estimated view has three estimated tracks as well; that this can fail
otherwise is `C28_views_counterexample`. -/
theorem C28_constrained_partial (r : Reconstruction F P) (hr : r.Reachable) :
    ∃ nv nt r', Cleanup.loop (r.viewIds.length + 1) r = .ok (nv, nt, r') ∧ r'.Reachable ∧ Lowered r r' ∧
      TracksConstrained r' ∧ (nt = 0 → ViewsConstrained r') := by
  obtain ⟨nv, nt, r', h1, h2⟩ := Cleanup.loop_ok (r.viewIds.length + 1) r hr
    (Nat.lt_succ_of_le List.countP_le_length)
  exact ⟨nv, nt, r', h1, h2.reach, h2.lowered, h2.tracks, h2.views⟩

/-- C28: a reconstruction in which the clean-up changes nothing is well constrained. -/
theorem C28_fixpoint (r : Reconstruction F P) (hr : r.Reachable) (nv nt : Nat) (r' : Reconstruction F P)
    (h : Cleanup.loop (r.viewIds.length + 1) r = .ok (nv, nt, r'))
    (hsame : (∀ v, r'.view v = r.view v) ∧ ∀ t, r'.track t = r.track t) :
    ViewsConstrained r ∧ TracksConstrained r := by
  obtain ⟨kv, r1, h1, d1⟩ := Cleanup.viewsPass_ok hr
  obtain ⟨nv', nt', r'', h2, d2⟩ := Cleanup.loop_ok (r.viewIds.length + 1) r hr
    (Nat.lt_succ_of_le List.countP_le_length)
  rw [h] at h2
  cases h2
  have hest : isEstimatedTrack r' = isEstimatedTrack r := by
    funext t; unfold isEstimatedTrack; rw [hsame.2 t]
  have hobs : ∀ T, estimatedObservers r' T = estimatedObservers r T := by
    intro T
    unfold estimatedObservers
    congr 1
    funext v
    rw [hsame.1 v]
  have htr : TracksConstrained r := by
    intro t T hT he
    have := d2.tracks t T (by rw [hsame.2]; exact hT) he
    rw [hobs] at this
    exact this
  refine ⟨?_, htr⟩
  -- a view that the first pass lowers stays lowered
  intro v V hV he
  by_contra hn
  rw [Cleanup.loop, h1] at h
  simp only at h
  obtain ⟨kt, r2, h3, d3⟩ := Cleanup.tracksPass_ok d1.reach
  rw [h3] at h
  simp only at h
  have hlow : Lowered r2 r' := by
    split at h
    · obtain ⟨a, b, c, h4, d4⟩ := Cleanup.loop_ok (r.viewIds.length) r2 d3.reach (by
        have hk2 : r2.viewIds = r.viewIds := by
          unfold Reconstruction.viewIds
          rw [d3.views, d1.keys]
        rw [hk2]
        by_contra hlen
        have hmem := Cleanup.mem_viewIds hV
        have hall := (List.countP_eq_length (p := Cleanup.isEstView r2)).1
          (le_antisymm List.countP_le_length (not_lt.1 hlen)) v hmem
        obtain ⟨b, hb, hb'⟩ := d1.here v V hV
        rw [Cleanup.isEstView_congr d3.views] at hall
        unfold Cleanup.isEstView at hall
        rw [hb] at hall
        exact hn ((hb'.1 hall).2 hmem))
      rw [h4] at h
      cases h
      exact d4.lowered
    · cases h
      exact Cleanup.lowered_refl _
  obtain ⟨b, hb, hb'⟩ := (Cleanup.lowered_trans d3.lowered hlow).1 v _ (d1.here v V hV).choose_spec.1
  rw [hsame.1 v, hV] at hb
  have hbt : b = true := by
    have := congrArg View.estimated (Option.some.inj hb)
    rw [← he, this]
  exact hn (((d1.here v V hV).choose_spec.2.1 (hb' hbt)).2 (Cleanup.mem_viewIds hV))

/-- C28: the clean-up never takes apart a well-constrained part of the reconstruction. Views `S` and
tracks `U` that constrain each other all stay estimated. -/
theorem C28_keeps_core (r : Reconstruction F P) (hr : r.Reachable) (S : List ViewId) (U : List TrackId)
    (hc : Core r S U) :
    ∃ nv nt r', Cleanup.loop (r.viewIds.length + 1) r = .ok (nv, nt, r') ∧ Core r' S U := by
  obtain ⟨nv, nt, r', h1, h2⟩ := Cleanup.loop_ok (r.viewIds.length + 1) r hr
    (Nat.lt_succ_of_le List.countP_le_length)
  exact ⟨nv, nt, r', h1, h2.core S U hc⟩

/-- C28, queue: if every view of the view graph is in one of the two containers, the clean-up does not
fail, every view is still in one of them, only unestimated views are queued, each queued view loses one
entry in the list of reconstructed views, and, if the last round set a view to unestimated, every
unestimated view of the view graph is queued. That views can be missed otherwise is
`C28_requeue_counterexample`. -/
theorem C28_queue_partial (s : Cleanup.State F P) (hr : s.recon.Reachable)
    (hs : ∀ v ∈ s.graphViews, (∃ V, s.recon.view v = some V) → v ∈ s.unlocalized ∨ v ∈ s.reconstructed) :
    ∃ nv nt r' s', Cleanup.loop (s.recon.viewIds.length + 1) s.recon = .ok (nv, nt, r') ∧
      Cleanup.cleanup s = .ok s' ∧ s'.recon = r' ∧ s'.graphViews = s.graphViews ∧
      (∀ v ∈ s.graphViews, (∃ V, s'.recon.view v = some V) → v ∈ s'.unlocalized ∨ v ∈ s'.reconstructed) ∧
      (∀ v ∈ s.unlocalized, v ∈ s'.unlocalized) ∧
      (∀ v ∈ s'.unlocalized, v ∉ s.unlocalized →
        (∃ V, r'.view v = some V ∧ V.estimated = false) ∧
        s'.reconstructed.count v + 1 = s.reconstructed.count v) ∧
      (s'.reconstructed.length - s'.numOptimized = s.reconstructed.length - s.numOptimized) ∧
      (nv ≠ 0 → ∀ v ∈ s.graphViews, ∀ V, r'.view v = some V → V.estimated = false → v ∈ s'.unlocalized) := by
  obtain ⟨nv, nt, r', h1, h2⟩ := Cleanup.loop_ok (s.recon.viewIds.length + 1) s.recon hr
    (Nat.lt_succ_of_le List.countP_le_length)
  have hs' : ∀ v ∈ s.graphViews, (∃ V, r'.view v = some V) → v ∈ s.unlocalized ∨ v ∈ s.reconstructed := by
    rintro v hv ⟨V, hV⟩
    apply hs v hv
    cases h : s.recon.view v with
    | none => rw [h2.lowered.2.1 v h] at hV; cases hV
    | some V => exact ⟨V, rfl⟩
  unfold Cleanup.cleanup
  simp only [h1]
  split
  · obtain ⟨s', g1, g2, g3, g4, g5, g6, g7, g8, g9, _, g11⟩ := Cleanup.requeue_ok s.graphViews
      { s with recon := r' } (fun v hv V hV _ => hs' v hv ⟨V, hV⟩)
    simp only at g2 g3 g4 g5 g6 g7 g8 g9 g11
    refine ⟨nv, nt, r', s', rfl, g1, g2, g3, ?_, g4, ?_, g11, fun _ => g6⟩
    · intro v hv hex
      rw [g2] at hex
      rcases hs' v hv hex with h | h
      · exact Or.inl (g4 v h)
      · exact (g7 v h).symm
    · intro v hv hn
      refine ⟨?_, g9 v hn hv⟩
      rcases g5 v hv with h | ⟨_, h⟩
      · exact absurd h hn
      · exact h
  · next hz =>
    exact ⟨nv, nt, r', { s with recon := r' }, rfl, rfl, rfl, rfl, hs', fun _ h => h,
      fun v h h' => absurd h h', rfl, fun h => absurd (Nat.pos_of_ne_zero h) hz⟩

/-- Run calls on an empty reconstruction. -/
def cleanupRecon (ops : List (Reconstruction.Op Unit Unit)) : Reconstruction Unit Unit :=
  match Reconstruction.run (Reconstruction.empty : Reconstruction Unit Unit) ops with
  | .ok (_, r) => r
  | _ => Reconstruction.empty

/-- The estimated views and tracks. -/
def estimatedIds (r : Reconstruction Unit Unit) : List ViewId × List TrackId :=
  (r.viewIds.filter (Cleanup.isEstView r), r.trackIds.filter (isEstimatedTrack r))

/-- Two views that share three tracks, and a third estimated view that sees one of them and two more
tracks of its own: all tracks are estimated. -/
def danglingOps : List (Reconstruction.Op Unit Unit) :=
  [.addView "a", .addView "b", .addView "c", .addTrack () [(0, ()), (1, ()), (2, ())],
   .addTrack () [(0, ()), (1, ())], .addTrack () [(0, ()), (1, ())], .addEmptyTrack (),
   .addObservation 2 3 (), .addEmptyTrack (), .addObservation 2 4 (),
   .setViewEstimated 0 true, .setViewEstimated 1 true, .setViewEstimated 2 true,
   .setTrackEstimated 0 true (), .setTrackEstimated 1 true (), .setTrackEstimated 2 true (),
   .setTrackEstimated 3 true (), .setTrackEstimated 4 true ()]

/-- The hypotheses of the theorems hold: the history is reachable, and views 0, 1 with tracks 0, 1, 2 are
a core that stays. -/
example : (cleanupRecon danglingOps).Reachable ∧ estimatedIds (cleanupRecon danglingOps) = ([0, 1, 2], [0, 1, 2, 3, 4]) ∧
    ∃ V, (cleanupRecon danglingOps).view 0 = some V ∧ V.estimated = true ∧
      3 ≤ (V.trackIds.filter fun t => decide (t ∈ [0, 1, 2])).length :=
  ⟨⟨danglingOps, _, rfl⟩, by decide +kernel, _, rfl, rfl, by decide⟩

/-- C28 is false for views: the loop stops after a round that set no view to unestimated even if its
second half set tracks to unestimated. View 2 ends up estimated with one estimated track. -/
theorem C28_views_counterexample :
    ∃ r', (cleanupRecon danglingOps).Reachable ∧
      Cleanup.loop ((cleanupRecon danglingOps).viewIds.length + 1) (cleanupRecon danglingOps) = .ok (0, 2, r') ∧
      estimatedIds r' = ([0, 1, 2], [0, 1, 2]) ∧ ∃ V, r'.view 2 = some V ∧ V.estimated = true ∧
        (estimatedTracksIn r' V).length = 1 ∧ ¬ ViewsConstrained r' := by
  refine ⟨_, ⟨danglingOps, _, rfl⟩, rfl, by decide +kernel, _, rfl, rfl, by decide +kernel, ?_⟩
  intro h
  have := h 2 _ rfl rfl
  revert this
  decide +kernel

/-- A history in which the first round sets views 2 and 3 to unestimated, which takes track 3 with them,
and the second round changes no view. -/
def requeueOps : List (Reconstruction.Op Unit Unit) :=
  [.addView "a", .addView "b", .addView "c", .addView "d", .addTrack () [(0, ()), (1, ())],
   .addTrack () [(0, ()), (1, ())], .addTrack () [(0, ()), (1, ())], .addTrack () [(2, ()), (3, ())],
   .setViewEstimated 0 true, .setViewEstimated 1 true, .setViewEstimated 2 true, .setViewEstimated 3 true,
   .setTrackEstimated 0 true (), .setTrackEstimated 1 true (), .setTrackEstimated 2 true (),
   .setTrackEstimated 3 true ()]

/-- C28 is false for the queue: views 2 and 3 lose their estimate and are not queued again, because only
the count of the last round is looked at. -/
theorem C28_requeue_counterexample :
    ∃ s', (cleanupRecon requeueOps).Reachable ∧
      Cleanup.cleanup ⟨cleanupRecon requeueOps, [0, 1, 2, 3], [], [0, 1, 2, 3], 4⟩ = .ok s' ∧
      estimatedIds (cleanupRecon requeueOps) = ([0, 1, 2, 3], [0, 1, 2, 3]) ∧
      estimatedIds s'.recon = ([0, 1], [0, 1, 2]) ∧ s'.unlocalized = [] ∧ s'.reconstructed = [0, 1, 2, 3] :=
  ⟨_, ⟨requeueOps, _, rfl⟩, rfl, by decide +kernel, by decide +kernel, rfl, rfl⟩

/-- One estimated view with nothing in it. -/
def loneOps : List (Reconstruction.Op Unit Unit) := [.addView "a", .setViewEstimated 0 true]

/-- C28: if the reconstruction passed in already has estimated views, these are in neither container, and
the clean-up erases the end iterator when one of them is underconstrained. -/
theorem C28_initialized_counterexample :
    (cleanupRecon loneOps).Reachable ∧
      Cleanup.cleanup ⟨cleanupRecon loneOps, [0], [], [], 0⟩ = .ub :=
  ⟨⟨loneOps, _, rfl⟩, rfl⟩

end Theia
