import Verif.Proof.GlobalPoses

/-!
# C73: global reconstruction
-/

namespace Theia

open Spec Global
open Incremental (TwoView)

variable {F P M O X L N W D C E : Type}

/-- C73: for every view graph, every reconstruction in which nothing is estimated, and all numerical parts, the estimation
ends normally, unless the positions are estimated without any pair of views. Then
- the reconstruction has the same views, tracks and observations, and estimated tracks are seen by two estimated views;
- the view graph has only views and edges it had before; the edges have enough matches, and only their relative position may
  differ; any two views with an edge are connected;
- all estimated views have an edge, and belong to one largest connected component of the pairs with enough matches;
- views without an estimated position are not estimated and keep their pose;
- on success, the summary lists exactly the estimated views and tracks, every estimated view has an orientation and a
  position, the relative rotation of every edge agrees with the orientations, and no estimated track is an outlier;
- a failure lists nothing, and happens only if no pair has enough matches or a numerical part does not succeed. -/
theorem C73_estimate_partial [DecidableEq C] (num : Global.Numerics F P M O X L N W D C E) (hn : GlobalWellBehaved num)
    (o : Global.Options) (ho : 0 ≤ o.rotationTolerance) (hth : 1 ≤ o.numThreads)
    (ops : List (ViewGraph.Op (TwoView O X L))) (hids : ValidIds (ViewGraph.run ops))
    (scene : Localize.Scene F P M O X) (hr : scene.recon.Reachable) (hnew : NothingEstimated scene.recon)
    (hgv : GraphViews (ViewGraph.run ops) scene.recon) :
    (∃ summary s, Global.estimate num o (ViewGraph.run ops) scene = .ok (summary, s) ∧
      s.scene.recon.Reachable ∧ SameStructure scene.recon s.scene.recon ∧ TracksConstrained s.scene.recon ∧
      (∃ ops', s.graph = ViewGraph.run ops') ∧ (∀ v, s.graph.hasView v = true → (ViewGraph.run ops).hasView v = true) ∧
      (∀ a b info, s.graph.getEdge a b = some info → o.minMatches ≤ info.verifiedMatches ∧
        ∃ original x, (ViewGraph.run ops).getEdge a b = some original ∧ info = { original with position2 := x }) ∧
      Linked s.graph ∧
      (∀ v, IsEstimated s.scene.recon v → IsNode (pairsOf s.graph) v) ∧
      (strongPairs o.minMatches (ViewGraph.run ops) ≠ [] →
        ∃ component, BiggestComponent (strongPairs o.minMatches (ViewGraph.run ops)) component ∧
          ∀ v, IsNode (pairsOf s.graph) v → v ∈ component) ∧
      (∀ v, s.positions.get v = none → ¬ IsEstimated s.scene.recon v ∧ s.scene.orientation v = scene.orientation v ∧
        s.scene.position v = scene.position v) ∧
      (summary.success = true → summary.views.Nodup ∧ summary.tracks.Nodup ∧
        (∀ v, v ∈ summary.views ↔ IsEstimated s.scene.recon v) ∧
        (∀ t, t ∈ summary.tracks ↔ ∃ T, s.scene.recon.track t = some T ∧ T.estimated = true) ∧
        (∀ v ∈ summary.views, v ∈ s.orientations.keys ∧ v ∈ s.positions.keys) ∧
        (∀ a b info, a < b → s.graph.getEdge a b = some info →
          Kept num o.minMatches (ViewGraph.run ops) s.orientations a b info) ∧
        (0 ≤ o.retriangulations → CamerasOnly num.common → NoOutliers num.common o.maxError s.scene)) ∧
      (summary.success = false → summary.views = [] ∧ summary.tracks = [] ∧
        (strongPairs o.minMatches (ViewGraph.run ops) = [] ∨ NumericsFail num))) ∨
    NeedsPairs num := by
  rcases poses_ok hn ho hth (⟨ops, rfl⟩ : IsRun (ViewGraph.run ops)) hids hr hnew hgv with ⟨b, s, h1, p⟩ | h
  · left
    have hnot : ∀ v, s.positions.get v = none → ¬ IsEstimated s.scene.recon v ∧ s.scene.orientation v = scene.orientation v ∧
        s.scene.position v = scene.position v := by
      intro v hv
      rcases p.views v with ⟨_, _, _, _, h⟩ | ⟨_, h⟩
      · rw [hv] at h; cases h
      · exact h
    have hnode : ∀ v, IsEstimated s.scene.recon v → IsNode (pairsOf s.graph) v := by
      intro v hv
      rcases p.views v with ⟨_, h, _⟩ | ⟨_, h, _⟩
      · exact h
      · exact absurd hv h
    have hedges : ∀ a b info, s.graph.getEdge a b = some info → o.minMatches ≤ info.verifiedMatches ∧
        ∃ original x, (ViewGraph.run ops).getEdge a b = some original ∧ info = { original with position2 := x } :=
      fun a b info hi => ⟨p.strong a b info hi, p.part.edges a b info hi⟩
    have hgood : Incremental.Good scene.recon s.scene.recon := by
      refine ⟨p.reach, p.same, ?_⟩
      intro t T hT he
      rw [p.tracks] at hT
      rw [hnew.2 t T hT] at he
      cases he
    unfold Global.estimate
    rw [h1]
    simp only [Outcome.ok_bind]
    cases b with
    | false =>
      refine ⟨_, _, rfl, p.reach, p.same, hgood.tracks, p.part.run ⟨ops, rfl⟩, p.part.views, hedges, p.linked, hnode, p.component, hnot, fun h => (by cases h),
        fun _ => ⟨rfl, rfl, p.fails rfl⟩⟩
    | true =>
      simp only [if_true]
      obtain ⟨b, w, h2, m, f, n⟩ := rounds_ok (s := ⟨s.scene, [], [], 0, s.clock⟩) hn.common hth
        (o.retriangulations + 1).toNat true hgood
      rw [h2]
      simp only [Outcome.ok_bind]
      have hnot' : ∀ v, s.positions.get v = none → ¬ IsEstimated w.scene.recon v ∧
          w.scene.orientation v = scene.orientation v ∧ w.scene.position v = scene.position v := by
        intro v hv
        obtain ⟨e1, e2, e3⟩ := hnot v hv
        obtain ⟨e4, e5⟩ := m.poses v e1
        exact ⟨fun h => e1 (m.views v h), e4.trans e2, e5.trans e3⟩
      cases b with
      | false =>
        exact ⟨_, _, rfl, m.good.reach, m.good.same, m.good.tracks, p.part.run ⟨ops, rfl⟩, p.part.views, hedges, p.linked, fun v hv => hnode v (m.views v hv),
          p.component, hnot', fun h => (by cases h), fun _ => ⟨rfl, rfl, Or.inr (Or.inr (Or.inr (f rfl)))⟩⟩
      | true =>
        refine ⟨_, _, rfl, m.good.reach, m.good.same, m.good.tracks, p.part.run ⟨ops, rfl⟩, p.part.views, hedges, p.linked, fun v hv => hnode v (m.views v hv),
          p.component, hnot', fun _ => ⟨?_, (C71_counts _ m.good.reach).2.2.1, fun v => mem_estimatedViews,
            (C71_counts _ m.good.reach).2.2.2, ?_, ?_, ?_⟩, fun h => (by cases h)⟩
        · exact (Reconstruction.inv_of_reachable m.good.reach).wfViews.filter _
        · intro v hv
          rcases p.views v with ⟨_, _, _, h3, h4⟩ | ⟨_, h3, _⟩
          · exact ⟨AMap.mem_keys_iff.2 ⟨_, h3⟩, AMap.mem_keys_iff.2 ⟨_, h4⟩⟩
          · exact absurd (m.views v (mem_estimatedViews.1 hv)) h3
        · intro a b info hlt hi
          exact ⟨(hedges a b info hi).2, (hedges a b info hi).1, p.agree rfl a b info hlt hi⟩
        · intro hre hc
          exact n rfl (by omega) hc
  · exact Or.inr h.2

/-- C73: the first filter keeps exactly the edges with enough matches between the views of one largest connected component
of the pairs with enough matches; it fails exactly if there is no such pair. -/
theorem C73_initial_filter (num : Global.Numerics F P M O X L N W D C E) (hn : GlobalWellBehaved num) (o : Global.Options)
    (ops : List (ViewGraph.Op (TwoView O X L))) (hids : ValidIds (ViewGraph.run ops)) :
    ∃ b g', filterInitial num o (ViewGraph.run ops) = .ok (b, g') ∧
      (b = true ↔ strongPairs o.minMatches (ViewGraph.run ops) ≠ []) ∧
      (b = true → ∃ component, BiggestComponent (strongPairs o.minMatches (ViewGraph.run ops)) component ∧
        ∀ x y, g'.getEdge x y = if x ∈ component ∧ y ∈ component then
          ((ViewGraph.run ops).getEdge x y).filter fun info => decide (o.minMatches ≤ info.verifiedMatches) else none) := by
  obtain ⟨b, g', h1, h2, _, h3⟩ := filterInitial_ok hn o (⟨ops, rfl⟩ : IsRun (ViewGraph.run ops)) hids
  exact ⟨b, g', h1, h3, fun hb => h2.component (h3.1 hb)⟩

/-- C73: the filter by rotations keeps exactly the edges that agree with the orientations between the views of one largest
connected component of such edges, and exactly the orientations of the views that are left. -/
theorem C73_rotation_filter (num : Global.Numerics F P M O X L N W D C E) (hn : GlobalWellBehaved num) (o : Global.Options)
    (ho : 0 ≤ o.rotationTolerance) (ops : List (ViewGraph.Op (TwoView O X L))) (hids : ValidIds (ViewGraph.run ops))
    (orientations : AMap ViewId O) (hm : ∀ v ∈ orientations.keys, (ViewGraph.run ops).hasView v = true) :
    ∃ g' orientations', filterRotations num o orientations (ViewGraph.run ops) = .ok (g', orientations') ∧
      (agreeingPairs num orientations (ViewGraph.run ops) = [] → pairsOf g' = []) ∧
      (agreeingPairs num orientations (ViewGraph.run ops) ≠ [] →
        ∃ component, BiggestComponent (agreeingPairs num orientations (ViewGraph.run ops)) component ∧
          ∀ a b, g'.getEdge a b = if a ∈ component ∧ b ∈ component ∧
            ordPair a b ∈ agreeingPairs num orientations (ViewGraph.run ops) then (ViewGraph.run ops).getEdge a b else none) ∧
      ∀ v, orientations'.get v = if g'.hasView v = true then orientations.get v else none :=
  filterRotations_exact hn ho ⟨ops, rfl⟩ hids orientations hm

/-- C73: a negative tolerance for rotations ends the program. -/
theorem C73_negative_tolerance (num : Global.Numerics F P M O X L N W D C E) (o : Global.Options)
    (ho : o.rotationTolerance < 0) (orientations : AMap ViewId O) (g : ViewGraph (TwoView O X L)) :
    filterRotations num o orientations g = .abort := by
  unfold filterRotations
  rw [if_pos ho]

/-- C73: if the poses are estimated, exactly the views that got a position are estimated; each has the orientation and the
position that were estimated for it. All other views keep their poses. -/
theorem C73_poses (num : Global.Numerics F P M O X L N W D C E) (hn : GlobalWellBehaved num)
    (o : Global.Options) (ho : 0 ≤ o.rotationTolerance) (hth : 1 ≤ o.numThreads)
    (ops : List (ViewGraph.Op (TwoView O X L))) (hids : ValidIds (ViewGraph.run ops))
    (scene : Localize.Scene F P M O X) (hr : scene.recon.Reachable) (hnew : NothingEstimated scene.recon)
    (hgv : GraphViews (ViewGraph.run ops) scene.recon) (s : Global.State F P M O X L)
    (h : Global.poses num o ⟨ViewGraph.run ops, scene, .empty, .empty, 0⟩ = .ok (true, s)) :
    (∀ t, s.scene.recon.track t = scene.recon.track t) ∧
    ∀ v, (IsEstimated s.scene.recon v ↔ ∃ x, s.positions.get v = some x) ∧
      (IsEstimated s.scene.recon v → s.orientations.get v = some (s.scene.orientation v) ∧
        s.positions.get v = some (s.scene.position v)) ∧
      (¬ IsEstimated s.scene.recon v → s.scene.orientation v = scene.orientation v ∧
        s.scene.position v = scene.position v) := by
  have hp : Posed num o (ViewGraph.run ops) scene true s := poses_posed hn ho hth ⟨ops, rfl⟩ hids hr hnew hgv h
  refine ⟨hp.tracks, fun v => ?_⟩
  rcases hp.views v with ⟨_, _, h1, h2, h3⟩ | ⟨h1, h2, h3⟩
  · exact ⟨⟨fun _ => ⟨_, h3⟩, fun _ => h1⟩, fun _ => ⟨h2, h3⟩, fun h => absurd h1 h⟩
  · refine ⟨⟨fun h => absurd h h2, ?_⟩, fun h => absurd h h2, fun _ => h3⟩
    rintro ⟨x, hx⟩
    rw [h1 rfl] at hx
    cases hx

/-- C73: one pass over the tracks, after the poses are known, never makes a view estimated, moves only cameras of estimated
views and changes only intrinsics that an estimated view uses. If it succeeds, no outlier is left; if it fails, a bundle
adjustment did not succeed. -/
theorem C73_round [DecidableEq C] (num : Global.Numerics F P M O X L N W D C E) (hn : GlobalWellBehaved num)
    (o : Global.Options) (hth : 1 ≤ o.numThreads) (first : Bool) (s : Incremental.State F P M O X)
    (hr : s.scene.recon.Reachable) (ht : TracksConstrained s.scene.recon) :
    ∃ b s', Global.round num o first s = .ok (b, s') ∧ s'.scene.recon.Reachable ∧
      SameStructure s.scene.recon s'.scene.recon ∧ TracksConstrained s'.scene.recon ∧
      (∀ v, IsEstimated s'.scene.recon v → IsEstimated s.scene.recon v) ∧
      (∀ v, ¬ IsEstimated s.scene.recon v → s'.scene.orientation v = s.scene.orientation v ∧
        s'.scene.position v = s.scene.position v) ∧
      (∀ i, (∀ v V, s.scene.recon.view v = some V → V.estimated = true → V.intrinsics ≠ i) →
        s'.scene.heap i = s.scene.heap i) ∧
      (b = true → CamerasOnly num.common → NoOutliers num.common o.maxError s'.scene) ∧
      (b = false → AdjustFails num.common) := by
  obtain ⟨b, s', h1, m, f, n⟩ := round_ok (r0 := s.scene.recon) hn.common hth first ⟨hr, .refl _, ht⟩
  exact ⟨b, s', h1, m.good.reach, m.good.same, m.good.tracks, m.views, m.poses, m.heap, n, f⟩

/-- C73: the adjustment of positions and points in the first pass leaves orientations and intrinsics alone, and the
positions of views that are not estimated. -/
theorem C73_positions_only [DecidableEq C] (num : Global.Numerics F P M O X L N W D C E) (o : Global.Options)
    (s : Incremental.State F P M O X) (hr : s.scene.recon.Reachable) (ht : TracksConstrained s.scene.recon) :
    ∃ s', bundlePositions num o s = .ok s' ∧ s'.scene.orientation = s.scene.orientation ∧ s'.scene.heap = s.scene.heap ∧
      s'.scene.recon.Reachable ∧ SameStructure s.scene.recon s'.scene.recon ∧
      (∀ v, ¬ IsEstimated s.scene.recon v → s'.scene.position v = s.scene.position v) ∧
      ∀ t T, s.scene.recon.track t = some T → T.estimated = false → s'.scene.recon.track t = some T := by
  obtain ⟨s', h1, m, h2, h3⟩ := bundlePositions_moved (r0 := s.scene.recon) num o ⟨hr, .refl _, ht⟩
  exact ⟨s', h1, h2, h3, m.good.reach, m.good.same, fun v hv => (m.poses v hv).2, bundlePositions_tracks h1⟩

/-- C73: positions are adjusted on their own in the first pass only, and only if the options ask for it: otherwise the
result does not depend on that adjustment. -/
theorem C73_positions_once [DecidableEq C] (num : Global.Numerics F P M O X L N W D C E) (o : Global.Options) (first : Bool)
    (s : Incremental.State F P M O X) (h : first = false ∨ o.refinePositions = false)
    (other : Nat → Localize.Scene F P M O X → List ViewId → List TrackId → Incremental.Adjustment M O X P) :
    Global.round { num with adjustPositions := other } o first s = Global.round num o first s := by
  have h' : (first && o.refinePositions) = false := by
    rcases h with h | h <;> simp [h]
  unfold Global.round firstBundle
  simp only [h']
  rfl

end Theia
