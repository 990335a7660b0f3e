import Verif.Proof.HybridSeed

/-!
# C81: hybrid reconstruction
-/

namespace Theia

open Spec Hybrid
open Incremental (TwoView State Summary)

variable {F P M O X L N W D C : Type} [DecidableEq C]

/-- C81: hybrid reconstruction of a scene in which nothing is estimated never ends the program, whatever the numerical parts
return, if every two views with more than a hundred matches have a track in common. It does not change names, groups,
features or observations, every estimated track has two estimated observers, and each view is either queued or
reconstructed. On success no queued view is estimated, and the summary lists exactly the estimated views and tracks; on
failure it lists nothing. -/
theorem C81_estimate (num : Hybrid.Numerics F P M O X L N W D C) (hn : HybridWellBehaved num) (o : Hybrid.Options)
    (ho : ValidOptions o.common) (ops : List (ViewGraph.Op (TwoView O X L))) (scene : Localize.Scene F P M O X)
    (hr : scene.recon.Reachable) (hnew : NothingEstimated scene.recon) (hgv : GraphViews (ViewGraph.run ops) scene.recon)
    (hshare : ShareTracks (ViewGraph.run ops) scene.recon) (ok : Bool) (qs : AMap ViewId O)
    (hq : num.rotations (ViewGraph.run ops) = .ok (ok, qs)) (fuel : Nat) :
    ∃ x, Hybrid.estimate num o (ViewGraph.run ops) fuel scene = .ok x ∧ ∀ summary s, x = some (summary, s) →
      s.scene.recon.Reachable ∧ SameStructure scene.recon s.scene.recon ∧ TracksConstrained s.scene.recon ∧
      (s.unlocalized ++ s.reconstructed).Perm scene.recon.viewIds ∧
      (summary.success = true → summary.views.Nodup ∧ summary.tracks.Nodup ∧
        (∀ v, v ∈ summary.views ↔ ∃ V, s.scene.recon.view v = some V ∧ V.estimated = true) ∧
        (∀ t, t ∈ summary.tracks ↔ ∃ T, s.scene.recon.track t = some T ∧ T.estimated = true) ∧
        ∀ v ∈ summary.views, v ∈ s.reconstructed ∧ v ∉ s.unlocalized) ∧
      (summary.success = false → summary.views = [] ∧ summary.tracks = []) := by
  obtain ⟨x, h1, _, h2⟩ := estimate_ok hn ho (ViewGraph.rep_run ops).inv hr hnew hgv hshare hq fuel
  refine ⟨x, h1, ?_⟩
  intro summary s hx
  obtain ⟨hi, hs, hf⟩ := h2 summary s hx
  refine ⟨hi.good.reach, hi.good.same, hi.good.tracks, hi.all, ?_, ?_⟩
  · intro h
    obtain ⟨e, hest, _⟩ := hs h
    have hinv := Reconstruction.inv_of_reachable hi.good.reach
    have hviews : ∀ v, v ∈ summary.views ↔ ∃ V, s.scene.recon.view v = some V ∧ V.estimated = true := by
      intro v
      rw [e]
      simp only [SelectTracks.estimatedViews, List.mem_filter]
      constructor
      · rintro ⟨_, h⟩
        cases hV : s.scene.recon.view v with
        | none => rw [hV] at h; cases h
        | some V => rw [hV] at h; exact ⟨V, rfl, h⟩
      · rintro ⟨V, hV, he⟩
        exact ⟨AMap.mem_keys_iff.2 ⟨V, hV⟩, by rw [hV]; exact he⟩
    refine ⟨by rw [e]; exact hinv.wfViews.filter _, by rw [e]; exact hinv.wfTracks.filter _, hviews, ?_, ?_⟩
    · intro t
      rw [e]
      simp only [EstimatorUtils.estimatedTracks, List.mem_filter]
      constructor
      · rintro ⟨_, h⟩
        cases hT : s.scene.recon.track t with
        | none => rw [hT] at h; cases h
        | some T => rw [hT] at h; exact ⟨T, rfl, h⟩
      · rintro ⟨T, hT, he⟩
        exact ⟨AMap.mem_keys_iff.2 ⟨T, hT⟩, by rw [hT]; exact he⟩
    · intro v hv
      obtain ⟨V, hV, he⟩ := (hviews v).1 hv
      have hin := hest v V hV he
      exact ⟨hin, fun hu => List.disjoint_of_nodup_append hi.nodup hu hin⟩
  · intro h
    obtain ⟨e, _⟩ := hf h
    rw [e]
    exact ⟨rfl, rfl⟩

/-- C81: bundle adjustment, triangulation and clean-up leave the orientations alone. Each orientation at the end is the one
estimated at the start, that of the input if none was estimated, or one a pose solver has returned. -/
theorem C81_orientations (num : Hybrid.Numerics F P M O X L N W D C) (o : Hybrid.Options) (g : ViewGraph (TwoView O X L))
    (scene : Localize.Scene F P M O X) (hnew : NothingEstimated scene.recon) (ok : Bool) (qs : AMap ViewId O)
    (hq : num.rotations g = .ok (ok, qs)) (hqs : qs.WF) (fuel : Nat) (summary : Summary) (s : State F P M O X)
    (h : Hybrid.estimate num o g fuel scene = .ok (some (summary, s))) (v : ViewId) :
    (ok = true → s.scene.orientation v = startOrientation qs scene v ∨ FromSolver num.common (s.scene.orientation v)) ∧
    (ok = false → s.scene.orientation v = scene.orientation v) := by
  unfold Hybrid.estimate estimateOrientations at h
  obtain ⟨_, _, h⟩ := Outcome.bind_eq_ok.1 h
  obtain ⟨heap, _, h⟩ := Outcome.bind_eq_ok.1 h
  simp only [hq, Outcome.ok_bind] at h
  cases ok with
  | false =>
    simp only [Bool.false_eq_true, if_false, Outcome.ok_bind] at h
    cases h
    exact ⟨fun h => (by cases h), fun _ => rfl⟩
  | true =>
    simp only [if_true, Outcome.ok_bind] at h
    refine ⟨fun _ => ?_, fun h => by cases h⟩
    have h0 : From (constantOrientation num.common) (startOrientation qs scene)
        ⟨setOrientations qs.entries { scene with heap := heap },
          Incremental.queueViews scene.recon (num.common.order 0 scene.recon.viewIds) [], [], 0, 1⟩ := by
      intro w
      left
      exact setOrientations_get qs.entries { scene with heap := heap } hqs hnew.1 w
    split at h
    · unfold Hybrid.reconstruct Hybrid.chooseInitial at h
      obtain ⟨⟨b, s1⟩, h1, h⟩ := Outcome.bind_eq_ok.1 h
      obtain ⟨pairs, _, h1⟩ := Outcome.bind_eq_ok.1 h1
      have f1 := h0.of_eq (chooseLoop_orient pairs h1)
      simp only at h
      split at h
      · obtain ⟨y, h2, h⟩ := Outcome.bind_eq_ok.1 h
        match y, h2, h with
        | some (false, s2), h2, h => cases h; exact mainLoop_from fuel f1 h2 v
        | some (true, s2), h2, h => cases h; exact mainLoop_from fuel f1 h2 v
      · cases h
        exact f1 v
    · cases h
      exact h0 v

/-- C81: when reconstruction succeeds, every view that sees thirty estimated tracks and was not reconstructed has failed to
be localized against these tracks, both without an orientation and, if one was estimated for it, with a known orientation.
What is missing for all views that are not estimated is that the clean-up queues every view it drops, which it does not
(`C28_requeue_counterexample`). -/
theorem C81_exhaustive_partial (num : Hybrid.Numerics F P M O X L N W D C) (hn : HybridWellBehaved num) (o : Hybrid.Options)
    (ho : ValidOptions o.common) (ops : List (ViewGraph.Op (TwoView O X L))) (scene : Localize.Scene F P M O X)
    (hr : scene.recon.Reachable) (hnew : NothingEstimated scene.recon) (hgv : GraphViews (ViewGraph.run ops) scene.recon)
    (hshare : ShareTracks (ViewGraph.run ops) scene.recon) (ok : Bool) (qs : AMap ViewId O)
    (hq : num.rotations (ViewGraph.run ops) = .ok (ok, qs)) (fuel : Nat) (summary : Summary) (s : State F P M O X)
    (h : Hybrid.estimate num o (ViewGraph.run ops) fuel scene = .ok (some (summary, s))) (hs : summary.success = true)
    (v : ViewId) (hq' : v ∉ s.reconstructed) (V : View F) (hV : s.scene.recon.view v = some V)
    (henough : 30 ≤ (estimatedTracksIn s.scene.recon V).length) :
    V.estimated = false ∧
      HybridLocalizationFails num.common o.common.minInliers (qs.get v).isSome s.scene.recon v := by
  obtain ⟨x, h1, _, h2⟩ := estimate_ok hn ho (ViewGraph.rep_run ops).inv hr hnew hgv hshare hq fuel
  rw [h] at h1
  obtain ⟨hi, hs', _⟩ := h2 summary s (Outcome.ok.inj h1).symm
  obtain ⟨_, hest, hf, _⟩ := hs' hs
  refine ⟨?_, hf v ?_ ?_⟩
  · cases he : V.estimated with
    | false => rfl
    | true => exact absurd (hest v V hV he) hq'
  · have hv : v ∈ scene.recon.viewIds := by
      rw [← hi.good.same.viewIds]
      exact AMap.mem_keys_iff.2 ⟨V, hV⟩
    rcases List.mem_append.1 (hi.all.mem_iff.2 hv) with h | h
    · exact h
    · exact absurd h hq'
  · unfold Incremental.seesEnough
    rw [hV]
    exact decide_eq_true henough

/-- C81: reconstruction succeeds only if orientations were estimated for some view and two views have more than a hundred
matches. If orientations were estimated and every bundle adjustment succeeds, it fails only if each such pair was tried and
rejected. -/
theorem C81_failure (num : Hybrid.Numerics F P M O X L N W D C) (hn : HybridWellBehaved num) (o : Hybrid.Options)
    (ho : ValidOptions o.common) (ops : List (ViewGraph.Op (TwoView O X L))) (scene : Localize.Scene F P M O X)
    (hr : scene.recon.Reachable) (hnew : NothingEstimated scene.recon) (hgv : GraphViews (ViewGraph.run ops) scene.recon)
    (hshare : ShareTracks (ViewGraph.run ops) scene.recon) (ok : Bool) (qs : AMap ViewId O)
    (hq : num.rotations (ViewGraph.run ops) = .ok (ok, qs)) (fuel : Nat) (summary : Summary) (s : State F P M O X)
    (h : Hybrid.estimate num o (ViewGraph.run ops) fuel scene = .ok (some (summary, s))) :
    (summary.success = true → ok = true ∧ 0 < qs.size ∧
      ∃ a b info, a < b ∧ (ViewGraph.run ops).getEdge a b = some info ∧ (100 : Int) < info.verifiedMatches) ∧
    (summary.success = false → ok = true → 0 < qs.size → ¬ AdjustFails num.common →
      ∀ a b info, a < b → (ViewGraph.run ops).getEdge a b = some info → (100 : Int) < info.verifiedMatches →
        ∃ s1 s2, Hybrid.tryPair num o qs (ViewGraph.run ops) (a, b) s1 = .ok (false, s2)) := by
  obtain ⟨x, h1, _, h2⟩ := estimate_ok hn ho (ViewGraph.rep_run ops).inv hr hnew hgv hshare hq fuel
  rw [h] at h1
  obtain ⟨_, hs, hf⟩ := h2 summary s (Outcome.ok.inj h1).symm
  refine ⟨fun h => ?_, fun h hok hpos hadj a b info hab hedge hm => ?_⟩
  · obtain ⟨_, _, _, e1, e2, e3⟩ := hs h
    exact ⟨e1, e2, e3⟩
  · rcases (hf h).2 with h | h | h | h
    · rw [hok] at h; cases h
    · omega
    · exact absurd h hadj
    · exact h a b info hab hedge hm

/-- C81: the initial pair has more than a hundred matches, and each such pair that is better (a larger class of the angle
between the cameras, or the same and more matches) was tried before it and rejected. After the choice exactly its two views
are estimated, and more than a hundred tracks, each seen in both; none of them is an outlier, and no orientation has changed.
If no pair is chosen, each pair with so many matches was rejected. -/
theorem C81_seed (num : Hybrid.Numerics F P M O X L N W D C) (hn : HybridWellBehaved num) (o : Hybrid.Options)
    (ho : ValidOptions o.common) (qs : AMap ViewId O) (ops : List (ViewGraph.Op (TwoView O X L))) (s : State F P M O X)
    (hr : s.scene.recon.Reachable) (hnew : NothingEstimated s.scene.recon)
    (hgv : GraphViews (ViewGraph.run ops) s.scene.recon) (hshare : ShareTracks (ViewGraph.run ops) s.scene.recon)
    (hU : s.unlocalized.Perm s.scene.recon.viewIds) (hR : s.reconstructed = []) (hO : s.numOptimized = 0) :
    ∃ chosen s', Hybrid.chooseInitial num o qs (ViewGraph.run ops) s = .ok (chosen, s') ∧
      s'.scene.orientation = s.scene.orientation ∧
      (chosen = true → ∃ a b info, a < b ∧ (ViewGraph.run ops).getEdge a b = some info ∧ (100 : Int) < info.verifiedMatches ∧
        s'.reconstructed = [a, b] ∧ (∀ v V, s'.scene.recon.view v = some V → (V.estimated = true ↔ v = a ∨ v = b)) ∧
        100 < (EstimatorUtils.estimatedTracks s'.scene.recon).length ∧
        (∀ t T, s'.scene.recon.track t = some T → T.estimated = true → a ∈ T.views ∧ b ∈ T.views) ∧
        (CamerasOnly num.common → NoOutliers num.common o.common.maxError s'.scene) ∧
        ∀ c d info', c < d → (ViewGraph.run ops).getEdge c d = some info' → (100 : Int) < info'.verifiedMatches →
          ¬ BetterStart num qs s.scene a b info c d info' →
          ∃ s1 s2, Hybrid.tryPair num o qs (ViewGraph.run ops) (c, d) s1 = .ok (false, s2)) ∧
      (chosen = false → ∀ c d info', c < d → (ViewGraph.run ops).getEdge c d = some info' →
        (100 : Int) < info'.verifiedMatches →
        ∃ s1 s2, Hybrid.tryPair num o qs (ViewGraph.run ops) (c, d) s1 = .ok (false, s2)) := by
  have hinv := (ViewGraph.rep_run ops).inv
  have h0 : HInv L s.scene.recon s := by
    refine HInv.of ⟨hr, .refl _, ?_⟩ (by rw [hR, List.append_nil]; exact hU) (by rw [hO]; simp)
    intro t T hT he
    rw [hnew.2 t T hT] at he
    cases he
  obtain ⟨pairs, p1, p2, p3⟩ := candidatePairs_ok (qs := qs) hn hinv hgv
  obtain ⟨b, s', h1, h2, h3, h4⟩ := chooseLoop_ok (qs := qs) hn ho hshare pairs h0 hR (fun p hp => (p2 p).1 hp)
  unfold Hybrid.chooseInitial
  rw [p1, Outcome.ok_bind]
  refine ⟨b, s', h1, chooseLoop_orient pairs h1, fun hb => ?_, fun hb c d info hcd he hm =>
    (h3 hb).2 _ ((p2 (c, d)).2 ⟨info, hcd, he, hm⟩)⟩
  obtain ⟨pre, pair, post, e1, e2, e3⟩ := h4 hb
  obtain ⟨info, g1, g2, g3⟩ := (p2 pair).1 (by rw [e1]; simp)
  refine ⟨_, _, info, g1, g2, g3, e2.reconstructed, e2.views, e2.tracks, ?_, e2.inliers, ?_⟩
  · intro t T hT he
    exact Incremental.seedObservers h2.good e2 hT he
  · intro c d info' hcd he hm hbetter
    have hc := (p2 (c, d)).2 ⟨info', hcd, he, hm⟩
    rw [e1] at hc p3
    rcases List.mem_append.1 hc with hc | hc
    · exact e3 _ hc
    · exfalso
      apply hbetter
      rcases List.mem_cons.1 hc with rfl | hc
      · rw [he] at g2
        cases g2
        exact Or.inr ⟨rfl, le_refl _⟩
      · exact (List.pairwise_cons.1 (List.pairwise_append.1 p3).2.1).1 _ hc info info' g2 he

omit [DecidableEq C] in
/-- C81: when the cameras of a pair are set up, no camera but the second moves, and no orientation changes. The second camera
is put either where the solver for two views with known orientations puts it, given the features of exactly the tracks seen in
both, if this has more inliers than the option says and one of the two orientations was estimated; or, if the orientation
of the first camera was estimated, where the two view geometry puts it. -/
theorem C81_cameras (num : Hybrid.Numerics F P M O X L N W D C) (o : Hybrid.Options) (qs : AMap ViewId O)
    (g : ViewGraph (TwoView O X L)) (a b : ViewId) (s s' : State F P M O X)
    (h : Hybrid.setupPair num o qs g (a, b) s = .ok (true, s')) :
    s'.scene.orientation = s.scene.orientation ∧ (∀ v, v ≠ b → s'.scene.position v = s.scene.position v) ∧
    ((∃ A B ms x inliers, s.scene.recon.view a = some A ∧ s.scene.recon.view b = some B ∧
        ((qs.get a).isSome = true ∨ (qs.get b).isSome = true) ∧
        (∀ f1 f2, (f1, f2) ∈ ms ↔ ∃ t, A.getFeature t = some f1 ∧ B.getFeature t = some f2) ∧
        num.relativePosition s.clock (s.scene.orientation a) (s.scene.heap A.intrinsics) (s.scene.orientation b)
          (s.scene.heap B.intrinsics) ms = ⟨some x, inliers⟩ ∧
        o.minTwoViewInliers < inliers.length ∧ s'.scene.position b = x) ∨
      ((qs.get a).isSome = true ∧ ∃ info, g.getEdge a b = some info ∧
        s'.scene.position b = num.toWorld (s.scene.orientation a) info.position2)) := by
  refine ⟨setupPair_orient h, ?_⟩
  unfold Hybrid.setupPair at h
  obtain ⟨⟨b1, s1⟩, h1, h⟩ := Outcome.bind_eq_ok.1 h
  have hor1 := initializeKnown_orient h1
  have hpos1 : ∀ v, v ≠ b → s1.scene.position v = s.scene.position v := by
    intro v hv
    unfold Hybrid.initializeKnown at h1
    split at h1
    · cases h1; rfl
    · split at h1
      · obtain ⟨ms, _, h1⟩ := Outcome.bind_eq_ok.1 h1
        split at h1
        · cases h1
        · simp only at h1
          split at h1
          · cases h1; rfl
          · obtain ⟨s2, h2, h1⟩ := Outcome.bind_eq_ok.1 h1
            cases h1
            rw [(markPair_poses h2).1]
            simp only [Localize.Scene.setPosition]
            exact if_neg hv
      · cases h1
  simp only at h
  split at h
  · next hb =>
    cases h
    cases hb
    refine ⟨hpos1, Or.inl ?_⟩
    unfold Hybrid.initializeKnown at h1
    split at h1
    · cases h1
    · next hk =>
      split at h1
      · next A B info hA hB he =>
        obtain ⟨ms, hms, h1⟩ := Outcome.bind_eq_ok.1 h1
        split at h1
        · cases h1
        · simp only at h1
          split at h1
          · cases h1
          · next x hx =>
            obtain ⟨s2, h2, h1⟩ := Outcome.bind_eq_ok.1 h1
            have e := Outcome.ok.inj h1
            have e1 := congrArg Prod.fst e
            have e2 := congrArg Prod.snd e
            simp only at e1 e2
            subst e2
            refine ⟨A, B, ms, x, (num.relativePosition s.clock (s.scene.orientation a) (s.scene.heap A.intrinsics)
              (s.scene.orientation b) (s.scene.heap B.intrinsics) ms).inliers, hA, hB, ?_, ?_, ?_, ?_, ?_⟩
            · simp only [AMap.contains] at hk
              cases h1 : qs.get a <;> cases h2 : qs.get b <;> simp_all
            · intro f1 f2
              rw [correspondences_mem _ hms]
              constructor
              · rintro ⟨t, _, h⟩; exact ⟨t, h⟩
              · rintro ⟨t, h1, h2⟩
                exact ⟨t, (commonTracks_mem A B t).2 ⟨AMap.mem_keys_iff.2 ⟨_, h1⟩, AMap.mem_keys_iff.2 ⟨_, h2⟩⟩, h1, h2⟩
            · generalize num.relativePosition _ _ _ _ _ ms = e at hx ⊢
              cases e
              cases hx
              rfl
            · exact (Localize.moreThan_true.1 e1).2
            · rw [(markPair_poses h2).1]
              exact if_pos rfl
      · cases h1
  · unfold Hybrid.initializeTwoView at h
    split at h
    · cases h
    · next hk =>
      split at h
      · next A B info hA hB he =>
        obtain ⟨m, _, h⟩ := Outcome.bind_eq_ok.1 h
        obtain ⟨m', _, h⟩ := Outcome.bind_eq_ok.1 h
        obtain ⟨s2, h2, h⟩ := Outcome.bind_eq_ok.1 h
        have e2 := congrArg Prod.snd (Outcome.ok.inj h)
        simp only at e2
        subst e2
        refine ⟨?_, Or.inr ⟨?_, info, he, ?_⟩⟩
        · intro v hv
          rw [(markPair_poses h2).1]
          simp only [Localize.Scene.setPosition, Localize.Scene.setHeap]
          rw [if_neg hv]
          exact hpos1 v hv
        · simpa [AMap.contains, Option.isSome_iff_ne_none] using hk
        · rw [(markPair_poses h2).1, ← hor1]
          exact if_pos rfl
      · cases h

/-- C81: a result does not depend on how many passes are allowed, once they are enough. -/
theorem C81_fuel (num : Hybrid.Numerics F P M O X L N W D C) (o : Hybrid.Options) (g : ViewGraph (TwoView O X L))
    (scene : Localize.Scene F P M O X) (fuel more : Nat) (x : Summary × State F P M O X)
    (h : Hybrid.estimate num o g fuel scene = .ok (some x)) :
    Hybrid.estimate num o g (fuel + more) scene = .ok (some x) := by
  unfold Hybrid.estimate at *
  obtain ⟨_, h1, h⟩ := Outcome.bind_eq_ok.1 h
  obtain ⟨heap, h2, h⟩ := Outcome.bind_eq_ok.1 h
  obtain ⟨⟨ok, qs, scene'⟩, h3, h⟩ := Outcome.bind_eq_ok.1 h
  rw [h1]
  simp only [Outcome.ok_bind, h2, h3]
  simp only at h
  split at h
  · next hok =>
    rw [if_pos hok]
    unfold Hybrid.reconstruct at *
    obtain ⟨⟨b, s1⟩, h4, h⟩ := Outcome.bind_eq_ok.1 h
    rw [h4]
    simp only [Outcome.ok_bind] at h ⊢
    split at h
    · next hb =>
      obtain ⟨y, h5, h⟩ := Outcome.bind_eq_ok.1 h
      cases y with
      | none => cases h
      | some y =>
        rw [if_pos hb, mainLoop_mono fuel h5 more]
        exact h
    · next hb => rw [if_neg hb]; exact h
  · next hok => rw [if_neg hok]; exact h

/-- C81: a run with more passes than views has lost a view that it had reconstructed before. That such a run need not end is
as for incremental reconstruction (`C72_livelock_counterexample`). -/
theorem C81_ends_partial (num : Hybrid.Numerics F P M O X L N W D C) (hn : HybridWellBehaved num) (o : Hybrid.Options)
    (ho : ValidOptions o.common) (ops : List (ViewGraph.Op (TwoView O X L))) (scene : Localize.Scene F P M O X)
    (hr : scene.recon.Reachable) (hnew : NothingEstimated scene.recon) (hgv : GraphViews (ViewGraph.run ops) scene.recon)
    (hshare : ShareTracks (ViewGraph.run ops) scene.recon) (ok : Bool) (qs : AMap ViewId O)
    (hq : num.rotations (ViewGraph.run ops) = .ok (ok, qs)) (fuel : Nat) (hfuel : scene.recon.viewIds.length < fuel)
    (h : Hybrid.estimate num o (ViewGraph.run ops) fuel scene = .ok none) :
    ∃ (s s' : State F P M O X) (v : ViewId), Hybrid.cleanup num.common s = .ok s' ∧ v ∈ s.reconstructed ∧
      v ∈ s'.unlocalized := by
  obtain ⟨x, h1, h2, _⟩ := estimate_ok hn ho (ViewGraph.rep_run ops).inv hr hnew hgv hshare hq fuel
  rw [h] at h1
  exact h2 (Outcome.ok.inj h1).symm hfuel

end Theia
