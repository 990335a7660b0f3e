import Verif.Proof.Incremental

/-!
# C72: incremental reconstruction
-/

namespace Theia

open Spec Incremental

variable {F P M O X L N W D C : Type} [DecidableEq C]

/-- C72: incremental reconstruction of a scene in which nothing is estimated never ends the program, whatever the numerical
parts return. It does not change names, groups, features or observations; only views of the view graph are estimated, every
estimated track has two estimated observers, and each view of the graph is either queued or reconstructed. A successful
summary lists exactly the estimated views and tracks, a failed one lists nothing. -/
theorem C72_estimate (num : Numerics F P M O X L N W D C) (hn : WellBehaved num) (o : Incremental.Options) (ho : ValidOptions o)
    (ops : List (ViewGraph.Op (TwoView O X L))) (scene : Localize.Scene F P M O X) (hr : scene.recon.Reachable)
    (hnew : NothingEstimated scene.recon) (hgv : GraphViews (ViewGraph.run ops) scene.recon) (fuel : Nat) :
    ∃ x, estimate num o (ViewGraph.run ops) fuel scene = .ok x ∧ ∀ summary s, x = some (summary, s) →
      s.scene.recon.Reachable ∧ SameStructure scene.recon s.scene.recon ∧ TracksConstrained s.scene.recon ∧
      (∀ v V, s.scene.recon.view v = some V → V.estimated = true → v ∈ (ViewGraph.run ops).viewIds) ∧
      (s.unlocalized ++ s.reconstructed).Perm (ViewGraph.run ops).viewIds ∧
      (summary.success = true → summary.views.Nodup ∧ summary.tracks.Nodup ∧
        (∀ v, v ∈ summary.views ↔ ∃ V, s.scene.recon.view v = some V ∧ V.estimated = true) ∧
        ∀ t, t ∈ summary.tracks ↔ ∃ T, s.scene.recon.track t = some T ∧ T.estimated = true) ∧
      (summary.success = false → summary.views = [] ∧ summary.tracks = []) := by
  obtain ⟨x, h1, _, h2⟩ := estimate_ok hn ho (ViewGraph.rep_run ops).inv hr hnew hgv fuel
  refine ⟨x, h1, ?_⟩
  intro summary s hx
  obtain ⟨hi, hs, hf⟩ := h2 summary s hx
  refine ⟨hi.good.reach, hi.good.same, hi.good.tracks, hi.est, hi.perm, ?_, ?_⟩
  · intro h
    obtain ⟨e, _⟩ := hs h
    have hinv := Reconstruction.inv_of_reachable hi.good.reach
    rw [e]
    refine ⟨hinv.wfViews.filter _, hinv.wfTracks.filter _, ?_, ?_⟩
    · intro v
      simp only [SelectTracks.estimatedViews, List.mem_filter]
      constructor
      · rintro ⟨_, h⟩
        cases hV : s.scene.recon.view v with
        | none => rw [hV] at h; cases h
        | some V => rw [hV] at h; exact ⟨V, rfl, h⟩
      · rintro ⟨V, hV, he⟩
        exact ⟨AMap.mem_keys_iff.2 ⟨V, hV⟩, by rw [hV]; exact he⟩
    · intro t
      simp only [EstimatorUtils.estimatedTracks, List.mem_filter]
      constructor
      · rintro ⟨_, h⟩
        cases hT : s.scene.recon.track t with
        | none => rw [hT] at h; cases h
        | some T => rw [hT] at h; exact ⟨T, rfl, h⟩
      · rintro ⟨T, hT, he⟩
        exact ⟨AMap.mem_keys_iff.2 ⟨T, hT⟩, by rw [hT]; exact he⟩
  · intro h
    obtain ⟨e, _⟩ := hf h
    rw [e]
    exact ⟨rfl, rfl⟩

/-- C72: when reconstruction succeeds, every view of the view graph that sees thirty estimated tracks and was not
reconstructed has failed to be localized against these tracks. What is missing for all views that are not estimated is that
the clean-up queues every view it drops, which it does not (`C28_requeue_counterexample`). -/
theorem C72_exhaustive_partial (num : Numerics F P M O X L N W D C) (hn : WellBehaved num) (o : Incremental.Options)
    (ho : ValidOptions o) (ops : List (ViewGraph.Op (TwoView O X L))) (scene : Localize.Scene F P M O X)
    (hr : scene.recon.Reachable) (hnew : NothingEstimated scene.recon) (hgv : GraphViews (ViewGraph.run ops) scene.recon)
    (fuel : Nat) (summary : Summary) (s : State F P M O X)
    (h : estimate num o (ViewGraph.run ops) fuel scene = .ok (some (summary, s))) (hs : summary.success = true) (v : ViewId)
    (hv : v ∈ (ViewGraph.run ops).viewIds) (hq : v ∉ s.reconstructed) (V : View F) (hV : s.scene.recon.view v = some V)
    (henough : 30 ≤ (estimatedTracksIn s.scene.recon V).length) : LocalizationFails num o s.scene.recon v := by
  obtain ⟨x, h1, _, h2⟩ := estimate_ok hn ho (ViewGraph.rep_run ops).inv hr hnew hgv fuel
  rw [h] at h1
  obtain ⟨hi, hs', _⟩ := h2 summary s (Outcome.ok.inj h1).symm
  obtain ⟨_, hf, _⟩ := hs' hs
  refine hf v ?_ ?_
  · rcases List.mem_append.1 (hi.perm.mem_iff.2 hv) with h | h
    · exact h
    · exact absurd h hq
  · unfold seesEnough
    rw [hV]
    exact decide_eq_true henough

/-- C72: reconstruction succeeds only if two views have more than a hundred matches, and, if every bundle adjustment
succeeds, it fails only if each such pair was tried and rejected. -/
theorem C72_failure (num : Numerics F P M O X L N W D C) (hn : WellBehaved num) (o : Incremental.Options)
    (ho : ValidOptions o) (ops : List (ViewGraph.Op (TwoView O X L))) (scene : Localize.Scene F P M O X)
    (hr : scene.recon.Reachable) (hnew : NothingEstimated scene.recon) (hgv : GraphViews (ViewGraph.run ops) scene.recon)
    (fuel : Nat) (summary : Summary) (s : State F P M O X)
    (h : estimate num o (ViewGraph.run ops) fuel scene = .ok (some (summary, s))) :
    (summary.success = true → ∃ a b info, a < b ∧ (ViewGraph.run ops).getEdge a b = some info ∧
      (100 : Int) < info.verifiedMatches) ∧
    (summary.success = false → ¬ AdjustFails num → ∀ a b info, a < b → (ViewGraph.run ops).getEdge a b = some info →
      (100 : Int) < info.verifiedMatches → ∃ s1 s2, tryPair num o (ViewGraph.run ops) (a, b) s1 = .ok (false, s2)) := by
  have hinv := (ViewGraph.rep_run ops).inv
  obtain ⟨x, h1, _, h2⟩ := estimate_ok hn ho hinv hr hnew hgv fuel
  rw [h] at h1
  obtain ⟨_, hs, hf⟩ := h2 summary s (Outcome.ok.inj h1).symm
  refine ⟨fun h => ?_, fun h hadj a b info hab hedge hm => ?_⟩
  · obtain ⟨_, _, pair, hp⟩ := hs h
    obtain ⟨info, e1, e2, e3, _⟩ := edge_of_candidate hinv hp
    exact ⟨_, _, info, e3, e1, e2⟩
  · rcases (hf h).2 with h | h
    · exact absurd h hadj
    · exact h _ (candidate_of_edge hab hedge hm)

/-- C72: the initial pair has more than a hundred matches, and each such pair that is better (fewer inliers of a homography,
or as many and more matches) was tried before it and rejected. After the choice exactly its two views are estimated, and more
than a hundred tracks, each seen in both; none of them is an outlier. If no pair is chosen, each pair with so many matches was rejected. -/
theorem C72_seed (num : Numerics F P M O X L N W D C) (hn : WellBehaved num) (o : Incremental.Options) (ho : ValidOptions o)
    (ops : List (ViewGraph.Op (TwoView O X L))) (s : State F P M O X) (hr : s.scene.recon.Reachable)
    (hnew : NothingEstimated s.scene.recon) (hgv : GraphViews (ViewGraph.run ops) s.scene.recon)
    (hU : s.unlocalized.Perm (ViewGraph.run ops).viewIds) (hR : s.reconstructed = []) (hO : s.numOptimized = 0) :
    ∃ chosen s', chooseInitial num o (ViewGraph.run ops) s = .ok (chosen, s') ∧
      (chosen = true → ∃ a b info, a < b ∧ (ViewGraph.run ops).getEdge a b = some info ∧ (100 : Int) < info.verifiedMatches ∧
        s'.reconstructed = [a, b] ∧ (∀ v V, s'.scene.recon.view v = some V → (V.estimated = true ↔ v = a ∨ v = b)) ∧
        100 < (EstimatorUtils.estimatedTracks s'.scene.recon).length ∧
        (∀ t T, s'.scene.recon.track t = some T → T.estimated = true → a ∈ T.views ∧ b ∈ T.views) ∧
        (CamerasOnly num → NoOutliers num o.maxError s'.scene) ∧
        ∀ c d info', c < d → (ViewGraph.run ops).getEdge c d = some info' → (100 : Int) < info'.verifiedMatches →
          ¬ BetterSeed info info' → ∃ s1 s2, tryPair num o (ViewGraph.run ops) (c, d) s1 = .ok (false, s2)) ∧
      (chosen = false → ∀ c d info', c < d → (ViewGraph.run ops).getEdge c d = some info' →
        (100 : Int) < info'.verifiedMatches → ∃ s1 s2, tryPair num o (ViewGraph.run ops) (c, d) s1 = .ok (false, s2)) := by
  have hinv := (ViewGraph.rep_run ops).inv
  have h0 : Inv (ViewGraph.run ops) s.scene.recon s := by
    refine ⟨⟨hr, .refl _, ?_⟩, by rw [hR, List.append_nil]; exact hU, by rw [hO]; simp, ?_⟩
    · intro t T hT he
      rw [hnew.2 t T hT] at he
      cases he
    · intro v V hV he
      rw [hnew.1 v V hV] at he
      cases he
  obtain ⟨b, s', h1, h2, h3, h4⟩ := chooseLoop_ok hn ho hinv hgv (candidatePairs _) h0 hR (fun _ h => h)
  refine ⟨b, s', h1, fun hb => ?_, fun hb c d info hcd he hm => (h3 hb).2 _ (candidate_of_edge hcd he hm)⟩
  obtain ⟨pre, pair, post, e1, e2, e3⟩ := h4 hb
  obtain ⟨info, g1, g2, g3, _⟩ := edge_of_candidate hinv (p := pair) (by rw [e1]; simp)
  refine ⟨_, _, info, g3, g1, g2, e2.reconstructed, e2.views, e2.tracks, ?_, e2.inliers, ?_⟩
  · intro t T hT he
    exact seedObservers h2.good e2 hT he
  · intro c d info' hcd he hm hbetter
    have hc := candidate_of_edge hcd he hm
    have hsorted := candidatePairs_sorted hinv
    rw [e1] at hc hsorted
    rcases List.mem_append.1 hc with hc | hc
    · exact e3 _ hc
    · exfalso
      apply hbetter
      rcases List.mem_cons.1 hc with rfl | hc
      · rw [he] at g1
        cases g1
        exact Or.inr ⟨rfl, le_refl _⟩
      · exact (List.pairwise_cons.1 (List.pairwise_append.1 hsorted).2.1).1 _ hc info info' g1 he

omit [DecidableEq C] in
/-- C72: the views tried next are exactly the queued views that see thirty estimated tracks, each once, in the order of
decreasing score of where these tracks are seen. -/
theorem C72_best_view (num : Numerics F P M O X L N W D C) (hn : ∀ k l, (num.order k l).Perm l) (s : State F P M O X)
    (hr : s.scene.recon.Reachable) (hU : ∀ v ∈ s.unlocalized, ∃ V, s.scene.recon.view v = some V)
    (hnd : s.unlocalized.Nodup) :
    ∃ vs, findViews num s = .ok vs ∧ vs.Nodup ∧
      (∀ v, v ∈ vs ↔ v ∈ s.unlocalized ∧ ∃ V, s.scene.recon.view v = some V ∧
        30 ≤ (estimatedTracksIn s.scene.recon V).length) ∧
      vs.Pairwise fun a b => ∀ A B, s.scene.recon.view a = some A → s.scene.recon.view b = some B →
        num.score (s.scene.heap B.intrinsics) (estimatedFeatures s.scene.recon B) ≤
          num.score (s.scene.heap A.intrinsics) (estimatedFeatures s.scene.recon A) := by
  obtain ⟨vs, h1, h2, h3⟩ := findViews_ok hn hr hU
  refine ⟨vs, h1, h2.nodup_iff.2 (hnd.filter _), ?_, ?_⟩
  · intro v
    rw [h2.mem_iff, List.mem_filter]
    refine and_congr_right fun hv => ?_
    obtain ⟨V, hV⟩ := hU v hv
    unfold seesEnough
    rw [hV]
    simp
  · refine h3.imp ?_
    intro a b hab A B hA hB
    unfold viewScore at hab
    rw [hA, hB] at hab
    simp only at hab
    omega

/-- C72: as long as the views added since the last full bundle adjustment are fewer than the given percentage of the
views adjusted then, triangulation and bundle adjustment after a new view move no camera but those of the last views added,
as many as the option says. Otherwise all views count as adjusted, and no estimated track is an outlier. -/
theorem C72_growth (num : Numerics F P M O X L N W D C) (hn : WellBehaved num) (o : Incremental.Options) (ho : ValidOptions o)
    (s : State F P M O X) (hr : s.scene.recon.Reachable) (htracks : TracksConstrained s.scene.recon)
    (hR : ∀ w ∈ s.reconstructed, ∃ V, s.scene.recon.view w = some V) (hO : 0 ≤ s.numOptimized)
    (hle : s.numOptimized ≤ s.reconstructed.length) (hsize : s.reconstructed.length < 2 ^ 64) (v : ViewId)
    (hv : ∃ V, s.scene.recon.view v = some V) :
    ∃ b s', extend num o v s = .ok (b, s') ∧ s'.reconstructed = s.reconstructed ∧
      (100 * ((s.reconstructed.length : ℚ) - s.numOptimized) < o.growthPercent * s.numOptimized →
        s'.numOptimized = s.numOptimized ∧
        ∀ w, w ∉ s.reconstructed.drop (s.reconstructed.length - o.partialViews.toNat) →
          s'.scene.orientation w = s.scene.orientation w ∧ s'.scene.position w = s.scene.position w) ∧
      (o.growthPercent * s.numOptimized ≤ 100 * ((s.reconstructed.length : ℚ) - s.numOptimized) →
        s'.numOptimized = s.reconstructed.length ∧ (CamerasOnly num → NoOutliers num o.maxError s'.scene)) := by
  have hg : Good s.scene.recon s.scene.recon := ⟨hr, .refl _, htracks⟩
  obtain ⟨V, hV⟩ := hv
  have hsmall := smallGrowth_iff o hO hle hsize
  unfold extend
  split
  · next h =>
    obtain ⟨s3, g1, g2, g3⟩ := estimateStructure_ok hn ho hg hV
    obtain ⟨b, s4, g4, g5, g6⟩ := partialBundle_ok hn ho g2.good (fun w hw => hR w (g2.reconstructed ▸ hw))
    rw [g1, Outcome.ok_bind, g4]
    refine ⟨b, s4, rfl, by rw [g5.reconstructed, g2.reconstructed], fun _ => ⟨by rw [g6, g3], ?_⟩, fun h' => ?_⟩
    · intro w hw
      have e1 := estimateStructure_poses g1
      have e2 := partialBundle_poses hn g4 w (by rw [g2.reconstructed]; exact hw)
      rw [e2.1, e2.2, e1.orientation, e1.position]
      exact ⟨rfl, rfl⟩
    · exact absurd (hsmall.1 h) (not_lt.2 h')
  · next h =>
    obtain ⟨s3, g1, g2, g3⟩ := estimateAll_ok hn ho hg
    obtain ⟨b, s4, g4, g5, g6, g7⟩ := fullBundle_ok hn o g2.good
    rw [g1, Outcome.ok_bind, g4]
    refine ⟨b, s4, rfl, by rw [g5.reconstructed, g2.reconstructed], fun h' => absurd (hsmall.2 h') h, fun _ => ⟨?_, g7⟩⟩
    rw [g6, g5.reconstructed, g2.reconstructed]

/-- C72: a result does not depend on how many passes are allowed, once they are enough. -/
theorem C72_fuel (num : Numerics F P M O X L N W D C) (o : Incremental.Options) (g : ViewGraph (TwoView O X L))
    (scene : Localize.Scene F P M O X) (fuel more : Nat) (x : Summary × State F P M O X)
    (h : estimate num o g fuel scene = .ok (some x)) : estimate num o g (fuel + more) scene = .ok (some x) := by
  unfold estimate at *
  obtain ⟨_, h1, h⟩ := Outcome.bind_eq_ok.1 h
  obtain ⟨heap, h2, h⟩ := Outcome.bind_eq_ok.1 h
  rw [h1]
  simp only [Outcome.ok_bind, h2]
  unfold reconstruct at *
  obtain ⟨⟨b, s1⟩, h3, h⟩ := Outcome.bind_eq_ok.1 h
  simp only at h3 ⊢
  rw [h3]
  simp only [Outcome.ok_bind] at h ⊢
  split at h
  · next hb =>
    obtain ⟨y, h4, h⟩ := Outcome.bind_eq_ok.1 h
    cases y with
    | none => cases h
    | some y =>
      rw [if_pos hb, mainLoop_mono fuel h4 more]
      exact h
  · next hb => rw [if_neg hb]; exact h

/-- C72: a run with more passes than views has lost a view that it had reconstructed before. That this can go on forever is
`C72_livelock_counterexample`. -/
theorem C72_ends_partial (num : Numerics F P M O X L N W D C) (hn : WellBehaved num) (o : Incremental.Options)
    (ho : ValidOptions o) (ops : List (ViewGraph.Op (TwoView O X L))) (scene : Localize.Scene F P M O X)
    (hr : scene.recon.Reachable) (hnew : NothingEstimated scene.recon) (hgv : GraphViews (ViewGraph.run ops) scene.recon)
    (fuel : Nat) (hfuel : (ViewGraph.run ops).viewIds.length < fuel)
    (h : estimate num o (ViewGraph.run ops) fuel scene = .ok none) :
    ∃ (s s' : State F P M O X) (v : ViewId), cleanup num (ViewGraph.run ops) s = .ok s' ∧ v ∈ s.reconstructed ∧
      v ∈ s'.unlocalized := by
  obtain ⟨x, h1, h2, _⟩ := estimate_ok hn ho (ViewGraph.rep_run ops).inv hr hnew hgv fuel
  rw [h] at h1
  exact h2 (Outcome.ok.inj h1).symm hfuel

end Theia
