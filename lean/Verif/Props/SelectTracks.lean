import Verif.Proof.SelectTracks

/-!
# C27: tracks selected for bundle adjustment
-/

namespace Theia

open Spec

variable {F P C : Type}

/-- C27: for any reconstruction, any views in any order whose estimated tracks are observed by some estimated view, any
reprojection errors and image grid, any tracks selected beforehand and any `min_num_optimized_tracks_per_view`, the
selection succeeds, keeps what was selected, adds only estimated tracks observed by the views, leaves
each view with the requested number of selected tracks (or with all its estimated tracks if it has
fewer), and selects in each occupied grid cell of each view a track that comes first by (length, mean
error). -/
theorem C27_any_views [DecidableEq C] (r : Reconstruction F P) (hr : r.Reachable)
    (err : ViewId → TrackId → ℚ) (cell : F → C) (longTrack : Nat) (minTracks : Int)
    (views : List ViewId) (hviews : ∀ v ∈ views, ∃ V, r.view v = some V)
    (hobs : ∀ v ∈ views, ∀ t, Observes r v t → isEstimatedTrack r t = true →
      ∃ w W, r.view w = some W ∧ W.estimated = true ∧ Observes r w t)
    (sel : List TrackId) :
    ∃ sel', SelectTracks.selectForViews r err cell longTrack minTracks views sel = .ok sel' ∧
      (∀ t ∈ sel, t ∈ sel') ∧
      (∀ t ∈ sel', t ∈ sel ∨ (isEstimatedTrack r t = true ∧ ∃ v ∈ views, Observes r v t)) ∧
      (∀ v ∈ views, ∀ V, r.view v = some V →
        min minTracks (estimatedTracksIn r V).length ≤ selectedTracksIn r V sel') ∧
      (∀ v ∈ views, ∀ V, r.view v = some V → ∀ t f, V.getFeature t = some f →
        isEstimatedTrack r t = true → ∃ t' f', V.getFeature t' = some f' ∧
          isEstimatedTrack r t' = true ∧ t' ∈ sel' ∧ cell f' = cell f ∧
          ShorterOrBetter r err longTrack t' t) := by
  have hinv := Reconstruction.inv_of_reachable hr
  obtain ⟨stats, h1, _, h3, h4⟩ := SelectTracks.trackStatistics_ok hinv err longTrack views .empty (by
      intro v hv
      obtain ⟨V, hV⟩ := hviews v hv
      refine ⟨V, hV, fun t ht T hT he => ?_⟩
      obtain ⟨f, hf⟩ := AMap.mem_keys_iff.1 ht
      obtain ⟨w, W, hW, hWe, W', g, hW', hg⟩ := hobs v hv t ⟨V, f, hV, hf⟩ (SelectTracks.est_iff.2 ⟨T, hT, he⟩)
      obtain ⟨T', hT', hw⟩ := (hinv.sym w t).1 ⟨W', hW', AMap.mem_keys_iff.2 ⟨g, hg⟩⟩
      have : r.tracks.get t = some T := hT
      rw [this] at hT'
      cases hT'
      refine List.length_pos_of_mem (a := w) ?_
      unfold estimatedObservers
      rw [List.mem_filter]
      exact ⟨hw, by rw [hW]; exact hWe⟩)
    (by intro t s h; simp at h)
  obtain ⟨s1, a1, a2, a3, a4⟩ := SelectTracks.forViews_ok (r := r)
    (f := fun V sel => SelectTracks.bestInCells r V cell stats sel)
    (R := fun V s => SelectTracks.Covered r err longTrack cell V s)
    (by
      intro V s s' hss hR t f hf he
      obtain ⟨t', f', b1, b2, b3, b4⟩ := hR t f hf he
      exact ⟨t', f', b1, b2, hss _ b3, b4⟩)
    views sel (by
      intro v hv
      obtain ⟨V, hV⟩ := hviews v hv
      exact ⟨V, hV, fun sel _ => SelectTracks.bestInCells_ok cell (h3 v hv V hV) h4 sel⟩)
  obtain ⟨s2, b1, b2, b3, b4⟩ := SelectTracks.forViews_ok (r := r)
    (f := fun V sel => SelectTracks.topRanked r stats V minTracks sel)
    (R := fun V s => min minTracks (estimatedTracksIn r V).length ≤ selectedTracksIn r V s)
    (by
      intro V s s' hss hR
      have := SelectTracks.selectedTracksIn_mono (r := r) (V := V) hss
      omega)
    views s1 (by
      intro v hv
      obtain ⟨V, hV⟩ := hviews v hv
      exact ⟨V, hV, fun s hs => SelectTracks.topRanked_ok (hinv.wfFeat v V hV) (h3 v hv V hV) minTracks s
        (SelectTracks.selected_of_covered (err := err) (longTrack := longTrack) (cell := cell) (by
          intro t f hf he
          obtain ⟨t', f', b1, b2, b3, b4⟩ := a4 v hv V hV t f hf he
          exact ⟨t', f', b1, b2, hs _ b3, b4⟩))⟩)
  refine ⟨s2, ?_, fun t ht => b2 t (a2 t ht), ?_, b4, ?_⟩
  · rw [SelectTracks.selectForViews, h1]
    simp only [a1]
    exact b1
  · intro t ht
    rcases b3 t ht with h | h
    · exact a3 t h
    · exact Or.inr h
  · intro v hv V hV t f hf he
    obtain ⟨t', f', c1, c2, c3, c4⟩ := a4 v hv V hV t f hf he
    exact ⟨t', f', c1, c2, b2 _ c3, c4⟩

/-- C27 for estimated views. -/
theorem C27_selection [DecidableEq C] (r : Reconstruction F P) (hr : r.Reachable)
    (err : ViewId → TrackId → ℚ) (cell : F → C) (longTrack : Nat) (minTracks : Int)
    (views : List ViewId) (hviews : ∀ v ∈ views, ∃ V, r.view v = some V ∧ V.estimated = true)
    (sel : List TrackId) :
    ∃ sel', SelectTracks.selectForViews r err cell longTrack minTracks views sel = .ok sel' ∧
      (∀ t ∈ sel, t ∈ sel') ∧
      (∀ t ∈ sel', t ∈ sel ∨ (isEstimatedTrack r t = true ∧ ∃ v ∈ views, Observes r v t)) ∧
      (∀ v ∈ views, ∀ V, r.view v = some V →
        min minTracks (estimatedTracksIn r V).length ≤ selectedTracksIn r V sel') ∧
      (∀ v ∈ views, ∀ V, r.view v = some V → ∀ t f, V.getFeature t = some f →
        isEstimatedTrack r t = true → ∃ t' f', V.getFeature t' = some f' ∧
          isEstimatedTrack r t' = true ∧ t' ∈ sel' ∧ cell f' = cell f ∧
          ShorterOrBetter r err longTrack t' t) := by
  refine C27_any_views r hr err cell longTrack minTracks views (fun v hv => ?_) (fun v hv t ht _ => ?_) sel
  · obtain ⟨V, hV, _⟩ := hviews v hv
    exact ⟨V, hV⟩
  · obtain ⟨V, hV, he⟩ := hviews v hv
    exact ⟨v, V, hV, he, ht⟩

/-- C27 for the overload without a list of views: every estimated view gets its tracks. -/
theorem C27_all_views [DecidableEq C] (r : Reconstruction F P) (hr : r.Reachable)
    (err : ViewId → TrackId → ℚ) (cell : F → C) (longTrack : Nat) (minTracks : Int)
    (sel : List TrackId) :
    ∃ sel', SelectTracks.select r err cell longTrack minTracks sel = .ok sel' ∧
      (∀ t ∈ sel', t ∈ sel ∨ isEstimatedTrack r t = true) ∧
      ∀ v V, r.view v = some V → V.estimated = true →
        min minTracks (estimatedTracksIn r V).length ≤ selectedTracksIn r V sel' := by
  obtain ⟨sel', h1, _, h3, h4, _⟩ := C27_selection r hr err cell longTrack minTracks
    (SelectTracks.estimatedViews r) (by
      intro v hv
      obtain ⟨_, hv⟩ := List.mem_filter.1 hv
      split at hv
      · next V hV => exact ⟨V, hV, hv⟩
      · cases hv) sel
  refine ⟨sel', h1, ?_, ?_⟩
  · intro t ht
    rcases h3 t ht with h | h
    · exact Or.inl h
    · exact Or.inr h.1
  · intro v V hV he
    refine h4 v ?_ V hV
    unfold SelectTracks.estimatedViews
    rw [List.mem_filter]
    exact ⟨AMap.mem_keys_iff.2 ⟨V, hV⟩, by rw [hV]; exact he⟩

/-- A reconstruction with three estimated views; track 0 is seen by all of them, tracks 1 and 2 by two,
all three tracks are estimated. -/
def selectOps : List (Reconstruction.Op Nat Unit) :=
  [.addView "a", .addView "b", .addView "c", .setViewEstimated 0 true, .setViewEstimated 1 true,
   .setViewEstimated 2 true, .addTrack () [(0, 10), (1, 10), (2, 10)], .addTrack () [(0, 11), (1, 11)],
   .addTrack () [(0, 25), (1, 25)], .setTrackEstimated 0 true (), .setTrackEstimated 1 true (),
   .setTrackEstimated 2 true ()]

def selectExample : Reconstruction Nat Unit :=
  match Reconstruction.run (Reconstruction.empty : Reconstruction Nat Unit) selectOps with
  | .ok (_, r) => r
  | _ => Reconstruction.empty

theorem selectExample_reachable : selectExample.Reachable := ⟨selectOps, _, rfl⟩

/-- The hypotheses of C27 hold for it with all three views, and tracks 1 and 2 are selected for the two
grid cells of the first view (10-19 and 20-29), and track 0 for the third view. -/
example : (∀ v ∈ [0, 1, 2], ∃ V, selectExample.view v = some V ∧ V.estimated = true) ∧
    SelectTracks.selectForViews selectExample (fun _ _ => 1) (fun f => f / 10) 10 1 [0, 1, 2] [] =
      .ok [1, 2, 0] := by
  refine ⟨?_, by decide +kernel⟩
  intro v hv
  simp only [List.mem_cons, List.not_mem_nil, or_false] at hv
  rcases hv with rfl | rfl | rfl <;> exact ⟨_, rfl, rfl⟩

/-- C27: the header says "Long tracks are preferred", but within a cell the code takes the shortest one: track 1
(two views) is selected in the first view instead of track 0 (three views) with the same error. -/
theorem C27_shortest_track_counterexample :
    ∃ sel, SelectTracks.selectForViews selectExample (fun _ _ => 1) (fun f => f / 10) 10 1 [0] [] = .ok sel ∧
      1 ∈ sel ∧ 0 ∉ sel ∧ cappedLength selectExample 10 1 < cappedLength selectExample 10 0 ∧
      meanError selectExample (fun _ _ => 1) 1 = meanError selectExample (fun _ _ => 1) 0 :=
  ⟨[1, 2], by decide +kernel, by decide, by decide, by decide +kernel, by decide +kernel⟩

/-- C27: the tracks added to reach the requested number are taken by increasing track id, not by length
or error: of tracks 0 and 2, track 0 is taken although its error is larger. -/
theorem C27_ranked_by_id_counterexample :
    ∃ sel, SelectTracks.selectForViews selectExample (fun _ t => if t = 0 then 9 else t) (fun _ => 0) 2 2 [0] [] =
        .ok sel ∧ 0 ∈ sel ∧ 2 ∉ sel ∧ cappedLength selectExample 2 0 = cappedLength selectExample 2 2 ∧
      meanError selectExample (fun _ t => if t = 0 then 9 else t) 2 <
        meanError selectExample (fun _ t => if t = 0 then 9 else t) 0 :=
  ⟨[1, 0], by decide +kernel, by decide, by decide, by decide +kernel, by decide +kernel⟩

end Theia
