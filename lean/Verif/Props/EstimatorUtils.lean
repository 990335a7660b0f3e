import Verif.Proof.EstimatorUtils

/-!
# C71: the helpers of the estimators change exactly the estimates they name
-/

namespace Theia

open Spec EstimatorUtils

variable {F P M O X N D I : Type}

open Classical in
/-- C71: for every reconstruction, every set of its tracks and every geometry, the removal of outliers succeeds and sets
to unestimated exactly the estimated tracks of the set that are outliers. The number returned is their number. Nothing
else changes: the views, the points and all other tracks are as before. -/
theorem C71_outliers (geo : OutlierGeometry F P D) (hsym : ∀ a b, geo.wide a b = geo.wide b a) (maxError : ℚ)
    (r : Reconstruction F P) (hr : r.Reachable) (ids : List TrackId) (hnd : ids.Nodup)
    (hids : ∀ t ∈ ids, ∃ T, r.track t = some T) :
    ∃ n r', removeOutliers geo maxError ids r = .ok (n, r') ∧ r'.Reachable ∧ SameStructure r r' ∧
      (∀ v, r'.view v = r.view v) ∧
      (∀ t T, r.track t = some T → ∃ b, r'.track t = some { T with estimated := b } ∧
        (b = true ↔ T.estimated = true ∧ ¬ (t ∈ ids ∧ IsOutlier geo maxError r t T))) ∧
      n = (ids.filter fun t => decide (∃ T, r.track t = some T ∧ T.estimated = true ∧ IsOutlier geo maxError r t T)).length := by
  obtain ⟨r', h1, h2⟩ := outlierLoop_ok geo hsym maxError ids r 0 (Reconstruction.inv_of_reachable hr) hnd hids
  refine ⟨_, r', h1, h2.reach hr, h2.same, ?_, h2.tracks, ?_⟩
  · intro v
    unfold Reconstruction.view
    rw [h2.views]
  · rw [zero_add, List.countP_eq_length_filter]
    congr 1
    apply List.filter_congr
    intro t ht
    obtain ⟨T, hT⟩ := hids t ht
    rw [hT]
    simp

/-- C71, the overload for all tracks. -/
theorem C71_all_outliers (geo : OutlierGeometry F P D) (hsym : ∀ a b, geo.wide a b = geo.wide b a) (maxError : ℚ)
    (r : Reconstruction F P) (hr : r.Reachable) :
    ∃ n r', removeAllOutliers geo maxError r = .ok (n, r') ∧ r'.Reachable ∧ SameStructure r r' ∧
      (∀ v, r'.view v = r.view v) ∧
      ∀ t T, r.track t = some T → ∃ b, r'.track t = some { T with estimated := b } ∧
        (b = true ↔ T.estimated = true ∧ ¬ IsOutlier geo maxError r t T) := by
  obtain ⟨n, r', h1, h2, h3, h4, h5, _⟩ := C71_outliers geo hsym maxError r hr r.trackIds
    (Reconstruction.inv_of_reachable hr).wfTracks (fun t ht => AMap.mem_keys_iff.1 ht)
  refine ⟨n, r', h1, h2, h3, h4, ?_⟩
  intro t T hT
  obtain ⟨b, hb, hb'⟩ := h5 t T hT
  have : t ∈ r.trackIds := AMap.mem_keys_iff.2 ⟨T, hT⟩
  exact ⟨b, hb, by rw [hb']; simp [this]⟩

/-- C71: an id that is not a track is a null pointer that is dereferenced. -/
theorem C71_outliers_missing (geo : OutlierGeometry F P D) (hsym : ∀ a b, geo.wide a b = geo.wide b a) (maxError : ℚ)
    (r : Reconstruction F P) (hr : r.Reachable) (ids : List TrackId)
    (hids : ∃ t ∈ ids, r.track t = none) : removeOutliers geo maxError ids r = .ub := by
  unfold removeOutliers
  have key : ∀ (ts : List TrackId) (r : Reconstruction F P) (n : Nat), r.Inv → (∃ t ∈ ts, r.track t = none) →
      outlierLoop geo (maxError * maxError) ts r n = .ub := by
    intro ts
    induction ts with
    | nil => rintro r n _ ⟨t, ht, _⟩; cases ht
    | cons t ts ih =>
      rintro r n hr ⟨u, hu, hnu⟩
      rw [outlierLoop]
      cases hT : r.track t with
      | none => rfl
      | some T =>
        have hu' : u ∈ ts := by
          rcases List.mem_cons.1 hu with rfl | h
          · rw [hT] at hnu; cases hnu
          · exact h
        simp only
        split
        · obtain ⟨a, ha, _⟩ := rejected_iff geo hsym maxError hr hT
          simp only [ha]
          split
          · obtain ⟨r1, h1, d1⟩ := tracksLowered_set hT
            rw [h1]
            apply ih r1 _ (Reconstruction.inv_setTrackEstimated hr h1) ⟨u, hu', ?_⟩
            cases hU : r1.track u with
            | none => rfl
            | some U =>
              obtain ⟨U0, hU0, _⟩ := d1.same.tracks_of hU
              rw [hU0] at hnu
              cases hnu
          · exact ih r n hr ⟨u, hu', hnu⟩
        · exact ih r n hr ⟨u, hu', hnu⟩
  exact key ids r 0 (Reconstruction.inv_of_reachable hr) hids

/-- C71: keeping a selection of tracks in some views sets to unestimated exactly the tracks outside the selection that an
estimated view among them observes. -/
theorem C71_keep (r : Reconstruction F P) (hr : r.Reachable) (keep : List TrackId) (views : List ViewId) :
    ∃ r', lowerTracksInViews keep views r = .ok r' ∧ r'.Reachable ∧ SameStructure r r' ∧
      (∀ v, r'.view v = r.view v) ∧
      ∀ t T, r.track t = some T → ∃ b, r'.track t = some { T with estimated := b } ∧
        (b = true ↔ T.estimated = true ∧ (t ∈ keep ∨ ∀ v ∈ views, ∀ V, r.view v = some V → V.estimated = true →
          ¬ Observes r v t)) := by
  obtain ⟨r', h1, h2⟩ := lowerTracksInViews_ok keep views r
  refine ⟨r', h1, h2.reach hr, h2.same, ?_, ?_⟩
  · intro v
    unfold Reconstruction.view
    rw [h2.views]
  · intro t T hT
    obtain ⟨b, hb, hb'⟩ := h2.tracks t T hT
    refine ⟨b, hb, hb'.trans (and_congr_right fun _ => ?_)⟩
    constructor
    · intro h
      by_cases hk : t ∈ keep
      · exact Or.inl hk
      · right
        rintro v hv V hV he ⟨V', f, hV', hf⟩
        rw [hV] at hV'
        cases Option.some.inj hV'
        exact h ⟨hk, v, hv, V, hV, he, AMap.mem_keys_iff.2 ⟨f, hf⟩⟩
    · rintro (h | h) ⟨hk, v, hv, V, hV, he, ht⟩
      · exact hk h
      · obtain ⟨f, hf⟩ := AMap.mem_keys_iff.1 ht
        exact h v hv V hV he ⟨V, f, hV, hf⟩

/-- C71: the numbers of estimated views and tracks are counted right, and the estimated tracks are listed once. -/
theorem C71_counts (r : Reconstruction F P) (hr : r.Reachable) :
    numEstimatedViews r = (r.viewIds.filter fun v => (r.view v).any (·.estimated)).length ∧
    numEstimatedTracks r = (r.trackIds.filter fun t => (r.track t).any (·.estimated)).length ∧
    (estimatedTracks r).Nodup ∧
    ∀ t, t ∈ estimatedTracks r ↔ ∃ T, r.track t = some T ∧ T.estimated = true := by
  refine ⟨?_, ?_, (Reconstruction.inv_of_reachable hr).wfTracks.filter _, ?_⟩
  · rw [← List.countP_eq_length_filter]
    have := foldl_count (fun v => (r.view v).any (·.estimated)) r.viewIds 0
    rw [zero_add] at this
    rw [← this]
    unfold numEstimatedViews
    congr 1
    funext n v
    cases r.view v <;> rfl
  · rw [← List.countP_eq_length_filter]
    have := foldl_count (fun t => (r.track t).any (·.estimated)) r.trackIds 0
    rw [zero_add] at this
    rw [← this]
    unfold numEstimatedTracks
    congr 1
    funext n v
    cases r.track v <;> rfl
  · intro t
    unfold estimatedTracks
    rw [List.mem_filter]
    constructor
    · rintro ⟨_, h⟩
      split at h
      · next T hT => exact ⟨T, hT, h⟩
      · cases h
    · rintro ⟨T, hT, he⟩
      exact ⟨AMap.mem_keys_iff.2 ⟨T, hT⟩, by rw [hT]; exact he⟩

/-- C71: if no view that has a position is estimated, setting the poses gives exactly the views with a position and an
orientation their pose and the flag, and changes nothing else. -/
theorem C71_poses (s : Localize.Scene F P M O X) (hr : s.recon.Reachable) (orientations : AMap ViewId O)
    (positions : AMap ViewId X) (hwf : positions.WF)
    (hun : ∀ v V, v ∈ positions.keys → s.recon.view v = some V → V.estimated = false) :
    ∃ s', setPoses orientations positions.entries s = .ok s' ∧ s'.recon.Reachable ∧ SameStructure s.recon s'.recon ∧
      s'.heap = s.heap ∧ (∀ t, s'.recon.track t = s.recon.track t) ∧
      ∀ v, match s.recon.view v, orientations.get v, positions.get v with
        | some V, some o, some x =>
          s'.recon.view v = some { V with estimated := true } ∧ s'.orientation v = o ∧ s'.position v = x
        | _, _, _ => s'.recon.view v = s.recon.view v ∧ s'.orientation v = s.orientation v ∧
          s'.position v = s.position v := by
  obtain ⟨s', h1, h2⟩ := setPoses_ok orientations positions.entries s hwf (by
    intro v x V hv hV
    exact hun v V (List.mem_map.2 ⟨_, hv, rfl⟩) hV)
  refine ⟨s', h1, h2.reach hr, h2.same, h2.heap, ?_, ?_⟩
  · intro t
    unfold Reconstruction.track
    rw [h2.tracks]
  · intro v
    split
    · next V o x hV ho hx => exact h2.set v x o V (AMap.mem_entries_of_get hx) ho hV
    · next hn =>
      apply h2.keep v
      cases hV : s.recon.view v with
      | none => exact Or.inr (Or.inr rfl)
      | some V =>
        cases ho : orientations.get v with
        | none => exact Or.inr (Or.inl rfl)
        | some o =>
          left
          intro x hx
          exact hn V o x hV ho (AMap.get_of_mem_entries hwf hx)

/-- C71: a view that has a position and is already estimated ends the program. -/
theorem C71_poses_estimated (s : Localize.Scene F P M O X) (orientations : AMap ViewId O) (positions : AMap ViewId X)
    (v : ViewId) (V : View F) (hv : v ∈ positions.keys) (hV : s.recon.view v = some V) (he : V.estimated = true) :
    setPoses orientations positions.entries s = .abort := by
  obtain ⟨⟨w, x⟩, hw, rfl⟩ := List.mem_map.1 hv
  exact setPoses_abort orientations positions.entries s ⟨w, x, V, hw, hV, he⟩

/-- C71: if every edge joins two views of the reconstruction that have an orientation, the refinement of the relative
positions ends, and whatever the order in which the threads run, each edge gets the value computed from the tracks both
views observe and from the two orientations; the views and edges are the same as before. -/
theorem C71_refine (schedule : List (Task O N) → List (Task O N)) (hs : ∀ l, (schedule l).Perm l)
    (optimize : List (N × N) → O → O → I → I) (r : Reconstruction F P) (normalize : ViewId → F → N)
    (orientations : AMap ViewId O) (numThreads : Int) (hn : 1 ≤ numThreads) (ops : List (ViewGraph.Op I))
    (hg : ∀ a b i, (ViewGraph.run ops).getEdge a b = some i →
      (∃ V, r.view a = some V) ∧ ∃ o, orientations.get a = some o) :
    ∃ g', refine schedule optimize r normalize orientations numThreads (ViewGraph.run ops) = .ok g' ∧
      g'.viewIds = (ViewGraph.run ops).viewIds ∧
      (∀ a b, (ViewGraph.run ops).getEdge a b = none → g'.getEdge a b = none) ∧
      ∀ a b i, a < b → (ViewGraph.run ops).getEdge a b = some i → ∃ V1 V2 o1 o2 ms,
        r.view a = some V1 ∧ r.view b = some V2 ∧ orientations.get a = some o1 ∧ orientations.get b = some o2 ∧
        g'.getEdge a b = some (optimize ms o1 o2 i) ∧
        List.Forall₂ (fun m t => ∃ f1 f2, V1.getFeature t = some f1 ∧ V2.getFeature t = some f2 ∧
          m = (normalize a f1, normalize b f2)) ms (commonTracks V1 V2) := by
  have hinv := (ViewGraph.rep_run ops).inv
  generalize ViewGraph.run ops = g at *
  have hlt : ∀ e ∈ g.allEdges, e.1.1 < e.1.2 := fun e he => hinv.lt _ (List.mem_map.2 ⟨e, he, rfl⟩)
  have hedge : ∀ e ∈ g.allEdges, g.getEdge e.1.1 e.1.2 = some e.2 := by
    intro e he
    unfold ViewGraph.getEdge
    rw [ordPair_of_lt (hlt e he)]
    exact AMap.get_of_mem_entries hinv.wfE he
  obtain ⟨ts, h1, h2, h3⟩ := refineTasks_ok (I := I) r normalize orientations g.allEdges (by
    intro e he
    obtain ⟨a1, a2⟩ := hg _ _ _ (hedge e he)
    obtain ⟨b1, b2⟩ := hg e.1.2 e.1.1 e.2 (by
      have := hedge e he
      unfold ViewGraph.getEdge at *
      rw [ordPair_comm]
      exact this)
    exact ⟨a1, b1, a2, b2⟩)
  have hperm := (hs ts).map (·.pair)
  have hkeys : ts.map (·.pair) = g.edges.keys := h2
  obtain ⟨a1, a2, a3⟩ := runTasks_ok optimize (schedule ts) g hinv
    (hperm.nodup_iff.2 (by rw [hkeys]; exact hinv.wfE)) (by
      intro k hk
      rw [← hkeys]
      exact List.mem_map_of_mem ((hs ts).mem_iff.1 hk))
  refine ⟨runTasks optimize (schedule ts) g, ?_, ?_, ?_, ?_⟩
  · unfold refine
    rw [if_neg (by omega), h1]
  · unfold ViewGraph.viewIds
    rw [a1]
  · intro a b hab
    unfold ViewGraph.getEdge at *
    rw [a3 _ (fun hm => ?_)]
    · exact hab
    · rw [hperm.mem_iff, hkeys] at hm
      exact AMap.get_eq_none_iff.1 hab hm
  · intro a b i hab hi
    unfold ViewGraph.getEdge at hi ⊢
    rw [ordPair_of_lt hab] at hi ⊢
    have hm : (a, b) ∈ ts.map (·.pair) := by rw [hkeys]; exact AMap.mem_keys_iff.2 ⟨i, hi⟩
    obtain ⟨k, hk, hka⟩ := List.mem_map.1 hm
    obtain ⟨V1, V2, c1, c2, c3, c4, c5⟩ := h3 k hk
    have := a2 k ((hs ts).mem_iff.2 hk) i (by rw [hka]; exact hi)
    rw [hka] at this c1 c2 c3 c4 c5
    exact ⟨V1, V2, _, _, _, c1, c2, c3, c4, this, c5⟩

/-- C71: a threshold given for an image of 1024 pixels scales with the longer side of the image; it is used as it is if
the size of the image is not known. -/
theorem C71_threshold (threshold : ℚ) (width height : Int) :
    (width = 0 ∧ height = 0 → scaledThreshold threshold width height = threshold) ∧
    (¬ (width = 0 ∧ height = 0) → ∀ k : Nat, 0 < k →
      scaledThreshold threshold width height = threshold * ((max width height : Int) : ℚ) / 1024 ∧
      scaledThreshold threshold (k * width) (k * height) = k * scaledThreshold threshold width height) := by
  unfold scaledThreshold
  refine ⟨fun h => if_pos h, ?_⟩
  intro h k hk
  rw [if_neg h]
  refine ⟨rfl, ?_⟩
  have hk' : (k : Int) ≠ 0 := by omega
  rw [if_neg (fun h' => h ⟨(mul_eq_zero.1 h'.1).resolve_left hk', (mul_eq_zero.1 h'.2).resolve_left hk'⟩),
    ← mul_max_of_nonneg _ _ (by omega : (0 : Int) ≤ k)]
  push_cast
  ring

/-! ### Non-vacuity -/

/-- Three estimated views on a line and four estimated tracks: track 0 fits, the error of track 1 is large in one view,
the point of track 2 is behind the cameras, and track 3 has one observer. -/
def outlierOps : List (Reconstruction.Op ℚ ℚ) :=
  [.addView "a", .addView "b", .addView "c", .addTrack 5 [(0, 5), (1, 5), (2, 6)], .addTrack 5 [(0, 5), (1, 8)],
   .addTrack (-1) [(0, -1), (2, -1)], .addEmptyTrack 4, .addObservation 1 3 4,
   .setViewEstimated 0 true, .setViewEstimated 1 true, .setViewEstimated 2 true, .setTrackEstimated 0 true 5,
   .setTrackEstimated 1 true 5, .setTrackEstimated 2 true (-1), .setTrackEstimated 3 true 4]

def outlierRecon : Reconstruction ℚ ℚ :=
  match Reconstruction.run (Reconstruction.empty : Reconstruction ℚ ℚ) outlierOps with
  | .ok (_, r) => r
  | _ => Reconstruction.empty

/-- Depth is the point itself, and views 0 and 1 see every point under a wide angle. -/
def outlierGeometry : OutlierGeometry ℚ ℚ ViewId where
  depth _ p := p
  sqError _ f p := (f - p) ^ 2
  direction v _ := v
  wide a b := decide (a ≠ b)

/-- The hypotheses hold, and exactly track 0 stays. -/
example : outlierRecon.Reachable ∧ (∀ a b, outlierGeometry.wide a b = outlierGeometry.wide b a) ∧
    estimatedTracks outlierRecon = [0, 1, 2, 3] ∧
    (removeOutliers outlierGeometry 1 [0, 1, 2, 3] outlierRecon).bind (fun x => .ok (x.1, estimatedTracks x.2)) =
      .ok (3, [0]) ∧
    (removeOutliers outlierGeometry 3 [0, 1, 3] outlierRecon).bind (fun x => .ok (x.1, estimatedTracks x.2)) =
      .ok (1, [0, 1, 2]) ∧
    (lowerTracksInViews [2] [0, 7] outlierRecon).bind (fun r => .ok (estimatedTracks r)) = .ok [2, 3] ∧
    numEstimatedViews outlierRecon = 3 ∧ numEstimatedTracks outlierRecon = 4 := by
  refine ⟨⟨outlierOps, _, rfl⟩, ?_, by decide +kernel, by decide +kernel, by decide +kernel, by decide +kernel,
    by decide +kernel, by decide +kernel⟩
  intro a b
  simp [outlierGeometry, eq_comm]

/-- Two views without estimates that share two tracks. -/
def refineOps : List (Reconstruction.Op ℚ Unit) :=
  [.addView "a", .addView "b", .addTrack () [(0, 1), (1, 2)], .addTrack () [(1, 4), (0, 3)]]

def refineRecon : Reconstruction ℚ Unit :=
  match Reconstruction.run (Reconstruction.empty : Reconstruction ℚ Unit) refineOps with
  | .ok (_, r) => r
  | _ => Reconstruction.empty

/-- The hypotheses of the theorems about poses and about the refinement hold. View 1 gets a pose, view 0 has no position
and view 5 does not exist. The edge gets the sum of the products of its matches. -/
example : refineRecon.Reachable ∧
    (match setPoses (M := Unit) (AMap.mk [(0, 10), (1, 11), (5, 15)]) (AMap.mk [(1, 21), (5, 25)]).entries
        ⟨refineRecon, fun _ => (), fun _ => 0, fun _ => 0⟩ with
      | .ok s => decide (([0, 1].map fun v => ((s.recon.view v).map (·.estimated), s.orientation v, s.position v)) =
          [(some false, (0 : Nat), (0 : Nat)), (some true, 11, 21)])
      | _ => false) = true ∧
    (match refine (O := ℚ) (N := ℚ) List.reverse (fun ms o1 o2 i => i + o1 * o2 * (ms.map fun m => m.1 * m.2).sum) refineRecon
        (fun _ f => f) (AMap.mk [(0, 1), (1, 10)]) 4 (ViewGraph.run [.addEdge 1 0 (100 : ℚ)]) with
      | .ok g => decide (g.getEdge 0 1 = some 240)
      | _ => false) = true :=
  ⟨⟨refineOps, _, rfl⟩, by decide +kernel, by decide +kernel⟩

end Theia
