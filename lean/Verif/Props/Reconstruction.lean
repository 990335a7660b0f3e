import Verif.Proof.ReconstructionRuns

/-! # Properties C01-C08: the reconstruction container -/

namespace Theia
open Reconstruction Spec

variable {F P : Type}

/-- A concrete non-trivial history used as a non-vacuity witness: three views (two sharing
intrinsics), two tracks, one removed view. -/
def demoOps : List (Op Nat Unit) :=
  [.addView "a", .addViewToGroup "b" 7, .addViewToGroup "c" 7, .addTrack () [(0, 10), (1, 11), (2, 12)],
   .addTrack () [(0, 20), (1, 21)], .addEmptyTrack (), .addObservation 2 2 32, .setViewEstimated 1 true,
   .removeView 0, .addView ""]

/-- The state after `demoOps`. -/
def demo : Reconstruction Nat Unit :=
  match run (Reconstruction.empty) demoOps with
  | .ok (_, r) => r
  | _ => Reconstruction.empty

theorem demo_reachable : demo.Reachable := ⟨demoOps, _, rfl⟩

example : demo.viewIds = [1, 2] ∧ demo.trackIds = [0, 1, 2] := by decide

/-! ## C01 -/

/-- **C01.** In every reachable reconstruction, view `v` reports a feature of track `t` iff track
`t` exists and lists `v`. -/
theorem C01_views_and_tracks_agree (r : Reconstruction F P) (h : r.Reachable) (v : ViewId)
    (t : TrackId) : Observes r v t ↔ ListedIn r v t := by
  have hi := inv_of_reachable h
  have := hi.sym v t
  unfold Observes ListedIn view track View.getFeature
  rw [← this]
  constructor
  · rintro ⟨V, f, hV, hf⟩; exact ⟨V, hV, AMap.mem_keys_iff.2 ⟨f, hf⟩⟩
  · rintro ⟨V, hV, hk⟩
    obtain ⟨f, hf⟩ := AMap.mem_keys_iff.1 hk
    exact ⟨V, f, hV, hf⟩

example : Observes demo 1 0 ∧ ListedIn demo 1 0 ∧ ¬ Observes demo 0 0 := by
  refine ⟨⟨_, 11, rfl, rfl⟩, ⟨_, rfl, by decide⟩, ?_⟩
  rintro ⟨V, f, hV, _⟩
  have : demo.view 0 = none := by decide
  rw [this] at hV; cases hV

/-- **C01.** No view lists a track twice and no track lists a view twice, and only existing
objects are mentioned. -/
theorem C01_no_duplicates_no_dangling (r : Reconstruction F P) (h : r.Reachable) :
    (∀ v V, r.view v = some V → V.trackIds.Nodup ∧ ∀ t ∈ V.trackIds, ∃ T, r.track t = some T) ∧
    (∀ t T, r.track t = some T → T.views.Nodup ∧ ∀ v ∈ T.views, ∃ V, r.view v = some V) := by
  have hi := inv_of_reachable h
  refine ⟨?_, ?_⟩
  · intro v V hV
    refine ⟨hi.wfFeat v V hV, ?_⟩
    intro t ht
    obtain ⟨T, hT, _⟩ := (hi.sym v t).1 ⟨V, hV, ht⟩
    exact ⟨T, hT⟩
  · intro t T hT
    refine ⟨hi.ndTrack t T hT, ?_⟩
    intro v hv
    obtain ⟨V, hV, _⟩ := (hi.sym v t).2 ⟨T, hT, hv⟩
    exact ⟨V, hV⟩

/-! ## C02 -/

/-- **C02.** Names and ids are in one-to-one correspondence: a name resolves to `v` iff `v` is an
existing view of that name; names are never empty. -/
theorem C02_names_and_ids_correspond (r : Reconstruction F P) (h : r.Reachable) :
    (∀ n v, r.viewIdFromName n = some v ↔ ∃ V, r.view v = some V ∧ V.name = n) ∧
    (∀ v V, r.view v = some V → V.name ≠ "") := by
  have hi := inv_of_reachable h
  exact ⟨hi.name, hi.nameNe⟩

example : demo.viewIdFromName "b" = some 1 ∧ demo.viewIdFromName "a" = none := by decide

/-- **C02.** `AddView` fails exactly on an empty or already used name, then changes nothing; this
never aborts. -/
theorem C02_addView_fails_iff (r : Reconstruction F P) (h : r.Reachable) (n : String) (g : GroupId) :
    (∃ o r', r.addViewToGroup n g = .ok (o, r') ∧
      (o = none ↔ n = "" ∨ ∃ v, r.viewIdFromName n = some v) ∧ (o = none → r' = r)) := by
  have hi := inv_of_reachable h
  by_cases hn : n ∈ r.names.keys ∨ n = ""
  · refine ⟨none, r, addViewToGroup_fail hn, ?_, fun _ => rfl⟩
    simp only [true_iff]
    rcases hn with hn | hn
    · exact Or.inr (AMap.mem_keys_iff.1 hn)
    · exact Or.inl hn
  · have hn' := hn
    simp only [not_or] at hn
    obtain ⟨intr, _, _, heq⟩ := addViewToGroup_spec hi (g := g) hn.1 hn.2
    refine ⟨_, _, heq, ?_, by simp⟩
    simp only [reduceCtorEq, false_iff, not_or]
    exact ⟨hn.2, fun ⟨v, hv⟩ => hn.1 (AMap.mem_keys_iff.2 ⟨v, hv⟩)⟩

/-- **C02.** A successful `AddView` adds exactly one unestimated, featureless view under a fresh
id, and changes no other view, name, group membership or track. -/
theorem C02_addView_adds_exactly_one (r : Reconstruction F P) (h : r.Reachable) (n : String)
    (g : GroupId) (v : ViewId) (r' : Reconstruction F P)
    (hok : r.addViewToGroup n g = .ok (some v, r')) :
    r.view v = none ∧
    (∃ V, r'.view v = some V ∧ V.name = n ∧ V.estimated = false ∧ V.trackIds = []) ∧
    (∀ w, w ≠ v → r'.view w = r.view w ∧ r'.groupOf w = r.groupOf w) ∧
    (∀ m, r'.viewIdFromName m = if m = n then some v else r.viewIdFromName m) ∧
    r'.groupOf v = some g ∧
    (∀ t, r'.track t = r.track t) ∧ r'.viewIds = r.viewIds ++ [v] := by
  have hi := inv_of_reachable h
  by_cases hn : n ∈ r.names.keys ∨ n = ""
  · rw [addViewToGroup_fail hn] at hok; cases hok
  · simp only [not_or] at hn
    obtain ⟨intr, _, _, heq⟩ := addViewToGroup_spec hi (g := g) hn.1 hn.2
    rw [heq] at hok
    cases hok
    have hfv : r.nextViewId ∉ r.views.keys := fun h => Nat.lt_irrefl _ (hi.freshV _ h)
    refine ⟨AMap.get_eq_none_iff.2 hfv, ⟨_, AMap.get_insert_self _ _ _, rfl, rfl, rfl⟩, ?_, ?_,
      AMap.get_insert_self _ _ _, fun _ => rfl, ?_⟩
    · intro w hw
      exact ⟨AMap.get_insert_ne _ _ hw, AMap.get_insert_ne _ _ hw⟩
    · intro m
      simp [viewIdFromName, AMap.get_insert]
    · simp [viewIds, AMap.keys_insert, hfv]

/-- **C02.** In every history the view ids handed out are strictly increasing (so never reused,
even after removals), and likewise the track ids. -/
theorem C02_ids_never_reused (ops : List (Op F P)) (as : List Ret) (r : Reconstruction F P)
    (h : run (Reconstruction.empty : Reconstruction F P) ops = .ok (as, r)) :
    (issuedViewIds as).Pairwise (· < ·) ∧ (issuedTrackIds as).Pairwise (· < ·) := by
  have := run_issued inv_empty ops h
  exact ⟨this.1, this.2.2.2.1⟩

example : ∃ as r, run (Reconstruction.empty : Reconstruction Nat Unit) demoOps = .ok (as, r) ∧
    issuedViewIds as = [0, 1, 2] ∧ issuedTrackIds as = [0, 1, 2] := ⟨_, _, rfl, rfl, rfl⟩

/-! ## C03 -/

/-- **C03.** Every view is in exactly one intrinsics group: the one `groupOf` names; groups list
only existing views, each once, and no listed group is empty. -/
theorem C03_groups_partition_views (r : Reconstruction F P) (h : r.Reachable) :
    (∀ v g, r.groupOf v = some g ↔ v ∈ r.viewsInGroup g) ∧
    (∀ v, (∃ g, r.groupOf v = some g) ↔ ∃ V, r.view v = some V) ∧
    (∀ g, g ∈ r.groupIds ↔ r.viewsInGroup g ≠ []) ∧
    (∀ g, (r.viewsInGroup g).Nodup) ∧ r.groupIds.Nodup := by
  have hi := inv_of_reachable h
  refine ⟨?_, ?_, ?_, ?_, hi.wfGroups⟩
  · intro v g
    unfold groupOf viewsInGroup
    rw [hi.grp v g]
    cases r.groups.get g <;> simp
  · intro v
    unfold groupOf view
    rw [← AMap.mem_keys_iff, ← AMap.mem_keys_iff, hi.grpDom]
  · intro g
    unfold groupIds viewsInGroup
    rw [AMap.mem_keys_iff]
    cases hg : r.groups.get g with
    | none => simp
    | some s => simpa using hi.neGroup g s hg
  · intro g
    unfold viewsInGroup
    cases hg : r.groups.get g with
    | none => simp
    | some s => simpa using hi.ndGroup g s hg

example : demo.groupOf 1 = some 7 ∧ demo.viewsInGroup 7 = [1, 2] ∧ demo.groupIds = [7] := by decide

/-- **C03.** Two views share one intrinsics object iff they are in the same group. -/
theorem C03_same_group_iff_shared_intrinsics (r : Reconstruction F P) (h : r.Reachable)
    (v w : ViewId) (V W : View F) (hV : r.view v = some V) (hW : r.view w = some W) :
    V.intrinsics = W.intrinsics ↔ r.groupOf v = r.groupOf w := by
  have hi := inv_of_reachable h
  obtain ⟨g, hg⟩ := AMap.mem_keys_iff.1 ((hi.grpDom v).2 (AMap.mem_keys_iff.2 ⟨V, hV⟩))
  obtain ⟨g', hg'⟩ := AMap.mem_keys_iff.1 ((hi.grpDom w).2 (AMap.mem_keys_iff.2 ⟨W, hW⟩))
  rw [hi.ptr v w V W g g' hV hW hg hg']
  simp [groupOf, hg, hg']

/-! ## C04 -/

/-- **C04.** Removing an unknown view or track reports false and changes nothing. -/
theorem C04_remove_unknown (r : Reconstruction F P) :
    (∀ v, r.view v = none → r.removeView v = .ok (false, r)) ∧
    (∀ t, r.track t = none → r.removeTrack t = (false, r)) :=
  ⟨fun _ h => removeView_none h, fun _ h => removeTrack_none h⟩

/-- **C04.** Removing an existing view of a reachable reconstruction succeeds (never aborts),
removes that view, its name and its group membership, removes it from all tracks, deletes
exactly the tracks it was the only view of, and changes nothing else. -/
theorem C04_removeView_exact (r : Reconstruction F P) (h : r.Reachable) (v : ViewId) (V : View F)
    (hV : r.view v = some V) :
    ∃ r', r.removeView v = .ok (true, r') ∧
      (∀ w, r'.view w = if w = v then none else r.view w) ∧
      (∀ t, r.track t = none → r'.track t = none) ∧
      (∀ t T, r.track t = some T → v ∉ T.views → r'.track t = some T) ∧
      (∀ t T, r.track t = some T → T.views = [v] → r'.track t = none) ∧
      (∀ t T, r.track t = some T → v ∈ T.views → T.views ≠ [v] →
        r'.track t = some { T with views := T.views.filter (fun w => decide (w ≠ v)) }) ∧
      (∀ n, r'.viewIdFromName n = if n = V.name then none else r.viewIdFromName n) ∧
      (∀ w, r'.groupOf w = if w = v then none else r.groupOf w) ∧
      (∀ g, r'.viewsInGroup g = (r.viewsInGroup g).filter (fun w => decide (w ≠ v))) := by
  have hi := inv_of_reachable h
  obtain ⟨X, g, s, hgv, hs, hvs, heq, hXw, hXk, hX⟩ := removeView_spec hi hV
  refine ⟨_, heq, ?_, ?_, ?_, ?_, ?_, ?_, ?_, ?_⟩
  · intro w; exact AMap.get_erase _ _ _
  · intro t ht
    unfold track at *
    rw [hX t, ht]; rfl
  · intro t T hT hv
    unfold track at *
    simp [hX t, hT, dropView, hv]
  · intro t T hT hv
    unfold track at *
    simp [hX t, hT, dropView, hv]
  · intro t T hT hv hne
    unfold track at *
    have hnd := hi.ndTrack t T hT
    have : T.views.filter (fun w => decide (w ≠ v)) ≠ [] := by
      intro h0
      apply hne
      rw [List.filter_eq_nil_iff] at h0
      simp only [decide_eq_true_eq, ne_eq, Classical.not_not] at h0
      cases hTv : T.views with
      | nil => rw [hTv] at hv; cases hv
      | cons a l =>
        rw [hTv] at h0 hnd
        have ha := h0 a (by simp)
        cases l with
        | nil => rw [ha]
        | cons b l =>
          have hb := h0 b (by simp)
          subst ha; subst hb
          simp at hnd
    simp only [hX t, hT, Option.bind_some, dropView]
    rw [if_pos hv, if_neg this]
  · intro n; exact AMap.get_erase _ _ _
  · intro w; exact AMap.get_erase _ _ _
  · intro g'
    unfold viewsInGroup
    by_cases hg : g' = g
    · subst hg
      simp only [hs, Option.getD_some]
      split
      · rename_i hl
        rw [List.length_eq_zero_iff] at hl
        rw [hl]
        simp [AMap.get_erase]
      · simp [AMap.get_insert]
    · have : ((if (s.filter (fun w => decide (w ≠ v))).length = 0 then r.groups.erase g
          else r.groups.insert g (s.filter (fun w => decide (w ≠ v)))).get g') = r.groups.get g' := by
        split
        · simp [AMap.get_erase, hg]
        · simp [AMap.get_insert, hg]
      simp only [this]
      symm
      rw [List.filter_eq_self]
      intro w hw
      simp only [decide_eq_true_eq]
      rintro rfl
      cases hs' : r.groups.get g' with
      | none => simp [hs'] at hw
      | some s' =>
        rw [hs'] at hw
        have := (hi.grp w g').2 ⟨s', hs', hw⟩
        rw [hgv] at this; cases this
        exact hg rfl

example : ∃ V, demo.view 2 = some V := ⟨_, rfl⟩

/-- **C04.** Removing an existing track of a reachable reconstruction succeeds, deletes the track
and exactly its features, and changes nothing else. -/
theorem C04_removeTrack_exact (r : Reconstruction F P) (h : r.Reachable) (t : TrackId) (T : Track P)
    (hT : r.track t = some T) :
    ∃ r', r.removeTrack t = (true, r') ∧
      (∀ s, r'.track s = if s = t then none else r.track s) ∧
      r'.viewIds = r.viewIds ∧
      (∀ v V, r.view v = some V → ∃ V', r'.view v = some V' ∧ V'.name = V.name ∧
        V'.estimated = V.estimated ∧ V'.intrinsics = V.intrinsics ∧
        ∀ s, V'.getFeature s = if s = t then none else V.getFeature s) ∧
      (∀ n, r'.viewIdFromName n = r.viewIdFromName n) ∧
      (∀ v, r'.groupOf v = r.groupOf v) ∧ (∀ g, r'.viewsInGroup g = r.viewsInGroup g) := by
  have hi := inv_of_reachable h
  obtain ⟨X, heq, hk, hg⟩ := removeTrack_spec hi hT
  refine ⟨_, heq, ?_, hk, ?_, fun _ => rfl, fun _ => rfl, fun _ => rfl⟩
  · intro s; exact AMap.get_erase _ _ _
  · intro v V hV
    refine ⟨{ V with features := V.features.erase t }, ?_, rfl, rfl, rfl, ?_⟩
    · unfold view at *
      simp only [hg v, hV]; rfl
    · intro s; exact AMap.get_erase _ _ _

example : ∃ T, demo.track 0 = some T ∧ T.views = [1, 2] := ⟨_, rfl, by decide⟩

/-! ## C05 -/

/-- **C05.** `AddTrack(observations)` with fewer than two observations or a repeated view fails and
changes nothing. -/
theorem C05_addTrack_rejects (r : Reconstruction F P) (p : P) (obs : List (ViewId × F))
    (hbad : obs.length < 2 ∨ ¬ (obs.map (·.1)).Nodup) : r.addTrack p obs = .ok (none, r) := by
  unfold addTrack
  rcases hbad with h | h
  · simp [h]
  · by_cases h2 : obs.length < 2
    · simp [h2]
    · have : duplicateViewsExist obs = true := by simp [duplicateViewsExist, h]
      simp [h2, this]

/-- **C05.** With at least two observations in distinct views, one of which does not exist, the
process aborts. -/
theorem C05_addTrack_aborts (r : Reconstruction F P) (p : P) (obs : List (ViewId × F))
    (h2 : 2 ≤ obs.length) (hnd : (obs.map (·.1)).Nodup) (hk : ∃ o ∈ obs, r.view o.1 = none) :
    r.addTrack p obs = .abort := by
  unfold addTrack
  have h2' : ¬ obs.length < 2 := by omega
  have hdup : duplicateViewsExist obs = false := by simp [duplicateViewsExist, hnd]
  rw [if_neg h2', if_neg (by simp [hdup])]
  split
  · rfl
  · obtain ⟨o, ho, hv⟩ := hk
    rw [addTrackLoop_abort _ _ _ _ ⟨o, ho, AMap.get_eq_none_iff.1 hv⟩]

/-- **C05.** Otherwise `AddTrack(observations)` adds one new unestimated track with exactly those
views, adds exactly those features, and changes nothing else. -/
theorem C05_addTrack_exact (r : Reconstruction F P) (h : r.Reachable) (p : P)
    (obs : List (ViewId × F)) (h2 : 2 ≤ obs.length) (hnd : (obs.map (·.1)).Nodup)
    (hk : ∀ o ∈ obs, ∃ V, r.view o.1 = some V) :
    ∃ t r', r.addTrack p obs = .ok (some t, r') ∧ r.track t = none ∧
      r'.track t = some ⟨false, p, obs.map (·.1)⟩ ∧
      (∀ s, s ≠ t → r'.track s = r.track s) ∧
      r'.viewIds = r.viewIds ∧
      (∀ v V, r.view v = some V → ∃ V', r'.view v = some V' ∧ V'.name = V.name ∧
        V'.estimated = V.estimated ∧ V'.intrinsics = V.intrinsics ∧
        (∀ s, s ≠ t → V'.getFeature s = V.getFeature s) ∧
        (∀ f, V'.getFeature t = some f ↔ (v, f) ∈ obs)) ∧
      (∀ n, r'.viewIdFromName n = r.viewIdFromName n) ∧
      (∀ v, r'.groupOf v = r.groupOf v) ∧ (∀ g, r'.viewsInGroup g = r.viewsInGroup g) := by
  have hi := inv_of_reachable h
  have hft : r.nextTrackId ∉ r.tracks.keys := fun h => Nat.lt_irrefl _ (hi.freshT _ h)
  have hnt : r.tracks.get r.nextTrackId = none := AMap.get_eq_none_iff.2 hft
  obtain ⟨X, heq, hXk, hXg⟩ := addTrack_spec hi p obs h2 hnd
    (fun o ho => AMap.mem_keys_iff.2 (hk o ho))
  refine ⟨_, _, heq, hnt, AMap.get_insert_self _ _ _, fun s hs => AMap.get_insert_ne _ _ hs, hXk, ?_,
    fun _ => rfl, fun _ => rfl, fun _ => rfl⟩
  intro v V hV
  unfold view at *
  simp only [hXg v]
  cases ho : obs.find? (fun o => decide (o.1 = v)) with
  | none =>
    refine ⟨V, hV, rfl, rfl, rfl, fun _ _ => rfl, ?_⟩
    intro f
    rw [List.find?_eq_none] at ho
    constructor
    · intro hf
      obtain ⟨T, hT, _⟩ := (hi.sym v r.nextTrackId).1 ⟨V, hV, AMap.mem_keys_iff.2 ⟨f, hf⟩⟩
      rw [hnt] at hT; cases hT
    · intro hm
      exact absurd (ho (v, f) hm) (by simp)
  | some o =>
    have h1 := List.find?_some ho
    have h3 := List.mem_of_find?_eq_some ho
    simp only [decide_eq_true_eq] at h1
    refine ⟨V.addFeature r.nextTrackId o.2, by simp [hV], rfl, rfl, rfl, ?_, ?_⟩
    · intro s hs; exact AMap.get_insert_ne _ _ hs
    · intro f
      have h4 : (V.addFeature r.nextTrackId o.2).getFeature r.nextTrackId = some o.2 :=
        AMap.get_insert_self _ _ _
      rw [h4]
      constructor
      · intro hf; cases hf
        rw [← h1]; exact h3
      · intro hm
        have : o = (v, f) := by
          have hinj : ∀ a ∈ obs, ∀ b ∈ obs, a.1 = b.1 → a = b := by
            intro a ha b hb hab
            rw [List.nodup_iff_pairwise_ne, List.pairwise_map] at hnd
            rcases List.mem_iff_getElem.1 ha with ⟨i, hi', rfl⟩
            rcases List.mem_iff_getElem.1 hb with ⟨j, hj, rfl⟩
            rw [List.pairwise_iff_getElem] at hnd
            rcases Nat.lt_trichotomy i j with hij | hij | hij
            · exact absurd hab (hnd i j hi' hj hij)
            · subst hij; rfl
            · exact absurd hab.symm (hnd j i hj hi' hij)
          exact hinj o h3 (v, f) hm h1
        rw [this]

example : ∃ t r', demo.addTrack () [(1, 5), (2, 6)] = .ok (some t, r') ∧ t = 3 := ⟨_, _, rfl, rfl⟩

/-- **C05.** `AddObservation` aborts iff the view or track is unknown; it refuses (and changes
nothing) iff the track is already observed by the view; otherwise it adds exactly that one
observation. -/
theorem C05_addObservation_exact (r : Reconstruction F P) (h : r.Reachable) (v : ViewId)
    (t : TrackId) (f : F) :
    (r.addObservation v t f = .abort ↔ r.view v = none ∨ r.track t = none) ∧
    (∀ V T, r.view v = some V → r.track t = some T → Observes r v t →
      r.addObservation v t f = .ok (false, r)) ∧
    (∀ V T, r.view v = some V → r.track t = some T → ¬ Observes r v t →
      ∃ r', r.addObservation v t f = .ok (true, r') ∧
        (∀ w s, Observes r' w s ↔ (w = v ∧ s = t) ∨ Observes r w s) ∧
        r'.view v = some (V.addFeature t f) ∧ r'.track t = some { T with views := T.views ++ [v] } ∧
        (∀ w, w ≠ v → r'.view w = r.view w) ∧ (∀ s, s ≠ t → r'.track s = r.track s) ∧
        (∀ n, r'.viewIdFromName n = r.viewIdFromName n) ∧ (∀ w, r'.groupOf w = r.groupOf w)) := by
  have hi := inv_of_reachable h
  refine ⟨?_, ?_, ?_⟩
  · unfold addObservation view track
    cases hV : r.views.get v with
    | none => simp
    | some V =>
      cases hT : r.tracks.get t with
      | none => simp
      | some T =>
        simp only [reduceCtorEq, or_self, iff_false]
        split
        · simp
        · split <;> simp
  · rintro V T hV hT ⟨V', f', hV', hf⟩
    unfold view track at *
    rw [hV] at hV'; cases hV'
    simp [addObservation, hV, hT, hf]
  · intro V T hV hT hno
    unfold view track at *
    have h1 : V.getFeature t = none := by
      cases hf : V.getFeature t with
      | none => rfl
      | some f' => exact absurd ⟨V, f', hV, hf⟩ hno
    have h2 : v ∉ T.views := by
      intro hv
      obtain ⟨V', hV', hk⟩ := (hi.sym v t).2 ⟨T, hT, hv⟩
      rw [hV] at hV'; cases hV'
      rw [AMap.mem_keys_iff] at hk
      obtain ⟨f', hf'⟩ := hk
      rw [show V.features.get t = V.getFeature t from rfl, h1] at hf'; cases hf'
    refine ⟨{ r with views := r.views.insert v (V.addFeature t f), tracks := r.tracks.insert t (T.addView v) },
      by simp [addObservation, hV, hT, h1, h2], ?_, AMap.get_insert_self _ _ _, ?_,
      fun w hw => AMap.get_insert_ne _ _ hw, fun s hs => AMap.get_insert_ne _ _ hs,
      fun _ => rfl, fun _ => rfl⟩
    · intro w s
      unfold Observes view
      simp only [AMap.get_insert]
      by_cases hw : w = v
      · subst hw
        simp only [if_true, Option.some.injEq, true_and, hV]
        constructor
        · rintro ⟨W, f', rfl, hf'⟩
          unfold View.getFeature View.addFeature at hf'
          simp only [AMap.get_insert] at hf'
          split at hf'
          · left; assumption
          · right; exact ⟨V, f', rfl, hf'⟩
        · rintro (rfl | ⟨W, f', rfl, hf'⟩)
          · exact ⟨_, f, rfl, AMap.get_insert_self _ _ _⟩
          · by_cases hs : s = t
            · subst hs; exact ⟨_, f, rfl, AMap.get_insert_self _ _ _⟩
            · exact ⟨_, f', rfl, by unfold View.getFeature View.addFeature; simp [AMap.get_insert, hs]; exact hf'⟩
      · simp [hw]
    · simp [AMap.get_insert, Track.addView, h2]

/-! ## C06 -/

/-- **C06.** A sub-reconstruction (into an empty destination) contains exactly the chosen existing
views, unchanged; exactly the tracks seen by one of them, with the same estimate and exactly
the chosen ones of their views; the same names and groups restricted to the chosen views; and
the id counters of the source, so ids never clash. -/
theorem C06_subreconstruction_exact (r : Reconstruction F P) (h : r.Reachable) (s : List ViewId)
    (hs : s.Nodup) :
    ∃ sub, r.getSubReconstruction s Reconstruction.empty = .ok sub ∧
      (∀ v, sub.view v = if v ∈ s then r.view v else none) ∧
      (∀ t T', sub.track t = some T' ↔ ∃ T, r.track t = some T ∧ (∃ v ∈ s, v ∈ T.views) ∧
        T' = { T with views := s.filter (fun v => decide (v ∈ T.views)) }) ∧
      (∀ n v, sub.viewIdFromName n = some v ↔ v ∈ s ∧ r.viewIdFromName n = some v) ∧
      (∀ v, sub.groupOf v = if v ∈ s then r.groupOf v else none) ∧
      (∀ g v, v ∈ sub.viewsInGroup g ↔ v ∈ s ∧ v ∈ r.viewsInGroup g) ∧
      sub.nextViewId = r.nextViewId ∧ sub.nextTrackId = r.nextTrackId ∧
      sub.nextGroupId = r.nextGroupId := by
  have hi := inv_of_reachable h
  obtain ⟨sub, he, h1, h2, h3, h4, h5, h6, h7, h8⟩ := getSub_spec hi s hs
  refine ⟨sub, he, h4, ?_, h5, h6, ?_, h2, h1, h3⟩
  · intro t T'
    unfold track
    rw [h7 t, Option.bind_eq_some_iff]
    constructor
    · rintro ⟨T, hT, h⟩
      split at h
      · rename_i hex
        cases h
        exact ⟨T, hT, hex, rfl⟩
      · cases h
    · rintro ⟨T, hT, hex, rfl⟩
      exact ⟨T, hT, if_pos hex⟩
  · intro g v
    have e1 : v ∈ sub.viewsInGroup g ↔ sub.viewGroup.get v = some g := by
      rw [h8.grp v g]; unfold viewsInGroup
      cases sub.groups.get g <;> simp
    have e2 : v ∈ r.viewsInGroup g ↔ r.viewGroup.get v = some g := by
      rw [hi.grp v g]; unfold viewsInGroup
      cases r.groups.get g <;> simp
    rw [e1, e2, h6 v]
    split <;> simp [*]

example : ∃ sub, demo.getSubReconstruction [2, 9] Reconstruction.empty = .ok sub ∧
    sub.viewIds = [2] ∧ sub.trackIds = [0, 2] := ⟨_, rfl, by decide, by decide⟩

/-- **C06.** The result obeys the same consistency laws, and so does every history of calls made on
it afterwards. -/
theorem C06_subreconstruction_consistent (r : Reconstruction F P) (h : r.Reachable)
    (s : List ViewId) (hs : s.Nodup) (sub : Reconstruction F P)
    (he : r.getSubReconstruction s Reconstruction.empty = .ok sub) (ops : List (Op F P))
    (as : List Ret) (r' : Reconstruction F P) (hr : run sub ops = .ok (as, r')) (v : ViewId) (t : TrackId) :
    Observes r' v t ↔ ListedIn r' v t := by
  have hi := inv_of_reachable h
  obtain ⟨sub', he', _, _, _, _, _, _, _, h8⟩ := getSub_spec hi s hs
  rw [he'] at he; cases he
  have hi' := inv_run h8 ops hr
  unfold Observes ListedIn view track View.getFeature
  rw [← hi'.sym v t]
  constructor
  · rintro ⟨V, f, hV, hf⟩; exact ⟨V, hV, AMap.mem_keys_iff.2 ⟨f, hf⟩⟩
  · rintro ⟨V, hV, hk⟩
    obtain ⟨f, hf⟩ := AMap.mem_keys_iff.1 hk
    exact ⟨V, f, hV, hf⟩

/-! ## C07 -/

/-- **C07 (partial).** Reading back a saved reconstruction restores the answer of every query.
Missing from the full property: the group counter is not saved, see
`C07_reload_changes_future_counterexample`. -/
theorem C07_reload_queries_partial (r : Reconstruction F P) :
    let r' := load (save r) r.nextIntrinsics
    (∀ v, r'.view v = r.view v) ∧ (∀ t, r'.track t = r.track t) ∧
    (∀ n, r'.viewIdFromName n = r.viewIdFromName n) ∧ (∀ v, r'.groupOf v = r.groupOf v) ∧
    (∀ g, r'.viewsInGroup g = r.viewsInGroup g) ∧ r'.viewIds = r.viewIds ∧ r'.trackIds = r.trackIds ∧
    r'.groupIds = r.groupIds :=
  ⟨fun _ => rfl, fun _ => rfl, fun _ => rfl, fun _ => rfl, fun _ => rfl, rfl, rfl, rfl⟩

/-- **C07 (partial).** For every continuation that never asks for an automatic group, the reloaded
object returns exactly what the original would and ends in the same state (up to the unsaved
counter). Missing: continuations using `AddView(name)`, for which the property is false. -/
theorem C07_reload_future_partial (r : Reconstruction F P) (ops : List (Op F P))
    (h : ∀ op ∈ ops, usesAutoGroup op = false) :
    run (load (save r) r.nextIntrinsics) ops =
      (run r ops).bind fun x => .ok (x.1, { x.2 with nextGroupId := 0 }) := by
  have key : ∀ r : Reconstruction F P, run { r with nextGroupId := 0 } ops =
      (run r ops).bind fun x => .ok (x.1, { x.2 with nextGroupId := 0 }) := by
    induction ops with
    | nil => intro r; rfl
    | cons op ops ih =>
      intro r
      have ih' := ih (fun op ho => h op (by simp [ho]))
      simp only [run, step_group r 0 op (h op (by simp))]
      cases hs : step r op with
      | abort => rfl
      | ub => rfl
      | ok x =>
        obtain ⟨a, r1⟩ := x
        simp only [Outcome.bind, ih' r1]
        cases run r1 ops <;> rfl
  exact key r

example : ∀ op ∈ ([.addViewToGroup "z" 3, .removeView 1] : List (Op Nat Unit)),
    usesAutoGroup op = false := by decide

/-- **C07 is false of the code.** A view added to a fresh reconstruction, save, load, add a second
view: on the original object the views have separate intrinsics, on the reloaded one they share
one intrinsics object. -/
theorem C07_reload_changes_future_counterexample :
    ∃ (r r1 r2 : Reconstruction Nat Unit) (v : ViewId), r.Reachable ∧
      r.addView "b" = .ok (some v, r1) ∧
      (load (save r) r.nextIntrinsics).addView "b" = .ok (some v, r2) ∧
      (r1.view v).map (·.intrinsics) ≠ (r1.view 0).map (·.intrinsics) ∧
      (r2.view v).map (·.intrinsics) = (r2.view 0).map (·.intrinsics) := by
  let r : Reconstruction Nat Unit := match run Reconstruction.empty [.addView "a"] with
    | .ok (_, r) => r
    | _ => Reconstruction.empty
  exact ⟨r, _, _, 1, ⟨[.addView "a"], _, rfl⟩, rfl, rfl, by decide, by decide⟩

/-! ## C08 -/

/-- **C08 (partial).** In histories that never name a group explicitly, `AddView(name)` gives the
new view a group of its own, and intrinsics shared with no other view. Missing: histories with
explicit group ids, for which the property is false. -/
theorem C08_auto_group_is_private_partial (ops : List (Op F P)) (as : List Ret)
    (r : Reconstruction F P) (h : run Reconstruction.empty ops = .ok (as, r))
    (hops : ∀ op ∈ ops, usesExplicitGroup op = false) (n : String) (v : ViewId)
    (r' : Reconstruction F P) (hok : r.addView n = .ok (some v, r')) :
    (∃ g, r'.groupOf v = some g ∧ ∀ w, r'.groupOf w = some g → w = v) ∧
    (∀ w V W, w ≠ v → r'.view v = some V → r'.view w = some W → W.intrinsics ≠ V.intrinsics) := by
  have key : ∀ (ops : List (Op F P)) (r0 : Reconstruction F P) (as : List Ret), r0.Inv →
      (∀ v g, r0.viewGroup.get v = some g → g < r0.nextGroupId) →
      (∀ op ∈ ops, usesExplicitGroup op = false) → run r0 ops = .ok (as, r) →
      r.Inv ∧ ∀ v g, r.viewGroup.get v = some g → g < r.nextGroupId := by
    intro ops
    induction ops with
    | nil => intro r0 as hi hg _ h; simp only [run] at h; cases h; exact ⟨hi, hg⟩
    | cons op ops ih =>
      intro r0 as hi hg hops h
      obtain ⟨a, r1, as', hs, hr, rfl⟩ := run_cons_ok h
      exact ih r1 as' (inv_step hi hs) (groups_lt_step hi hg (hops op (by simp)) hs)
        (fun op ho => hops op (by simp [ho])) hr
  obtain ⟨hi, hg⟩ := key ops _ as inv_empty (by simp [Reconstruction.empty]) hops h
  have hi' := inv_addView hi hok
  obtain ⟨r1, h1, rfl⟩ := addView_eq hok
  by_cases hn : n ∈ r.names.keys ∨ n = ""
  · rw [addViewToGroup_fail hn] at h1; cases h1
  · simp only [not_or] at hn
    obtain ⟨intr, _, _, heq⟩ := addViewToGroup_spec hi (g := r.nextGroupId) hn.1 hn.2
    rw [heq] at h1; cases h1
    have honly : ∀ w, (r.viewGroup.insert r.nextViewId r.nextGroupId).get w = some r.nextGroupId →
        w = r.nextViewId := by
      intro w hw
      simp only [AMap.get_insert] at hw
      split at hw
      · assumption
      · exact absurd (hg w _ hw) (Nat.lt_irrefl _)
    refine ⟨⟨r.nextGroupId, AMap.get_insert_self _ _ _, honly⟩, ?_⟩
    intro w V W hw hV hW he
    obtain ⟨gw, hgw⟩ := AMap.mem_keys_iff.1 ((hi'.grpDom w).2 (AMap.mem_keys_iff.2 ⟨W, hW⟩))
    have := (hi'.ptr w r.nextViewId W V gw r.nextGroupId hW hV hgw (AMap.get_insert_self _ _ _)).1 he
    subst this
    exact hw (honly w hgw)

example : ∃ as r r', run (Reconstruction.empty : Reconstruction Nat Unit) [.addView "a", .addView "a"] =
    .ok (as, r) ∧ r.addView "b" = .ok (some 1, r') := ⟨_, _, _, rfl, rfl⟩

/-- **C08 is false of the code.** If the caller has put a view in group 0 by hand, the first
`AddView(name)` joins that group and shares its intrinsics. -/
theorem C08_auto_group_collision_counterexample :
    ∃ (r r' : Reconstruction Nat Unit) (v : ViewId), r.Reachable ∧ r.addView "b" = .ok (some v, r') ∧
      v ≠ 0 ∧ r'.groupOf v = r'.groupOf 0 ∧
      (r'.view v).map (·.intrinsics) = (r'.view 0).map (·.intrinsics) ∧ (r'.view 0).isSome := by
  let r : Reconstruction Nat Unit := match run Reconstruction.empty [.addViewToGroup "a" 0] with
    | .ok (_, r) => r
    | _ => Reconstruction.empty
  exact ⟨r, _, 1, ⟨[.addViewToGroup "a" 0], _, rfl⟩, rfl, by decide, by decide, by decide, by decide⟩

end Theia
