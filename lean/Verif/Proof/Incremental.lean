import Mathlib.Data.List.Dedup
import Verif.Proof.IncrementalSteps
import Verif.Spec.Incremental

namespace Theia

open Spec

namespace Incremental

variable {F P M O X L N W D C : Type}

/-- A step that leaves the views and the containers alone. -/
structure Frame (r0 : Reconstruction F P) (s s' : State F P M O X) : Prop where
  good : Good r0 s'.scene.recon
  views : s'.scene.recon.views = s.scene.recon.views
  unlocalized : s'.unlocalized = s.unlocalized
  reconstructed : s'.reconstructed = s.reconstructed

theorem Frame.trans {r0 : Reconstruction F P} {s1 s2 s3 : State F P M O X} (h : Frame r0 s1 s2) (h' : Frame r0 s2 s3) :
    Frame r0 s1 s3 :=
  ⟨h'.good, h'.views.trans h.views, h'.unlocalized.trans h.unlocalized, h'.reconstructed.trans h.reconstructed⟩

variable {num : Numerics F P M O X L N W D C} {o : Options} {r0 : Reconstruction F P}

theorem triangulate_ok (hn : WellBehaved num) (ho : ValidOptions o) {s : State F P M O X} (hg : Good r0 s.scene.recon)
    {ids : List TrackId} (hnd : ids.Nodup) (hids : ∀ t ∈ ids, ∃ T, s.scene.recon.track t = some T) :
    ∃ s', triangulate num o ids s = .ok s' ∧ Frame r0 s s' ∧ s'.numOptimized = s.numOptimized := by
  obtain ⟨ts, cs, h1, h2⟩ := estimateTracks_good hg (num.geometry s.clock s.scene) (trackOptions o) ids hnd hids ho.threads
    (show (1 : Int) ≤ 100 by decide)
  obtain ⟨sum, r', h3, h4, h5, _⟩ := h2 _ (hn.schedule s.clock _)
  unfold triangulate
  rw [h1]
  simp only [Outcome.ok_bind]
  rw [h3]
  exact ⟨_, rfl, ⟨h4, h5.views, rfl, rfl⟩, rfl⟩

theorem estimateStructure_ok (hn : WellBehaved num) (ho : ValidOptions o) {s : State F P M O X} (hg : Good r0 s.scene.recon)
    {v : ViewId} {V : View F} (hV : s.scene.recon.view v = some V) :
    ∃ s', estimateStructure num o v s = .ok s' ∧ Frame r0 s s' ∧ s'.numOptimized = s.numOptimized := by
  have hi := (C01_no_duplicates_no_dangling _ hg.reach).1 v V hV
  unfold estimateStructure
  rw [hV]
  exact triangulate_ok hn ho hg ((hn.order _ _).nodup_iff.2 hi.1) fun t ht => hi.2 t ((hn.order _ _).mem_iff.1 ht)

theorem estimateAll_ok (hn : WellBehaved num) (ho : ValidOptions o) {s : State F P M O X} (hg : Good r0 s.scene.recon) :
    ∃ s', estimateAll num o s = .ok s' ∧ Frame r0 s s' ∧ s'.numOptimized = s.numOptimized := by
  have hi := C19_all_tracks_requested _ hg.reach
  exact triangulate_ok hn ho hg ((hn.order _ _).nodup_iff.2 hi.1) fun t ht => hi.2.1 t ((hn.order _ _).mem_iff.1 ht)

theorem removeOutliers_ok (hn : WellBehaved num) (maxError : ℚ) {s : State F P M O X} (hg : Good r0 s.scene.recon)
    {ids : List TrackId} (hnd : ids.Nodup) (hids : ∀ t ∈ ids, ∃ T, s.scene.recon.track t = some T) :
    ∃ s', removeOutliers num maxError ids s = .ok s' ∧ Frame r0 s s' ∧ s'.numOptimized = s.numOptimized := by
  obtain ⟨r', h1, h2⟩ := EstimatorUtils.outlierLoop_ok (num.outliers s.scene) (hn.wide s.scene) maxError ids s.scene.recon 0
    (Reconstruction.inv_of_reachable hg.reach) hnd hids
  unfold removeOutliers EstimatorUtils.removeOutliers
  rw [h1]
  exact ⟨_, rfl, ⟨hg.lowered h2, h2.views, rfl, rfl⟩, rfl⟩

theorem isOutlier_views {geo : EstimatorUtils.OutlierGeometry F P D} {maxError : ℚ} {r r' : Reconstruction F P}
    (h : r'.views = r.views) (t : TrackId) (T : Track P) : IsOutlier geo maxError r' t T ↔ IsOutlier geo maxError r t T := by
  have hv : r'.view = r.view := by funext v; unfold Reconstruction.view; rw [h]
  have ho : estimatedObservers r' T = estimatedObservers r T := by unfold estimatedObservers; rw [hv]
  have he : squaredError geo r' t T.payload = squaredError geo r t T.payload := by
    funext v; unfold squaredError; rw [hv]
  unfold IsOutlier
  rw [ho, he]

theorem removeOutliers_inliers (hn : WellBehaved num) (hc : CamerasOnly num) (maxError : ℚ) {s s' : State F P M O X}
    (hg : Good r0 s.scene.recon) {ids : List TrackId} (hnd : ids.Nodup)
    (hids : ∀ t ∈ ids, ∃ T, s.scene.recon.track t = some T) (h : removeOutliers num maxError ids s = .ok s')
    (t : TrackId) (ht : t ∈ ids) (T : Track P) (hT : s'.scene.recon.track t = some T) (he : T.estimated = true) :
    ¬ IsOutlier (num.outliers s'.scene) maxError s'.scene.recon t T := by
  obtain ⟨r', h1, h2⟩ := EstimatorUtils.outlierLoop_ok (num.outliers s.scene) (hn.wide s.scene) maxError ids s.scene.recon 0
    (Reconstruction.inv_of_reachable hg.reach) hnd hids
  unfold removeOutliers EstimatorUtils.removeOutliers at h
  rw [h1, Outcome.ok_bind] at h
  cases h
  simp only at hT ⊢
  rw [hc, isOutlier_views h2.views]
  obtain ⟨T0, hT0⟩ := hids t ht
  obtain ⟨b, hb, hb'⟩ := h2.tracks t T0 hT0
  rw [hT] at hb
  cases hb
  obtain ⟨e1, e2⟩ := hb'.1 he
  intro hout
  exact e2 ⟨ht, hout⟩

theorem bundleAdjust_ok (num : Numerics F P M O X L N W D C) {s : State F P M O X} (hg : Good r0 s.scene.recon)
    (views : List ViewId) (tracks : List TrackId) :
    Frame r0 s (bundleAdjust num views tracks s).2 ∧ (bundleAdjust num views tracks s).2.numOptimized = s.numOptimized := by
  refine ⟨⟨hg.setPoints _ _, ?_, rfl, rfl⟩, rfl⟩
  exact (setPoints_ok _ _ _).1.views

variable [DecidableEq C]

theorem fullTracks_ok (num : Numerics F P M O X L N W D C) (o : Options) {s : State F P M O X} (hg : Good r0 s.scene.recon) :
    ∃ ts s', fullTracks num o s = .ok (ts, s') ∧ Frame r0 s s' ∧ s'.numOptimized = s.numOptimized := by
  unfold fullTracks
  split
  · obtain ⟨sel, h1, _⟩ := C27_all_views s.scene.recon hg.reach (num.error s.scene) num.cell o.longTrack o.minTracks []
    obtain ⟨r', h2, h3⟩ := EstimatorUtils.lowerTracksInViews_ok sel s.reconstructed s.scene.recon
    rw [h1]
    simp only [Outcome.ok_bind]
    rw [h2]
    exact ⟨_, _, rfl, ⟨hg.lowered h3, h3.views, rfl, rfl⟩, rfl⟩
  · exact ⟨_, _, rfl, ⟨hg, rfl, rfl, rfl⟩, rfl⟩

theorem fullBundle_ok (hn : WellBehaved num) (o : Options) {s : State F P M O X} (hg : Good r0 s.scene.recon) :
    ∃ b s', fullBundle num o s = .ok (b, s') ∧ Frame r0 s s' ∧ s'.numOptimized = s'.reconstructed.length ∧
      (CamerasOnly num → NoOutliers num o.maxError s'.scene) := by
  obtain ⟨ts, s1, h1, h2, _⟩ := fullTracks_ok num o hg
  unfold fullBundle
  rw [h1]
  simp only [Outcome.ok_bind]
  generalize hs2 : bundleAdjust num (SelectTracks.estimatedViews s1.scene.recon) ts s1 = x
  obtain ⟨b, s2⟩ := x
  obtain ⟨h3, _⟩ := bundleAdjust_ok num h2.good (SelectTracks.estimatedViews s1.scene.recon) ts
  rw [hs2] at h3
  simp only
  obtain ⟨s3, h4, h5, h6⟩ := removeOutliers_ok (s := { s2 with numOptimized := (s2.reconstructed.length : Int) }) hn o.maxError
    h3.good (ids := num.order s2.clock s2.scene.recon.trackIds)
    ((hn.order _ _).nodup_iff.2 (Reconstruction.inv_of_reachable h3.good.reach).wfTracks)
    (fun t ht => AMap.mem_keys_iff.1 ((hn.order _ _).mem_iff.1 ht))
  rw [h4]
  refine ⟨b, s3, rfl, (h2.trans h3).trans ⟨h5.good, h5.views, h5.unlocalized, h5.reconstructed⟩, ?_, ?_⟩
  · rw [h6, h5.reconstructed]
  · intro hc t T hT he
    refine removeOutliers_inliers (s := { s2 with numOptimized := (s2.reconstructed.length : Int) }) hn hc o.maxError h3.good
      ((hn.order _ _).nodup_iff.2 (Reconstruction.inv_of_reachable h3.good.reach).wfTracks)
      (fun t ht => AMap.mem_keys_iff.1 ((hn.order _ _).mem_iff.1 ht)) h4 t ?_ T hT he
    rw [(hn.order _ _).mem_iff]
    have e1 := h5.good.same.trackIds
    have e2 := h3.good.same.trackIds
    change t ∈ s2.scene.recon.trackIds
    simp only at e2
    rw [e2, ← e1]
    exact AMap.mem_keys_iff.2 ⟨T, hT⟩

theorem tracksOf_ok {r : Reconstruction F P} (hr : r.Reachable) (vs : List ViewId) : ∀ acc, acc.Nodup →
    (∀ t ∈ acc, ∃ T, r.track t = some T) → (∀ v ∈ vs, ∃ V, r.view v = some V) →
    ∃ ts, tracksOf r vs acc = .ok ts ∧ ts.Nodup ∧ ∀ t ∈ ts, ∃ T, r.track t = some T := by
  induction vs with
  | nil => intro acc h1 h2 _; exact ⟨acc, rfl, h1, h2⟩
  | cons v vs ih =>
    intro acc h1 h2 h3
    obtain ⟨V, hV⟩ := h3 v List.mem_cons_self
    have hi := (C01_no_duplicates_no_dangling _ hr).1 v V hV
    rw [tracksOf, hV]
    refine ih _ ?_ ?_ fun w hw => h3 w (List.mem_cons_of_mem _ hw)
    · refine List.nodup_append.2 ⟨h1, hi.1.filter _, ?_⟩
      rintro a ha b hb rfl
      simp at hb
      exact hb.2 ha
    · intro t ht
      rcases List.mem_append.1 ht with ht | ht
      · exact h2 t ht
      · exact hi.2 t (List.mem_filter.1 ht).1

theorem setInsert_nodup {l : List TrackId} (h : l.Nodup) (t : TrackId) : (SelectTracks.setInsert l t).Nodup := by
  unfold SelectTracks.setInsert
  split
  · exact h
  · next hn => exact List.nodup_append.2 ⟨h, by simp, by rintro a ha b hb rfl; simp at hb; subst hb; exact hn ha⟩

omit [DecidableEq C] in
theorem pickCells_nodup (cells : List (C × List SelectTracks.Element)) : ∀ {sel sel' : List TrackId}, sel.Nodup →
    SelectTracks.pickCells cells sel = .ok sel' → sel'.Nodup := by
  induction cells with
  | nil => intro sel sel' h h1; cases h1; exact h
  | cons c cells ih =>
    obtain ⟨c, es⟩ := c
    intro sel sel' h h1
    cases es with
    | nil => cases h1
    | cons e es => exact ih (setInsert_nodup h _) h1

theorem addFirst_nodup (n : Nat) : ∀ {es : List SelectTracks.Element} {sel sel' : List TrackId}, sel.Nodup →
    SelectTracks.addFirst n es sel = .ok sel' → sel'.Nodup := by
  induction n with
  | zero => intro es sel sel' h h1; cases es <;> (cases h1; exact h)
  | succ n ih =>
    intro es sel sel' h h1
    cases es with
    | nil => cases h1
    | cons e es => exact ih (setInsert_nodup h _) h1

theorem forViews_nodup {r : Reconstruction F P} {f : View F → List TrackId → Outcome (List TrackId)}
    (hf : ∀ V sel sel', sel.Nodup → f V sel = .ok sel' → sel'.Nodup) (vs : List ViewId) :
    ∀ {sel sel' : List TrackId}, sel.Nodup → SelectTracks.forViews r f vs sel = .ok sel' → sel'.Nodup := by
  induction vs with
  | nil => intro sel sel' h h1; cases h1; exact h
  | cons v vs ih =>
    intro sel sel' h h1
    rw [SelectTracks.forViews] at h1
    split at h1
    · cases h1
    · split at h1
      · cases h1
      · cases h1
      · next h2 => exact ih (hf _ _ _ h h2) h1

theorem selectForViews_nodup {r : Reconstruction F P} {err : ViewId → TrackId → ℚ} {cell : F → C} {longTrack : Nat}
    {minTracks : Int} {views : List ViewId} {sel : List TrackId}
    (h : SelectTracks.selectForViews r err cell longTrack minTracks views [] = .ok sel) : sel.Nodup := by
  unfold SelectTracks.selectForViews at h
  split at h
  · cases h
  · cases h
  · split at h
    · cases h
    · cases h
    · next h1 =>
      refine forViews_nodup ?_ _ (forViews_nodup ?_ _ List.nodup_nil h1) h
      · intro V sel sel' hs h2
        unfold SelectTracks.topRanked at h2
        split at h2
        · cases h2
        · cases h2
        · cases h2; exact hs
        · split at h2
          · simp only at h2
            split at h2
            · cases h2
            · exact addFirst_nodup _ hs h2
          · cases h2; exact hs
      · intro V sel sel' hs h2
        unfold SelectTracks.bestInCells at h2
        split at h2
        · cases h2
        · cases h2
        · exact pickCells_nodup _ hs h2

theorem Good.view_of {r : Reconstruction F P} (hg : Good r0 r) {v : ViewId} (h : ∃ V, r0.view v = some V) :
    ∃ V, r.view v = some V := by
  obtain ⟨V, hV⟩ := h
  obtain ⟨b, hb⟩ := hg.same.views v V hV
  exact ⟨_, hb⟩

/-- An estimated track has an estimated observer. -/
theorem Good.observer {r : Reconstruction F P} (hg : Good r0 r) {t : TrackId} (he : isEstimatedTrack r t = true) :
    ∃ w W, r.view w = some W ∧ W.estimated = true ∧ Observes r w t := by
  obtain ⟨T, hT, he⟩ := SelectTracks.est_iff.1 he
  have h2 := hg.tracks t T hT he
  obtain ⟨w, hw⟩ := List.exists_mem_of_length_pos (by omega : 0 < (estimatedObservers r T).length)
  unfold estimatedObservers at hw
  rw [List.mem_filter] at hw
  obtain ⟨hw, hwe⟩ := hw
  split at hwe
  · next W hW =>
    obtain ⟨V', hV', hf⟩ := ((Reconstruction.inv_of_reachable hg.reach).sym w t).2 ⟨T, hT, hw⟩
    obtain ⟨f, hf⟩ := AMap.mem_keys_iff.1 hf
    exact ⟨w, W, hW, hwe, V', f, hV', hf⟩
  · cases hwe

theorem partialTracks_ok (num : Numerics F P M O X L N W D C) (o : Options) {s : State F P M O X} (hg : Good r0 s.scene.recon)
    {views : List ViewId} (hv : ∀ v ∈ views, ∃ V, r0.view v = some V) :
    ∃ ts s', partialTracks num o views s = .ok (ts, s') ∧ Frame r0 s s' ∧ s'.numOptimized = s.numOptimized ∧
      ts.Nodup ∧ ∀ t ∈ ts, ∃ T, r0.track t = some T := by
  have hback : ∀ t T, s.scene.recon.track t = some T → ∃ T, r0.track t = some T := fun t T hT => by
    obtain ⟨T, hT, _⟩ := hg.same.tracks_of hT
    exact ⟨T, hT⟩
  unfold partialTracks
  split
  · obtain ⟨sel, h1, _, h2, _⟩ := C27_any_views s.scene.recon hg.reach (num.error s.scene) num.cell o.longTrack o.minTracks
      views (fun v h => hg.view_of (hv v h)) (fun v _ t _ he => hg.observer he) []
    obtain ⟨r', h3, h4⟩ := EstimatorUtils.lowerTracksInViews_ok sel views s.scene.recon
    rw [h1]
    simp only [Outcome.ok_bind]
    rw [h3]
    refine ⟨_, _, rfl, ⟨hg.lowered h4, h4.views, rfl, rfl⟩, rfl, selectForViews_nodup h1, ?_⟩
    intro t ht
    rcases h2 t ht with h | ⟨h, _⟩
    · cases h
    · obtain ⟨T, hT, _⟩ := SelectTracks.est_iff.1 h
      exact hback t T hT
  · obtain ⟨ts, h1, h2, h3⟩ := tracksOf_ok hg.reach views [] List.nodup_nil (by simp) (fun v h => hg.view_of (hv v h))
    rw [h1]
    refine ⟨_, _, rfl, ⟨hg, rfl, rfl, rfl⟩, rfl, h2, ?_⟩
    intro t ht
    obtain ⟨T, hT⟩ := h3 t ht
    exact hback t T hT

theorem partialBundle_ok (hn : WellBehaved num) (ho : ValidOptions o) {s : State F P M O X} (hg : Good r0 s.scene.recon)
    (hv : ∀ v ∈ s.reconstructed, ∃ V, r0.view v = some V) :
    ∃ b s', partialBundle num o s = .ok (b, s') ∧ Frame r0 s s' ∧ s'.numOptimized = s.numOptimized := by
  unfold partialBundle lastViews
  rw [if_neg (by have := ho.views; omega)]
  simp only [Outcome.ok_bind]
  generalize hvs : num.order s.clock _ = views
  obtain ⟨ts, s1, h1, h2, h3, h4, h5⟩ := partialTracks_ok num o hg (views := views) (by
    intro v hv'
    rw [← hvs] at hv'
    have := (hn.order _ _).mem_iff.1 hv'
    rw [List.mem_dedup] at this
    exact hv v (List.mem_of_mem_drop this))
  rw [h1]
  simp only [Outcome.ok_bind]
  generalize hs2 : bundleAdjust num views ts s1 = x
  obtain ⟨b, s2⟩ := x
  obtain ⟨g1, g2⟩ := bundleAdjust_ok num h2.good views ts
  rw [hs2] at g1 g2
  simp only
  obtain ⟨s3, h6, h7, h8⟩ := removeOutliers_ok hn o.maxError (s := s2) g1.good (ids := num.order s2.clock ts)
    ((hn.order _ _).nodup_iff.2 h4) (fun t ht => by
      obtain ⟨T, hT⟩ := h5 t ((hn.order _ _).mem_iff.1 ht)
      obtain ⟨b, p, hp⟩ := g1.good.same.tracks t T hT
      exact ⟨_, hp⟩)
  rw [h6]
  exact ⟨b, s3, rfl, (h2.trans g1).trans h7, by rw [h8, g2, h3]⟩

/-! ### The containers -/

/-- What holds between the steps: the two containers hold every view of the view graph once. -/
structure Inv {I : Type} (g : ViewGraph I) (r0 : Reconstruction F P) (s : State F P M O X) : Prop where
  good : Good r0 s.scene.recon
  perm : (s.unlocalized ++ s.reconstructed).Perm g.viewIds
  opt : s.numOptimized ≤ s.reconstructed.length
  est : ∀ v V, s.scene.recon.view v = some V → V.estimated = true → v ∈ g.viewIds

section containers

variable {g : ViewGraph (TwoView O X L)}

omit [DecidableEq C] in
theorem Inv.memU {s : State F P M O X} (h : Inv g r0 s) {v : ViewId} (hv : v ∈ s.unlocalized) : v ∈ g.viewIds :=
  h.perm.mem_iff.1 (List.mem_append_left _ hv)

omit [DecidableEq C] in
theorem Inv.memR {s : State F P M O X} (h : Inv g r0 s) {v : ViewId} (hv : v ∈ s.reconstructed) : v ∈ g.viewIds :=
  h.perm.mem_iff.1 (List.mem_append_right _ hv)

omit [DecidableEq C] in
theorem Inv.frame {s s' : State F P M O X} (h : Inv g r0 s) (hf : Frame r0 s s') (ho : s'.numOptimized ≤ s'.reconstructed.length) :
    Inv g r0 s' where
  good := hf.good
  perm := by rw [hf.unlocalized, hf.reconstructed]; exact h.perm
  opt := ho
  est v V hV he := by
    refine h.est v V ?_ he
    unfold Reconstruction.view at *
    rw [← hf.views]
    exact hV

theorem perm_move {U R : List ViewId} (hn : U.Nodup) {v : ViewId} (hv : v ∈ U) :
    (U.filter (fun w => decide (w ≠ v)) ++ (R ++ [v])).Perm (U ++ R) := by
  have h1 : U.filter (fun w => decide (w ≠ v)) = U.erase v := by
    rw [hn.erase_eq_filter]
    apply List.filter_congr
    intro w _
    by_cases h : w = v <;> simp [h]
  rw [h1, ← List.append_assoc]
  refine (List.perm_append_comm).trans ?_
  simp only [List.singleton_append]
  have := (List.perm_cons_erase hv).symm.append_right R
  exact this

omit [DecidableEq C] in
theorem cleanup_ok (hn : WellBehaved num) {s : State F P M O X} (h : Inv g r0 s) :
    ∃ s', cleanup num g s = .ok s' ∧ Inv g r0 s' ∧ Lowered s.scene.recon s'.scene.recon ∧
      (∀ v ∈ s.unlocalized, v ∈ s'.unlocalized) := by
  obtain ⟨c, h1, h2⟩ := cleanup_good (r0 := r0)
    ⟨s.scene.recon, num.order s.clock g.viewIds, s.unlocalized, s.reconstructed, s.numOptimized⟩ h.good (by
      intro v hv _
      have := h.perm.mem_iff.2 ((hn.order _ _).mem_iff.1 hv)
      exact List.mem_append.1 this)
  unfold cleanup
  rw [h1]
  refine ⟨_, rfl, ⟨h2.good, h2.perm.trans h.perm, ?_, ?_⟩, h2.lowered, h2.mono⟩
  · have := h2.opt
    have := h.opt
    simp only at *
    omega
  · intro v V hV he
    simp only at hV
    cases hV0 : s.scene.recon.view v with
    | none => rw [h2.lowered.2.1 v hV0] at hV; cases hV
    | some V0 =>
      obtain ⟨b, hb, hb'⟩ := h2.lowered.1 v V0 hV0
      rw [hV] at hb
      cases hb
      exact h.est v V0 hV0 (hb' he)

theorem extend_ok (hn : WellBehaved num) (ho : ValidOptions o) (hgv : GraphViews g r0) {s : State F P M O X}
    (h : Inv g r0 s) {v : ViewId} (hv : ∃ V, r0.view v = some V) :
    ∃ b s', extend num o v s = .ok (b, s') ∧ Inv g r0 s' ∧ s'.unlocalized = s.unlocalized := by
  obtain ⟨V, hV⟩ := h.good.view_of hv
  unfold extend
  split
  · obtain ⟨s3, g1, g2, g3⟩ := estimateStructure_ok hn ho h.good hV
    have hi3 := h.frame g2 (by rw [g3, g2.reconstructed]; exact h.opt)
    rw [g1]
    simp only [Outcome.ok_bind]
    obtain ⟨b, s4, g4, g5, g6⟩ := partialBundle_ok hn ho hi3.good (fun w hw => hgv w (hi3.memR hw))
    exact ⟨b, s4, g4, hi3.frame g5 (by rw [g6, g5.reconstructed]; exact hi3.opt), by rw [g5.unlocalized, g2.unlocalized]⟩
  · obtain ⟨s3, g1, g2, g3⟩ := estimateAll_ok hn ho h.good
    have hi3 := h.frame g2 (by rw [g3, g2.reconstructed]; exact h.opt)
    rw [g1]
    simp only [Outcome.ok_bind]
    obtain ⟨b, s4, g4, g5, g6, _⟩ := fullBundle_ok hn o hi3.good
    exact ⟨b, s4, g4, hi3.frame g5 (by rw [g6]), by rw [g5.unlocalized, g2.unlocalized]⟩

/-- A clean-up that returns a reconstructed view to the queue. -/
def Loses (num : Numerics F P M O X L N W D C) (g : ViewGraph (TwoView O X L)) : Prop :=
  ∃ (s s' : State F P M O X) (v : ViewId), cleanup num g s = .ok s' ∧ v ∈ s.reconstructed ∧ v ∈ s'.unlocalized

theorem addView_ok (hn : WellBehaved num) (ho : ValidOptions o) (hgn : g.viewIds.Nodup) (hgv : GraphViews g r0)
    {s : State F P M O X} (h : Inv g r0 s) {v : ViewId} (hv : v ∈ s.unlocalized) :
    ∃ b s', addView num o g v s = .ok (b, s') ∧ Inv g r0 s' ∧ (s'.unlocalized.length < s.unlocalized.length ∨ Loses num g) := by
  have hnd : (s.unlocalized ++ s.reconstructed).Nodup := h.perm.nodup_iff.2 hgn
  unfold addView
  simp only
  generalize hs1 : ({ s with reconstructed := s.reconstructed ++ [v], unlocalized := s.unlocalized.filter _ } :
    State F P M O X) = s1
  have hi1 : Inv g r0 s1 := by
    subst hs1
    refine ⟨h.good, (perm_move (List.nodup_append.1 hnd).1 hv).trans h.perm, ?_, h.est⟩
    have := h.opt
    simp
    omega
  have hrec : s.scene.recon = s1.scene.recon := by subst hs1; rfl
  have hclock : s.clock = s1.clock := by subst hs1; rfl
  rw [hrec, hclock]
  obtain ⟨V, hV⟩ := hi1.good.view_of (hgv v (h.memU hv))
  rw [hV]
  simp only
  have hvt := (C01_no_duplicates_no_dangling _ hi1.good.reach).1 v V hV
  obtain ⟨s2, h2, h3, h4⟩ := removeOutliers_ok hn o.triangulationError hi1.good (ids := num.order s1.clock V.trackIds)
    ((hn.order _ _).nodup_iff.2 hvt.1) (fun t ht => hvt.2 t ((hn.order _ _).mem_iff.1 ht))
  rw [h2]
  simp only [Outcome.ok_bind]
  have hi2 : Inv g r0 s2 := hi1.frame h3 (by rw [h4, h3.reconstructed]; exact hi1.opt)
  obtain ⟨b, s3, h5, h6, h6'⟩ := extend_ok hn ho hgv hi2 (v := v) (hgv v (h.memU hv))
  rw [h5]
  simp only [Outcome.ok_bind]
  obtain ⟨s4, h7, h8, _⟩ := cleanup_ok hn h6
  rw [h7]
  refine ⟨b, s4, rfl, h8, ?_⟩
  by_cases hl : ∃ w ∈ s3.reconstructed, w ∈ s4.unlocalized
  · obtain ⟨w, hw, hw'⟩ := hl
    exact Or.inr ⟨s3, s4, w, h7, hw, hw'⟩
  · left
    have hnd4 : (s4.unlocalized ++ s4.reconstructed).Nodup := h8.perm.nodup_iff.2 hgn
    have hsub : ∀ w ∈ s4.unlocalized, w ∈ s3.unlocalized := by
      intro w hw
      have : w ∈ s3.unlocalized ++ s3.reconstructed := h6.perm.mem_iff.2 (h8.memU hw)
      rcases List.mem_append.1 this with h | h
      · exact h
      · exact absurd ⟨w, h, hw⟩ hl
    have hle : s4.unlocalized.length ≤ s3.unlocalized.length :=
      (List.nodup_append.1 hnd4).1.length_le_of_subset hsub
    have hu : s3.unlocalized = s.unlocalized.filter fun w => decide (w ≠ v) := by
      rw [h6', h3.unlocalized, ← hs1]
    have hlt : (s.unlocalized.filter fun w => decide (w ≠ v)).length < s.unlocalized.length :=
      List.length_filter_lt_length_iff_exists.2 ⟨v, hv, by simp⟩
    rw [hu] at hle
    omega

/-! ### The initial pair -/

omit [DecidableEq C] in
theorem initializeCameras_ok (hn : WellBehaved num) {pair : ViewId × ViewId} {s : State F P M O X}
    (hg : Good r0 s.scene.recon) (h1 : ∃ V, r0.view pair.1 = some V) (h2 : ∃ V, r0.view pair.2 = some V)
    {info : TwoView O X L} (he : g.getEdge pair.1 pair.2 = some info) :
    ∃ s', initializeCameras num g pair s = .ok s' ∧ Good r0 s'.scene.recon ∧ s'.unlocalized = s.unlocalized ∧
      s'.reconstructed = s.reconstructed ∧ s'.numOptimized = s.numOptimized ∧
      s'.scene.recon.tracks = s.scene.recon.tracks ∧
      ∀ v V, s'.scene.recon.view v = some V → (V.estimated = true ↔ v = pair.1 ∨ v = pair.2 ∨
        ∃ V', s.scene.recon.view v = some V' ∧ V'.estimated = true) := by
  obtain ⟨V1, hV1⟩ := hg.view_of h1
  obtain ⟨V2, hV2⟩ := hg.view_of h2
  unfold initializeCameras
  rw [hV1, hV2, he]
  simp only
  obtain ⟨m1, hm1⟩ := hn.focal s.clock info.focal1 (s.scene.heap V1.intrinsics)
  rw [hm1]
  simp only [Outcome.ok_bind]
  obtain ⟨m2, hm2⟩ := hn.focal s.clock info.focal2 ((((s.scene.setHeap V1.intrinsics m1).setOrientation pair.2
    info.rotation2).setPosition pair.2 info.position2).heap V2.intrinsics)
  rw [hm2]
  simp only [Outcome.ok_bind]
  have e1 := EstimatorUtils.setViewEstimated_eq hV1 true
  change ∃ s', (s.scene.recon.setViewEstimated pair.1 true >>= _) = _ ∧ _
  have hg1 := hg.raise e1
  rw [e1]
  simp only [Outcome.ok_bind]
  obtain ⟨V2', hV2'⟩ := hg1.view_of h2
  have e2 := EstimatorUtils.setViewEstimated_eq hV2' true
  have hg2 := hg1.raise e2
  rw [e2]
  simp only [Outcome.ok_bind]
  refine ⟨_, rfl, hg2, rfl, rfl, rfl, rfl, ?_⟩
  intro v V hV
  unfold Reconstruction.view at hV hV1 hV2 hV2'
  simp only [AMap.get_insert] at hV hV2'
  by_cases hv2 : v = pair.2
  · rw [if_pos hv2] at hV
    cases hV
    simp [hv2]
  · rw [if_neg hv2] at hV
    by_cases hv1 : v = pair.1
    · rw [if_pos hv1] at hV
      cases hV
      simp [hv1]
    · rw [if_neg hv1] at hV
      simp [hv1, hv2, Reconstruction.view, hV]

omit [DecidableEq C] in
theorem candidatePairs_mem (g : ViewGraph (TwoView O X L)) (p : Nat × Nat) :
    p ∈ candidatePairs g ↔ ∃ info, (p, info) ∈ g.allEdges ∧ (100 : Int) < info.verifiedMatches := by
  unfold candidatePairs
  rw [List.mem_map]
  constructor
  · rintro ⟨⟨a, b, q⟩, h, rfl⟩
    rw [List.mem_insertionSort, List.mem_map] at h
    obtain ⟨⟨q', info⟩, h, he⟩ := h
    rw [List.mem_filter] at h
    cases he
    exact ⟨info, h.1, of_decide_eq_true h.2⟩
  · rintro ⟨info, h1, h2⟩
    refine ⟨(info.homographyInliers, -info.verifiedMatches, p), ?_, rfl⟩
    rw [List.mem_insertionSort, List.mem_map]
    exact ⟨(p, info), List.mem_filter.2 ⟨h1, decide_eq_true h2⟩, rfl⟩

theorem edge_of_candidate (hinv : g.Inv) {p : Nat × Nat} (hp : p ∈ candidatePairs g) :
    ∃ info, g.getEdge p.1 p.2 = some info ∧ (100 : Int) < info.verifiedMatches ∧ p.1 < p.2 ∧ p.1 ∈ g.viewIds ∧
      p.2 ∈ g.viewIds := by
  obtain ⟨info, h1, h2⟩ := (candidatePairs_mem g p).1 hp
  have hk : p ∈ g.edges.keys := List.mem_map.2 ⟨_, h1, rfl⟩
  have hlt := hinv.lt p hk
  have ho : ordPair p.1 p.2 = p := ordPair_of_lt hlt
  refine ⟨info, ?_, h2, hlt, hinv.dom p.1 p.2 (by rw [ho]; exact hk), hinv.dom' (a := p.1) (by rw [ho]; exact hk)⟩
  unfold ViewGraph.getEdge
  rw [ho]
  exact AMap.get_of_mem_entries hinv.wfE h1

theorem candidate_of_edge {a b : Nat} {info : TwoView O X L} (hab : a < b) (hedge : g.getEdge a b = some info)
    (hm : (100 : Int) < info.verifiedMatches) : (a, b) ∈ candidatePairs g := by
  unfold ViewGraph.getEdge at hedge
  rw [ordPair_of_lt hab] at hedge
  exact (candidatePairs_mem g _).2 ⟨info, AMap.mem_entries_of_get hedge, hm⟩

/-- What holds after an initial pair was accepted. -/
structure Seeded (num : Numerics F P M O X L N W D C) (o : Options) (s : State F P M O X) (pair : ViewId × ViewId) :
    Prop where
  inliers : CamerasOnly num → NoOutliers num o.maxError s.scene
  reconstructed : s.reconstructed = [pair.1, pair.2]
  tracks : 100 < (EstimatorUtils.estimatedTracks s.scene.recon).length
  views : ∀ v V, s.scene.recon.view v = some V → (V.estimated = true ↔ v = pair.1 ∨ v = pair.2)

omit [DecidableEq C] in
theorem seedObservers {s : State F P M O X} {pair : ViewId × ViewId} (hg : Good r0 s.scene.recon) (hs : Seeded num o s pair)
    {t : TrackId} {T : Track P} (hT : s.scene.recon.track t = some T) (he : T.estimated = true) :
    pair.1 ∈ T.views ∧ pair.2 ∈ T.views := by
  have h2 := hg.tracks t T hT he
  have hnd : (estimatedObservers s.scene.recon T).Nodup :=
    ((C01_no_duplicates_no_dangling _ hg.reach).2 t T hT).1.filter _
  have hmem : ∀ v ∈ estimatedObservers s.scene.recon T, v ∈ T.views ∧ (v = pair.1 ∨ v = pair.2) := by
    intro v hv
    unfold estimatedObservers at hv
    obtain ⟨h1, h2⟩ := List.mem_filter.1 hv
    refine ⟨h1, ?_⟩
    cases hV : s.scene.recon.view v with
    | none => rw [hV] at h2; cases h2
    | some V => rw [hV] at h2; exact (hs.views v V hV).1 h2
  match hl : estimatedObservers s.scene.recon T with
  | [] => rw [hl] at h2; simp at h2
  | [a] => rw [hl] at h2; simp at h2
  | a :: b :: l =>
    rw [hl] at hnd hmem
    have ha := hmem a (by simp)
    have hb := hmem b (by simp)
    have hab : a ≠ b := fun h => (List.nodup_cons.1 hnd).1 (by rw [h]; simp)
    rcases ha.2 with rfl | rfl <;> rcases hb.2 with h | h
    · exact absurd h.symm hab
    · exact ⟨ha.1, h ▸ hb.1⟩
    · exact ⟨h ▸ hb.1, ha.1⟩
    · exact absurd h.symm hab

theorem tryPair_ok (hn : WellBehaved num) (ho : ValidOptions o) (hinv : g.Inv) (hgv : GraphViews g r0)
    {s : State F P M O X} (h : Inv g r0 s) (hr : s.reconstructed = []) {pair : ViewId × ViewId}
    (hp : pair ∈ candidatePairs g) :
    ∃ b s', tryPair num o g pair s = .ok (b, s') ∧ Inv g r0 s' ∧ (b = false → s'.reconstructed = []) ∧
      (b = true → Seeded num o s' pair) := by
  obtain ⟨info, hedge, _, hlt, hp1, hp2⟩ := edge_of_candidate hinv hp
  obtain ⟨r1, h1, h2, h3, h4⟩ := setUnestimated_ok h.good.reach h.good.same
  unfold tryPair
  rw [h1]
  simp only [Outcome.ok_bind]
  obtain ⟨s2, g1, g2, g3, g4, g5, _, g7⟩ := initializeCameras_ok (g := g) (pair := pair)
    (s := { s with scene := { s.scene with recon := r1 } }) hn h2 (hgv _ hp1) (hgv _ hp2) hedge
  rw [g1]
  simp only [Outcome.ok_bind]
  simp only at g3 g4 g5 g7
  have hest : ∀ v V, s2.scene.recon.view v = some V → (V.estimated = true ↔ v = pair.1 ∨ v = pair.2) := by
    intro v V hV
    rw [g7 v V hV]
    constructor
    · rintro (h | h | ⟨V', hV', he⟩)
      · exact Or.inl h
      · exact Or.inr h
      · rw [h3 v V' hV'] at he; cases he
    · rintro (h | h)
      · exact Or.inl h
      · exact Or.inr (Or.inl h)
  have hi2 : Inv g r0 s2 := by
    refine ⟨g2, by rw [g3, g4]; exact h.perm, by rw [g5, g4]; exact h.opt, fun v V hV he => ?_⟩
    rcases (hest v V hV).1 he with rfl | rfl
    · exact hp1
    · exact hp2
  obtain ⟨V1, hV1⟩ := g2.view_of (hgv _ hp1)
  obtain ⟨s3, k1, k2, k3⟩ := estimateStructure_ok hn ho g2 hV1
  have hi3 : Inv g r0 s3 := hi2.frame k2 (by rw [k3, k2.reconstructed]; exact hi2.opt)
  rw [k1]
  simp only [Outcome.ok_bind]
  split
  · exact ⟨false, s3, rfl, hi3, fun _ => by rw [k2.reconstructed, g4, hr], fun h => by cases h⟩
  · obtain ⟨b, s4, l1, l2, l3, l4⟩ := fullBundle_ok hn o k2.good
    have hi4 : Inv g r0 s4 := hi3.frame l2 (by rw [l3])
    have hr4 : s4.reconstructed = [] := by rw [l2.reconstructed, k2.reconstructed, g4, hr]
    rw [l1]
    simp only [Outcome.ok_bind]
    split
    · next hacc =>
      refine ⟨true, _, rfl, ?_, fun h => (by cases h), fun _ => ⟨l4, by simp [hr4], hacc.2, ?_⟩⟩
      · refine ⟨hi4.good, ?_, ?_, hi4.est⟩
        · have hperm := hi4.perm
          rw [hr4, List.append_nil] at hperm
          have hnd : s4.unlocalized.Nodup := hperm.nodup_iff.2 hinv.wfV
          refine List.Perm.trans ?_ hperm
          simp only [hr4, List.nil_append]
          have e1 := perm_move (R := []) hnd (hperm.mem_iff.2 hp1)
          have e2 := perm_move (R := [pair.1]) (hnd.filter fun w => decide (w ≠ pair.1)) (v := pair.2) (by
            rw [List.mem_filter]
            exact ⟨hperm.mem_iff.2 hp2, decide_eq_true (Nat.ne_of_gt hlt)⟩)
          rw [List.filter_filter] at e2
          refine List.Perm.trans ?_ (e2.trans (by simpa using e1))
          simp only [List.cons_append, List.nil_append]
          refine List.Perm.append_right _ (List.Perm.of_eq ?_)
          apply List.filter_congr
          intro w _
          by_cases ha : w = pair.1 <;> by_cases hb : w = pair.2 <;> simp [ha, hb]
        · rw [l3, hr4]
          simp
      · intro v V hV
        refine hest v V ?_
        unfold Reconstruction.view at *
        rw [← k2.views, ← l2.views]
        exact hV
    · exact ⟨false, s4, rfl, hi4, fun _ => hr4, fun h => by cases h⟩

theorem chooseLoop_ok (hn : WellBehaved num) (ho : ValidOptions o) (hinv : g.Inv) (hgv : GraphViews g r0)
    (pairs : List (ViewId × ViewId)) : ∀ {s : State F P M O X}, Inv g r0 s → s.reconstructed = [] →
    (∀ p ∈ pairs, p ∈ candidatePairs g) →
    ∃ b s', chooseLoop num o g pairs s = .ok (b, s') ∧ Inv g r0 s' ∧ (b = false → s'.reconstructed = [] ∧
        ∀ q ∈ pairs, ∃ s1 s2, tryPair num o g q s1 = .ok (false, s2)) ∧
      (b = true → ∃ pre pair post, pairs = pre ++ pair :: post ∧ Seeded num o s' pair ∧
        ∀ q ∈ pre, ∃ s1 s2, tryPair num o g q s1 = .ok (false, s2)) := by
  induction pairs with
  | nil => intro s h hr _; exact ⟨false, s, rfl, h, fun _ => ⟨hr, by simp⟩, fun h => by cases h⟩
  | cons pair pairs ih =>
    intro s h hr hp
    obtain ⟨b, s1, h1, h2, h3, h4⟩ := tryPair_ok hn ho hinv hgv h hr (hp pair List.mem_cons_self)
    rw [chooseLoop, h1]
    simp only [Outcome.ok_bind]
    cases b with
    | true => exact ⟨true, s1, rfl, h2, fun h => (by cases h), fun _ => ⟨[], pair, pairs, rfl, h4 rfl, by simp⟩⟩
    | false =>
      obtain ⟨b, s', k1, k2, k3, k4⟩ := ih h2 (h3 rfl) (fun p hp' => hp p (List.mem_cons_of_mem _ hp'))
      refine ⟨b, s', k1, k2, fun hb => ⟨(k3 hb).1, ?_⟩, fun hb => ?_⟩
      · intro q hq
        rcases List.mem_cons.1 hq with rfl | hq
        · exact ⟨s, s1, h1⟩
        · exact (k3 hb).2 q hq
      · obtain ⟨pre, p, post, e1, e2, e3⟩ := k4 hb
        refine ⟨pair :: pre, p, post, by rw [e1]; rfl, e2, ?_⟩
        intro q hq
        rcases List.mem_cons.1 hq with rfl | hq
        · exact ⟨s, s1, h1⟩
        · exact e3 q hq

/-! ### Choosing the next view -/

omit [DecidableEq C] in
theorem seenFeatures_ok {r : Reconstruction F P} {V : View F} (ts : List TrackId)
    (ht : ∀ t ∈ ts, (∃ T, r.track t = some T) ∧ ∃ f, V.getFeature t = some f) :
    seenFeatures r V ts = .ok ((ts.filter (isEstimatedTrack r)).filterMap V.getFeature) ∧
      ((ts.filter (isEstimatedTrack r)).filterMap V.getFeature).length = (ts.filter (isEstimatedTrack r)).length := by
  induction ts with
  | nil => exact ⟨rfl, rfl⟩
  | cons t ts ih =>
    obtain ⟨i1, i2⟩ := ih fun u hu => ht u (List.mem_cons_of_mem _ hu)
    obtain ⟨⟨T, hT⟩, f, hf⟩ := ht t List.mem_cons_self
    rw [seenFeatures, hT]
    simp only
    have he : isEstimatedTrack r t = T.estimated := by unfold isEstimatedTrack; rw [hT]
    cases hTe : T.estimated with
    | true =>
      rw [List.filter_cons_of_pos (by rw [he, hTe]), List.filterMap_cons_some hf, hf]
      simp only [if_true, i1, Outcome.ok_bind]
      exact ⟨trivial, by simp [i2]⟩
    | false =>
      rw [List.filter_cons_of_neg (by rw [he, hTe]; simp)]
      simp only [Bool.false_eq_true, if_false]
      exact ⟨i1, i2⟩

/-- The score of a view (`VisibilityPyramid`). -/
def viewScore (num : Numerics F P M O X L N W D C) (scene : Localize.Scene F P M O X) (v : ViewId) : Int :=
  match scene.recon.view v with
  | some V => num.score (scene.heap V.intrinsics) (estimatedFeatures scene.recon V)
  | none => 0

/-- The view sees enough estimated tracks. -/
def seesEnough (r : Reconstruction F P) (v : ViewId) : Bool :=
  (r.view v).any fun V => decide (30 ≤ (estimatedTracksIn r V).length)

omit [DecidableEq C] in
theorem scoreViews_ok (num : Numerics F P M O X L N W D C) {scene : Localize.Scene F P M O X} (hr : scene.recon.Reachable)
    (vs : List ViewId) (hv : ∀ v ∈ vs, ∃ V, scene.recon.view v = some V) :
    scoreViews num scene vs = .ok ((vs.filter (seesEnough scene.recon)).map fun v => (viewScore num scene v, v)) := by
  induction vs with
  | nil => rfl
  | cons v vs ih =>
    have ih := ih fun w hw => hv w (List.mem_cons_of_mem _ hw)
    obtain ⟨V, hV⟩ := hv v List.mem_cons_self
    obtain ⟨h1, h2⟩ := seenFeatures_ok (r := scene.recon) (V := V) V.trackIds (fun t ht =>
      ⟨((C01_no_duplicates_no_dangling _ hr).1 v V hV).2 t ht, AMap.mem_keys_iff.1 ht⟩)
    rw [scoreViews, hV]
    simp only
    rw [h1]
    simp only [Outcome.ok_bind, ih]
    have hl : (estimatedFeatures scene.recon V).length = (estimatedTracksIn scene.recon V).length := h2
    change (if 30 ≤ (estimatedFeatures scene.recon V).length then _ else _) = _
    rw [hl]
    by_cases hc : 30 ≤ (estimatedTracksIn scene.recon V).length
    · rw [if_pos hc, List.filter_cons_of_pos (by unfold seesEnough; rw [hV]; simp [hc]), List.map_cons]
      unfold viewScore
      rw [hV]
      rfl
    · rw [if_neg hc, List.filter_cons_of_neg (by unfold seesEnough; rw [hV]; simp; omega)]

omit [DecidableEq C] in
theorem scoreGE_iff (a b : Int × Nat) : scoreGE a b = true ↔ b.1 < a.1 ∨ (a.1 = b.1 ∧ b.2 ≤ a.2) := by
  unfold scoreGE
  simp only [Bool.or_eq_true, Bool.and_eq_true, decide_eq_true_eq]

omit [DecidableEq C] in
theorem findViews_ok {num : Numerics F P M O X L N W D C} (hn : ∀ k l, (num.order k l).Perm l) {s : State F P M O X}
    (hr : s.scene.recon.Reachable) (hU : ∀ v ∈ s.unlocalized, ∃ V, s.scene.recon.view v = some V) :
    ∃ vs, findViews num s = .ok vs ∧ vs.Perm (s.unlocalized.filter (seesEnough s.scene.recon)) ∧
      vs.Pairwise fun a b => viewScore num s.scene b < viewScore num s.scene a ∨
        (viewScore num s.scene a = viewScore num s.scene b ∧ b ≤ a) := by
  unfold findViews
  rw [scoreViews_ok num hr _ (fun v hv => hU v ((hn _ _).mem_iff.1 hv))]
  simp only [Outcome.ok_bind]
  refine ⟨_, rfl, ?_, ?_⟩
  · refine ((List.perm_insertionSort _ _).map _).trans ?_
    rw [List.map_map]
    have : ((fun x : Int × ViewId => x.2) ∘ fun v => (viewScore num s.scene v, v)) = id := rfl
    rw [this, List.map_id]
    exact (hn _ _).filter _
  · rw [List.pairwise_map]
    have ht : IsTrans (Int × ViewId) (fun a b => scoreGE a b = true) := ⟨by
      intro a b c h1 h2
      rw [scoreGE_iff] at *
      omega⟩
    have hto : Std.Total (α := Int × ViewId) (fun a b => scoreGE a b = true) := ⟨by
      intro a b
      rw [scoreGE_iff, scoreGE_iff]
      omega⟩
    refine List.Pairwise.imp_of_mem ?_ (List.pairwise_insertionSort (fun a b : Int × ViewId => scoreGE a b = true) _)
    intro a b ha hb hab
    rw [List.mem_insertionSort] at ha hb
    obtain ⟨v, _, rfl⟩ := List.mem_map.1 ha
    obtain ⟨w, _, rfl⟩ := List.mem_map.1 hb
    exact (scoreGE_iff _ _).1 hab

theorem fullBundle_false {s s' : State F P M O X} (h : fullBundle num o s = .ok (false, s')) : AdjustFails num := by
  unfold fullBundle at h
  obtain ⟨⟨ts, s1⟩, _, h⟩ := Outcome.bind_eq_ok.1 h
  simp only at h
  obtain ⟨s2, _, h⟩ := Outcome.bind_eq_ok.1 h
  have h := congrArg Prod.fst (Outcome.ok.inj h)
  exact ⟨_, _, _, _, h⟩

theorem partialBundle_false {s s' : State F P M O X} (h : partialBundle num o s = .ok (false, s')) : AdjustFails num := by
  unfold partialBundle at h
  obtain ⟨vs, _, h⟩ := Outcome.bind_eq_ok.1 h
  simp only at h
  obtain ⟨⟨ts, s1⟩, _, h⟩ := Outcome.bind_eq_ok.1 h
  simp only at h
  obtain ⟨s2, _, h⟩ := Outcome.bind_eq_ok.1 h
  have h := congrArg Prod.fst (Outcome.ok.inj h)
  exact ⟨_, _, _, _, h⟩

theorem addView_false {v : ViewId} {s s' : State F P M O X} (h : addView num o g v s = .ok (false, s')) :
    AdjustFails num := by
  unfold addView at h
  simp only at h
  split at h
  · cases h
  · obtain ⟨s1, _, h⟩ := Outcome.bind_eq_ok.1 h
    obtain ⟨⟨b, s2⟩, h2, h⟩ := Outcome.bind_eq_ok.1 h
    simp only at h
    obtain ⟨s3, _, h⟩ := Outcome.bind_eq_ok.1 h
    have hb : b = false := congrArg Prod.fst (Outcome.ok.inj h)
    subst hb
    unfold extend at h2
    split at h2
    · obtain ⟨s4, _, h2⟩ := Outcome.bind_eq_ok.1 h2
      exact partialBundle_false h2
    · obtain ⟨s4, _, h2⟩ := Outcome.bind_eq_ok.1 h2
      exact fullBundle_false h2

/-! ### What an added view may move -/

/-- All poses are as before. -/
structure SamePoses (s s' : State F P M O X) : Prop where
  orientation : s'.scene.orientation = s.scene.orientation
  position : s'.scene.position = s.scene.position
  reconstructed : s'.reconstructed = s.reconstructed

omit [DecidableEq C] in
theorem removeOutliers_poses {e : ℚ} {ids : List TrackId} {s s' : State F P M O X}
    (h : removeOutliers num e ids s = .ok s') : SamePoses s s' := by
  unfold removeOutliers at h
  obtain ⟨x, _, h⟩ := Outcome.bind_eq_ok.1 h
  cases h
  exact ⟨rfl, rfl, rfl⟩

omit [DecidableEq C] in
theorem estimateStructure_poses {v : ViewId} {s s' : State F P M O X} (h : estimateStructure num o v s = .ok s') :
    SamePoses s s' := by
  unfold estimateStructure at h
  split at h
  · cases h
  · unfold triangulate at h
    obtain ⟨x, _, h⟩ := Outcome.bind_eq_ok.1 h
    simp only at h
    obtain ⟨y, _, h⟩ := Outcome.bind_eq_ok.1 h
    cases h
    exact ⟨rfl, rfl, rfl⟩

theorem partialTracks_poses {vs : List ViewId} {ts : List TrackId} {s s' : State F P M O X}
    (h : partialTracks num o vs s = .ok (ts, s')) : SamePoses s s' := by
  unfold partialTracks at h
  split at h
  · obtain ⟨x, _, h⟩ := Outcome.bind_eq_ok.1 h
    obtain ⟨y, _, h⟩ := Outcome.bind_eq_ok.1 h
    cases h
    exact ⟨rfl, rfl, rfl⟩
  · obtain ⟨x, _, h⟩ := Outcome.bind_eq_ok.1 h
    cases h
    exact ⟨rfl, rfl, rfl⟩

theorem partialBundle_poses (hn : WellBehaved num) {b : Bool} {s s' : State F P M O X}
    (h : partialBundle num o s = .ok (b, s')) (w : ViewId)
    (hw : w ∉ s.reconstructed.drop (s.reconstructed.length - o.partialViews.toNat)) :
    s'.scene.orientation w = s.scene.orientation w ∧ s'.scene.position w = s.scene.position w := by
  unfold partialBundle at h
  obtain ⟨vs, h1, h⟩ := Outcome.bind_eq_ok.1 h
  simp only at h
  obtain ⟨⟨ts, s1⟩, h2, h⟩ := Outcome.bind_eq_ok.1 h
  simp only at h
  obtain ⟨s2, h3, h⟩ := Outcome.bind_eq_ok.1 h
  cases h
  have e1 := partialTracks_poses h2
  have e2 := removeOutliers_poses h3
  have hvs : w ∉ num.order s.clock vs := by
    rw [(hn.order _ _).mem_iff]
    unfold lastViews at h1
    split at h1
    · cases h1
    · cases h1
      rw [List.mem_dedup]
      convert hw using 3
      omega
  have hf : w ∉ (num.order s.clock vs).filter fun v => (s1.scene.recon.view v).any (·.estimated) :=
    fun h => hvs (List.mem_filter.1 h).1
  rw [e2.orientation, e2.position, ← e1.orientation, ← e1.position]
  unfold bundleAdjust
  simp only
  rw [if_neg hf, if_neg hf]
  exact ⟨rfl, rfl⟩

omit [DecidableEq C] in
theorem smallGrowth_iff (o : Options) {s : State F P M O X} (hO : 0 ≤ s.numOptimized)
    (hle : s.numOptimized ≤ s.reconstructed.length) (hsize : s.reconstructed.length < 2 ^ 64) :
    smallGrowth o s = true ↔
      100 * ((s.reconstructed.length : ℚ) - s.numOptimized) < o.growthPercent * s.numOptimized := by
  have hmod : ((s.reconstructed.length : Int) - s.numOptimized) % 2 ^ 64 = s.reconstructed.length - s.numOptimized := by
    apply Int.emod_eq_of_lt <;> omega
  unfold smallGrowth
  rw [Bool.and_eq_true, decide_eq_true_eq, decide_eq_true_eq]
  rw [hmod]
  push_cast
  by_cases h0 : s.numOptimized = 0
  · simp [h0]
  · have hpos : (0 : ℚ) < s.numOptimized := by exact_mod_cast lt_of_le_of_ne hO (Ne.symm h0)
    rw [div_lt_iff₀ hpos]
    simp [h0]

/-! ### The loop -/

theorem attempt_ok (hn : WellBehaved num) (ho : ValidOptions o) (hgn : g.viewIds.Nodup) (hgv : GraphViews g r0)
    (vs : List ViewId) : ∀ {s : State F P M O X} (n : Nat), Inv g r0 s → (∀ v ∈ vs, v ∈ s.unlocalized) →
    ∃ n' a s', attempt num o g vs s n = .ok (n', a, s') ∧ Inv g r0 s' ∧
      (a = none → n' = n + vs.length ∧ s'.unlocalized = s.unlocalized ∧ s'.reconstructed = s.reconstructed ∧
        SameStructure s.scene.recon s'.scene.recon ∧ (∀ t, s.scene.recon.track t = s'.scene.recon.track t) ∧
        ∀ v ∈ vs, LocalizationFails num o s'.scene.recon v) ∧
      (∀ b, a = some b → n' < n + vs.length ∧ (b = false → AdjustFails num) ∧
        (s'.unlocalized.length < s.unlocalized.length ∨ Loses num g)) := by
  induction vs with
  | nil =>
    intro s n h _
    exact ⟨n, none, s, rfl, h, fun _ => ⟨rfl, rfl, rfl, .refl _, fun _ => rfl, by simp⟩, fun b hb => by cases hb⟩
  | cons v vs ih =>
    intro s n h hv
    obtain ⟨V, hV⟩ := h.good.view_of (hgv v (h.memU (hv v List.mem_cons_self)))
    obtain ⟨b, scene, inl, h1⟩ := localize_total (hn.order s.clock) (num.localization s.clock) (hn.focal s.clock)
      (localizeOptions o) h.good.reach hV []
    rw [attempt, h1]
    simp only [Outcome.ok_bind]
    have hrec := localize_recon h1
    have hgood : Good r0 scene.recon := by
      rcases hrec with ⟨e, _⟩ | e
      · rw [e]; exact h.good
      · exact h.good.raise e
    have htr : ∀ t, s.scene.recon.track t = scene.recon.track t := by
      intro t
      rcases hrec with ⟨e, _⟩ | e
      · rw [e]
      · rw [EstimatorUtils.setViewEstimated_eq hV] at e
        rw [← Outcome.ok.inj e]
        rfl
    have hsame : SameStructure s.scene.recon scene.recon := by
      rcases hrec with ⟨e, _⟩ | e
      · rw [e]; exact .refl _
      · exact EstimatorUtils.same_setView e
    have hinv : Inv g r0 { s with scene := scene, clock := s.clock + 1 } := by
      refine ⟨hgood, h.perm, h.opt, ?_⟩
      intro w W hW he
      rcases hrec with ⟨e, _⟩ | e
      · simp only [e] at hW
        exact h.est w W hW he
      · rw [EstimatorUtils.setViewEstimated_eq hV] at e
        by_cases hw : w = v
        · subst hw; exact h.memU (hv w List.mem_cons_self)
        · refine h.est w W ?_ he
          simp only [← Outcome.ok.inj e, Reconstruction.view, AMap.get_insert] at hW
          rw [if_neg hw] at hW
          exact hW
    cases b with
    | true =>
      obtain ⟨b, s', k1, k2, k3⟩ := addView_ok hn ho hgn hgv hinv (hv v List.mem_cons_self)
      simp only [if_true, k1, Outcome.ok_bind]
      refine ⟨n, some b, s', rfl, k2, fun h => (by cases h), ?_⟩
      intro b' hb'
      cases hb'
      exact ⟨by simp, fun hb => addView_false (hb ▸ k1), k3⟩
    | false =>
      simp only [Bool.false_eq_true, if_false]
      obtain ⟨n', a, s', k1, k2, k3, k4⟩ := ih (n + 1) hinv (fun w hw => hv w (List.mem_cons_of_mem _ hw))
      refine ⟨n', a, s', k1, k2, fun ha => ?_, fun b hb => ?_⟩
      · obtain ⟨e1, e2, e3, e4, e5, e6⟩ := k3 ha
        refine ⟨by rw [e1]; simp; omega, e2, e3, hsame.trans e4, fun t => (htr t).trans (e5 t), ?_⟩
        intro w hw
        rcases List.mem_cons.1 hw with rfl | hw
        · exact ⟨s.clock, s.scene, scene, inl, hsame.trans e4, fun t => (htr t).trans (e5 t), h1⟩
        · exact e6 w hw
      · obtain ⟨e1, e2, e3⟩ := k4 b hb
        exact ⟨by simp; omega, e2, e3⟩

/-- Every queued view that sees enough estimated tracks has failed. -/
def Finished (num : Numerics F P M O X L N W D C) (o : Options) (s : State F P M O X) : Prop :=
  ∀ v ∈ s.unlocalized, seesEnough s.scene.recon v = true → LocalizationFails num o s.scene.recon v

theorem seesEnough_same {r r' : Reconstruction F P} (h : SameStructure r r') (ht : ∀ t, r.track t = r'.track t) (v : ViewId) :
    seesEnough r' v = true → (∃ V, r.view v = some V) → seesEnough r v = true := by
  rintro h1 ⟨V, hV⟩
  obtain ⟨b, hb⟩ := h.views v V hV
  have he : isEstimatedTrack r' = isEstimatedTrack r := by
    funext t
    unfold isEstimatedTrack
    rw [ht t]
  unfold seesEnough estimatedTracksIn at *
  rw [hb, he] at h1
  rw [hV]
  exact h1

theorem mainLoop_ok (hn : WellBehaved num) (ho : ValidOptions o) (hgn : g.viewIds.Nodup) (hgv : GraphViews g r0) (k : Nat) :
    ∀ {s : State F P M O X}, Inv g r0 s →
    ∃ x, mainLoop num o g k s = .ok x ∧ (∀ b s', x = some (b, s') → Inv g r0 s' ∧ (b = false → AdjustFails num) ∧
        (b = true → Finished num o s')) ∧
      (x = none → s.unlocalized.length < k → Loses num g) := by
  induction k with
  | zero => intro s h; exact ⟨none, rfl, fun _ _ h => (by cases h), fun _ h => (by omega)⟩
  | succ k ih =>
    intro s h
    rw [mainLoop]
    split
    · next hu =>
      refine ⟨_, rfl, ?_, fun h => by cases h⟩
      intro b s' e
      cases e
      refine ⟨h, fun h => (by cases h), fun _ v hv => ?_⟩
      rw [hu] at hv
      cases hv
    · obtain ⟨vs, h1, h2, _⟩ := findViews_ok hn.order h.good.reach (fun v hv => h.good.view_of (hgv v (h.memU hv)))
      rw [h1]
      simp only [Outcome.ok_bind]
      obtain ⟨n', a, s1, k1, k2, k3, k4⟩ := attempt_ok hn ho hgn hgv vs 0 h (fun v hv =>
        (List.mem_filter.1 (h2.mem_iff.1 hv)).1)
      rw [k1]
      simp only [Outcome.ok_bind]
      cases a with
      | none =>
        obtain ⟨e1, e2, e3, e4, e5, e6⟩ := k3 rfl
        simp only
        rw [if_pos (by omega)]
        refine ⟨_, rfl, ?_, fun h => by cases h⟩
        intro b s' e
        cases e
        refine ⟨k2, fun h => (by cases h), fun _ v hv hs => e6 v (h2.mem_iff.2 (List.mem_filter.2 ⟨e2 ▸ hv, ?_⟩))⟩
        exact seesEnough_same e4 e5 v hs (h.good.view_of (hgv v (h.memU (e2 ▸ hv))))
      | some b =>
        obtain ⟨e1, e2, e3⟩ := k4 b rfl
        cases b with
        | false =>
          refine ⟨_, rfl, ?_, fun h => by cases h⟩
          intro b s' e
          cases e
          exact ⟨k2, fun _ => e2 rfl, fun h => by cases h⟩
        | true =>
          simp only
          rw [if_neg (by omega)]
          obtain ⟨x, l1, l2, l3⟩ := ih k2
          refine ⟨x, l1, l2, fun hx hk => ?_⟩
          rcases e3 with e3 | e3
          · exact l3 hx (by omega)
          · exact e3

theorem mainLoop_mono (k : Nat) : ∀ {s : State F P M O X} {x : Bool × State F P M O X},
    mainLoop num o g k s = .ok (some x) → ∀ j, mainLoop num o g (k + j) s = .ok (some x) := by
  induction k with
  | zero => intro s x h; cases h
  | succ k ih =>
    intro s x h j
    rw [Nat.succ_add]
    rw [mainLoop] at h ⊢
    split
    · next hu => rw [if_pos hu] at h; exact h
    · next hu =>
      rw [if_neg hu] at h
      obtain ⟨vs, h1, h⟩ := Outcome.bind_eq_ok.1 h
      obtain ⟨⟨n, a, s1⟩, h2, h⟩ := Outcome.bind_eq_ok.1 h
      rw [h1]
      simp only [Outcome.ok_bind]
      rw [h2]
      simp only [Outcome.ok_bind] at h ⊢
      split at h
      · exact h
      · split at h
        · next hf => rw [if_pos hf]; exact h
        · next hf => rw [if_neg hf]; exact ih h j


/-! ### A whole run -/

omit [DecidableEq C] in
theorem queueViews_perm {r : Reconstruction F P} (vs : List ViewId) : ∀ (q : List ViewId), (vs ++ q).Nodup →
    (∀ v ∈ vs, ∃ V, r.view v = some V ∧ V.estimated = false) → (queueViews r vs q).Perm (vs ++ q) := by
  induction vs with
  | nil => intro q _ _; exact .refl _
  | cons v vs ih =>
    intro q hnd hv
    obtain ⟨V, hV, he⟩ := hv v List.mem_cons_self
    rw [queueViews, hV]
    simp only
    have hvq : v ∉ q := fun h => (List.nodup_cons.1 hnd).1 (List.mem_append_right _ h)
    rw [if_pos ⟨he, hvq⟩]
    have hp : (vs ++ v :: q).Perm (v :: vs ++ q) := List.perm_middle
    exact (ih _ (hp.nodup_iff.2 hnd) (fun w hw => hv w (List.mem_cons_of_mem _ hw))).trans hp

omit [DecidableEq C] in
theorem noTracks {r : Reconstruction F P} (h : NothingEstimated r) : EstimatorUtils.numEstimatedTracks r = 0 := by
  unfold EstimatorUtils.numEstimatedTracks
  generalize r.trackIds = ts
  induction ts with
  | nil => rfl
  | cons t ts ih =>
    rw [List.foldl_cons]
    cases hT : r.track t with
    | none => exact ih
    | some T =>
      simp only [h.2 t T hT, Bool.false_eq_true, if_false]
      exact ih

omit [DecidableEq C] in
theorem start_inv {g : ViewGraph (TwoView O X L)} (hinv : g.Inv) {order : List Nat → List Nat}
    (horder : ∀ l, (order l).Perm l) {scene : Localize.Scene F P M O X} (hr : scene.recon.Reachable)
    (hnew : NothingEstimated scene.recon) (hgv : GraphViews g scene.recon) (heap : Nat → M) :
    Inv g scene.recon ⟨{ scene with heap := heap }, queueViews scene.recon (order g.viewIds) [], [], 0, 1⟩ := by
  refine ⟨⟨hr, .refl _, ?_⟩, ?_, by simp, ?_⟩
  · intro t T hT he
    rw [hnew.2 t T hT] at he
    cases he
  · have := queueViews_perm (r := scene.recon) (order g.viewIds) [] (by
      rw [List.append_nil]; exact (horder _).nodup_iff.2 hinv.wfV) (by
      intro v hv
      obtain ⟨V, hV⟩ := hgv v ((horder _).mem_iff.1 hv)
      exact ⟨V, hV, hnew.1 v V hV⟩)
    rw [List.append_nil] at this ⊢
    exact this.trans (horder _)
  · intro v V hV he
    rw [hnew.1 v V hV] at he
    cases he

omit [DecidableEq C] in
theorem criterionLE_iff (a b : Int × Int × (Nat × Nat)) : criterionLE a b = true ↔ a.1 < b.1 ∨ (a.1 = b.1 ∧ (a.2.1 < b.2.1 ∨
    (a.2.1 = b.2.1 ∧ (a.2.2.1 < b.2.2.1 ∨ (a.2.2.1 = b.2.2.1 ∧ a.2.2.2 ≤ b.2.2.2))))) := by
  unfold criterionLE
  simp only [Bool.or_eq_true, Bool.and_eq_true, decide_eq_true_eq]

omit [DecidableEq C] in
theorem candidatePairs_sorted {g : ViewGraph (TwoView O X L)} (hinv : g.Inv) :
    (candidatePairs g).Pairwise fun p q => ∀ i j, g.getEdge p.1 p.2 = some i → g.getEdge q.1 q.2 = some j → BetterSeed i j := by
  have ht : IsTrans (Int × Int × (Nat × Nat)) (fun a b => criterionLE a b = true) := ⟨by
    intro a b c h1 h2
    rw [criterionLE_iff] at *
    omega⟩
  have hto : Std.Total (α := Int × Int × (Nat × Nat)) (fun a b => criterionLE a b = true) := ⟨by
    intro a b
    rw [criterionLE_iff, criterionLE_iff]
    omega⟩
  unfold candidatePairs
  rw [List.pairwise_map]
  refine List.Pairwise.imp_of_mem ?_
    (List.pairwise_insertionSort (fun a b : Int × Int × (Nat × Nat) => criterionLE a b = true) _)
  intro a b ha hb hab i j hi hj
  rw [List.mem_insertionSort] at ha hb
  obtain ⟨e, he, rfl⟩ := List.mem_map.1 ha
  obtain ⟨f, hf, rfl⟩ := List.mem_map.1 hb
  have hget : ∀ e ∈ g.allEdges, g.getEdge e.1.1 e.1.2 = some e.2 := by
    intro e he
    unfold ViewGraph.getEdge
    rw [ordPair_of_lt (hinv.lt _ (List.mem_map.2 ⟨e, he, rfl⟩))]
    exact AMap.get_of_mem_entries hinv.wfE he
  rw [hget e (List.mem_filter.1 he).1] at hi
  rw [hget f (List.mem_filter.1 hf).1] at hj
  cases hi
  cases hj
  rw [criterionLE_iff] at hab
  unfold BetterSeed
  simp only at hab
  omega

/-- All that is proved about a run on a reconstruction in which nothing is estimated. -/
theorem estimate_ok {num : Numerics F P M O X L N W D C} (hn : WellBehaved num) {o : Options} (ho : ValidOptions o)
    {g : ViewGraph (TwoView O X L)} (hinv : g.Inv) {scene : Localize.Scene F P M O X} (hr : scene.recon.Reachable)
    (hnew : NothingEstimated scene.recon) (hgv : GraphViews g scene.recon) (fuel : Nat) :
    ∃ x, estimate num o g fuel scene = .ok x ∧ (x = none → g.viewIds.length < fuel → Loses num g) ∧
      ∀ summary s, x = some (summary, s) → Inv g scene.recon s ∧
        (summary.success = true → summary = ⟨true, SelectTracks.estimatedViews s.scene.recon,
          EstimatorUtils.estimatedTracks s.scene.recon⟩ ∧ Finished num o s ∧ ∃ pair, pair ∈ candidatePairs g) ∧
        (summary.success = false → summary = ⟨false, [], []⟩ ∧ (AdjustFails num ∨
          ∀ q ∈ candidatePairs g, ∃ s1 s2, tryPair num o g q s1 = .ok (false, s2))) := by
  obtain ⟨heap, hheap⟩ := hn.calibrate scene
  unfold estimate checkOptions
  rw [if_pos ⟨ho.ratio.2, ho.ratio.1, ho.growth, ho.views⟩]
  simp only [Outcome.ok_bind, hheap]
  have h0 := start_inv hinv (hn.order 0) hr hnew hgv heap
  unfold reconstruct initialPair
  simp only [noTracks hnew]
  rw [if_pos (by simp)]
  obtain ⟨b, s1, h1, h2, h3, h4⟩ := chooseLoop_ok hn ho hinv hgv (candidatePairs g) h0 rfl (fun _ h => h)
  unfold chooseInitial
  rw [h1]
  simp only [Outcome.ok_bind]
  cases b with
  | false =>
    refine ⟨_, rfl, fun h => (by cases h), ?_⟩
    intro summary s e
    cases e
    exact ⟨h2, fun h => (by cases h), fun _ => ⟨rfl, Or.inr (h3 rfl).2⟩⟩
  | true =>
    simp only [if_true]
    obtain ⟨pre, pair, post, e1, e2, _⟩ := h4 rfl
    have hlen : s1.unlocalized.length ≤ g.viewIds.length := by
      have := h2.perm.length_eq
      rw [List.length_append] at this
      omega
    obtain ⟨x, k1, k2, k3⟩ := mainLoop_ok hn ho hinv.wfV hgv fuel h2
    rw [k1]
    simp only [Outcome.ok_bind]
    match x, k2, k3 with
    | none, _, k3 => exact ⟨_, rfl, fun _ h => k3 rfl (by omega), fun _ _ h => by cases h⟩
    | some (false, s2), k2, _ =>
      obtain ⟨l1, l2, _⟩ := k2 _ _ rfl
      refine ⟨_, rfl, fun h => (by cases h), ?_⟩
      intro summary s e
      cases e
      exact ⟨l1, fun h => (by cases h), fun _ => ⟨rfl, Or.inl (l2 rfl)⟩⟩
    | some (true, s2), k2, _ =>
      obtain ⟨l1, _, l3⟩ := k2 _ _ rfl
      refine ⟨_, rfl, fun h => (by cases h), ?_⟩
      intro summary s e
      cases e
      exact ⟨l1, fun _ => ⟨rfl, l3 rfl, pair, by rw [e1]; simp⟩, fun h => by cases h⟩

end containers

end Incremental
end Theia
