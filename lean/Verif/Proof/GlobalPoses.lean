import Verif.Proof.Global

/-! Global reconstruction: the poses and the points. -/

namespace Theia
namespace Global

open Spec ViewGraph
open Incremental (TwoView Good TrackChange)

variable {F P M O X L N W D C E : Type}
variable {num : Numerics F P M O X L N W D C E} {o : Options}

/-- What the estimation of poses gives. -/
structure Posed (num : Numerics F P M O X L N W D C E) (o : Options) (g : ViewGraph (TwoView O X L))
    (scene : Localize.Scene F P M O X) (b : Bool) (s : State F P M O X L) : Prop where
  reach : s.scene.recon.Reachable
  same : SameStructure scene.recon s.scene.recon
  tracks : ∀ t, s.scene.recon.track t = scene.recon.track t
  part : Part g s.graph
  linked : Linked s.graph
  strong : ∀ a b i, s.graph.getEdge a b = some i → o.minMatches ≤ i.verifiedMatches
  component : strongPairs o.minMatches g ≠ [] → ∃ comp, BiggestComponent (strongPairs o.minMatches g) comp ∧
    ∀ v, IsNode (pairsOf s.graph) v → v ∈ comp
  agree : b = true → Agree num s.orientations s.graph
  views : ∀ v, (b = true ∧ IsNode (pairsOf s.graph) v ∧ IsEstimated s.scene.recon v ∧
      s.orientations.get v = some (s.scene.orientation v) ∧ s.positions.get v = some (s.scene.position v)) ∨
    ((b = true → s.positions.get v = none) ∧ ¬ IsEstimated s.scene.recon v ∧ s.scene.orientation v = scene.orientation v ∧
      s.scene.position v = scene.position v)
  fails : b = false → strongPairs o.minMatches g = [] ∨ NumericsFail num

theorem Part.hasView_of_node {g : ViewGraph (TwoView O X L)} (hr : IsRun g) {v : Nat} (h : IsNode (pairsOf g) v) :
    g.hasView v = true := by
  obtain ⟨w, i, hi⟩ := hr.node.1 h
  exact (hr.ends hi).1

theorem poses_ok (hn : GlobalWellBehaved num) (ho : 0 ≤ o.rotationTolerance) (hth : 1 ≤ o.numThreads)
    {g : ViewGraph (TwoView O X L)} (hr : IsRun g) (hids : ValidIds g) {scene : Localize.Scene F P M O X}
    (hreach : scene.recon.Reachable) (hnew : NothingEstimated scene.recon) (hgv : GraphViews g scene.recon) :
    (∃ b s, poses num o ⟨g, scene, .empty, .empty, 0⟩ = .ok (b, s) ∧ Posed num o g scene b s) ∨
      ((∀ b s, poses num o ⟨g, scene, .empty, .empty, 0⟩ ≠ .ok (b, s)) ∧ NeedsPairs num) := by
  have hnone : ∀ (h : Nat → M) v, ¬ IsEstimated ({ scene with heap := h } : Localize.Scene F P M O X).recon v := by
    rintro h v ⟨V, hV, he⟩
    rw [hnew.1 v V hV] at he
    cases he
  have hview : ∀ v, g.hasView v = true → ∃ V, scene.recon.view v = some V := fun v hv => hgv v (AMap.contains_iff.1 hv)
  unfold poses
  obtain ⟨b1, g1, h1, i1, e1, e2⟩ := filterInitial_ok hn o hr hids
  simp only
  rw [h1]
  simp only [Outcome.ok_bind]
  have hcomp : ∀ {g2}, Part g1 g2 → strongPairs o.minMatches g ≠ [] →
      ∃ comp, BiggestComponent (strongPairs o.minMatches g) comp ∧ ∀ v, IsNode (pairsOf g2) v → v ∈ comp := by
    intro g2 hp hne
    obtain ⟨comp, hc, he⟩ := i1.component hne
    refine ⟨comp, hc, ?_⟩
    intro v hv
    obtain ⟨w, i, hi⟩ := (i1.part.run hr).node.1 (hp.node (i1.part.run hr) hv)
    rw [he] at hi
    split at hi
    · next h => exact h.1
    · cases hi
  have hstrong : ∀ {g2}, Part g1 g2 → ∀ a b i, g2.getEdge a b = some i → o.minMatches ≤ i.verifiedMatches := by
    intro g2 hp a b i hi
    obtain ⟨j, x, hj, rfl⟩ := hp.edges a b i hi
    exact i1.strong a b j hj
  have hr1 := i1.part.run hr
  cases b1 with
  | false =>
    left
    refine ⟨_, _, rfl, ⟨hreach, .refl _, fun _ => rfl, i1.part, i1.linked, i1.strong, hcomp (.refl _), fun h => (by cases h),
      fun v => Or.inr ⟨fun h => (by cases h), hnone scene.heap v, rfl, rfl⟩, fun _ => Or.inl ?_⟩⟩
    by_contra h
    have := e2.2 h
    cases this
  | true =>
    simp only [if_true]
    obtain ⟨heap, hheap⟩ := hn.common.calibrate scene
    rw [hheap]
    simp only [Outcome.ok_bind]
    obtain ⟨b2, m, h2, hm⟩ := hn.rotations g1 (e1.1 rfl) i1.linked
    rw [h2]
    simp only [Outcome.ok_bind]
    cases b2 with
    | false =>
      left
      exact ⟨_, _, rfl, ⟨hreach, .refl _, fun _ => rfl, i1.part, i1.linked, i1.strong, hcomp (.refl _), fun h => (by cases h),
        fun v => Or.inr ⟨fun h => (by cases h), hnone heap v, rfl, rfl⟩, fun _ => Or.inr (Or.inl ⟨_, _, h2⟩)⟩⟩
    | true =>
      simp only [if_true]
      obtain ⟨g2, m2, h3, p3, l3, a3, _⟩ := filterPairs_ok hn ho hth hr1 (hids.part i1.part) m hm
        { scene with heap := heap } (fun v hv => hview v (i1.part.views v hv))
      rw [h3]
      simp only [Outcome.ok_bind]
      have hr2 := p3.run hr1
      by_cases hok : ∃ b ps, num.positions { scene with heap := heap } g2 m2 = .ok (b, ps)
      · left
        obtain ⟨b3, ps, h4⟩ := hok
        obtain ⟨w4, k4⟩ := hn.positioned _ _ _ _ _ h4
        rw [h4]
        simp only [Outcome.ok_bind]
        cases b3 with
        | false =>
          exact ⟨_, _, rfl, ⟨hreach, .refl _, fun _ => rfl, i1.part.trans p3, l3, hstrong p3, hcomp p3, fun h => (by cases h),
            fun v => Or.inr ⟨fun h => (by cases h), hnone heap v, rfl, rfl⟩,
            fun _ => Or.inr (Or.inr (Or.inl ⟨_, _, _, _, h4⟩))⟩⟩
        | true =>
          simp only [if_true]
          obtain ⟨s', h5, h6, h7, h8, h9, h10⟩ := C71_poses { scene with heap := heap } hreach m2 ps w4
            (fun v V _ hV => hnew.1 v V hV)
          rw [h5]
          refine ⟨_, _, rfl, ⟨h6, h7, h9, i1.part.trans p3, l3, hstrong p3, hcomp p3, fun _ => a3, ?_, fun h => (by cases h)⟩⟩
          intro v
          have hv := h10 v
          simp only at hv ⊢
          split at hv
          · next V q x hV hq hx =>
            left
            refine ⟨trivial, k4 v (AMap.mem_keys_iff.2 ⟨x, hx⟩), ⟨_, hv.1, rfl⟩, ?_, ?_⟩
            · rw [hq, hv.2.1]
            · rw [hx, hv.2.2]
          · next hnot =>
            right
            refine ⟨fun _ => ?_, ?_, hv.2⟩
            · cases hx : ps.get v with
              | none => rfl
              | some x =>
                exfalso
                have hnode := k4 v (AMap.mem_keys_iff.2 ⟨x, hx⟩)
                obtain ⟨V, hV⟩ := hview v (i1.part.views v (p3.views v (Part.hasView_of_node hr2 hnode)))
                obtain ⟨w, i, hi⟩ := hr2.node.1 hnode
                obtain ⟨q, hq⟩ := a3.oriented hr2 v w i hi
                exact hnot V q x hV hq hx
            · rintro ⟨V, hV, he⟩
              rw [hv.1] at hV
              rw [hnew.1 v V hV] at he
              cases he
      · right
        refine ⟨fun b s h => ?_, _, g2, m2, ?_, fun b ps h => hok ⟨b, ps, h⟩⟩
        · obtain ⟨⟨b, ps⟩, h, _⟩ := Outcome.bind_eq_ok.1 h
          exact hok ⟨b, ps, h⟩
        by_contra hne
        apply hok
        apply hn.positions _ g2 m2 hne l3
        intro v hv
        obtain ⟨w, i, hi⟩ := hr2.node.1 hv
        exact a3.oriented hr2 v w i hi

/-- If the poses are estimated at all. -/
theorem poses_posed (hn : GlobalWellBehaved num) (ho : 0 ≤ o.rotationTolerance) (hth : 1 ≤ o.numThreads)
    {g : ViewGraph (TwoView O X L)} (hr : IsRun g) (hids : ValidIds g) {scene : Localize.Scene F P M O X}
    (hreach : scene.recon.Reachable) (hnew : NothingEstimated scene.recon) (hgv : GraphViews g scene.recon)
    {b : Bool} {s : State F P M O X L} (h : poses num o ⟨g, scene, .empty, .empty, 0⟩ = .ok (b, s)) :
    Posed num o g scene b s := by
  rcases poses_ok hn ho hth hr hids hreach hnew hgv with ⟨b', s', h', p⟩ | hno
  · rw [h] at h'
    cases h'
    exact p
  · exact absurd h (hno.1 b s)

/-! ### The points -/

/-- What the steps after the poses change. -/
structure Moved (r0 : Reconstruction F P) (s s' : Incremental.State F P M O X) : Prop where
  good : Good r0 s'.scene.recon
  views : ∀ v, IsEstimated s'.scene.recon v → IsEstimated s.scene.recon v
  poses : ∀ v, ¬ IsEstimated s.scene.recon v → s'.scene.orientation v = s.scene.orientation v ∧
    s'.scene.position v = s.scene.position v
  heap : ∀ i, (∀ v V, s.scene.recon.view v = some V → V.estimated = true → V.intrinsics ≠ i) →
    s'.scene.heap i = s.scene.heap i

variable {r0 : Reconstruction F P}

theorem Moved.refl {s : Incremental.State F P M O X} (h : Good r0 s.scene.recon) : Moved r0 s s :=
  ⟨h, fun _ h => h, fun _ _ => ⟨rfl, rfl⟩, fun _ _ => rfl⟩

theorem Moved.trans {s1 s2 s3 : Incremental.State F P M O X} (h1 : Good r0 s1.scene.recon) (h : Moved r0 s1 s2)
    (h' : Moved r0 s2 s3) : Moved r0 s1 s3 where
  good := h'.good
  views v hv := h.views v (h'.views v hv)
  poses v hv := by
    obtain ⟨e1, e2⟩ := h.poses v hv
    obtain ⟨e3, e4⟩ := h'.poses v (fun h2 => hv (h.views v h2))
    exact ⟨e3.trans e1, e4.trans e2⟩
  heap i hi := by
    rw [h'.heap i, h.heap i hi]
    intro v V hV he hne
    obtain ⟨V1, hV1, he1⟩ := h.views v ⟨V, hV, he⟩
    obtain ⟨V0, hV0, hb⟩ := h1.same.views_of hV1
    obtain ⟨b, hb'⟩ := h.good.same.views v V0 hV0
    rw [hV] at hb'
    cases hb'
    refine hi v V1 hV1 he1 ?_
    rw [hb]
    exact hne

/-- A step that changes only tracks. -/
theorem Moved.frame {s s' : Incremental.State F P M O X} (h : Good r0 s'.scene.recon)
    (hv : s'.scene.recon.views = s.scene.recon.views) (ho : s'.scene.orientation = s.scene.orientation)
    (hp : s'.scene.position = s.scene.position) (hh : s'.scene.heap = s.scene.heap) : Moved r0 s s' where
  good := h
  views v hv' := by
    unfold IsEstimated Reconstruction.view at *
    rw [← hv]
    exact hv'
  poses v _ := by rw [ho, hp]; exact ⟨rfl, rfl⟩
  heap i _ := by rw [hh]

theorem estimateAll_moved (hn : WellBehaved num.common) (hth : 1 ≤ o.numThreads) {s : Incremental.State F P M O X}
    (hg : Good r0 s.scene.recon) : ∃ s', Incremental.estimateAll num.common o.tracks s = .ok s' ∧ Moved r0 s s' := by
  have ho : ValidOptions o.tracks := ⟨⟨by norm_num [Options.tracks], by norm_num [Options.tracks]⟩,
    by norm_num [Options.tracks], by norm_num [Options.tracks], hth⟩
  obtain ⟨s', h1, h2, _⟩ := Incremental.estimateAll_ok hn ho hg
  refine ⟨s', h1, ?_⟩
  unfold Incremental.estimateAll Incremental.triangulate at h1
  obtain ⟨x, _, h1⟩ := Outcome.bind_eq_ok.1 h1
  simp only at h1
  obtain ⟨y, _, h1⟩ := Outcome.bind_eq_ok.1 h1
  cases h1
  exact Moved.frame h2.good h2.views rfl rfl rfl

theorem cleanup_moved {s : Incremental.State F P M O X} (hg : Good r0 s.scene.recon) :
    ∃ s', cleanup s = .ok s' ∧ Moved r0 s s' := by
  obtain ⟨nv, nt, r', h1, h2, h3, h4, _⟩ := C28_constrained_partial s.scene.recon hg.reach
  unfold cleanup
  rw [h1]
  refine ⟨_, rfl, ⟨⟨h2, hg.same.trans (Incremental.cleanupLoop_same _ h1), h4⟩, ?_, fun _ _ => ⟨rfl, rfl⟩, fun _ _ => rfl⟩⟩
  rintro v ⟨V, hV, he⟩
  cases hV0 : s.scene.recon.view v with
  | none =>
    have := h3.2.1 v hV0
    rw [this] at hV
    cases hV
  | some V0 =>
    obtain ⟨b, hb, hb'⟩ := h3.1 v V0 hV0
    rw [hb] at hV
    cases hV
    exact ⟨V0, hV0, hb' he⟩

section
variable [DecidableEq C]

theorem chooseTracks_moved (num : Numerics F P M O X L N W D C E) (o : Options) {s : Incremental.State F P M O X}
    (hg : Good r0 s.scene.recon) : ∃ ts s', chooseTracks num o s = .ok (ts, s') ∧ Moved r0 s s' := by
  unfold chooseTracks
  split
  · obtain ⟨sel, h1, _⟩ := C27_all_views s.scene.recon hg.reach (num.common.error s.scene) num.common.cell o.longTrack
      o.minTracks []
    obtain ⟨r', h2, h3⟩ := EstimatorUtils.lowerTracksInViews_ok sel s.scene.recon.viewIds s.scene.recon
    rw [h1]
    simp only [Outcome.ok_bind]
    rw [h2]
    exact ⟨_, _, rfl, Moved.frame (hg.lowered h3) h3.views rfl rfl rfl⟩
  · exact ⟨_, _, rfl, .refl hg⟩

omit [DecidableEq C] in
theorem bundleAdjust_moved (num : Incremental.Numerics F P M O X L N W D C) {s : Incremental.State F P M O X}
    (hg : Good r0 s.scene.recon) (views : List ViewId) (tracks : List TrackId) :
    Moved r0 s (Incremental.bundleAdjust num views tracks s).2 := by
  obtain ⟨h1, _⟩ := Incremental.bundleAdjust_ok num hg views tracks
  refine ⟨h1.good, ?_, ?_, ?_⟩
  · rintro v ⟨V, hV, he⟩
    refine ⟨V, ?_, he⟩
    unfold Reconstruction.view at *
    rw [← h1.views]
    exact hV
  · intro v hv
    have : v ∉ views.filter fun v => (s.scene.recon.view v).any (·.estimated) := by
      rw [List.mem_filter]
      rintro ⟨_, h⟩
      apply hv
      cases hV : s.scene.recon.view v with
      | none => rw [hV] at h; cases h
      | some V => rw [hV] at h; exact ⟨V, hV, h⟩
    unfold Incremental.bundleAdjust
    simp only
    rw [if_neg this, if_neg this]
    exact ⟨rfl, rfl⟩
  · intro i hi
    unfold Incremental.bundleAdjust
    simp only
    rw [if_neg]
    rw [List.any_eq_true]
    rintro ⟨v, hv, hv'⟩
    have hv := (List.mem_filter.1 hv).2
    cases hV : s.scene.recon.view v with
    | none => rw [hV] at hv; cases hv
    | some V =>
      rw [hV] at hv hv'
      refine hi v V hV hv ?_
      simpa using hv'

theorem bundle_moved (num : Numerics F P M O X L N W D C E) (o : Options) {s : Incremental.State F P M O X}
    (hg : Good r0 s.scene.recon) :
    ∃ b s', bundle num o s = .ok (b, s') ∧ Moved r0 s s' ∧ (b = false → AdjustFails num.common) := by
  obtain ⟨ts, s1, h1, m1⟩ := chooseTracks_moved num o hg
  unfold bundle
  rw [h1]
  refine ⟨_, _, rfl, m1.trans hg (bundleAdjust_moved num.common m1.good _ _), ?_⟩
  intro h
  exact ⟨_, _, _, _, h⟩

theorem tracksForPositions_ok (num : Numerics F P M O X L N W D C E) (o : Options) {s : Incremental.State F P M O X}
    (hg : Good r0 s.scene.recon) : ∃ ts, tracksForPositions num o s = .ok ts := by
  unfold tracksForPositions
  split
  · obtain ⟨sel, h1, _⟩ := C27_all_views s.scene.recon hg.reach (num.common.error s.scene) num.common.cell o.longTrack
      o.minTracks []
    exact ⟨sel, h1⟩
  · exact ⟨_, rfl⟩

omit [DecidableEq C] in
theorem mem_estimatedViews {r : Reconstruction F P} {v : ViewId} :
    v ∈ SelectTracks.estimatedViews r ↔ IsEstimated r v := by
  unfold SelectTracks.estimatedViews IsEstimated
  rw [List.mem_filter]
  constructor
  · rintro ⟨_, h⟩
    split at h
    · next V hV => exact ⟨V, hV, h⟩
    · cases h
  · rintro ⟨V, hV, he⟩
    exact ⟨AMap.mem_keys_iff.2 ⟨V, hV⟩, by rw [hV]; exact he⟩

theorem bundlePositions_moved (num : Numerics F P M O X L N W D C E) (o : Options) {s : Incremental.State F P M O X}
    (hg : Good r0 s.scene.recon) :
    ∃ s', bundlePositions num o s = .ok s' ∧ Moved r0 s s' ∧ s'.scene.orientation = s.scene.orientation ∧
      s'.scene.heap = s.scene.heap := by
  obtain ⟨ts, h1⟩ := tracksForPositions_ok num o hg
  unfold bundlePositions
  rw [h1]
  refine ⟨_, rfl, ⟨hg.setPoints _ _, ?_, ?_, fun _ _ => rfl⟩, rfl, rfl⟩
  · rintro v ⟨V, hV, he⟩
    refine ⟨V, ?_, he⟩
    unfold Reconstruction.view at *
    rw [← (Incremental.setPoints_ok _ _ _).1.views]
    exact hV
  · intro v hv
    refine ⟨rfl, ?_⟩
    simp only
    rw [if_neg]
    rw [mem_estimatedViews]
    exact hv

omit [DecidableEq C] in
theorem setPoints_other (point : TrackId → P) (ts : List TrackId) : ∀ (r : Reconstruction F P) (t : TrackId), t ∉ ts →
    (Incremental.setPoints point ts r).track t = r.track t := by
  induction ts with
  | nil => intro r t _; rfl
  | cons u us ih =>
    intro r t ht
    rw [List.mem_cons, not_or] at ht
    rw [Incremental.setPoints]
    split
    · exact ih r t ht.2
    · rw [ih _ t ht.2]
      unfold Reconstruction.track
      simp [AMap.get_insert, ht.1]

theorem bundlePositions_tracks {s s' : Incremental.State F P M O X} (h : bundlePositions num o s = .ok s')
    (t : TrackId) (T : Track P) (hT : s.scene.recon.track t = some T) (he : T.estimated = false) :
    s'.scene.recon.track t = some T := by
  unfold bundlePositions at h
  obtain ⟨ts, _, h⟩ := Outcome.bind_eq_ok.1 h
  cases h
  simp only
  rw [setPoints_other, hT]
  rw [List.mem_filter, hT]
  simp [he]

theorem firstBundle_moved (num : Numerics F P M O X L N W D C E) (o : Options) (first : Bool)
    {s : Incremental.State F P M O X} (hg : Good r0 s.scene.recon) :
    ∃ s', firstBundle num o first s = .ok s' ∧ Moved r0 s s' := by
  unfold firstBundle
  split
  · obtain ⟨s', h1, h2, _⟩ := bundlePositions_moved num o hg
    exact ⟨s', h1, h2⟩
  · exact ⟨s, rfl, .refl hg⟩

theorem round_ok (hn : WellBehaved num.common) (hth : 1 ≤ o.numThreads) (first : Bool) {s : Incremental.State F P M O X}
    (hg : Good r0 s.scene.recon) :
    ∃ b s', round num o first s = .ok (b, s') ∧ Moved r0 s s' ∧ (b = false → AdjustFails num.common) ∧
      (b = true → CamerasOnly num.common → NoOutliers num.common o.maxError s'.scene) := by
  obtain ⟨s1, h1, m1⟩ := estimateAll_moved hn hth hg
  obtain ⟨s2, h2, m2⟩ := cleanup_moved m1.good
  obtain ⟨s3, h3, m3⟩ := firstBundle_moved num o first m2.good
  obtain ⟨b, s4, h4, m4, f4⟩ := bundle_moved num o m3.good
  have m := m1.trans hg (m2.trans m1.good (m3.trans m2.good m4))
  unfold round
  rw [h1]
  simp only [Outcome.ok_bind]
  rw [h2]
  simp only [Outcome.ok_bind]
  rw [h3]
  simp only [Outcome.ok_bind]
  rw [h4]
  simp only [Outcome.ok_bind]
  cases b with
  | false => exact ⟨_, _, rfl, m, f4, fun h => by cases h⟩
  | true =>
    simp only [if_true]
    have hnd : (num.common.order s4.clock s4.scene.recon.trackIds).Nodup :=
      (hn.order _ _).nodup_iff.2 (Reconstruction.inv_of_reachable m4.good.reach).wfTracks
    have hex : ∀ t ∈ num.common.order s4.clock s4.scene.recon.trackIds, ∃ T, s4.scene.recon.track t = some T :=
      fun t ht => AMap.mem_keys_iff.1 ((hn.order _ _).mem_iff.1 ht)
    obtain ⟨s5, h5, f5, _⟩ := Incremental.removeOutliers_ok hn o.maxError m4.good hnd hex
    rw [h5]
    refine ⟨_, _, rfl, m.trans hg ?_, fun h => (by cases h), ?_⟩
    · have h := h5
      unfold Incremental.removeOutliers at h
      obtain ⟨x, _, h⟩ := Outcome.bind_eq_ok.1 h
      cases h
      exact Moved.frame f5.good f5.views rfl rfl rfl
    · intro _ hc t T hT he
      refine Incremental.removeOutliers_inliers hn hc o.maxError m4.good hnd hex h5 t ?_ T hT he
      rw [(hn.order _ _).mem_iff, m4.good.same.trackIds, ← f5.good.same.trackIds]
      exact AMap.mem_keys_iff.2 ⟨T, hT⟩

theorem rounds_ok (hn : WellBehaved num.common) (hth : 1 ≤ o.numThreads) (n : Nat) : ∀ (first : Bool)
    {s : Incremental.State F P M O X}, Good r0 s.scene.recon →
    ∃ b s', rounds num o n first s = .ok (b, s') ∧ Moved r0 s s' ∧ (b = false → AdjustFails num.common) ∧
      (b = true → n ≠ 0 → CamerasOnly num.common → NoOutliers num.common o.maxError s'.scene) := by
  induction n with
  | zero => intro first s hg; exact ⟨_, _, rfl, .refl hg, fun h => (by cases h), fun _ h => absurd rfl h⟩
  | succ n ih =>
    intro first s hg
    obtain ⟨b, s1, h1, m1, f1, n1⟩ := round_ok hn hth first hg
    rw [rounds, h1]
    simp only [Outcome.ok_bind]
    cases b with
    | false => exact ⟨_, _, rfl, m1, f1, fun h => by cases h⟩
    | true =>
      simp only [if_true]
      obtain ⟨b, s2, h2, m2, f2, n2⟩ := ih false m1.good
      refine ⟨b, s2, h2, m1.trans hg m2, f2, ?_⟩
      intro hb _ hc
      by_cases hz : n = 0
      · subst hz
        rw [rounds] at h2
        cases h2
        exact n1 rfl hc
      · exact n2 hb hz hc

end
end Global
end Theia
