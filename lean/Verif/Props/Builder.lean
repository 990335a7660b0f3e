import Verif.Proof.BuilderPrepare

/-!
# C74: building reconstructions from images and matches
-/

namespace Theia

open Spec Builder
open Incremental (TwoView)

section
variable {F P M O X I : Type} [DecidableEq F]

/-- C74: for every sequence of calls that add images and matches, if none of them ends the program: the reconstruction has
views but no tracks, and nothing is estimated; the view graph has the edges of the matches used, where the relative pose is
that from the smaller id to the larger; the track builder has their correspondences; they are between different views. All
matches are used, except that with `only_calibrated_views` a match with an uncalibrated view may be left out, and then all
matches used between different views are between calibrated views. -/
theorem C74_matches (swap : I → Outcome I) (o : Builder.Options) (minLength maxLength : Nat) (heap : Nat → M)
    (orientation : ViewId → O) (position : ViewId → X) (ops : List (Builder.Op F I)) (s0 s : State F P M O X I)
    (h0 : create heap orientation position minLength maxLength = .ok s0) (h : fill swap o ops s0 = .ok s) :
    ∃ used, HasMatches swap o minLength maxLength (matchesOf ops) used s := by
  obtain ⟨used, h1⟩ := hasMatches_fill ops (hasMatches_create (swap := swap) (o := o) h0) h
  exact ⟨used, by simpa using h1⟩

/-- C74: after such calls, if the view graph has two views or more, `BuildReconstruction` first adds tracks: each has at most
one feature per view and two or more views, its features are linked by correspondences of the matches used, and no feature is
in two tracks. With `only_calibrated_views` exactly the calibrated views are left. No track, no edge of the view graph and no
view of it is lost by that. What the estimator is given then meets its requirements, and has two views or more. -/
theorem C74_prepare (order : List Nat → List Nat) (hord : ∀ l, (order l).Perm l) (swap : I → Outcome I) (o : Builder.Options)
    (minLength maxLength : Nat) (hmin : 2 ≤ minLength) (hmax : 0 < maxLength) (seen used : List (Matched F I))
    (s : State F P M O X I) (h : HasMatches swap o minLength maxLength seen used s) (hids : ValidIds s.graph)
    (h2 : 2 ≤ s.graph.numViews) (p : P) :
    ∃ s1 added r1, prepare order o p s = .ok s1 ∧ TracksAdded s.scene.recon p added r1 ∧
      (∀ a ∈ added, (a.2.map (·.1)).Nodup ∧ 2 ≤ a.2.length ∧ a.2.length ≤ maxLength ∧
        (∀ x ∈ a.2, IsNode (used.flatMap (correspondencesOf s.scene.recon)) x) ∧
        ∀ x ∈ a.2, ∀ y ∈ a.2, Connected (used.flatMap (correspondencesOf s.scene.recon)) x y) ∧
      added.Pairwise (fun a a' => ∀ x ∈ a.2, x ∉ a'.2) ∧
      IsPart r1 s1.scene.recon ∧
      (∀ v V, s1.scene.recon.view v = some V ↔ r1.view v = some V ∧ (o.onlyCalibrated = true → s.calibrated v = true)) ∧
      (∀ t, s1.scene.recon.track t = r1.track t) ∧ (∀ v, s1.graph.hasView v = s.graph.hasView v) ∧
      (∀ a b, s1.graph.getEdge a b = s.graph.getEdge a b) ∧ s1.scene.heap = s.scene.heap ∧
      Fresh s1.graph s1.scene.recon ∧ 2 ≤ s1.scene.recon.numViews := by
  obtain ⟨s1, added, r1, a1, a2, a3, a4, a5, a6, a7, a8, a9, a10, a11⟩ := prepare_ok hord hmin hmax h hids h2 p
  refine ⟨s1, added, r1, a1, a2, a3, a4, a5, ?_, a7, a8, a9, a10, a11, ?_⟩
  · intro v V
    rw [a6]
    unfold wanted
    cases ho : o.onlyCalibrated <;> cases hc : s.calibrated v <;> simp
  · have hsub : s.graph.viewIds ⊆ s1.scene.recon.viewIds := by
      intro v hv
      have : s1.graph.hasView v = true := by
        rw [a8]
        exact AMap.contains_iff.2 hv
      obtain ⟨V, hV⟩ := a11.views v (AMap.contains_iff.1 this)
      exact AMap.mem_keys_iff.2 ⟨V, hV⟩
    have hnd : s.graph.viewIds.Nodup := by
      obtain ⟨es, _, e⟩ := h.graph
      have : Global.IsRun s.graph := ⟨_, e⟩
      exact this.inv.wfV
    have := (hnd.subperm hsub).length_le
    unfold ViewGraph.numViews at h2
    unfold Reconstruction.numViews
    rw [AMap.size_eq_length_keys] at h2 ⊢
    exact h2.trans this

/-- C74: with a reconstruction and a view graph from elsewhere that have tracks, only uncalibrated views are removed, if that is
wanted, and the estimator is given what it requires. -/
theorem C74_prepare_given (order : List Nat → List Nat) (hord : ∀ l, (order l).Perm l) (o : Builder.Options)
    (scene : Localize.Scene F P M O X) (g : ViewGraph I) (calibrated : ViewId → Bool) (hf : Fresh g scene.recon)
    (h2 : 2 ≤ g.numViews) (ht : scene.recon.numTracks ≠ 0) (p : P) :
    ∃ s1, prepare order o p (createFrom scene g calibrated) = .ok s1 ∧ Fresh s1.graph s1.scene.recon ∧
      IsPart scene.recon s1.scene.recon ∧
      (∀ v V, s1.scene.recon.view v = some V ↔ scene.recon.view v = some V ∧ (o.onlyCalibrated = true → calibrated v = true)) ∧
      (∀ t T, scene.recon.track t = some T → (∃ v ∈ T.views, o.onlyCalibrated = true → calibrated v = true) →
        ∃ T', s1.scene.recon.track t = some T') ∧
      ∀ a b, s1.graph.getEdge a b = if o.onlyCalibrated = true ∧ (calibrated a = false ∨ calibrated b = false) then none
        else g.getEdge a b := by
  obtain ⟨s1, e1, hc⟩ := calibratedOnly_ok hord o (s := createFrom scene g calibrated) hf.reach hf.graph hf.views
  have hw : ∀ v, wanted o (createFrom scene g calibrated) v = (!o.onlyCalibrated || calibrated v) := fun v => rfl
  refine ⟨s1, ?_, calibrated_fresh (s := createFrom scene g calibrated) hf hc, hc.part, ?_, ?_, ?_⟩
  · unfold prepare
    rw [if_neg (by change ¬ g.numViews < 2; omega)]
    have : Builder.buildTracks p (createFrom scene g calibrated) = .ok (createFrom scene g calibrated) := by
      unfold Builder.buildTracks
      rw [if_neg (by exact ht)]
    rw [this, Outcome.ok_bind]
    exact e1
  · intro v V
    rw [hc.view, hw]
    cases ho : o.onlyCalibrated <;> cases hv : calibrated v <;> simp [createFrom]
  · rintro t T hT ⟨v, hv, hv'⟩
    cases hn : s1.scene.recon.track t with
    | some T' => exact ⟨T', rfl⟩
    | none =>
      have := hc.trackNone t T hT hn
      rw [List.filter_eq_nil_iff] at this
      have := this v hv
      rw [hw] at this
      cases ho : o.onlyCalibrated with
      | false => simp [ho] at this
      | true => simp [ho, hv' ho] at this
  · intro a b
    rw [hc.cut.edges, hw, hw]
    change (if _ then g.getEdge a b else none) = _
    cases ho : o.onlyCalibrated <;> cases ha : calibrated a <;> cases hb : calibrated b <;> simp

omit [DecidableEq F] in
/-- C74: for every estimator that changes only estimates, when `BuildReconstruction` returns,
- it has appended reconstructions to the vector; each is the estimated part of the result of a successful estimation, with the
  poses and intrinsics of that; all its views and tracks are estimated, and its tracks are seen by two of its views or more;
- no view and no track is in two of them or in one of them and what remains; each view is in one of them or remains;
- all of them have the names, intrinsics groups and observations of their views and tracks that there were before;
- with `reconstruct_largest_connected_component` there is at most one new reconstruction; otherwise either fewer than three
  views remain or the last estimation failed;
- it returns true exactly if the vector is not empty, or if there were fewer than two views. -/
theorem C74_build (order : List Nat → List Nat) (hord : ∀ l, (order l).Perm l) (est : Estimator F P M O X I)
    (hs : SoundEstimator est) (o : Builder.Options) (fuel : Nat) (s : State F P M O X I) (hf : Fresh s.graph s.scene.recon)
    (given result : List (Output F P M O X)) (b : Bool) (s' : State F P M O X I)
    (h : loop order est o fuel 0 s given = .ok (some (b, result, s'))) :
    ∃ new, result = given ++ new ∧
      (∀ x ∈ new, IsPart s.scene.recon x.recon ∧ AllEstimated x.recon ∧ ComesFrom est x) ∧
      IsPart s.scene.recon s'.scene.recon ∧
      (new.map (·.recon) ++ [s'.scene.recon]).Pairwise Apart ∧
      (∀ v V, s.scene.recon.view v = some V → ∃ p ∈ new.map (·.recon) ++ [s'.scene.recon], ∃ V', p.view v = some V') ∧
      (o.largestOnly = true → new.length ≤ 1) ∧
      (o.largestOnly = false → s'.scene.recon.numViews < 3 ∨
        ∃ k g scene, Fresh g scene.recon ∧ est k g scene = .ok (false, s'.graph, s'.scene)) ∧
      (b = true ↔ result ≠ [] ∨ s.scene.recon.numViews < 2) := by
  obtain ⟨new, hl⟩ := loop_ok hord hs o fuel 0 s given b result s' hf h
  refine ⟨new, hl.res, hl.built.parts, hl.built.rest, hl.built.apart, hl.built.cover, hl.largest, hl.stopped, ?_⟩
  rw [hl.value, hl.res]
  simp only [ne_eq, List.append_eq_nil_iff, Classical.not_and_iff_not_or_not, or_assoc]
  have : s.scene.recon.numViews ≤ 1 ↔ s.scene.recon.numViews < 2 := by omega
  rw [this]

/-- C74: `BuildReconstruction` is its preparation followed by the loop of C74_build, with any reconstructions given. -/
theorem C74_build_after_prepare (order : List Nat → List Nat) (est : Estimator F P M O X I) (o : Builder.Options) (p : P) (fuel : Nat)
    (s s1 : State F P M O X I) (given : List (Output F P M O X)) (h : prepare order o p s = .ok s1) :
    Builder.build order est o p fuel s given = loop order est o fuel 0 s1 given := by
  unfold Builder.build
  rw [h, Outcome.ok_bind]

/-- C74: with fewer than two views in the view graph the program ends. -/
theorem C74_few_views (order : List Nat → List Nat) (est : Estimator F P M O X I) (o : Builder.Options) (p : P) (fuel : Nat)
    (s : State F P M O X I) (given : List (Output F P M O X)) (h : s.graph.numViews < 2) :
    Builder.build order est o p fuel s given = .abort := by
  unfold Builder.build prepare
  rw [if_pos h]
  rfl

omit [DecidableEq F] in
/-- C74: if the estimator always returns, then nothing in `BuildReconstruction` after its preparation ends the program; if, in
addition, every successful estimation estimates some view, then it returns after at most as many estimations as there are
views. -/
theorem C74_returns (order : List Nat → List Nat) (hord : ∀ l, (order l).Perm l) (est : Estimator F P M O X I)
    (hs : SoundEstimator est) (hr : ReturningEstimator est) (o : Builder.Options) (s : State F P M O X I)
    (hf : Fresh s.graph s.scene.recon) (given : List (Output F P M O X)) :
    (∀ fuel, ∃ y, loop order est o fuel 0 s given = .ok y) ∧
    (ProductiveEstimator est → ∀ fuel, s.scene.recon.numViews < fuel →
      ∃ b result s', loop order est o fuel 0 s given = .ok (some (b, result, s'))) := by
  refine ⟨fun fuel => loop_returns hord hs hr o fuel 0 s given hf, fun hp fuel hfuel => ?_⟩
  obtain ⟨y, hy⟩ := loop_returns hord hs hr o fuel 0 s given hf
  cases y with
  | none => exact absurd hy (loop_ends hord hs hp o fuel 0 s given hf hfuel)
  | some z => exact ⟨z.1, z.2.1, z.2.2, hy⟩

omit [DecidableEq F] in
/-- C74, partial: the intrinsics of a reconstruction in the result, whose views share no intrinsics object with a view outside
it, are at the end what they were when it was estimated. Missing: the intrinsics of the other views, which later estimations can
overwrite (`C74_intrinsics_counterexample`). -/
theorem C74_intrinsics_partial (order : List Nat → List Nat) (hord : ∀ l, (order l).Perm l) (est : Estimator F P M O X I)
    (hs : SoundEstimator est) (hc : ConfinedEstimator est) (o : Builder.Options) (fuel : Nat) (s : State F P M O X I)
    (hf : Fresh s.graph s.scene.recon) (given result : List (Output F P M O X)) (b : Bool) (s' : State F P M O X I)
    (h : loop order est o fuel 0 s given = .ok (some (b, result, s'))) :
    ∃ new, result = given ++ new ∧ ∀ x ∈ new, ∀ v V, x.recon.view v = some V →
      (∀ w W, s.scene.recon.view w = some W → W.intrinsics = V.intrinsics → ∃ W', x.recon.view w = some W') →
      s'.scene.heap V.intrinsics = x.intrinsics V.intrinsics :=
  loop_intrinsics hord hs hc o fuel 0 s given b result s' hf h

end

section
variable {F P M O X L N W D C E : Type} [DecidableEq C]

/-- C74: incremental and global reconstruction change only estimates, and global reconstruction always returns if positions can be
estimated without any pair of views. -/
theorem C74_estimators :
    (∀ (num : Nat → Incremental.Numerics F P M O X L N W D C) (o : Incremental.Options) (fuel : Nat),
      (∀ k, WellBehaved (num k)) → ValidOptions o → SoundEstimator (incremental num o fuel)) ∧
    ∀ (num : Nat → Global.Numerics F P M O X L N W D C E) (o : Global.Options), (∀ k, GlobalWellBehaved (num k)) →
      (∀ k, ¬ NeedsPairs (num k)) → 0 ≤ o.rotationTolerance → 1 ≤ o.numThreads →
      SoundEstimator (global num o) ∧ ReturningEstimator (global num o) :=
  ⟨fun _ _ fuel hn ho => incremental_sound hn ho fuel,
    fun _ _ hn hp ho hth => ⟨global_sound hn hp ho hth, global_returns hn hp ho hth⟩⟩

/-- C74: with global reconstruction all reconstructions that are built are of views of one largest connected component of
the pairs with enough matches, whether or not `reconstruct_largest_connected_component` is set. -/
theorem C74_global_largest_only (order : List Nat → List Nat) (hord : ∀ l, (order l).Perm l)
    (num : Nat → Global.Numerics F P M O X L N W D C E) (hn : ∀ k, GlobalWellBehaved (num k)) (hp : ∀ k, ¬ NeedsPairs (num k))
    (go : Global.Options) (ho : 0 ≤ go.rotationTolerance) (hth : 1 ≤ go.numThreads) (o : Builder.Options) (fuel : Nat)
    (s : State F P M O X (TwoView O X L)) (hf : Fresh s.graph s.scene.recon) (given result : List (Output F P M O X)) (b : Bool)
    (s' : State F P M O X (TwoView O X L)) (h : loop order (global num go) o fuel 0 s given = .ok (some (b, result, s')))
    (hst : strongPairs go.minMatches s.graph ≠ []) :
    ∃ new component, result = given ++ new ∧ BiggestComponent (strongPairs go.minMatches s.graph) component ∧
      ∀ x ∈ new, ∀ v V, x.recon.view v = some V → v ∈ component :=
  global_component hord hn hp ho hth o fuel 0 s given b result s' hf h hst

end
end Theia
