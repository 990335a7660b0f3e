import Verif.Proof.BundleAdjuster
import Verif.Props.Cleanup

/-!
# C29: what a bundle adjustment optimizes
-/

namespace Theia

open Spec BA

variable {F P : Type}

/-- C29: the problem built for the chosen views and tracks has exactly one residual for every observation
of an estimated track by an estimated view where the view or the track was chosen, and no other. Only
what was chosen can change: the points of the other tracks, the poses of the other views and the
intrinsics shared by no chosen view are constant. The options further fix the poses and intrinsics of
the chosen views.

The hypotheses say that the ids exist and that an estimated view or track that was chosen has at least
one observation (a reconstruction with no underconstrained view or track has this: see `C29_full`). -/
theorem C29_problem (r : Reconstruction F P) (hr : r.Reachable) (o : Options) (vs : List ViewId) (ts : List TrackId)
    (hv : ∀ v ∈ vs, ∃ V, r.view v = some V ∧ (V.estimated = true → estimatedTracksIn r V ≠ []))
    (ht : ∀ t ∈ ts, ∃ T, r.track t = some T ∧ (T.estimated = true → estimatedObservers r T ≠ [])) :
    ∃ p, partialProblem r o vs ts = .ok p ∧
      p.residuals.Nodup ∧
      (∀ e, e ∈ p.residuals ↔ IsObservation r e ∧ (e.view ∈ vs ∨ e.track ∈ ts)) ∧
      ∀ e ∈ p.residuals,
        (.pt e.track ∈ p.constant ↔ e.track ∉ ts) ∧
        (.ext e.view ∈ p.constant ↔
          e.view ∉ vs ∨ (o.constantOrientation = true ∧ o.constantPosition = true)) ∧
        (.ext e.view ∈ p.subset ↔ e.view ∈ vs ∧ o.constantOrientation ≠ o.constantPosition) ∧
        (.intr e.ptr ∈ p.constant ↔
          ¬ IntrinsicsOptimized r vs e.ptr ∨ ∃ g, r.groupOf e.view = some g ∧ o.fixed g = .all) ∧
        (.intr e.ptr ∈ p.subset ↔
          IntrinsicsOptimized r vs e.ptr ∧ ∃ g, r.groupOf e.view = some g ∧ o.fixed g = .some) ∧
        .pt e.track ∉ p.subset := by
  have hi := Reconstruction.inv_of_reachable hr
  obtain ⟨a1, h1, b1, c1, d1⟩ := addViews_ok hi vs (built_new r) rfl (fun v h => ⟨_, (hv v h).choose_spec.1⟩)
  obtain ⟨a2, h2, b2, c2, e2, d2⟩ := addTracks_ok hi ts b1 ht
  have hov : ∀ w, w ∈ a2.optViews ↔ w ∈ vs ∧ ∃ V, r.view w = some V ∧ V.estimated = true := by
    intro w; rw [c2, d1]; simp [Adjuster.new]
  have hot : ∀ w, w ∈ a2.optTracks ↔ w ∈ ts ∧ isEstimatedTrack r w = true := by
    intro w; rw [d2, c1]; simp
  -- an observation by an optimized view
  have hobs : ∀ v V, v ∈ a2.optViews → r.view v = some V →
      ∃ e ∈ a2.problem.residuals, e.view = v ∧ e.ptr = V.intrinsics := by
    intro v V hm hV
    obtain ⟨hvs, V', hV', hest⟩ := (hov v).1 hm
    obtain ⟨V'', hV'', hne⟩ := hv v hvs
    rw [hV] at hV' hV''
    cases hV'
    cases hV''
    obtain ⟨t, htm⟩ := List.exists_mem_of_ne_nil _ (hne hest)
    unfold estimatedTracksIn at htm
    rw [List.mem_filter] at htm
    obtain ⟨f, hf⟩ := AMap.mem_keys_iff.1 htm.1
    obtain ⟨T, hT, hTe⟩ := SelectTracks.est_iff.1 htm.2
    exact ⟨⟨v, V.intrinsics, t, f⟩, (b2.mem _).2 ⟨⟨V, T, hV, hest, hf, rfl, hT, hTe⟩, Or.inl hm⟩, rfl, rfl⟩
  obtain ⟨p1, q1, q2, q3, q4⟩ := setExtrinsics_ok o a2.optViews a2.problem b2.views.1
    (by
      intro v hm
      obtain ⟨V, hV, _⟩ := b2.views.2 v hm
      obtain ⟨e, he, hev, _⟩ := hobs v V hm hV
      exact has_ext.2 ⟨e, he, hev⟩)
    (by intro v _; rw [b2.subset]; simp)
  obtain ⟨p2, r1, r2, r3, r4⟩ := setOptGroups_ok hi o a2.optGroups p1 b2.groups.1
    (by
      intro g hg
      obtain ⟨v, hm, hgv⟩ := (b2.groups.2 g).1 hg
      obtain ⟨V, hV, _⟩ := b2.views.2 v hm
      obtain ⟨e, he, _, hp⟩ := hobs v V hm hV
      refine ⟨v, V, hV, hgv, has_intr.2 ⟨e, by rw [q2]; exact he, hp⟩, ?_⟩
      rw [q4, b2.subset]
      simp)
  obtain ⟨p3, s1, s2, s3, s4⟩ := setConstGroups_ok hi a2.optGroups a2.constGroups p2
    (by
      intro g hg
      obtain ⟨e, he, _, hgv⟩ := (b2.consts g).1 hg
      obtain ⟨V, T, hV, _, _, hp, _⟩ := ((b2.mem e).1 he).1
      exact ⟨e.view, V, hV, hgv, has_intr.2 ⟨e, by rw [r2, q2]; exact he, hp.symm⟩⟩)
  have hres : p3.residuals = a2.problem.residuals := by rw [s2, r2, q2]
  have hmem : ∀ e, e ∈ p3.residuals ↔ IsObservation r e ∧ (e.view ∈ vs ∨ e.track ∈ ts) := by
    intro e
    rw [hres, b2.mem]
    constructor
    · rintro ⟨h, h' | h'⟩
      · exact ⟨h, Or.inl ((hov _).1 h').1⟩
      · exact ⟨h, Or.inr ((hot _).1 h').1⟩
    · rintro ⟨h, h'⟩
      refine ⟨h, ?_⟩
      obtain ⟨V, T, hV, hVe, _, _, hT, hTe⟩ := h
      rcases h' with h' | h'
      · exact Or.inl ((hov _).2 ⟨h', V, hV, hVe⟩)
      · exact Or.inr ((hot _).2 ⟨h', SelectTracks.est_iff.2 ⟨T, hT, hTe⟩⟩)
  refine ⟨p3, ?_, by rw [hres]; exact b2.nodup, hmem, ?_⟩
  · unfold partialProblem
    rw [h1]
    simp only
    rw [h2]
    simp only
    unfold Adjuster.finish
    rw [q1]
    simp only
    rw [r1]
    simp only
    exact s1
  intro e he
  have he' : e ∈ a2.problem.residuals := hres ▸ he
  obtain ⟨V, T, hV, hVe, hf, hp, hT, hTe⟩ := ((hmem e).1 he).1
  have hTest : isEstimatedTrack r e.track = true := SelectTracks.est_iff.2 ⟨T, hT, hTe⟩
  have hvs : e.view ∈ a2.optViews ↔ e.view ∈ vs := by
    rw [hov]; exact ⟨fun h => h.1, fun h => ⟨h, V, hV, hVe⟩⟩
  obtain ⟨g, hg⟩ := groupOf_some hi hV
  have hgopt : some g ∈ a2.optGroups ↔ IntrinsicsOptimized r vs e.ptr := by
    rw [b2.groups.2]
    constructor
    · rintro ⟨v, hm, hgv⟩
      obtain ⟨hvm, W, hW, hWe⟩ := (hov v).1 hm
      exact ⟨v, hvm, W, hW, hWe, by rw [← hp]; exact (hi.ptr v e.view W V g g hW hV hgv hg).2 rfl⟩
    · rintro ⟨v, hvm, W, hW, hWe, hq⟩
      obtain ⟨k, hk⟩ := groupOf_some hi hW
      refine ⟨v, (hov v).2 ⟨hvm, W, hW, hWe⟩, ?_⟩
      rw [hk, (hi.ptr v e.view W V k g hW hV hk hg).1 (hq.trans hp.symm)]
  -- intrinsics at the address belong to the group of the view
  have hgrp : ∀ w W k, r.view w = some W → r.groupOf w = some k → (Block.intr e.ptr = .intr W.intrinsics ↔ k = g) := by
    intro w W k hW hk
    rw [Block.intr.injEq, ← hp]
    constructor
    · intro h; exact (hi.ptr w e.view W V k g hW hV hk hg).1 h.symm
    · rintro rfl; exact ((hi.ptr w e.view W V k k hW hV hk hg).2 rfl).symm
  have hkind : ∀ k, (∃ v V g, r.view v = some V ∧ r.groupOf v = some g ∧ some g ∈ a2.optGroups ∧ o.fixed g = k ∧
      Block.intr e.ptr = .intr V.intrinsics) ↔ IntrinsicsOptimized r vs e.ptr ∧
        ∃ g, r.groupOf e.view = some g ∧ o.fixed g = k := by
    intro k
    constructor
    · rintro ⟨w, W, x, z1, z2, z3, z4, z5⟩
      obtain rfl := (hgrp w W x z1 z2).1 z5
      exact ⟨hgopt.1 z3, x, hg, z4⟩
    · rintro ⟨z1, x, z2, z3⟩
      rw [hg] at z2
      cases z2
      exact ⟨e.view, V, g, hV, hg, hgopt.2 z1, z3, by rw [hp]⟩
  refine ⟨?_, ?_, ?_, ?_, ?_, ?_⟩
  · rw [s4, r3, q3, b2.pt, hot]
    simp only [reduceCtorEq, and_false, exists_false, or_false, hTest, and_true]
    exact ⟨fun h => h.2, fun h => ⟨⟨e, he', rfl⟩, h⟩⟩
  · rw [s4, r3, q3, b2.ext, hvs]
    simp only [reduceCtorEq, and_false, exists_false, or_false, Block.ext.injEq, exists_eq_right', hvs]
    constructor
    · rintro (h | h)
      · exact Or.inl h.2
      · exact Or.inr ⟨h.1, h.2.1⟩
    · rintro (h | h)
      · exact Or.inl ⟨⟨e, he', rfl⟩, h⟩
      · by_cases hm : e.view ∈ vs
        · exact Or.inr ⟨h.1, h.2, hm⟩
        · exact Or.inl ⟨⟨e, he', rfl⟩, hm⟩
  · rw [s3, r4, q4, b2.subset]
    simp only [reduceCtorEq, and_false, exists_false, or_false, Block.ext.injEq, exists_eq_right', hvs,
      List.not_mem_nil, false_or]
    tauto
  · rw [s4, r3, q3, hkind]
    have hni := b2.intr e.ptr
    simp only [reduceCtorEq, and_false, exists_false, or_false, hni, false_or]
    constructor
    · rintro (h | ⟨w, W, z1, z2, z3, z4⟩)
      · exact Or.inr h.2
      · left
        obtain ⟨k, hk⟩ := groupOf_some hi z1
        obtain rfl := (hgrp w W k z1 hk).1 z4
        rw [hk] at z3
        exact fun h => z3 (hgopt.2 h)
    · intro h
      by_cases hopt : IntrinsicsOptimized r vs e.ptr
      · rcases h with h | h
        · exact absurd hopt h
        · exact Or.inl ⟨hopt, h⟩
      · refine Or.inr ⟨e.view, V, hV, ?_, ?_, by rw [hp]⟩
        · refine (b2.consts _).2 ⟨e, he', ?_, rfl⟩
          rw [hvs]
          intro hm
          exact hopt ⟨e.view, hm, V, hV, hVe, hp⟩
        · rw [hg]
          exact fun h => hopt (hgopt.1 h)
  · rw [s3, r4, q4, hkind, b2.subset]
    simp only [reduceCtorEq, and_false, exists_false, List.not_mem_nil, false_or]
  · rw [s3, r4, q4, b2.subset]
    simp

/-- C29: adjusting the whole of a reconstruction with no underconstrained view or track gives one residual
to every observation of an estimated track by an estimated view, and leaves every point free, and every
pose and intrinsics that the options do not fix. -/
theorem C29_full (r : Reconstruction F P) (hr : r.Reachable) (o : Options)
    (hv : ViewsConstrained r) (ht : TracksConstrained r) :
    ∃ p, fullProblem r o = .ok p ∧ p.residuals.Nodup ∧ (∀ e, e ∈ p.residuals ↔ IsObservation r e) ∧
      ∀ e ∈ p.residuals, .pt e.track ∉ p.constant ∧
        (.ext e.view ∈ p.constant ↔ o.constantOrientation = true ∧ o.constantPosition = true) ∧
        (.intr e.ptr ∈ p.constant ↔ ∃ g, r.groupOf e.view = some g ∧ o.fixed g = .all) := by
  obtain ⟨p, h1, h2, h3, h4⟩ := C29_problem r hr o r.viewIds r.trackIds
    (by
      intro v hm
      obtain ⟨V, hV⟩ := AMap.mem_keys_iff.1 hm
      refine ⟨V, hV, fun he hnil => ?_⟩
      have := hv v V hV he
      rw [hnil] at this
      simp at this)
    (by
      intro t hm
      obtain ⟨T, hT⟩ := AMap.mem_keys_iff.1 hm
      refine ⟨T, hT, fun he hnil => ?_⟩
      have := ht t T hT he
      rw [hnil] at this
      simp at this)
  have hin : ∀ e, IsObservation r e → e.view ∈ r.viewIds ∧ e.track ∈ r.trackIds := by
    rintro e ⟨V, T, hV, _, _, _, hT, _⟩
    exact ⟨AMap.mem_keys_iff.2 ⟨V, hV⟩, AMap.mem_keys_iff.2 ⟨T, hT⟩⟩
  refine ⟨p, h1, h2, fun e => ?_, fun e he => ?_⟩
  · rw [h3]
    exact ⟨fun h => h.1, fun h => ⟨h, Or.inl (hin e h).1⟩⟩
  · obtain ⟨a, b, _, d, _⟩ := h4 e he
    have hobs := ((h3 e).1 he).1
    refine ⟨fun h => a.1 h (hin e hobs).2, ?_, ?_⟩
    · rw [b]
      exact ⟨fun h => h.resolve_left (fun h => h (hin e hobs).1), Or.inr⟩
    · rw [d]
      refine ⟨fun h => h.resolve_left (fun h => h ?_), Or.inr⟩
      have hm := (hin e hobs).1
      obtain ⟨V, T, hV, hVe, _, hp, _⟩ := hobs
      exact ⟨e.view, hm, V, hV, hVe, hp⟩

/-- C29: adjusting one track that an estimated view observes moves that point and nothing else. -/
theorem C29_track (r : Reconstruction F P) (hr : r.Reachable) (o : Options) (t : TrackId) (T : Track P)
    (hT : r.track t = some T) (hobs : estimatedObservers r T ≠ []) :
    ∃ p, trackProblem r o t = .ok p ∧ p.residuals.Nodup ∧
      (∀ e, e ∈ p.residuals ↔ IsObservation r e ∧ e.track = t) ∧
      ∀ e ∈ p.residuals, .pt e.track ∉ p.constant ∧ .ext e.view ∈ p.constant ∧ .intr e.ptr ∈ p.constant := by
  obtain ⟨p, h1, h2, h3, h4⟩ := C29_problem r hr o [] [t] (by simp) (by
    intro s hs
    rw [List.mem_singleton] at hs
    subst hs
    exact ⟨T, hT, fun _ => hobs⟩)
  refine ⟨p, h1, h2, fun e => by rw [h3]; simp, fun e he => ?_⟩
  obtain ⟨a, b, _, d, _⟩ := h4 e he
  have het : e.track = t := by simpa using ((h3 e).1 he).2
  refine ⟨fun h => a.1 h (by simp [het]), b.2 (Or.inl (by simp)), d.2 (Or.inl ?_)⟩
  rintro ⟨v, hm, _⟩
  simp at hm

/-- C29: adjusting one view that observes an estimated track moves that view's pose and intrinsics, as far
as the options let it, and nothing else. -/
theorem C29_view (r : Reconstruction F P) (hr : r.Reachable) (o : Options) (v : ViewId) (V : View F)
    (hV : r.view v = some V) (hobs : estimatedTracksIn r V ≠ []) :
    ∃ p, viewProblem r o v = .ok p ∧ p.residuals.Nodup ∧
      (∀ e, e ∈ p.residuals ↔ IsObservation r e ∧ e.view = v) ∧
      ∀ e ∈ p.residuals, .pt e.track ∈ p.constant ∧
        (.ext e.view ∈ p.constant ↔ o.constantOrientation = true ∧ o.constantPosition = true) ∧
        (.intr e.ptr ∈ p.constant ↔ ∃ g, r.groupOf e.view = some g ∧ o.fixed g = .all) := by
  obtain ⟨p, h1, h2, h3, h4⟩ := C29_problem r hr o [v] [] (by
    intro s hs
    rw [List.mem_singleton] at hs
    subst hs
    exact ⟨V, hV, fun _ => hobs⟩) (by simp)
  refine ⟨p, h1, h2, fun e => by rw [h3]; simp, fun e he => ?_⟩
  obtain ⟨a, b, _, d, _⟩ := h4 e he
  obtain ⟨hob, hev⟩ := (h3 e).1 he
  have hev' : e.view = v := by simpa using hev
  refine ⟨a.2 (by simp), ?_, ?_⟩
  · rw [b]
    simp [hev']
  · rw [d]
    refine ⟨fun h => h.resolve_left (fun h => h ?_), Or.inr⟩
    obtain ⟨W, T, hW, hWe, _, hp, _⟩ := hob
    exact ⟨e.view, by simp [hev'], W, hW, hWe, hp⟩

/-- Three estimated views (0 and 1 share their intrinsics), two estimated tracks and one that is not. -/
def adjustOps : List (Reconstruction.Op Unit Unit) :=
  [.addViewToGroup "a" 7, .addViewToGroup "b" 7, .addView "c", .addTrack () [(0, ()), (1, ()), (2, ())],
   .addTrack () [(1, ()), (2, ())], .addTrack () [(0, ()), (2, ())], .setViewEstimated 0 true,
   .setViewEstimated 1 true, .setViewEstimated 2 true, .setTrackEstimated 0 true (), .setTrackEstimated 1 true ()]

/-- The hypotheses of C29 hold for a partial problem of this reconstruction: view 0 and track 1. -/
example : (cleanupRecon adjustOps).Reachable ∧
    (∃ V, (cleanupRecon adjustOps).view 0 = some V ∧ estimatedTracksIn (cleanupRecon adjustOps) V = [0]) ∧
    ∃ T, (cleanupRecon adjustOps).track 1 = some T ∧
      estimatedObservers (cleanupRecon adjustOps) T = [1, 2] :=
  ⟨⟨adjustOps, _, rfl⟩, ⟨_, rfl, by decide +kernel⟩, ⟨_, rfl, by decide +kernel⟩⟩

/-- The problem: the intrinsics shared with view 0 are free although view 1 is constant. -/
example : ∃ p, partialProblem (cleanupRecon adjustOps) ⟨false, false, fun _ => .none⟩ [0] [1] = .ok p ∧
    p.residuals.map (fun e => (e.view, e.track)) = [(0, 0), (1, 1), (2, 1)] ∧
    Block.pt 0 ∈ p.constant ∧ Block.ext 1 ∈ p.constant ∧ Block.ext 2 ∈ p.constant ∧
    Block.pt 1 ∉ p.constant ∧ Block.ext 0 ∉ p.constant ∧
    (∀ V, (cleanupRecon adjustOps).view 1 = some V → Block.intr V.intrinsics ∉ p.constant) ∧
    (∀ V, (cleanupRecon adjustOps).view 2 = some V → Block.intr V.intrinsics ∈ p.constant) := by
  refine ⟨_, rfl, by decide +kernel, by decide +kernel, by decide +kernel, by decide +kernel, by decide +kernel,
    by decide +kernel, ?_, ?_⟩
  · intro V hV
    cases hV
    decide +kernel
  · intro V hV
    cases hV
    decide +kernel

/-- An estimated track with no estimated view. -/
def unseenOps : List (Reconstruction.Op Unit Unit) :=
  [.addView "a", .addView "b", .addTrack () [(0, ()), (1, ())], .setTrackEstimated 0 true ()]

/-- The hypothesis on tracks is needed: adjusting an estimated track that no estimated view observes
aborts the process, because its point is set variable without being in the problem. -/
theorem C29_unseen_track_counterexample (o : Options) :
    (cleanupRecon unseenOps).Reachable ∧ trackProblem (cleanupRecon unseenOps) o 0 = .abort :=
  ⟨⟨unseenOps, _, rfl⟩, rfl⟩

/-- The hypothesis on views is needed: adjusting an estimated view that observes no estimated track aborts
the process when the options fix some of its intrinsics. -/
theorem C29_empty_view_counterexample :
    (cleanupRecon loneOps).Reachable ∧
      viewProblem (cleanupRecon loneOps) ⟨false, false, fun _ => .some⟩ 0 = .abort :=
  ⟨⟨loneOps, _, rfl⟩, rfl⟩

/-- The order of the calls matters: if a track is added before the views that observe it, the problem has
residuals twice. The header asks callers to add all views first (bundle_adjuster.h:58-59). -/
theorem C29_order_counterexample :
    ∃ a a', Adjuster.addTrack (cleanupRecon adjustOps) 0 .new = .ok a ∧
      Adjuster.addView (cleanupRecon adjustOps) 0 a = .ok a' ∧
      ¬ (a'.problem.residuals.map fun e => (e.view, e.track)).Nodup :=
  ⟨_, _, rfl, rfl, by decide +kernel⟩

end Theia
