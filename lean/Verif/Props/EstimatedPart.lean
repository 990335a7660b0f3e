import Verif.Proof.EstimatedPart
import Verif.Props.Cleanup

/-!
# C60: the estimated part of a reconstruction is exact
-/

namespace Theia

open Spec Reconstruction

variable {F P : Type}

theorem EstimatedPart.viewEstimated_iff (r : Reconstruction F P) (v : ViewId) (hv : r.view v ≠ none) :
    ViewEstimated r v ↔ EstimatedPart.unestimated r v = false := by
  unfold ViewEstimated EstimatedPart.unestimated
  cases h : r.view v with
  | none => exact absurd h hv
  | some V => simp

/-- C60. Whatever the orders in which the containers are iterated, extracting the estimated part of a reconstruction never aborts and
gives a consistent reconstruction: exactly the estimated views, with their features in the tracks kept, and exactly the estimated
tracks seen by at least two estimated views, with those views. -/
theorem C60_estimated_part (orderV orderT : List Nat → List Nat) (hV : ∀ l, (orderV l).Perm l) (hT : ∀ l, (orderT l).Perm l)
    (r : Reconstruction F P) (hr : r.Reachable) :
    ∃ r', EstimatedPart.create orderV orderT r = .ok r' ∧ r'.Reachable ∧ IsEstimatedPart r r' := by
  obtain ⟨r1, he1, h1⟩ := EstimatedPart.viewsLoop_spec (orderV r.viewIds) hr
  obtain ⟨r', he2, h2⟩ := EstimatedPart.tracksLoop_spec (orderT r1.trackIds) h1.reach
  have hi := inv_of_reachable hr
  have hi1 := inv_of_reachable h1.reach
  refine ⟨r', by simp only [EstimatedPart.create, he1, he2], h2.reach, ?_⟩
  -- which views and tracks survive
  have hkeep : ∀ v, r.view v ≠ none →
      ((!(decide (v ∈ orderV r.viewIds) && EstimatedPart.unestimated r v)) = true ↔ ViewEstimated r v) := by
    intro v hv
    rw [EstimatedPart.viewEstimated_iff r v hv]
    have : v ∈ orderV r.viewIds := by
      rw [(hV _).mem_iff]
      by_contra hc
      exact hv (AMap.get_eq_none_iff.2 hc)
    simp [this]
  have hview : ∀ v T t, r.track t = some T → v ∈ T.views → r.view v ≠ none := by
    intro v T t hTt hv
    obtain ⟨V, hV, -⟩ := (hi.sym v t).2 ⟨T, hTt, hv⟩
    rw [show r.view v = some V from hV]; simp
  have hfilter : ∀ v T t, r.track t = some T →
      (v ∈ T.views.filter (fun w => !(decide (w ∈ orderV r.viewIds) && EstimatedPart.unestimated r w)) ↔
        v ∈ T.views ∧ ViewEstimated r v) := by
    intro v T t hTt
    rw [List.mem_filter]
    exact ⟨fun h => ⟨h.1, (hkeep v (hview v T t hTt h.1)).1 h.2⟩, fun h => ⟨h.1, (hkeep v (hview v T t hTt h.1)).2 h.2⟩⟩
  have htwo : ∀ t T, r.track t = some T → (2 ≤ (T.views.filter
      (fun w => !(decide (w ∈ orderV r.viewIds) && EstimatedPart.unestimated r w))).length ↔
      ∃ v w, v ≠ w ∧ v ∈ T.views ∧ w ∈ T.views ∧ ViewEstimated r v ∧ ViewEstimated r w) := by
    intro t T hTt
    have hmem := fun v => hfilter v T t hTt
    have hnd := (hi.ndTrack t T hTt).filter (fun w => !(decide (w ∈ orderV r.viewIds) && EstimatedPart.unestimated r w))
    revert hmem hnd
    generalize (T.views.filter (fun w => !(decide (w ∈ orderV r.viewIds) && EstimatedPart.unestimated r w))) = l
    intro hmem hnd
    constructor
    · intro hl
      match l, hl with
      | a :: b :: l, _ =>
        have ha := (hmem a).1 (by simp)
        have hb := (hmem b).1 (by simp)
        refine ⟨a, b, ?_, ha.1, hb.1, ha.2, hb.2⟩
        rintro rfl
        simp at hnd
    · rintro ⟨a, b, hab, ha, hb, ea, eb⟩
      have ha' := (hmem a).2 ⟨ha, ea⟩
      have hb' := (hmem b).2 ⟨hb, eb⟩
      match l, ha', hb' with
      | [x], ha', hb' =>
        simp only [List.mem_singleton] at ha' hb'
        exact absurd (ha'.trans hb'.symm) hab
      | x :: y :: l, _, _ => simp
  have hkept : ∀ t, r'.track t ≠ none ↔ TrackKept r t := by
    intro t
    rw [h2.track]
    constructor
    · intro hne
      split at hne
      · exact absurd rfl hne
      · rename_i hb
        cases h : r1.track t with
        | none => exact absurd h hne
        | some T1 =>
          have hin : t ∈ orderT r1.trackIds := by
            rw [(hT _).mem_iff]
            by_contra hc
            rw [show r1.track t = none from AMap.get_eq_none_iff.2 hc] at h
            cases h
          obtain ⟨T, hTt, rfl⟩ := h1.trackSome t T1 h
          simp only [hin, decide_true, Bool.true_and, EstimatedPart.weak, h, decide_eq_true_eq, not_or, Bool.not_eq_false,
            not_lt] at hb
          exact ⟨T, hTt, hb.1, (htwo t T hTt).1 hb.2⟩
    · rintro ⟨T, hTt, hest, h3⟩
      have h3 := (htwo t T hTt).2 h3
      cases h : r1.track t with
      | none =>
        have := h1.trackNone t T hTt h
        rw [this] at h3
        simp at h3
      | some T1 =>
        obtain ⟨T', hTt', rfl⟩ := h1.trackSome t T1 h
        rw [hTt] at hTt'
        cases hTt'
        have : EstimatedPart.weak r1 t = false := by
          simp only [EstimatedPart.weak, h, hest, decide_eq_false_iff_not, not_or]
          exact ⟨by simp, Nat.not_lt.2 h3⟩
        simp [this]
  have hbad : ∀ t, TrackKept r t → (decide (t ∈ orderT r1.trackIds) && EstimatedPart.weak r1 t) = false := by
    intro t hk
    have := (hkept t).2 hk
    rw [h2.track] at this
    by_contra hc
    rw [Bool.not_eq_false] at hc
    simp [hc] at this
  have hr1v : ∀ v V, r.view v = some V → V.estimated = true → r1.view v = some V := by
    intro v V hv hest
    rw [h1.view, if_pos ((hkeep v (by rw [hv]; simp)).2 ⟨V, hv, hest⟩), hv]
  refine ⟨?_, ?_, ?_, ?_, ?_, ?_⟩
  · intro v V' hv'
    cases h : r1.view v with
    | none => rw [h2.viewNone v h] at hv'; cases hv'
    | some V1 =>
      rw [h1.view] at h
      split at h
      · rename_i hk
        have := (hkeep v (by rw [h]; simp)).1 hk
        exact this
      · cases h
  · intro v V hv hest
    obtain ⟨V', hV', a1, a2, a3, a4⟩ := h2.viewSome v V (hr1v v V hv hest)
    refine ⟨V', hV', a1, a2.trans hest, a3, fun t f => ?_⟩
    constructor
    · intro hf
      have hf0 := hf
      rw [a4] at hf
      split at hf
      · cases hf
      · refine ⟨hf, (hkept t).1 ?_⟩
        obtain ⟨T, hTt, -⟩ := ((inv_of_reachable h2.reach).sym v t).1 ⟨V', hV', AMap.mem_keys_iff.2 ⟨f, hf0⟩⟩
        rw [show r'.track t = some T from hTt]; simp
    · rintro ⟨hf, hk⟩
      rw [a4, hbad t hk]
      simpa using hf
  · intro t T' hT'
    exact (hkept t).1 (by rw [hT']; simp)
  · intro t T hTt hk
    have hne := (hkept t).2 hk
    rw [h2.track, hbad t hk] at hne
    simp only [Bool.false_eq_true, if_false] at hne
    cases h : r1.track t with
    | none => exact absurd h hne
    | some T1 =>
      obtain ⟨T0, hT0, rfl⟩ := h1.trackSome t T1 h
      rw [hTt] at hT0
      cases hT0
      have h' := h2.track t
      rw [hbad t hk, h] at h'
      simp only [Bool.false_eq_true, if_false] at h'
      refine ⟨_, h', ?_, rfl, hi1.ndTrack t _ h, fun v => hfilter v T t hTt⟩
      obtain ⟨T2, hT2, hest, -⟩ := hk
      rw [hTt] at hT2
      cases hT2
      exact hest
  · intro n v
    rw [h2.names, h1.names]
    refine and_congr_right fun hn => hkeep v ?_
    obtain ⟨V, hv, -⟩ := (hi.name n v).1 hn
    rw [show r.view v = some V from hv]; simp
  · intro v g
    rw [h2.groups, h1.groups]
    have hd : ∀ g, r.groupOf v = some g → r.view v ≠ none := by
      intro g hg hc
      obtain ⟨V, hv⟩ := ((C03_groups_partition_views r hr).2.1 v).1 ⟨g, hg⟩
      rw [hv] at hc; cases hc
    constructor
    · intro h
      split at h
      · rename_i hk
        exact ⟨h, (hkeep v (hd g h)).1 hk⟩
      · cases h
    · rintro ⟨h, hk⟩
      rw [if_pos ((hkeep v (hd g h)).2 hk)]
      exact h

/-- C60. The lists and the counts of estimated views and tracks are exact, and agree. -/
theorem C60_estimated_lists (r : Reconstruction F P) (hr : r.Reachable) :
    (EstimatedPart.estimatedViews r).Nodup ∧ (∀ v, v ∈ EstimatedPart.estimatedViews r ↔ ViewEstimated r v) ∧
    (EstimatedPart.estimatedTracks r).Nodup ∧
    (∀ t, t ∈ EstimatedPart.estimatedTracks r ↔ ∃ T, r.track t = some T ∧ T.estimated = true) ∧
    EstimatedPart.numEstimatedViews r = (EstimatedPart.estimatedViews r).length ∧
    EstimatedPart.numEstimatedTracks r = (EstimatedPart.estimatedTracks r).length := by
  have hi := inv_of_reachable hr
  refine ⟨?_, ?_, ?_, ?_, ?_, ?_⟩
  · exact List.Pairwise.filter _ (hi.wfViews)
  · intro v
    unfold EstimatedPart.estimatedViews ViewEstimated
    rw [List.mem_filter]
    cases h : r.view v with
    | none => simp
    | some V => simp [Cleanup.mem_viewIds h]
  · exact List.Pairwise.filter _ (hi.wfTracks)
  · intro t
    unfold EstimatedPart.estimatedTracks
    rw [List.mem_filter]
    cases h : r.track t with
    | none => simp
    | some T => simp [Cleanup.mem_trackIds h]
  · unfold EstimatedPart.numEstimatedViews EstimatedPart.estimatedViews
    rw [EstimatedPart.countLoop_eq, Nat.zero_add]
    refine congrArg List.length (List.filter_congr fun x _ => ?_)
    cases r.view x <;> rfl
  · unfold EstimatedPart.numEstimatedTracks EstimatedPart.estimatedTracks
    rw [EstimatedPart.countLoop_eq, Nat.zero_add]
    refine congrArg List.length (List.filter_congr fun x _ => ?_)
    cases r.track x <;> rfl

/-- Four views of which three are estimated, and four tracks: the second is not estimated and the third is left with one
estimated view. -/
def partOps : List (Reconstruction.Op Unit Unit) :=
  [.addView "a", .addView "b", .addView "c", .addView "d", .addTrack () [(0, ()), (1, ()), (2, ())],
   .addTrack () [(0, ()), (1, ())], .addTrack () [(0, ()), (2, ())], .addTrack () [(1, ()), (3, ())],
   .setViewEstimated 0 true, .setViewEstimated 1 true, .setViewEstimated 3 true,
   .setTrackEstimated 0 true (), .setTrackEstimated 2 true (), .setTrackEstimated 3 true ()]

/-- The hypotheses hold of a history, and the estimated part of it is the one expected. -/
example : (cleanupRecon partOps).Reachable ∧ ∃ r', EstimatedPart.create id List.reverse (cleanupRecon partOps) = .ok r' ∧
    r'.viewIds = [0, 1, 3] ∧ r'.trackIds = [0, 3] ∧ (r'.track 0).map (·.views) = some [0, 1] ∧
    (r'.view 0).map (·.trackIds) = some [0] ∧ EstimatedPart.estimatedViews (cleanupRecon partOps) = [0, 1, 3] ∧
    EstimatedPart.numEstimatedTracks (cleanupRecon partOps) = 3 :=
  ⟨⟨partOps, _, rfl⟩, _, rfl, by decide +kernel, by decide +kernel, by decide +kernel, by decide +kernel, by decide +kernel,
    by decide +kernel⟩

end Theia
