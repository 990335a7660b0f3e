import Mathlib.Tactic.FinCases
import Verif.Proof.EstimateTrack
import Verif.Props.Reconstruction

/-!
# C19: parallel track estimation
-/

namespace Theia

open Spec TrackEstimator

variable {F P : Type}

/-- C19, coverage: for any number of tracks, threads and step size (both positive), the chunks handed
to the workers are, one after the other, exactly the positions of the tracks to estimate: each is
covered once. -/
theorem C19_chunks_cover (o : Options) (r : Reconstruction F P) (ids : List TrackId)
    (hids : ∀ t ∈ ids, ∃ T, r.track t = some T) (hth : 1 ≤ o.numThreads) (hst : 1 ≤ o.stepSize) :
    ∃ cs, plan o r ids = .ok (ids.filter (fun t => (r.track t).any (fun T => !T.estimated)), cs) ∧
      cs.flatMap chunkIndices =
        List.range (ids.filter (fun t => (r.track t).any (fun T => !T.estimated))).length := by
  unfold plan
  rw [toEstimate_spec r ids hids]
  generalize ids.filter (fun t => (r.track t).any (fun T => !T.estimated)) = ts
  by_cases h0 : ts.length = 0
  · refine ⟨[], ?_, by simp [h0]⟩
    have : ts = [] := List.length_eq_zero_iff.1 h0
    simp [this]
  · have hn : (1 : Int) ≤ min o.numThreads ts.length := by omega
    have hdiv : (1 : Int) ≤ Int.tdiv ts.length (min o.numThreads ts.length) := by
      rw [Int.tdiv_eq_ediv_of_nonneg (by omega)]
      exact (Int.le_ediv_iff_mul_le (by omega)).2 (by omega)
    have hstep : (1 : Int) ≤ min o.stepSize (Int.tdiv ts.length (min o.numThreads ts.length)) := by omega
    simp only [if_neg h0]
    rw [if_neg (by omega), if_neg (by omega)]
    generalize min o.stepSize (Int.tdiv ts.length (min o.numThreads ts.length)) = step at *
    refine ⟨chunkLoop ts.length step.toNat ts.length 0, ?_, ?_⟩
    · unfold chunks
      rw [if_neg (by omega), if_neg (by omega)]
    · rw [chunkLoop_cover _ _ (by omega) _ _ (by omega) (by omega)]
      simp

/-- C19, result: whatever the number of threads, the step size and the order in which the workers
visit the tracks, the call returns; exactly the requested, so far unestimated tracks are attempted;
a track is reported and left estimated exactly when its observations by estimated views allow it; the
views, and all other tracks, are as before. -/
theorem C19_schedule_independent (geo : Geometry F P) (o : Options) (r : Reconstruction F P)
    (hr : r.Reachable) (ids : List TrackId) (hnd : ids.Nodup)
    (hids : ∀ t ∈ ids, ∃ T, r.track t = some T) (hth : 1 ≤ o.numThreads) (hst : 1 ≤ o.stepSize) :
    ∃ ts cs, plan o r ids = .ok (ts, cs) ∧
      (∀ t, t ∈ ts ↔ t ∈ ids ∧ ∃ T, r.track t = some T ∧ T.estimated = false) ∧
      ∀ schedule : List Nat, schedule.Perm (cs.flatMap chunkIndices) →
        ∃ sum r', estimateTracks geo o r ids schedule = .ok (sum, r') ∧
          sum.attempts = ts.length ∧ sum.inputEstimated + sum.attempts = ids.length ∧
          sum.estimated.Nodup ∧
          (∀ t, t ∈ sum.estimated ↔ t ∈ ts ∧ ∃ T, r.track t = some T ∧
            Estimable geo o (usedObservations r t T.views) T.payload) ∧
          (∀ v, r'.view v = r.view v) ∧
          (∀ t, t ∉ ts → r'.track t = r.track t) ∧
          (∀ t T, t ∈ ts → r.track t = some T → ∃ T', r'.track t = some T' ∧ T'.views = T.views ∧
            (T'.estimated = true ↔ Estimable geo o (usedObservations r t T.views) T.payload) ∧
            (T'.estimated = true →
              T'.payload = finalPoint geo o (usedObservations r t T.views) T.payload)) := by
  have hi := Reconstruction.inv_of_reachable hr
  obtain ⟨cs, hplan, hcov⟩ := C19_chunks_cover o r ids hids hth hst
  have hts : ∀ t, t ∈ ids.filter (fun t => (r.track t).any (fun T => !T.estimated)) ↔
      t ∈ ids ∧ ∃ T, r.track t = some T ∧ T.estimated = false := by
    intro t
    rw [List.mem_filter]
    cases r.track t <;> simp
  have htn := hnd.filter (fun t => (r.track t).any (fun T => !T.estimated))
  have hle := List.length_filter_le (fun t => (r.track t).any (fun T => !T.estimated)) ids
  generalize ids.filter (fun t => (r.track t).any (fun T => !T.estimated)) = ts at *
  refine ⟨ts, cs, hplan, hts, ?_⟩
  intro schedule hperm
  rw [hcov] at hperm
  have hlt : ∀ i ∈ schedule, i < ts.length := by
    intro i hi
    exact List.mem_range.1 (hperm.mem_iff.1 hi)
  have hcp : (schedule.map (fun i => ts.getD i 0)).Perm ts := by
    have := hperm.map (fun i => ts.getD i 0)
    rwa [map_getD_range] at this
  obtain ⟨rs, r', he, h1, h2, h3, h4, _⟩ := runCalls_spec geo o (schedule.map (fun i => ts.getD i 0))
    (hcp.nodup_iff.2 htn) r (by
      intro t ht
      obtain ⟨_, T, hT, hTe⟩ := (hts t).1 (hcp.mem_iff.1 ht)
      refine ⟨T, hT, hTe, observations_ok r t T.views ?_⟩
      intro v hv V hV
      obtain ⟨V', hV', hf⟩ := (hi.sym v t).2 ⟨T, hT, hv⟩
      have : V' = V := Option.some.inj (hV'.symm.trans hV)
      subst this
      exact AMap.mem_keys_iff.1 hf)
  refine ⟨⟨ids.length - ts.length, ts.length,
    (rs.filter (fun x => decide (x.2 = Result.estimated))).map (·.1)⟩, r', ?_, rfl, ?_, ?_, ?_, ?_, ?_, ?_⟩
  · unfold estimateTracks
    simp only [hplan, mapM_range ts schedule hlt, he]
  · simp only
    omega
  · simp only
    have : (rs.map (·.1)).Nodup := by rw [h1]; exact hcp.nodup_iff.2 htn
    exact this.sublist (List.Sublist.map _ List.filter_sublist)
  · intro t
    simp only [List.mem_map, List.mem_filter, decide_eq_true_eq]
    constructor
    · rintro ⟨x, ⟨hx, hx2⟩, rfl⟩
      obtain ⟨T, hT, hd⟩ := h2 x hx
      refine ⟨hcp.mem_iff.1 (by rw [← h1]; exact List.mem_map_of_mem hx), T, hT, ?_⟩
      exact (decide_estimated geo o _ _).1.1 (by rw [← hd]; exact hx2)
    · rintro ⟨ht, T, hT, hE⟩
      have : t ∈ rs.map (·.1) := by rw [h1]; exact hcp.mem_iff.2 ht
      obtain ⟨x, hx, hxt⟩ := List.mem_map.1 this
      obtain ⟨T', hT', hd⟩ := h2 x hx
      subst hxt
      have : T' = T := Option.some.inj (hT'.symm.trans hT)
      subst this
      exact ⟨x, ⟨hx, by rw [hd]; exact (decide_estimated geo o _ _).1.2 hE⟩, rfl⟩
  · intro v
    rw [h3]
    rfl
  · intro t ht
    rw [h4, if_neg (fun hh => ht (hcp.mem_iff.1 hh))]
  · intro t T ht hT
    rw [h4, if_pos (hcp.mem_iff.2 ht), hT]
    refine ⟨_, rfl, rfl, (decide_estimated geo o _ _).2.1, ?_⟩
    intro hest
    exact (decide_estimated geo o _ _).2.2 ((decide_estimated geo o _ _).2.1.1 hest)

/-- C19: `EstimateAllTracks` requests exactly the tracks some estimated view observes, each once. -/
theorem C19_all_tracks_requested (r : Reconstruction F P) (hr : r.Reachable) :
    (tracksOfViews r r.viewIds []).Nodup ∧
    (∀ t ∈ tracksOfViews r r.viewIds [], ∃ T, r.track t = some T) ∧
    (∀ t, t ∈ tracksOfViews r r.viewIds [] ↔
      ∃ v V, r.view v = some V ∧ V.estimated = true ∧ t ∈ V.trackIds) := by
  have hi := Reconstruction.inv_of_reachable hr
  have key : ∀ (vs : List ViewId) (acc : List TrackId), acc.Nodup →
      (tracksOfViews r vs acc).Nodup ∧ ∀ t, t ∈ tracksOfViews r vs acc ↔
        t ∈ acc ∨ ∃ v ∈ vs, ∃ V, r.view v = some V ∧ V.estimated = true ∧ t ∈ V.trackIds := by
    intro vs
    induction vs with
    | nil => intro acc hacc; exact ⟨hacc, by simp [tracksOfViews]⟩
    | cons v vs ih =>
      intro acc hacc
      unfold tracksOfViews
      cases hv : r.view v with
      | none =>
        obtain ⟨h1, h2⟩ := ih acc hacc
        refine ⟨h1, ?_⟩
        intro t
        rw [h2]
        simp [hv]
      | some V =>
        cases he : V.estimated with
        | false =>
          obtain ⟨h1, h2⟩ := ih acc hacc
          simp only [he, Bool.false_eq_true, if_false]
          refine ⟨h1, ?_⟩
          intro t
          rw [h2]
          simp [hv, he]
        | true =>
          simp only [he, if_true]
          have hacc' : (acc ++ V.trackIds.filter (fun t => decide (t ∉ acc))).Nodup := by
            rw [List.nodup_append]
            refine ⟨hacc, (hi.wfFeat v V hv).filter _, ?_⟩
            rintro a ha b hb rfl
            have := (List.mem_filter.1 hb).2
            simp [ha] at this
          obtain ⟨h1, h2⟩ := ih _ hacc'
          refine ⟨h1, ?_⟩
          intro t
          rw [h2]
          simp only [List.mem_append, List.mem_filter, decide_eq_true_eq, List.mem_cons]
          constructor
          · rintro ((h | h) | ⟨w, hw, h⟩)
            · exact Or.inl h
            · exact Or.inr ⟨v, Or.inl rfl, V, hv, he, h.1⟩
            · exact Or.inr ⟨w, Or.inr hw, h⟩
          · rintro (h | ⟨w, rfl | hw, W, hW, h⟩)
            · exact Or.inl (Or.inl h)
            · rw [hv] at hW
              cases hW
              by_cases hta : t ∈ acc
              · exact Or.inl (Or.inl hta)
              · exact Or.inl (Or.inr ⟨h.2, hta⟩)
            · exact Or.inr ⟨w, hw, W, hW, h⟩
  obtain ⟨h1, h2⟩ := key r.viewIds [] List.nodup_nil
  refine ⟨h1, ?_, ?_⟩
  · intro t ht
    rw [h2] at ht
    rcases ht with ht | ⟨v, _, V, hV, _, ht⟩
    · simp at ht
    · obtain ⟨T, hT, _⟩ := (hi.sym v t).1 ⟨V, hV, ht⟩
      exact ⟨T, hT⟩
  · intro t
    rw [h2]
    constructor
    · rintro (h | ⟨v, _, V, h⟩)
      · simp at h
      · exact ⟨v, V, h⟩
    · rintro ⟨v, V, hV, h⟩
      exact Or.inr ⟨v, AMap.mem_keys_iff.2 ⟨V, hV⟩, V, hV, h⟩

/-- C19 needs a positive step size: with a negative one the call returns without attempting any
track, and with zero it does not return. -/
theorem C19_bad_step_counterexample (o : Options) (r : Reconstruction F P) (ids : List TrackId)
    (hids : ∀ t ∈ ids, ∃ T, r.track t = some T) (hth : 1 ≤ o.numThreads)
    (hne : ∃ t ∈ ids, ∃ T, r.track t = some T ∧ T.estimated = false) :
    (o.stepSize < 0 → ∃ ts cs, plan o r ids = .ok (ts, cs) ∧ ts ≠ [] ∧ cs.flatMap chunkIndices = []) ∧
    (o.stepSize = 0 → plan o r ids = .ub) := by
  unfold plan
  rw [toEstimate_spec r ids hids]
  have hne' : ids.filter (fun t => (r.track t).any (fun T => !T.estimated)) ≠ [] := by
    obtain ⟨t, ht, T, hT, he⟩ := hne
    intro h
    have : t ∈ ids.filter (fun t => (r.track t).any (fun T => !T.estimated)) := by
      rw [List.mem_filter]; exact ⟨ht, by simp [hT, he]⟩
    rw [h] at this
    cases this
  generalize ids.filter (fun t => (r.track t).any (fun T => !T.estimated)) = ts at *
  have h0 : ts.length ≠ 0 := fun h => hne' (List.length_eq_zero_iff.1 h)
  have hpos : (0 : Int) < ts.length := by omega
  have hdiv : (1 : Int) ≤ Int.tdiv ts.length (min o.numThreads ts.length) := by
    rw [Int.tdiv_eq_ediv_of_nonneg (by omega)]
    exact (Int.le_ediv_iff_mul_le (by omega)).2 (by omega)
  simp only [if_neg h0]
  rw [if_neg (by omega), if_neg (by omega)]
  constructor
  · intro hs
    refine ⟨ts, [(0, 0)], ?_, hne', by simp [chunkIndices]⟩
    unfold chunks
    rw [if_neg (by omega), if_pos (by omega)]
  · intro hs
    unfold chunks
    rw [if_pos (by omega)]

/-- Two estimated views and one that is not, three tracks; the last one has a single observation by an
estimated view. -/
def estimateDemoOps : List (Reconstruction.Op Nat Nat) :=
  [.addView "a", .addView "b", .addView "c", .setViewEstimated 0 true, .setViewEstimated 1 true,
   .addTrack 0 [(0, 10), (1, 11)], .addTrack 0 [(0, 20), (1, 21)], .addTrack 0 [(0, 30), (2, 31)]]

/-- Two threads, chunks of one track, two different orders: tracks 0 and 1 are estimated. -/
example : ∃ as r, Reconstruction.run .empty estimateDemoOps = .ok (as, r) ∧
    (∀ t ∈ [0, 1, 2], ∃ T, r.track t = some T) ∧
    ∀ s ∈ [[2, 0, 1], [0, 1, 2]],
      (estimateTracks ⟨fun _ => true, fun o _ => (true, o.length), fun _ p => (true, p + 1),
        fun _ _ => true⟩ ⟨2, 7, true⟩ r [0, 1, 2] s).bind
        (fun x => .ok (x.1.estimated.contains 0, x.1.estimated.contains 1, x.1.estimated.contains 2,
          x.1.attempts)) = .ok (true, true, false, 3) := by
  refine ⟨_, _, rfl, ?_, ?_⟩
  · intro t ht
    fin_cases ht <;> exact ⟨_, rfl⟩
  · decide

end Theia
