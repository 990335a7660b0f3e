import Verif.Model.Incremental
import Verif.Props.Cleanup
import Verif.Props.EstimateTrack
import Verif.Props.SelectTracks
import Verif.Props.Localize
import Verif.Props.EstimatorUtils

/-!
# The steps of the incremental estimator keep a reconstruction well formed
-/

namespace Theia

open Spec

namespace Incremental

variable {F P M O X L N W D C : Type}

/-- A reconstruction the estimator may be working on, having started from `r0`. -/
structure Good (r0 r : Reconstruction F P) : Prop where
  reach : r.Reachable
  same : SameStructure r0 r
  tracks : TracksConstrained r

/-- A change that touches no view. -/
structure TrackChange (r r' : Reconstruction F P) : Prop where
  reach : r.Reachable → r'.Reachable
  same : SameStructure r r'
  views : r'.views = r.views

theorem TrackChange.refl (r : Reconstruction F P) : TrackChange r r := ⟨id, .refl r, rfl⟩

theorem TrackChange.trans {r1 r2 r3 : Reconstruction F P} (h : TrackChange r1 r2) (h' : TrackChange r2 r3) :
    TrackChange r1 r3 := ⟨fun x => h'.reach (h.reach x), h.same.trans h'.same, h'.views.trans h.views⟩

theorem TrackChange.insert {r : Reconstruction F P} {t : TrackId} {T : Track P} (hT : r.track t = some T) (b : Bool) (p : P) :
    TrackChange r { r with tracks := r.tracks.insert t { T with estimated := b, payload := p } } :=
  ⟨fun h => Reconstruction.reachable_setTrackEstimated h (EstimatorUtils.setTrackEstimated_eq hT b p),
    EstimatorUtils.same_insertTrack hT b p, rfl⟩

theorem TrackChange.observers {r r' : Reconstruction F P} (h : TrackChange r r') {T T' : Track P} (hT : T'.views = T.views) :
    estimatedObservers r' T' = estimatedObservers r T := by
  rw [Cleanup.estimatedObservers_congr h.views]
  unfold estimatedObservers
  rw [hT]

/-- A change of tracks keeps the reconstruction good if every track it newly estimates has two estimated observers. -/
theorem Good.change {r0 r r' : Reconstruction F P} (hg : Good r0 r) (h : TrackChange r r')
    (hnew : ∀ t T T', r.track t = some T → r'.track t = some T' → T'.estimated = true → T.estimated = true ∨
      2 ≤ (estimatedObservers r T).length) : Good r0 r' where
  reach := h.reach hg.reach
  same := hg.same.trans h.same
  tracks t T' hT' he := by
    obtain ⟨T, hT, hTT⟩ := h.same.tracks_of hT'
    rw [h.observers (T := T) (by rw [hTT])]
    rcases hnew t T T' hT hT' he with h1 | h1
    · exact hg.tracks t T hT h1
    · exact h1

theorem trackChange_of_lowered {r r' : Reconstruction F P} {low : TrackId → Track P → Prop}
    (h : EstimatorUtils.TracksLowered r r' low) : TrackChange r r' := ⟨h.reach, h.same, h.views⟩

theorem Good.lowered {r0 r r' : Reconstruction F P} (hg : Good r0 r) {low : TrackId → Track P → Prop}
    (h : EstimatorUtils.TracksLowered r r' low) : Good r0 r' := by
  refine hg.change (trackChange_of_lowered h) fun t T T' hT hT' he => Or.inl ?_
  obtain ⟨b, hb, hb'⟩ := h.tracks t T hT
  rw [hT'] at hb
  cases hb
  exact (hb'.1 he).1

/-! ### Bundle adjustment -/

theorem setPoints_ok (point : TrackId → P) (ts : List TrackId) : ∀ (r : Reconstruction F P),
    TrackChange r (setPoints point ts r) ∧ ∀ t T, r.track t = some T →
      ∃ p, (setPoints point ts r).track t = some { T with payload := p } := by
  induction ts with
  | nil => intro r; exact ⟨.refl r, fun t T hT => ⟨T.payload, hT⟩⟩
  | cons t ts ih =>
    intro r
    rw [setPoints]
    cases hT : r.track t with
    | none => exact ih r
    | some T =>
      simp only
      obtain ⟨h1, h2⟩ := ih { r with tracks := r.tracks.insert t { T with payload := point t } }
      refine ⟨(TrackChange.insert hT T.estimated (point t)).trans h1, ?_⟩
      intro u U hU
      by_cases hut : u = t
      · subst hut
        rw [hT] at hU
        cases hU
        exact h2 u { T with payload := point u } (by unfold Reconstruction.track; simp [AMap.get_insert])
      · exact h2 u U (by unfold Reconstruction.track at *; simpa [AMap.get_insert, hut] using hU)

theorem Good.setPoints {r0 r : Reconstruction F P} (hg : Good r0 r) (point : TrackId → P) (ts : List TrackId) :
    Good r0 (setPoints point ts r) := by
  obtain ⟨h1, h2⟩ := setPoints_ok point ts r
  refine hg.change h1 fun t T T' hT hT' he => Or.inl ?_
  obtain ⟨p, hp⟩ := h2 t T hT
  rw [hT'] at hp
  cases hp
  exact he

/-! ### Track estimation -/

theorem estimateTrack_change {geo : TrackEstimator.Geometry F P} {o : TrackEstimator.Options} {r r' : Reconstruction F P}
    {t : TrackId} {res : TrackEstimator.Result} (h : TrackEstimator.estimateTrack geo o r t = .ok (res, r')) :
    TrackChange r r' := by
  unfold TrackEstimator.estimateTrack at h
  cases hT : r.track t with
  | none => rw [hT] at h; cases h
  | some T =>
    rw [hT] at h
    simp only at h
    split at h
    · cases h
    · split at h
      · cases h
      · cases h
      · cases h
        exact .insert hT _ _

theorem runCalls_change {geo : TrackEstimator.Geometry F P} {o : TrackEstimator.Options} (calls : List TrackId) :
    ∀ {r r' : Reconstruction F P} {rs : List (TrackId × TrackEstimator.Result)},
    TrackEstimator.runCalls geo o calls r = .ok (rs, r') → TrackChange r r' := by
  induction calls with
  | nil => intro r r' rs h; cases h; exact .refl r
  | cons t ts ih =>
    intro r r' rs h
    rw [TrackEstimator.runCalls] at h
    split at h
    · cases h
    · cases h
    · next res r1 h1 =>
      split at h
      · cases h
      · cases h
      · next rs2 r2 h2 =>
        cases h
        exact (estimateTrack_change h1).trans (ih h2)

theorem estimateTracks_change {geo : TrackEstimator.Geometry F P} {o : TrackEstimator.Options} {r r' : Reconstruction F P}
    {ids : List TrackId} {schedule : List Nat} {sum : TrackEstimator.Summary}
    (h : TrackEstimator.estimateTracks geo o r ids schedule = .ok (sum, r')) : TrackChange r r' := by
  unfold TrackEstimator.estimateTracks at h
  split at h
  · cases h
  · cases h
  · split at h
    · cases h
    · split at h
      · cases h
      · cases h
      · next h1 => cases h; exact runCalls_change _ h1

theorem usedObservations_length (r : Reconstruction F P) (t : TrackId) (T : Track P) :
    (usedObservations r t T.views).length ≤ (estimatedObservers r T).length := by
  unfold usedObservations estimatedObservers
  generalize T.views = vs
  induction vs with
  | nil => simp
  | cons v vs ih =>
    cases hV : r.view v with
    | none => simpa [hV] using ih
    | some V =>
      cases he : V.estimated with
      | false => simpa [hV, he] using ih
      | true =>
        cases hf : V.getFeature t with
        | none => simp [hV, he, hf]; omega
        | some f => simp [hV, he, hf, ih]

theorem estimateTracks_good {r0 r : Reconstruction F P} (hg : Good r0 r) (geo : TrackEstimator.Geometry F P)
    (o : TrackEstimator.Options) (ids : List TrackId) (hnd : ids.Nodup) (hids : ∀ t ∈ ids, ∃ T, r.track t = some T)
    (hth : 1 ≤ o.numThreads) (hst : 1 ≤ o.stepSize) :
    ∃ ts cs, TrackEstimator.plan o r ids = .ok (ts, cs) ∧
      ∀ schedule : List Nat, schedule.Perm (cs.flatMap TrackEstimator.chunkIndices) →
        ∃ sum r', TrackEstimator.estimateTracks geo o r ids schedule = .ok (sum, r') ∧ Good r0 r' ∧ TrackChange r r' ∧
          ∀ t T T', r.track t = some T → r'.track t = some T' → T.estimated = true → T' = T := by
  obtain ⟨ts, cs, h1, hts, h2⟩ := C19_schedule_independent geo o r hg.reach ids hnd hids hth hst
  refine ⟨ts, cs, h1, fun schedule hs => ?_⟩
  obtain ⟨sum, r', h3, _, _, _, _, _, h4, h5⟩ := h2 schedule hs
  have hc := estimateTracks_change h3
  refine ⟨sum, r', h3, hg.change hc ?_, hc, ?_⟩
  · intro t T T' hT hT' he
    by_cases ht : t ∈ ts
    · right
      obtain ⟨T2, hT2, _, h6, _⟩ := h5 t T ht hT
      rw [hT'] at hT2
      cases hT2
      exact le_trans (h6.1 he).1 (usedObservations_length r t T)
    · left
      rw [h4 t ht, hT] at hT'
      cases hT'
      exact he
  · intro t T T' hT hT' he
    have ht : t ∉ ts := by
      intro ht
      obtain ⟨_, U, hU, hUe⟩ := (hts t).1 ht
      rw [hT] at hU
      cases hU
      rw [he] at hUe
      cases hUe
    rw [h4 t ht, hT] at hT'
    exact (Option.some.inj hT').symm

/-! ### Views -/

theorem observers_raise {r r' : Reconstruction F P} {v : ViewId} (h : r.setViewEstimated v true = .ok r') (T : Track P) :
    (estimatedObservers r T).length ≤ (estimatedObservers r' T).length := by
  cases hV : r.view v with
  | none =>
    unfold Reconstruction.setViewEstimated at h
    have : r.views.get v = none := hV
    rw [this] at h
    cases h
  | some V =>
    rw [EstimatorUtils.setViewEstimated_eq hV] at h
    cases h
    unfold estimatedObservers
    rw [← List.countP_eq_length_filter, ← List.countP_eq_length_filter]
    apply List.countP_mono_left
    intro w _ hw
    unfold Reconstruction.view at *
    rw [AMap.get_insert]
    by_cases hwv : w = v
    · rw [if_pos hwv]
    · rw [if_neg hwv]; exact hw

theorem Good.raise {r0 r r' : Reconstruction F P} (hg : Good r0 r) {v : ViewId} (h : r.setViewEstimated v true = .ok r') :
    Good r0 r' where
  reach := Reconstruction.reachable_setViewEstimated hg.reach h
  same := hg.same.trans (EstimatorUtils.same_setView h)
  tracks t T hT he := by
    refine le_trans (hg.tracks t T ?_ he) (observers_raise h T)
    cases hV : r.view v with
    | none =>
      unfold Reconstruction.setViewEstimated at h
      have : r.views.get v = none := hV
      rw [this] at h
      cases h
    | some V =>
      rw [EstimatorUtils.setViewEstimated_eq hV] at h
      cases h
      exact hT

theorem estimatePose_recon {order : List Nat → List Nat} {n : Localize.Numerics F P M O X L N W} {o : Localize.Options}
    {known ok : Bool} {v : ViewId} {V : View F} {s s1 : Localize.Scene F P M O X} {summary inl1 : List Nat}
    (h1 : Localize.estimatePose order n o known v V s summary = .ok (ok, s1, inl1)) : s1.recon = s.recon := by
  unfold Localize.estimatePose at h1
  obtain ⟨ms, _, h1⟩ := Outcome.bind_eq_ok.1 h1
  split at h1
  · cases h1; rfl
  · split at h1
    · have h1 := Outcome.ok.inj h1
      unfold Localize.withPosition at h1
      split at h1
      · split at h1 <;> (cases h1; rfl)
      · cases h1; rfl
    · split at h1
      · have h1 := Outcome.ok.inj h1
        unfold Localize.withPose at h1
        split at h1 <;> (cases h1; rfl)
      · unfold Localize.withFocal at h1
        split at h1
        · obtain ⟨m, _, h1⟩ := Outcome.bind_eq_ok.1 h1
          cases h1; rfl
        · cases h1; rfl

theorem localize_recon {order : List Nat → List Nat} {n : Localize.Numerics F P M O X L N W} {o : Localize.Options}
    {v : ViewId} {s s' : Localize.Scene F P M O X} {summary inl : List Nat} {b : Bool}
    (h : Localize.localize order n o v s summary = .ok (b, s', inl)) :
    (s'.recon = s.recon ∧ b = false) ∨ s.recon.setViewEstimated v true = .ok s'.recon := by
  unfold Localize.localize at h
  split at h
  · cases h
  · next V hV =>
    obtain ⟨known, _, h⟩ := Outcome.bind_eq_ok.1 h
    obtain ⟨⟨ok, s1, inl1⟩, h1, h⟩ := Outcome.bind_eq_ok.1 h
    have hs1 := estimatePose_recon h1
    simp only at h
    split at h
    · cases h; exact Or.inl ⟨hs1, rfl⟩
    · right
      unfold Localize.finish at h
      obtain ⟨r, h2, h⟩ := Outcome.bind_eq_ok.1 h
      rw [← hs1, h2]
      split at h
      · cases h; rfl
      · cases h; rfl

theorem localize_total {order : List Nat → List Nat} (horder : ∀ l, (order l).Perm l) (n : Localize.Numerics F P M O X L N W)
    (hf : ∀ l m, ∃ m', n.setFocal l m = .ok m') (o : Localize.Options) {v : ViewId} {V : View F}
    {s : Localize.Scene F P M O X} (hr : s.recon.Reachable) (hV : s.recon.view v = some V) (summary : List Nat) :
    ∃ b s' inl, Localize.localize order n o v s summary = .ok (b, s', inl) := by
  unfold Localize.localize
  rw [hV]
  simp only
  have hk : ∃ known, Localize.decideKnown order n o s.recon v = .ok known := by
    unfold Localize.decideKnown
    split
    · exact ⟨_, rfl⟩
    · obtain ⟨b, hb, _⟩ := C50_known_exact order horder n s.recon hr v V hV
      exact ⟨b, hb⟩
  obtain ⟨known, hk⟩ := hk
  rw [hk]
  simp only [Outcome.ok_bind]
  have hp : ∃ x, Localize.estimatePose order n o known v V s summary = .ok x := by
    unfold Localize.estimatePose
    rw [Localize.gather_reachable horder hr hV]
    simp only [Outcome.ok_bind]
    generalize pointPairs _ _ _ _ _ = ms
    split
    · exact ⟨_, rfl⟩
    · split
      · exact ⟨_, rfl⟩
      · split
        · exact ⟨_, rfl⟩
        · unfold Localize.withFocal
          split
          · next l _ =>
            obtain ⟨m, hm⟩ := hf l (s.heap V.intrinsics)
            rw [hm]
            exact ⟨_, rfl⟩
          · exact ⟨_, rfl⟩
  obtain ⟨⟨ok, s1, inl1⟩, hp⟩ := hp
  have hs1 : s1.recon.view v = some V := by
    rw [estimatePose_recon hp]; exact hV
  rw [hp]
  simp only [Outcome.ok_bind]
  split
  · exact ⟨_, _, _, rfl⟩
  · unfold Localize.finish
    rw [EstimatorUtils.setViewEstimated_eq hs1]
    simp only [Outcome.ok_bind]
    split <;> exact ⟨_, _, _, rfl⟩

/-! ### Clean-up -/

theorem viewsLoop_same (vs : List ViewId) : ∀ {r r' : Reconstruction F P} {c c' : Nat},
    Cleanup.viewsLoop vs r c = .ok (c', r') → SameStructure r r' := by
  induction vs with
  | nil => intro r r' c c' h; cases h; exact .refl r
  | cons v vs ih =>
    intro r r' c c' h
    rw [Cleanup.viewsLoop] at h
    split at h
    · cases h
    · split at h
      · split at h
        · cases h
        · cases h
        · split at h
          · split at h
            · cases h
            · cases h
            · next h1 => exact (EstimatorUtils.same_setView h1).trans (ih h)
          · exact ih h
      · exact ih h

theorem tracksLoop_same (ts : List TrackId) : ∀ {r r' : Reconstruction F P} {c c' : Nat},
    Cleanup.tracksLoop ts r c = .ok (c', r') → SameStructure r r' := by
  induction ts with
  | nil => intro r r' c c' h; cases h; exact .refl r
  | cons v vs ih =>
    intro r r' c c' h
    rw [Cleanup.tracksLoop] at h
    split at h
    · cases h
    · split at h
      · split at h
        · cases h
        · cases h
        · split at h
          · split at h
            · cases h
            · cases h
            · next h1 => exact (EstimatorUtils.same_setTrack h1).trans (ih h)
          · exact ih h
      · exact ih h

theorem cleanupLoop_same (k : Nat) : ∀ {r r' : Reconstruction F P} {nv nt : Nat},
    Cleanup.loop k r = .ok (nv, nt, r') → SameStructure r r' := by
  induction k with
  | zero => intro r r' nv nt h; cases h
  | succ k ih =>
    intro r r' nv nt h
    rw [Cleanup.loop] at h
    split at h
    · cases h
    · cases h
    · next h1 =>
      split at h
      · cases h
      · cases h
      · next h2 =>
        have := (viewsLoop_same _ h1).trans (tracksLoop_same _ h2)
        split at h
        · exact this.trans (ih h)
        · cases h; exact this

/-- What the clean-up changes, for containers as the estimator keeps them. -/
structure Cleaned (r0 : Reconstruction F P) (s s' : Cleanup.State F P) : Prop where
  good : Good r0 s'.recon
  lowered : Lowered s.recon s'.recon
  mono : ∀ v ∈ s.unlocalized, v ∈ s'.unlocalized
  perm : (s'.unlocalized ++ s'.reconstructed).Perm (s.unlocalized ++ s.reconstructed)
  opt : s'.reconstructed.length - s'.numOptimized = s.reconstructed.length - s.numOptimized
  lost : ∀ v ∈ s'.unlocalized, v ∉ s.unlocalized → ∃ V, s'.recon.view v = some V ∧ V.estimated = false

theorem requeue_perm (vs : List ViewId) : ∀ {s s' : Cleanup.State F P}, Cleanup.requeue vs s = .ok s' →
    (s'.unlocalized ++ s'.reconstructed).Perm (s.unlocalized ++ s.reconstructed) := by
  induction vs with
  | nil => intro s s' h; cases h; exact .refl _
  | cons v vs ih =>
    intro s s' h
    rw [Cleanup.requeue] at h
    split at h
    · exact ih h
    · split at h
      · split at h
        · next hv =>
          refine (ih h).trans ?_
          simp only [List.cons_append]
          refine (List.perm_middle (l₁ := s.unlocalized) (a := v) (l₂ := s.reconstructed.erase v)).symm.trans ?_
          exact (List.perm_cons_erase hv).symm.append_left _
        · cases h
      · exact ih h

theorem cleanup_good {r0 : Reconstruction F P} (s : Cleanup.State F P) (hg : Good r0 s.recon)
    (hs : ∀ v ∈ s.graphViews, (∃ V, s.recon.view v = some V) → v ∈ s.unlocalized ∨ v ∈ s.reconstructed) :
    ∃ s', Cleanup.cleanup s = .ok s' ∧ Cleaned r0 s s' := by
  obtain ⟨nv, nt, r', s', h1, h2, rfl, _, _, h4, h5, h6, _⟩ := C28_queue_partial s hg.reach hs
  obtain ⟨nv2, nt2, r2, g1, g2, g3, g4, _⟩ := C28_constrained_partial s.recon hg.reach
  rw [h1] at g1
  cases g1
  refine ⟨s', h2, ⟨g2, hg.same.trans (cleanupLoop_same _ h1), g4⟩, g3, h4, ?_, h6, fun v hv hn => (h5 v hv hn).1⟩
  unfold Cleanup.cleanup at h2
  rw [h1] at h2
  simp only at h2
  split at h2
  · have := requeue_perm _ h2
    exact this
  · have h2 := Outcome.ok.inj h2
    have a : s'.unlocalized = s.unlocalized := by rw [← h2]
    have b : s'.reconstructed = s.reconstructed := by rw [← h2]
    rw [a, b]

/-! ### All unestimated -/

theorem lowerAllTracks_ok (ts : List TrackId) : ∀ (r : Reconstruction F P), (∀ t ∈ ts, ∃ T, r.track t = some T) →
    ∃ r', lowerAllTracks ts r = .ok r' ∧ EstimatorUtils.TracksLowered r r' (fun t _ => t ∈ ts) := by
  induction ts with
  | nil => intro r _; exact ⟨r, rfl, EstimatorUtils.tracksLowered_refl r (by simp)⟩
  | cons t ts ih =>
    intro r hts
    obtain ⟨T, hT⟩ := hts t List.mem_cons_self
    rw [lowerAllTracks, hT]
    simp only
    split
    · obtain ⟨r1, h1, h2⟩ := EstimatorUtils.tracksLowered_set hT
      rw [h1]
      simp only [Outcome.ok_bind]
      obtain ⟨r2, h3, h4⟩ := ih r1 (by
        intro u hu
        obtain ⟨U, hU⟩ := hts u (List.mem_cons_of_mem _ hu)
        obtain ⟨b, hb, _⟩ := h2.tracks u U hU
        exact ⟨_, hb⟩)
      exact ⟨r2, h3, EstimatorUtils.tracksLowered_trans h2 h4 (fun u U b _ => List.mem_cons)⟩
    · next hne =>
      obtain ⟨r2, h3, h4⟩ := ih r (fun u hu => hts u (List.mem_cons_of_mem _ hu))
      refine ⟨r2, h3, h4.reach, h4.same, h4.views, ?_⟩
      intro u U hU
      obtain ⟨b, hb, hb'⟩ := h4.tracks u U hU
      refine ⟨b, hb, hb'.trans ?_⟩
      by_cases hut : u = t
      · subst hut
        rw [hT] at hU
        cases hU
        simp [hne]
      · simp [hut]

theorem lowerAllViews_ok (vs : List ViewId) : ∀ (r : Reconstruction F P), (∀ v ∈ vs, ∃ V, r.view v = some V) →
    ∃ r', lowerAllViews vs r = .ok r' ∧ (r.Reachable → r'.Reachable) ∧ SameStructure r r' ∧ r'.tracks = r.tracks ∧
      ∀ v V, r'.view v = some V → V.estimated = true → v ∉ vs ∧ r.view v = some V := by
  induction vs with
  | nil => intro r _; exact ⟨r, rfl, id, .refl r, rfl, fun v V hV _ => ⟨by simp, hV⟩⟩
  | cons v vs ih =>
    intro r hvs
    obtain ⟨V, hV⟩ := hvs v List.mem_cons_self
    rw [lowerAllViews, hV]
    simp only
    split
    · rw [EstimatorUtils.setViewEstimated_eq hV]
      simp only [Outcome.ok_bind]
      have hs := EstimatorUtils.same_insertView hV false
      obtain ⟨r2, h3, h4, h5, h6, h7⟩ := ih { r with views := r.views.insert v { V with estimated := false } } (by
        intro u hu
        obtain ⟨U, hU⟩ := hvs u (List.mem_cons_of_mem _ hu)
        obtain ⟨b, hb⟩ := hs.views u U hU
        exact ⟨_, hb⟩)
      refine ⟨r2, h3, fun h => h4 (Reconstruction.reachable_setViewEstimated h (EstimatorUtils.setViewEstimated_eq hV false)),
        hs.trans h5, h6, ?_⟩
      intro w W hW he
      obtain ⟨g1, g2⟩ := h7 w W hW he
      unfold Reconstruction.view at g2
      simp only [AMap.get_insert] at g2
      split at g2
      · cases g2; cases he
      · next hne => exact ⟨by simp [hne, g1], g2⟩
    · next hne =>
      obtain ⟨r2, h3, h4, h5, h6, h7⟩ := ih r (fun u hu => hvs u (List.mem_cons_of_mem _ hu))
      refine ⟨r2, h3, h4, h5, h6, fun w W hW he => ?_⟩
      obtain ⟨g1, g2⟩ := h7 w W hW he
      refine ⟨?_, g2⟩
      rw [List.mem_cons, not_or]
      refine ⟨?_, g1⟩
      rintro rfl
      rw [hV] at g2
      cases g2
      exact hne he

theorem setUnestimated_ok {r0 r : Reconstruction F P} (hr : r.Reachable) (hs : SameStructure r0 r) :
    ∃ r', setUnestimated r = .ok r' ∧ Good r0 r' ∧ (∀ v V, r'.view v = some V → V.estimated = false) ∧
      ∀ t T, r'.track t = some T → T.estimated = false := by
  obtain ⟨r1, h1, h2⟩ := lowerAllTracks_ok r.trackIds r (fun t ht => AMap.mem_keys_iff.1 ht)
  obtain ⟨r2, g1, g2, g3, g4, g5⟩ := lowerAllViews_ok r1.viewIds r1 (fun t ht => AMap.mem_keys_iff.1 ht)
  have ht : ∀ t T, r2.track t = some T → T.estimated = false := by
    intro t T hT
    have hT1 : r1.track t = some T := by unfold Reconstruction.track at *; rw [← g4]; exact hT
    obtain ⟨T0, hT0, _⟩ := h2.same.tracks_of hT1
    obtain ⟨b, hb, hb'⟩ := h2.tracks t T0 hT0
    rw [hT1] at hb
    have hb := Option.some.inj hb
    cases hbb : b with
    | true => exact absurd (AMap.mem_keys_iff.2 ⟨T0, hT0⟩) (hb'.1 hbb).2
    | false => rw [hb, hbb]
  refine ⟨r2, ?_, ⟨g2 (h2.reach hr), (hs.trans h2.same).trans g3, ?_⟩, ?_, ht⟩
  · rw [setUnestimated, h1]
    exact g1
  · intro t T hT he
    rw [ht t T hT] at he
    cases he
  · intro v V hV
    cases he : V.estimated with
    | false => rfl
    | true =>
      obtain ⟨a, b⟩ := g5 v V hV he
      exact absurd (AMap.mem_keys_iff.2 ⟨V, b⟩) a

end Incremental
end Theia
