import Verif.Model.Cleanup
import Verif.Spec.Cleanup
import Verif.Proof.Reconstruction

namespace Theia

open Spec

namespace Reconstruction

variable {F P : Type}

theorem reachable_step {r r' : Reconstruction F P} (h : r.Reachable) {op : Op F P} {a : Ret}
    (he : r.step op = .ok (a, r')) : r'.Reachable := by
  obtain ⟨ops, as, hrun⟩ := h
  refine ⟨ops ++ [op], as ++ [a], ?_⟩
  have : ∀ (ops : List (Op F P)) (r0 : Reconstruction F P) as, run r0 ops = .ok (as, r) →
      run r0 (ops ++ [op]) = .ok (as ++ [a], r') := by
    intro ops
    induction ops with
    | nil =>
      intro r0 as h
      simp only [run, Outcome.ok.injEq, Prod.mk.injEq] at h
      obtain ⟨rfl, rfl⟩ := h
      simp [run, he]
    | cons o ops ih =>
      intro r0 as h
      obtain ⟨a, r1, as', h1, h2, rfl⟩ := run_cons_ok h
      simp only [List.cons_append, run, h1, ih _ _ h2]
  exact this ops _ _ hrun

theorem reachable_setViewEstimated {r r' : Reconstruction F P} (h : r.Reachable) {v : ViewId} {b : Bool}
    (he : r.setViewEstimated v b = .ok r') : r'.Reachable :=
  reachable_step h (op := .setViewEstimated v b) (a := .unit) (by simp [step, he, Outcome.bind])

theorem reachable_setTrackEstimated {r r' : Reconstruction F P} (h : r.Reachable) {t : TrackId} {b : Bool}
    {p : P} (he : r.setTrackEstimated t b p = .ok r') : r'.Reachable :=
  reachable_step h (op := .setTrackEstimated t b p) (a := .unit) (by simp [step, he, Outcome.bind])

end Reconstruction

namespace Cleanup

variable {F P : Type}

/-- The view exists and is estimated. -/
def isEstView (r : Reconstruction F P) (v : ViewId) : Bool :=
  match r.view v with
  | some V => V.estimated
  | none => false

theorem countViews_ok {r : Reconstruction F P} (vs : List ViewId) : ∀ n, n < 2 →
    (∀ v ∈ vs, ∃ V, r.view v = some V) →
    ∃ m, countViews r vs n = .ok m ∧ (m < 2 ↔ n + (vs.filter (isEstView r)).length < 2) := by
  induction vs with
  | nil => intro n _ _; exact ⟨n, rfl, by simp⟩
  | cons v vs ih =>
    intro n hn h
    obtain ⟨V, hV⟩ := h v List.mem_cons_self
    have h' : ∀ w ∈ vs, ∃ W, r.view w = some W := fun w hw => h w (List.mem_cons_of_mem _ hw)
    rw [countViews, hV]
    simp only
    cases he : V.estimated with
    | false =>
      rw [List.filter_cons_of_neg (by unfold isEstView; rw [hV]; simp [he])]
      simp only [Bool.false_eq_true, if_false]
      rw [if_neg (by omega)]
      exact ih n hn h'
    | true =>
      rw [List.filter_cons_of_pos (by unfold isEstView; rw [hV]; exact he), List.length_cons]
      simp only [if_true]
      split
      · exact ⟨n + 1, rfl, by omega⟩
      · obtain ⟨m, h1, h2⟩ := ih (n + 1) (by omega) h'
        exact ⟨m, h1, by omega⟩

theorem countTracks_ok {r : Reconstruction F P} (ts : List TrackId) : ∀ n, n < 3 →
    (∀ t ∈ ts, ∃ T, r.track t = some T) →
    ∃ m, countTracks r ts n = .ok m ∧ (m < 3 ↔ n + (ts.filter (isEstimatedTrack r)).length < 3) := by
  induction ts with
  | nil => intro n _ _; exact ⟨n, rfl, by simp⟩
  | cons t ts ih =>
    intro n hn h
    obtain ⟨T, hT⟩ := h t List.mem_cons_self
    have h' : ∀ w ∈ ts, ∃ W, r.track w = some W := fun w hw => h w (List.mem_cons_of_mem _ hw)
    rw [countTracks, hT]
    simp only
    cases he : T.estimated with
    | false =>
      rw [List.filter_cons_of_neg (by unfold isEstimatedTrack; rw [hT]; simp [he])]
      simp only [Bool.false_eq_true, if_false]
      rw [if_neg (by omega)]
      exact ih n hn h'
    | true =>
      rw [List.filter_cons_of_pos (by unfold isEstimatedTrack; rw [hT]; exact he), List.length_cons]
      simp only [if_true]
      split
      · exact ⟨n + 1, rfl, by omega⟩
      · obtain ⟨m, h1, h2⟩ := ih (n + 1) (by omega) h'
        exact ⟨m, h1, by omega⟩

theorem isEstimatedTrack_congr {r r' : Reconstruction F P} (h : r'.tracks = r.tracks) :
    isEstimatedTrack r' = isEstimatedTrack r := by
  funext t
  unfold isEstimatedTrack Reconstruction.track
  rw [h]

theorem isEstView_congr {r r' : Reconstruction F P} (h : r'.views = r.views) : isEstView r' = isEstView r := by
  funext t
  unfold isEstView Reconstruction.view
  rw [h]

theorem estimatedTracksIn_congr {r r' : Reconstruction F P} (h : r'.tracks = r.tracks) (V : View F) :
    estimatedTracksIn r' V = estimatedTracksIn r V := by
  unfold estimatedTracksIn
  rw [isEstimatedTrack_congr h]

theorem estimatedObservers_congr {r r' : Reconstruction F P} (h : r'.views = r.views) (T : Track P) :
    estimatedObservers r' T = estimatedObservers r T := by
  change T.views.filter (isEstView r') = T.views.filter (isEstView r)
  rw [isEstView_congr h]

/-- What the pass over the views does. -/
structure ViewsDone (vs : List ViewId) (r r' : Reconstruction F P) (k : Nat) : Prop where
  reach : r'.Reachable
  tracks : r'.tracks = r.tracks
  keys : r'.views.keys = r.views.keys
  here : ∀ v V, r.view v = some V → ∃ b, r'.view v = some { V with estimated := b } ∧
    (b = true ↔ V.estimated = true ∧ (v ∈ vs → 3 ≤ (estimatedTracksIn r V).length))
  none : ∀ v, r.view v = none → r'.view v = none
  zero : k = 0 → ∀ v ∈ vs, ∀ V, r.view v = some V → V.estimated = true → 3 ≤ (estimatedTracksIn r V).length
  pos : k ≠ 0 → ∃ v ∈ vs, ∃ V, r.view v = some V ∧ V.estimated = true ∧ ¬ 3 ≤ (estimatedTracksIn r V).length

theorem viewsLoop_ok (vs : List ViewId) : ∀ (r : Reconstruction F P) c, r.Reachable → vs.Nodup →
    (∀ v ∈ vs, ∃ V, r.view v = some V) →
    ∃ k r', viewsLoop vs r c = .ok (c + k, r') ∧ ViewsDone vs r r' k := by
  induction vs with
  | nil =>
    intro r c hr _ _
    refine ⟨0, r, rfl, hr, rfl, rfl, ?_, fun _ h => h, by simp, by simp⟩
    intro v V hV
    exact ⟨V.estimated, hV, by simp⟩
  | cons v vs ih =>
    intro r c hr hnd hex
    obtain ⟨V, hV⟩ := hex v List.mem_cons_self
    have hnd' := List.nodup_cons.1 hnd
    have hex' : ∀ w ∈ vs, ∃ W, r.view w = some W := fun w hw => hex w (List.mem_cons_of_mem _ hw)
    have hinv := Reconstruction.inv_of_reachable hr
    have hkeep : (V.estimated = true → 3 ≤ (estimatedTracksIn r V).length) →
        ∃ k r', viewsLoop vs r c = .ok (c + k, r') ∧ ViewsDone (v :: vs) r r' k := by
      intro hgood
      obtain ⟨k, r', h1, h2⟩ := ih r c hr hnd'.2 hex'
      refine ⟨k, r', h1, h2.reach, h2.tracks, h2.keys, ?_, h2.none, ?_, ?_⟩
      · intro w W hW
        obtain ⟨b, hb, hb'⟩ := h2.here w W hW
        refine ⟨b, hb, ?_⟩
        rw [hb']
        by_cases hwv : w = v
        · subst hwv
          rw [hV] at hW
          cases hW
          simp only [List.mem_cons, true_or, forall_true_left]
          constructor
          · rintro ⟨a, _⟩; exact ⟨a, hgood a⟩
          · rintro ⟨a, b⟩; exact ⟨a, fun _ => b⟩
        · simp [hwv]
      · intro hk w hw W hW hWe
        rcases List.mem_cons.1 hw with rfl | hw
        · rw [hV] at hW; cases hW; exact hgood hWe
        · exact h2.zero hk w hw W hW hWe
      · intro hk
        obtain ⟨w, hw, rest⟩ := h2.pos hk
        exact ⟨w, List.mem_cons_of_mem _ hw, rest⟩
    rw [viewsLoop, hV]
    simp only
    split
    · next he =>
      obtain ⟨m, hm, hm'⟩ := countTracks_ok (r := r) V.trackIds 0 (by omega) (by
        intro t ht
        obtain ⟨T, hT, _⟩ := (hinv.sym v t).1 ⟨V, hV, ht⟩
        exact ⟨T, hT⟩)
      rw [hm]
      simp only
      rw [Nat.zero_add] at hm'
      change m < 3 ↔ (estimatedTracksIn r V).length < 3 at hm'
      split
      · next hlt =>
        have hset : r.setViewEstimated v false =
            .ok { r with views := r.views.insert v { V with estimated := false } } := by
          unfold Reconstruction.setViewEstimated
          rw [show r.views.get v = some V from hV]
        rw [hset]
        simp only
        have hreach := Reconstruction.reachable_setViewEstimated hr hset
        have hview : ∀ w, ({ r with views := r.views.insert v { V with estimated := false } } :
            Reconstruction F P).view w = if w = v then some { V with estimated := false } else r.view w := by
          intro w
          exact AMap.get_insert _ _ _ _
        obtain ⟨k, r', h1, h2⟩ := ih _ (c + 1) hreach hnd'.2 (by
          intro w hw
          rw [hview]
          split
          · exact ⟨_, rfl⟩
          · exact hex' w hw)
        refine ⟨k + 1, r', by rw [h1]; congr 2; omega, h2.reach, h2.tracks, ?_, ?_, ?_, by omega, ?_⟩
        · rw [h2.keys]
          simp only [AMap.keys_insert]
          exact if_pos (AMap.mem_keys_iff.2 ⟨V, hV⟩)
        · intro w W hW
          by_cases hwv : w = v
          · subst hwv
            rw [hV] at hW
            cases hW
            obtain ⟨b, hb, hb'⟩ := h2.here w _ (by rw [hview, if_pos rfl])
            refine ⟨b, hb, ?_⟩
            rw [hb']
            simp only [Bool.false_eq_true, false_and, List.mem_cons, true_or, forall_true_left, false_iff, not_and]
            intro _
            omega
          · obtain ⟨b, hb, hb'⟩ := h2.here w W (by rw [hview, if_neg hwv]; exact hW)
            refine ⟨b, hb, ?_⟩
            rw [hb', estimatedTracksIn_congr rfl]
            simp only [List.mem_cons, hwv, false_or]
            rfl
        · intro w hw
          apply h2.none
          rw [hview]
          split
          · next h => subst h; rw [hV] at hw; cases hw
          · exact hw
        · intro _
          exact ⟨v, List.mem_cons_self, V, hV, he, by omega⟩
      · next hge =>
        exact hkeep (fun _ => by omega)
    · next he => exact hkeep (fun h => absurd h he)

/-- What the pass over the tracks does. -/
structure TracksDone (ts : List TrackId) (r r' : Reconstruction F P) (k : Nat) : Prop where
  reach : r'.Reachable
  views : r'.views = r.views
  here : ∀ t T, r.track t = some T → ∃ b, r'.track t = some { T with estimated := b } ∧
    (b = true ↔ T.estimated = true ∧ (t ∈ ts → 2 ≤ (estimatedObservers r T).length))
  none : ∀ t, r.track t = none → r'.track t = none
  zero : k = 0 → ∀ t ∈ ts, ∀ T, r.track t = some T → T.estimated = true → 2 ≤ (estimatedObservers r T).length

theorem tracksLoop_ok (ts : List TrackId) : ∀ (r : Reconstruction F P) c, r.Reachable → ts.Nodup →
    (∀ t ∈ ts, ∃ T, r.track t = some T) →
    ∃ k r', tracksLoop ts r c = .ok (c + k, r') ∧ TracksDone ts r r' k := by
  induction ts with
  | nil =>
    intro r c hr _ _
    refine ⟨0, r, rfl, hr, rfl, ?_, fun _ h => h, by simp⟩
    intro t T hT
    exact ⟨T.estimated, hT, by simp⟩
  | cons t ts ih =>
    intro r c hr hnd hex
    obtain ⟨T, hT⟩ := hex t List.mem_cons_self
    have hnd' := List.nodup_cons.1 hnd
    have hex' : ∀ w ∈ ts, ∃ W, r.track w = some W := fun w hw => hex w (List.mem_cons_of_mem _ hw)
    have hinv := Reconstruction.inv_of_reachable hr
    have hkeep : (T.estimated = true → 2 ≤ (estimatedObservers r T).length) →
        ∃ k r', tracksLoop ts r c = .ok (c + k, r') ∧ TracksDone (t :: ts) r r' k := by
      intro hgood
      obtain ⟨k, r', h1, h2⟩ := ih r c hr hnd'.2 hex'
      refine ⟨k, r', h1, h2.reach, h2.views, ?_, h2.none, ?_⟩
      · intro w W hW
        obtain ⟨b, hb, hb'⟩ := h2.here w W hW
        refine ⟨b, hb, ?_⟩
        rw [hb']
        by_cases hwv : w = t
        · subst hwv
          rw [hT] at hW
          cases hW
          simp only [List.mem_cons, true_or, forall_true_left]
          constructor
          · rintro ⟨a, _⟩; exact ⟨a, hgood a⟩
          · rintro ⟨a, b⟩; exact ⟨a, fun _ => b⟩
        · simp [hwv]
      · intro hk w hw W hW hWe
        rcases List.mem_cons.1 hw with rfl | hw
        · rw [hT] at hW; cases hW; exact hgood hWe
        · exact h2.zero hk w hw W hW hWe
    rw [tracksLoop, hT]
    simp only
    split
    · next he =>
      obtain ⟨m, hm, hm'⟩ := countViews_ok (r := r) T.views 0 (by omega) (by
        intro v hv
        obtain ⟨V, hV, _⟩ := (hinv.sym v t).2 ⟨T, hT, hv⟩
        exact ⟨V, hV⟩)
      rw [hm]
      simp only
      rw [Nat.zero_add] at hm'
      change m < 2 ↔ (estimatedObservers r T).length < 2 at hm'
      split
      · next hlt =>
        have hset : r.setTrackEstimated t false T.payload =
            .ok { r with tracks := r.tracks.insert t { T with estimated := false } } := by
          unfold Reconstruction.setTrackEstimated
          rw [show r.tracks.get t = some T from hT]
        rw [hset]
        simp only
        have hreach := Reconstruction.reachable_setTrackEstimated hr hset
        have hview : ∀ w, ({ r with tracks := r.tracks.insert t { T with estimated := false } } :
            Reconstruction F P).track w = if w = t then some { T with estimated := false } else r.track w := by
          intro w
          exact AMap.get_insert _ _ _ _
        obtain ⟨k, r', h1, h2⟩ := ih _ (c + 1) hreach hnd'.2 (by
          intro w hw
          rw [hview]
          split
          · exact ⟨_, rfl⟩
          · exact hex' w hw)
        refine ⟨k + 1, r', by rw [h1]; congr 2; omega, h2.reach, h2.views, ?_, ?_, by omega⟩
        · intro w W hW
          by_cases hwv : w = t
          · subst hwv
            rw [hT] at hW
            cases hW
            obtain ⟨b, hb, hb'⟩ := h2.here w _ (by rw [hview, if_pos rfl])
            refine ⟨b, hb, ?_⟩
            rw [hb']
            simp only [Bool.false_eq_true, false_and, List.mem_cons, true_or, forall_true_left, false_iff, not_and]
            intro _
            omega
          · obtain ⟨b, hb, hb'⟩ := h2.here w W (by rw [hview, if_neg hwv]; exact hW)
            refine ⟨b, hb, ?_⟩
            rw [hb', estimatedObservers_congr rfl]
            simp only [List.mem_cons, hwv, false_or]
            rfl
        · intro w hw
          apply h2.none
          rw [hview]
          split
          · next h => subst h; rw [hT] at hw; cases hw
          · exact hw
      · next hge =>
        exact hkeep (fun _ => by omega)
    · next he => exact hkeep (fun h => absurd h he)

theorem viewsPass_ok {r : Reconstruction F P} (hr : r.Reachable) :
    ∃ k r', viewsPass r = .ok (k, r') ∧ ViewsDone r.viewIds r r' k := by
  obtain ⟨k, r', h1, h2⟩ := viewsLoop_ok r.viewIds r 0 hr (Reconstruction.inv_of_reachable hr).wfViews
    (fun v hv => AMap.mem_keys_iff.1 hv)
  exact ⟨k, r', by rw [viewsPass, h1, Nat.zero_add], h2⟩

theorem tracksPass_ok {r : Reconstruction F P} (hr : r.Reachable) :
    ∃ k r', tracksPass r = .ok (k, r') ∧ TracksDone r.trackIds r r' k := by
  obtain ⟨k, r', h1, h2⟩ := tracksLoop_ok r.trackIds r 0 hr (Reconstruction.inv_of_reachable hr).wfTracks
    (fun v hv => AMap.mem_keys_iff.1 hv)
  exact ⟨k, r', by rw [tracksPass, h1, Nat.zero_add], h2⟩

theorem mem_viewIds {r : Reconstruction F P} {v : ViewId} {V : View F} (h : r.view v = some V) :
    v ∈ r.viewIds := AMap.mem_keys_iff.2 ⟨V, h⟩

theorem mem_trackIds {r : Reconstruction F P} {t : TrackId} {T : Track P} (h : r.track t = some T) :
    t ∈ r.trackIds := AMap.mem_keys_iff.2 ⟨T, h⟩

theorem lowered_refl (r : Reconstruction F P) : Lowered r r :=
  ⟨fun _ V h => ⟨V.estimated, h, id⟩, fun _ h => h, fun _ T h => ⟨T.estimated, h, id⟩, fun _ h => h⟩

theorem lowered_trans {r r' r'' : Reconstruction F P} (h : Lowered r r') (h' : Lowered r' r'') :
    Lowered r r'' := by
  obtain ⟨a1, a2, a3, a4⟩ := h
  obtain ⟨b1, b2, b3, b4⟩ := h'
  refine ⟨?_, fun v hv => b2 v (a2 v hv), ?_, fun t ht => b4 t (a4 t ht)⟩
  · intro v V hV
    obtain ⟨b, h1, h2⟩ := a1 v V hV
    obtain ⟨c, h3, h4⟩ := b1 v _ h1
    exact ⟨c, h3, fun hc => h2 (h4 hc)⟩
  · intro v V hV
    obtain ⟨b, h1, h2⟩ := a3 v V hV
    obtain ⟨c, h3, h4⟩ := b3 v _ h1
    exact ⟨c, h3, fun hc => h2 (h4 hc)⟩

theorem ViewsDone.lowered {vs : List ViewId} {r r' : Reconstruction F P} {k : Nat} (h : ViewsDone vs r r' k) :
    Lowered r r' := by
  refine ⟨?_, h.none, ?_, ?_⟩
  · intro v V hV
    obtain ⟨b, h1, h2⟩ := h.here v V hV
    exact ⟨b, h1, fun hb => (h2.1 hb).1⟩
  · intro t T hT
    exact ⟨T.estimated, by unfold Reconstruction.track; rw [h.tracks]; exact hT, id⟩
  · intro t hT
    unfold Reconstruction.track; rw [h.tracks]; exact hT

theorem TracksDone.lowered {ts : List TrackId} {r r' : Reconstruction F P} {k : Nat} (h : TracksDone ts r r' k) :
    Lowered r r' := by
  refine ⟨?_, ?_, ?_, h.none⟩
  · intro t T hT
    exact ⟨T.estimated, by unfold Reconstruction.view; rw [h.views]; exact hT, id⟩
  · intro t hT
    unfold Reconstruction.view; rw [h.views]; exact hT
  · intro v V hV
    obtain ⟨b, h1, h2⟩ := h.here v V hV
    exact ⟨b, h1, fun hb => (h2.1 hb).1⟩

theorem core_enough_views {r : Reconstruction F P} {S : List ViewId} {U : List TrackId} (h : Core r S U)
    {v : ViewId} (hv : v ∈ S) {V : View F} (hV : r.view v = some V) :
    V.estimated = true ∧ 3 ≤ (V.trackIds.filter fun t => decide (t ∈ U)).length ∧
      3 ≤ (estimatedTracksIn r V).length := by
  obtain ⟨V', hV', he, hn⟩ := h.1 v hv
  rw [hV] at hV'
  cases hV'
  refine ⟨he, hn, hn.trans ?_⟩
  unfold estimatedTracksIn
  rw [← List.countP_eq_length_filter, ← List.countP_eq_length_filter]
  apply List.countP_mono_left
  intro t _ ht
  obtain ⟨T, hT, hTe, _⟩ := h.2 t (of_decide_eq_true ht)
  unfold isEstimatedTrack
  rw [hT]
  exact hTe

theorem core_enough_tracks {r : Reconstruction F P} {S : List ViewId} {U : List TrackId} (h : Core r S U)
    {t : TrackId} (ht : t ∈ U) {T : Track P} (hT : r.track t = some T) :
    T.estimated = true ∧ 2 ≤ (T.views.filter fun v => decide (v ∈ S)).length ∧
      2 ≤ (estimatedObservers r T).length := by
  obtain ⟨T', hT', he, hn⟩ := h.2 t ht
  rw [hT] at hT'
  cases hT'
  refine ⟨he, hn, hn.trans ?_⟩
  unfold estimatedObservers
  rw [← List.countP_eq_length_filter, ← List.countP_eq_length_filter]
  apply List.countP_mono_left
  intro v _ hv
  obtain ⟨V, hV, hVe, _⟩ := h.1 v (of_decide_eq_true hv)
  rw [hV]
  exact hVe

theorem ViewsDone.core {vs : List ViewId} {r r' : Reconstruction F P} {k : Nat} (h : ViewsDone vs r r' k)
    {S : List ViewId} {U : List TrackId} (hc : Core r S U) : Core r' S U := by
  constructor
  · intro v hv
    obtain ⟨V, hV, _, _⟩ := hc.1 v hv
    obtain ⟨he, hn, hn'⟩ := core_enough_views hc hv hV
    obtain ⟨b, h1, h2⟩ := h.here v V hV
    exact ⟨_, h1, h2.2 ⟨he, fun _ => hn'⟩, hn⟩
  · intro t ht
    obtain ⟨T, hT, he, hn⟩ := hc.2 t ht
    exact ⟨T, by unfold Reconstruction.track; rw [h.tracks]; exact hT, he, hn⟩

theorem TracksDone.core {ts : List TrackId} {r r' : Reconstruction F P} {k : Nat} (h : TracksDone ts r r' k)
    {S : List ViewId} {U : List TrackId} (hc : Core r S U) : Core r' S U := by
  constructor
  · intro v hv
    obtain ⟨V, hV, he, hn⟩ := hc.1 v hv
    exact ⟨V, by unfold Reconstruction.view; rw [h.views]; exact hV, he, hn⟩
  · intro t ht
    obtain ⟨T, hT, _, _⟩ := hc.2 t ht
    obtain ⟨he, hn, hn'⟩ := core_enough_tracks hc ht hT
    obtain ⟨b, h1, h2⟩ := h.here t T hT
    exact ⟨_, h1, h2.2 ⟨he, fun _ => hn'⟩, hn⟩

theorem TracksDone.constrained {r r' : Reconstruction F P} {k : Nat} (h : TracksDone r.trackIds r r' k) :
    TracksConstrained r' := by
  intro t T' hT' he
  cases hT : r.track t with
  | none => rw [h.none t hT] at hT'; cases hT'
  | some T =>
    obtain ⟨b, h1, h2⟩ := h.here t T hT
    rw [h1] at hT'
    cases hT'
    have := (h2.1 he).2 (mem_trackIds hT)
    rw [estimatedObservers_congr h.views]
    exact this

theorem ViewsDone.constrained {r r' : Reconstruction F P} {k : Nat} (h : ViewsDone r.viewIds r r' k) :
    ViewsConstrained r' := by
  intro v V' hV' he
  cases hV : r.view v with
  | none => rw [h.none v hV] at hV'; cases hV'
  | some V =>
    obtain ⟨b, h1, h2⟩ := h.here v V hV
    rw [h1] at hV'
    cases hV'
    have := (h2.1 he).2 (mem_viewIds hV)
    rw [estimatedTracksIn_congr h.tracks]
    exact this

theorem TracksDone.same {r r' : Reconstruction F P} {k : Nat} (h : TracksDone r.trackIds r r' k) (hk : k = 0)
    (t : TrackId) : r'.track t = r.track t := by
  cases hT : r.track t with
  | none => exact h.none t hT
  | some T =>
    obtain ⟨b, h1, h2⟩ := h.here t T hT
    rw [h1]
    congr
    have hz := h.zero hk t (mem_trackIds hT) T hT
    cases hb : b with
    | false =>
      cases he : T.estimated with
      | false => rfl
      | true => exact absurd (h2.2 ⟨he, fun _ => hz he⟩) (by simp [hb])
    | true => exact ((h2.1 hb).1).symm

theorem countP_lt {α : Type} {p q : α → Bool} (l : List α) (h : ∀ x ∈ l, p x = true → q x = true)
    (h' : ∃ x ∈ l, q x = true ∧ p x ≠ true) : l.countP p < l.countP q := by
  induction l with
  | nil => obtain ⟨x, hx, _⟩ := h'; simp at hx
  | cons a l ih =>
    have hl : ∀ x ∈ l, p x = true → q x = true := fun x hx => h x (List.mem_cons_of_mem _ hx)
    have hmono := List.countP_mono_left hl
    have ha := h a List.mem_cons_self
    rw [List.countP_cons, List.countP_cons]
    obtain ⟨x, hx, hq, hp⟩ := h'
    rcases List.mem_cons.1 hx with rfl | hx
    · rw [if_neg hp, if_pos hq]; omega
    · have := ih hl ⟨x, hx, hq, hp⟩
      by_cases hpa : p a = true
      · rw [if_pos hpa, if_pos (ha hpa)]; omega
      · rw [if_neg hpa]; omega

theorem isEstView_mono {r r' : Reconstruction F P} (h : Lowered r r') {v : ViewId}
    (hv : isEstView r' v = true) : isEstView r v = true := by
  unfold isEstView at hv ⊢
  cases hV : r.view v with
  | none => rw [h.2.1 v hV] at hv; cases hv
  | some V =>
    obtain ⟨b, h1, h2⟩ := h.1 v V hV
    rw [h1] at hv
    exact h2 hv

/-- What the loop ends with. -/
structure LoopDone (r : Reconstruction F P) (nv nt : Nat) (r' : Reconstruction F P) : Prop where
  reach : r'.Reachable
  lowered : Lowered r r'
  tracks : TracksConstrained r'
  views : nt = 0 → ViewsConstrained r'
  core : ∀ S U, Core r S U → Core r' S U
  stop : nv = 0 ∨ nt = 0

theorem loop_ok (k : Nat) : ∀ (r : Reconstruction F P), r.Reachable →
    r.viewIds.countP (isEstView r) < k →
    ∃ nv nt r', loop k r = .ok (nv, nt, r') ∧ LoopDone r nv nt r' := by
  induction k with
  | zero => intro r _ h; omega
  | succ k ih =>
    intro r hr hk
    obtain ⟨nv, r1, h1, d1⟩ := viewsPass_ok hr
    obtain ⟨nt, r2, h2, d2⟩ := tracksPass_ok d1.reach
    rw [loop, h1]
    simp only [h2]
    split
    · next hne =>
      have hdec : r2.viewIds.countP (isEstView r2) < r.viewIds.countP (isEstView r) := by
        have hk2 : r2.viewIds = r.viewIds := by
          unfold Reconstruction.viewIds
          rw [d2.views, d1.keys]
        rw [hk2, isEstView_congr d2.views]
        apply countP_lt
        · intro v _ hv
          exact isEstView_mono d1.lowered hv
        · obtain ⟨v, hv, V, hV, he, hn⟩ := d1.pos hne.1
          refine ⟨v, hv, by unfold isEstView; rw [hV]; exact he, ?_⟩
          obtain ⟨b, hb, hb'⟩ := d1.here v V hV
          unfold isEstView
          rw [hb]
          intro hbt
          exact hn ((hb'.1 hbt).2 hv)
      obtain ⟨nv', nt', r', h3, d3⟩ := ih r2 d2.reach (by omega)
      exact ⟨nv', nt', r', h3, d3.reach, lowered_trans (lowered_trans d1.lowered d2.lowered) d3.lowered,
        d3.tracks, d3.views, fun S U hc => d3.core S U (d2.core (d1.core hc)), d3.stop⟩
    · next hne =>
      refine ⟨nv, nt, r2, rfl, d2.reach, lowered_trans d1.lowered d2.lowered, d2.constrained, ?_,
        fun S U hc => d2.core (d1.core hc), by omega⟩
      intro hnt v V hV he
      have hv1 : r1.view v = some V := by unfold Reconstruction.view at hV ⊢; rw [← d2.views]; exact hV
      have := d1.constrained v V hv1 he
      have hc : isEstimatedTrack r2 = isEstimatedTrack r1 := by
        funext t
        unfold isEstimatedTrack
        rw [d2.same hnt t]
      unfold estimatedTracksIn at this ⊢
      rw [hc]
      exact this

/-- What queueing does to the two containers. -/
theorem requeue_ok (vs : List ViewId) : ∀ s : State F P,
    (∀ v ∈ vs, ∀ V, s.recon.view v = some V → V.estimated = false → v ∈ s.unlocalized ∨ v ∈ s.reconstructed) →
    ∃ s', requeue vs s = .ok s' ∧ s'.recon = s.recon ∧ s'.graphViews = s.graphViews ∧
      (∀ v ∈ s.unlocalized, v ∈ s'.unlocalized) ∧
      (∀ v ∈ s'.unlocalized, v ∈ s.unlocalized ∨
        (v ∈ vs ∧ ∃ V, s.recon.view v = some V ∧ V.estimated = false)) ∧
      (∀ v ∈ vs, ∀ V, s.recon.view v = some V → V.estimated = false → v ∈ s'.unlocalized) ∧
      (∀ v, v ∈ s.reconstructed → v ∈ s'.reconstructed ∨ v ∈ s'.unlocalized) ∧
      (∀ v, v ∈ s'.reconstructed → v ∈ s.reconstructed) ∧
      (∀ v, v ∉ s.unlocalized → v ∈ s'.unlocalized → s'.reconstructed.count v + 1 = s.reconstructed.count v) ∧
      (∀ v ∈ s.unlocalized, s'.reconstructed.count v = s.reconstructed.count v) ∧
      ((s'.reconstructed.length : Int) - s'.numOptimized = s.reconstructed.length - s.numOptimized) := by
  induction vs with
  | nil =>
    intro s _
    exact ⟨s, rfl, rfl, rfl, fun _ h => h, fun _ h => Or.inl h, by simp, fun _ h => Or.inl h, fun _ h => h,
      fun v h h' => absurd h' h, fun _ _ => rfl, rfl⟩
  | cons v vs ih =>
    intro s h
    have hvs : ∀ w ∈ vs, ∀ V, s.recon.view w = some V → V.estimated = false →
        w ∈ s.unlocalized ∨ w ∈ s.reconstructed := fun w hw => h w (List.mem_cons_of_mem _ hw)
    have hskip : (∀ V, s.recon.view v = some V → V.estimated = false → v ∈ s.unlocalized) →
        ∃ s', requeue vs s = .ok s' ∧ s'.recon = s.recon ∧ s'.graphViews = s.graphViews ∧
        (∀ v ∈ s.unlocalized, v ∈ s'.unlocalized) ∧
        (∀ w ∈ s'.unlocalized, w ∈ s.unlocalized ∨
          (w ∈ v :: vs ∧ ∃ V, s.recon.view w = some V ∧ V.estimated = false)) ∧
        (∀ w ∈ v :: vs, ∀ V, s.recon.view w = some V → V.estimated = false → w ∈ s'.unlocalized) ∧
        (∀ v, v ∈ s.reconstructed → v ∈ s'.reconstructed ∨ v ∈ s'.unlocalized) ∧
        (∀ v, v ∈ s'.reconstructed → v ∈ s.reconstructed) ∧
        (∀ v, v ∉ s.unlocalized → v ∈ s'.unlocalized →
          s'.reconstructed.count v + 1 = s.reconstructed.count v) ∧
        (∀ v ∈ s.unlocalized, s'.reconstructed.count v = s.reconstructed.count v) ∧
        ((s'.reconstructed.length : Int) - s'.numOptimized = s.reconstructed.length - s.numOptimized) := by
      intro hv
      obtain ⟨s', h1, h2, h3, h4, h5, h6, h7, h8, h9, h11, h10⟩ := ih s hvs
      refine ⟨s', h1, h2, h3, h4, ?_, ?_, h7, h8, h9, h11, h10⟩
      · intro w hw
        rcases h5 w hw with h | ⟨h, h'⟩
        · exact Or.inl h
        · exact Or.inr ⟨List.mem_cons_of_mem _ h, h'⟩
      · intro w hw W hW hWe
        rcases List.mem_cons.1 hw with rfl | hw
        · exact h4 w (hv W hW hWe)
        · exact h6 w hw W hW hWe
    rw [requeue]
    cases hV : s.recon.view v with
    | none => exact hskip (fun V hV' => by rw [hV] at hV'; cases hV')
    | some V =>
      simp only
      split
      · next hc =>
        have hmem : v ∈ s.reconstructed := by
          rcases h v List.mem_cons_self V hV hc.1 with h | h
          · exact absurd h hc.2
          · exact h
        rw [if_pos hmem]
        obtain ⟨s', h1, h2, h3, h4, h5, h6, h7, h8, h9, h11, h10⟩ := ih
          { s with unlocalized := v :: s.unlocalized, reconstructed := s.reconstructed.erase v,
                   numOptimized := s.numOptimized - 1 } (by
          intro w hw W hW hWe
          by_cases hwv : w = v
          · exact Or.inl (by rw [hwv]; exact List.mem_cons_self)
          · rcases hvs w hw W hW hWe with h | h
            · exact Or.inl (List.mem_cons_of_mem _ h)
            · exact Or.inr ((List.mem_erase_of_ne hwv).2 h))
        simp only at h2 h3 h4 h5 h6 h7 h8 h9 h10 h11
        refine ⟨s', h1, h2, h3, fun w hw => h4 w (List.mem_cons_of_mem _ hw), ?_, ?_, ?_, ?_, ?_, ?_, ?_⟩
        · intro w hw
          rcases h5 w hw with h | ⟨h, h'⟩
          · rcases List.mem_cons.1 h with rfl | h
            · exact Or.inr ⟨List.mem_cons_self, V, hV, hc.1⟩
            · exact Or.inl h
          · exact Or.inr ⟨List.mem_cons_of_mem _ h, h'⟩
        · intro w hw W hW hWe
          rcases List.mem_cons.1 hw with rfl | hw
          · exact h4 w List.mem_cons_self
          · exact h6 w hw W hW hWe
        · intro w hw
          by_cases hwv : w = v
          · subst hwv; exact Or.inr (h4 w List.mem_cons_self)
          · exact h7 w ((List.mem_erase_of_ne hwv).2 hw)
        · intro w hw
          exact List.mem_of_mem_erase (h8 w hw)
        · intro w hw hw'
          by_cases hwv : w = v
          · subst hwv
            rw [h11 w List.mem_cons_self, List.count_erase_self]
            have := List.count_pos_iff.2 hmem
            omega
          · have := h9 w (by simp [hwv, hw]) hw'
            rw [this, List.count_erase_of_ne hwv]
        · intro w hw
          have hwv : w ≠ v := fun h => hc.2 (h ▸ hw)
          rw [h11 w (List.mem_cons_of_mem _ hw), List.count_erase_of_ne hwv]
        · rw [h10, List.length_erase_of_mem hmem]
          have := List.length_pos_of_mem hmem
          omega
      · next hc =>
        refine hskip (fun V' hV' he => ?_)
        rw [hV] at hV'
        cases hV'
        by_contra hn
        exact hc ⟨he, hn⟩

end Cleanup
end Theia
