import Mathlib.Data.List.Nodup
import Mathlib.Data.List.Pairwise
import Mathlib.Tactic.FieldSimp
import Mathlib.Tactic.Linarith
import Mathlib.Tactic.Ring
import Verif.Proof.Cleanup
import Verif.Proof.ViewGraph
import Verif.Spec.EstimatorUtils

namespace Theia

open Spec

namespace Spec.SameStructure

variable {F P : Type}

theorem refl (r : Reconstruction F P) : SameStructure r r :=
  ⟨fun _ => rfl, fun _ => rfl, fun _ => rfl, rfl, rfl, fun _ V h => ⟨V.estimated, h⟩,
    fun _ T h => ⟨T.estimated, T.payload, h⟩⟩

theorem trans {r1 r2 r3 : Reconstruction F P} (h : SameStructure r1 r2) (h' : SameStructure r2 r3) :
    SameStructure r1 r3 where
  names n := (h'.names n).trans (h.names n)
  groupOf v := (h'.groupOf v).trans (h.groupOf v)
  viewsInGroup g := (h'.viewsInGroup g).trans (h.viewsInGroup g)
  viewIds := h'.viewIds.trans h.viewIds
  trackIds := h'.trackIds.trans h.trackIds
  views v V hV := by
    obtain ⟨b, hb⟩ := h.views v V hV
    obtain ⟨b', hb'⟩ := h'.views v _ hb
    exact ⟨b', hb'⟩
  tracks t T hT := by
    obtain ⟨b, p, hb⟩ := h.tracks t T hT
    obtain ⟨b', p', hb'⟩ := h'.tracks t _ hb
    exact ⟨b', p', hb'⟩

/-- The other direction of `views`. -/
theorem views_of {r r' : Reconstruction F P} (h : SameStructure r r') {v : ViewId} {V' : View F}
    (hV : r'.view v = some V') : ∃ V, r.view v = some V ∧ V' = { V with estimated := V'.estimated } := by
  have : v ∈ r'.viewIds := AMap.mem_keys_iff.2 ⟨V', hV⟩
  rw [h.viewIds] at this
  obtain ⟨V, hV0⟩ := AMap.mem_keys_iff.1 this
  obtain ⟨b, hb⟩ := h.views v V hV0
  rw [hV] at hb
  cases Option.some.inj hb
  exact ⟨V, hV0, rfl⟩

theorem tracks_of {r r' : Reconstruction F P} (h : SameStructure r r') {t : TrackId} {T' : Track P}
    (hT : r'.track t = some T') :
    ∃ T, r.track t = some T ∧ T' = { T with estimated := T'.estimated, payload := T'.payload } := by
  have : t ∈ r'.trackIds := AMap.mem_keys_iff.2 ⟨T', hT⟩
  rw [h.trackIds] at this
  obtain ⟨T, hT0⟩ := AMap.mem_keys_iff.1 this
  obtain ⟨b, p, hb⟩ := h.tracks t T hT0
  rw [hT] at hb
  cases Option.some.inj hb
  exact ⟨T, hT0, rfl⟩

end Spec.SameStructure

namespace EstimatorUtils

variable {F P M O X N D I : Type}

/-- Setting a view's flag. -/
theorem setViewEstimated_eq {r : Reconstruction F P} {v : ViewId} {V : View F} (hV : r.view v = some V) (b : Bool) :
    r.setViewEstimated v b = .ok { r with views := r.views.insert v { V with estimated := b } } := by
  unfold Reconstruction.setViewEstimated
  have : r.views.get v = some V := hV
  rw [this]

theorem setTrackEstimated_eq {r : Reconstruction F P} {t : TrackId} {T : Track P} (hT : r.track t = some T) (b : Bool)
    (p : P) :
    r.setTrackEstimated t b p = .ok { r with tracks := r.tracks.insert t { T with estimated := b, payload := p } } := by
  unfold Reconstruction.setTrackEstimated
  have : r.tracks.get t = some T := hT
  rw [this]

theorem same_insertView {r : Reconstruction F P} {v : ViewId} {V : View F} (hV : r.view v = some V) (b : Bool) :
    SameStructure r { r with views := r.views.insert v { V with estimated := b } } where
  names _ := rfl
  groupOf _ := rfl
  viewsInGroup _ := rfl
  viewIds := CC.keys_insert_of_mem _ _ (AMap.mem_keys_iff.2 ⟨V, hV⟩)
  trackIds := rfl
  views w W hW := by
    unfold Reconstruction.view at *
    rw [AMap.get_insert]
    by_cases h : w = v
    · subst h
      rw [hV] at hW
      cases Option.some.inj hW
      exact ⟨b, by simp⟩
    · rw [if_neg h]
      exact ⟨W.estimated, hW⟩
  tracks t T hT := ⟨T.estimated, T.payload, hT⟩

theorem same_insertTrack {r : Reconstruction F P} {t : TrackId} {T : Track P} (hT : r.track t = some T) (b : Bool)
    (p : P) : SameStructure r { r with tracks := r.tracks.insert t { T with estimated := b, payload := p } } where
  names _ := rfl
  groupOf _ := rfl
  viewsInGroup _ := rfl
  viewIds := rfl
  trackIds := CC.keys_insert_of_mem _ _ (AMap.mem_keys_iff.2 ⟨T, hT⟩)
  views v V hV := ⟨V.estimated, hV⟩
  tracks u U hU := by
    unfold Reconstruction.track at *
    rw [AMap.get_insert]
    by_cases h : u = t
    · subst h
      rw [hT] at hU
      cases Option.some.inj hU
      exact ⟨b, p, by simp⟩
    · rw [if_neg h]
      exact ⟨U.estimated, U.payload, hU⟩

theorem same_setView {r r' : Reconstruction F P} {v : ViewId} {b : Bool} (h : r.setViewEstimated v b = .ok r') :
    SameStructure r r' := by
  cases hV : r.view v with
  | none =>
    unfold Reconstruction.setViewEstimated at h
    have : r.views.get v = none := hV
    rw [this] at h
    cases h
  | some V =>
    rw [setViewEstimated_eq hV] at h
    cases Outcome.ok.inj h
    exact same_insertView hV b

theorem same_setTrack {r r' : Reconstruction F P} {t : TrackId} {b : Bool} {p : P}
    (h : r.setTrackEstimated t b p = .ok r') : SameStructure r r' := by
  cases hT : r.track t with
  | none =>
    unfold Reconstruction.setTrackEstimated at h
    have : r.tracks.get t = none := hT
    rw [this] at h
    cases h
  | some T =>
    rw [setTrackEstimated_eq hT] at h
    cases Outcome.ok.inj h
    exact same_insertTrack hT b p

/-- What the clean-up of tracks does: the flags of some tracks are lowered. -/
structure TracksLowered (r r' : Reconstruction F P) (low : TrackId → Track P → Prop) : Prop where
  reach : r.Reachable → r'.Reachable
  same : SameStructure r r'
  views : r'.views = r.views
  tracks : ∀ t T, r.track t = some T → ∃ b, r'.track t = some { T with estimated := b } ∧
    (b = true ↔ T.estimated = true ∧ ¬ low t T)

theorem tracksLowered_refl (r : Reconstruction F P) {low : TrackId → Track P → Prop} (h : ∀ t T, ¬ low t T) :
    TracksLowered r r low :=
  ⟨fun h => h, .refl r, rfl, fun t T hT => ⟨T.estimated, hT, by simp [h t T]⟩⟩

/-- One track set to unestimated. -/
theorem tracksLowered_set {r : Reconstruction F P} {t : TrackId} {T : Track P} (hT : r.track t = some T) :
    ∃ r', r.setTrackEstimated t false T.payload = .ok r' ∧ TracksLowered r r' (fun u _ => u = t) := by
  refine ⟨_, setTrackEstimated_eq hT _ _, fun h => ?_, same_insertTrack hT _ _, rfl, ?_⟩
  · exact Reconstruction.reachable_setTrackEstimated h (setTrackEstimated_eq hT _ _)
  · intro u U hU
    unfold Reconstruction.track at *
    simp only [AMap.get_insert]
    by_cases hut : u = t
    · subst hut
      rw [hT] at hU
      cases Option.some.inj hU
      exact ⟨false, by simp, by simp⟩
    · rw [if_neg hut]
      exact ⟨U.estimated, hU, by simp [hut]⟩

theorem tracksLowered_trans {r1 r2 r3 : Reconstruction F P} {low1 low2 low : TrackId → Track P → Prop}
    (h : TracksLowered r1 r2 low1) (h' : TracksLowered r2 r3 low2)
    (hlow : ∀ t T b, r1.track t = some T → (low t T ↔ low1 t T ∨ low2 t { T with estimated := b })) : TracksLowered r1 r3 low where
  reach hr := h'.reach (h.reach hr)
  same := h.same.trans h'.same
  views := h'.views.trans h.views
  tracks t T hT := by
    obtain ⟨b, hb, hb'⟩ := h.tracks t T hT
    obtain ⟨c, hc, hc'⟩ := h'.tracks t _ hb
    refine ⟨c, hc, ?_⟩
    rw [hc', hlow t T b hT]
    simp only at hb' ⊢
    rw [hb']
    tauto

theorem TracksLowered.estimatedObservers {r r' : Reconstruction F P} {low : TrackId → Track P → Prop}
    (h : TracksLowered r r' low) (T : Track P) : estimatedObservers r' T = estimatedObservers r T :=
  Cleanup.estimatedObservers_congr h.views T

/-! ### Outliers -/

theorem sufficient_eq_false (geo : OutlierGeometry F P D) (ds : List D) :
    sufficient geo ds = false ↔ ds.Pairwise fun a b => geo.wide a b = false := by
  induction ds with
  | nil => simp [sufficient]
  | cons d ds ih => simp [sufficient, ih]

theorem observe_ok (geo : OutlierGeometry F P D) {r : Reconstruction F P} (hr : r.Inv) {t : TrackId} {T : Track P}
    (hT : r.track t = some T) (p : P) (vs : List ViewId) : ∀ a, (∀ v ∈ vs, v ∈ T.views) →
    observe geo r t p vs a = .ok (if ∃ v ∈ vs.filter (Cleanup.isEstView r), geo.depth v p < 0 then none else
      some ⟨a.directions ++ (vs.filter (Cleanup.isEstView r)).map (geo.direction · p),
        a.projections + (vs.filter (Cleanup.isEstView r)).length,
        a.error + ((vs.filter (Cleanup.isEstView r)).map (squaredError geo r t p)).sum⟩) := by
  induction vs with
  | nil => intro a _; simp [observe]
  | cons v vs ih =>
    intro a hv
    have hvs : ∀ w ∈ vs, w ∈ T.views := fun w hw => hv w (List.mem_cons_of_mem _ hw)
    obtain ⟨V, hV, hf⟩ := (hr.sym v t).2 ⟨T, hT, hv v List.mem_cons_self⟩
    have hV' : r.view v = some V := hV
    obtain ⟨f, hf⟩ := AMap.mem_keys_iff.1 hf
    have hgf : V.getFeature t = some f := hf
    rw [observe, hV']
    simp only
    cases he : V.estimated with
    | false =>
      rw [List.filter_cons_of_neg (by unfold Cleanup.isEstView; rw [hV']; simp [he])]
      simpa using ih a hvs
    | true =>
      rw [List.filter_cons_of_pos (by unfold Cleanup.isEstView; rw [hV']; exact he)]
      simp only [if_true, List.mem_cons, exists_eq_or_imp, List.map_cons, List.sum_cons, List.length_cons]
      by_cases hd : geo.depth v p < 0
      · simp [hd]
      · have hsq : squaredError geo r t p v = geo.sqError v f p := by
          unfold squaredError; rw [hV']; simp only; rw [hgf]
        simp only [hd, if_false, false_or, hgf]
        rw [ih _ hvs, hsq]
        congr 2
        simp only [Option.some.injEq, Accumulator.mk.injEq]
        exact ⟨by simp, by omega, by ring⟩

theorem rejected_iff (geo : OutlierGeometry F P D) (hsym : ∀ a b, geo.wide a b = geo.wide b a) (maxError : ℚ)
    {r : Reconstruction F P} (hr : r.Inv) {t : TrackId} {T : Track P} (hT : r.track t = some T) :
    ∃ a, observe geo r t T.payload T.views ⟨[], 0, 0⟩ = .ok a ∧
      (rejected geo (maxError * maxError) a = true ↔ IsOutlier geo maxError r t T) := by
  refine ⟨_, observe_ok geo hr hT T.payload T.views _ (fun _ h => h), ?_⟩
  have hest : estimatedObservers r T = T.views.filter (Cleanup.isEstView r) := rfl
  have hnd : (T.views.filter (Cleanup.isEstView r)).Nodup := (hr.ndTrack t T hT).filter _
  unfold IsOutlier
  rw [hest]
  generalize T.views.filter (Cleanup.isEstView r) = vs at *
  by_cases h : ∃ v ∈ vs, geo.depth v T.payload < 0
  · rw [if_pos h]
    exact ⟨fun _ => Or.inl h, fun _ => rfl⟩
  · rw [if_neg h]
    simp only [rejected, h, false_or, List.nil_append, zero_add, Bool.or_eq_true, Bool.and_eq_true,
      Bool.not_eq_true', decide_eq_true_eq, ne_eq, sufficient_eq_false, List.pairwise_map]
    refine or_congr ?_ ?_
    · by_cases hl : vs.length = 0
      · simp [List.eq_nil_of_length_eq_zero hl]
      · have hp : (0 : ℚ) < vs.length := by exact_mod_cast Nat.pos_of_ne_zero hl
        rw [lt_div_iff₀ hp]
        simp only [hl, not_false_eq_true, true_and]
        rw [show maxError * maxError * (vs.length : ℚ) = vs.length * maxError ^ 2 by ring]
    · constructor
      · rintro h ⟨v, hv, w, hw, hne, hwide⟩
        have hs : ∀ x ∈ vs, ∀ y ∈ vs, x ≠ y → geo.wide (geo.direction x T.payload) (geo.direction y T.payload) = false := by
          intro x hx y hy hxy
          have : Std.Symm (fun a b : ViewId =>
              geo.wide (geo.direction a T.payload) (geo.direction b T.payload) = false) := ⟨fun a b hab => by
            rw [hsym]; exact hab⟩
          exact h.forall hx hy hxy
        rw [hs v hv w hw hne] at hwide
        cases hwide
      · intro h
        refine hnd.pairwise_of_forall_ne ?_
        intro v hv w hw hne
        by_contra hc
        exact h ⟨v, hv, w, hw, hne, by simpa using hc⟩

theorem isOutlier_congr {geo : OutlierGeometry F P D} {maxError : ℚ} {r r' : Reconstruction F P}
    (hv : r'.views = r.views) (t : TrackId) (T : Track P) (b : Bool) :
    IsOutlier geo maxError r' t { T with estimated := b } ↔ IsOutlier geo maxError r t T := by
  have h1 : estimatedObservers r' { T with estimated := b } = estimatedObservers r T := by
    rw [Cleanup.estimatedObservers_congr hv]; rfl
  have h2 : squaredError geo r' t T.payload = squaredError geo r t T.payload := by
    funext v
    unfold squaredError Reconstruction.view
    rw [hv]
  unfold IsOutlier
  rw [h1]
  simp only [h2]

open Classical in
theorem outlierLoop_ok (geo : OutlierGeometry F P D) (hsym : ∀ a b, geo.wide a b = geo.wide b a) (maxError : ℚ)
    (ts : List TrackId) : ∀ (r : Reconstruction F P) (n : Nat), r.Inv → ts.Nodup → (∀ t ∈ ts, ∃ T, r.track t = some T) →
    ∃ r', outlierLoop geo (maxError * maxError) ts r n = .ok (n + ts.countP (fun t =>
        (r.track t).any fun T => T.estimated && decide (IsOutlier geo maxError r t T)), r') ∧
      TracksLowered r r' (fun t T => t ∈ ts ∧ IsOutlier geo maxError r t T) := by
  induction ts with
  | nil =>
    intro r n _ _ _
    exact ⟨r, by simp [outlierLoop], tracksLowered_refl r (by simp)⟩
  | cons t ts ih =>
    intro r n hr hnd hts
    obtain ⟨T, hT⟩ := hts t List.mem_cons_self
    obtain ⟨hnt, hnd⟩ := List.nodup_cons.1 hnd
    have hts' : ∀ u ∈ ts, ∃ U, r.track u = some U := fun u hu => hts u (List.mem_cons_of_mem _ hu)
    rw [outlierLoop, hT]
    simp only
    have hskip : ¬ (T.estimated = true ∧ IsOutlier geo maxError r t T) →
        ∀ r', TracksLowered r r' (fun t T => t ∈ ts ∧ IsOutlier geo maxError r t T) →
        TracksLowered r r' (fun u T => u ∈ t :: ts ∧ IsOutlier geo maxError r u T) := by
      intro hn r' h
      refine ⟨h.reach, h.same, h.views, ?_⟩
      intro u U hU
      obtain ⟨b, hb, hb'⟩ := h.tracks u U hU
      refine ⟨b, hb, hb'.trans ?_⟩
      by_cases hut : u = t
      · subst hut
        rw [hT] at hU
        cases Option.some.inj hU
        simp only [List.mem_cons, true_or, true_and, hnt, false_and, not_false_eq_true, and_true]
        tauto
      · simp [List.mem_cons, hut]
    cases he : T.estimated with
    | false =>
      obtain ⟨r', h1, h2⟩ := ih r n hr hnd hts'
      refine ⟨r', ?_, hskip (by simp [he]) r' h2⟩
      simp only [Bool.false_eq_true, if_false, h1]
      rw [List.countP_cons_of_neg (by rw [hT]; simp [he])]
    | true =>
      obtain ⟨a, ha, hrej⟩ := rejected_iff geo hsym maxError hr hT
      simp only [if_true, ha]
      by_cases ho : IsOutlier geo maxError r t T
      · rw [if_pos (hrej.2 ho)]
        obtain ⟨r1, h1, d1⟩ := tracksLowered_set hT
        rw [h1]
        simp only
        have hinv : r1.Inv := Reconstruction.inv_setTrackEstimated hr h1
        obtain ⟨r', h2, d2⟩ := ih r1 (n + 1) hinv hnd (by
          intro u hu
          obtain ⟨U, hU⟩ := hts' u hu
          obtain ⟨b, hb, _⟩ := d1.tracks u U hU
          exact ⟨_, hb⟩)
        refine ⟨r', ?_, tracksLowered_trans d1 d2 ?_⟩
        · rw [h2, List.countP_cons_of_pos (by rw [hT]; simp [he, ho])]
          congr 2
          have : ts.countP (fun t => (r1.track t).any fun T => T.estimated && decide (IsOutlier geo maxError r1 t T)) =
              ts.countP (fun t => (r.track t).any fun T => T.estimated && decide (IsOutlier geo maxError r t T)) := by
            apply List.countP_congr
            intro u hu
            obtain ⟨U, hU⟩ := hts' u hu
            obtain ⟨b, hb, hb'⟩ := d1.tracks u U hU
            have hne : u ≠ t := fun h => hnt (h ▸ hu)
            have : b = U.estimated := by
              cases hUe : U.estimated <;> simp_all
            subst this
            rw [hU, hb]
            have := isOutlier_congr (geo := geo) (maxError := maxError) d1.views u U U.estimated
            simp only [Option.any_some, Bool.and_eq_true, decide_eq_true_eq]
            rw [show IsOutlier geo maxError r1 u U ↔ IsOutlier geo maxError r u U from this]
          rw [this]
          omega
        · intro u U b hU
          rw [isOutlier_congr d1.views u U b]
          simp only [List.mem_cons]
          constructor
          · rintro ⟨h | h, h'⟩
            · exact Or.inl h
            · exact Or.inr ⟨h, h'⟩
          · rintro (h | ⟨h, h'⟩)
            · subst h
              rw [hT] at hU
              cases Option.some.inj hU
              exact ⟨Or.inl rfl, ho⟩
            · exact ⟨Or.inr h, h'⟩
      · rw [if_neg (fun h => ho (hrej.1 h))]
        obtain ⟨r', h1, h2⟩ := ih r n hr hnd hts'
        refine ⟨r', ?_, hskip (fun h => ho h.2) r' h2⟩
        rw [h1, List.countP_cons_of_neg (by rw [hT]; simp [ho])]

/-! ### Other helpers -/

theorem lowerTracks_ok (keep : List TrackId) (ts : List TrackId) : ∀ (r : Reconstruction F P),
    ∃ r', lowerTracks keep ts r = .ok r' ∧ TracksLowered r r' (fun t _ => t ∈ ts ∧ t ∉ keep) := by
  induction ts with
  | nil => intro r; exact ⟨r, rfl, tracksLowered_refl r (by simp)⟩
  | cons t ts ih =>
    intro r
    rw [lowerTracks]
    have hskip : ∀ r', (t ∈ keep ∨ r.track t = none) → TracksLowered r r' (fun t _ => t ∈ ts ∧ t ∉ keep) →
        TracksLowered r r' (fun u _ => u ∈ t :: ts ∧ u ∉ keep) := by
      intro r' hn h
      refine ⟨h.reach, h.same, h.views, ?_⟩
      intro u U hU
      obtain ⟨b, hb, hb'⟩ := h.tracks u U hU
      refine ⟨b, hb, hb'.trans ?_⟩
      by_cases hut : u = t
      · subst hut
        rcases hn with hn | hn
        · simp [hn]
        · rw [hn] at hU; cases hU
      · simp [List.mem_cons, hut]
    cases hT : r.track t with
    | none =>
      obtain ⟨r', h1, h2⟩ := ih r
      exact ⟨r', h1, hskip r' (Or.inr hT) h2⟩
    | some T =>
      simp only
      split
      · next hk =>
        obtain ⟨r', h1, h2⟩ := ih r
        exact ⟨r', h1, hskip r' (Or.inl hk) h2⟩
      · next hk =>
        obtain ⟨r1, h1, d1⟩ := tracksLowered_set hT
        obtain ⟨r', h2, d2⟩ := ih r1
        refine ⟨r', by rw [h1]; exact h2, tracksLowered_trans d1 d2 ?_⟩
        intro u U b _
        simp only [List.mem_cons]
        constructor
        · rintro ⟨h | h, h'⟩
          · exact Or.inl h
          · exact Or.inr ⟨h, h'⟩
        · rintro (rfl | ⟨h, h'⟩)
          · exact ⟨Or.inl rfl, hk⟩
          · exact ⟨Or.inr h, h'⟩

theorem lowerTracksInViews_ok (keep : List TrackId) (vs : List ViewId) : ∀ (r : Reconstruction F P),
    ∃ r', lowerTracksInViews keep vs r = .ok r' ∧ TracksLowered r r' (fun t _ => t ∉ keep ∧
      ∃ v ∈ vs, ∃ V, r.view v = some V ∧ V.estimated = true ∧ t ∈ V.trackIds) := by
  induction vs with
  | nil => intro r; exact ⟨r, rfl, tracksLowered_refl r (by simp)⟩
  | cons v vs ih =>
    intro r
    rw [lowerTracksInViews]
    have hskip : ∀ r', (∀ V, r.view v = some V → V.estimated = false) →
        TracksLowered r r' (fun t _ => t ∉ keep ∧ ∃ v ∈ vs, ∃ V, r.view v = some V ∧ V.estimated = true ∧ t ∈ V.trackIds) →
        TracksLowered r r' (fun t _ => t ∉ keep ∧
          ∃ w ∈ v :: vs, ∃ V, r.view w = some V ∧ V.estimated = true ∧ t ∈ V.trackIds) := by
      intro r' hn h
      refine ⟨h.reach, h.same, h.views, ?_⟩
      intro u U hU
      obtain ⟨b, hb, hb'⟩ := h.tracks u U hU
      refine ⟨b, hb, hb'.trans ?_⟩
      have : ¬ ∃ V, r.view v = some V ∧ V.estimated = true ∧ u ∈ V.trackIds := by
        rintro ⟨V, hV, he, _⟩
        rw [hn V hV] at he
        cases he
      simp only [List.mem_cons, exists_eq_or_imp, this, false_or]
    cases hV : r.view v with
    | none =>
      obtain ⟨r', h1, h2⟩ := ih r
      exact ⟨r', h1, hskip r' (by simp [hV]) h2⟩
    | some V =>
      simp only
      split
      · next he =>
        obtain ⟨r1, h1, d1⟩ := lowerTracks_ok keep V.trackIds r
        obtain ⟨r', h2, d2⟩ := ih r1
        refine ⟨r', by rw [h1]; exact h2, tracksLowered_trans d1 d2 ?_⟩
        intro u U b _
        have hview : ∀ w, r1.view w = r.view w := fun w => by unfold Reconstruction.view; rw [d1.views]
        simp only [List.mem_cons, exists_eq_or_imp, hview, hV, Option.some.injEq, exists_eq_left']
        tauto
      · next he =>
        obtain ⟨r', h1, h2⟩ := ih r
        refine ⟨r', h1, hskip r' ?_ h2⟩
        intro W hW
        rw [hV] at hW
        cases Option.some.inj hW
        simpa using he

theorem foldl_count {α : Type} (f : α → Bool) (l : List α) : ∀ n, l.foldl (fun n a => if f a then n + 1 else n) n =
    n + l.countP f := by
  induction l with
  | nil => intro n; simp
  | cons a l ih =>
    intro n
    rw [List.foldl_cons, ih, List.countP_cons]
    split <;> omega

/-- What `SetReconstructionFromEstimatedPoses` changes. -/
structure PosesSet (orientations : AMap ViewId O) (ps : List (ViewId × X)) (s s' : Localize.Scene F P M O X) : Prop where
  reach : s.recon.Reachable → s'.recon.Reachable
  same : SameStructure s.recon s'.recon
  tracks : s'.recon.tracks = s.recon.tracks
  heap : s'.heap = s.heap
  set : ∀ v x o V, (v, x) ∈ ps → orientations.get v = some o → s.recon.view v = some V →
    s'.recon.view v = some { V with estimated := true } ∧ s'.orientation v = o ∧ s'.position v = x
  keep : ∀ v, (∀ x, (v, x) ∉ ps) ∨ orientations.get v = none ∨ s.recon.view v = none →
    s'.recon.view v = s.recon.view v ∧ s'.orientation v = s.orientation v ∧ s'.position v = s.position v

theorem setPoses_ok (orientations : AMap ViewId O) (ps : List (ViewId × X)) : ∀ (s : Localize.Scene F P M O X),
    (ps.map (·.1)).Nodup → (∀ v x V, (v, x) ∈ ps → s.recon.view v = some V → V.estimated = false) →
    ∃ s', setPoses orientations ps s = .ok s' ∧ PosesSet orientations ps s s' := by
  induction ps with
  | nil => intro s _ _; exact ⟨s, rfl, fun h => h, .refl _, rfl, rfl, by simp, fun _ _ => ⟨rfl, rfl, rfl⟩⟩
  | cons q ps ih =>
    obtain ⟨v, x⟩ := q
    intro s hnd hun
    rw [List.map_cons] at hnd
    obtain ⟨hnv, hnd⟩ := List.nodup_cons.1 hnd
    have hnx : ∀ y, (v, y) ∉ ps := fun y hy => hnv (List.mem_map.2 ⟨_, hy, rfl⟩)
    rw [setPoses]
    have hskip : ∀ s', (orientations.get v = none ∨ s.recon.view v = none) → PosesSet orientations ps s s' →
        PosesSet orientations ((v, x) :: ps) s s' := by
      intro s' hn h
      refine ⟨h.reach, h.same, h.tracks, h.heap, ?_, ?_⟩
      · intro w y o V hw ho hV
        rcases List.mem_cons.1 hw with hw | hw
        · cases hw
          rcases hn with hn | hn
          · rw [hn] at ho; cases ho
          · rw [hn] at hV; cases hV
        · exact h.set w y o V hw ho hV
      · intro w hw
        apply h.keep w
        rcases hw with hw | hw
        · exact Or.inl fun y hy => hw y (List.mem_cons_of_mem _ hy)
        · exact Or.inr hw
    have hun' : ∀ w y V, (w, y) ∈ ps → s.recon.view w = some V → V.estimated = false :=
      fun w y V hw => hun w y V (List.mem_cons_of_mem _ hw)
    cases hV : s.recon.view v with
    | none =>
      obtain ⟨s', h1, h2⟩ := ih s hnd hun'
      exact ⟨s', h1, hskip s' (Or.inr hV) h2⟩
    | some V =>
      simp only
      rw [if_neg (by rw [hun v x V List.mem_cons_self hV]; simp)]
      cases ho : orientations.get v with
      | none =>
        obtain ⟨s', h1, h2⟩ := ih s hnd hun'
        exact ⟨s', h1, hskip s' (Or.inl ho) h2⟩
      | some o =>
        simp only [setViewEstimated_eq hV]
        have hview : ∀ w, w ≠ v → (({ s.recon with views := s.recon.views.insert v { V with estimated := true } } :
            Reconstruction F P)).view w = s.recon.view w := by
          intro w hw
          unfold Reconstruction.view
          simp only [AMap.get_insert]
          rw [if_neg hw]
        have hviewv : (({ s.recon with views := s.recon.views.insert v { V with estimated := true } } :
            Reconstruction F P)).view v = some { V with estimated := true } := by
          unfold Reconstruction.view
          simp [AMap.get_insert]
        obtain ⟨s', h1, h2⟩ := ih { (s.setPosition v x).setOrientation v o with
          recon := { s.recon with views := s.recon.views.insert v { V with estimated := true } } } hnd (by
            intro w y W hw hW
            have hwv : w ≠ v := fun h => hnx y (h ▸ hw)
            simp only at hW
            rw [hview w hwv] at hW
            exact hun' w y W hw hW)
        obtain ⟨hk1, hk2, hk3⟩ := h2.keep v (Or.inl hnx)
        simp only at hk1
        rw [hviewv] at hk1
        refine ⟨s', h1, ?_, ?_, ?_, h2.heap, ?_, ?_⟩
        · intro hr
          exact h2.reach (Reconstruction.reachable_setViewEstimated hr (setViewEstimated_eq hV true))
        · exact (same_insertView hV true).trans h2.same
        · exact h2.tracks
        · intro w y o' W hw ho' hW
          rcases List.mem_cons.1 hw with hw | hw
          · cases hw
            rw [hV] at hW
            cases Option.some.inj hW
            rw [ho] at ho'
            cases Option.some.inj ho'
            refine ⟨hk1, ?_, ?_⟩
            · rw [hk2]; simp [Localize.Scene.setOrientation]
            · rw [hk3]; simp [Localize.Scene.setOrientation, Localize.Scene.setPosition]
          · have hwv : w ≠ v := fun h => hnx y (h ▸ hw)
            exact h2.set w y o' W hw ho' (by simp only; rw [hview w hwv]; exact hW)
        · intro w hw
          have hwv : w ≠ v := by
            rintro rfl
            rcases hw with hw | hw | hw
            · exact hw x List.mem_cons_self
            · rw [ho] at hw; cases hw
            · rw [hV] at hw; cases hw
          obtain ⟨g1, g2, g3⟩ := h2.keep w (by
            rcases hw with hw | hw | hw
            · exact Or.inl fun y hy => hw y (List.mem_cons_of_mem _ hy)
            · exact Or.inr (Or.inl hw)
            · exact Or.inr (Or.inr (by simp only; rw [hview w hwv]; exact hw)))
          refine ⟨?_, ?_, ?_⟩
          · rw [g1]; exact hview w hwv
          · rw [g2]; simp [Localize.Scene.setOrientation, Localize.Scene.setPosition, hwv]
          · rw [g3]; simp [Localize.Scene.setOrientation, Localize.Scene.setPosition, hwv]

/-- A view that is already estimated ends the program. -/
theorem setPoses_abort (orientations : AMap ViewId O) (ps : List (ViewId × X)) : ∀ (s : Localize.Scene F P M O X),
    (∃ v x V, (v, x) ∈ ps ∧ s.recon.view v = some V ∧ V.estimated = true) → setPoses orientations ps s = .abort := by
  induction ps with
  | nil => rintro s ⟨v, x, V, h, _⟩; cases h
  | cons q ps ih =>
    obtain ⟨v, x⟩ := q
    rintro s ⟨w, y, W, hw, hW, he⟩
    rw [setPoses]
    cases hV : s.recon.view v with
    | none =>
      apply ih s
      rcases List.mem_cons.1 hw with h | h
      · cases h; rw [hV] at hW; cases hW
      · exact ⟨w, y, W, h, hW, he⟩
    | some V =>
      simp only
      split
      · rfl
      · next hne =>
        have hwv : w ≠ v := by
          rintro rfl
          rw [hV] at hW
          cases Option.some.inj hW
          exact hne he
        have hw' : (w, y) ∈ ps := by
          rcases List.mem_cons.1 hw with h | h
          · cases h; exact absurd rfl hwv
          · exact h
        cases orientations.get v with
        | none => exact ih s ⟨w, y, W, hw', hW, he⟩
        | some o =>
          simp only [setViewEstimated_eq hV]
          apply ih
          refine ⟨w, y, W, hw', ?_, he⟩
          unfold Reconstruction.view
          simp only [AMap.get_insert]
          rw [if_neg hwv]
          exact hW

theorem correspondences_ok (V1 V2 : View F) (n1 n2 : F → N) (ts : List TrackId) : (∀ t ∈ ts, t ∈ V1.trackIds) →
    ∃ ms, correspondences V1 V2 n1 n2 ts = .ok ms ∧
      List.Forall₂ (fun m t => ∃ f1 f2, V1.getFeature t = some f1 ∧ V2.getFeature t = some f2 ∧ m = (n1 f1, n2 f2))
        ms (ts.filter fun t => (V2.getFeature t).isSome) := by
  induction ts with
  | nil => intro _; exact ⟨[], rfl, by simp⟩
  | cons t ts ih =>
    intro h
    obtain ⟨ms, h1, h2⟩ := ih fun u hu => h u (List.mem_cons_of_mem _ hu)
    rw [correspondences]
    cases hf2 : V2.getFeature t with
    | none => exact ⟨ms, h1, by rw [List.filter_cons_of_neg (by simp [hf2])]; exact h2⟩
    | some f2 =>
      obtain ⟨f1, hf1⟩ := AMap.mem_keys_iff.1 (h t List.mem_cons_self)
      have hf1' : V1.getFeature t = some f1 := hf1
      simp only [hf1', h1]
      refine ⟨_, rfl, ?_⟩
      rw [List.filter_cons_of_pos (by simp [hf2])]
      exact .cons ⟨f1, f2, hf1', hf2, rfl⟩ h2

/-- The task of an edge. -/
def IsTask (r : Reconstruction F P) (normalize : ViewId → F → N) (orientations : AMap ViewId O) (k : Task O N) : Prop :=
  ∃ V1 V2, r.view k.pair.1 = some V1 ∧ r.view k.pair.2 = some V2 ∧
    orientations.get k.pair.1 = some k.orientation1 ∧ orientations.get k.pair.2 = some k.orientation2 ∧
    List.Forall₂ (fun m t => ∃ f1 f2, V1.getFeature t = some f1 ∧ V2.getFeature t = some f2 ∧
      m = (normalize k.pair.1 f1, normalize k.pair.2 f2)) k.matches_ (commonTracks V1 V2)

theorem refineTasks_ok (r : Reconstruction F P) (normalize : ViewId → F → N) (orientations : AMap ViewId O)
    (es : List ((Nat × Nat) × I)) :
    (∀ e ∈ es, (∃ V, r.view e.1.1 = some V) ∧ (∃ V, r.view e.1.2 = some V) ∧ (∃ o, orientations.get e.1.1 = some o) ∧
      ∃ o, orientations.get e.1.2 = some o) →
    ∃ ts, refineTasks r normalize orientations es = .ok ts ∧ ts.map (·.pair) = es.map (·.1) ∧
      ∀ k ∈ ts, IsTask r normalize orientations k := by
  induction es with
  | nil => intro _; exact ⟨[], rfl, rfl, by simp⟩
  | cons e es ih =>
    obtain ⟨e, i⟩ := e
    intro h
    obtain ⟨⟨V1, h1⟩, ⟨V2, h2⟩, ⟨o1, h3⟩, ⟨o2, h4⟩⟩ := h (e, i) List.mem_cons_self
    simp only at h1 h2 h3 h4
    obtain ⟨ts, g1, g2, g3⟩ := ih fun e he => h e (List.mem_cons_of_mem _ he)
    obtain ⟨ms, m1, m2⟩ := correspondences_ok V1 V2 (normalize e.1) (normalize e.2) V1.trackIds (fun _ h => h)
    rw [refineTasks]
    simp only [h1, h2, m1, h3, h4, g1]
    refine ⟨_, rfl, by simp [g2], ?_⟩
    intro k hk
    rcases List.mem_cons.1 hk with rfl | hk
    · exact ⟨V1, V2, h1, h2, h3, h4, m2⟩
    · exact g3 k hk

theorem runTasks_ok (optimize : List (N × N) → O → O → I → I) (ks : List (Task O N)) : ∀ (g : ViewGraph I),
    g.Inv → (ks.map (·.pair)).Nodup → (∀ k ∈ ks, k.pair ∈ g.edges.keys) →
    (runTasks optimize ks g).vertices = g.vertices ∧
    (∀ k ∈ ks, ∀ i, g.edges.get k.pair = some i →
      (runTasks optimize ks g).edges.get k.pair = some (optimize k.matches_ k.orientation1 k.orientation2 i)) ∧
    ∀ p, p ∉ ks.map (·.pair) → (runTasks optimize ks g).edges.get p = g.edges.get p := by
  induction ks with
  | nil => intro g _ _ _; exact ⟨rfl, by simp, fun _ _ => rfl⟩
  | cons k ks ih =>
    intro g hg hnd hk
    rw [List.map_cons] at hnd
    obtain ⟨hnk, hnd⟩ := List.nodup_cons.1 hnd
    have hmem := hk k List.mem_cons_self
    obtain ⟨i, hi⟩ := AMap.mem_keys_iff.1 hmem
    have hlt := hg.lt _ hmem
    have hord : ordPair k.pair.1 k.pair.2 = k.pair := ordPair_of_lt hlt
    have hget : g.getEdge k.pair.1 k.pair.2 = some i := by
      unfold ViewGraph.getEdge
      rw [hord]
      exact hi
    rw [runTasks, hget]
    simp only
    obtain ⟨s1, s2, s3⟩ := ViewGraph.setEdge_spec hg k.pair.1 k.pair.2
      (optimize k.matches_ k.orientation1 k.orientation2 i)
    rw [hord] at s3
    obtain ⟨a1, a2, a3⟩ := ih _ s1 hnd (by
      intro k' hk'
      obtain ⟨j, hj⟩ := AMap.mem_keys_iff.1 (hk k' (List.mem_cons_of_mem _ hk'))
      refine AMap.mem_keys_iff.2 ?_
      rw [s3]
      split
      · exact ⟨_, by rw [hj]; rfl⟩
      · exact ⟨j, hj⟩)
    refine ⟨a1.trans s2, ?_, ?_⟩
    · intro k' hk' j hj
      rcases List.mem_cons.1 hk' with rfl | hk'
      · rw [hi] at hj
        cases Option.some.inj hj
        rw [a3 _ hnk, s3, if_pos rfl, hi]
        rfl
      · have hne : k'.pair ≠ k.pair := fun h => hnk (h ▸ List.mem_map_of_mem hk')
        exact a2 k' hk' j (by rw [s3, if_neg hne]; exact hj)
    · intro p hp
      simp only [List.map_cons, List.mem_cons, not_or] at hp
      rw [a3 p hp.2, s3, if_neg hp.1]

end EstimatorUtils
end Theia
